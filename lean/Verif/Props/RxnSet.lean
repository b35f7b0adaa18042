import Verif.Lemmas.RxnSet

/-! Properties C20-C24 and C27 of `ReactionSet` (src/rxn_network/reactions/reaction_set.py). -/

set_option linter.unusedSectionVars false

namespace Verif.Props.RxnSet
open Verif.Py Verif.Model.RxnSet Verif.Spec.RxnSet Verif.Lemmas.Dict Verif.Lemmas.Exc Verif.Lemmas.RxnSet

variable {η δ ε υ : Type} [DecidableEq η] [DecidableEq ε] [DecidableEq υ]

/-! ### C20 -/

/-- Storing reactions in a set and reading them back gives every reaction exactly once, with the same entries, coefficients
and data: grouped by size, in input order within each size, whatever order the entry set is iterated in. -/
theorem C20_lossless (uid : η → υ) (setOrder : List η → List η) (ho : SetOrder setOrder) (rxns : List (SRxn η δ ε))
    (hinj : ∀ r ∈ rxns, ∀ a ∈ r.entries, ∀ r' ∈ rxns, ∀ b ∈ r'.entries, uid a = uid b → a = b) (o : Option ε) (m : ℚ) :
    ∃ (s : RSet η δ ε) (out : List (SRxn η δ ε)) (sizes : List ℕ), fromRxns uid setOrder rxns none o m = .ok s ∧ getRxns s = .ok out ∧ sizes.Nodup ∧
      (∀ n, n ∈ sizes ↔ ∃ r ∈ rxns, r.entries.length = n) ∧
      out.map (fun r => (r.entries, r.coeffs, r.data))
        = (sizes.flatMap fun n => rxns.filter fun r => decide (r.entries.length = n)).map
            (fun r => (r.entries, r.coeffs, r.data)) ∧
      (out.map fun r => (r.entries, r.coeffs, r.data)).Perm (rxns.map fun r => (r.entries, r.coeffs, r.data)) := by
  obtain ⟨s, sizes, h1, h2, _, _, h5, h6, h7⟩ := fromRxns_ok uid setOrder ho rxns none o m
    (fun r hr e he => List.mem_flatMap.mpr ⟨r, hr, he⟩)
    (by
      intro a ha b hb
      obtain ⟨r, hr, ha⟩ := List.mem_flatMap.mp ha
      obtain ⟨r', hr', hb⟩ := List.mem_flatMap.mp hb
      exact hinj r hr a ha r' hr' b hb)
  have he : (stored s).map (fun r => (r.entries, r.coeffs, r.data))
      = (sizes.flatMap fun n => rxns.filter fun r => decide (r.entries.length = n)).map
            (fun r => (r.entries, r.coeffs, r.data)) := by
    rw [h7, List.map_flatMap, List.map_flatMap]
    simp only [List.map_map]
    rfl
  refine ⟨s, stored s, sizes, h1, getRxns_ok s h2, h5, h6, he, ?_⟩
  rw [he]
  apply List.Perm.map
  apply perm_flatMap_filter rxns (fun r => r.entries.length) sizes h5
  intro k
  rw [h6 k, List.mem_map]

/-- With an explicit non-empty entry list containing the reactions' entries the result is the same. -/
theorem C20_given_entries (uid : η → υ) (setOrder : List η → List η) (ho : SetOrder setOrder) (rxns : List (SRxn η δ ε))
    (es : List η) (hne : es ≠ []) (hsub : ∀ r ∈ rxns, ∀ e ∈ r.entries, e ∈ es)
    (hinj : ∀ a ∈ es, ∀ b ∈ es, uid a = uid b → a = b) (o : Option ε) (m : ℚ) :
    ∃ s out, fromRxns uid setOrder rxns (some es) o m = .ok s ∧ getRxns s = .ok out ∧
      (out.map fun r => (r.entries, r.coeffs, r.data)).Perm (rxns.map fun r => (r.entries, r.coeffs, r.data)) := by
  have hg : givenEntries rxns (some es) = es := by
    cases es with
    | nil => exact absurd rfl hne
    | cons e es => rfl
  obtain ⟨s, sizes, h1, h2, _, _, h5, h6, h7⟩ := fromRxns_ok uid setOrder ho rxns (some es) o m
    (by rw [hg]; exact hsub) (by rw [hg]; exact hinj)
  refine ⟨s, stored s, h1, getRxns_ok s h2, ?_⟩
  have he : (stored s).map (fun r => (r.entries, r.coeffs, r.data))
      = (sizes.flatMap fun n => rxns.filter fun r => decide (r.entries.length = n)).map
            (fun r => (r.entries, r.coeffs, r.data)) := by
    rw [h7, List.map_flatMap, List.map_flatMap]
    simp only [List.map_map]
    rfl
  rw [he]
  apply List.Perm.map
  apply perm_flatMap_filter rxns (fun r => r.entries.length) sizes h5
  intro k
  rw [h6 k, List.mem_map]

/-- **C20, entries that are not listed.** With an explicit nonempty entry list, a reaction that has an entry whose identifier no listed
entry has is rejected with `KeyError`; no set is made in which that phase is missing or replaced. -/
theorem C20_foreign_entry (uid : η → υ) (setOrder : List η → List η) (ho : SetOrder setOrder) (rxns : List (SRxn η δ ε)) (es : List η)
    (o : Option ε) (m : ℚ) (hes : es ≠ []) (r : SRxn η δ ε) (hr : r ∈ rxns) (e : η) (he : e ∈ r.entries) (hf : ∀ x ∈ es, uid x ≠ uid e) :
    fromRxns uid setOrder rxns (some es) o m = .error .keyError := by
  have hg : givenEntries rxns (some es) = es := by cases es with
    | nil => exact absurd rfl hes
    | cons a l => rfl
  have hk : ∀ (t : List (υ × ℕ)) (x : η) (err : Err), entryIdx uid t x = .error err → err = .keyError := by
    intro t x err h
    unfold entryIdx at h
    split at h
    · simp at h
    · exact (Except.error.inj h).symm
  unfold fromRxns
  rw [hg]
  generalize ht : dictOf ((setOrder es).zipIdx.map fun p => (uid p.1, p.2)) = t
  have h1 : entryIdx uid t e = .error .keyError := by
    unfold entryIdx
    cases hd : dictGet t (uid e) with
    | none => rfl
    | some i =>
      exfalso
      rw [← ht] at hd
      have h3 := mem_dictOf _ _ (mem_of_dictGet _ _ _ hd)
      obtain ⟨⟨x, n⟩, hx, hx'⟩ := List.mem_map.mp h3
      simp only [Prod.mk.injEq] at hx'
      rw [List.mk_mem_zipIdx_iff_getElem?] at hx
      exact hf x (((ho es).2 x).mp (List.mem_of_getElem? hx)) hx'.1
  obtain ⟨x1, h2⟩ := mapM_exists_error (entryIdx uid t) r.entries e he _ h1
  obtain ⟨x2, h4⟩ := mapM_exists_error (rowOf uid t) rxns r hr _ h2
  obtain ⟨r', -, h5⟩ := mapM_error _ _ _ h4
  obtain ⟨y, -, h6⟩ := mapM_error _ _ _ h5
  rw [hk _ _ _ h6, ← ht] at h4
  simp only [h4]
  rfl

example : fromRxns id List.dedup [(⟨[3, 2], [-1, 1], 4, []⟩ : SRxn ℕ ℕ ℕ), ⟨[3, 5], [-1, 1], 4, []⟩] (some [1, 2, 3]) none 0 = .error .keyError :=
  C20_foreign_entry id List.dedup (fun l => ⟨List.nodup_dedup l, fun _ => List.mem_dedup⟩) _ [1, 2, 3] none 0 (by decide)
    ⟨[3, 5], [-1, 1], 4, []⟩ (by decide) 5 (by decide) (by decide)

/-- Closed reactions come back closed, and open reactions that share one open element and chemical potential come back with
it: the output is a permutation of the input. -/
theorem C20_chempots (uid : η → υ) (setOrder : List η → List η) (ho : SetOrder setOrder) (rxns : List (SRxn η δ ε))
    (hinj : ∀ r ∈ rxns, ∀ a ∈ r.entries, ∀ r' ∈ rxns, ∀ b ∈ r'.entries, uid a = uid b → a = b) (m : ℚ)
    (mu : List (ε × ℚ)) (hmu : mu = [] ∨ ∃ e v, mu = [(e, v)]) (hall : ∀ r ∈ rxns, r.chempots = mu) :
    ∃ s out, fromRxns uid setOrder rxns none none m = .ok s ∧ getRxns s = .ok out ∧ out.Perm rxns := by
  obtain ⟨s, sizes, h1, h2, _, h4, h5, h6, h7⟩ := fromRxns_ok uid setOrder ho rxns none none m
    (fun r hr e he => List.mem_flatMap.mpr ⟨r, hr, he⟩)
    (by
      intro a ha b hb
      obtain ⟨r, hr, ha⟩ := List.mem_flatMap.mp ha
      obtain ⟨r', hr', hb⟩ := List.mem_flatMap.mp hb
      exact hinj r hr a ha r' hr' b hb)
  refine ⟨s, stored s, h1, getRxns_ok s h2, ?_⟩
  have hperm : (sizes.flatMap fun n => rxns.filter fun r => decide (r.entries.length = n)).Perm rxns := by
    apply perm_flatMap_filter rxns (fun r => r.entries.length) sizes h5
    intro k
    rw [h6 k, List.mem_map]
  cases hr : rxns with
  | nil =>
    rw [h7]
    have : sizes = [] := by
      apply List.eq_nil_iff_forall_not_mem.mpr
      intro n hn
      obtain ⟨r, hr', _⟩ := (h6 n).mp hn
      rw [hr] at hr'; simp at hr'
    rw [this]; exact List.Perm.refl _
  | cons r0 rest =>
    have hmu' : muDict s = mu := by
      have hr0 : r0 ∈ rxns := by rw [hr]; exact List.mem_cons_self
      rcases hmu with rfl | ⟨e, v, rfl⟩
      · have hd : detectOpen rxns (none : Option ε) m = (none, m) := by
          unfold detectOpen
          rw [if_neg]
          intro h
          rw [Bool.and_eq_true, List.all_eq_true] at h
          have := h.1 r0 hr0
          rw [hall r0 hr0] at this
          simp at this
        rw [hd, Prod.mk.injEq] at h4
        unfold muDict
        rw [h4.1]
      · have hd : detectOpen rxns (none : Option ε) m = (some e, v) := by
          have hfm : ∀ l : List (SRxn η δ ε), (∀ r ∈ l, r.chempots = [(e, v)]) →
              l.flatMap (fun r => r.chempots) = List.replicate l.length (e, v) := by
            intro l
            induction l with
            | nil => intro _; rfl
            | cons x l ih =>
              intro h
              rw [List.flatMap_cons, h x List.mem_cons_self, ih fun r hr => h r (List.mem_cons_of_mem _ hr)]
              rfl
          unfold detectOpen
          rw [if_pos]
          · rw [hfm rxns hall, hr]
            simp only [List.length_cons, List.map_replicate, List.replicate_dedup (Nat.succ_ne_zero _)]
          · rw [Bool.and_eq_true, List.all_eq_true]
            refine ⟨?_, rfl⟩
            intro r hr'
            rw [hall r hr']
            simp
        rw [hd, Prod.mk.injEq] at h4
        unfold muDict
        rw [h4.1, h4.2]
    rw [← hr, h7, hmu']
    refine List.Perm.trans (List.Perm.of_eq ?_) hperm
    rw [List.flatMap_def, List.flatMap_def]
    congr 1
    apply List.map_congr_left
    intro n _
    conv_rhs => rw [← List.map_id (rxns.filter fun r => decide (r.entries.length = n))]
    apply List.map_congr_left
    intro r hr'
    have := hall r (List.mem_filter.mp hr').1
    rw [← this]
    rfl

/-- two open reactions at different chemical potentials of the same element (entries `1`, `2`, `3`; element `0`) -/
def openA : SRxn ℕ ℕ ℕ := ⟨[1, 2], [-1, 1], 7, [(0, -1)]⟩
def openB : SRxn ℕ ℕ ℕ := ⟨[2, 3], [-1, 2], 8, [(0, -2)]⟩
def closedA : SRxn ℕ ℕ ℕ := ⟨[1, 2], [-1, 1], 7, []⟩
def closedB : SRxn ℕ ℕ ℕ := ⟨[1, 3, 2], [-1, -1, 1], 9, []⟩
def closedC : SRxn ℕ ℕ ℕ := ⟨[3, 2], [-1, 2], 5, []⟩

/-- Reactions with different chemical potentials silently come back as closed reactions. -/
theorem C20_mixed_chempot_counterexample :
    (fromRxns id List.dedup [openA, openB] none none 0 >>= getRxns)
      = .ok [{ openA with chempots := [] }, { openB with chempots := [] }] := by decide +kernel

theorem setOrder_dedup {α : Type} [DecidableEq α] : SetOrder (List.dedup : List α → List α) :=
  fun l => ⟨List.nodup_dedup l, fun _ => List.mem_dedup⟩

example : SetOrder (List.dedup : List ℕ → List ℕ) := setOrder_dedup
example : (fromRxns id List.dedup [closedA, closedB, closedC] none none 0 >>= getRxns)
    = .ok [closedA, closedC, closedB] := by decide +kernel
example : (fromRxns id List.dedup [openA, openA] none none 0 >>= getRxns) = .ok [openA, openA] := by decide +kernel

/-! ### C21 -/

/-- Sets obtained from `from_rxns` by the set-valued operations of the class. -/
inductive Built : RSet η δ ε → Prop
  | fromRxns {υ : Type} [DecidableEq υ] (uid : η → υ) (so : List η → List η) (rxns : List (SRxn η δ ε)) (es : Option (List η))
      (o : Option ε) (m : ℚ) (s : RSet η δ ε) : SetOrder so → Model.RxnSet.fromRxns uid so rxns es o m = .ok s → Built s
  | add (so : List ℕ → List ℕ) (a b s : RSet η δ ε) : SetOrder so → Built a → Built b → addRxnSet so a b = .ok s → Built s
  | setChempot (s : RSet η δ ε) (o : Option ε) (m : Option ℚ) : Built s → Built (Model.RxnSet.setChempot s o m)
  | select (s s' : RSet η δ ε) (idxs : List (ℕ × List ℕ)) : Built s → (idxs.map Prod.fst).Nodup →
      setByIndices s idxs = .ok s' → Built s'

theorem setByIndices_cond (s s' : RSet η δ ε) (idxs : List (ℕ × List ℕ)) (hs : setByIndices s idxs = .ok s') :
    ∀ q ∈ idxs, q.1 ∈ s.indices.map Prod.fst ∧ ∀ i ∈ q.2, i < (rowsAt s q.1).length := by
  intro q hq
  unfold setByIndices at hs
  rw [bind_ok] at hs
  obtain ⟨i, hi, _⟩ := hs
  unfold pickDict at hi
  have hno : ∀ e, (do return (q.1, ← pick (← getKey s.indices q.1) q.2) : Except Err (ℕ × List (List ℕ))) ≠ .error e := by
    intro e he
    obtain ⟨e', he'⟩ := mapM_exists_error (fun p : ℕ × List ℕ => (do return (p.1, ← pick (← getKey s.indices p.1) p.2) : Except Err (ℕ × List (List ℕ)))) idxs q hq e he
    rw [hi] at he'; simp at he'
  cases hk : getKey s.indices q.1 with
  | error e => exact absurd (by rw [hk]; rfl) (hno e)
  | ok rows =>
    have hd := getKey_ok _ _ _ hk
    have hmem : q.1 ∈ s.indices.map Prod.fst := by
      by_contra hcon
      rw [(dictGet_eq_none _ _).mpr hcon] at hd
      simp at hd
    refine ⟨hmem, ?_⟩
    have hr : rowsAt s q.1 = rows := by unfold rowsAt; rw [hd]; rfl
    rw [hr]
    intro j hj
    by_contra hcon
    have herr : getIdx rows j = .error .indexError := by
      unfold getIdx
      rw [List.getElem?_eq_none (by omega)]
    obtain ⟨e', he'⟩ := mapM_exists_error (getIdx rows) q.2 j hj _ herr
    exact hno e' (by rw [hk]; simp only [bind, Except.bind]; unfold pick; rw [he'])

theorem built_wf (s : RSet η δ ε) (h : Built s) : WF s := by
  induction h with
  | fromRxns uid so rxns es o m s ho h => exact fromRxns_wf uid so ho rxns es o m s h
  | add so a b s ho _ _ h ha hb =>
    have he : a.entries = b.entries := by
      by_contra hcon
      unfold addRxnSet at h
      rw [if_pos hcon] at h
      simp at h
    rw [addRxnSet_ok so ho a b ha hb he] at h
    rw [← Except.ok.inj h]
    exact wf_merge so ho a b ha hb he
  | setChempot s o m _ h => exact ⟨h.keys, h.coeffs, h.data, h.valid, h.sized, h.nodup⟩
  | select s s' idxs _ hn hs h =>
    have hc := setByIndices_cond s s' idxs hs
    rw [setByIndices_ok s h idxs hc] at hs
    rw [← Except.ok.inj hs]
    exact wf_select s h idxs hn fun q hq => (hc q hq).1

/-- For every set obtained from `from_rxns`, merging, selecting and changing the chemical potential, iteration succeeds and
yields `len(set)` reactions. Missing for the full statement: sets constructed directly without data. -/
theorem C21_len_partial (s : RSet η δ ε) (h : Built s) : ∃ out, getRxns s = .ok out ∧ out.length = len s :=
  ⟨stored s, getRxns_ok s (built_wf s h), length_stored s (built_wf s h)⟩

/-- A set constructed without `all_data` reports its length correctly but yields nothing. -/
theorem C21_no_data_counterexample :
    let s : RSet ℕ ℕ ℕ := mk [1, 2] [(2, [[0, 1]])] [(2, [[-1, 1]])] none 0 none
    len s = 1 ∧ getRxns s = .ok [] := by decide +kernel

example : ∃ s : RSet ℕ ℕ ℕ, Built s ∧ len s = 3 := by
  refine ⟨⟨[1, 3, 2], [(2, [[0, 2], [1, 2]]), (3, [[0, 1, 2]])], [(2, [[-1, 1], [-1, 2]]), (3, [[-1, -1, 1]])],
    [(2, [7, 5]), (3, [9])], none, 0⟩, .fromRxns id List.dedup [closedA, closedB, closedC] none none 0 _ setOrder_dedup ?_, ?_⟩
  · decide +kernel
  · decide

/-! ### C22 -/

/-- Merging two sets over the same entries and at the same chemical potential yields exactly the reactions of both, whatever
order the sizes are iterated in. Missing for the full statement: sets at different chemical potentials. -/
theorem C22_union_partial (so : List ℕ → List ℕ) (ho : SetOrder so) (a b : RSet η δ ε) (ha : Built a) (hb : Built b)
    (he : a.entries = b.entries) (hmu : a.openElem = b.openElem ∧ a.chempot = b.chempot) :
    ∃ s la lb l, addRxnSet so a b = .ok s ∧ getRxns a = .ok la ∧ getRxns b = .ok lb ∧ getRxns s = .ok l ∧
      l.Perm (la ++ lb) ∧ s.entries = a.entries ∧ s.openElem = a.openElem ∧ s.chempot = a.chempot := by
  have wa := built_wf a ha
  have wb := built_wf b hb
  have ws := wf_merge so ho a b wa wb he
  refine ⟨_, stored a, stored b, _, addRxnSet_ok so ho a b wa wb he, getRxns_ok a wa, getRxns_ok b wb, getRxns_ok _ ws, ?_, rfl, rfl, rfl⟩
  rw [stored_ofDict _ _ _ _ (by rw [List.map_map]; exact (List.map_id' _).symm ▸ (ho _).1), List.flatMap_map]
  set s := ofDict a.entries
      ((so (a.indices.map Prod.fst ++ b.indices.map Prod.fst)).map fun n => (n, tripOr a n ++ tripOr b n))
      a.openElem a.chempot
  have e1 : toRxn s = toRxn a := rfl
  have e2 : toRxn s = toRxn b := by
    funext t
    show toRxn a t = toRxn b t
    unfold toRxn muDict
    rw [he, hmu.1, hmu.2]
  simp only [List.map_append]
  refine (List.flatMap_append_perm _ _ _).symm.trans ?_
  refine List.Perm.append ?_ ?_
  · rw [e1, stored_eq a wa]
    exact flatMap_or a wa _ (ho _).1 (fun n hn => ((ho _).2 n).mpr (List.mem_append_left _ hn)) _
  · rw [e2, stored_eq b wb]
    exact flatMap_or b wb _ (ho _).1 (fun n hn => ((ho _).2 n).mpr (List.mem_append_right _ hn)) _

/-- Commutative up to the order in which reactions are yielded. -/
theorem C22_comm_partial (so so' : List ℕ → List ℕ) (ho : SetOrder so) (ho' : SetOrder so') (a b : RSet η δ ε) (ha : Built a)
    (hb : Built b) (he : a.entries = b.entries) (hmu : a.openElem = b.openElem ∧ a.chempot = b.chempot) :
    ∃ l l', (addRxnSet so a b >>= getRxns) = .ok l ∧ (addRxnSet so' b a >>= getRxns) = .ok l' ∧ l.Perm l' := by
  obtain ⟨s, la, lb, l, h1, h2, h3, h4, h5, _⟩ := C22_union_partial so ho a b ha hb he hmu
  obtain ⟨s', lb', la', l', k1, k2, k3, k4, k5, _⟩ := C22_union_partial so' ho' b a hb ha he.symm ⟨hmu.1.symm, hmu.2.symm⟩
  refine ⟨l, l', by rw [h1]; exact h4, by rw [k1]; exact k4, ?_⟩
  rw [h2] at k3; rw [h3] at k2
  rw [Except.ok.injEq] at k2 k3
  subst k2; subst k3
  exact h5.trans (List.perm_append_comm.trans k5.symm)

/-- Associative up to the order in which reactions are yielded. -/
theorem C22_assoc_partial (so : List ℕ → List ℕ) (ho : SetOrder so) (a b c : RSet η δ ε) (ha : Built a) (hb : Built b)
    (hc : Built c) (he : a.entries = b.entries) (he' : b.entries = c.entries)
    (hmu : a.openElem = b.openElem ∧ a.chempot = b.chempot) (hmu' : b.openElem = c.openElem ∧ b.chempot = c.chempot) :
    ∃ ab bc l l', addRxnSet so a b = .ok ab ∧ addRxnSet so b c = .ok bc ∧ (addRxnSet so ab c >>= getRxns) = .ok l ∧
      (addRxnSet so a bc >>= getRxns) = .ok l' ∧ l.Perm l' := by
  obtain ⟨ab, la, lb, lab, h1, h2, h3, h4, h5, h6, h7, h8⟩ := C22_union_partial so ho a b ha hb he hmu
  obtain ⟨bc, lb', lc, lbc, k1, k2, k3, k4, k5, k6, k7, k8⟩ := C22_union_partial so ho b c hb hc he' hmu'
  obtain ⟨x, lab', lc', l, x1, x2, x3, x4, x5, _⟩ := C22_union_partial so ho ab c (.add so a b ab ho ha hb h1) hc
    (by rw [h6, he, he']) ⟨by rw [h7, hmu.1, hmu'.1], by rw [h8, hmu.2, hmu'.2]⟩
  obtain ⟨y, la', lbc', l', y1, y2, y3, y4, y5, _⟩ := C22_union_partial so ho a bc ha (.add so b c bc ho hb hc k1)
    (by rw [k6, he]) ⟨by rw [k7, hmu.1], by rw [k8, hmu.2]⟩
  refine ⟨ab, bc, l, l', h1, k1, by rw [x1]; exact x4, by rw [y1]; exact y4, ?_⟩
  have q1 : lab' = lab := by rw [h4] at x2; exact (Except.ok.inj x2).symm
  have q2 : lc' = lc := by rw [k3] at x3; exact (Except.ok.inj x3).symm
  have q3 : la' = la := by rw [h2] at y2; exact (Except.ok.inj y2).symm
  have q4 : lbc' = lbc := by rw [k4] at y3; exact (Except.ok.inj y3).symm
  have q5 : lb' = lb := by rw [h3] at k2; exact (Except.ok.inj k2).symm
  subst q1 q2 q3 q4 q5
  refine x5.trans ?_
  refine (List.Perm.append_right _ h5).trans ?_
  rw [List.append_assoc]
  exact (List.Perm.append_left _ k5.symm).trans y5.symm

/-- Sets over different entries are rejected. -/
theorem C22_rejects (so : List ℕ → List ℕ) (a b : RSet η δ ε) (h : a.entries ≠ b.entries) :
    addRxnSet so a b = .error .valueError := by
  unfold addRxnSet; rw [if_pos h]

/-- Merging sets at different chemical potentials silently moves the reactions of the second operand to the first operand's
chemical potential: the result is not the union and depends on the order of the operands. -/
theorem C22_chempot_counterexample :
    let a : RSet ℕ ℕ ℕ := mk [1, 2] [(2, [[0, 1]])] [(2, [[-1, 1]])] (some 0) (-1) (some [(2, [7])])
    let b : RSet ℕ ℕ ℕ := mk [1, 2] [(2, [[1, 0]])] [(2, [[-1, 1]])] none 0 (some [(2, [8])])
    (addRxnSet List.dedup a b >>= getRxns) = .ok [⟨[1, 2], [-1, 1], 7, [(0, -1)]⟩, ⟨[2, 1], [-1, 1], 8, [(0, -1)]⟩] ∧
    (addRxnSet List.dedup b a >>= getRxns) = .ok [⟨[2, 1], [-1, 1], 8, []⟩, ⟨[1, 2], [-1, 1], 7, []⟩] := by decide +kernel

/-- A concrete merge meeting the hypotheses. -/
example :
    let a : RSet ℕ ℕ ℕ := mk [1, 2] [(2, [[0, 1]])] [(2, [[-1, 1]])] none 0 (some [(2, [7])])
    let b : RSet ℕ ℕ ℕ := mk [1, 2] [(2, [[1, 0]])] [(2, [[-1, 1]])] none 0 (some [(2, [8])])
    (addRxnSet List.dedup a b >>= getRxns) = .ok [⟨[1, 2], [-1, 1], 7, []⟩, ⟨[2, 1], [-1, 1], 8, []⟩] ∧ a.entries = b.entries ∧
    Model.RxnSet.fromRxns id List.dedup [⟨[1, 2], [-1, 1], 7, []⟩] none none 0 = .ok a := by decide +kernel

/-! ### C23, C24 -/

theorem mem_positions (es : List η) (p : η → Bool) (i : ℕ) : i ∈ positions es p ↔ ∃ e, es[i]? = some e ∧ p e = true := by
  unfold positions
  constructor
  · intro h
    obtain ⟨⟨e, j⟩, hq, rfl⟩ := List.mem_map.mp h
    rw [List.mem_filter, List.mem_zipIdx_iff_getElem?] at hq
    exact ⟨e, hq.1, hq.2⟩
  · rintro ⟨e, he, hp⟩
    refine List.mem_map.mpr ⟨(e, i), List.mem_filter.mpr ⟨?_, hp⟩, rfl⟩
    rw [List.mem_zipIdx_iff_getElem?]
    exact he

theorem zip_entries (es : List η) (row : List ℕ) (cs : List ℚ) (h : ∀ i ∈ row, i < es.length) (e : η) (c : ℚ) :
    (e, c) ∈ (row.filterMap fun i => es[i]?).zip cs ↔ ∃ i, (i, c) ∈ row.zip cs ∧ es[i]? = some e := by
  induction row generalizing cs with
  | nil => simp
  | cons i row ih =>
    have hi := h i List.mem_cons_self
    rw [List.filterMap_cons, List.getElem?_eq_getElem hi]
    cases cs with
    | nil => simp
    | cons c' cs =>
      simp only [List.zip_cons_cons, List.mem_cons, Prod.mk.injEq]
      rw [ih cs fun j hj => h j (List.mem_cons_of_mem _ hj)]
      constructor
      · rintro (⟨rfl, rfl⟩ | ⟨j, hj, hj'⟩)
        · exact ⟨i, Or.inl ⟨rfl, rfl⟩, List.getElem?_eq_getElem hi⟩
        · exact ⟨j, Or.inr hj, hj'⟩
      · rintro ⟨j, ⟨rfl, rfl⟩ | hj, hj'⟩
        · rw [List.getElem?_eq_getElem hi] at hj'
          exact Or.inl ⟨(Option.some.inj hj').symm, rfl⟩
        · exact Or.inr ⟨j, hj, hj'⟩

theorem mem_swap (row : List ℕ) (cs : List ℚ) (i : ℕ) (c : ℚ) : (c, i) ∈ cs.zip row ↔ (i, c) ∈ row.zip cs := by
  induction row generalizing cs with
  | nil => simp
  | cons a row ih =>
    cases cs with
    | nil => simp
    | cons b cs => simp only [List.zip_cons_cons, List.mem_cons, Prod.mk.injEq, ih cs, and_comm]

/-- Entries consumed by a reaction. -/
def consumes (r : SRxn η δ ε) (e : η) : Prop := ∃ c, (e, c) ∈ r.entries.zip r.coeffs ∧ c < 0

/-- Entries produced by a reaction. -/
def produces (r : SRxn η δ ε) (e : η) : Prop := ∃ c, (e, c) ∈ r.entries.zip r.coeffs ∧ 0 < c

theorem flatMap_filter_map (s : RSet η δ ε) (h : WF s) (test : List ℕ → List ℚ → Bool) (P : SRxn η δ ε → Prop)
    [DecidablePred P] (hP : ∀ n ∈ s.indices.map Prod.fst, ∀ t ∈ tripAt s n, test t.1 t.2.1 = true ↔ P (toRxn s t)) :
    ((s.indices.map Prod.fst).flatMap fun n => ((tripAt s n).filter fun t => test t.1 t.2.1).map (toRxn s))
      = (stored s).filter fun r => decide (P r) := by
  rw [stored_eq s h, List.filter_flatMap, List.flatMap_def, List.flatMap_def]
  congr 1
  apply List.map_congr_left
  intro n hn
  rw [List.filter_map]
  congr 1
  apply List.filter_congr
  intro t ht
  simp only [Function.comp]
  rw [Bool.eq_iff_iff, decide_eq_true_iff]
  exact hP n hn t ht

/-- The query returns exactly the stored reactions all of whose consumed entries are requested, in storage order, provided
every reaction consumes something and no coefficient lies in `[0, 1e-12)`. -/
theorem C23_exact_partial (s : RSet η δ ε) (hs : Built s) (inR : η → Bool) (all : List (SRxn η δ ε)) (hall : getRxns s = .ok all)
    (hne : ∀ r ∈ all, ∃ e, consumes r e) (hz : ∀ r ∈ all, ∀ p ∈ r.entries.zip r.coeffs, p.2 < 0 ∨ 1 / 1000000000000 ≤ p.2)
    [DecidablePred fun r : SRxn η δ ε => ∀ e, consumes r e → inR e = true] :
    byReactants s inR = .ok (all.filter fun r => decide (∀ e, consumes r e → inR e = true)) := by
  have w := built_wf s hs
  rw [getRxns_ok s w] at hall
  have hall := Except.ok.inj hall
  subst hall
  unfold byReactants
  by_cases h0 : positions s.entries inR = []
  · rw [if_pos h0]
    congr 1
    symm
    rw [List.filter_eq_nil_iff]
    intro r hr hd
    have hd := of_decide_eq_true hd
    obtain ⟨e, he⟩ := hne r hr
    have hin := hd e he
    obtain ⟨c, hc, _⟩ := he
    have hmem : e ∈ s.entries := by
      have h1 := (List.of_mem_zip hc).1
      unfold stored at hr
      obtain ⟨p, _, hr⟩ := List.mem_flatMap.mp hr
      obtain ⟨t, _, rfl⟩ := List.mem_map.mp hr
      obtain ⟨i, _, hi⟩ := List.mem_filterMap.mp h1
      exact List.mem_of_getElem? hi
    obtain ⟨i, hi, rfl⟩ := List.getElem_of_mem hmem
    have : i ∈ positions s.entries inR := (mem_positions _ _ _).mpr ⟨_, List.getElem?_eq_getElem hi, hin⟩
    rw [h0] at this
    simp at this
  · rw [if_neg h0, select_ok s w]
    congr 1
    apply flatMap_filter_map s w
    intro n hn t ht
    have hmem : toRxn s t ∈ stored s := by
      rw [stored_eq s w]
      exact List.mem_flatMap.mpr ⟨n, hn, List.mem_map.mpr ⟨t, ht, rfl⟩⟩
    have hval := tripAt_valid s w n hn t ht
    unfold reactantTest
    rw [Bool.and_eq_true, List.any_eq_true, List.all_eq_true]
    constructor
    · rintro ⟨_, h2⟩ e ⟨c, hc, hneg⟩
      obtain ⟨i, hi, hie⟩ := (zip_entries s.entries t.1 t.2.1 hval e c).mp hc
      have h3 := h2 (c, i) (List.mem_filter.mpr ⟨(mem_swap _ _ _ _).mpr hi, decide_eq_true (lt_trans hneg (by norm_num))⟩)
      obtain ⟨e', he', hp⟩ := (mem_positions _ _ _).mp (of_decide_eq_true h3)
      rw [hie] at he'
      rw [Option.some.inj he']; exact hp
    · intro hP
      have key : ∀ i c, (i, c) ∈ t.1.zip t.2.1 → c < 1 / 1000000000000 → i ∈ positions s.entries inR ∧ c < 0 := by
        intro i c hi hc
        have hi' := hval i (List.of_mem_zip hi).1
        have hz' : (s.entries[i], c) ∈ (toRxn s t).entries.zip (toRxn s t).coeffs :=
          (zip_entries s.entries t.1 t.2.1 hval _ c).mpr ⟨i, hi, List.getElem?_eq_getElem hi'⟩
        have hneg : c < 0 := by
          rcases hz _ hmem _ hz' with h | h
          · exact h
          · exact absurd hc (not_lt.mpr h)
        exact ⟨(mem_positions _ _ _).mpr ⟨_, List.getElem?_eq_getElem hi', hP _ ⟨c, hz', hneg⟩⟩, hneg⟩
      refine ⟨?_, ?_⟩
      · obtain ⟨e, c, hc, hneg⟩ := hne _ hmem
        obtain ⟨i, hi, _⟩ := (zip_entries s.entries t.1 t.2.1 hval e c).mp hc
        exact ⟨i, (List.of_mem_zip hi).1, decide_eq_true (key i c hi (lt_trans hneg (by norm_num))).1⟩
      · rintro ⟨c, i⟩ hp
        rw [List.mem_filter] at hp
        exact decide_eq_true (key i c ((mem_swap _ _ _ _).mp hp.1) (of_decide_eq_true hp.2)).1

/-- A reaction in which a third phase has coefficient zero is not returned although all its reactants are requested. -/
theorem C23_zero_coefficient_counterexample :
    let s : RSet ℕ ℕ ℕ := mk [1, 2, 3] [(3, [[0, 1, 2]])] [(3, [[-1, 1, 0]])] none 0 (some [(3, [7])])
    getRxns s = .ok [⟨[1, 2, 3], [-1, 1, 0], 7, []⟩] ∧ byReactants s (fun e => decide (e = 1)) = .ok [] := by decide +kernel

example :
    let s : RSet ℕ ℕ ℕ := mk [1, 2, 3] [(3, [[0, 1, 2], [0, 2, 1]])] [(3, [[-1, -1, 1], [-1, 1, 1]])] none 0 (some [(3, [7, 8])])
    byReactants s (fun e => decide (e = 1)) = .ok [⟨[1, 3, 2], [-1, 1, 1], 8, []⟩] := by decide +kernel

/-- When exactly one entry matches, it is not the first entry of the set, and no coefficient lies in `(-1e-12, 0]`, the query
returns exactly the stored reactions that produce it. -/
theorem C24_exact_partial (s : RSet η δ ε) (hs : Built s) (isP : η → Bool) (all : List (SRxn η δ ε)) (hall : getRxns s = .ok all)
    (k : ℕ) (hk : s.entries.findIdx? isP = some (k + 1))
    (huniq : ∀ i e, s.entries[i]? = some e → isP e = true → i = k + 1)
    (hz : ∀ r ∈ all, ∀ p ∈ r.entries.zip r.coeffs, p.2 ≤ -(1 / 1000000000000) ∨ 0 < p.2)
    [DecidablePred fun r : SRxn η δ ε => ∃ e, produces r e ∧ isP e = true] :
    byProduct s isP = .ok (all.filter fun r => decide (∃ e, produces r e ∧ isP e = true)) := by
  have w := built_wf s hs
  rw [getRxns_ok s w] at hall
  have hall := Except.ok.inj hall
  subst hall
  have hkP : ∃ e, s.entries[k + 1]? = some e ∧ isP e = true := by
    rw [List.findIdx?_eq_some_iff_getElem] at hk
    obtain ⟨h1, h2, _⟩ := hk
    exact ⟨_, List.getElem?_eq_getElem h1, h2⟩
  unfold byProduct
  rw [hk]
  simp only
  rw [select_ok s w]
  congr 1
  apply flatMap_filter_map s w
  intro n hn t ht
  have hmem : toRxn s t ∈ stored s := by
    rw [stored_eq s w]
    exact List.mem_flatMap.mpr ⟨n, hn, List.mem_map.mpr ⟨t, ht, rfl⟩⟩
  have hval := tripAt_valid s w n hn t ht
  unfold productTest
  rw [Bool.and_eq_true, List.any_eq_true, List.any_eq_true]
  constructor
  · rintro ⟨_, ⟨⟨c, i⟩, hp, hi⟩⟩
    rw [List.mem_filter] at hp
    have hi := of_decide_eq_true hi
    simp only at hi
    subst hi
    obtain ⟨e, he, hpe⟩ := hkP
    have hzip : (e, c) ∈ (toRxn s t).entries.zip (toRxn s t).coeffs :=
      (zip_entries s.entries t.1 t.2.1 hval e c).mpr ⟨k + 1, (mem_swap _ _ _ _).mp hp.1, he⟩
    refine ⟨e, ⟨c, hzip, ?_⟩, hpe⟩
    rcases hz _ hmem _ hzip with h | h
    · exact absurd (of_decide_eq_true hp.2) (not_lt.mpr h)
    · exact h
  · rintro ⟨e, ⟨c, hc, hpos⟩, hpe⟩
    obtain ⟨i, hi, hie⟩ := (zip_entries s.entries t.1 t.2.1 hval e c).mp hc
    have hik := huniq i e hie hpe
    subst hik
    refine ⟨⟨k + 1, (List.of_mem_zip hi).1, decide_eq_true rfl⟩, ⟨(c, k + 1), List.mem_filter.mpr ⟨(mem_swap _ _ _ _).mpr hi, ?_⟩, decide_eq_true rfl⟩⟩
    exact decide_eq_true (lt_trans (by norm_num) hpos)

/-- Nothing is found for the phase that happens to be stored first. -/
theorem C24_first_entry_counterexample :
    let s : RSet ℕ ℕ ℕ := mk [1, 2] [(2, [[1, 0]])] [(2, [[-1, 1]])] none 0 (some [(2, [7])])
    getRxns s = .ok [⟨[2, 1], [-1, 1], 7, []⟩] ∧ byProduct s (fun e => decide (e = 1)) = .ok [] := by decide +kernel

/-- Only the first of several entries with the requested formula is searched (entries `2` and `3` match). -/
theorem C24_polymorph_counterexample :
    let s : RSet ℕ ℕ ℕ := mk [1, 2, 3] [(2, [[0, 1], [0, 2]])] [(2, [[-1, 1], [-1, 1]])] none 0 (some [(2, [7, 8])])
    byProduct s (fun e => decide (e = 2 ∨ e = 3)) = .ok [⟨[1, 2], [-1, 1], 7, []⟩] := by decide +kernel

/-- A phase with coefficient zero counts as a product. -/
theorem C24_zero_coefficient_counterexample :
    let s : RSet ℕ ℕ ℕ := mk [1, 2, 3] [(3, [[0, 1, 2]])] [(3, [[-1, 1, 0]])] none 0 (some [(3, [7])])
    byProduct s (fun e => decide (e = 3)) = .ok [⟨[1, 2, 3], [-1, 1, 0], 7, []⟩] := by decide +kernel

example :
    let s : RSet ℕ ℕ ℕ := mk [1, 2, 3] [(2, [[0, 1], [2, 1], [1, 2]])] [(2, [[-1, 1], [-1, 1], [-1, 2]])] none 0 (some [(2, [7, 8, 9])])
    s.entries.findIdx? (fun e => decide (e = 2)) = some (0 + 1) ∧
    byProduct s (fun e => decide (e = 2)) = .ok [⟨[1, 2], [-1, 1], 7, []⟩, ⟨[3, 2], [-1, 1], 8, []⟩] := by decide +kernel

/-! ### C27 -/

/-- Without polymorphs (no two entries of the set with the same composition) every reaction keeps its coefficients, data and
chemical potentials and gets, for each of its entries, that entry at the new temperature. -/
theorem C27_partial {κ : Type} [DecidableEq κ] (uid : η → υ) (setOrder : List η → List η) (ho : SetOrder setOrder)
    (comp : η → κ) (atT : η → η) (s : RSet η δ ε) (hs : Built s) (all : List (SRxn η δ ε)) (hall : getRxns s = .ok all)
    (hcomp : (s.entries.map comp).Nodup) (huid : ∀ a ∈ s.entries, ∀ b ∈ s.entries, uid (atT a) = uid (atT b) → atT a = atT b) :
    ∃ s' out, setNewTemperature uid setOrder comp atT s = .ok s' ∧ getRxns s' = .ok out ∧ len s' = len s ∧
      out.Perm (all.map fun r => { r with entries := r.entries.map atT }) := by
  have w := built_wf s hs
  rw [getRxns_ok s w] at hall
  have hall' := Except.ok.inj hall
  subst hall'
  have hmemE : ∀ r ∈ stored s, ∀ e ∈ r.entries, e ∈ s.entries := by
    intro r hr e he
    unfold stored at hr
    obtain ⟨p, _, hr⟩ := List.mem_flatMap.mp hr
    obtain ⟨t, _, rfl⟩ := List.mem_map.mp hr
    obtain ⟨i, _, hi⟩ := List.mem_filterMap.mp he
    exact List.mem_of_getElem? hi
  have hmu : ∀ r ∈ stored s, r.chempots = muDict s := by
    intro r hr
    unfold stored at hr
    obtain ⟨p, _, hr⟩ := List.mem_flatMap.mp hr
    obtain ⟨t, _, rfl⟩ := List.mem_map.mp hr
    rfl
  have hkeys : (s.entries.map fun e => (comp e, atT e)).map Prod.fst = s.entries.map comp := by
    rw [List.map_map]; rfl
  have htab : dictOf (s.entries.map fun e => (comp e, atT e)) = s.entries.map fun e => (comp e, atT e) :=
    dictOf_eq_self _ (by rw [hkeys]; exact hcomp)
  have hlook : ∀ e ∈ s.entries, lookupT comp (dictOf (s.entries.map fun e => (comp e, atT e))) e = .ok (atT e) := by
    intro e he
    unfold lookupT
    rw [htab, dictGet_eq_some_of_mem _ (by rw [hkeys]; exact hcomp) (comp e) (atT e) (List.mem_map.mpr ⟨e, he, rfl⟩)]
  have hnew : (stored s).mapM (retemp comp (dictOf (s.entries.map fun e => (comp e, atT e))))
      = .ok ((stored s).map fun r => { r with entries := r.entries.map atT }) := by
    apply mapM_eq_map
    intro r hr
    unfold retemp
    rw [mapM_eq_map _ atT _ fun e he => hlook e (hmemE r hr e he)]
    rfl
  set new := (stored s).map fun r => { r with entries := r.entries.map atT } with hnewdef
  obtain ⟨s', sizes, h1, h2, _, h4, h5, h6, h7⟩ := fromRxns_ok uid setOrder ho new none s.openElem s.chempot
    (fun r hr e he => List.mem_flatMap.mpr ⟨r, hr, he⟩)
    (by
      have hin : ∀ a ∈ givenEntries new none, ∃ e ∈ s.entries, a = atT e := by
        intro a ha
        obtain ⟨r, hr, ha⟩ := List.mem_flatMap.mp ha
        obtain ⟨r', hr', rfl⟩ := List.mem_map.mp hr
        obtain ⟨e, he, rfl⟩ := List.mem_map.mp ha
        exact ⟨e, hmemE r' hr' e he, rfl⟩
      intro a ha b hb
      obtain ⟨e, he, rfl⟩ := hin a ha
      obtain ⟨e', he', rfl⟩ := hin b hb
      exact huid e he e' he')
  have hset : setNewTemperature uid setOrder comp atT s = .ok s' := by
    unfold setNewTemperature
    rw [getRxns_ok s w]
    simp only [bind, Except.bind]
    rw [hnew]
    exact h1
  have hmus : new ≠ [] → muDict s' = muDict s := by
    intro hne
    have hd : detectOpen new s.openElem s.chempot = (s.openElem, s.chempot) := by
      unfold detectOpen
      cases ho : s.openElem with
      | some e => simp
      | none =>
        rw [if_neg]
        intro h
        rw [Bool.and_eq_true, List.all_eq_true] at h
        obtain ⟨r, hr⟩ := List.exists_mem_of_ne_nil _ hne
        have hc := h.1 r hr
        obtain ⟨r', hr', rfl⟩ := List.mem_map.mp hr
        have hm := hmu r' hr'
        unfold muDict at hm
        rw [ho] at hm
        simp [hm] at hc
    rw [hd, Prod.mk.injEq] at h4
    unfold muDict
    rw [h4.1, h4.2]
  have hperm : (stored s').Perm new := by
    have hp := perm_flatMap_filter new (fun r => r.entries.length) sizes h5 (by intro k; rw [h6 k, List.mem_map])
    refine List.Perm.trans (List.Perm.of_eq ?_) hp
    rw [h7, List.flatMap_def, List.flatMap_def]
    congr 1
    apply List.map_congr_left
    intro n _
    conv_rhs => rw [← List.map_id (new.filter fun r => decide (r.entries.length = n))]
    apply List.map_congr_left
    intro r hr
    have hr := (List.mem_filter.mp hr).1
    have hne : new ≠ [] := List.ne_nil_of_mem hr
    rw [hmus hne]
    obtain ⟨r', hr', rfl⟩ := List.mem_map.mp hr
    rw [← hmu r' hr']
    rfl
  refine ⟨s', stored s', hset, getRxns_ok s' h2, ?_, hperm⟩
  rw [← length_stored s' h2, hperm.length_eq, hnewdef, List.length_map, length_stored s w]

/-- Polymorphs are confused: entries `1` and `2` have the same composition, so the reaction of entry `1` is moved to the
re-evaluated entry `2` (here `atT e = e + 10` and the composition is `1` for both). -/
theorem C27_polymorph_counterexample :
    let s : RSet ℕ ℕ ℕ := mk [1, 2, 3] [(2, [[0, 2]])] [(2, [[-1, 1]])] none 0 (some [(2, [7])])
    (setNewTemperature id List.dedup (fun e => if e = 2 then 1 else e) (fun e => e + 10) s >>= getRxns)
      = .ok [⟨[12, 13], [-1, 1], 7, []⟩] := by decide +kernel

example :
    let s : RSet ℕ ℕ ℕ := mk [1, 2, 3] [(2, [[0, 2]])] [(2, [[-1, 1]])] none 0 (some [(2, [7])])
    (setNewTemperature id List.dedup id (fun e => e + 10) s >>= getRxns) = .ok [⟨[11, 13], [-1, 1], 7, []⟩] := by
  decide +kernel

/-! One reaction in each of two sets over the same phases, and the reactions of three sizes used above. -/

def exS : RSet ℕ ℕ ℕ := mk [1, 2] [(2, [[0, 1]])] [(2, [[-1, 1]])] none 0 (some [(2, [7])])
def exS' : RSet ℕ ℕ ℕ := mk [1, 2] [(2, [[1, 0]])] [(2, [[-1, 1]])] none 0 (some [(2, [8])])
def exS3 : RSet ℕ ℕ ℕ := mk [1, 3, 2] [(2, [[0, 2], [1, 2]]), (3, [[0, 1, 2]])] [(2, [[-1, 1], [-1, 2]]), (3, [[-1, -1, 1]])] none 0
  (some [(2, [7, 5]), (3, [9])])

theorem exS_built : Built exS := .fromRxns id List.dedup [⟨[1, 2], [-1, 1], 7, []⟩] none none 0 _ setOrder_dedup (by decide +kernel)
theorem exS'_built : Built exS' :=
  .fromRxns id List.dedup [⟨[2, 1], [-1, 1], 8, []⟩] (some [1, 2]) none 0 _ setOrder_dedup (by decide +kernel)
theorem exS3_built : Built exS3 := .fromRxns id List.dedup [closedA, closedB, closedC] none none 0 _ setOrder_dedup (by decide +kernel)

example := C20_lossless id List.dedup setOrder_dedup [closedA, closedB, closedC] (fun _ _ _ _ _ _ _ _ h => h) none 0
example := C20_given_entries id List.dedup setOrder_dedup [closedA, closedB, closedC] [5, 3, 1, 2] (by decide) (by decide)
  (fun _ _ _ _ h => h) none 0
example := C20_chempots id List.dedup setOrder_dedup [openA, { openB with chempots := [(0, -1)] }] (fun _ _ _ _ _ _ _ _ h => h) 0
  [(0, -1)] (.inr ⟨0, -1, rfl⟩) (by decide +kernel)
example : ∃ out, getRxns exS3 = .ok out ∧ out.length = 3 := C21_len_partial exS3 exS3_built
example := C22_union_partial List.dedup setOrder_dedup exS exS' exS_built exS'_built rfl ⟨rfl, rfl⟩
example := C22_comm_partial List.dedup List.dedup setOrder_dedup setOrder_dedup exS exS' exS_built exS'_built rfl ⟨rfl, rfl⟩
example := C22_assoc_partial List.dedup setOrder_dedup exS exS' exS exS_built exS'_built exS_built rfl rfl ⟨rfl, rfl⟩ ⟨rfl, rfl⟩
example : addRxnSet List.dedup exS exS3 = .error .valueError := C22_rejects List.dedup exS exS3 (by decide)

open Classical in
example := C23_exact_partial exS3 exS3_built (fun e => decide (e = 1)) [closedA, closedC, closedB] (by decide +kernel)
  (fun r hr => by
    simp only [List.mem_cons, List.not_mem_nil, or_false] at hr
    rcases hr with rfl | rfl | rfl
    · exact ⟨1, -1, by decide +kernel, by norm_num⟩
    · exact ⟨3, -1, by decide +kernel, by norm_num⟩
    · exact ⟨1, -1, by decide +kernel, by norm_num⟩)
  (by decide +kernel)

open Classical in
example := C24_exact_partial exS3 exS3_built (fun e => decide (e = 2)) [closedA, closedC, closedB] (by decide +kernel) 1
  (by decide +kernel) (fun i e hi he => by
    have : e = 2 := by simpa using he
    subst this
    match i, hi with
    | 0, hi => exact absurd hi (by decide)
    | 1, hi => exact absurd hi (by decide)
    | 2, _ => rfl
    | n + 3, hi => exact absurd hi (by simp [exS3, mk]))
  (by decide +kernel)

example := C27_partial id List.dedup setOrder_dedup id (fun e => e + 10) exS3 exS3_built [closedA, closedC, closedB] (by decide +kernel)
  (by decide) (fun _ _ _ _ h => h)

end Verif.Props.RxnSet
