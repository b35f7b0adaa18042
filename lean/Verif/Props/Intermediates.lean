import Verif.Model.Intermediates
import Verif.Props.RxnFilter

/-! Property C105: the intermediate reactions found by the pathway solver (src/rxn_network/pathways/solver.py:342-403). -/

set_option linter.unusedSectionVars false

namespace Verif.Props.Intermediates
open Verif.Py Verif.Model.RxnSet Verif.Model.Intermediates Verif.Spec.RxnSet Verif.Lemmas.RxnSet Verif.Lemmas.Exc Verif.Props.RxnSet Verif.Props.RxnFilter

variable {η δ ε υ : Type} [DecidableEq η] [DecidableEq ε] [DecidableEq υ]

/-! ### Specification -/

/-- The reactions a set yields, read with the potentials of the solver. -/
def Yields (found : Except Err (RSet η δ ε)) (es : List η) (l : List (SRxn η δ ε)) : Prop :=
  ∃ s, found = .ok s ∧ Built s ∧ s.entries = es ∧ getRxns s = .ok l

/-- The same reaction with the chemical potentials of the solver. -/
def priced (open_ : Option ε) (mu : ℚ) (r : SRxn η δ ε) : SRxn η δ ε := { r with chempots := (open_.map fun e => (e, mu)).toList }

/-- One representative per reaction: nothing invented or repeated, everything represented, no two multiples. -/
structure Representatives (all out : List (SRxn η δ ε)) : Prop where
  sub : out.Subperm all
  cover : ∀ r ∈ all, ∃ r' ∈ out, Multiple (terms r') (terms r) ∧
    ∀ r'' ∈ all, Multiple (terms r') (terms r'') → size1 (terms r') ≤ size1 (terms r'')
  uniq : out.Pairwise fun a b => ¬ Multiple (terms a) (terms b)

/-- Reactions of the enabled enumerators, given the reactions of each. -/
def enabled (isOpen useBasic useMinimize : Bool) (b bo g gp : List (SRxn η δ ε)) : List (SRxn η δ ε) :=
  (if useBasic then b ++ (if isOpen then bo else []) else []) ++ (if useMinimize then g ++ (if isOpen then gp else []) else [])

/-! ### Lemmas -/

theorem multiple_symm (a b : List (η × ℚ)) (h : Multiple a b) : Multiple b a := by
  obtain ⟨s, hs, hp⟩ := h
  refine ⟨s⁻¹, inv_pos.mpr hs, ?_⟩
  have h1 := hp.map fun p : η × ℚ => (p.1, p.2 * s⁻¹)
  rw [List.map_map] at h1
  have h2 : ((fun p : η × ℚ => (p.1, p.2 * s⁻¹)) ∘ fun p => (p.1, p.2 * s)) = id := by
    funext p
    simp [mul_assoc, mul_inv_cancel₀ hs.ne']
  rw [h2, List.map_id] at h1
  exact h1.symm

theorem merge_priced (so : List ℕ → List ℕ) (ho : SetOrder so) (a b : RSet η δ ε) (wa : WF a) (wb : WF b) (he : a.entries = b.entries) :
    ∃ s, addRxnSet so a b = .ok s ∧ WF s ∧ s.entries = a.entries ∧ s.openElem = a.openElem ∧ s.chempot = a.chempot ∧
      (stored s).Perm (stored a ++ (stored b).map fun r => { r with chempots := muDict a }) := by
  have ws := wf_merge so ho a b wa wb he
  refine ⟨_, addRxnSet_ok so ho a b wa wb he, ws, rfl, rfl, rfl, ?_⟩
  rw [stored_ofDict _ _ _ _ (by rw [List.map_map]; exact (List.map_id' _).symm ▸ (ho _).1), List.flatMap_map]
  set s := ofDict a.entries
      ((so (a.indices.map Prod.fst ++ b.indices.map Prod.fst)).map fun n => (n, tripOr a n ++ tripOr b n))
      a.openElem a.chempot
  have e1 : toRxn s = toRxn a := rfl
  have e2 : toRxn s = (fun r : SRxn η δ ε => { r with chempots := muDict a }) ∘ toRxn b := by
    funext t
    show toRxn a t = _
    unfold toRxn
    rw [he]
    rfl
  simp only [List.map_append]
  refine (List.flatMap_append_perm _ _ _).symm.trans ?_
  refine List.Perm.append ?_ ?_
  · rw [e1, stored_eq a wa]
    exact flatMap_or a wa _ (ho _).1 (fun n hn => ((ho _).2 n).mpr (List.mem_append_left _ hn)) _
  · rw [e2, stored_eq b wb, List.map_flatMap]
    simp only [List.map_map]
    exact flatMap_or b wb _ (ho _).1 (fun n hn => ((ho _).2 n).mpr (List.mem_append_right _ hn)) _

/-- The set so far: potentials of the solver, given entries, given reactions. -/
structure Acc (es : List η) (open_ : Option ε) (mu : ℚ) (s : RSet η δ ε) (l : List (SRxn η δ ε)) : Prop where
  wf : WF s
  entries : s.entries = es
  elem : s.openElem = open_
  pot : s.chempot = mu
  rxns : (stored s).Perm (l.map (priced open_ mu))

theorem muDict_eq (s : RSet η δ ε) (open_ : Option ε) (mu : ℚ) (h : s.openElem = open_) (h' : s.chempot = mu) :
    muDict s = (open_.map fun e => (e, mu)).toList := by
  subst h h'
  unfold muDict
  cases s.openElem <;> rfl

theorem acc_add (so : List ℕ → List ℕ) (ho : SetOrder so) (es : List η) (open_ : Option ε) (mu : ℚ) (s : RSet η δ ε) (l l' : List (SRxn η δ ε))
    (found : Except Err (RSet η δ ε)) (h : Acc es open_ mu s l) (hf : Yields found es l') :
    ∃ s', addFound so s found = .ok s' ∧ Acc es open_ mu s' (l ++ l') := by
  obtain ⟨b, rfl, hb, hbe, hbl⟩ := hf
  have wb := built_wf b hb
  obtain ⟨s', h1, h2, h3, h4, h5, h6⟩ := merge_priced so ho s b h.wf wb (h.entries.trans hbe.symm)
  refine ⟨s', h1, h2, h3.trans h.entries, h4.trans h.elem, h5.trans h.pot, ?_⟩
  rw [getRxns_ok b wb] at hbl
  have hbl := Except.ok.inj hbl
  subst hbl
  rw [List.map_append]
  refine h6.trans (h.rxns.append ?_)
  rw [muDict_eq s open_ mu h.elem h.pot]
  exact List.Perm.refl _

theorem acc_init (es : List η) (hn : es.Nodup) (open_ : Option ε) (mu : ℚ) : Acc (δ := δ) es open_ mu (mk es [] [] open_ mu (some [])) [] :=
  ⟨⟨by simp [mk], by simp [mk], by simp [mk], by simp [mk], by simp [mk], hn⟩, rfl, rfl, rfl, by simp [stored, mk]⟩

theorem below_ok (epa : SRxn η δ ε → Except Err ℚ) (e : SRxn η δ ε → ℚ) (cutoff : ℚ) (l : List (SRxn η δ ε)) (h : ∀ r ∈ l, epa r = .ok (e r)) :
    below epa cutoff l = .ok (l.filter fun r => decide (e r < cutoff)) := by
  induction l with
  | nil => rfl
  | cons r l ih =>
    unfold below
    rw [h r List.mem_cons_self, ih fun x hx => h x (List.mem_cons_of_mem _ hx)]
    simp only [List.filter_cons, decide_eq_true_eq]

theorem dedup_const {α : Type} [DecidableEq α] (l : List α) (a : α) (h : ∀ x ∈ l, x = a) (hne : l ≠ []) : l.dedup = [a] := by
  have h1 : ∀ x ∈ l.dedup, x = a := fun x hx => h x (List.mem_dedup.mp hx)
  have h2 := List.nodup_dedup l
  have h3 : l.dedup ≠ [] := by
    obtain ⟨x, hx⟩ := List.exists_mem_of_ne_nil l hne
    exact List.ne_nil_of_mem (List.mem_dedup.mpr hx)
  generalize l.dedup = d at *
  match d, h1, h2, h3 with
  | [], _, _, h3 => exact absurd rfl h3
  | [x], h1, _, _ => rw [h1 x (by simp)]
  | x :: y :: t, h1, h2, _ =>
    rw [h1 x (by simp), h1 y (by simp)] at h2
    simp at h2

/-- `from_rxns` finds the common potential again. -/
theorem detect_priced (open_ : Option ε) (mu : ℚ) (l : List (SRxn η δ ε)) (h : ∀ r ∈ l, r.chempots = (open_.map fun e => (e, mu)).toList)
    (hne : l ≠ []) : (detectOpen l none 0).1 = open_ ∧ (open_.isSome → (detectOpen l none 0).2 = mu) := by
  cases open_ with
  | none =>
    obtain ⟨r, hr⟩ := List.exists_mem_of_ne_nil l hne
    have : (l.all fun r => decide (r.chempots ≠ [])) = false := by
      rw [List.all_eq_false]
      exact ⟨r, hr, by simp [h r hr]⟩
    unfold detectOpen
    rw [this]
    simp
  | some e =>
    have ha : (l.all fun r => decide (r.chempots ≠ [])) = true := by
      rw [List.all_eq_true]
      intro r hr
      simp [h r hr]
    have hf : ∀ p ∈ l.flatMap fun r => r.chempots, p = (e, mu) := by
      intro p hp
      obtain ⟨r, hr, hp⟩ := List.mem_flatMap.mp hp
      rw [h r hr] at hp
      simpa using hp
    have hfne : (l.flatMap fun r => r.chempots) ≠ [] := by
      obtain ⟨r, hr⟩ := List.exists_mem_of_ne_nil l hne
      refine List.ne_nil_of_mem (a := (e, mu)) (List.mem_flatMap.mpr ⟨r, hr, ?_⟩)
      rw [h r hr]; simp
    have d1 := dedup_const ((l.flatMap fun r => r.chempots).map Prod.fst) e
      (by intro x hx; obtain ⟨p, hp, rfl⟩ := List.mem_map.mp hx; rw [hf p hp]) (by simpa using hfne)
    have d2 := dedup_const ((l.flatMap fun r => r.chempots).map Prod.snd) mu
      (by intro x hx; obtain ⟨p, hp, rfl⟩ := List.mem_map.mp hx; rw [hf p hp]) (by simpa using hfne)
    unfold detectOpen
    rw [ha, d1, d2]
    simp

/-- `from_rxns` of reactions at one potential yields exactly these reactions. -/
theorem fromRxns_same (uid : η → υ) (order : List η → List η) (ho : SetOrder order) (open_ : Option ε) (mu : ℚ) (l : List (SRxn η δ ε))
    (entries : Option (List η)) (hmu : ∀ r ∈ l, r.chempots = (open_.map fun e => (e, mu)).toList)
    (hsub : ∀ r ∈ l, ∀ e ∈ r.entries, e ∈ givenEntries l entries)
    (hinj : ∀ a ∈ givenEntries l entries, ∀ b ∈ givenEntries l entries, uid a = uid b → a = b) :
    ∃ t, fromRxns uid order l entries none 0 = .ok t ∧ Built t ∧ (stored t).Perm l ∧ t.entries = order (givenEntries l entries) ∧
      (l ≠ [] → t.openElem = open_ ∧ (open_.isSome → t.chempot = mu)) := by
  obtain ⟨t, sizes, h1, h2, h3, h4, h5, h6, h7⟩ := fromRxns_ok uid order ho l entries none 0 hsub hinj
  have hb : Built t := .fromRxns uid order l entries none 0 t ho h1
  have hdet : l ≠ [] → t.openElem = open_ ∧ (open_.isSome → t.chempot = mu) := by
    intro hne
    obtain ⟨d1, d2⟩ := detect_priced open_ mu l hmu hne
    rw [← h4] at d1 d2
    exact ⟨d1, d2⟩
  have hkeep : ∀ r ∈ l, ({ r with chempots := muDict t } : SRxn η δ ε) = r := by
    intro r hr
    obtain ⟨d1, d2⟩ := hdet (List.ne_nil_of_mem hr)
    have : muDict t = r.chempots := by
      rw [hmu r hr]
      unfold muDict
      rw [d1]
      cases open_ with
      | none => rfl
      | some e => simp [d2 rfl]
    rw [this]
  refine ⟨t, h1, hb, ?_, h3, hdet⟩
  rw [h7]
  have : (sizes.flatMap fun n => (l.filter fun r => decide (r.entries.length = n)).map fun r => ({ r with chempots := muDict t } : SRxn η δ ε))
      = sizes.flatMap fun n => l.filter fun r => decide (r.entries.length = n) := by
    congr 1
    funext n
    conv_rhs => rw [← List.map_id (l.filter fun r => decide (r.entries.length = n))]
    apply List.map_congr_left
    intro r hr
    exact hkeep r (List.mem_filter.mp hr).1
  rw [this]
  refine perm_flatMap_filter l (fun r => r.entries.length) sizes h5 ?_
  intro k
  rw [h6, List.mem_map]

/-- `from_rxns(rxns, filter_duplicates=True)` of reactions at one potential returns one representative of each. -/
theorem fromRxns_filter (uid : η → υ) (order : List η → List η) (ho : SetOrder order) (argsort : List ℚ → List ℕ) (ha : ArgSort argsort)
    (groupBy : List (List ℕ) → List (List ℕ)) (hg : GroupBy groupBy) (cpus : ℕ) (hc : 2 ≤ cpus)
    (wait : ℕ → List Task → List Task × List Task) (hw : Verif.Props.Utils.WaitSpec wait)
    (open_ : Option ε) (mu : ℚ) (l : List (SRxn η δ ε)) (hmu : ∀ r ∈ l, r.chempots = (open_.map fun e => (e, mu)).toList)
    (hinj : ∀ r ∈ l, ∀ r' ∈ l, ∀ a ∈ r.entries, ∀ b ∈ r'.entries, uid a = uid b → a = b)
    (hproper : ∀ r ∈ l, Proper r) (hsep : ∀ r ∈ l, ∀ r' ∈ l, Separated r r') :
    ∃ t s out, fromRxns uid order l none none 0 = .ok t ∧ filterDuplicatesParallel argsort groupBy cpus wait t [] = .ok s ∧
      getRxns s = .ok out ∧ Representatives l out := by
  obtain ⟨t, h1, hb, hperm, _, _⟩ := fromRxns_same uid order ho open_ mu l none hmu
    (fun r hr e he => List.mem_flatMap.mpr ⟨r, hr, he⟩)
    (by
      intro a ha b hb
      obtain ⟨r, hr, ha⟩ := List.mem_flatMap.mp ha
      obtain ⟨r', hr', hb⟩ := List.mem_flatMap.mp hb
      exact hinj r hr r' hr' a ha b hb)
  have h2 := built_wf t hb
  have hmem : ∀ r, r ∈ stored t ↔ r ∈ l := fun r => hperm.mem_iff
  obtain ⟨s1, out1, g1, g2, _, g4⟩ := C25_filter_partial argsort ha groupBy hg t hb (stored t) (getRxns_ok t h2)
    (fun r hr => hproper r ((hmem r).mp hr)) (fun r hr r' hr' => hsep r ((hmem r).mp hr) r' ((hmem r').mp hr')) [] (by simp)
  obtain ⟨s2, o1, out2, k1, k2, k3, k4, _⟩ := (C26_parallel_partial argsort groupBy cpus hc wait hw t hb []).1 s1 g1
  rw [g2] at k2
  have := Except.ok.inj k2
  subst this
  refine ⟨t, s2, out2, h1, k1, k3, ?_, ?_, ?_⟩
  · exact (k4.subperm.trans g4.sub).trans hperm.subperm
  · intro r hr
    obtain ⟨r', hr', hm, hs⟩ := g4.cover r ((hmem r).mpr hr)
    refine ⟨r', k4.mem_iff.mpr hr', hm, ?_⟩
    rcases hs with ⟨e, he, _⟩ | hs
    · simp at he
    · exact fun r'' hr'' => hs r'' ((hmem r'').mpr hr'')
  · refine (k4.symm.pairwise_iff fun {a b} hab hba => hab (multiple_symm _ _ hba)).mp ?_
    refine g4.uniq.imp ?_
    intro a b hab hmul
    obtain ⟨⟨e, he, _⟩, _⟩ := hab hmul
    simp at he

/-- The candidates: reactions of the enabled enumerators at the solver's potentials, below the cutoff and within the intermediate phases. -/
def candidates (inter : List η) (e : SRxn η δ ε → ℚ) (open_ : Option ε) (mu cutoff : ℚ) (found : List (SRxn η δ ε)) : List (SRxn η δ ε) :=
  (found.map (priced open_ mu)).filter fun r => decide (e r < cutoff) && decide (∀ x ∈ r.entries, x ∈ inter)

theorem representatives_perm (a b out : List (SRxn η δ ε)) (h : a.Perm b) (hr : Representatives a out) : Representatives b out where
  sub := hr.sub.trans h.subperm
  cover := by
    intro r hr'
    obtain ⟨r', h1, h2, h3⟩ := hr.cover r (h.mem_iff.mpr hr')
    exact ⟨r', h1, h2, fun r'' hr'' => h3 r'' (h.mem_iff.mpr hr'')⟩
  uniq := hr.uniq

theorem priced_terms (open_ : Option ε) (mu : ℚ) (r : SRxn η δ ε) : terms (priced open_ mu r) = terms r := rfl

/-- The two stages of enumeration. -/
theorem stages (so : List ℕ → List ℕ) (hso : SetOrder so) (E : Enumerators η δ ε) (inter es : List η) (hn : es.Nodup) (open_ : Option ε) (mu : ℚ)
    (useBasic useMinimize : Bool) (b bo g gp : List (SRxn η δ ε))
    (hb : useBasic → Yields (E.basic inter) es b)
    (hbo : useBasic → open_.isSome → Yields (E.basicOpen inter) es bo)
    (hgb : useMinimize → Yields (E.gibbs inter) es g)
    (hgp : useMinimize → open_.isSome → Yields (E.grand inter) es gp) :
    ∃ s1 s2, (if useBasic then addBasic so E inter open_.isSome (mk es [] [] open_ mu (some [])) else .ok (mk es [] [] open_ mu (some []))) = .ok s1 ∧
      (if useMinimize then addMinimize so E inter open_.isSome s1 else .ok s1) = .ok s2 ∧
      enumerateAll so E inter open_.isSome useBasic useMinimize (mk es [] [] open_ mu (some [])) = .ok s2 ∧
      Acc es open_ mu s2 (enabled open_.isSome useBasic useMinimize b bo g []) := by
  have h0 : Acc (δ := δ) es open_ mu (mk es [] [] open_ mu (some [])) [] := acc_init es hn open_ mu
  have hs1 : ∃ s1, (if useBasic then addBasic so E inter open_.isSome (mk es [] [] open_ mu (some [])) else .ok (mk es [] [] open_ mu (some []))) = .ok s1 ∧
      Acc es open_ mu s1 (if useBasic then b ++ (if open_.isSome then bo else []) else []) := by
    cases useBasic with
    | false => exact ⟨_, rfl, h0⟩
    | true =>
      obtain ⟨s1, e1, a1⟩ := acc_add so hso es open_ mu _ _ _ _ h0 (hb rfl)
      rw [List.nil_append] at a1
      simp only [if_true]
      unfold addBasic
      rw [e1]
      rcases Bool.eq_false_or_eq_true open_.isSome with ho | ho
      · obtain ⟨s2, e2, a2⟩ := acc_add so hso es open_ mu _ _ _ _ a1 (hbo rfl ho)
        refine ⟨s2, ?_, ?_⟩
        · simp only [ho, if_true]; exact e2
        · rw [ho]; exact a2
      · refine ⟨s1, ?_, ?_⟩
        · simp [ho]
        · rw [ho]; simpa using a1
  obtain ⟨s1, e1, a1⟩ := hs1
  suffices h : ∃ s2, (if useMinimize then addMinimize so E inter open_.isSome s1 else .ok s1) = .ok s2 ∧
      Acc es open_ mu s2 (enabled open_.isSome useBasic useMinimize b bo g []) by
    obtain ⟨s2, h1, h2⟩ := h
    refine ⟨s1, s2, e1, h1, ?_, h2⟩
    unfold enumerateAll
    rw [e1]
    exact h1
  unfold enabled
  cases useMinimize with
  | false => exact ⟨s1, rfl, by simpa using a1⟩
  | true =>
    obtain ⟨s2, e2, a2⟩ := acc_add so hso es open_ mu _ _ _ _ a1 (hgb rfl)
    simp only [if_true, List.append_nil, ite_self]
    unfold addMinimize
    rw [e2]
    refine ⟨s2, ?_, by simpa using a2⟩
    rcases Bool.eq_false_or_eq_true open_.isSome with ho | ho
    · obtain ⟨s3, e3, _⟩ := acc_add so hso es open_ mu _ _ _ _ a2 (hgp rfl ho)
      simp only [ho, if_true, e3]
    · simp [ho]

/-! ### C105 -/

/-- The intermediate phases are those of the reactions, the targets and the elemental entries. -/
theorem C105_phases (isElem : η → Bool) (reactions : List (SRxn η δ ε)) (targets entries : List η) (x : η) :
    x ∈ intermediates isElem reactions targets entries ↔ (∃ r ∈ reactions, x ∈ r.entries) ∨ x ∈ targets ∨ (x ∈ entries ∧ isElem x = true) := by
  simp [intermediates]

/-- The solver returns one representative of each reaction found by the enabled enumerators other than grand potential minimization, read at the solver's
chemical potential, below the cutoff and within the intermediate phases. Missing for the full statement: the grand potential enumerator (second theorem),
and enumerators that list the phases in another order (third). -/
theorem C105_intermediates_partial (uid : η → υ) (order : List η → List η) (ho : SetOrder order) (so : List ℕ → List ℕ) (hso : SetOrder so)
    (argsort : List ℚ → List ℕ) (ha : ArgSort argsort) (groupBy : List (List ℕ) → List (List ℕ)) (hg : GroupBy groupBy) (cpus : ℕ) (hc : 2 ≤ cpus)
    (wait : ℕ → List Task → List Task × List Task) (hw : Verif.Props.Utils.WaitSpec wait) (epa : SRxn η δ ε → Except Err ℚ)
    (isElem : η → Bool) (E : Enumerators η δ ε) (reactions : List (SRxn η δ ε)) (targets entries : List η) (open_ : Option ε) (mu cutoff : ℚ)
    (useBasic useMinimize : Bool) (inter : List η) (hinter : inter = intermediates isElem reactions targets entries)
    (b bo g gp : List (SRxn η δ ε))
    (hb : useBasic → Yields (E.basic inter) (order inter) b)
    (hbo : useBasic → open_.isSome → Yields (E.basicOpen inter) (order inter) bo)
    (hgb : useMinimize → Yields (E.gibbs inter) (order inter) g)
    (hgp : useMinimize → open_.isSome → Yields (E.grand inter) (order inter) gp)
    (hinj : ∀ x ∈ inter, ∀ y ∈ inter, uid x = uid y → x = y)
    (e : SRxn η δ ε → ℚ) (he : ∀ r ∈ enabled open_.isSome useBasic useMinimize b bo g [], epa (priced open_ mu r) = .ok (e (priced open_ mu r)))
    (hproper : ∀ r ∈ enabled open_.isSome useBasic useMinimize b bo g [], Proper r)
    (hsep : ∀ r ∈ enabled open_.isSome useBasic useMinimize b bo g [], ∀ r' ∈ enabled open_.isSome useBasic useMinimize b bo g [], Separated r r') :
    ∃ s out, findIntermediate uid order so argsort groupBy cpus wait epa isElem E reactions targets entries open_ mu cutoff useBasic useMinimize = .ok s ∧
      getRxns s = .ok out ∧
      Representatives (candidates inter e open_ mu cutoff (enabled open_.isSome useBasic useMinimize b bo g [])) out := by
  obtain ⟨s1, s2, _, _, e2, acc⟩ := stages so hso E inter (order inter) (ho _).1 open_ mu useBasic useMinimize b bo g gp hb hbo hgb hgp
  set found := enabled open_.isSome useBasic useMinimize b bo g [] with hfound
  have hmem : ∀ r ∈ stored s2, ∃ q ∈ found, r = priced open_ mu q := by
    intro r hr
    obtain ⟨q, hq, rfl⟩ := List.mem_map.mp (acc.rxns.mem_iff.mp hr)
    exact ⟨q, hq, rfl⟩
  have hbel := below_ok epa e cutoff (stored s2) (by
    intro r hr
    obtain ⟨q, hq, rfl⟩ := hmem r hr
    exact he q hq)
  let kept := ((stored s2).filter fun r => decide (e r < cutoff)).filter fun r => r.entries.all fun x => decide (x ∈ inter)
  have hkm : ∀ r ∈ kept, (∃ q ∈ found, r = priced open_ mu q) ∧ ∀ x ∈ r.entries, x ∈ inter := by
    intro r hr
    obtain ⟨h1, h2⟩ := List.mem_filter.mp hr
    exact ⟨hmem r (List.mem_filter.mp h1).1, by simpa using h2⟩
  have hperm : kept.Perm (candidates inter e open_ mu cutoff found) := by
    unfold candidates
    refine (((acc.rxns.filter _).filter _)).trans ?_
    rw [List.filter_filter]
    refine List.Perm.of_eq ?_
    apply List.filter_congr
    intro r _
    rw [Bool.and_comm]
    congr 1
    rw [Bool.eq_iff_iff]
    simp
  obtain ⟨t, s, out, t1, t2, t3, t4⟩ := fromRxns_filter uid order ho argsort ha groupBy hg cpus hc wait hw open_ mu kept
    (by
      intro r hr
      obtain ⟨⟨q, _, rfl⟩, _⟩ := hkm r hr
      rfl)
    (fun r hr r' hr' x hx y hy => hinj x ((hkm r hr).2 x hx) y ((hkm r' hr').2 y hy))
    (by
      intro r hr
      obtain ⟨⟨q, hq, rfl⟩, _⟩ := hkm r hr
      exact ⟨(hproper q hq).ne, (hproper q hq).nodup, (hproper q hq).len, (hproper q hq).nz⟩)
    (by
      intro r hr r' hr'
      obtain ⟨⟨q, hq, rfl⟩, _⟩ := hkm r hr
      obtain ⟨⟨q', hq', rfl⟩, _⟩ := hkm r' hr'
      exact hsep q hq q' hq')
  refine ⟨s, out, ?_, t3, representatives_perm _ _ _ hperm t4⟩
  unfold findIntermediate
  simp only [bind, Except.bind]
  rw [← hinter]
  have t1' : fromRxns uid order (((stored s2).filter fun r => decide (e r < cutoff)).filter fun r => r.entries.all fun x => decide (x ∈ inter))
    none none 0 = .ok t := t1
  simp only [e2, getRxns_ok s2 acc.wf, hbel, t1']
  exact t2

/-- Without the grand potential enumerator (closed systems, or no minimization) nothing is missing: every enabled enumerator contributes. -/
theorem C105_all_enabled (open_ : Option ε) (useBasic useMinimize : Bool) (h : useMinimize = false ∨ open_ = none) (b bo g gp : List (SRxn η δ ε)) :
    enabled open_.isSome useBasic useMinimize b bo g [] = enabled open_.isSome useBasic useMinimize b bo g gp := by
  unfold enabled
  rcases h with rfl | rfl <;> simp

/-- The grand potential enumerator is run but cannot contribute: the result is the same whatever it finds. -/
theorem C105_grand_ignored (uid : η → υ) (order : List η → List η) (ho : SetOrder order) (so : List ℕ → List ℕ) (hso : SetOrder so)
    (argsort : List ℚ → List ℕ) (groupBy : List (List ℕ) → List (List ℕ)) (cpus : ℕ) (wait : ℕ → List Task → List Task × List Task)
    (epa : SRxn η δ ε → Except Err ℚ) (isElem : η → Bool) (E : Enumerators η δ ε) (reactions : List (SRxn η δ ε)) (targets entries : List η)
    (open_ : Option ε) (mu cutoff : ℚ) (useBasic useMinimize : Bool) (b bo g gp gp' : List (SRxn η δ ε)) (inter : List η)
    (hinter : inter = intermediates isElem reactions targets entries)
    (hb : useBasic → Yields (E.basic inter) (order inter) b)
    (hbo : useBasic → open_.isSome → Yields (E.basicOpen inter) (order inter) bo)
    (hgb : useMinimize → Yields (E.gibbs inter) (order inter) g)
    (hgp : useMinimize → open_.isSome → Yields (E.grand inter) (order inter) gp)
    (grand' : List η → Except Err (RSet η δ ε)) (hgp' : useMinimize → open_.isSome → Yields (grand' inter) (order inter) gp') :
    findIntermediate uid order so argsort groupBy cpus wait epa isElem E reactions targets entries open_ mu cutoff useBasic useMinimize =
    findIntermediate uid order so argsort groupBy cpus wait epa isElem { E with grand := grand' } reactions targets entries open_ mu cutoff
      useBasic useMinimize := by
  obtain ⟨s1, s2, e1, e2, e3, _⟩ := stages so hso E inter (order inter) (ho _).1 open_ mu useBasic useMinimize b bo g gp hb hbo hgb hgp
  obtain ⟨s1', s2', e1', e2', e3', _⟩ := stages so hso { E with grand := grand' } inter (order inter) (ho _).1 open_ mu useBasic useMinimize b bo g gp'
    hb hbo hgb hgp'
  have h1 : s1 = s1' := Except.ok.inj (e1.symm.trans e1')
  subst h1
  have h2 : s2 = s2' := by
    cases useMinimize with
    | false => exact Except.ok.inj (e2.symm.trans e2')
    | true =>
      simp only [if_true] at e2 e2'
      unfold addMinimize at e2 e2'
      simp only at e2 e2'
      cases hf : addFound so s1 (E.gibbs inter) with
      | error err => rw [hf] at e2; cases e2
      | ok v =>
        rw [hf] at e2 e2'
        simp only at e2 e2'
        have p1 : s2 = v := by
          split at e2
          · split at e2
            · cases e2
            · exact (Except.ok.inj e2).symm
          · exact (Except.ok.inj e2).symm
        have p2 : s2' = v := by
          split at e2'
          · split at e2'
            · cases e2'
            · exact (Except.ok.inj e2').symm
          · exact (Except.ok.inj e2').symm
        rw [p1, p2]
  subst h2
  unfold findIntermediate
  simp only [bind, Except.bind]
  rw [← hinter, e3, e3']

/-- An enumerator that lists the same phases in another order makes the search fail. -/
theorem C105_order_error (uid : η → υ) (order : List η → List η) (so : List ℕ → List ℕ)
    (argsort : List ℚ → List ℕ) (groupBy : List (List ℕ) → List (List ℕ)) (cpus : ℕ) (wait : ℕ → List Task → List Task × List Task)
    (epa : SRxn η δ ε → Except Err ℚ) (isElem : η → Bool) (E : Enumerators η δ ε) (reactions : List (SRxn η δ ε)) (targets entries : List η)
    (open_ : Option ε) (mu cutoff : ℚ) (useMinimize : Bool) (f : RSet η δ ε)
    (hf : E.basic (intermediates isElem reactions targets entries) = .ok f)
    (hne : order (intermediates isElem reactions targets entries) ≠ f.entries) :
    findIntermediate uid order so argsort groupBy cpus wait epa isElem E reactions targets entries open_ mu cutoff true useMinimize = .error .valueError := by
  have h1 : addRxnSet so (mk (order (intermediates isElem reactions targets entries)) [] [] open_ mu (some [])) f = .error .valueError := by
    unfold addRxnSet
    exact if_pos hne
  have h2 : enumerateAll so E (intermediates isElem reactions targets entries) open_.isSome true useMinimize
      (mk (order (intermediates isElem reactions targets entries)) [] [] open_ mu (some [])) = .error .valueError := by
    unfold enumerateAll addBasic addFound
    rw [hf]
    simp only [if_true, h1]
  unfold findIntermediate
  simp only [h2, bind, Except.bind]

/-- The failure of an enabled enumerator is not hidden: if the search returns, all of them did. -/
theorem C105_failure (uid : η → υ) (order : List η → List η) (so : List ℕ → List ℕ)
    (argsort : List ℚ → List ℕ) (groupBy : List (List ℕ) → List (List ℕ)) (cpus : ℕ) (wait : ℕ → List Task → List Task × List Task)
    (epa : SRxn η δ ε → Except Err ℚ) (isElem : η → Bool) (E : Enumerators η δ ε) (reactions : List (SRxn η δ ε)) (targets entries : List η)
    (open_ : Option ε) (mu cutoff : ℚ) (useBasic useMinimize : Bool) (inter : List η) (hinter : inter = intermediates isElem reactions targets entries)
    (t : RSet η δ ε)
    (h : findIntermediate uid order so argsort groupBy cpus wait epa isElem E reactions targets entries open_ mu cutoff useBasic useMinimize = .ok t) :
    (useBasic = true → (∃ s, E.basic inter = .ok s) ∧ (open_.isSome = true → ∃ s, E.basicOpen inter = .ok s)) ∧
    (useMinimize = true → (∃ s, E.gibbs inter = .ok s) ∧ (open_.isSome = true → ∃ s, E.grand inter = .ok s)) := by
  have hadd : ∀ (s s' : RSet η δ ε) found, addFound so s found = .ok s' → ∃ f, found = .ok f := by
    intro s s' found h
    cases found with
    | ok f => exact ⟨f, rfl⟩
    | error e => cases h
  unfold findIntermediate at h
  dsimp only at h
  rw [← hinter] at h
  cases he : enumerateAll so E inter open_.isSome useBasic useMinimize (mk (order inter) [] [] open_ mu (some [])) with
  | error e =>
    rw [he] at h
    cases h
  | ok s =>
    clear h
    unfold enumerateAll at he
    cases h1 : (if useBasic then addBasic so E inter open_.isSome (mk (order inter) [] [] open_ mu (some [])) else .ok (mk (order inter) [] [] open_ mu (some []))
        : Except Err (RSet η δ ε)) with
    | error e =>
      rw [h1] at he
      cases he
    | ok s1 =>
      rw [h1] at he
      dsimp only at he
      constructor
      · rintro rfl
        rw [if_pos rfl] at h1
        unfold addBasic at h1
        cases h2 : addFound so (mk (order inter) [] [] open_ mu (some [])) (E.basic inter) with
        | error e =>
          rw [h2] at h1
          cases h1
        | ok s2 =>
          rw [h2] at h1
          dsimp only at h1
          refine ⟨hadd _ _ _ h2, fun ho => ?_⟩
          rw [if_pos ho] at h1
          exact hadd _ _ _ h1
      · rintro rfl
        rw [if_pos rfl] at he
        unfold addMinimize at he
        cases h2 : addFound so s1 (E.gibbs inter) with
        | error e =>
          rw [h2] at he
          cases he
        | ok s2 =>
          rw [h2] at he
          dsimp only at he
          refine ⟨hadd _ _ _ h2, fun ho => ?_⟩
          rw [if_pos ho] at he
          cases h3 : addFound so s2 (E.grand inter) with
          | error e =>
            rw [h3] at he
            cases he
          | ok s3 => exact hadd _ _ _ h3

/-! ### Witnesses -/

/-- Phases 1, 2 and the element 3; each enumerator finds one reaction. -/
def enumEx (grand : List (SRxn ℕ ℕ ℕ)) : Enumerators ℕ ℕ ℕ where
  basic := fun es => fromRxns id List.dedup [⟨[1, 2], [-2, 2], 7, []⟩] (some es) none 0
  basicOpen := fun es => fromRxns id List.dedup [⟨[1, 3, 2], [-1, -1, 1], 8, []⟩] (some es) none 0
  gibbs := fun es => fromRxns id List.dedup [⟨[1, 2], [-1, 1], 9, []⟩, ⟨[3, 2], [-1, 5], 5, []⟩] (some es) none 0
  grand := fun es => fromRxns id List.dedup grand (some es) none 0

/-- Phases of two reactions, target 2, element 3, open element 8 at potential -2; `energy` of a reaction by its data. -/
def searchEx (grand : List (SRxn ℕ ℕ ℕ)) : Except Err (RSet ℕ ℕ ℕ) :=
  findIntermediate id List.dedup List.dedup argsortEx groupByEx 4 lastFirst (fun r => .ok (if r.data = 5 then 1 else -1)) (fun e => decide (e = 3))
    (enumEx grand) [⟨[1, 2], [-1, 1], 0, []⟩] [2] [3, 1] (some 8) (-2) 0 true true

/-- The search returns with these enumerators, so all of them did. -/
example : ∃ t, searchEx [] = .ok t ∧ ∃ s, (enumEx []).grand (intermediates (fun e => decide (e = 3)) [(⟨[1, 2], [-1, 1], 0, []⟩ : SRxn ℕ ℕ ℕ)] [2] [3, 1]) = .ok s := by
  have h : (searchEx []).toOption.isSome = true := by decide +kernel
  cases hs : searchEx [] with
  | error e =>
    rw [hs] at h
    simp [Except.toOption] at h
  | ok t => exact ⟨t, rfl, ((C105_failure _ _ _ _ _ _ _ _ _ (enumEx []) _ _ _ _ _ _ true true _ rfl t hs).2 rfl).2 rfl⟩

/-- A reaction below the cutoff that only the grand potential enumerator finds is not among the intermediate reactions, nor is a multiple of it; what the
other enumerators find below the cutoff is there once. -/
theorem C105_grand_violated :
    (searchEx [⟨[3, 2], [-3, 1], 4, []⟩] >>= getRxns) = .ok [⟨[1, 3, 2], [-1, -1, 1], 8, [(8, -2)]⟩, ⟨[1, 2], [-1, 1], 9, [(8, -2)]⟩] ∧
    (∃ s, (enumEx [⟨[3, 2], [-3, 1], 4, []⟩]).grand [1, 2, 3] = .ok s ∧ getRxns s = .ok [⟨[3, 2], [-3, 1], 4, []⟩]) := by
  refine ⟨by decide +kernel, _, rfl, by decide +kernel⟩

theorem lastFirst_spec : Verif.Props.Utils.WaitSpec lastFirst := by
  intro t refs hne
  unfold lastFirst
  cases h : refs.reverse with
  | nil => exact absurd (List.reverse_eq_nil_iff.mp h) hne
  | cons a r => exact ⟨a, rfl, h ▸ List.reverse_perm refs⟩

theorem yields_from (es : List ℕ) (rxns : List (SRxn ℕ ℕ ℕ)) (s : RSet ℕ ℕ ℕ) (l : List (SRxn ℕ ℕ ℕ))
    (h : fromRxns id List.dedup rxns (some es) none 0 = .ok s) (he : s.entries = es.dedup) (hl : getRxns s = .ok l) :
    Yields (fromRxns id List.dedup rxns (some es) none 0) es.dedup l :=
  ⟨s, h, .fromRxns id List.dedup rxns (some es) none 0 s setOrder_dedup h, he, hl⟩

/-- The hypotheses of the main theorem hold for the search above. -/
example : ∃ s out, searchEx [⟨[3, 2], [-3, 1], 4, []⟩] = .ok s ∧ getRxns s = .ok out ∧
    Representatives (candidates [1, 2, 2, 3] (fun r => if r.data = 5 then 1 else -1) (some 8) (-2) 0
      [⟨[1, 2], [-2, 2], 7, []⟩, ⟨[1, 3, 2], [-1, -1, 1], 8, []⟩, ⟨[1, 2], [-1, 1], 9, []⟩, ⟨[3, 2], [-1, 5], 5, []⟩]) out := by
  have hd : ∀ r ∈ enabled (η := ℕ) (δ := ℕ) (ε := ℕ) true true true [⟨[1, 2], [-2, 2], 7, []⟩] [⟨[1, 3, 2], [-1, -1, 1], 8, []⟩]
        [⟨[1, 2], [-1, 1], 9, []⟩, ⟨[3, 2], [-1, 5], 5, []⟩] [],
      ∀ r' ∈ enabled (η := ℕ) (δ := ℕ) (ε := ℕ) true true true [⟨[1, 2], [-2, 2], 7, []⟩] [⟨[1, 3, 2], [-1, -1, 1], 8, []⟩]
        [⟨[1, 2], [-1, 1], 9, []⟩, ⟨[3, 2], [-1, 5], 5, []⟩] [],
      ∀ p ∈ terms r, ∀ q ∈ terms r', ∀ p' ∈ terms r, ∀ q' ∈ terms r',
        p.1 = q.1 → p'.1 = q'.1 → isclose |q.2 / p.2| (q'.2 / p'.2) = true → |q.2 / p.2| = q'.2 / p'.2 := by decide +kernel
  refine C105_intermediates_partial id List.dedup setOrder_dedup List.dedup setOrder_dedup argsortEx argsortEx_ok groupByEx groupByEx_ok 4 (by decide)
    lastFirst lastFirst_spec _ (fun e => decide (e = 3)) (enumEx _) [⟨[1, 2], [-1, 1], 0, []⟩] [2] [3, 1] (some 8) (-2) 0 true true [1, 2, 2, 3] rfl
    [⟨[1, 2], [-2, 2], 7, []⟩] [⟨[1, 3, 2], [-1, -1, 1], 8, []⟩] [⟨[1, 2], [-1, 1], 9, []⟩, ⟨[3, 2], [-1, 5], 5, []⟩] [⟨[3, 2], [-3, 1], 4, []⟩]
    (fun _ => yields_from _ _ ⟨[1, 2, 3], [(2, [[0, 1]])], [(2, [[-2, 2]])], [(2, [7])], none, 0⟩ _ (by decide +kernel) (by decide) (by decide +kernel))
    (fun _ _ => yields_from _ _ ⟨[1, 2, 3], [(3, [[0, 2, 1]])], [(3, [[-1, -1, 1]])], [(3, [8])], none, 0⟩ _ (by decide +kernel) (by decide)
      (by decide +kernel))
    (fun _ => yields_from _ _ ⟨[1, 2, 3], [(2, [[0, 1], [2, 1]])], [(2, [[-1, 1], [-1, 5]])], [(2, [9, 5])], none, 0⟩ _ (by decide +kernel) (by decide)
      (by decide +kernel))
    (fun _ _ => yields_from _ _ ⟨[1, 2, 3], [(2, [[2, 1]])], [(2, [[-3, 1]])], [(2, [4])], none, 0⟩ _ (by decide +kernel) (by decide)
      (by decide +kernel))
    (by decide) (fun r => if r.data = 5 then 1 else -1) (fun _ _ => rfl) ?_ ?_
  · intro r hr
    simp only [enabled, if_true, Option.isSome_some, List.cons_append, List.nil_append, List.append_nil, List.mem_cons, List.not_mem_nil, or_false] at hr
    rcases hr with rfl | rfl | rfl | rfl <;> exact ⟨by decide, by decide, by decide, by decide⟩
  · intro r hr r' hr' e x y e' x' y' h1 h2 h3 h4
    exact hd r hr r' hr' (e, x) h1 (e, y) h2 (e', x') h3 (e', y') h4 rfl rfl

example := C105_phases (fun e => decide (e = 3)) [(⟨[1, 2], [-1, 1], 0, []⟩ : SRxn ℕ ℕ ℕ)] [2] [3, 1] 3
example := C105_order_error id List.dedup List.dedup argsortEx groupByEx 4 lastFirst (fun _ => .ok 0) (fun e => decide (e = 3))
  ({ enumEx [] with basic := fun _ => .ok ⟨[3, 2, 1], [], [], [], none, 0⟩ }) [⟨[1, 2], [-1, 1], 0, []⟩] [2] [3, 1] (some 8) (-2) 0 true _ rfl (by decide)

end Verif.Props.Intermediates
