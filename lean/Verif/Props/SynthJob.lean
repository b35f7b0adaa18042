import Verif.Model.SynthJob
import Verif.Props.Intermediates
import Verif.Props.RxnSetChempot
import Verif.Props.Jobs

/-! Property C109: the job that scores synthesis reactions (src/rxn_network/jobs/core.py:302-479). -/

set_option linter.unusedSectionVars false

namespace Verif.Props.SynthJob
open Verif.Py Verif.Model.RxnSet Verif.Model.SynthJob Verif.Spec.RxnSet Verif.Lemmas.RxnSet Verif.Lemmas.Exc Verif.Props.RxnSet
open Verif.Props.Intermediates Verif.Props.RxnSetChempot

variable {η δ ε υ φ : Type} [DecidableEq η] [DecidableEq ε] [DecidableEq υ] [DecidableEq φ]

/-! ### Combining the sets -/

theorem acc_self (s : RSet η δ ε) (hs : Built s) : Acc s.entries s.openElem s.chempot s (stored s) where
  wf := built_wf s hs
  entries := rfl
  elem := rfl
  pot := rfl
  rxns := by
    refine List.Perm.of_eq ?_
    conv_lhs => rw [← List.map_id (stored s)]
    apply List.map_congr_left
    intro r hr
    obtain ⟨p, _, ht⟩ := List.mem_flatMap.mp hr
    obtain ⟨t, _, rfl⟩ := List.mem_map.mp ht
    simp only [id, priced, toRxn]
    rw [muDict_eq s _ _ rfl rfl]

theorem fold_acc (so : List ℕ → List ℕ) (ho : SetOrder so) (es : List η) (o : Option ε) (m : ℚ) (rest : List (RSet η δ ε)) (ls : List (List (SRxn η δ ε)))
    (h : List.Forall₂ (fun s l => Built s ∧ s.entries = es ∧ getRxns s = .ok l) rest ls) (s : RSet η δ ε) (l : List (SRxn η δ ε)) (hb : Built s)
    (ha : Acc es o m s l) :
    ∃ s', rest.foldlM (addRxnSet so) s = .ok s' ∧ Built s' ∧ Acc es o m s' (l ++ ls.flatten) := by
  induction h generalizing s l with
  | nil => exact ⟨s, rfl, hb, by simpa using ha⟩
  | @cons f g rest ls hf _ ih =>
    obtain ⟨s1, h1, a1⟩ := acc_add so ho es o m s l g (.ok f) ha ⟨f, rfl, hf.1, hf.2.1, hf.2.2⟩
    have h1' : addRxnSet so s f = .ok s1 := h1
    obtain ⟨s', h2, b2, a2⟩ := ih s1 (l ++ g) (.add so s f s1 ho hb hf.1 h1') a1
    refine ⟨s', ?_, b2, by simpa using a2⟩
    rw [List.foldlM_cons, h1']
    exact h2

theorem reopen_acc (es : List η) (o : Option ε) (m : ℚ) (e : ε) (mu : ℚ) (s : RSet η δ ε) (l : List (SRxn η δ ε)) (hb : Built s) (ha : Acc es o m s l) :
    Built (reopen (some e) mu s) ∧ Acc es (some e) mu (reopen (some e) mu s) l := by
  have heq : reopen (some e) mu s = setChempot s (some e) (some mu) := rfl
  have hb' : Built (setChempot s (some e) (some mu)) := .setChempot s _ _ hb
  obtain ⟨before, h1, h2, _⟩ := C115_set_chempot s hb (some e) (some mu)
  rw [getRxns_ok s (built_wf s hb)] at h1
  have h1 := Except.ok.inj h1
  subst h1
  rw [getRxns_ok _ (built_wf _ hb')] at h2
  have h2 := Except.ok.inj h2
  rw [heq]
  refine ⟨hb', built_wf _ hb', ha.entries, rfl, rfl, ?_⟩
  rw [h2]
  refine (ha.rxns.map _).trans ?_
  rw [List.map_map]
  exact List.Perm.refl _

/-! ### Selecting -/

theorem select_set (s : RSet η δ ε) (hs : Built s) (test : List ℕ → List ℚ → Bool) :
    ∃ s', (selectRows s test >>= setByIndices s) = .ok s' ∧ Built s' ∧ (selectRows s test >>= rxnsByIndices s) = .ok (stored s') ∧
      s'.entries = s.entries ∧ s'.openElem = s.openElem ∧ s'.chempot = s.chempot := by
  have h := built_wf s hs
  let sel : ℕ → List ℕ := fun n =>
    (((rowsAt s n).zip ((dictGet s.coeffs n).getD [])).zipIdx.filter fun q => test q.1.1 q.1.2).map Prod.snd
  have h1 : selectRows s test = .ok ((s.indices.map Prod.fst).map fun n => (n, sel n)) := by
    unfold selectRows
    rw [mapM_eq_map _ (fun p => (p.1, sel p.1))]
    · rw [List.map_map]; rfl
    · intro p hp
      obtain ⟨cs, hcs, hl⟩ := h.coeffs p hp
      rw [getKey_some _ _ _ hcs]
      simp only [bind, Except.bind, pure, Except.pure, sel, hcs, rowsAt_mem s h p hp, Option.getD_some]
  have hk : ∀ q ∈ (s.indices.map Prod.fst).map fun n => (n, sel n), q.1 ∈ s.indices.map Prod.fst ∧ ∀ i ∈ q.2, i < (rowsAt s q.1).length := by
    intro q hq
    obtain ⟨n, hn, rfl⟩ := List.mem_map.mp hq
    refine ⟨hn, ?_⟩
    intro i hi
    have := mem_select_lt _ (fun q : List ℕ × List ℚ => test q.1 q.2) i hi
    simp only [List.length_zip] at this
    exact lt_of_lt_of_le this (Nat.min_le_left _ _)
  have hn : (((s.indices.map Prod.fst).map fun n => (n, sel n)).map Prod.fst).Nodup := by
    rw [List.map_map]
    exact (List.map_id' _).symm ▸ h.keys
  have h2 := setByIndices_ok s h _ hk
  refine ⟨_, ?_, .select s _ _ hs hn h2, ?_, rfl, rfl, rfl⟩
  · rw [h1]; exact h2
  · rw [h1, stored_select s _ hn]
    exact rxnsByIndices_ok s h _ hk

/-- The coefficients are either clearly negative or clearly positive. -/
def Clear (r : SRxn η δ ε) : Prop := ∀ p ∈ r.entries.zip r.coeffs, p.2 ≤ -(1 / 1000000000000) ∨ 1 / 1000000000000 ≤ p.2

theorem byProductSet_ok (s : RSet η δ ε) (hs : Built s) (isP : η → Bool) (k : ℕ) (hk : s.entries.findIdx? isP = some (k + 1))
    (huniq : ∀ i e, s.entries[i]? = some e → isP e = true → i = k + 1) (hz : ∀ r ∈ stored s, Clear r)
    [DecidablePred fun r : SRxn η δ ε => ∃ e, produces r e ∧ isP e = true] :
    ∃ t, byProductSet s isP = .ok (some t) ∧ Built t ∧ stored t = (stored s).filter (fun r => decide (∃ e, produces r e ∧ isP e = true)) ∧
      t.entries = s.entries ∧ t.openElem = s.openElem ∧ t.chempot = s.chempot := by
  have hc := C24_exact_partial s hs isP (stored s) (getRxns_ok s (built_wf s hs)) k hk huniq (by
    intro r hr p hp
    rcases hz r hr p hp with h | h
    · exact .inl h
    · exact .inr (lt_of_lt_of_le (by norm_num) h))
  obtain ⟨t, t1, t2, t3, t4⟩ := select_set s hs (productTest (k + 1))
  refine ⟨t, ?_, t2, ?_, t4⟩
  · unfold byProductSet
    rw [hk]
    simp only
    rw [t1]
    rfl
  · unfold byProduct at hc
    rw [hk] at hc
    exact Except.ok.inj (t3.symm.trans hc)

theorem byReactantsSet_ok (s : RSet η δ ε) (hs : Built s) (inR : η → Bool) (hne : ∀ r ∈ stored s, ∃ e, consumes r e) (hz : ∀ r ∈ stored s, Clear r)
    (hsome : ∃ e ∈ s.entries, inR e = true) [DecidablePred fun r : SRxn η δ ε => ∀ e, consumes r e → inR e = true] :
    ∃ t, byReactantsSet s inR = .ok (some t) ∧ Built t ∧ stored t = (stored s).filter (fun r => decide (∀ e, consumes r e → inR e = true)) := by
  have hc := C23_exact_partial s hs inR (stored s) (getRxns_ok s (built_wf s hs)) hne (by
    intro r hr p hp
    rcases hz r hr p hp with h | h
    · exact .inl (lt_of_le_of_lt h (by norm_num))
    · exact .inr h)
  have hpos : positions s.entries inR ≠ [] := by
    obtain ⟨e, he, hi⟩ := hsome
    obtain ⟨i, hi', hie⟩ := List.getElem_of_mem he
    exact List.ne_nil_of_mem ((mem_positions s.entries inR i).mpr ⟨e, by rw [List.getElem?_eq_getElem hi', hie], hi⟩)
  obtain ⟨t, t1, t2, t3, _⟩ := select_set s hs (reactantTest (positions s.entries inR))
  refine ⟨t, ?_, t2, ?_⟩
  · unfold byReactantsSet
    rw [if_neg hpos, t1]
    rfl
  · unfold byReactants at hc
    rw [if_neg hpos] at hc
    exact Except.ok.inj (t3.symm.trans hc)

/-! ### Chunks -/

theorem chunked_rel {ρ σ : Type} (wait : ℕ → List (List (Option ρ)) → List (List (Option ρ)) × List (List (Option ρ)))
    (hw : Verif.Props.Utils.WaitSpec wait) (f : List ρ → Except Err (List σ)) (n : ℕ) (hn : 0 < n) (l : List ρ) (R : ρ → σ → Prop)
    (hf : ∀ l', (∀ r ∈ l', r ∈ l) → ∃ out q, f l' = .ok out ∧ q.Perm l' ∧ List.Forall₂ R q out) :
    ∃ out q, chunked wait f n l = .ok out ∧ q.Perm l ∧ List.Forall₂ R q out := by
  have hflat := Verif.Props.Jobs.chunks_flat l n hn
  have hmem : ∀ g ∈ Verif.Model.Utils.grouper (l.map some) n none, ∀ r ∈ g.filterMap id, r ∈ l := by
    intro g hg r hr
    rw [← hflat]
    exact List.mem_flatten.mpr ⟨_, List.mem_map.mpr ⟨g, hg, rfl⟩, hr⟩
  obtain ⟨o, ho⟩ := Verif.Lemmas.Solver.collect_total wait hw (fun c => f (c.filterMap id)) (Verif.Model.Utils.grouper (l.map some) n none) (by
    intro g hg
    obtain ⟨out, _, h, _⟩ := hf _ (hmem g hg)
    exact ⟨out, h⟩)
  obtain ⟨o', h1, h2⟩ := Verif.Props.Jobs.collect_perm wait hw _ _ o ho
  rw [mapM_ok] at h1
  have h3 : ∃ q, q.Perm ((Verif.Model.Utils.grouper (l.map some) n none).map fun c => c.filterMap id).flatten ∧ List.Forall₂ R q o'.flatten := by
    clear ho h2 hflat
    generalize Verif.Model.Utils.grouper (l.map some) n none = gs at *
    induction h1 with
    | nil => exact ⟨[], .refl _, .nil⟩
    | @cons g b gs bs hb _ ih =>
      obtain ⟨q, hq, hR⟩ := ih fun g' hg' => hmem g' (List.mem_cons_of_mem _ hg')
      obtain ⟨out, q0, e1, e2, e3⟩ := hf _ (hmem g List.mem_cons_self)
      rw [hb] at e1
      have := Except.ok.inj e1
      subst this
      refine ⟨q0 ++ q, ?_, ?_⟩
      · simp only [List.map_cons, List.flatten_cons]
        exact e2.append hq
      · rw [List.flatten_cons]
        exact List.rel_append e3 hR
  obtain ⟨q, hq, hR⟩ := h3
  rw [hflat] at hq
  obtain ⟨q', hR', hp⟩ := List.perm_comp_forall₂ h2.flatten (hR.flip)
  refine ⟨o.flatten, q', ?_, hp.trans hq, hR'.flip⟩
  unfold chunked
  rw [ho]

/-! ### The stages -/

/-- The same reaction at the same potential; only the data may differ. -/
def SameBut (r r' : SRxn η δ ε) : Prop := r'.entries = r.entries ∧ r'.coeffs = r.coeffs ∧ r'.chempots = r.chempots

/-- `from_rxns` of reactions derived from those of a set. -/
theorem restore (c : Cfg η δ ε υ φ) (ho : SetOrder c.order) (es : List η) (hinj : ∀ a ∈ es, ∀ b ∈ es, c.uid a = c.uid b → a = b)
    (o : Option ε) (m : ℚ) (base out q : List (SRxn η δ ε)) (R : SRxn η δ ε → SRxn η δ ε → Prop) (hq : q.Perm base) (hR : List.Forall₂ R q out)
    (hsame : ∀ r ∈ base, ∀ r', R r r' → SameBut r r') (hes : ∀ r ∈ base, ∀ e ∈ r.entries, e ∈ es)
    (hmu : ∀ r ∈ base, r.chempots = (o.map fun e => (e, m)).toList) (given : Option (List η)) (hgiven : given = none ∨ given = some es) (hne : base ≠ []) :
    ∃ t p, fromRxns c.uid c.order out given none 0 = .ok t ∧ Built t ∧ p.Perm base ∧ List.Forall₂ R p (stored t) ∧ t.openElem = o ∧
      (o.isSome → t.chempot = m) := by
  have hback : ∀ r' ∈ out, ∃ r ∈ base, SameBut r r' := by
    intro r' hr'
    obtain ⟨i, hi, rfl⟩ := List.getElem_of_mem hr'
    have hi' : i < q.length := by rw [hR.length_eq]; exact hi
    have hmem : q[i] ∈ base := hq.mem_iff.mp (List.getElem_mem hi')
    exact ⟨q[i], hmem, hsame _ hmem _ (hR.get hi' hi)⟩
  have hone : out ≠ [] := by
    intro h
    rw [h, List.forall₂_nil_right_iff] at hR
    rw [hR] at hq
    exact hne (List.Perm.nil_eq hq).symm
  have hes' : ∀ r ∈ out, ∀ e ∈ r.entries, e ∈ es := by
    intro r' hr' e he
    obtain ⟨r, hr, hs⟩ := hback r' hr'
    rw [hs.1] at he
    exact hes r hr e he
  have hgs : ∀ e ∈ givenEntries out given, e ∈ es := by
    rcases hgiven with rfl | rfl
    · intro e he
      obtain ⟨r, hr, he⟩ := List.mem_flatMap.mp he
      exact hes' r hr e he
    · intro e he
      cases es with
      | nil =>
        obtain ⟨r, hr, he⟩ := List.mem_flatMap.mp he
        exact hes' r hr e he
      | cons a es => exact he
  have hsub : ∀ r ∈ out, ∀ e ∈ r.entries, e ∈ givenEntries out given := by
    intro r hr e he
    rcases hgiven with rfl | rfl
    · exact List.mem_flatMap.mpr ⟨r, hr, he⟩
    · have := hes' r hr e he
      cases es with
      | nil => simp at this
      | cons a es => exact this
  obtain ⟨t, t1, t2, t3, _, t5⟩ := fromRxns_same c.uid c.order ho o m out given
    (by
      intro r' hr'
      obtain ⟨r, hr, hs⟩ := hback r' hr'
      rw [hs.2.2]
      exact hmu r hr)
    hsub (fun a ha b hb => hinj a (hgs a ha) b (hgs b hb))
  obtain ⟨p, hp, hpq⟩ := List.perm_comp_forall₂ t3 hR.flip
  exact ⟨t, p, t1, t2, hpq.trans hq, hp.flip, t5 hone⟩

/-- What the two stages do to one reaction: `mu` are the potentials of the distance calculation. -/
def Scored (c : Cfg η δ ε υ φ) (pool : RSet η δ ε) (D : List (ε × ℚ) → SRxn η δ ε → SRxn η δ ε → Prop) (mu : List (ε × ℚ)) (r r' : SRxn η δ ε) : Prop :=
  ∃ x, (if c.competition then c.score pool r = .ok x else x = r) ∧ (if c.distances then D mu x r' else r' = x)

theorem mapM_rel {α β : Type} (f : α → Except Err β) (l : List α) (h : ∀ a ∈ l, ∃ b, f a = .ok b) :
    ∃ out, l.mapM f = .ok out ∧ List.Forall₂ (fun a b => f a = .ok b) l out := by
  induction l with
  | nil => exact ⟨[], rfl, .nil⟩
  | cons a l ih =>
    obtain ⟨b, hb⟩ := h a List.mem_cons_self
    obtain ⟨out, h1, h2⟩ := ih fun x hx => h x (List.mem_cons_of_mem _ hx)
    exact ⟨b :: out, by rw [mapM_cons, hb]; simp only [h1], .cons hb h2⟩

theorem forall₂_trans_perm {α : Type} (R S : α → α → Prop) (a b c d : List α) (h1 : List.Forall₂ R a b) (h2 : c.Perm b) (h3 : List.Forall₂ S c d) :
    ∃ e, e.Perm a ∧ List.Forall₂ (fun x z => ∃ y, R x y ∧ S y z) e d := by
  obtain ⟨e, he0, hp⟩ := List.perm_comp_forall₂ h2 h1.flip
  refine ⟨e, hp, ?_⟩
  have he : List.Forall₂ R e c := he0.flip
  clear h1 h2 hp he0
  induction h3 generalizing e with
  | nil => rw [List.forall₂_nil_right_iff] at he; subst he; exact .nil
  | cons hs _ ih =>
    cases he with
    | cons hr he => exact .cons ⟨_, hr, hs⟩ (ih _ he)

theorem chunkSize_ok (chunk nT nR cpus mem : ℕ) (hc : 0 < chunk) (hm : 250 * nR ≤ mem) :
    ∃ n, Verif.Model.Jobs.chunkSizeFor chunk nT nR cpus mem = .ok n ∧ 0 < n := by
  unfold Verif.Model.Jobs.chunkSizeFor
  split_ifs with h1 h2
  · rcases Nat.eq_zero_or_pos nR with h0 | h0
    · subst h0; simp at h1
    · have := Nat.div_eq_zero_iff.mp h2
      omega
  · exact ⟨_, rfl, Nat.succ_pos _⟩
  · exact ⟨_, rfl, hc⟩

/-- What is assumed of the settings and of the calculations for the target reactions `ts` at potentials `mu`. -/
structure Lawful (c : Cfg η δ ε υ φ) (D : List (ε × ℚ) → SRxn η δ ε → SRxn η δ ε → Prop) (ts : List (SRxn η δ ε)) : Prop where
  order : SetOrder c.order
  sizes : SetOrder c.so
  wait1 : Verif.Props.Utils.WaitSpec c.wait1
  wait2 : Verif.Props.Utils.WaitSpec c.wait2
  chunk : 0 < c.chunk
  sort : ∀ l, (c.sortSys l).Perm l
  /-- competition scores can be computed and only touch the data -/
  score : ∀ pool, ∀ r ∈ ts, (∃ r', c.score pool r = .ok r') ∧ ∀ r', c.score pool r = .ok r' → SameBut r r'
  /-- distances of a chunk can be computed, one result per reaction, and only touch the data -/
  dist : ∀ o m l, (∀ r ∈ l, ∃ t ∈ ts, SameBut t r) → ∃ out q, c.dist o m l = .ok out ∧ q.Perm l ∧
    List.Forall₂ (D (o.map fun e => (e, m)).toList) q out
  distSame : ∀ mu r r', D mu r r' → SameBut r r'

theorem sameBut_trans (a b d : SRxn η δ ε) (h : SameBut a b) (h' : SameBut b d) : SameBut a d :=
  ⟨h'.1.trans h.1, h'.2.1.trans h.2.1, h'.2.2.trans h.2.2⟩

theorem competition_ok (c : Cfg η δ ε υ φ) (D : List (ε × ℚ) → SRxn η δ ε → SRxn η δ ε → Prop) (T pool : RSet η δ ε) (hT : Built T)
    (law : Lawful c D (stored T)) (hpool : Built pool) (hmem : 250 * (stored pool).length ≤ c.memory) (hne : stored T ≠ [])
    (es : List η) (hinj : ∀ a ∈ es, ∀ b ∈ es, c.uid a = c.uid b → a = b) (hes : ∀ r ∈ stored T, ∀ e ∈ r.entries, e ∈ es)
    (o : Option ε) (m : ℚ) (hmu : ∀ r ∈ stored T, r.chempots = (o.map fun e => (e, m)).toList) :
    ∃ d p, competitionStage c T pool = .ok d ∧ Built d ∧ p.Perm (stored T) ∧ List.Forall₂ (fun r r' => c.score pool r = .ok r') p (stored d) ∧
      d.openElem = o ∧ (o.isSome → d.chempot = m) := by
  obtain ⟨n, hn, hn0⟩ := chunkSize_ok c.chunk (len T) (len pool) c.cpus c.memory law.chunk (by rw [← length_stored pool (built_wf pool hpool)]; exact hmem)
  obtain ⟨out, q, h1, h2, h3⟩ := chunked_rel c.wait1 law.wait1 (fun l => l.mapM (c.score pool)) n hn0 (stored T) (fun r r' => c.score pool r = .ok r') (by
    intro l' hl'
    obtain ⟨out, h1, h2⟩ := mapM_rel (c.score pool) l' fun a ha => (law.score pool a (hl' a ha)).1
    exact ⟨out, l', h1, .refl _, h2⟩)
  obtain ⟨t, p, t1, t2, t3, t4, t5, t6⟩ := restore c law.order es hinj o m (stored T) out q _ h2 h3 (fun r hr r' h => (law.score pool r hr).2 r' h) hes hmu
    none (.inl rfl) hne
  refine ⟨t, p, ?_, t2, t3, t4, t5, t6⟩
  unfold competitionStage
  rw [hn, getRxns_ok T (built_wf T hT)]
  simp only [bind, Except.bind]
  rw [h1]
  exact t1

theorem distance_ok (c : Cfg η δ ε υ φ) (D : List (ε × ℚ) → SRxn η δ ε → SRxn η δ ε → Prop) (ts : List (SRxn η δ ε)) (S : RSet η δ ε) (hS : Built S)
    (law : Lawful c D ts) (hts : ∀ r ∈ stored S, ∃ t ∈ ts, SameBut t r) (hne : stored S ≠ [])
    (es : List η) (hinj : ∀ a ∈ es, ∀ b ∈ es, c.uid a = c.uid b → a = b) (hes : ∀ r ∈ stored S, ∀ e ∈ r.entries, e ∈ es)
    (o : Option ε) (m : ℚ) (hmu : ∀ r ∈ stored S, r.chempots = (o.map fun e => (e, m)).toList) (ho : S.openElem = o) (hm : o.isSome → S.chempot = m) :
    ∃ d p, distanceStage c S = .ok d ∧ Built d ∧ p.Perm (stored S) ∧ List.Forall₂ (D (o.map fun e => (e, m)).toList) p (stored d) := by
  have hmu' : (S.openElem.map fun e => (e, S.chempot)).toList = (o.map fun e => (e, m)).toList := by
    rw [ho]
    cases o with
    | none => rfl
    | some e => rw [hm rfl]
  obtain ⟨out, q, h1, h2, h3⟩ := chunked_rel c.wait2 law.wait2 (c.dist S.openElem S.chempot) c.chunk law.chunk (c.sortSys (stored S))
    (D (o.map fun e => (e, m)).toList) (by
      intro l' hl'
      rw [← hmu']
      exact law.dist S.openElem S.chempot l' fun r hr => hts r ((law.sort _).mem_iff.mp (hl' r hr)))
  obtain ⟨t, p, t1, t2, t3, t4, _⟩ := restore c law.order es hinj o m (stored S) out q _ (h2.trans (law.sort _)) h3 (fun r _ r' h => law.distSame _ r r' h)
    hes hmu none (.inl rfl) hne
  refine ⟨t, p, ?_, t2, t3, t4⟩
  unfold distanceStage
  rw [getRxns_ok S (built_wf S hS)]
  simp only [bind, Except.bind]
  rw [h1]
  exact t1

theorem forall₂_self {α : Type} (l : List α) : List.Forall₂ (fun a b => b = a) l l := by
  induction l with
  | nil => exact .nil
  | cons a l ih => exact .cons rfl ih

theorem forall₂_back {α : Type} (R : α → α → Prop) (p l base : List α) (h : List.Forall₂ R p l) (hp : p.Perm base) (y : α) (hy : y ∈ l) :
    ∃ x ∈ base, R x y := by
  obtain ⟨i, hi, rfl⟩ := List.getElem_of_mem hy
  have hi' : i < p.length := by rw [h.length_eq]; exact hi
  exact ⟨p[i], hp.mem_iff.mp (List.getElem_mem hi'), h.get hi' hi⟩

theorem decorate_ok (c : Cfg η δ ε υ φ) (D : List (ε × ℚ) → SRxn η δ ε → SRxn η δ ε → Prop) (T pool : RSet η δ ε) (hT : Built T)
    (law : Lawful c D (stored T)) (hpool : Built pool) (hmem : 250 * (stored pool).length ≤ c.memory) (hne : stored T ≠ [])
    (es : List η) (hinj : ∀ a ∈ es, ∀ b ∈ es, c.uid a = c.uid b → a = b) (hes : ∀ r ∈ stored T, ∀ e ∈ r.entries, e ∈ es)
    (o : Option ε) (m : ℚ) (hmu : ∀ r ∈ stored T, r.chempots = (o.map fun e => (e, m)).toList) (ho : T.openElem = o) (hm : o.isSome → T.chempot = m) :
    ∃ d p, decorate c T pool = .ok d ∧ Built d ∧ p.Perm (stored T) ∧
      List.Forall₂ (Scored c pool D (o.map fun e => (e, m)).toList) p (stored d) := by
  have h1 : ∃ d p, (if c.competition then competitionStage c T pool else .ok T) = .ok d ∧ Built d ∧ p.Perm (stored T) ∧
      List.Forall₂ (fun r x => if c.competition then c.score pool r = .ok x else x = r) p (stored d) ∧ d.openElem = o ∧ (o.isSome → d.chempot = m) := by
    rcases Bool.eq_false_or_eq_true c.competition with hc | hc
    · simp only [hc, if_true]
      exact competition_ok c D T pool hT law hpool hmem hne es hinj hes o m hmu
    · simp only [hc, Bool.false_eq_true, if_false]
      exact ⟨T, stored T, rfl, hT, .refl _, forall₂_self _, ho, hm⟩
  obtain ⟨d, p, e1, e2, e3, e4, e5, e6⟩ := h1
  have hsame : ∀ r ∈ stored d, ∃ t ∈ stored T, SameBut t r := by
    intro r hr
    obtain ⟨x, hx, hR⟩ := forall₂_back _ p (stored d) (stored T) e4 e3 r hr
    refine ⟨x, hx, ?_⟩
    split_ifs at hR with hc
    · exact (law.score pool x hx).2 r hR
    · rw [hR]; exact ⟨rfl, rfl, rfl⟩
  unfold decorate
  rw [e1]
  rcases Bool.eq_false_or_eq_true c.distances with hd | hd
  · obtain ⟨d', p', f1, f2, f3, f4⟩ := distance_ok c D (stored T) d e2 law hsame
      (by
        intro h0
        rw [h0, List.forall₂_nil_right_iff] at e4
        rw [e4] at e3
        exact hne (List.Perm.nil_eq e3).symm)
      es hinj
      (by
        intro r hr e he
        obtain ⟨t, ht, hs⟩ := hsame r hr
        rw [hs.1] at he
        exact hes t ht e he)
      o m
      (by
        intro r hr
        obtain ⟨t, ht, hs⟩ := hsame r hr
        rw [hs.2.2]
        exact hmu t ht) e5 e6
    obtain ⟨e, g1, g2⟩ := forall₂_trans_perm _ _ _ _ _ _ e4 f3 f4
    refine ⟨d', e, ?_, f2, g1.trans e3, ?_⟩
    · simp only [hd, if_true]; exact f1
    · unfold Scored
      simp only [hd, if_true]
      exact g2
  · refine ⟨d, p, ?_, e2, e3, ?_⟩
    · simp only [hd, Bool.false_eq_true, if_false]
    · unfold Scored
      simp only [hd, Bool.false_eq_true, if_false]
      exact e4.imp fun a b h => ⟨b, h, rfl⟩

/-! ### C109 -/

/-- The open element and potential at which the reactions are read: as requested, or those of the first set if no open element is requested. -/
def potential (c : Cfg η δ ε υ φ) (s0 : RSet η δ ε) : Option ε × ℚ := match c.openElem with
  | some e => (some e, c.chempot)
  | none => (s0.openElem, s0.chempot)

/-- All reactions of all sets at these potentials. -/
def pooled (o : Option ε × ℚ) (ls : List (List (SRxn η δ ε))) : List (SRxn η δ ε) := ls.flatten.map (priced o.1 o.2)

/-- The reaction forms the target. -/
def Makes (formula : η → φ) (target : φ) (r : SRxn η δ ε) : Prop := ∃ e, produces r e ∧ formula e = target

/-- Every reactant of the reaction is a reactant of some reaction of `ts`. -/
def Competes (formula : η → φ) (ts : List (SRxn η δ ε)) (r : SRxn η δ ε) : Prop :=
  ∀ e, consumes r e → ∃ t ∈ ts, ∃ e', consumes t e' ∧ formula e' = formula e

/-- The inputs: sets over the same entries with clear coefficients, each reaction consuming something; exactly one entry has the target formula and it is
not the first; the given entries include those of the sets; memory for all reactions. -/
structure Inputs (c : Cfg η δ ε υ φ) (sets : List (RSet η δ ε)) (ls : List (List (SRxn η δ ε))) (es entries : List η) (target : φ) : Prop where
  setsOk : List.Forall₂ (fun s l => Built s ∧ s.entries = es ∧ getRxns s = .ok l) sets ls
  targetOk : ∃ k, es.findIdx? (fun e => decide (c.formula e = target)) = some (k + 1) ∧ ∀ i e, es[i]? = some e → c.formula e = target → i = k + 1
  clear : ∀ r ∈ ls.flatten, Clear r
  reactant : ∀ r ∈ ls.flatten, ∃ e, consumes r e
  given : ∀ e ∈ es, e ∈ entries
  ids : ∀ a ∈ entries, ∀ b ∈ entries, c.uid a = c.uid b → a = b
  memory : 250 * ls.flatten.length ≤ c.memory

theorem stored_entries (s : RSet η δ ε) (r : SRxn η δ ε) (hr : r ∈ stored s) (e : η) (he : e ∈ r.entries) : e ∈ s.entries := by
  obtain ⟨p, _, ht⟩ := List.mem_flatMap.mp hr
  obtain ⟨t, _, rfl⟩ := List.mem_map.mp ht
  obtain ⟨i, _, hi⟩ := List.mem_filterMap.mp he
  exact List.mem_of_getElem? hi

theorem stored_chempots (s : RSet η δ ε) (r : SRxn η δ ε) (hr : r ∈ stored s) : r.chempots = (s.openElem.map fun e => (e, s.chempot)).toList := by
  obtain ⟨p, _, ht⟩ := List.mem_flatMap.mp hr
  obtain ⟨t, _, rfl⟩ := List.mem_map.mp ht
  exact muDict_eq s _ _ rfl rfl

/-- The combined, reopened set. -/
theorem combined (c : Cfg η δ ε υ φ) (hso : SetOrder c.so) (s0 : RSet η δ ε) (rest : List (RSet η δ ε)) (ls : List (List (SRxn η δ ε))) (es : List η)
    (h : List.Forall₂ (fun s l => Built s ∧ s.entries = es ∧ getRxns s = .ok l) (s0 :: rest) ls) :
    ∃ s, combine c.so (s0 :: rest) = .ok s ∧ Built (reopen c.openElem c.chempot s) ∧
      Acc es (potential c s0).1 (potential c s0).2 (reopen c.openElem c.chempot s) ls.flatten := by
  cases h with
  | @cons _ l0 _ ls h0 hrest =>
    have a0 := acc_self s0 h0.1
    rw [h0.2.1] at a0
    have hl : stored s0 = l0 := Except.ok.inj ((getRxns_ok s0 (built_wf s0 h0.1)).symm.trans h0.2.2)
    rw [hl] at a0
    obtain ⟨s, h1, h2, h3⟩ := fold_acc c.so hso es _ _ rest ls hrest s0 l0 h0.1 a0
    refine ⟨s, h1, ?_⟩
    rw [List.flatten_cons]
    unfold potential
    cases c.openElem with
    | none => exact ⟨h2, h3⟩
    | some e => exact reopen_acc es _ _ e c.chempot s _ h2 h3

/-- The target reactions found by the query. -/
theorem targets_ok (c : Cfg η δ ε υ φ) (hso : SetOrder c.so) (s0 : RSet η δ ε) (rest : List (RSet η δ ε)) (ls : List (List (SRxn η δ ε)))
    (es entries : List η) (target : φ) (inp : Inputs c (s0 :: rest) ls es entries target)
    [DecidablePred fun r : SRxn η δ ε => ∃ e, produces r e ∧ decide (c.formula e = target) = true] :
    ∃ s all T, combine c.so (s0 :: rest) = .ok s ∧ all = reopen c.openElem c.chempot s ∧ Built all ∧
      Acc es (potential c s0).1 (potential c s0).2 all ls.flatten ∧
      byProductSet all (fun e => decide (c.formula e = target)) = .ok (some T) ∧ Built T ∧
      stored T = (stored all).filter (fun r => decide (∃ e, produces r e ∧ decide (c.formula e = target) = true)) ∧
      T.openElem = (potential c s0).1 ∧ T.chempot = (potential c s0).2 := by
  obtain ⟨s, h1, h2, h3⟩ := combined c hso s0 rest ls es inp.setsOk
  obtain ⟨k, hk, huniq⟩ := inp.targetOk
  have hclear : ∀ r ∈ stored (reopen c.openElem c.chempot s), Clear r := by
    intro r hr
    obtain ⟨q, hq, rfl⟩ := List.mem_map.mp (h3.rxns.mem_iff.mp hr)
    exact inp.clear q hq
  obtain ⟨T, t1, t2, t3, _, t5, t6⟩ := byProductSet_ok (reopen c.openElem c.chempot s) h2 (fun e => decide (c.formula e = target)) k
    (by rw [h3.entries]; exact hk) (fun i e hi he => huniq i e (h3.entries ▸ hi) (of_decide_eq_true he)) hclear
  exact ⟨s, _, T, h1, rfl, h2, h3, t1, t2, t3, t5.trans h3.elem, t6.trans h3.pot⟩

open scoped Classical in
/-- The job returns exactly the reactions of all sets that form the target, each as often as it occurs, at the requested potential (or that of the first
set), each with the requested scores, computed against all reactions that start from reactants of target reactions: for every chunk size, memory size and
schedule. Missing for the full statement: see the counterexamples below. -/
theorem C109_scored_partial (c : Cfg η δ ε υ φ) (s0 : RSet η δ ε) (rest : List (RSet η δ ε)) (ls : List (List (SRxn η δ ε)))
    (es entries : List η) (target : φ) (inp : Inputs c (s0 :: rest) ls es entries target)
    (D : List (ε × ℚ) → SRxn η δ ε → SRxn η δ ε → Prop)
    (law : Lawful c D ((pooled (potential c s0) ls).filter fun r => decide (Makes c.formula target r)))
    (hsome : ∃ r ∈ pooled (potential c s0) ls, Makes c.formula target r) :
    ∃ s out ts pool competing, make c (s0 :: rest) entries target = .ok s ∧ getRxns s = .ok out ∧
      ts.Perm ((pooled (potential c s0) ls).filter fun r => decide (Makes c.formula target r)) ∧
      getRxns pool = .ok competing ∧ competing.Perm ((pooled (potential c s0) ls).filter fun r => decide (Competes c.formula ts r)) ∧
      List.Forall₂ (Scored c pool D ((potential c s0).1.map fun e => (e, (potential c s0).2)).toList) ts out := by
  obtain ⟨s, all, T, h1, h2, h3, h4, h5, h6, h7, h8, h9⟩ := targets_ok c law.sizes s0 rest ls es entries target inp
  set F := pooled (potential c s0) ls with hF
  have hall : (stored all).Perm F := h4.rxns
  have hTF : (stored T).Perm (F.filter fun r => decide (Makes c.formula target r)) := by
    rw [h7]
    refine (hall.filter _).trans (List.Perm.of_eq ?_)
    apply List.filter_congr
    intro r _
    rw [Bool.eq_iff_iff, decide_eq_true_iff, decide_eq_true_iff]
    simp only [Makes, decide_eq_true_iff]
  have lawT : Lawful c D (stored T) := by
    refine ⟨law.order, law.sizes, law.wait1, law.wait2, law.chunk, law.sort, fun pool r hr => law.score pool r (hTF.mem_iff.mp hr), ?_, law.distSame⟩
    intro o m l hl
    refine law.dist o m l fun r hr => ?_
    obtain ⟨t, ht, hs⟩ := hl r hr
    exact ⟨t, hTF.mem_iff.mp ht, hs⟩
  have hne : stored T ≠ [] := by
    obtain ⟨r, hr, hm⟩ := hsome
    exact List.ne_nil_of_mem (hTF.mem_iff.mpr (List.mem_filter.mpr ⟨hr, decide_eq_true hm⟩))
  have hback : ∀ r ∈ stored all, ∃ q ∈ ls.flatten, r = priced (potential c s0).1 (potential c s0).2 q := by
    intro r hr
    obtain ⟨q, hq, rfl⟩ := List.mem_map.mp (h4.rxns.mem_iff.mp hr)
    exact ⟨q, hq, rfl⟩
  have hTall : ∀ r ∈ stored T, r ∈ stored all := by
    intro r hr
    rw [h7] at hr
    exact (List.mem_filter.mp hr).1
  have hfs : ∀ e, c.formula e ∈ reactantFormulas c (stored T) ↔ ∃ t ∈ stored T, ∃ e', consumes t e' ∧ c.formula e' = c.formula e := by
    intro e
    unfold reactantFormulas
    rw [List.mem_flatMap]
    constructor
    · rintro ⟨t, ht, hm⟩
      obtain ⟨⟨e', x⟩, hp, he⟩ := List.mem_map.mp hm
      obtain ⟨hz, hx⟩ := List.mem_filter.mp hp
      exact ⟨t, ht, e', ⟨x, hz, of_decide_eq_true hx⟩, he⟩
    · rintro ⟨t, ht, e', ⟨x, hz, hx⟩, he⟩
      exact ⟨t, ht, List.mem_map.mpr ⟨(e', x), List.mem_filter.mpr ⟨hz, decide_eq_true hx⟩, he⟩⟩
  obtain ⟨pool, p1, p2, p3⟩ := byReactantsSet_ok all h3 (fun e => decide (c.formula e ∈ reactantFormulas c (stored T)))
    (by
      intro r hr
      obtain ⟨q, hq, rfl⟩ := hback r hr
      exact inp.reactant q hq)
    (by
      intro r hr
      obtain ⟨q, hq, rfl⟩ := hback r hr
      exact inp.clear q hq)
    (by
      obtain ⟨r, hr⟩ := List.exists_mem_of_ne_nil _ hne
      obtain ⟨q, hq, hrq⟩ := hback r (hTall r hr)
      obtain ⟨e, he⟩ := inp.reactant q hq
      have hce : consumes r e := by rw [hrq]; exact he
      refine ⟨e, ?_, decide_eq_true ((hfs e).mpr ⟨r, hr, e, hce, rfl⟩)⟩
      obtain ⟨x, hx, _⟩ := hce
      exact stored_entries all r (hTall r hr) e (List.of_mem_zip hx).1)
  have hpoolF : (stored pool).Perm (F.filter fun r => decide (Competes c.formula (stored T) r)) := by
    rw [p3]
    refine (hall.filter _).trans (List.Perm.of_eq ?_)
    apply List.filter_congr
    intro r _
    rw [Bool.eq_iff_iff, decide_eq_true_iff, decide_eq_true_iff]
    simp only [Competes, decide_eq_true_iff, hfs]
  have hlen : (stored pool).length ≤ ls.flatten.length := by
    rw [p3]
    refine (List.length_filter_le _ _).trans ?_
    rw [h4.rxns.length_eq, List.length_map]
  have hent : all.entries = es := h4.entries
  have hesT : ∀ r ∈ stored T, ∀ e ∈ r.entries, e ∈ entries := fun r hr e he =>
    inp.given e (hent ▸ stored_entries all r (hTall r hr) e he)
  have hmuT : ∀ r ∈ stored T, r.chempots = ((potential c s0).1.map fun e => (e, (potential c s0).2)).toList := by
    intro r hr
    rw [stored_chempots T r hr, h8, h9]
  obtain ⟨d, p, d1, d2, d3, d4⟩ := decorate_ok c D T pool h6 lawT p2 (le_trans (Nat.mul_le_mul_left _ hlen) inp.memory) hne entries inp.ids hesT
    (potential c s0).1 (potential c s0).2 hmuT h8 (fun _ => h9)
  obtain ⟨t, q, t1, t2, t3, t4, _, _⟩ := restore c law.order entries inp.ids (potential c s0).1 (potential c s0).2 (stored T) (stored d) p _ d3 d4
    (by
      intro r hr r' hs
      obtain ⟨x, hx1, hx2⟩ := hs
      have k1 : SameBut r x := by
        split_ifs at hx1
        · exact (lawT.score pool r hr).2 x hx1
        · rw [hx1]; exact ⟨rfl, rfl, rfl⟩
      have k2 : SameBut x r' := by
        split_ifs at hx2
        · exact law.distSame _ x r' hx2
        · rw [hx2]; exact ⟨rfl, rfl, rfl⟩
      exact sameBut_trans r x r' k1 k2)
    hesT hmuT (some entries) (.inr rfl) hne
  refine ⟨t, stored t, q, pool, stored pool, ?_, getRxns_ok t (built_wf t t2), t3.trans hTF, getRxns_ok pool (built_wf pool p2), ?_, t4⟩
  · unfold make
    rw [h1]
    simp only [bind, Except.bind]
    rw [← h2, h5]
    simp only
    unfold finish
    rw [if_neg (by rw [← length_stored T (built_wf T h6)]; simpa using hne), getRxns_ok T (built_wf T h6)]
    simp only [bind, Except.bind]
    rw [p1]
    simp only
    rw [d1]
    simp only [getRxns_ok d (built_wf d d2)]
    exact t1
  · refine hpoolF.trans (List.Perm.of_eq ?_)
    apply List.filter_congr
    intro r _
    rw [Bool.eq_iff_iff, decide_eq_true_iff, decide_eq_true_iff]
    have hm : ∀ t, t ∈ q ↔ t ∈ stored T := fun t => t3.mem_iff
    simp only [Competes, hm]

/-- If no reaction forms the target the job raises `ValueError`. -/
theorem C109_none_partial (c : Cfg η δ ε υ φ) (hso : SetOrder c.so) (s0 : RSet η δ ε) (rest : List (RSet η δ ε)) (ls : List (List (SRxn η δ ε)))
    (es entries : List η) (target : φ) (inp : Inputs c (s0 :: rest) ls es entries target)
    (hnone : ∀ r ∈ ls.flatten, ¬ Makes c.formula target r) :
    make c (s0 :: rest) entries target = .error .valueError := by
  classical
  obtain ⟨s, all, T, h1, h2, h3, h4, h5, h6, h7, h8, h9⟩ := targets_ok c hso s0 rest ls es entries target inp
  have h0 : stored T = [] := by
    rw [h7, List.filter_eq_nil_iff]
    intro r hr hm
    obtain ⟨q, hq, rfl⟩ := List.mem_map.mp (h4.rxns.mem_iff.mp hr)
    obtain ⟨e, he, hf⟩ := of_decide_eq_true hm
    exact hnone q hq ⟨e, he, of_decide_eq_true hf⟩
  have hlen : len T = 0 := by rw [← length_stored T (built_wf T h6), h0]; rfl
  unfold make
  rw [h1]
  simp only [bind, Except.bind]
  rw [← h2, h5]
  simp only
  unfold finish
  rw [if_pos hlen]

/-- Sets over different entries cannot be combined. -/
theorem C109_mismatch (c : Cfg η δ ε υ φ) (hso : SetOrder c.so) (s0 : RSet η δ ε) (pre post : List (RSet η δ ε)) (ls : List (List (SRxn η δ ε)))
    (h : List.Forall₂ (fun s l => Built s ∧ s.entries = s0.entries ∧ getRxns s = .ok l) (s0 :: pre) ls) (s : RSet η δ ε) (hs : s.entries ≠ s0.entries)
    (entries : List η) (target : φ) : make c (s0 :: pre ++ s :: post) entries target = .error .valueError := by
  have hc : combine c.so (s0 :: pre ++ s :: post) = .error .valueError := by
    cases h with
    | @cons _ l0 _ ls h0 hrest =>
      obtain ⟨s1, h1, _, a1⟩ := fold_acc c.so hso s0.entries _ _ pre ls hrest s0 _ h0.1 (acc_self s0 h0.1)
      show (pre ++ s :: post).foldlM (addRxnSet c.so) s0 = _
      rw [List.foldlM_append, h1]
      simp only [bind, Except.bind, List.foldlM_cons]
      have : addRxnSet c.so s1 s = .error .valueError := by
        unfold addRxnSet
        exact if_pos (by rw [a1.entries]; exact hs.symm)
      rw [this]
  unfold make
  rw [hc]
  rfl

/-- Without a single set of reactions the job fails. -/
theorem C109_no_sets (c : Cfg η δ ε υ φ) (entries : List η) (target : φ) : make c [] entries target = .error .indexError := rfl

/-! ### Witnesses -/

/-- The task that was submitted last finishes first. -/
def lastWait {ι : Type} (_ : ℕ) (l : List ι) : List ι × List ι := match l.reverse with
  | [] => ([], [])
  | a :: r => ([a], r)

theorem lastWait_spec {ι : Type} : Verif.Props.Utils.WaitSpec (lastWait (ι := ι)) := by
  intro t refs hne
  unfold lastWait
  cases h : refs.reverse with
  | nil => exact absurd (List.reverse_eq_nil_iff.mp h) hne
  | cons a r => exact ⟨a, rfl, h ▸ List.reverse_perm refs⟩

/-- Chunks of one reaction; the competition score is a hundred times the number of competing reactions, the distance adds a thousand. -/
def cfgEx (openElem : Option ℕ) (memory : ℕ) : Cfg ℕ ℕ ℕ ℕ ℕ where
  uid := id
  order := List.dedup
  so := List.dedup
  formula := id
  openElem := openElem
  chempot := -2
  competition := true
  distances := true
  chunk := 1
  cpus := 2
  memory := memory
  score := fun pool r => .ok { r with data := r.data + 100 * len pool }
  dist := fun _ _ l => .ok (l.map fun r => { r with data := r.data + 1000 })
  sortSys := id
  wait1 := lastWait
  wait2 := lastWait

/-- `1 → 2`, `1 + 3 → 2` and `3 → 1`. -/
def setA : RSet ℕ ℕ ℕ := mk [1, 2, 3] [(2, [[0, 1], [2, 0]]), (3, [[0, 2, 1]])] [(2, [[-1, 1], [-1, 1]]), (3, [[-1, -1, 2]])] none 0
  (some [(2, [1, 2]), (3, [3])])

/-- `3 → 2` at the potential `5` of the open element `8`. -/
def setB : RSet ℕ ℕ ℕ := mk [1, 2, 3] [(2, [[2, 1]])] [(2, [[-1, 1]])] (some 8) 5 (some [(2, [4])])

example : (make (cfgEx (some 8) 100000) [setA, setB] [1, 2, 3] 2 >>= getRxns) =
    .ok [⟨[1, 3, 2], [-1, -1, 2], 1403, [(8, -2)]⟩, ⟨[3, 2], [-1, 1], 1404, [(8, -2)]⟩, ⟨[1, 2], [-1, 1], 1401, [(8, -2)]⟩] := by decide +kernel

/-- Without an open element the potential of whichever set comes first is used: a closed request returns reactions at an open potential. -/
theorem C109_closed_violated :
    (make (cfgEx none 100000) [setB, setA] [1, 2, 3] 2 >>= getRxns) =
      .ok [⟨[1, 2], [-1, 1], 1401, [(8, 5)]⟩, ⟨[3, 2], [-1, 1], 1404, [(8, 5)]⟩, ⟨[1, 3, 2], [-1, -1, 2], 1403, [(8, 5)]⟩] ∧
    (make (cfgEx none 100000) [setA, setB] [1, 2, 3] 2 >>= getRxns) =
      .ok [⟨[1, 3, 2], [-1, -1, 2], 1403, []⟩, ⟨[3, 2], [-1, 1], 1404, []⟩, ⟨[1, 2], [-1, 1], 1401, []⟩] := by decide +kernel

/-- Reactions that form the phase stored first are not found: the job raises although there is such a reaction (`3 → 1`). -/
theorem C109_first_entry_violated :
    make (cfgEx none 100000) [setA] [1, 2, 3] 1 = .error .valueError ∧
    ∃ r, r ∈ stored setA ∧ Makes (id : ℕ → ℕ) 1 r := by
  refine ⟨by decide +kernel, ⟨[3, 1], [-1, 1], 2, []⟩, by decide +kernel, 1, ⟨1, by decide +kernel, by norm_num⟩, rfl⟩

/-- With too little memory for the competing reactions the job divides by zero. -/
theorem C109_memory_violated : make (cfgEx none 700) [setA] [1, 2, 3] 2 = .error .zeroDivision := by decide +kernel

theorem setA_built : Built setA :=
  .fromRxns id (fun l => if l.dedup.length = 3 then l.dedup.insertionSort (· ≤ ·) else l.dedup)
    [⟨[1, 2], [-1, 1], 1, []⟩, ⟨[3, 1], [-1, 1], 2, []⟩, ⟨[1, 3, 2], [-1, -1, 2], 3, []⟩] none none 0 _ (by
      intro l
      simp only
      split_ifs
      · exact ⟨(List.perm_insertionSort _ _).nodup_iff.mpr (List.nodup_dedup l), fun x => by
          rw [(List.perm_insertionSort _ _).mem_iff]; exact List.mem_dedup⟩
      · exact ⟨List.nodup_dedup l, fun x => List.mem_dedup⟩) (by decide +kernel)

theorem setB_built : Built setB :=
  .fromRxns id List.dedup [⟨[3, 2], [-1, 1], 4, []⟩] (some [1, 2, 3]) (some 8) 5 _ setOrder_dedup (by decide +kernel)

/-- The hypotheses of the main theorem hold for these inputs. -/
example : Inputs (cfgEx (some 8) 100000) [setA, setB]
      [[⟨[1, 2], [-1, 1], 1, []⟩, ⟨[3, 1], [-1, 1], 2, []⟩, ⟨[1, 3, 2], [-1, -1, 2], 3, []⟩], [⟨[3, 2], [-1, 1], 4, [(8, 5)]⟩]] [1, 2, 3] [1, 2, 3] 2 ∧
    Lawful (cfgEx (some 8) 100000) (fun _ r r' => r' = { r with data := r.data + 1000 }) [⟨[1, 2], [-1, 1], 1, [(8, -2)]⟩] := by
  constructor
  · refine ⟨.cons ⟨setA_built, rfl, by decide +kernel⟩ (.cons ⟨setB_built, rfl, by decide +kernel⟩ .nil), ⟨0, by decide, ?_⟩, ?_, ?_, fun _ h => h, ?_, ?_⟩
    · intro i e hi he
      have : i < 3 := (List.getElem?_eq_some_iff.mp hi).1
      have he : e = 2 := he
      subst he
      match i, this with
      | 0, _ => simp at hi
      | 1, _ => rfl
      | 2, _ => simp at hi
    · unfold Clear
      decide +kernel
    · intro r hr
      simp only [List.flatten_cons, List.flatten_nil, List.append_nil, List.cons_append, List.nil_append, List.mem_cons, List.not_mem_nil, or_false] at hr
      rcases hr with rfl | rfl | rfl | rfl
      · exact ⟨1, -1, by decide +kernel, by norm_num⟩
      · exact ⟨3, -1, by decide +kernel, by norm_num⟩
      · exact ⟨1, -1, by decide +kernel, by norm_num⟩
      · exact ⟨3, -1, by decide +kernel, by norm_num⟩
    · exact fun _ _ _ _ h => h
    · show 250 * 4 ≤ 100000
      norm_num
  · refine ⟨setOrder_dedup, setOrder_dedup, lastWait_spec, lastWait_spec, by decide, fun _ => .refl _, ?_, ?_, ?_⟩
    · intro pool r _
      refine ⟨⟨_, rfl⟩, ?_⟩
      intro r' h
      rw [← Except.ok.inj h]
      exact ⟨rfl, rfl, rfl⟩
    · intro o m l _
      refine ⟨_, l, rfl, .refl _, ?_⟩
      rw [List.forall₂_map_right_iff]
      exact List.forall₂_same.mpr fun _ _ => rfl
    · intro mu r r' h
      rw [h]
      exact ⟨rfl, rfl, rfl⟩

end Verif.Props.SynthJob
