import Verif.Props.RxnSetChempot

/-! Property C156: the operations on reaction sets can be done in any order (src/rxn_network/reactions/reaction_set.py:303-570). -/

set_option linter.unusedSectionVars false

namespace Verif.Props.SetAlgebra
open Verif.Py Verif.Model.RxnSet Verif.Lemmas.RxnSet Verif.Lemmas.Exc Verif.Lemmas.Dict Verif.Spec.RxnSet Verif.Props.RxnSet

variable {η δ ε υ κ : Type} [DecidableEq η] [DecidableEq ε] [DecidableEq υ] [DecidableEq κ]

/-- The reaction at the given chemical potential of the given element (none: a closed reaction). -/
def atPotential (o : Option ε) (m : Option ℚ) (r : SRxn η δ ε) : SRxn η δ ε :=
  { r with chempots := (o.map fun e => (e, m.getD 0)).toList }

/-- The reaction with its entries replaced. -/
def atNew (f : η → η) (r : SRxn η δ ε) : SRxn η δ ε := { r with entries := r.entries.map f }

theorem mapM_map_out {α β γ : Type} (f : α → Except Err β) (g : β → γ) (l : List α) :
    (l.mapM fun x => (f x).map g) = (l.mapM f).map (List.map g) := by
  induction l with
  | nil => rfl
  | cons a l ih =>
    rw [List.mapM_cons, List.mapM_cons, ih]
    cases f a with
    | error e => rfl
    | ok b =>
      cases l.mapM f with
      | error e => rfl
      | ok bs => rfl

theorem buildRxn_chempot (s : RSet η δ ε) (o : Option ε) (m : Option ℚ) (row : List ℕ × List ℚ × δ) :
    buildRxn (setChempot s o m) row = (buildRxn s row).map (atPotential o m) := by
  unfold buildRxn
  show (row.1.mapM (getIdx s.entries)).map _ = _
  cases row.1.mapM (getIdx s.entries) with
  | error e => rfl
  | ok es =>
    show Except.ok _ = Except.ok _
    unfold atPotential muDict setChempot mk
    cases o <;> rfl

theorem rows_chempot (s : RSet η δ ε) (o : Option ε) (m : Option ℚ) (rows : List (List ℕ × List ℚ × δ)) :
    rows.mapM (buildRxn (setChempot s o m)) = (rows.mapM (buildRxn s)).map (List.map (atPotential o m)) := by
  rw [← mapM_map_out]
  congr 1
  funext row
  exact buildRxn_chempot s o m row

theorem flatten_chempot {α : Type} (o : Option ε) (m : Option ℚ) (f g : α → Except Err (List (SRxn η δ ε)))
    (h : ∀ x, f x = (g x).map (List.map (atPotential o m))) (l : List α) :
    (l.mapM f).map List.flatten = ((l.mapM g).map List.flatten).map (List.map (atPotential o m)) := by
  have hf : f = fun x => (g x).map (List.map (atPotential o m)) := funext h
  rw [hf, mapM_map_out]
  cases l.mapM g with
  | error e => rfl
  | ok ls =>
    show Except.ok _ = Except.ok _
    rw [List.map_flatten]

theorem getRxns_chempot (s : RSet η δ ε) (o : Option ε) (m : Option ℚ) :
    getRxns (setChempot s o m) = (getRxns s).map (List.map (atPotential o m)) := by
  unfold getRxns
  apply flatten_chempot
  intro p
  unfold sizeRxns
  show (do let cs ← getKey s.coeffs p.1; let ds ← getKey s.data p.1; (p.2.zip (cs.zip ds)).mapM (buildRxn (setChempot s o m))) = _
  cases getKey s.coeffs p.1 with
  | error e => rfl
  | ok cs =>
    cases getKey s.data p.1 with
    | error e => rfl
    | ok ds => exact rows_chempot s o m _

theorem byIndices_chempot (s : RSet η δ ε) (o : Option ε) (m : Option ℚ) (idxs : List (ℕ × List ℕ)) :
    rxnsByIndices (setChempot s o m) idxs = (rxnsByIndices s idxs).map (List.map (atPotential o m)) := by
  unfold rxnsByIndices
  apply flatten_chempot
  intro p
  unfold pickedRxns
  show (do
    let is ← pick (← getKey s.indices p.1) p.2
    let cs ← pick (← getKey s.coeffs p.1) p.2
    let ds ← pick (← getKey s.data p.1) p.2
    (is.zip (cs.zip ds)).mapM (buildRxn (setChempot s o m))) = _
  cases getKey s.indices p.1 with
  | error e => rfl
  | ok is =>
    cases h1 : pick is p.2 with
    | error e => simp [bind, Except.bind, h1, Except.map]
    | ok is' =>
      cases getKey s.coeffs p.1 with
      | error e => simp [bind, Except.bind, h1, Except.map]
      | ok cs =>
        cases h2 : pick cs p.2 with
        | error e => simp [bind, Except.bind, h1, h2, Except.map]
        | ok cs' =>
          cases getKey s.data p.1 with
          | error e => simp [bind, Except.bind, h1, h2, Except.map]
          | ok ds =>
            cases h3 : pick ds p.2 with
            | error e => simp [bind, Except.bind, h1, h2, h3, Except.map]
            | ok ds' =>
              simp only [bind, Except.bind, h1, h2, h3]
              exact rows_chempot s o m _

/-! ### The potential of the open element -/

/-- Merging and setting a potential: in either order the same set results, and the same failures. This holds for any two sets, also at different
potentials. -/
theorem C156_chempot_merge (so : List ℕ → List ℕ) (a b : RSet η δ ε) (o : Option ε) (m : Option ℚ) :
    (addRxnSet so a b).map (fun s => setChempot s o m) = addRxnSet so (setChempot a o m) (setChempot b o m) := by
  unfold addRxnSet
  show Except.map _ (if a.entries ≠ b.entries then _ else _) = if a.entries ≠ b.entries then _ else _
  by_cases he : a.entries ≠ b.entries
  · rw [if_pos he, if_pos he]; rfl
  · rw [if_neg he, if_neg he]
    show Except.map _ (Except.bind _ fun i => Except.bind _ fun c => Except.bind _ fun d => _) = Except.bind _ _
    generalize hi : (so (a.indices.map Prod.fst ++ b.indices.map Prod.fst)).mapM (fun n => mergeAt (decide (n ∈ a.indices.map Prod.fst))
      (decide (n ∈ b.indices.map Prod.fst)) a.indices b.indices n) = ri
    generalize hc : (so (a.indices.map Prod.fst ++ b.indices.map Prod.fst)).mapM (fun n => mergeAt (decide (n ∈ a.indices.map Prod.fst))
      (decide (n ∈ b.indices.map Prod.fst)) a.coeffs b.coeffs n) = rc
    generalize hd : (so (a.indices.map Prod.fst ++ b.indices.map Prod.fst)).mapM (fun n => mergeAt (decide (n ∈ a.indices.map Prod.fst))
      (decide (n ∈ b.indices.map Prod.fst)) a.data b.data n) = rd
    show _ = Except.bind ((so (a.indices.map Prod.fst ++ b.indices.map Prod.fst)).mapM (fun n => mergeAt (decide (n ∈ a.indices.map Prod.fst))
      (decide (n ∈ b.indices.map Prod.fst)) a.indices b.indices n)) fun i =>
      Except.bind ((so (a.indices.map Prod.fst ++ b.indices.map Prod.fst)).mapM (fun n => mergeAt (decide (n ∈ a.indices.map Prod.fst))
      (decide (n ∈ b.indices.map Prod.fst)) a.coeffs b.coeffs n)) fun c =>
      Except.bind ((so (a.indices.map Prod.fst ++ b.indices.map Prod.fst)).mapM (fun n => mergeAt (decide (n ∈ a.indices.map Prod.fst))
      (decide (n ∈ b.indices.map Prod.fst)) a.data b.data n)) fun d => _
    rw [hi, hc, hd]
    cases ri with
    | error e => rfl
    | ok i =>
      cases rc with
      | error e => rfl
      | ok c =>
        cases rd with
        | error e => rfl
        | ok d => rfl

/-- Two sets over the same entries, at whatever potentials, merged and then put at one potential: exactly the reactions of both, all at that potential. -/
theorem C156_merge_potential (so : List ℕ → List ℕ) (ho : SetOrder so) (a b : RSet η δ ε) (ha : Built a) (hb : Built b) (he : a.entries = b.entries)
    (o : Option ε) (m : Option ℚ) :
    ∃ s la lb l, addRxnSet so a b = .ok s ∧ getRxns a = .ok la ∧ getRxns b = .ok lb ∧ getRxns (setChempot s o m) = .ok l ∧
      l.Perm ((la ++ lb).map (atPotential o m)) := by
  obtain ⟨s', la, lb, l, h1, h2, h3, h4, h5, -⟩ := C22_union_partial so ho (setChempot a o m) (setChempot b o m) (.setChempot a o m ha)
    (.setChempot b o m hb) he ⟨rfl, rfl⟩
  rw [← C156_chempot_merge] at h1
  cases hs : addRxnSet so a b with
  | error e => rw [hs] at h1; cases h1
  | ok s =>
    rw [hs] at h1
    have h1 := Except.ok.inj h1
    subst h1
    rw [getRxns_chempot] at h2 h3
    cases hla : getRxns a with
    | error e => rw [hla] at h2; cases h2
    | ok la' =>
      cases hlb : getRxns b with
      | error e => rw [hlb] at h3; cases h3
      | ok lb' =>
        rw [hla] at h2
        rw [hlb] at h3
        have h2 := Except.ok.inj h2
        have h3 := Except.ok.inj h3
        refine ⟨s, la', lb', l, rfl, rfl, rfl, h4, ?_⟩
        rw [List.map_append, h2, h3]
        exact h5

/-- Selecting by reactants or by product and setting a potential: in either order the same reactions, at that potential. -/
theorem C156_chempot_queries (s : RSet η δ ε) (o : Option ε) (m : Option ℚ) (p : η → Bool) :
    byReactants (setChempot s o m) p = (byReactants s p).map (List.map (atPotential o m)) ∧
    byProduct (setChempot s o m) p = (byProduct s p).map (List.map (atPotential o m)) := by
  constructor
  · unfold byReactants
    show (if positions s.entries p = [] then Except.ok [] else
      (selectRows s (reactantTest (positions s.entries p))) >>= rxnsByIndices (setChempot s o m)) = _
    split_ifs
    · rfl
    · cases selectRows s (reactantTest (positions s.entries p)) with
      | error e => rfl
      | ok idxs => exact byIndices_chempot s o m idxs
  · unfold byProduct
    show (match s.entries.findIdx? p with
      | none => Except.ok []
      | some 0 => Except.ok []
      | some (k + 1) => (selectRows s (productTest (k + 1))) >>= rxnsByIndices (setChempot s o m)) = _
    cases s.entries.findIdx? p with
    | none => rfl
    | some k =>
      cases k with
      | zero => rfl
      | succ k =>
        show _ = Except.map _ ((selectRows s (productTest (k + 1))) >>= rxnsByIndices s)
        show (selectRows s (productTest (k + 1))) >>= rxnsByIndices (setChempot s o m) = _
        cases selectRows s (productTest (k + 1)) with
        | error e => rfl
        | ok idxs => exact byIndices_chempot s o m idxs

/-- Removing duplicates and setting a potential: in either order the same set, or the same failure. The reactions to be kept may be given at any
potential. -/
theorem C156_chempot_duplicates (argsort : List ℚ → List ℕ) (groupBy : List (List ℕ) → List (List ℕ)) (s : RSet η δ ε)
    (ensure ensure' : List (SRxn η δ ε)) (hens : ensure.map (fun r => (r.entries, r.coeffs)) = ensure'.map fun r => (r.entries, r.coeffs))
    (o : Option ε) (m : Option ℚ) :
    filterDuplicates argsort groupBy (setChempot s o m) ensure' = (filterDuplicates argsort groupBy s ensure).map fun t => setChempot t o m := by
  have hfind : ensure'.mapM (findRow (setChempot s o m)) = ensure.mapM (findRow s) := by
    induction ensure generalizing ensure' with
    | nil =>
      cases ensure' with
      | nil => rfl
      | cons r' l' => simp at hens
    | cons r l ih =>
      cases ensure' with
      | nil => simp at hens
      | cons r' l' =>
        simp only [List.map_cons, List.cons.injEq, Prod.mk.injEq] at hens
        have hr : findRow (setChempot s o m) r' = findRow s r := by
          show findRow s r' = findRow s r
          unfold findRow
          rw [hens.1.1, hens.1.2]
        rw [List.mapM_cons, List.mapM_cons, ih l' hens.2, hr]
  unfold filterDuplicates
  rw [hfind]
  cases ensure.mapM (findRow s) with
  | error e => rfl
  | ok found =>
    show (keepRowsSerial argsort groupBy s found >>= setByIndices (setChempot s o m)) = Except.map _ (keepRowsSerial argsort groupBy s found >>= setByIndices s)
    cases keepRowsSerial argsort groupBy s found with
    | error e => rfl
    | ok idxs =>
      show setByIndices (setChempot s o m) idxs = Except.map _ (setByIndices s idxs)
      unfold setByIndices
      show (do
        let i ← pickDict s.indices idxs
        let c ← pickDict s.coeffs idxs
        let d ← pickDict s.data idxs
        return mk s.entries i c o (m.getD 0) (some d)) = _
      cases pickDict s.indices idxs with
      | error e => rfl
      | ok i =>
        cases pickDict s.coeffs idxs with
        | error e => rfl
        | ok c =>
          cases pickDict s.data idxs with
          | error e => rfl
          | ok d => rfl

/-! ### Temperature -/

theorem retemp_potential (comp : η → κ) (table : List (κ × η)) (o : Option ε) (m : Option ℚ) (r : SRxn η δ ε) :
    retemp comp table (atPotential o m r) = (retemp comp table r).map (atPotential o m) := by
  unfold retemp
  show (r.entries.mapM (lookupT comp table)).map _ = _
  cases r.entries.mapM (lookupT comp table) <;> rfl

theorem detectOpen_potential (o : Option ε) (m : Option ℚ) (l : List (SRxn η δ ε)) :
    detectOpen (l.map (atPotential o m)) o (m.getD 0) = (o, m.getD 0) := by
  unfold detectOpen
  cases o with
  | some e => simp
  | none =>
    cases l with
    | nil => rfl
    | cons r l => rw [if_neg]; simp [atPotential]

theorem fromRxns_potential (uid : η → υ) (so : List η → List η) (l : List (SRxn η δ ε)) (o o' : Option ε) (m : Option ℚ) (m' : ℚ) :
    fromRxns uid so (l.map (atPotential o m)) none o (m.getD 0) = (fromRxns uid so l none o' m').map fun t => setChempot t o m := by
  unfold fromRxns
  have he : givenEntries (l.map (atPotential o m)) none = givenEntries l none := by
    show (l.map (atPotential o m)).flatMap (fun r => r.entries) = l.flatMap fun r => r.entries
    rw [List.flatMap_map]; rfl
  rw [he]
  simp only
  generalize hes : so (givenEntries l none) = es
  have hr : (l.map (atPotential o m)).mapM (rowOf uid (dictOf (es.zipIdx.map fun p => (uid p.1, p.2))))
      = l.mapM (rowOf uid (dictOf (es.zipIdx.map fun p => (uid p.1, p.2)))) := by
    rw [mapM_map]; rfl
  rw [hr, detectOpen_potential]
  cases l.mapM (rowOf uid (dictOf (es.zipIdx.map fun p => (uid p.1, p.2)))) with
  | error e => rfl
  | ok rows =>
    have hd : ∀ d : List (ℕ × List (List ℕ × List ℚ × δ)), (rows.zip (l.map (atPotential o m))).foldl
        (fun d p => dictAppend d p.2.entries.length (p.1, p.2.coeffs, p.2.data)) d
        = (rows.zip l).foldl (fun d p => dictAppend d p.2.entries.length (p.1, p.2.coeffs, p.2.data)) d := by
      intro d
      rw [List.zip_map_right, List.foldl_map]
      rfl
    show Except.ok _ = Except.ok _
    simp only [hd]
    rfl

/-- Setting the temperature and setting a potential: in either order the same set, or the same failure, for every set. -/
theorem C156_chempot_temperature (uid : η → υ) (so : List η → List η) (comp : η → κ) (atT : η → η) (s : RSet η δ ε) (o : Option ε)
    (m : Option ℚ) :
    setNewTemperature uid so comp atT (setChempot s o m) = (setNewTemperature uid so comp atT s).map fun t => setChempot t o m := by
  unfold setNewTemperature
  rw [getRxns_chempot]
  simp only
  show (Except.map (List.map (atPotential o m)) (getRxns s) >>= fun rxns =>
    rxns.mapM (retemp comp (dictOf (s.entries.map fun e => (comp e, atT e)))) >>= fun new => fromRxns uid so new none o (m.getD 0)) = _
  cases getRxns s with
  | error e => rfl
  | ok rxns =>
    show ((rxns.map (atPotential o m)).mapM (retemp comp (dictOf (s.entries.map fun e => (comp e, atT e)))) >>= _) = _
    rw [mapM_map]
    simp only [retemp_potential]
    rw [mapM_map_out]
    show _ = Except.map _ (rxns.mapM (retemp comp (dictOf (s.entries.map fun e => (comp e, atT e)))) >>= _)
    cases rxns.mapM (retemp comp (dictOf (s.entries.map fun e => (comp e, atT e)))) with
    | error e => rfl
    | ok new => exact fromRxns_potential uid so new o s.openElem m s.chempot

/-! ### Queries and merging -/

theorem rows_back (s : RSet η δ ε) (w : WF s) (row : List ℕ) (h : ∀ i ∈ row, i < s.entries.length) :
    (row.filterMap fun i => s.entries[i]?).map s.entries.idxOf = row := by
  induction row with
  | nil => rfl
  | cons i row ih =>
    have hi := h i (by simp)
    rw [List.filterMap_cons, List.getElem?_eq_getElem hi]
    simp only [List.map_cons]
    rw [ih fun j hj => h j (by simp [hj]), w.nodup.idxOf_getElem i hi]

theorem select_filter (s : RSet η δ ε) (w : WF s) (test : List ℕ → List ℚ → Bool) :
    (selectRows s test >>= rxnsByIndices s) = .ok ((stored s).filter fun r => test (r.entries.map s.entries.idxOf) r.coeffs) := by
  rw [select_ok s w]
  congr 1
  rw [flatMap_filter_map s w test (fun r => test (r.entries.map s.entries.idxOf) r.coeffs = true)]
  · congr 1
    funext r
    simp
  · intro n hn t ht
    show _ ↔ test ((t.1.filterMap fun i => s.entries[i]?).map s.entries.idxOf) t.2.1 = true
    rw [rows_back s w t.1 (tripAt_valid s w n hn t ht)]

/-- What the two queries keep, as a condition on a reaction and the entries of the set. -/
theorem queries_filter (s : RSet η δ ε) (p : η → Bool) : ∃ f g : SRxn η δ ε → Bool,
    (∀ t : RSet η δ ε, WF t → t.entries = s.entries → byReactants t p = .ok ((stored t).filter f) ∧ byProduct t p = .ok ((stored t).filter g)) := by
  refine ⟨fun r => !decide (positions s.entries p = []) && reactantTest (positions s.entries p) (r.entries.map s.entries.idxOf) r.coeffs,
    fun r => match s.entries.findIdx? p with
      | none => false
      | some 0 => false
      | some (k + 1) => productTest (k + 1) (r.entries.map s.entries.idxOf) r.coeffs, fun t wt he => ⟨?_, ?_⟩⟩
  · unfold byReactants
    rw [he]
    split_ifs with h
    · simp [h]
    · rw [select_filter t wt, he]
      simp [h]
  · unfold byProduct
    rw [he]
    cases s.entries.findIdx? p with
    | none => simp
    | some k =>
      cases k with
      | zero => simp
      | succ k =>
        show (selectRows t (productTest (k + 1)) >>= rxnsByIndices t) = _
        rw [select_filter t wt, he]

/-- Asking a merged set (sets at the same potential) is asking the two sets. -/
theorem C156_queries_merge (so : List ℕ → List ℕ) (ho : SetOrder so) (a b : RSet η δ ε) (ha : Built a) (hb : Built b)
    (he : a.entries = b.entries) (hmu : a.openElem = b.openElem ∧ a.chempot = b.chempot) (p : η → Bool) :
    ∃ s, addRxnSet so a b = .ok s ∧
      (∃ l la lb, byReactants s p = .ok l ∧ byReactants a p = .ok la ∧ byReactants b p = .ok lb ∧ l.Perm (la ++ lb)) ∧
      ∃ l la lb, byProduct s p = .ok l ∧ byProduct a p = .ok la ∧ byProduct b p = .ok lb ∧ l.Perm (la ++ lb) := by
  obtain ⟨s, la, lb, l, h1, h2, h3, h4, h5, h6, -⟩ := C22_union_partial so ho a b ha hb he hmu
  have wa := built_wf a ha
  have wb := built_wf b hb
  have ws := built_wf s (.add so a b s ho ha hb h1)
  rw [getRxns_ok a wa] at h2
  rw [getRxns_ok b wb] at h3
  rw [getRxns_ok s ws] at h4
  rw [← Except.ok.inj h2, ← Except.ok.inj h3, ← Except.ok.inj h4] at h5
  obtain ⟨f, g, hq⟩ := queries_filter a p
  refine ⟨s, h1, ⟨_, _, _, (hq s ws h6).1, (hq a wa rfl).1, (hq b wb he.symm).1, ?_⟩, _, _, _, (hq s ws h6).2, (hq a wa rfl).2,
    (hq b wb he.symm).2, ?_⟩
  · rw [← List.filter_append]; exact h5.filter _
  · rw [← List.filter_append]; exact h5.filter _

/-! ### Temperature, merging and queries -/

/-- What is known of a set put at another temperature. -/
structure Heated (uid : η → υ) (so : List η → List η) (comp : η → κ) (atT : η → η) (s s' : RSet η δ ε) : Prop where
  built : Built s'
  openElem : s'.openElem = s.openElem
  chempot : s'.chempot = s.chempot
  entries : s'.entries = so ((stored s).flatMap fun r => r.entries.map atT)
  stored : (stored s').Perm ((Lemmas.RxnSet.stored s).map (atNew atT))

theorem heated (uid : η → υ) (so : List η → List η) (ho : SetOrder so) (comp : η → κ) (atT : η → η) (s : RSet η δ ε) (hs : Built s)
    (hcomp : (s.entries.map comp).Nodup) (huid : ∀ a ∈ s.entries, ∀ b ∈ s.entries, uid (atT a) = uid (atT b) → atT a = atT b) :
    ∃ s', setNewTemperature uid so comp atT s = .ok s' ∧ Heated uid so comp atT s s' := by
  have w := built_wf s hs
  obtain ⟨s', out, h1, h2, h3, h4⟩ := C27_partial uid so ho comp atT s hs (stored s) (getRxns_ok s w) hcomp huid
  refine ⟨s', h1, ?_⟩
  have h1' := h1
  unfold setNewTemperature at h1'
  rw [getRxns_ok s w] at h1'
  simp only [bind_ok] at h1'
  obtain ⟨_, hr, new, hn, hf⟩ := h1'
  have hr := Except.ok.inj hr
  subst hr
  have hb : Built s' := .fromRxns uid so new none s.openElem s.chempot s' ho hf
  have hmemE : ∀ r ∈ stored s, ∀ e ∈ r.entries, e ∈ s.entries := by
    intro r hr e he
    unfold stored at hr
    obtain ⟨p, _, hr⟩ := List.mem_flatMap.mp hr
    obtain ⟨t, _, rfl⟩ := List.mem_map.mp hr
    obtain ⟨i, _, hi⟩ := List.mem_filterMap.mp he
    exact List.mem_of_getElem? hi
  have hkeys : (s.entries.map fun e => (comp e, atT e)).map Prod.fst = s.entries.map comp := by
    rw [List.map_map]; rfl
  have htab : dictOf (s.entries.map fun e => (comp e, atT e)) = s.entries.map fun e => (comp e, atT e) :=
    dictOf_eq_self _ (by rw [hkeys]; exact hcomp)
  have hnew : (stored s).mapM (retemp comp (dictOf (s.entries.map fun e => (comp e, atT e)))) = .ok ((stored s).map (atNew atT)) := by
    apply mapM_eq_map
    intro r hr
    unfold retemp
    rw [mapM_eq_map _ atT]
    · rfl
    · intro e he
      unfold lookupT
      rw [htab, dictGet_eq_some_of_mem _ (by rw [hkeys]; exact hcomp) (comp e) (atT e) (List.mem_map.mpr ⟨e, hmemE r hr e he, rfl⟩)]
  rw [hnew] at hn
  have hn := Except.ok.inj hn
  subst hn
  have hdet : detectOpen ((stored s).map (atNew atT)) s.openElem s.chempot = (s.openElem, s.chempot) := by
    unfold detectOpen
    cases ho : s.openElem with
    | some e => simp
    | none =>
      cases hst : stored s with
      | nil => rfl
      | cons r l =>
        have hr : r ∈ stored s := by rw [hst]; simp
        have hm : r.chempots = [] := by
          unfold stored at hr
          obtain ⟨p, _, hr⟩ := List.mem_flatMap.mp hr
          obtain ⟨t, _, rfl⟩ := List.mem_map.mp hr
          unfold toRxn muDict
          rw [ho]
        rw [if_neg]
        simp [atNew, hm]
  unfold fromRxns at hf
  simp only [bind_ok] at hf
  obtain ⟨rows, -, hf⟩ := hf
  rw [hdet] at hf
  have hf := Except.ok.inj hf
  have hg : givenEntries ((stored s).map (atNew atT)) none = (stored s).flatMap fun r => r.entries.map atT := by
    show ((stored s).map (atNew atT)).flatMap (fun r => r.entries) = _
    rw [List.flatMap_map]; rfl
  refine ⟨hb, ?_, ?_, ?_, ?_⟩
  · rw [← hf]; rfl
  · rw [← hf]; rfl
  · rw [← hf, ← hg]; rfl
  · rw [getRxns_ok s' (built_wf s' hb)] at h2
    rw [Except.ok.inj h2]
    exact h4

/-- Sets at one potential over the same phases, no two of the same composition: if the sets at the new temperature can be merged, the merged set yields
exactly the reactions of the set merged before. Missing for the full statement: the sets at the new temperature keep only the entries they use, so the merge
may be refused. -/
theorem C156_temperature_merge_partial (uid : η → υ) (so : List η → List η) (ho : SetOrder so) (sizes : List ℕ → List ℕ) (hsz : SetOrder sizes)
    (comp : η → κ) (atT : η → η) (a b : RSet η δ ε) (ha : Built a) (hb : Built b) (he : a.entries = b.entries)
    (hmu : a.openElem = b.openElem ∧ a.chempot = b.chempot) (hcomp : (a.entries.map comp).Nodup)
    (huid : ∀ x ∈ a.entries, ∀ y ∈ a.entries, uid (atT x) = uid (atT y) → atT x = atT y) :
    ∃ s s' a' b', addRxnSet sizes a b = .ok s ∧ setNewTemperature uid so comp atT s = .ok s' ∧
      setNewTemperature uid so comp atT a = .ok a' ∧ setNewTemperature uid so comp atT b = .ok b' ∧
      (a'.entries = b'.entries → ∃ c l l', addRxnSet sizes a' b' = .ok c ∧ getRxns c = .ok l ∧ getRxns s' = .ok l' ∧ l.Perm l') ∧
      ((∃ c, addRxnSet sizes a' b' = .ok c) ↔ a'.entries = b'.entries) := by
  obtain ⟨s, la, lb, l, h1, h2, h3, h4, h5, h6, h7, h8⟩ := C22_union_partial sizes hsz a b ha hb he hmu
  have hs : Built s := .add sizes a b s hsz ha hb h1
  obtain ⟨s', e1, H⟩ := heated uid so ho comp atT s hs (by rw [h6]; exact hcomp) (by rw [h6]; exact huid)
  obtain ⟨a', e2, Ha⟩ := heated uid so ho comp atT a ha hcomp huid
  obtain ⟨b', e3, Hb⟩ := heated uid so ho comp atT b hb (by rw [← he]; exact hcomp) (by rw [← he]; exact huid)
  rw [getRxns_ok a (built_wf a ha)] at h2
  rw [getRxns_ok b (built_wf b hb)] at h3
  rw [getRxns_ok s (built_wf s hs)] at h4
  rw [← Except.ok.inj h2, ← Except.ok.inj h3, ← Except.ok.inj h4] at h5
  have hmerge : a'.entries = b'.entries → ∃ c l l', addRxnSet sizes a' b' = .ok c ∧ getRxns c = .ok l ∧ getRxns s' = .ok l' ∧ l.Perm l' := by
    intro hab
    obtain ⟨c, ka, kb, k, g1, g2, g3, g4, g5, -⟩ := C22_union_partial sizes hsz a' b' Ha.built Hb.built hab
      ⟨by rw [Ha.openElem, Hb.openElem, hmu.1], by rw [Ha.chempot, Hb.chempot, hmu.2]⟩
    refine ⟨c, k, stored s', g1, g4, getRxns_ok s' (built_wf s' H.built), ?_⟩
    rw [getRxns_ok a' (built_wf a' Ha.built)] at g2
    rw [getRxns_ok b' (built_wf b' Hb.built)] at g3
    rw [← Except.ok.inj g2, ← Except.ok.inj g3] at g5
    refine g5.trans (List.Perm.trans (Ha.stored.append Hb.stored) ?_)
    rw [← List.map_append]
    exact ((h5.map _).symm).trans H.stored.symm
  refine ⟨s, s', a', b', h1, e1, e2, e3, hmerge, ?_, ?_⟩
  · rintro ⟨c, hc⟩
    by_contra hne
    rw [C22_rejects sizes a' b' hne] at hc
    cases hc
  · intro hab
    obtain ⟨c, _, _, hc, -⟩ := hmerge hab
    exact ⟨c, hc⟩

/-- If the order of the entries is determined by which entries there are (they are sorted by composition) and the two sets use the same phases, the merge at
the new temperature is accepted. -/
theorem C156_temperature_merge_accepted (uid : η → υ) (so : List η → List η) (ho : SetOrder so) (hcan : ∀ l l', (∀ x, x ∈ l ↔ x ∈ l') → so l = so l')
    (comp : η → κ) (atT : η → η) (a b : RSet η δ ε) (ha : Built a) (hb : Built b) (he : a.entries = b.entries)
    (hcomp : (a.entries.map comp).Nodup) (huid : ∀ x ∈ a.entries, ∀ y ∈ a.entries, uid (atT x) = uid (atT y) → atT x = atT y)
    (la lb : List (SRxn η δ ε)) (hla : getRxns a = .ok la) (hlb : getRxns b = .ok lb)
    (hused : ∀ e, (∃ r ∈ la, e ∈ r.entries) ↔ ∃ r ∈ lb, e ∈ r.entries) :
    ∃ a' b', setNewTemperature uid so comp atT a = .ok a' ∧ setNewTemperature uid so comp atT b = .ok b' ∧ a'.entries = b'.entries := by
  obtain ⟨a', e2, Ha⟩ := heated uid so ho comp atT a ha hcomp huid
  obtain ⟨b', e3, Hb⟩ := heated uid so ho comp atT b hb (by rw [← he]; exact hcomp) (by rw [← he]; exact huid)
  refine ⟨a', b', e2, e3, ?_⟩
  rw [Ha.entries, Hb.entries]
  rw [getRxns_ok a (built_wf a ha)] at hla
  rw [getRxns_ok b (built_wf b hb)] at hlb
  rw [← Except.ok.inj hla, ← Except.ok.inj hlb] at hused
  apply hcan
  intro x
  simp only [List.mem_flatMap, List.mem_map]
  constructor
  · rintro ⟨r, hr, e, hre, rfl⟩
    obtain ⟨r', hr', he'⟩ := (hused e).mp ⟨r, hr, hre⟩
    exact ⟨r', hr', e, he', rfl⟩
  · rintro ⟨r, hr, e, hre, rfl⟩
    obtain ⟨r', hr', he'⟩ := (hused e).mpr ⟨r, hr, hre⟩
    exact ⟨r', hr', e, he', rfl⟩

/-- Asking for reactants and changing the temperature, in either order: the same reactions, if the question does not depend on the temperature (formulas do
not change), phases differ in composition, every reaction consumes something and no coefficient is tiny. -/
theorem C156_temperature_reactants_partial (uid : η → υ) (so : List η → List η) (ho : SetOrder so) (comp : η → κ) (atT : η → η) (s : RSet η δ ε)
    (hs : Built s) (hcomp : (s.entries.map comp).Nodup)
    (huid : ∀ x ∈ s.entries, ∀ y ∈ s.entries, uid (atT x) = uid (atT y) → atT x = atT y)
    (all : List (SRxn η δ ε)) (hall : getRxns s = .ok all) (p : η → Bool) (hp : ∀ e, p (atT e) = p e)
    (hne : ∀ r ∈ all, ∃ e, consumes r e) (hz : ∀ r ∈ all, ∀ q ∈ r.entries.zip r.coeffs, q.2 < 0 ∨ 1 / 1000000000000 ≤ q.2) :
    ∃ s' l l', setNewTemperature uid so comp atT s = .ok s' ∧ byReactants s p = .ok l ∧ byReactants s' p = .ok l' ∧
      l'.Perm (l.map (atNew atT)) := by
  classical
  have w := built_wf s hs
  have hall' := hall
  rw [getRxns_ok s w] at hall'
  have hall' := Except.ok.inj hall'
  subst hall'
  obtain ⟨s', e1, H⟩ := heated uid so ho comp atT s hs hcomp huid
  have hmem : ∀ r ∈ stored s', ∃ r0 ∈ stored s, r = atNew atT r0 := by
    intro r hr
    obtain ⟨r0, h0, rfl⟩ := List.mem_map.mp (H.stored.mem_iff.mp hr)
    exact ⟨r0, h0, rfl⟩
  have hzip : ∀ r : SRxn η δ ε, (atNew atT r).entries.zip (atNew atT r).coeffs = (r.entries.zip r.coeffs).map fun q => (atT q.1, q.2) := by
    intro r
    show (r.entries.map atT).zip r.coeffs = _
    rw [List.zip_map_left]; rfl
  have hcons : ∀ (r : SRxn η δ ε), (∀ e, consumes (atNew atT r) e → p e = true) ↔ ∀ e, consumes r e → p e = true := by
    intro r
    constructor
    · rintro h e ⟨c, hc, hneg⟩
      rw [← hp e]
      exact h (atT e) ⟨c, by rw [hzip]; exact List.mem_map.mpr ⟨_, hc, rfl⟩, hneg⟩
    · rintro h e ⟨c, hc, hneg⟩
      rw [hzip] at hc
      obtain ⟨q, hq, heq⟩ := List.mem_map.mp hc
      rw [Prod.mk.injEq] at heq
      rw [← heq.1, hp]
      exact h q.1 ⟨c, by rw [← heq.2]; exact hq, hneg⟩
  refine ⟨s', _, _, e1, C23_exact_partial s hs p _ hall hne hz, C23_exact_partial s' H.built p _ (getRxns_ok s' (built_wf s' H.built)) ?_ ?_, ?_⟩
  · intro r hr
    obtain ⟨r0, h0, rfl⟩ := hmem r hr
    obtain ⟨e, c, hc, hneg⟩ := hne r0 h0
    exact ⟨atT e, c, by rw [hzip]; exact List.mem_map.mpr ⟨_, hc, rfl⟩, hneg⟩
  · intro r hr q hq
    obtain ⟨r0, h0, rfl⟩ := hmem r hr
    rw [hzip] at hq
    obtain ⟨q0, hq0, rfl⟩ := List.mem_map.mp hq
    exact hz r0 h0 q0 hq0
  · refine (H.stored.filter _).trans (List.Perm.of_eq ?_)
    rw [List.filter_map]
    congr 1
    apply List.filter_congr
    intro r _
    simp only [Function.comp]
    rw [decide_eq_decide]
    exact hcons r

/-! ### What fails, and examples -/

/-- Three phases; one set makes the second from the first, the other the third from the second. -/
def firstSet : RSet ℕ ℕ ℕ := mk [1, 2, 3] [(2, [[0, 1]])] [(2, [[-1, 1]])] none 0 (some [(2, [7])])
def secondSet : RSet ℕ ℕ ℕ := mk [1, 2, 3] [(2, [[1, 2]])] [(2, [[-1, 1]])] none 0 (some [(2, [8])])

theorem firstSet_built : Built firstSet :=
  .fromRxns id List.dedup [⟨[1, 2], [-1, 1], 7, []⟩] (some [1, 2, 3]) none 0 _ setOrder_dedup (by decide +kernel)
theorem secondSet_built : Built secondSet :=
  .fromRxns id List.dedup [⟨[2, 3], [-1, 1], 8, []⟩] (some [1, 2, 3]) none 0 _ setOrder_dedup (by decide +kernel)

/-- Two sets over the same three phases: merged and then put at another temperature they give both reactions; put at that temperature first they cannot be
merged, because each has forgotten the phase it does not use. -/
theorem C156_temperature_merge_violated :
    Built firstSet ∧ Built secondSet ∧ firstSet.entries = secondSet.entries ∧
    (addRxnSet List.dedup firstSet secondSet >>= setNewTemperature id List.dedup id (fun e => e + 10) >>= getRxns)
      = .ok [⟨[11, 12], [-1, 1], 7, []⟩, ⟨[12, 13], [-1, 1], 8, []⟩] ∧
    (setNewTemperature id List.dedup id (fun e => e + 10) firstSet >>= fun a =>
      setNewTemperature id List.dedup id (fun e => e + 10) secondSet >>= fun b => addRxnSet List.dedup a b) = .error .valueError :=
  ⟨firstSet_built, secondSet_built, rfl, by decide +kernel, by decide +kernel⟩

/-- The third phase is turned into the second; phases whose number ends in 2 have the formula asked for. -/
def backSet : RSet ℕ ℕ ℕ := mk [1, 2, 3] [(2, [[1, 2]])] [(2, [[1, -1]])] none 0 (some [(2, [8])])

/-- Asking for a product gives an answer before the temperature is changed and none after: the unused first phase is dropped, the product becomes the first
entry, and the first entry is never found. -/
theorem C156_temperature_product_violated :
    Built backSet ∧ byProduct backSet (fun e => decide (e % 10 = 2)) = .ok [⟨[2, 3], [1, -1], 8, []⟩] ∧
    (setNewTemperature id List.dedup id (fun e => e + 10) backSet >>= getRxns) = .ok [⟨[12, 13], [1, -1], 8, []⟩] ∧
    (setNewTemperature id List.dedup id (fun e => e + 10) backSet >>= fun s => byProduct s (fun e => decide (e % 10 = 2))) = .ok [] :=
  ⟨.fromRxns id List.dedup [⟨[2, 3], [1, -1], 8, []⟩] (some [1, 2, 3]) none 0 _ setOrder_dedup (by decide +kernel), by decide +kernel,
    by decide +kernel, by decide +kernel⟩

/-- two sets at different potentials of element 8, merged and put at a third -/
example : ∃ s la lb l, addRxnSet List.dedup (setChempot firstSet (some 8) (some (-1))) (setChempot secondSet (some 8) (some (-2))) = .ok s ∧
    getRxns (setChempot firstSet (some 8) (some (-1))) = .ok la ∧ getRxns (setChempot secondSet (some 8) (some (-2))) = .ok lb ∧
    getRxns (setChempot s (some 8) (some (-3))) = .ok l ∧ l.Perm ((la ++ lb).map (atPotential (some 8) (some (-3)))) :=
  C156_merge_potential _ setOrder_dedup _ _ (.setChempot _ _ _ firstSet_built) (.setChempot _ _ _ secondSet_built) rfl _ _

example : (addRxnSet List.dedup firstSet secondSet >>= fun s => getRxns (setChempot s (some 8) (some (-3))))
    = .ok [⟨[1, 2], [-1, 1], 7, [(8, -3)]⟩, ⟨[2, 3], [-1, 1], 8, [(8, -3)]⟩] := by decide +kernel

/-- the same reaction given closed where the set is open -/
example : filterDuplicates (fun l => List.range l.length) (fun l => (List.range l.length).map fun i => [i]) (setChempot firstSet (some 8) (some (-3)))
    [⟨[1, 2], [-1, 1], 0, []⟩] = .ok (setChempot firstSet (some 8) (some (-3))) := by decide +kernel

example : (setNewTemperature id List.dedup id (fun e => e + 10) (setChempot exS3 (some 8) (some (-3))) >>= getRxns)
    = .ok [⟨[11, 12], [-1, 1], 7, [(8, -3)]⟩, ⟨[13, 12], [-1, 2], 5, [(8, -3)]⟩, ⟨[11, 13, 12], [-1, -1, 1], 9, [(8, -3)]⟩] := by
  decide +kernel

example := C156_queries_merge (η := ℕ) List.dedup setOrder_dedup firstSet secondSet firstSet_built secondSet_built rfl ⟨rfl, rfl⟩ fun e => decide (e = 2)

example : (addRxnSet List.dedup firstSet secondSet >>= fun s => byProduct s fun e => decide (e = 2)) = .ok [⟨[1, 2], [-1, 1], 7, []⟩] := by
  decide +kernel

/-- two sets using the same two phases -/
example := C156_temperature_merge_partial id List.dedup setOrder_dedup List.dedup setOrder_dedup id (fun e => e + 10) exS exS' exS_built exS'_built
  rfl ⟨rfl, rfl⟩ (by decide) (by decide)

theorem setOrder_sorted : SetOrder fun l : List ℕ => l.dedup.insertionSort (· ≤ ·) :=
  fun l => ⟨(List.perm_insertionSort (· ≤ ·) _).nodup_iff.mpr l.nodup_dedup, fun x => by
    show x ∈ l.dedup.insertionSort (· ≤ ·) ↔ _
    rw [(List.perm_insertionSort (· ≤ ·) l.dedup).mem_iff, List.mem_dedup]⟩

theorem sorted_canonical (l l' : List ℕ) (h : ∀ x, x ∈ l ↔ x ∈ l') : l.dedup.insertionSort (· ≤ ·) = l'.dedup.insertionSort (· ≤ ·) := by
  apply List.Perm.eq_of_pairwise (le := (· ≤ ·))
  · intro a b _ _ h1 h2; exact le_antisymm h1 h2
  · exact List.pairwise_insertionSort _ _
  · exact List.pairwise_insertionSort _ _
  · refine (List.perm_insertionSort _ _).trans (List.Perm.trans ?_ (List.perm_insertionSort _ _).symm)
    rw [List.perm_ext_iff_of_nodup l.nodup_dedup l'.nodup_dedup]
    intro a
    rw [List.mem_dedup, List.mem_dedup]
    exact h a

example : ∃ a' b', setNewTemperature id (fun l : List ℕ => l.dedup.insertionSort (· ≤ ·)) id (fun e => e + 10) exS = .ok a' ∧
    setNewTemperature id (fun l : List ℕ => l.dedup.insertionSort (· ≤ ·)) id (fun e => e + 10) exS' = .ok b' ∧ a'.entries = b'.entries :=
  C156_temperature_merge_accepted id _ setOrder_sorted sorted_canonical id (fun e => e + 10) exS exS' exS_built exS'_built rfl (by decide) (by decide)
    [⟨[1, 2], [-1, 1], 7, []⟩] [⟨[2, 1], [-1, 1], 8, []⟩] (by decide +kernel) (by decide +kernel) (by intro e; simp; tauto)

/-- reactions of the first phase with others, at a temperature ten degrees up; the question is about formulas 1 and 3 -/
example : ∃ s' l l', setNewTemperature id List.dedup id (fun e => e + 10) exS3 = .ok s' ∧ byReactants exS3 (fun e => decide (e % 10 ≠ 2)) = .ok l ∧
    byReactants s' (fun e => decide (e % 10 ≠ 2)) = .ok l' ∧ l'.Perm (l.map (atNew fun e => e + 10)) :=
  C156_temperature_reactants_partial id List.dedup setOrder_dedup id (fun e => e + 10) exS3 exS3_built (by decide) (by decide) [closedA, closedC, closedB]
    (by decide +kernel) _ (by intro e; simp)
    (by
      intro r hr
      simp only [List.mem_cons, List.not_mem_nil, or_false] at hr
      rcases hr with rfl | rfl | rfl
      · exact ⟨1, -1, by decide +kernel, by norm_num⟩
      · exact ⟨3, -1, by decide +kernel, by norm_num⟩
      · exact ⟨1, -1, by decide +kernel, by norm_num⟩)
    (by decide +kernel)

end Verif.Props.SetAlgebra
