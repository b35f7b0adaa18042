import Verif.Model.NetEntry

/-! Property C107: node entries of a network. -/

namespace Verif.Props.NetEntry
open Verif.Py Verif.Model.Network Verif.Model.NetEntry

variable {η σ : Type} [DecidableEq η] [LinearOrder σ]

/-! helpers -/

omit [DecidableEq η] in
theorem elements_eq (els : η → List σ) (es es' : List η) (h : ∀ e, e ∈ es ↔ e ∈ es') :
    (es.flatMap els).dedup.insertionSort (· ≤ ·) = (es'.flatMap els).dedup.insertionSort (· ≤ ·) := by
  have hp : (es.flatMap els).dedup.Perm (es'.flatMap els).dedup := by
    rw [List.perm_ext_iff_of_nodup (List.nodup_dedup _) (List.nodup_dedup _)]
    intro s
    simp only [List.mem_dedup, List.mem_flatMap]
    exact ⟨fun ⟨e, h1, h2⟩ => ⟨e, (h e).mp h1, h2⟩, fun ⟨e, h1, h2⟩ => ⟨e, (h e).mpr h1, h2⟩⟩
  exact List.Perm.eq_of_pairwise (le := fun x y : σ => x ≤ y) (fun _ _ _ _ h1 h2 => le_antisymm h1 h2)
    (List.pairwise_insertionSort _ _) (List.pairwise_insertionSort _ _)
    (((List.perm_insertionSort _ _).trans hp).trans (List.perm_insertionSort _ _).symm)

theorem length_join (l : List (List Char)) : (['-'].intercalate l).length = (l.map List.length).sum + (l.length - 1) := by
  induction l with
  | nil => rfl
  | cons a l ih =>
    cases l with
    | nil => simp [List.intercalate]
    | cons b l =>
      have : ['-'].intercalate (a :: b :: l) = a ++ '-' :: ['-'].intercalate (b :: l) := by simp [List.intercalate]
      rw [this]
      simp only [List.length_append, List.length_cons, ih, List.map_cons, List.sum_cons]
      omega

/-! ### C107 -/

/-- Order and repetition of the given phases do not matter: the node entry is a function of role and set of phases. -/
theorem C107_order (els : η → List σ) (sym : σ → List Char) (es es' : List η) (k : Kind) (h : ∀ e, e ∈ es ↔ e ∈ es') :
    mk els sym es k = mk els sym es' k := by
  unfold mk
  rw [elements_eq els es es' h]
  have hf : es.toFinset = es'.toFinset := by ext e; simp [h e]
  rw [hf]

/-- Equal exactly when role and set of phases agree. -/
theorem C107_equal (els : η → List σ) (sym : σ → List Char) (es es' : List η) (k k' : Kind) :
    eq (mk els sym es k) (mk els sym es' k') = true ↔ k = k' ∧ ∀ e, e ∈ es ↔ e ∈ es' := by
  constructor
  · intro h
    have h1 : plainEq (mk els sym es k) (mk els sym es' k') = true := h
    unfold plainEq at h1
    split_ifs at h1 with h2
    have h3 : es.toFinset = es'.toFinset := of_decide_eq_true h1
    refine ⟨h2.1, fun e => ?_⟩
    rw [← List.mem_toFinset, h3, List.mem_toFinset]
  · rintro ⟨rfl, h⟩
    rw [C107_order els sym es es' k h]
    change plainEq _ _ = true
    unfold plainEq
    simp

omit [LinearOrder σ] in
/-- Equality of node entries of any class is an equivalence and respects hashes, for every hash of roles and sets. -/
theorem C107_hash (hashSet : Kind × Finset η → ℤ) (hashDummy : ℤ) (a b c : NEntry η σ) :
    eq a a = true ∧ (eq a b = true → eq b a = true) ∧ (eq a b = true → eq b c = true → eq a c = true) ∧
    (eq a b = true → entryHash hashSet hashDummy a = entryHash hashSet hashDummy b) := by
  have key : ∀ x y : NEntry η σ, eq x y = true ↔ (x.cls = .plain ∧ y.cls = .plain ∧ x.description = y.description ∧
      x.chemsys = y.chemsys ∧ x.entries = y.entries) ∨ ∃ i, x.cls = .dummy i ∧ y.cls = .dummy i := by
    intro x y
    unfold eq plainEq
    rcases hx : x.cls with _ | i <;> rcases hy : y.cls with _ | j
    · by_cases h : x.description = y.description ∧ x.chemsys = y.chemsys
      · simp [h]
      · simp only [if_neg h, reduceCtorEq, exists_false, or_false, true_and, false_iff, Bool.false_eq_true, and_self]
        exact fun hh => h ⟨hh.1, hh.2.1⟩
    · simp
    · simp
    · simp [eq_comm]
  simp only [key]
  refine ⟨?_, ?_, ?_, ?_⟩
  · rcases hx : a.cls with _ | i
    · left; simp
    · right; exact ⟨i, rfl, rfl⟩
  · rintro (⟨h1, h2, h3, h4, h5⟩ | ⟨i, h1, h2⟩)
    · exact Or.inl ⟨h2, h1, h3.symm, h4.symm, h5.symm⟩
    · exact Or.inr ⟨i, h2, h1⟩
  · rintro (⟨h1, h2, h3, h4, h5⟩ | ⟨i, h1, h2⟩) (⟨h1', h2', h3', h4', h5'⟩ | ⟨j, h1', h2'⟩)
    · exact Or.inl ⟨h1, h2', h3.trans h3', h4.trans h4', h5.trans h5'⟩
    · rw [h2] at h1'; cases h1'
    · rw [h2] at h1'; cases h1'
    · rw [h2] at h1'; cases h1'
      exact Or.inr ⟨i, h1, h2'⟩
  · rintro (⟨h1, h2, h3, h4, h5⟩ | ⟨i, h1, h2⟩)
    · simp only [entryHash, h1, h2, h3, h5]
    · simp only [entryHash, h1, h2]

/-- The elements listed are exactly those of the phases, each once, in increasing order. -/
theorem C107_elements (els : η → List σ) (sym : σ → List Char) (es : List η) (k : Kind) :
    (mk els sym es k).elements.Pairwise (· < ·) ∧ ∀ s, s ∈ (mk els sym es k).elements ↔ ∃ e ∈ es, s ∈ els e := by
  unfold mk
  simp only
  constructor
  · have h1 := List.pairwise_insertionSort (fun x y : σ => x ≤ y) (es.flatMap els).dedup
    have h2 : ((es.flatMap els).dedup.insertionSort (· ≤ ·)).Pairwise (· ≠ ·) :=
      (List.perm_insertionSort _ _).nodup_iff.mpr (List.nodup_dedup _)
    exact (h1.and h2).imp fun h => lt_of_le_of_ne h.1 h.2
  · intro s
    rw [(List.perm_insertionSort _ _).mem_iff, List.mem_dedup, List.mem_flatMap]

/-- `dim` is the number of elements only for nodes without elements and for nodes of a single element with a one-letter symbol. -/
theorem C107_dim_partial (els : η → List σ) (sym : σ → List Char) (hs : ∀ s, sym s ≠ []) (es : List η) (k : Kind) :
    (mk els sym es k).dim = (mk els sym es k).elements.length ↔
      (mk els sym es k).elements = [] ∨ ∃ s, (mk els sym es k).elements = [s] ∧ (sym s).length = 1 := by
  have hd : (mk els sym es k).dim = (((mk els sym es k).elements.map sym).map List.length).sum +
      ((mk els sym es k).elements.length - 1) := by
    unfold mk
    simp only [length_join, List.length_map]
  rw [hd]
  generalize (mk els sym es k).elements = l
  match l with
  | [] => simp
  | [s] => simp
  | a :: b :: l =>
    have ha : 0 < (sym a).length := List.length_pos_iff.mpr (hs a)
    have hb : 0 < (sym b).length := List.length_pos_iff.mpr (hs b)
    have hl : l.length ≤ ((l.map sym).map List.length).sum := by
      clear * - hs
      induction l with
      | nil => simp
      | cons c l ih =>
        have := List.length_pos_iff.mpr (hs c)
        simp only [List.map_cons, List.sum_cons, List.length_cons]
        omega
    simp only [List.map_cons, List.sum_cons, List.length_cons, reduceCtorEq, List.cons.injEq, false_and, and_false, exists_false, or_false,
      iff_false]
    omega

/-- Saving and loading a node entry gives the same one (in particular an equal one), for every iteration order of the set. -/
theorem C107_roundtrip_partial (els : η → List σ) (sym : σ → List Char) (decode : η → η) (hdec : ∀ e, decode e = e)
    (order : Finset η → List η) (ho : ∀ s e, e ∈ order s ↔ e ∈ s) (es : List η) (k : Kind) :
    fromDict els sym decode (asDict order (mk els sym es k)) = .ok (mk els sym es k) := by
  have hk : ofValue (value k) = .ok k := by cases k <;> rfl
  have hm : (order es.toFinset).map decode = order es.toFinset := by
    conv_rhs => rw [← List.map_id (order es.toFinset)]
    exact List.map_congr_left fun e _ => hdec e
  have h1 : fromDict els sym decode (asDict order (mk els sym es k)) = .ok (mk els sym ((order es.toFinset).map decode) k) := by
    unfold fromDict
    change (ofValue (value k)).bind _ = _
    rw [hk]
    rfl
  rw [h1, hm, C107_order els sym (order es.toFinset) es k (fun e => by rw [ho, List.mem_toFinset])]

/-- Only the numbers 1 to 5 name a role: a dictionary with another one is rejected, whatever its class. -/
theorem C107_unknown_role (els : η → List σ) (sym : σ → List Char) (decode : η → η) (d : EDict η) :
    fromDict els sym decode d = .error .valueError ↔ d.description = 0 ∨ 5 < d.description := by
  obtain ⟨b, es, n⟩ := d
  match n with
  | 0 => simp [fromDict, ofValue, bind, Except.bind]
  | 1 | 2 | 3 | 4 | 5 => cases b <;> simp [fromDict, ofValue, bind, Except.bind]
  | n + 6 => simp [fromDict, ofValue, bind, Except.bind]

example : fromDict (fun e : ℕ => [e]) (fun _ : ℕ => ['X']) id ⟨true, [3], 6⟩ = .error .valueError :=
  (C107_unknown_role _ _ _ _).mpr (.inr (by decide))

/-- `dim` is the length of the string `Na-Cl`, not the number of elements. -/
theorem C107_dim_violated : (mk (σ := ℕ) (fun _ : ℕ => [0, 1]) (fun s => if s = 0 then "Na".toList else "Cl".toList) [7] .target).dim = 5 ∧
    (mk (σ := ℕ) (fun _ : ℕ => [0, 1]) (fun s => if s = 0 then "Na".toList else "Cl".toList) [7] .target).elements.length = 2 := by
  decide +kernel

/-- A dummy entry cannot be loaded. -/
theorem C107_dummy_violated (els : η → List σ) (sym : σ → List Char) (decode : η → η) (order : Finset η → List η) (i : ℕ) :
    fromDict els sym decode (asDict order (mkDummy i : NEntry η σ)) = .error .typeError := rfl

omit [LinearOrder σ] in
/-- Two dummy entries have the same role and the same (empty) set of phases but are not equal. -/
theorem C107_dummies_violated : ∃ a b : NEntry η σ, a.description = b.description ∧ a.entries = b.entries ∧ eq a b = false :=
  ⟨mkDummy 0, mkDummy 1, rfl, rfl, rfl⟩

example : eq (mk (σ := ℕ) (fun e : ℕ => [e, e + 1]) (fun _ => ['X']) [1, 2, 1] .reactants)
    (mk (fun e : ℕ => [e, e + 1]) (fun _ => ['X']) [2, 1] .reactants) = true ∧
    (mk (σ := ℕ) (fun e : ℕ => [e, e + 1]) (fun _ => ['X']) [2, 1] .reactants).elements = [1, 2, 3] := by decide +kernel

/-- The hypotheses of order, round trip and `dim` on concrete phases. -/
example : mk (fun e : ℕ => [e, e + 1]) (fun _ : ℕ => ['X']) [1, 2, 1] .reactants = mk (fun e : ℕ => [e, e + 1]) (fun _ : ℕ => ['X']) [2, 1] .reactants :=
  C107_order _ _ _ _ _ fun e => by simp; tauto

example := C107_equal (fun e : ℕ => [e, e + 1]) (fun _ : ℕ => ['X']) [1, 2] [1, 3] .reactants .products

example : (mk (fun e : ℕ => [e, e + 1]) (fun _ : ℕ => ['X']) [1, 2, 1] .reactants).elements.Pairwise (· < ·) :=
  (C107_elements (fun e : ℕ => [e, e + 1]) (fun _ : ℕ => ['X']) [1, 2, 1] .reactants).1

example : (mk (fun e : ℕ => [e]) (fun _ : ℕ => ['O']) [8, 8] .target).dim = 1 ∧ (mk (fun e : ℕ => [e]) (fun _ : ℕ => ['O']) [8, 8] .target).elements.length = 1 :=
  ⟨by decide +kernel, by decide +kernel⟩

example := (C107_dim_partial (fun e : ℕ => [e]) (fun _ : ℕ => ['O']) (fun _ => by simp) [8, 8] .target).mpr (.inr ⟨8, by decide +kernel, rfl⟩)

example : fromDict (fun e : ℕ => [e, e + 1]) (fun _ : ℕ => ['X']) id (asDict (fun s => s.sort (· ≤ ·)) (mk (fun e : ℕ => [e, e + 1]) (fun _ => ['X']) [2, 1] .products))
    = .ok (mk (fun e : ℕ => [e, e + 1]) (fun _ => ['X']) [2, 1] .products) :=
  C107_roundtrip_partial _ _ id (fun _ => rfl) _ (fun _ _ => Finset.mem_sort _) _ _

/-- Two equal node entries, two dummies and a mixed pair. -/
example : eq (mk (fun e : ℕ => [e]) (fun _ : ℕ => ['O']) [1] .target) (mk (fun e : ℕ => [e]) (fun _ : ℕ => ['O']) [1, 1] .target) = true ∧
    eq (mkDummy 0 : NEntry ℕ ℕ) (mkDummy 0) = true ∧ eq (mk (fun e : ℕ => [e]) (fun _ : ℕ => ['O']) [] .dummy) (mkDummy 0) = false := by decide +kernel

end Verif.Props.NetEntry
