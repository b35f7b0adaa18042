import Verif.Model.Symbols
import Verif.Spec.Symbols

/-! Property C103: added elements and chemical system strings. -/

namespace Verif.Props.Symbols
open Verif.Model.Symbols Verif.Spec.Symbols

/-! helpers -/

theorem sort_eq_of_perm {a b : List Sym} (h : a.Perm b) : a.insertionSort (· ≤ ·) = b.insertionSort (· ≤ ·) :=
  List.Perm.eq_of_pairwise (le := fun x y : Sym => x ≤ y) (fun _ _ _ _ h1 h2 => le_antisymm h1 h2)
    (List.pairwise_insertionSort _ a) (List.pairwise_insertionSort _ b)
    (((List.perm_insertionSort _ a).trans h).trans (List.perm_insertionSort _ b).symm)

theorem chemStr_eq_of_perm {a b : List Sym} (h : a.Perm b) : chemStr a = chemStr b := by
  unfold chemStr; rw [sort_eq_of_perm h]

theorem chemStr_writes (l : List Sym) (hn : l.Nodup) : Writes (chemStr l) (· ∈ l) := by
  refine ⟨l.insertionSort (· ≤ ·), rfl, ?_, fun e => (List.perm_insertionSort _ l).mem_iff⟩
  have h1 := List.pairwise_insertionSort (fun x y : Sym => x ≤ y) l
  have h2 : (l.insertionSort (· ≤ ·)).Pairwise (· ≠ ·) := (List.perm_insertionSort _ l).nodup_iff.mpr hn
  exact (h1.and h2).imp fun h => lt_of_le_of_ne h.1 h.2

theorem split_chemStr (l : List Sym) (hne : l ≠ []) (hd : ∀ e ∈ l, '-' ∉ e) (e : Sym) : e ∈ (chemStr l).splitOn '-' ↔ e ∈ l := by
  unfold chemStr
  rw [List.splitOn_intercalate, (List.perm_insertionSort _ l).mem_iff]
  · intro x hx; exact hd x ((List.perm_insertionSort _ l).mem_iff.mp hx)
  · intro h
    have hp := List.perm_insertionSort (fun x y : Sym => x ≤ y) l
    rw [h] at hp
    exact hne hp.symm.eq_nil

/-! ### C103 -/

/-- A canonical string is determined by the set it writes. -/
theorem C103_canonical (s t : List Char) (P Q : List Char → Prop) (hs : Writes s P) (ht : Writes t Q) (h : ∀ e, P e ↔ Q e) : s = t := by
  obtain ⟨l, rfl, h1, h2⟩ := hs
  obtain ⟨m, rfl, h3, h4⟩ := ht
  have hm : ∀ e, e ∈ l ↔ e ∈ m := fun e => by rw [h2, h4, h]
  have hp : l.Perm m := (List.perm_ext_iff_of_nodup (h1.imp fun hh => ne_of_lt hh) (h3.imp fun hh => ne_of_lt hh)).mpr hm
  rw [List.Perm.eq_of_pairwise (le := fun x y : Sym => x < y) (fun _ _ _ _ h1 h2 => absurd h2 (not_lt_of_gt h1)) h1 h3 hp]

/-- The added elements of an ordinary reaction are written canonically and are exactly its elements outside the target, for
every iteration order of the set. -/
theorem C103_reaction (setOrder : List Sym → List Sym) (ho : ∀ l, (setOrder l).Perm l) (els target : List Sym)
    (he : els ≠ []) (ht : target ≠ []) (hde : ∀ e ∈ els, '-' ∉ e) (hdt : ∀ e ∈ target, '-' ∉ e) :
    Writes (addedElems setOrder els none target) fun e => e ∈ els ∧ e ∉ target := by
  unfold addedElems rxnStr
  rw [chemStr_eq_of_perm (ho _)]
  obtain ⟨l, h1, h2, h3⟩ := chemStr_writes ((((chemStr els).splitOn '-').dedup).filter fun e => e ∉ (chemStr target).splitOn '-')
    ((List.nodup_dedup _).filter _)
  refine ⟨l, h1, h2, fun e => ?_⟩
  rw [h3]
  beta_reduce
  rw [List.mem_filter, List.mem_dedup, decide_eq_true_eq, split_chemStr els he hde, split_chemStr target ht hdt]

example := C103_reaction List.reverse List.reverse_perm ["Na".toList, "Cl".toList, "O".toList] ["O".toList] (by decide) (by decide) (by decide) (by decide)

/-- For an open reaction the string lists the elements of the reaction *and the open elements* outside the target. -/
theorem C103_open_partial (setOrder : List Sym → List Sym) (ho : ∀ l, (setOrder l).Perm l) (els opens target : List Sym)
    (he : opens ≠ []) (ht : target ≠ []) (hde : ∀ e ∈ els, '-' ∉ e) (hdo : ∀ e ∈ opens, '-' ∉ e) (hdt : ∀ e ∈ target, '-' ∉ e) :
    Writes (addedElems setOrder els (some opens) target) fun e => (e ∈ els ∨ e ∈ opens) ∧ e ∉ target := by
  have hmem : ∀ e, e ∈ ((els.filter fun e => e ∉ opens) ++ opens).dedup ↔ e ∈ els ∨ e ∈ opens := by
    intro e
    rw [List.mem_dedup, List.mem_append, List.mem_filter, decide_eq_true_eq]
    by_cases h : e ∈ opens <;> simp [h]
  have hne : ((els.filter fun e => e ∉ opens) ++ opens).dedup ≠ [] := by
    intro h
    cases opens with
    | nil => exact he rfl
    | cons o os =>
      have : o ∈ ((els.filter fun e => e ∉ (o :: os)) ++ (o :: os)).dedup := (hmem o).mpr (Or.inr (by simp))
      rw [h] at this
      simp at this
  unfold addedElems rxnStr totalStr
  simp only
  rw [chemStr_eq_of_perm (ho _)]
  obtain ⟨l, h1, h2, h3⟩ := chemStr_writes ((((chemStr ((els.filter fun e => e ∉ opens) ++ opens).dedup).splitOn '-').dedup).filter
    fun e => e ∉ (chemStr target).splitOn '-') ((List.nodup_dedup _).filter _)
  refine ⟨l, h1, h2, fun e => ?_⟩
  rw [h3]
  beta_reduce
  rw [List.mem_filter, List.mem_dedup, decide_eq_true_eq, split_chemStr _ hne (by
    intro x hx
    rcases (hmem x).mp hx with hx | hx
    · exact hde x hx
    · exact hdo x hx), split_chemStr target ht hdt, hmem]

example := C103_open_partial List.reverse List.reverse_perm ["Na".toList, "Cl".toList] ["O".toList] ["Na".toList] (by decide) (by decide) (by decide)
  (by decide) (by decide)

/-- So an open reaction that does not contain the open element is nevertheless reported to add it: `Ba + Ti -> BaTi` with open
oxygen and target `BaTi`. -/
theorem C103_open_violated :
    ¬ Writes (addedElems id ["Ba".toList, "Ti".toList] (some ["O".toList]) ["Ba".toList, "Ti".toList])
      fun e => e ∈ ["Ba".toList, "Ti".toList] ∧ e ∉ ["Ba".toList, "Ti".toList] := by
  intro h
  have h2 : Writes [] fun e => e ∈ ["Ba".toList, "Ti".toList] ∧ e ∉ ["Ba".toList, "Ti".toList] :=
    ⟨[], rfl, List.Pairwise.nil, fun e => ⟨fun he => absurd he List.not_mem_nil, fun he => absurd he.1 he.2⟩⟩
  have := C103_canonical _ _ _ _ h h2 fun _ => Iff.rfl
  revert this
  decide +kernel

/-- The added elements of a run: list and string hold exactly the elements of the entry set outside all targets, each once, and
the string is canonical for every iteration order. -/
theorem C103_document (setOrder : List Sym → List Sym) (ho : ∀ l, (setOrder l).Perm l) (chemsys : List Sym) (hn : chemsys.Nodup)
    (targets : List (List Sym)) :
    Writes (addedElemData setOrder chemsys targets).2 (fun e => e ∈ chemsys ∧ ∀ t ∈ targets, e ∉ t) ∧
    (addedElemData setOrder chemsys targets).1.Nodup ∧
    ∀ e, e ∈ (addedElemData setOrder chemsys targets).1 ↔ e ∈ chemsys ∧ ∀ t ∈ targets, e ∉ t := by
  have hm : ∀ e, e ∈ (chemsys.filter fun e => e ∉ targets.flatten) ↔ e ∈ chemsys ∧ ∀ t ∈ targets, e ∉ t := by
    intro e
    rw [List.mem_filter, decide_eq_true_eq, List.mem_flatten]
    refine and_congr_right fun _ => ⟨fun h t ht he => h ⟨t, ht, he⟩, fun h ⟨t, ht, he⟩ => h t ht he⟩
  unfold addedElemData
  refine ⟨?_, (ho _).nodup_iff.mpr (hn.filter _), fun e => by rw [(ho _).mem_iff, hm]⟩
  simp only
  rw [chemStr_eq_of_perm (ho _)]
  obtain ⟨l, h1, h2, h3⟩ := chemStr_writes _ (hn.filter fun e => e ∉ targets.flatten)
  exact ⟨l, h1, h2, fun e => (h3 e).trans (hm e)⟩

example := C103_document List.reverse List.reverse_perm ["Na".toList, "Cl".toList, "O".toList] (by decide) [["O".toList]]

/-- The string columns do not depend on the iteration order of sets. -/
theorem C103_order (o o' : List Sym → List Sym) (ho : ∀ l, (o l).Perm l) (ho' : ∀ l, (o' l).Perm l) (els target : List Sym)
    (opens : Option (List Sym)) (chemsys : List Sym) (targets : List (List Sym)) :
    addedElems o els opens target = addedElems o' els opens target ∧
    (addedElemData o chemsys targets).2 = (addedElemData o' chemsys targets).2 :=
  ⟨chemStr_eq_of_perm ((ho _).trans (ho' _).symm), chemStr_eq_of_perm ((ho _).trans (ho' _).symm)⟩

/-- The document's element list and system string name exactly the elements of the entry set, in some order; targets are
sorted, and added elements are given exactly when there are targets. -/
theorem C103_metadata_partial (setOrder : List Sym → List Sym) (ho : ∀ l, (setOrder l).Perm l) (elemsOf : List Char → List Sym)
    (chemsys : List Sym) (hne : chemsys ≠ []) (hd : ∀ e ∈ chemsys, '-' ∉ e) (targets : List (List Char)) :
    (metadata setOrder elemsOf chemsys targets).elements.Perm chemsys ∧
    (metadata setOrder elemsOf chemsys targets).chemsys = ['-'].intercalate (metadata setOrder elemsOf chemsys targets).elements ∧
    (metadata setOrder elemsOf chemsys targets).targets.Pairwise (· < ·) ∧
    (∀ t, t ∈ (metadata setOrder elemsOf chemsys targets).targets ↔ t ∈ targets) ∧
    ((metadata setOrder elemsOf chemsys targets).added.isSome ↔ targets ≠ []) := by
  have hs : (['-'].intercalate (setOrder chemsys)).splitOn '-' = setOrder chemsys := by
    apply List.splitOn_intercalate
    · intro l hl; exact hd l ((ho _).mem_iff.mp hl)
    · intro h; have := ho chemsys; rw [h] at this; exact hne this.symm.eq_nil
  unfold metadata
  simp only [hs]
  refine ⟨ho _, trivial, ?_, ?_, ?_⟩
  · have h1 := List.pairwise_insertionSort (fun x y : Sym => x ≤ y) targets.dedup
    have h2 : (targets.dedup.insertionSort (· ≤ ·)).Pairwise (· ≠ ·) :=
      (List.perm_insertionSort _ _).nodup_iff.mpr (List.nodup_dedup _)
    exact (h1.and h2).imp fun h => lt_of_le_of_ne h.1 h.2
  · intro t; rw [(List.perm_insertionSort _ _).mem_iff, List.mem_dedup]
  · by_cases h : targets = [] <;> simp [h]

example := C103_metadata_partial List.reverse List.reverse_perm (fun _ => ["O".toList]) ["Na".toList, "Cl".toList, "O".toList] (by decide) (by decide)
  ["Na2O".toList]

/-- The system string of a task document is not canonical: the same entry set gives different strings in processes that
iterate the set in different orders. -/
theorem C103_metadata_violated : ∃ (o o' : List Sym → List Sym) (chemsys : List Sym) (elemsOf : List Char → List Sym),
    (∀ l, (o l).Perm l) ∧ (∀ l, (o' l).Perm l) ∧ chemsys.Nodup ∧
    (metadata o elemsOf chemsys []).chemsys ≠ (metadata o' elemsOf chemsys []).chemsys :=
  ⟨id, List.reverse, ["Fe".toList, "O".toList], fun _ => [], fun _ => List.Perm.refl _, fun l => List.reverse_perm l,
    by decide, by decide +kernel⟩

example : addedElems List.reverse ["Na".toList, "Cl".toList, "O".toList] none ["O".toList] = "Cl-Na".toList := by decide +kernel
example : addedElemData id ["Na".toList, "Cl".toList, "O".toList] [["O".toList]] = (["Na".toList, "Cl".toList], "Cl-Na".toList) := by
  decide +kernel
example : ∀ e ∈ ["Na".toList, "Cl".toList, "O".toList], '-' ∉ e := by decide

end Verif.Props.Symbols
