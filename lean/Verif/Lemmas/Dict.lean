import Verif.Model.PyData
import Mathlib.Data.List.Nodup
import Mathlib.Tactic.Linarith
import Mathlib.Tactic.FieldSimp
import Mathlib.Tactic.Ring

/-! Facts about insertion-ordered dictionaries, `sorted`, rounding. -/

namespace Verif.Lemmas.Dict
open Verif.Py

variable {κ α : Type} [DecidableEq κ]

theorem keys_dictSet (d : List (κ × α)) (k : κ) (v : α) :
    (dictSet d k v).map Prod.fst = if k ∈ d.map Prod.fst then d.map Prod.fst else d.map Prod.fst ++ [k] := by
  induction d with
  | nil => simp [dictSet]
  | cons p d ih =>
    obtain ⟨k', v'⟩ := p
    simp only [dictSet]
    by_cases h : k' = k
    · simp [h]
    · rw [if_neg h]
      simp only [List.map_cons, ih, List.mem_cons]
      by_cases h2 : k ∈ d.map Prod.fst
      · simp [h2]
      · have h3 : ¬ k = k' := fun h' => h h'.symm
        simp [h2, h3]

theorem mem_keys_dictSet (d : List (κ × α)) (k k' : κ) (v : α) :
    k' ∈ (dictSet d k v).map Prod.fst ↔ k' = k ∨ k' ∈ d.map Prod.fst := by
  rw [keys_dictSet]
  split_ifs with h
  · exact ⟨Or.inr, fun h' => h'.elim (fun h'' => h'' ▸ h) id⟩
  · rw [List.mem_append, List.mem_singleton]; tauto

theorem nodup_dictSet (d : List (κ × α)) (k : κ) (v : α) (h : (d.map Prod.fst).Nodup) :
    ((dictSet d k v).map Prod.fst).Nodup := by
  rw [keys_dictSet]
  split_ifs with h2
  · exact h
  · rw [List.nodup_append]
    refine ⟨h, by simp, ?_⟩
    intro a ha b hb
    simp at hb
    subst hb
    exact fun h' => h2 (h' ▸ ha)

theorem dictGet_cons (p : κ × α) (d : List (κ × α)) (k : κ) :
    dictGet (p :: d) k = if p.1 = k then some p.2 else dictGet d k := by
  by_cases h : p.1 = k <;> simp [dictGet, h]

theorem dictGet_dictSet (d : List (κ × α)) (k k' : κ) (v : α) :
    dictGet (dictSet d k v) k' = if k = k' then some v else dictGet d k' := by
  induction d with
  | nil => simp [dictSet, dictGet_cons]
  | cons p d ih =>
    obtain ⟨k1, v1⟩ := p
    simp only [dictSet]
    by_cases h : k1 = k
    · subst h
      simp only [if_true, dictGet_cons]
      split_ifs <;> rfl
    · rw [if_neg h]
      simp only [dictGet_cons, ih]
      by_cases h2 : k1 = k'
      · subst h2
        have h3 : ¬ k = k1 := fun h' => h h'.symm
        simp [h3]
      · simp [h2]

theorem dictGet_eq_none (d : List (κ × α)) (k : κ) : dictGet d k = none ↔ k ∉ d.map Prod.fst := by
  induction d with
  | nil => simp [dictGet]
  | cons p d ih =>
    rw [dictGet_cons]
    by_cases h : p.1 = k
    · simp [h]
    · rw [if_neg h, ih]
      have h3 : ¬ k = p.1 := fun h' => h h'.symm
      simp [h3]

theorem dictGet_eq_some_of_mem (d : List (κ × α)) (hd : (d.map Prod.fst).Nodup) (k : κ) (v : α) (h : (k, v) ∈ d) :
    dictGet d k = some v := by
  induction d with
  | nil => simp at h
  | cons p d ih =>
    rw [dictGet_cons]
    simp only [List.map_cons, List.nodup_cons] at hd
    rcases List.mem_cons.mp h with rfl | h
    · simp
    · rw [if_neg ?_, ih hd.2 h]
      intro h'
      exact hd.1 (h' ▸ List.mem_map_of_mem (f := Prod.fst) h)

theorem mem_of_dictGet (d : List (κ × α)) (k : κ) (v : α) (h : dictGet d k = some v) : (k, v) ∈ d := by
  induction d with
  | nil => simp [dictGet] at h
  | cons p d ih =>
    rw [dictGet_cons] at h
    split_ifs at h with h'
    · cases h; cases h'; exact List.mem_cons_self
    · exact List.mem_cons_of_mem _ (ih h)

theorem foldl_dictSet_eq (d pairs : List (κ × α)) (h : ((d ++ pairs).map Prod.fst).Nodup) :
    pairs.foldl (fun d p => dictSet d p.1 p.2) d = d ++ pairs := by
  induction pairs generalizing d with
  | nil => simp
  | cons p ps ih =>
    have hset : dictSet d p.1 p.2 = d ++ [p] := by
      have hnot : p.1 ∉ d.map Prod.fst := by
        rw [List.map_append, List.nodup_append] at h
        intro h'
        exact h.2.2 _ h' _ (by simp) rfl
      clear h ih
      induction d with
      | nil => rfl
      | cons q d ih =>
        simp only [List.map_cons, List.mem_cons, not_or] at hnot
        simp only [dictSet]
        rw [if_neg (fun h => hnot.1 h.symm), ih hnot.2]
        rfl
    rw [List.foldl_cons, hset, ih _ (by simpa using h)]
    simp

theorem dictOf_eq_self (pairs : List (κ × α)) (h : (pairs.map Prod.fst).Nodup) : dictOf pairs = pairs := by
  unfold dictOf
  simpa using foldl_dictSet_eq [] pairs (by simpa using h)

theorem foldl_dictSet_keys (pairs d : List (κ × α)) (k : κ) :
    k ∈ (pairs.foldl (fun d p => dictSet d p.1 p.2) d).map Prod.fst ↔ k ∈ d.map Prod.fst ∨ k ∈ pairs.map Prod.fst := by
  induction pairs generalizing d with
  | nil => simp
  | cons p ps ih =>
    rw [List.foldl_cons, ih, mem_keys_dictSet, List.map_cons, List.mem_cons]
    tauto

theorem mem_keys_dictOf (pairs : List (κ × α)) (k : κ) : k ∈ (dictOf pairs).map Prod.fst ↔ k ∈ pairs.map Prod.fst := by
  unfold dictOf
  rw [foldl_dictSet_keys]
  simp

theorem foldl_dictSet_nodup (pairs d : List (κ × α)) (h : (d.map Prod.fst).Nodup) :
    ((pairs.foldl (fun d p => dictSet d p.1 p.2) d).map Prod.fst).Nodup := by
  induction pairs generalizing d with
  | nil => exact h
  | cons p ps ih => exact ih _ (nodup_dictSet d _ _ h)

theorem nodup_dictOf (pairs : List (κ × α)) : ((dictOf pairs).map Prod.fst).Nodup :=
  foldl_dictSet_nodup pairs [] (by simp)

theorem mem_dictSet (d : List (κ × α)) (k : κ) (v : α) (p : κ × α) (h : p ∈ dictSet d k v) : p = (k, v) ∨ p ∈ d := by
  induction d with
  | nil => simpa [dictSet] using h
  | cons q d ih =>
    simp only [dictSet] at h
    split_ifs at h with h'
    · subst h'
      rcases List.mem_cons.mp h with h | h
      · exact Or.inl h
      · exact Or.inr (List.mem_cons_of_mem _ h)
    · rcases List.mem_cons.mp h with h | h
      · exact Or.inr (h ▸ List.mem_cons_self)
      · exact (ih h).imp id (List.mem_cons_of_mem _)

theorem mem_dictOf (pairs : List (κ × α)) (p : κ × α) (h : p ∈ dictOf pairs) : p ∈ pairs := by
  have : ∀ (ps d : List (κ × α)), p ∈ ps.foldl (fun d p => dictSet d p.1 p.2) d → p ∈ d ∨ p ∈ ps := by
    intro ps
    induction ps with
    | nil => intro d h; exact Or.inl h
    | cons q ps ih =>
      intro d h
      rcases ih _ h with h | h
      · rcases mem_dictSet _ _ _ _ h with h | h
        · exact Or.inr (h ▸ List.mem_cons_self)
        · exact Or.inl h
      · exact Or.inr (List.mem_cons_of_mem _ h)
  simpa using this pairs [] h

/-- mapping the values commutes with building a dict -/
theorem dictSet_map {β : Type} (f : α → β) (d : List (κ × α)) (k : κ) (v : α) :
    dictSet (d.map fun p => (p.1, f p.2)) k (f v) = (dictSet d k v).map fun p => (p.1, f p.2) := by
  induction d with
  | nil => rfl
  | cons q d ih =>
    simp only [List.map_cons, dictSet]
    split_ifs
    · rfl
    · rw [ih]; rfl

theorem dictOf_map {β : Type} (f : α → β) (pairs : List (κ × α)) :
    dictOf (pairs.map fun p => (p.1, f p.2)) = (dictOf pairs).map fun p => (p.1, f p.2) := by
  have : ∀ (ps : List (κ × α)) (d : List (κ × α)),
      (ps.map fun p => (p.1, f p.2)).foldl (fun d p => dictSet d p.1 p.2) (d.map fun p => (p.1, f p.2))
        = (ps.foldl (fun d p => dictSet d p.1 p.2) d).map fun p => (p.1, f p.2) := by
    intro ps
    induction ps with
    | nil => intro d; rfl
    | cons q ps ih =>
      intro d
      simp only [List.map_cons, List.foldl_cons]
      rw [dictSet_map, ih]
  exact this pairs []

/-! ### `sorted` -/

theorem sorted_perm (l : List ℚ) : (sorted l).Perm l := List.perm_insertionSort _ _

theorem sorted_sorted (l : List ℚ) : (sorted l).Pairwise (· ≤ ·) := List.pairwise_insertionSort _ _

theorem sorted_eq_of_perm {a b : List ℚ} (h : a.Perm b) : sorted a = sorted b := by
  apply List.Perm.eq_of_pairwise (le := (· ≤ ·)) (fun a b _ _ h1 h2 => le_antisymm h1 h2) (sorted_sorted a) (sorted_sorted b)
  exact ((sorted_perm a).trans h).trans (sorted_perm b).symm

theorem sorted_smul (t : ℚ) (ht : 0 ≤ t) (l : List ℚ) : sorted (l.map fun c => c * t) = (sorted l).map fun c => c * t := by
  apply List.Perm.eq_of_pairwise (le := (· ≤ ·)) (fun a b _ _ h1 h2 => le_antisymm h1 h2) (sorted_sorted _)
  · rw [List.pairwise_map]
    exact (sorted_sorted l).imp fun h => mul_le_mul_of_nonneg_right h ht
  · exact (sorted_perm _).trans ((sorted_perm l).symm.map _)

/-! ### rounding -/

theorem round_bounds (y : ℚ) : (roundHalfEven y : ℚ) - 1 / 2 ≤ y ∧ y ≤ roundHalfEven y + 1 / 2 := by
  have h1 := Int.floor_le y
  have h2 := Int.lt_floor_add_one y
  unfold roundHalfEven
  split_ifs with a b c <;> push_cast <;> constructor <;> linarith

theorem round_int (n : ℤ) : roundHalfEven (n : ℚ) = n := by
  simp [roundHalfEven]

theorem round_mono {x y : ℚ} (h : x ≤ y) : roundHalfEven x ≤ roundHalfEven y := by
  by_contra hc
  push Not at hc
  have hx := round_bounds x
  have hy := round_bounds y
  have h1 : (roundHalfEven y : ℚ) + 1 ≤ roundHalfEven x := by exact_mod_cast hc
  have : x = y := by linarith
  subst this
  exact lt_irrefl _ hc

theorem round_eq_zero_iff (y : ℚ) (hy : 0 ≤ y) : roundHalfEven y = 0 ↔ y ≤ 1 / 2 := by
  constructor
  · intro h
    have := round_bounds y
    rw [h] at this
    push_cast at this
    linarith
  · intro h
    have hf : ⌊y⌋ = 0 := by
      rw [Int.floor_eq_iff]; push_cast; exact ⟨hy, by linarith⟩
    unfold roundHalfEven
    rw [hf]
    rcases lt_or_eq_of_le h with h | h
    · rw [if_pos]; push_cast; linarith
    · subst h; simp

end Verif.Lemmas.Dict
