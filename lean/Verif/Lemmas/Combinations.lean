import Verif.Model.Py
import Mathlib.Data.List.Sublists
import Mathlib.Data.Nat.Choose.Basic
import Mathlib.Algebra.BigOperators.Intervals
import Mathlib.Data.List.Sort
import Mathlib.Tactic.Linarith

namespace Verif.Lemmas
open Verif.Py

variable {α : Type*}

theorem mem_combinations {xs : List α} {k : ℕ} {c : List α} :
    c ∈ combinations xs k ↔ c.Sublist xs ∧ c.length = k := by
  induction xs generalizing k c with
  | nil =>
    cases k with
    | zero => simp only [combinations, List.mem_singleton, List.sublist_nil]; constructor
              · rintro rfl; simp
              · rintro ⟨h, _⟩; exact h
    | succ k => simp only [combinations, List.not_mem_nil, List.sublist_nil, false_iff]
                rintro ⟨rfl, h⟩; simp at h
  | cons x xs ih =>
    cases k with
    | zero =>
      simp only [combinations, List.mem_singleton]
      constructor
      · rintro rfl; simp
      · rintro ⟨_, h⟩; exact List.length_eq_zero_iff.mp h
    | succ k =>
      simp only [combinations, List.mem_append, List.mem_map, ih]
      constructor
      · rintro (⟨d, ⟨hd, hl⟩, rfl⟩ | ⟨hd, hl⟩)
        · exact ⟨hd.cons_cons x, by simp [hl]⟩
        · exact ⟨hd.cons x, hl⟩
      · rintro ⟨hs, hl⟩
        cases hs with
        | cons _ h => exact Or.inr ⟨h, hl⟩
        | cons_cons _ h => exact Or.inl ⟨_, ⟨h, by simpa using hl⟩, rfl⟩

theorem length_combinations (xs : List α) (k : ℕ) :
    (combinations xs k).length = xs.length.choose k := by
  induction xs generalizing k with
  | nil => cases k <;> simp [combinations]
  | cons x xs ih =>
    cases k with
    | zero => simp [combinations]
    | succ k => simp [combinations, ih, Nat.choose_succ_succ]

theorem nodup_combinations {xs : List α} (h : xs.Nodup) (k : ℕ) : (combinations xs k).Nodup := by
  induction xs generalizing k with
  | nil => cases k <;> simp [combinations]
  | cons x xs ih =>
    cases k with
    | zero => simp [combinations]
    | succ k =>
      rw [List.nodup_cons] at h
      simp only [combinations]
      refine List.Nodup.append ((ih h.2 k).map (by intro a b hab; simpa using hab)) (ih h.2 (k + 1)) ?_
      intro c hc hc'
      rw [List.mem_map] at hc
      obtain ⟨d, _, rfl⟩ := hc
      rw [mem_combinations] at hc'
      exact h.1 (hc'.1.subset (by simp))

theorem combinations_one (xs : List α) : combinations xs 1 = xs.map fun x => [x] := by
  induction xs with
  | nil => rfl
  | cons x xs ih => simp [combinations, ih]

section sums
variable {M : Type*} [AddCommMonoid M]
open Finset

theorem sum_comb1 (s m : ℕ) (f : List ℕ → M) :
    ((combinations (List.range' s m) 1).map f).sum = ∑ k ∈ Ico s (s + m), f [k] := by
  induction m generalizing s with
  | zero => simp [combinations]
  | succ m ih =>
    rw [List.range'_succ]
    simp only [combinations, List.map_append, List.sum_append, List.map_cons, List.map_nil, List.sum_cons,
      List.sum_nil, add_zero]
    rw [ih, sum_eq_sum_Ico_succ_bot (a := s) (b := s + (m + 1)) (by omega), show s + 1 + m = s + (m + 1) by omega]

theorem sum_comb2 (s m : ℕ) (f : List ℕ → M) :
    ((combinations (List.range' s m) 2).map f).sum
      = ∑ j ∈ Ico s (s + m), ∑ k ∈ Ico (j + 1) (s + m), f [j, k] := by
  induction m generalizing s with
  | zero => simp [combinations]
  | succ m ih =>
    rw [List.range'_succ]
    rw [show combinations (s :: List.range' (s + 1) m) 2
      = (combinations (List.range' (s + 1) m) 1).map (s :: ·) ++ combinations (List.range' (s + 1) m) 2 from rfl]
    rw [List.map_append, List.sum_append, List.map_map]
    rw [ih, sum_eq_sum_Ico_succ_bot (a := s) (b := s + (m + 1)) (by omega), show s + 1 + m = s + (m + 1) by omega]
    rw [sum_comb1, show s + 1 + m = s + (m + 1) by omega]
    rfl

theorem sum_comb3 (s m : ℕ) (f : List ℕ → M) :
    ((combinations (List.range' s m) 3).map f).sum
      = ∑ i ∈ Ico s (s + m), ∑ j ∈ Ico (i + 1) (s + m), ∑ k ∈ Ico (j + 1) (s + m), f [i, j, k] := by
  induction m generalizing s with
  | zero => simp [combinations]
  | succ m ih =>
    rw [List.range'_succ]
    rw [show combinations (s :: List.range' (s + 1) m) 3
      = (combinations (List.range' (s + 1) m) 2).map (s :: ·) ++ combinations (List.range' (s + 1) m) 3 from rfl]
    rw [List.map_append, List.sum_append, List.map_map]
    rw [ih, sum_eq_sum_Ico_succ_bot (a := s) (b := s + (m + 1)) (by omega), show s + 1 + m = s + (m + 1) by omega]
    rw [sum_comb2, show s + 1 + m = s + (m + 1) by omega]
    rfl

end sums

theorem mem_comb3_range {m : ℕ} {c : List ℕ} (h : c ∈ combinations (List.range m) 3) :
    ∃ i j k, c = [i, j, k] ∧ i < j ∧ j < k ∧ k < m := by
  rw [mem_combinations] at h
  obtain ⟨hs, hl⟩ := h
  match c, hl with
  | [i, j, k], _ =>
    have hp := List.Pairwise.sublist hs List.pairwise_lt_range
    simp at hp
    have hk : k ∈ List.range m := hs.subset (by simp)
    exact ⟨i, j, k, rfl, hp.1.1, hp.2, List.mem_range.mp hk⟩

theorem foldlM_sum {β M : Type} [AddCommMonoid M] (l : List β) (step : M → β → Option M) (f : β → M) (init : M)
    (h : ∀ b ∈ l, ∀ acc, step acc b = some (acc + f b)) :
    l.foldlM step init = some (init + (l.map f).sum) := by
  induction l generalizing init with
  | nil => simp
  | cons b l ih =>
    rw [List.foldlM_cons, h b (by simp)]
    simp only [Option.bind_eq_bind, Option.bind_some]
    rw [ih _ (fun b' hb' => h b' (by simp [hb']))]
    simp [add_assoc]

end Verif.Lemmas
