import Verif.Model.Utils
import Verif.Lemmas.Combinations

namespace Verif.Lemmas.Utils
open Verif.Py Verif.Model.Utils Verif.Lemmas

theorem combinations_map {α β : Type*} (f : α → β) (l : List α) (k : ℕ) :
    combinations (l.map f) k = (combinations l k).map (List.map f) := by
  induction l generalizing k with
  | nil => cases k <;> simp [combinations]
  | cons x l ih =>
    cases k with
    | zero => simp [combinations]
    | succ k =>
      simp only [List.map_cons, combinations, ih, List.map_append, List.map_map]
      rfl

theorem pull_all {α : Type*} (fill : α) (n : ℕ) (xs : List α) :
    pull fill (List.replicate n true) xs
      = (xs.take n ++ List.replicate (n - xs.length) fill,
         List.replicate (min n xs.length) true ++ List.replicate (n - xs.length) false, xs.drop n) := by
  induction n generalizing xs with
  | zero => simp [pull]
  | succ n ih =>
    cases xs with
    | nil =>
      simp only [List.replicate_succ, pull, ih]
      simp [List.replicate_succ]
    | cons x xs =>
      simp only [List.replicate_succ, pull, ih]
      simp [List.replicate_succ]

theorem pull_nil_inactive {α : Type*} (fill : α) (s : List Bool) : ((pull fill s []).2.1).any id = false := by
  induction s with
  | nil => simp [pull]
  | cons b s ih => cases b <;> simpa [pull] using ih

theorem rounds_nil {α : Type*} (fill : α) (fuel : ℕ) (s : List Bool) : rounds fill fuel s [] = [] := by
  cases fuel with
  | zero => rfl
  | succ f =>
    have := pull_nil_inactive fill s
    simp only [rounds, this]
    simp

theorem rounds_spec {α : Type*} (fill : α) (n : ℕ) (hn : 0 < n) (fuel : ℕ) (xs : List α) (hf : xs.length < fuel) :
    ∃ m, m < n ∧ (rounds fill fuel (List.replicate n true) xs).flatten = xs ++ List.replicate m fill ∧
      (∀ c ∈ rounds fill fuel (List.replicate n true) xs, c.length = n) ∧
      (xs = [] → m = 0) := by
  induction fuel generalizing xs with
  | zero => omega
  | succ f ih =>
    cases hxs : xs with
    | nil => exact ⟨0, hn, by rw [rounds_nil]; simp, by rw [rounds_nil]; simp, fun _ => rfl⟩
    | cons x xs' =>
      rw [← hxs]
      have hlen : 0 < xs.length := by rw [hxs]; simp
      have hany : (List.replicate (min n xs.length) true ++ List.replicate (n - xs.length) false).any id = true := by
        rw [List.any_append, Bool.or_eq_true]
        left
        rw [List.any_eq_true]
        exact ⟨true, by rw [List.mem_replicate]; exact ⟨by omega, rfl⟩, rfl⟩
      rw [rounds, pull_all]
      simp only [hany, if_true]
      by_cases hge : n ≤ xs.length
      · have e0 : n - xs.length = 0 := by omega
        have e1 : min n xs.length = n := by omega
        rw [e0, e1]
        simp only [List.replicate_zero, List.append_nil]
        obtain ⟨m, hm, h1, h2, h3⟩ := ih (xs.drop n) (by rw [List.length_drop]; omega)
        refine ⟨m, hm, ?_, ?_, by intro h; rw [h] at hlen; simp at hlen⟩
        · rw [List.flatten_cons, h1, ← List.append_assoc, List.take_append_drop]
        · intro c hc
          rcases List.mem_cons.mp hc with rfl | hc
          · simp; omega
          · exact h2 c hc
      · have hd : xs.drop n = [] := List.drop_eq_nil_of_le (by omega)
        rw [hd, rounds_nil, List.take_of_length_le (by omega)]
        refine ⟨n - xs.length, by omega, by simp, ?_, by intro h; rw [h] at hlen; simp at hlen⟩
        intro c hc
        simp only [List.mem_singleton] at hc
        subst hc
        simp; omega

/-- `rounds` ignores surplus fuel. -/
theorem rounds_fuel {α : Type*} (fill : α) (n : ℕ) (hn : 0 < n) (fuel fuel' : ℕ) (xs : List α) (hf : xs.length < fuel)
    (hf' : xs.length < fuel') :
    rounds fill fuel (List.replicate n true) xs = rounds fill fuel' (List.replicate n true) xs := by
  induction fuel generalizing xs fuel' with
  | zero => omega
  | succ f ih =>
    cases fuel' with
    | zero => omega
    | succ f' =>
      rw [rounds, rounds, pull_all]
      by_cases hge : n ≤ xs.length
      · have e0 : n - xs.length = 0 := by omega
        have e1 : min n xs.length = n := by omega
        rw [e0, e1]
        simp only [List.replicate_zero, List.append_nil]
        rw [ih f' (xs.drop n) (by rw [List.length_drop]; omega) (by rw [List.length_drop]; omega)]
      · have hd : xs.drop n = [] := List.drop_eq_nil_of_le (by omega)
        simp only [hd, rounds_nil]

end Verif.Lemmas.Utils
