import Verif.Model.HullCount
import Verif.Spec.Hull
import Mathlib.Tactic.NormNum
import Mathlib.Tactic.Ring
import Mathlib.Tactic.Linarith
import Mathlib.Tactic.IntervalCases
import Mathlib.Algebra.BigOperators.Intervals
import Mathlib.Algebra.BigOperators.NatAntidiagonal
import Mathlib.Algebra.BigOperators.Ring.Finset
import Mathlib.Data.Nat.Choose.Central

namespace Verif.Lemmas.Hull
open Verif.Py Verif.Model.Hull Finset

theorem catalan_rec (n : ℕ) : catalan (n + 1) = ∑ i ∈ range (n + 1), catalan i * catalan (n - i) := by
  rw [catalan_succ, Finset.sum_range]

/-- the table of catalan numbers up to and including n -/
def catList (n : ℕ) : List ℕ := (List.range (n + 1)).map catalan

theorem catList_len (n : ℕ) : (catList n).length = n + 1 := by simp [catList]

theorem catList_get (n i : ℕ) (h : i ≤ n) : (catList n)[i]? = some (catalan i) := by
  simp [catList, List.getElem?_range (show i < n + 1 by omega)]

theorem catList_succ (n : ℕ) : catList (n + 1) = catList n ++ [catalan (n + 1)] := by
  simp [catList, List.range_succ (n := n + 1)]

/-- call with an already big enough cache. -/
theorem countRecursive_cached (m i : ℕ) (h : i ≤ m) :
    ∃ c, countRecursive i (catList m) = some (catalan i, c) ∧ c.length ≤ m + 1 := by
  unfold countRecursive
  by_cases h0 : i = 0
  · subst h0; exact ⟨[1], by simp, by simp⟩
  by_cases h1 : i = 1
  · subst h1; exact ⟨[1, 1], by simp, by simp; omega⟩
  · refine ⟨catList m, ?_, by simp [catList_len]⟩
    simp [h0, h1, catList_len, show i ≤ m + 1 by omega, catList_get m i h]

theorem foldlM_attach_range {α : Type} (n : ℕ) (f : α → ℕ → Option α) (init : α) :
    (List.range n).attach.foldlM (fun st (i : {x // x ∈ List.range n}) => f st i.1) init
      = (List.range n).foldlM f init := by
  have := List.foldlM_subtype (l := (List.range n).attach)
    (f := fun st (i : {x // x ∈ List.range n}) => f st i.1) (g := f) (x := init) (hf := by intros; rfl)
  rw [this]
  simp

theorem loop_tail (n : ℕ) (k : ℕ) (hk : k ≤ n) (tot : ℕ) :
    ((List.range' (n + 1 - k) k).foldlM (init := (tot, catList n)) fun st i => do
      let lr ← countRecursive i st.2
      let rr ← countRecursive (n + 1 - i - 1) st.2
      let big1 := if lr.2.length > st.2.length then lr.2 else st.2
      let big2 := if rr.2.length > big1.length then rr.2 else big1
      pure (st.1 + lr.1 * rr.1, big2) : Option (ℕ × List ℕ))
      = some (tot + ∑ i ∈ Finset.Ico (n + 1 - k) (n + 1), catalan i * catalan (n - i), catList n) := by
  induction k generalizing tot with
  | zero => simp
  | succ k ih =>
    simp only [Option.bind_eq_bind] at ih
    rw [List.range'_succ, List.foldlM_cons]
    obtain ⟨c1, e1, l1⟩ := countRecursive_cached n (n + 1 - (k + 1)) (by omega)
    obtain ⟨c2, e2, l2⟩ := countRecursive_cached n (n + 1 - (n + 1 - (k + 1)) - 1) (by omega)
    simp only [e1, e2, Option.bind_eq_bind, Option.bind_some, catList_len]
    have hle1 : ¬ (c1.length > n + 1) := by omega
    simp only [hle1, if_false, catList_len]
    have hle2 : ¬ (c2.length > n + 1) := by omega
    simp only [hle2, if_false]
    have hs : n + 1 - (k + 1) + 1 = n + 1 - k := by omega
    rw [hs, show (pure (tot + catalan (n + 1 - (k + 1)) * catalan (n + 1 - (n + 1 - (k + 1)) - 1), catList n)
      : Option (ℕ × List ℕ)) = some _ from rfl, Option.bind_some, ih (by omega)]
    rw [Finset.sum_eq_sum_Ico_succ_bot (a := n + 1 - (k + 1)) (by omega)]
    have : n + 1 - (n + 1 - (k + 1)) - 1 = n - (n + 1 - (k + 1)) := by omega
    rw [this, hs, add_assoc]

theorem countRecursive_nil (n : ℕ) : countRecursive n [] = some (catalan n, catList n) := by
  induction n using Nat.strong_induction_on with
  | _ n ih =>
    rcases n with _ | _ | n
    · unfold countRecursive; simp [catList]
    · unfold countRecursive; simp [catList, List.range_succ]
    · unfold countRecursive
      simp only [List.length_nil, show ¬ (n + 1 + 1 = 0) by omega, show ¬ (n + 1 + 1 = 1) by omega,
        show ¬ (n + 1 + 1 ≤ 0) by omega, if_false]
      rw [foldlM_attach_range (n + 1 + 1) (fun st i => do
        let lr ← countRecursive i st.2
        let rr ← countRecursive (n + 1 + 1 - i - 1) st.2
        let big1 := if lr.2.length > st.2.length then lr.2 else st.2
        let big2 := if rr.2.length > big1.length then rr.2 else big1
        pure (st.1 + lr.1 * rr.1, big2))]
      rw [show List.range (n + 1 + 1) = 0 :: List.range' 1 (n + 1) by
        rw [List.range_eq_range', List.range'_succ], List.foldlM_cons]
      have e0 := ih 0 (by omega)
      have e1 := ih (n + 1) (by omega)
      simp only [e0, Option.bind_eq_bind, Option.bind_some, show n + 1 + 1 - 0 - 1 = n + 1 by omega, e1,
        catList_len, List.length_nil]
      have hc : (n + 1 + 1 > (if 0 + 1 > 0 then catList 0 else ([] : List ℕ)).length) := by
        simp [catList_len]
      simp only [hc, if_true]
      rw [show (pure (0 + catalan 0 * catalan (n + 1), catList (n + 1)) : Option (ℕ × List ℕ))
        = some (0 + catalan 0 * catalan (n + 1), catList (n + 1)) from rfl, Option.bind_some]
      have ht := loop_tail (n + 1) (n + 1) (by omega) (0 + catalan 0 * catalan (n + 1))
      rw [show n + 1 + 1 - (n + 1) = 1 by omega] at ht
      simp only [Option.bind_eq_bind] at ht
      rw [ht, Option.bind_some]
      have hcat : 0 + catalan 0 * catalan (n + 1) + ∑ i ∈ Finset.Ico 1 (n + 1 + 1), catalan i * catalan (n + 1 - i)
          = catalan (n + 1 + 1) := by
        conv_rhs => rw [catalan_rec (n + 1), Finset.range_eq_Ico, Finset.sum_eq_sum_Ico_succ_bot (by omega)]
        simp only [zero_add, Nat.sub_zero]
      rw [hcat, catList_succ (n + 1)]
      rfl

theorem countTable_eq (n : ℕ) (h : n ≤ 22) : countTable[n]? = some (catalan n) := by
  interval_cases n <;> simp [countTable, catalan_eq_centralBinom_div, Nat.centralBinom, Nat.choose]

theorem count_eq (n : ℕ) : count (n : ℤ) = some (catalan n) := by
  unfold count getItem?
  by_cases h : (n : ℤ) ≤ 22
  · simp only [h, if_true, Int.natCast_nonneg, Int.toNat_natCast]
    exact countTable_eq n (by omega)
  · simp [h, countRecursive_nil]

end Verif.Lemmas.Hull
