import Mathlib.Data.Rat.Defs
import Mathlib.Data.List.Forall2

/-! Specification of Pareto optimality, independent of the model. Smaller is better. -/

namespace Verif.Spec.Pareto

/-- `a` is at least as good as `b` in every metric. -/
def AtLeastAsGood (a b : List ℚ) : Prop := List.Forall₂ (· ≤ ·) a b

/-- Row `i` of the table is kept: no other row is at least as good in all metrics and different, and no earlier row is
identical. -/
def Kept (pts : List (List ℚ)) (i : ℕ) : Prop :=
  ∃ p, pts[i]? = some p ∧ ∀ j q, pts[j]? = some q → j ≠ i → AtLeastAsGood q p → q = p ∧ i < j

end Verif.Spec.Pareto
