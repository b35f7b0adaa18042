import Mathlib.Data.List.Basic
import Mathlib.Data.List.Dedup
import Mathlib.Data.Rat.Defs
import Mathlib.Algebra.Order.Ring.Rat
import Mathlib.Algebra.Order.Group.Abs
import Mathlib.Algebra.BigOperators.Group.List.Basic

/-! Specification notions for reaction sets, independent of the model. -/

namespace Verif.Spec.RxnSet

/-- Iterating a Python set built from a list: some arrangement without repetition of the same items. -/
def SetOrder {α : Type} (o : List α → List α) : Prop := ∀ l, (o l).Nodup ∧ ∀ x, x ∈ o l ↔ x ∈ l

/-- `np.argsort`: some permutation of the positions that puts the values in ascending order. -/
def ArgSort (f : List ℚ → List ℕ) : Prop :=
  ∀ l, (f l).Perm (List.range l.length) ∧ (f l).Pairwise fun i j => l.getD i 0 ≤ l.getD j 0

/-- Grouping positions by equal keys: every position is in exactly one group, the groups are the classes of equal keys. -/
def GroupBy {α : Type} (f : List α → List (List ℕ)) : Prop :=
  ∀ l, (f l).flatten.Perm (List.range l.length) ∧ (∀ g ∈ f l, g ≠ []) ∧
    (∀ g ∈ f l, ∀ i ∈ g, ∀ j ∈ g, l[i]? = l[j]?) ∧
    (f l).Pairwise fun g h => ∀ i ∈ g, ∀ j ∈ h, l[i]? ≠ l[j]?

/-- Two reactions (entries with coefficients) are the same reaction up to a positive factor. -/
def Multiple {α : Type} (a b : List (α × ℚ)) : Prop := ∃ s : ℚ, 0 < s ∧ b.Perm (a.map fun p => (p.1, p.2 * s))

/-- Total of the absolute coefficients. -/
def size1 {α : Type} (a : List (α × ℚ)) : ℚ := (a.map fun p => |p.2|).sum

end Verif.Spec.RxnSet
