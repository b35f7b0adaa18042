import Mathlib.Algebra.BigOperators.Ring.Finset
import Mathlib.Algebra.Order.BigOperators.Group.Finset
import Mathlib.Data.Rat.Defs
import Mathlib.Algebra.Order.Field.Rat
import Mathlib.Order.Bounds.Basic

/-!
Specification of thermodynamic stability, independent of the code: the energies of the mixtures of a set of phases, and the distance
of a phase from the lowest of them.
-/

namespace Verif.Spec.Stability

variable {η ε : Type}

/-- The energies of the mixtures of phases of `S` (nonnegative amounts) that contain the elements `c`. A phase `e` contains `amt e x`
atoms of the element `x` and has the energy `E e`. -/
def energies (amt : η → ε → ℚ) (E : η → ℚ) (S : Finset η) (c : ε → ℚ) : Set ℚ :=
  {v | ∃ w : η → ℚ, (∀ e ∈ S, 0 ≤ w e) ∧ (∀ x, ∑ e ∈ S, w e * amt e x = c x) ∧ ∑ e ∈ S, w e * E e = v}

/-- `d` is the distance of the phase `e` (with `n` atoms) above the hull of `S`, per atom: the mixture of lowest energy lies
`d * n` below `e`. -/
def Above (amt : η → ε → ℚ) (E : η → ℚ) (S : Finset η) (n : ℚ) (e : η) (d : ℚ) : Prop :=
  IsLeast (energies amt E S (amt e)) (E e - d * n)

/-- Matter: amounts are nonnegative, and every phase contains something. -/
structure Matter (amt : η → ε → ℚ) : Prop where
  nonneg : ∀ e x, 0 ≤ amt e x
  some : ∀ e, ∃ x, 0 < amt e x

end Verif.Spec.Stability
