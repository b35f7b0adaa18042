import Mathlib.Algebra.BigOperators.Group.List.Basic
import Mathlib.Algebra.Order.Ring.Rat
import Mathlib.Data.Finset.Basic
import Mathlib.Data.Rat.Defs

/-! Specification notions for carrying out a set of reactions in portions with limited amounts of material, independent of the model.
`ν r x` is what reaction `r` makes of the phase `x` (negative: uses). -/

namespace Verif.Spec.Carry

variable {κ ρ : Type}

/-- The amounts left after a portion: reaction `p.1` carried out `p.2` times. -/
def after (ν : ρ → κ → ℚ) (m : κ → ℚ) (p : ρ × ℚ) : κ → ℚ := fun x => m x + p.2 * ν p.1 x

/-- The amounts left after all portions. -/
def left (ν : ρ → κ → ℚ) (m : κ → ℚ) (s : List (ρ × ℚ)) : κ → ℚ := s.foldl (after ν) m

/-- With the amounts `m` at hand the portions can be carried out one after the other: none takes more of a phase than is there. -/
def CarriedOut (ν : ρ → κ → ℚ) : (κ → ℚ) → List (ρ × ℚ) → Prop
  | _, [] => True
  | m, p :: s => 0 ≤ p.2 ∧ (∀ x, p.2 * -ν p.1 x ≤ m x) ∧ CarriedOut ν (after ν m p) s

/-- How many times the portions carry out the reaction `r` in all. -/
def times [DecidableEq ρ] (s : List (ρ × ℚ)) (r : ρ) : ℚ := ((s.filter fun p => decide (p.1 = r)).map Prod.snd).sum

end Verif.Spec.Carry
