import Mathlib.Algebra.BigOperators.Group.List.Basic
import Mathlib.Algebra.Order.Group.Abs
import Mathlib.Algebra.Order.Ring.Rat
import Mathlib.Data.Rat.Defs

/-! Specification notions for balanced pathways, independent of the model. -/

namespace Verif.Spec.Solver

variable {η : Type} [DecidableEq η]

/-- The amount of the phase `e` in a reaction given by its phases and coefficients. -/
def amount (l : List (η × ℚ)) (e : η) : ℚ := ((l.filter fun p => decide (p.1 = e)).map Prod.snd).sum

/-- What the reactions `rs`, carried out `ms` times, produce (or consume, if negative) of the phase `e`. -/
def total (rs : List (List (η × ℚ))) (ms : List ℚ) (e : η) : ℚ := (rs.zipWith (fun r m => m * amount r e) ms).sum

/-- numpy's default closeness. -/
def Close (x y : ℚ) : Prop := |x - y| ≤ 1 / 10 ^ 8 + 1 / 10 ^ 5 * |y|

end Verif.Spec.Solver
