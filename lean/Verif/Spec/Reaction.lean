import Mathlib.Data.Rat.Defs
import Mathlib.Algebra.Order.Ring.Rat
import Mathlib.Algebra.Order.Group.Abs
import Mathlib.Algebra.BigOperators.Group.List.Basic
import Verif.Model.Chem

/-! What a chemist means by a balanced reaction. Independent of the reaction model. -/

namespace Verif.Spec.Reaction
open Verif.Model

/-- Net amount of element `e` produced by the stoichiometry: products positive, reactants negative. -/
def net {κ ε : Type} (X : Chem κ ε) (comps : List κ) (coeffs : List ℚ) (e : ε) : ℚ :=
  ((comps.zip coeffs).map fun p => p.2 * X.amt p.1 e).sum

/-- Every element is conserved exactly. -/
def Conserved {κ ε : Type} (X : Chem κ ε) (comps : List κ) (coeffs : List ℚ) : Prop := ∀ e, net X comps coeffs e = 0

/-- The stoichiometric coefficient of a phase: the sum of its occurrences (0 when absent). -/
def coeffOf {κ : Type} [DecidableEq κ] (comps : List κ) (coeffs : List ℚ) (c : κ) : ℚ :=
  (((comps.zip coeffs).filter fun p => p.1 = c).map Prod.snd).sum

/-- Formula units of phase `c` consumed by the reaction (0 when it is not a reactant). -/
def consumed {κ : Type} [DecidableEq κ] (comps : List κ) (coeffs : List ℚ) (c : κ) : ℚ :=
  (((comps.zip coeffs).filter fun p => p.1 = c ∧ p.2 < 0).map fun p => -p.2).sum

/-- Formula units of phase `c` produced by the reaction (0 when it is not a product). -/
def produced {κ : Type} [DecidableEq κ] (comps : List κ) (coeffs : List ℚ) (c : κ) : ℚ :=
  (((comps.zip coeffs).filter fun p => p.1 = c ∧ 0 < p.2).map fun p => p.2).sum

/-- Atoms of phase `c` consumed by the reaction. -/
def atomsConsumed {κ ε : Type} [DecidableEq κ] (X : Chem κ ε) (comps : List κ) (coeffs : List ℚ) (c : κ) : ℚ :=
  consumed comps coeffs c * X.natoms c

/-- A phase that consists of a single open element (for instance O2 when oxygen is open). -/
def PureOpen {κ ε : Type} (X : Chem κ ε) (opens : List ε) (c : κ) : Prop := ∃ el ∈ opens, X.elems c = [el]

end Verif.Spec.Reaction
