import Verif.Model.Reaction
import Verif.Model.Solver

/-! Energies of whole pathways. -/

namespace Verif.Model.PathEnergy

open Verif.Py Verif.Model Verif.Model.Reaction Verif.Model.Pathway Verif.Model.RxnSet Verif.Model.Solver

variable {κ ε : Type} [DecidableEq κ] [DecidableEq ε]

/-- `Pathway.energy`, src/rxn_network/pathways/base.py:57-60: the plain sum over the reactions of the path.  The stored
multiplicities (src/rxn_network/pathways/balanced.py:38) take no part; `energyOf` is the reaction's own `energy`. -/
def pathEnergy {ρ : Type} (energyOf : ρ → Except Err ℚ) (rs : List ρ) : Except Err ℚ := (rs.mapM energyOf).map List.sum

/-- `Pathway.energy_per_atom`, src/rxn_network/pathways/base.py:62-65. -/
def pathEnergyPerAtom {ρ : Type} (perAtomOf : ρ → Except Err ℚ) (rs : List ρ) : Except Err ℚ :=
  (rs.mapM perAtomOf).map List.sum

/-- The computed reaction which the solver puts in a pathway (src/rxn_network/pathways/solver.py:299-316), without open
elements; entries and coefficients are those of the rebuilt row. -/
def stepRxn {δ ω : Type} (X : Chem κ ε) (r : SRxn (Entry κ) δ ω) : CRxn κ := cinit X r.entries r.coeffs [] none

end Verif.Model.PathEnergy
