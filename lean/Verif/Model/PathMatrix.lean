import Verif.Model.Reaction

/-!
Model of the composition matrix and the coefficient vectors of a balanced pathway (src/rxn_network/pathways/balanced.py:44-66). The iteration order of the
pathway's set of compositions (src/rxn_network/pathways/base.py:37-40) is given by the list of phases.
-/

namespace Verif.Model.PathMatrix
open Verif.Py Verif.Model.Reaction

variable {κ : Type} [DecidableEq κ]

/-- The set of phases of a pathway, src/rxn_network/pathways/base.py:27-40. -/
def phaseSet (rs : List (Rxn κ)) : Finset κ := (rs.flatMap reactants).toFinset ∪ (rs.flatMap products).toFinset

/-- `get_coeff`, src/rxn_network/reactions/basic.py:159-161: the coefficient at the first place where the composition occurs. -/
def getCoeff (r : Rxn κ) (c : κ) : Except Err ℚ := match r.comps.findIdx? fun x => decide (x = c) with
  | none => .error .valueError
  | some i => match r.coeffs[i]? with
    | none => .error .indexError
    | some v => .ok v

/-- One component of the vector, src/rxn_network/pathways/balanced.py:66. -/
def component (r : Rxn κ) (c : κ) : Except Err ℚ := if c ∈ r.comps then getCoeff r c else .ok 0

/-- `get_coeff_vector_for_rxn`, src/rxn_network/pathways/balanced.py:57-66. -/
def coeffVector (phases : List κ) (r : Rxn κ) : Except Err (List ℚ) := phases.mapM (component r)

/-- `rxn.all_comp`, src/rxn_network/pathways/balanced.py:52: reactions have no such attribute (src/rxn_network/reactions/basic.py, base.py). -/
def allComp (_ : Rxn κ) : Except Err (List κ) := .error .attributeError

/-- One component of the matrix, src/rxn_network/pathways/balanced.py:52. -/
def cell (r : Rxn κ) (c : κ) : Except Err ℚ := match allComp r with
  | .error e => .error e
  | .ok l => if c ∈ l then getCoeff r c else .ok 0

/-- `get_comp_matrix`, src/rxn_network/pathways/balanced.py:44-55. -/
def compMatrix (phases : List κ) (rs : List (Rxn κ)) : Except Err (List (List ℚ)) := rs.mapM fun r => phases.mapM (cell r)

end Verif.Model.PathMatrix
