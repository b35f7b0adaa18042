import Verif.Model.Thermo
import Verif.Model.Chempot

/-!
Model of the stability filter and the hull distance of an entry set as its user calls them: the phase diagrams are built by
`expand_pd` from the entries of the set (`src/rxn_network/entries/entry_set.py`).
-/

namespace Verif.Model.StabilityFilter
open Verif.Py Verif.Model Verif.Model.Entries Verif.Model.Thermo

variable {η φ : Type} [DecidableEq η] [DecidableEq φ]

/-- `filter_by_stability`, src/rxn_network/entries/entry_set.py:162-195, with the phase diagrams of `pd_dict`
(src/rxn_network/entries/entry_set.py:129-135); `build` is the construction of a phase diagram (pymatgen, external). -/
def filterSet (elems : η → List Enum.Sym) (form : η → φ) (epa : η → ℚ) (build : List η → Except Err (PD η)) (entries : List η)
    (cut : ℚ) (poly : Bool) : Except Err (List η) := do
  let d ← expandPd elems build entries
  filterByStability form epa (d.map Prod.snd) cut poly

/-- `get_e_above_hull` of an entry set, src/rxn_network/entries/entry_set.py:345-361, with the phase diagrams of `pd_dict`
(src/rxn_network/entries/entry_set.py:129-135). -/
def aboveHull (elems : η → List Enum.Sym) (build : List η → Except Err (PD η)) (entries : List η) (e : η) : Except Err ℚ := do
  let d ← expandPd elems build entries
  Chempot.eAboveHull elems (fun pd e => .ok (pd.ehull e)) d e

end Verif.Model.StabilityFilter
