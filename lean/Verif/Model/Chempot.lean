import Verif.Model.Thermo
import Mathlib.Analysis.InnerProductSpace.PiL2

/-!
Model of the construction of the chemical potential diagram, src/rxn_network/thermo/chempot_diagram.py:41-88, 111-128, 150-193, 230-232.

`elements` is `self.elements`, `frac e el` is `e.composition.get_atomic_fraction(el)`, `epa e` is `e.energy_per_atom`, `formula e` is
`e.composition.reduced_formula`. `mins` and `refs` are the results of pymatgen's `_get_min_entries_and_el_refs` (line 66), `borders` of
`_get_border_hyperplanes` (line 68). scipy's `HalfspaceIntersection` is a parameter: the list of its intersection points with their dual
facets, for a given array of half-spaces.
-/

namespace Verif.Model.Chempot
open Verif.Py Verif.Model Verif.Model.Thermo

variable {η ε φ : Type} [DecidableEq η] [DecidableEq ε] [DecidableEq φ]

/-- `np.dot` of two vectors, src/rxn_network/thermo/chempot_diagram.py:181. -/
def dot (a b : List ℚ) : ℚ := (List.zipWith (· * ·) a b).sum

/-- `PhaseDiagram.formation_energy_tol` of pymatgen, used at src/rxn_network/thermo/chempot_diagram.py:183. -/
def formTol : ℚ := 1 / 10 ^ 11

/-- `_get_hyperplane`, src/rxn_network/thermo/chempot_diagram.py:192-193. -/
def hyperplane (elements : List ε) (frac : η → ε → ℚ) (epa : η → ℚ) (e : η) : List ℚ := elements.map (frac e) ++ [-(epa e)]

/-- `self.el_refs[el].energy_per_atom`, src/rxn_network/thermo/chempot_diagram.py:180. -/
def refEnergy (epa : η → ℚ) (refs : List (ε × η)) (el : ε) : Except Err ℚ :=
  match dictGet refs el with
  | some r => .ok (epa r)
  | none => .error .keyError

/-- `self._min_entries.index(el)`, src/rxn_network/thermo/chempot_diagram.py:185. -/
def indexIn (mins : List η) (e : η) : Except Err ℕ := if e ∈ mins then .ok (mins.idxOf e) else .error .valueError

/-- `_get_hyperplanes_and_entries`, src/rxn_network/thermo/chempot_diagram.py:175-190. -/
def hyperplanesAndEntries (elements : List ε) (frac : η → ε → ℚ) (epa : η → ℚ) (mins : List η) (refs : List (ε × η)) :
    Except Err (List (List ℚ) × List η) := do
  let data := mins.map (hyperplane elements frac epa)
  let vec ← elements.mapM (refEnergy epa refs)
  let inds := (List.range mins.length).filter fun i =>
    match data[i]? with
    | some row => decide (-(dot row (vec ++ [1])) < -formTol)
    | none => false
  let refInds ← refs.mapM fun p => indexIn mins p.2
  pure ((inds ++ refInds).filterMap fun i => data[i]?, (inds ++ refInds).filterMap fun i => mins[i]?)

/-- Body of the double loop of `_get_domains` for one index of one facet, src/rxn_network/thermo/chempot_diagram.py:166-171. -/
def collectStep {P : Type} (formula : η → φ) (entries : List η) (nBorder : ℕ) (d : List (φ × List P)) (vp : ℕ × P) :
    Except Err (List (φ × List P)) :=
  if entries.length ≤ vp.1 ∧ vp.1 < entries.length + nBorder then .ok d
  else match entries[vp.1]? with
    | none => .error .indexError
    | some e => match dictGet d (formula e) with
      | none => .error .keyError
      | some l => .ok (dictSet d (formula e) (l ++ [vp.2]))

/-- `_get_domains`, src/rxn_network/thermo/chempot_diagram.py:159-173; `pairs` are the intersections with their dual facets. -/
def getDomains {P : Type} (formula : η → φ) (entries : List η) (nBorder : ℕ) (pairs : List (P × List ℕ)) :
    Except Err (List (φ × List P)) := do
  let d ← (pairs.flatMap fun p => p.2.map fun v => (v, p.1)).foldlM (collectStep formula entries nBorder)
    (dictOf (entries.map fun e => (formula e, [])))
  pure (d.filter fun kv => !kv.2.isEmpty)

/-- Construction of the diagram and its domains, src/rxn_network/thermo/chempot_diagram.py:61-87 and 130-135. -/
def cpdDomains (elements : List ε) (frac : η → ε → ℚ) (epa : η → ℚ) (formula : η → φ) (mins : List η) (refs : List (ε × η))
    (borders : List (List ℚ)) (hsInt : List (List ℚ) → List (List ℚ × List ℕ)) : Except Err (List (φ × List (List ℚ))) := do
  let he ← hyperplanesAndEntries elements frac epa mins refs
  if elements.length < 2 then throw .valueError
  if refs.length ≠ elements.length then throw .valueError
  getDomains formula he.2 borders.length (hsInt (he.1 ++ borders))

/-- `get_e_above_hull` of an entry set, src/rxn_network/entries/entry_set.py:345-361: the first phase diagram that covers the entry's
elements; `query pd e` is `pd.get_e_above_hull(entry)`. -/
def eAboveHull {β R : Type} (elems : η → List Enum.Sym) (query : β → η → Except Err R) (pds : List (List Char × β)) (e : η) : Except Err R :=
  match pds.find? fun p => covers elems e p.1 with
  | some p => query p.2 e
  | none => .error .valueError

/-- `_get_distance_between_parallel_hyperplanes`, src/rxn_network/thermo/chempot_diagram.py:230-232, with the Euclidean norm of the
vector `a`. -/
noncomputable def parallelDistance (a : List ℝ) (db : ℝ) : ℝ := |db| / Real.sqrt (a.map fun x => x ^ 2).sum

/-- `get_offset`, src/rxn_network/thermo/chempot_diagram.py:111-128. `fr` is the hyperplane without its last component (line 126),
`inDomains` tells whether the entry's formula has a domain. -/
noncomputable def getOffset (mins : List η) (inDomains : Bool) (eAbove : η → Except Err ℝ) (fr : η → List ℝ) (e : η) : Except Err ℝ :=
  if e ∈ mins ∧ inDomains = true then .ok 0
  else do
    let d ← eAbove e
    pure (parallelDistance (fr e) d)

end Verif.Model.Chempot
