import Verif.Model.HullCount
import Mathlib.Data.List.Sort

/-!
Model of the geometric part of `InterfaceReactionHull`, src/rxn_network/reactions/hull.py.

A hull object is represented by its sorted coordinate array and the raw vertex indices reported by
`scipy.spatial.ConvexHull` (line 74), which is an external parameter.  Reactions are identified by their
position in `self.reactions` (the list is parallel to `self.coords`, lines 72-73), and
`reactions[i].energy_per_atom` is `coords[i, 1]` (line 67; the two end-member reactions appended on line 65 are
identity reactions, whose energy is the `0` of line 68).
-/

namespace Verif.Model.Hull
open Verif.Py

/-- State of an `InterfaceReactionHull`, src/rxn_network/reactions/hull.py:70-75. -/
structure IRH where
  /-- `self.coords`, sorted by the first component (lines 70-72). -/
  coords : List (ℚ × ℚ)
  /-- `self.hull.vertices` as returned by scipy (line 74). -/
  rawVertices : List ℕ

/-- Model of the coordinate array built in `__init__`, src/rxn_network/reactions/hull.py:67-72, from the list
of `(get_coordinate(r), r.energy_per_atom)`. numpy's `argsort` is modelled by a stable sort. -/
def mkCoords (rs : List (ℚ × ℚ)) : List (ℚ × ℚ) :=
  (rs ++ [(0, 0), (1, 0)]).insertionSort fun a b => a.1 ≤ b.1

/-- Least energy among the points at the same coordinate (`self.coords[...][:, 1].min()`),
src/rxn_network/reactions/hull.py:588. `none` = empty array (`ValueError`). -/
def minAt (coords : List (ℚ × ℚ)) (x : ℚ) : Option ℚ :=
  ((coords.filter fun c => decide (c.1 = x)).map Prod.snd).min?

/-- Model of `hull_vertices`, src/rxn_network/reactions/hull.py:581-593. -/
def hullVertices (h : IRH) : List ℕ :=
  h.rawVertices.filter fun i =>
    match h.coords[i]? with
    | none => false
    | some c => decide (c.2 ≤ 0) &&
        (match minAt h.coords c.1 with
         | none => false
         | some m => isclose m c.2)

/-- Model of the loop in `get_reactions_by_coordinate`, src/rxn_network/reactions/hull.py:130-149, over the
sorted vertex indices; the returned dict is a list of (reaction index, weight); `none` is the `ValueError` on
line 149 (or an out-of-range vertex). -/
def lookup (coords : List (ℚ × ℚ)) (x : ℚ) : List ℕ → Option (List (ℕ × ℚ))
  | v1 :: v2 :: rest =>
    match coords[v1]?, coords[v2]? with
    | some c1, some c2 =>
      if isclose x c1.1 then some [(v1, 1)]
      else if isclose x c2.1 then some [(v2, 1)]
      else if c1.1 < x ∧ x < c2.1 then
        some [(v1, (c2.1 - x) / (c2.1 - c1.1)), (v2, (x - c1.1) / (c2.1 - c1.1))]
      else lookup coords x (v2 :: rest)
    | _, _ => none
  | _ => none

/-- `np.sort(self.hull_vertices)`, src/rxn_network/reactions/hull.py:129. -/
def sortedVertices (h : IRH) : List ℕ := (hullVertices h).insertionSort fun a b => a ≤ b

/-- Model of `get_reactions_by_coordinate`, src/rxn_network/reactions/hull.py:127-149. -/
def getReactionsByCoordinate (h : IRH) (x : ℚ) : Option (List (ℕ × ℚ)) :=
  lookup h.coords x (sortedVertices h)

/-- Model of `get_hull_energy`, src/rxn_network/reactions/hull.py:115-125. -/
def getHullEnergy (h : IRH) (x : ℚ) : Option ℚ := do
  let rs ← getReactionsByCoordinate h x
  rs.foldlM (init := (0 : ℚ)) fun acc r => do
    let c ← h.coords[r.1]?
    pure (acc + r.2 * c.2)

/-- Model of `get_energy_above_hull`, src/rxn_network/reactions/hull.py:95-99; the reaction is given by its
index in `self.reactions`. -/
def getEnergyAboveHull (h : IRH) (idx : ℕ) : Option ℚ := do
  let c ← h.coords[idx]?
  let e ← getHullEnergy h c.1
  pure (c.2 - e)

/-- `np.where(self.coords[:, 0] == coord)[0]`, src/rxn_network/reactions/hull.py:171. -/
def matchingIdx (h : IRH) (coord : ℚ) : List ℕ :=
  (List.range h.coords.length).filter fun i =>
    match h.coords[i]? with
    | some c => decide (c.1 = coord)
    | none => false

/-- Model of `get_primary_competition`, src/rxn_network/reactions/hull.py:169-182, for a reaction with energy
per atom `energy` and coordinate `coord`. `none` models the `ValueError`s of `matching.min()` / `min([])`. -/
def getPrimaryCompetition (h : IRH) (energy coord : ℚ) : Option ℚ := do
  let matching := matchingIdx h coord
  let idxMin ← matching.min?
  let idxMax ← matching.max?
  let competing := h.coords.take idxMin ++ h.coords.drop (idxMax + 1)
  let m ← (competing.map Prod.snd).min?
  pure (energy - m)

/-- Model of `get_coords_in_range`, src/rxn_network/reactions/hull.py:353-389 (final `argsort` as a stable
sort). -/
def getCoordsInRange (h : IRH) (x1 x2 : ℚ) : Option (List (ℚ × ℚ)) := do
  let xMin := min x1 x2
  let xMax := max x1 x2
  let yMin ← getHullEnergy h xMin
  let yMax ← getHullEnergy h xMax
  let c0 := if isclose xMin 0 && !isclose yMin 0 then [((0 : ℚ), (0 : ℚ))] else []
  let c1 := c0 ++ [(xMin, yMin)]
  let c2 := c1 ++ (hullVertices h).filterMap fun i =>
    match h.coords[i]? with
    | some c => if c.1 < xMax ∧ xMin < c.1 ∧ c.2 ≤ 0 then some c else none
    | none => none
  let c3 := if xMax ≠ xMin then c2 ++ [(xMax, yMax)] else c2
  let c4 := if isclose xMax 1 && !isclose yMax 0 then c3 ++ [((1 : ℚ), (0 : ℚ))] else c3
  pure (c4.insertionSort fun a b => a.1 ≤ b.1)

/-- Model of `get_decomposition_energy(x1, x2)`, src/rxn_network/reactions/hull.py:282-307. -/
def getDecompositionEnergy (h : IRH) (x1 x2 : ℚ) : Option ℚ := do
  let coords ← getCoordsInRange h x1 x2
  decompositionEnergy coords

/-- Model of `get_max_decomposition_energy(x1, x2)`, src/rxn_network/reactions/hull.py:309-332. -/
def getMaxDecompositionEnergy (h : IRH) (x1 x2 : ℚ) : Option ℚ := do
  let coords ← getCoordsInRange h x1 x2
  maxDecompositionEnergy coords

/-- Model of `get_decomposition_energy_and_num_paths_recursive`, src/rxn_network/reactions/hull.py:430-495.
`fuel` bounds the recursion depth (`none` when exhausted, and for `IndexError`s); the flags assigned inside the
loop (lines 477-480) persist into later iterations, as in Python. `lru_cache` is semantically transparent. -/
def recDecomp (h : IRH) : ℕ → ℚ → ℚ → Bool → Bool → Option (ℚ × ℕ)
  | 0, _, _, _, _ => none
  | fuel + 1, x1, x2, useMin, useMax => do
    let all0 ← getCoordsInRange h x1 x2
    let all1 ← if !useMin then do
        let r ← all0[1]?
        pure (if r.1 = 0 then all0.drop 1 else all0)
      else pure all0
    let all2 ← if !useMax then do
        let r ← all1.getLast?
        pure (if r.1 = 1 then all1.dropLast else all1)
      else pure all1
    let cMin ← all2.head?
    let cMax ← all2.getLast?
    let coords := all2.tail.dropLast
    match coords with
    | [] => pure (0, 1)
    | [c] => pure (calculateAltitude cMin c cMax, 1)
    | _ =>
      let st ← coords.foldlM (init := ((0 : ℚ), (0 : ℕ), useMin, useMax)) fun st c => do
        let (val, total, uMin, uMax) := st
        let cond0 : Bool := decide (c.1 = 0) && !isclose c.2 0
        let cond1 : Bool := decide (c.1 = 1) && !isclose c.2 0
        let uMin' := if cond0 then false else uMin
        let uMax' := if cond0 then uMax else if cond1 then false else uMax
        let height := calculateAltitude cMin c cMax
        let (ld, lt) ← recDecomp h fuel cMin.1 c.1 uMin' uMax'
        let (rd, rt) ← recDecomp h fuel c.1 cMax.1 uMin' uMax'
        pure (val + (height * (lt * rt) + ld * rt + rd * lt), total + lt * rt, uMin', uMax')
      pure (st.1, st.2.1)

/-- Combination step of `get_secondary_competition`, src/rxn_network/reactions/hull.py:234-249, given the two
energies and path counts. -/
def combineSides (leftE rightE : ℚ) (leftN rightN : ℕ) (normalize : Bool) (eHull : Option ℚ) : ℚ :=
  let lN := if leftN = 0 then 1 else leftN
  let rN := if rightN = 0 then 1 else rightN
  let energy := leftE * rN + rightE * lN
  let total : ℚ := (lN * rN : ℕ)
  let energy := if normalize then energy / total else energy
  let energy := (match eHull with | some e => energy - e | none => energy)
  (-1) * energy

/-- Model of `get_secondary_competition(..., recursive=False)`, src/rxn_network/reactions/hull.py:217-249, for
the reaction with index `idx` (its coordinate is `coords[idx, 0]`). -/
def getSecondaryCompetition (h : IRH) (idx : ℕ) (normalize includeEHull : Bool) : Option ℚ := do
  let c ← h.coords[idx]?
  let x := c.1
  let leftE ← getDecompositionEnergy h 0 x
  let lc ← getCoordsInRange h 0 x
  let leftN ← count ((lc.length : ℤ) - 2)
  let rightE ← getDecompositionEnergy h x 1
  let rc ← getCoordsInRange h x 1
  let rightN ← count ((rc.length : ℤ) - 2)
  let eh ← if includeEHull then (getEnergyAboveHull h idx).map some else pure none
  pure (combineSides leftE rightE leftN rightN normalize eh)

/-- Model of `get_secondary_competition(..., recursive=True)`, src/rxn_network/reactions/hull.py:217-249. -/
def getSecondaryCompetitionRec (h : IRH) (fuel idx : ℕ) (normalize includeEHull : Bool) : Option ℚ := do
  let c ← h.coords[idx]?
  let x := c.1
  let (leftE, leftN) ← recDecomp h fuel 0 x true true
  let (rightE, rightN) ← recDecomp h fuel x 1 true true
  let eh ← if includeEHull then (getEnergyAboveHull h idx).map some else pure none
  pure (combineSides leftE rightE leftN rightN normalize eh)

/-- Model of `get_secondary_competition_max_energy`, src/rxn_network/reactions/hull.py:251-264. -/
def getSecondaryCompetitionMaxEnergy (h : IRH) (idx : ℕ) : Option ℚ := do
  let c ← h.coords[idx]?
  let l ← getMaxDecompositionEnergy h 0 c.1
  let r ← getMaxDecompositionEnergy h c.1 1
  pure (-1 * (l + r))

/-- Model of `stable_reactions`, src/rxn_network/reactions/hull.py:596-600 (for any list parallel to `coords`). -/
def stableReactions {ρ : Type} (h : IRH) (reactions : List ρ) : List ρ :=
  (reactions.zipIdx.filter fun p => decide (p.2 ∈ hullVertices h)).map Prod.fst

/-- Model of `unstable_reactions`, src/rxn_network/reactions/hull.py:603-607. -/
def unstableReactions {ρ : Type} (h : IRH) (reactions : List ρ) : List ρ :=
  (reactions.zipIdx.filter fun p => decide (p.2 ∉ hullVertices h)).map Prod.fst

end Verif.Model.Hull
