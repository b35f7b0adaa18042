import Verif.Model.Hull
import Verif.Model.PyData

/-!
Model of the construction of an `InterfaceReactionHull` and of the area form of the secondary competition,
src/rxn_network/reactions/hull.py:25-75, 266-280 and 334-351.

Reactions `ρ` and entries `η` are opaque; `reactants r` is `r.reactant_entries`, `red e` is `e.composition.reduced_composition`, `coord r` is
`self.get_coordinate(r)` (modelled by `Verif.Model.Reaction.coordinate`), `epa r` is `r.energy_per_atom` and `ident e` is
`ComputedReaction.balance([e], [e])`.
-/

namespace Verif.Model.Hull
open Verif.Py

variable {ρ η κ : Type} [DecidableEq κ]

/-- The inner loop over the reactant entries of one reaction, src/rxn_network/reactions/hull.py:46-50; the state is
`(self.e1, self.e2)`. -/
def scanEntries (red : η → κ) (c1 c2 : κ) (es : List η) (s : Option η × Option η) : Option η × Option η :=
  es.foldl (fun s e => if red e = c1 then (some e, s.2) else if red e = c2 then (s.1, some e) else s) s

/-- The search for the two reactant entries with its `for ... else`, src/rxn_network/reactions/hull.py:45-58. -/
def findEnds (reactants : ρ → List η) (red : η → κ) (c1 c2 : κ) : List ρ → Option η × Option η → Except Err (η × η)
  | [], _ => .error .valueError
  | r :: rs, s =>
    match scanEntries red c1 c2 (reactants r) s with
    | (some a, some b) => .ok (a, b)
    | s' => findEnds reactants red c1 c2 rs s'

/-- One row of the coordinate array, src/rxn_network/reactions/hull.py:67. -/
def coordRow (coord epa : ρ → Except Err ℚ) (r : ρ) : Except Err (ℚ × ℚ) := do
  let x ← coord r
  let y ← epa r
  pure (x, y)

/-- Attributes of a constructed hull, src/rxn_network/reactions/hull.py:72-75: `self.coords`, `self.reactions`, `self.endpoint_reactions`. -/
structure Built (ρ : Type) where
  coords : List (ℚ × ℚ)
  reactions : List ρ
  endpoints : List ρ
  deriving DecidableEq

/-- `InterfaceReactionHull.__init__` up to the convex hull, src/rxn_network/reactions/hull.py:40-75. `argsort` is numpy's `argsort`
(line 70, not stable), a parameter. Fancy indexing on lines 72-73 is by the indices `argsort` returns. `c1`, `c2` are reduced (lines 40-41). -/
def hullInit (reactants : ρ → List η) (red : η → κ) (coord epa : ρ → Except Err ℚ) (ident : η → ρ) (argsort : List ℚ → List ℕ)
    (c1 c2 : κ) (rs : List ρ) : Except Err (Built ρ) := do
  let ab ← findEnds reactants red c1 c2 rs (none, none)
  let ends := [ident ab.1, ident ab.2]
  let rows ← rs.mapM (coordRow coord epa)
  let all := rows ++ [(0, 0), (1, 0)]
  let idx := argsort (all.map Prod.fst)
  pure ⟨idx.filterMap fun i => all[i]?, idx.filterMap fun i => (rs ++ ends)[i]?, ends⟩

/-- Twice the area of the triangle `a b c`, positive when counter-clockwise; used for src/rxn_network/reactions/hull.py:351. -/
def cross2 (a b c : ℚ × ℚ) : ℚ := (b.1 - a.1) * (c.2 - a.2) - (c.1 - a.1) * (b.2 - a.2)

/-- Area of a fan of triangles with common corner `a`; used for src/rxn_network/reactions/hull.py:351. -/
def fanFrom (a : ℚ × ℚ) : List (ℚ × ℚ) → ℚ
  | b :: c :: l => cross2 a b c / 2 + fanFrom a (c :: l)
  | _ => 0

/-- Area of the polygon with the given corners in convex position, as a fan of triangles from the first corner. This is the specification
of `ConvexHull(coords).volume` (src/rxn_network/reactions/hull.py:351) for the two-dimensional, convex point sets the code passes to it. -/
def fanArea : List (ℚ × ℚ) → ℚ
  | a :: l => fanFrom a l
  | [] => 0

/-- Model of `get_decomposition_area`, src/rxn_network/reactions/hull.py:334-351. Qhull needs at least three points in two dimensions, so a
single coordinate raises (`QhullError`, `none`); the joggle option `QJ` is taken to have no effect. -/
def getDecompositionArea (h : IRH) (x1 x2 : ℚ) : Option ℚ := do
  let coords ← getCoordsInRange h x1 x2
  if coords.length = 2 then pure 0
  else if coords.length < 3 then none
  else pure (fanArea coords)

/-- Model of `get_secondary_competition_area` for the reaction at index `idx`, src/rxn_network/reactions/hull.py:266-280. -/
def getSecondaryCompetitionArea (h : IRH) (idx : ℕ) : Option ℚ := do
  let c ← h.coords[idx]?
  let l ← getDecompositionArea h 0 c.1
  let r ← getDecompositionArea h c.1 1
  pure (l + r)

end Verif.Model.Hull
