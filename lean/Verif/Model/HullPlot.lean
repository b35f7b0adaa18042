import Verif.Model.HullInit

/-!
Model of the plot of an `InterfaceReactionHull`, src/rxn_network/reactions/hull.py:77-93 and 549-578: the series that plotly is given. Colors, titles and
hover templates are not modelled.
-/

namespace Verif.Model.Hull
open Verif.Py

/-- `self.coords[self.hull.simplices]`, src/rxn_network/reactions/hull.py:566; `simplices` are the index pairs of `scipy.spatial.ConvexHull`. -/
def edgePoints (coords : List (ℚ × ℚ)) (simplices : List (ℕ × ℕ)) : Except Err (List ((ℚ × ℚ) × (ℚ × ℚ))) :=
  simplices.mapM fun s =>
    match coords[s.1]?, coords[s.2]? with
    | some a, some b => .ok (a, b)
    | _, _ => .error .indexError

/-- `_get_lines`, src/rxn_network/reactions/hull.py:565-578: the segments with both energies at most zero, without those on the zero line. -/
def getLines (coords : List (ℚ × ℚ)) (simplices : List (ℕ × ℕ)) : Except Err (List ((ℚ × ℚ) × (ℚ × ℚ))) := do
  let cs ← edgePoints coords simplices
  let cs1 := cs.filter fun c => decide (c.1.2 ≤ 0) && decide (c.2.2 ≤ 0)
  let cs2 := cs1.filter fun c => !(decide (c.1.2 = 0) && decide (c.2.2 = 0))
  pure (cs2.filter fun c => !(decide (c.1.2 = 0) && decide (c.2.2 = 0)))

/-- `_get_scatter`, src/rxn_network/reactions/hull.py:549-563: plotly rejects columns of different lengths. -/
def getScatter (coords : List (ℚ × ℚ)) (names : List String) : Except Err (List ((ℚ × ℚ) × String)) :=
  if coords.length = names.length then .ok (coords.zip names) else .error .valueError

/-- The figure made by `plot`, src/rxn_network/reactions/hull.py:82-91. -/
structure HullFigure where
  lines : List ((ℚ × ℚ) × (ℚ × ℚ))
  points : List ((ℚ × ℚ) × String)
  yRange : ℚ × ℚ
  deriving DecidableEq

/-- `plot`, src/rxn_network/reactions/hull.py:77-93; `name r` is `str(r)`. -/
def plotHull {ρ : Type} (name : ρ → String) (h : Built ρ) (simplices : List (ℕ × ℕ)) (yMax : ℚ) : Except Err HullFigure := do
  let pts ← getScatter h.coords (h.reactions.map name)
  let lines ← getLines h.coords simplices
  let lo ← match (h.coords.map Prod.snd).min? with
    | some m => .ok m
    | none => .error .valueError
  pure ⟨lines, pts, (lo - 1 / 100, yMax)⟩

end Verif.Model.Hull
