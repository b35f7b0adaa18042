import Mathlib.Data.Rat.Defs
import Mathlib.Algebra.Order.Ring.Rat
import Mathlib.Algebra.Order.Group.Abs
import Mathlib.Data.List.Basic

/-!
Shared building blocks: the few Python / numpy / itertools primitives that the modelled code relies on.
These are library semantics (CPython, numpy), not repository code; each carries a pointer to a place in
`/repo` where it is used.
-/

namespace Verif.Py

/-- Python list indexing `xs[i]` with negative wrap-around; `none` is `IndexError`.
Used e.g. at src/rxn_network/reactions/hull.py:427 (`counts[num]`) and :529 (`cache[n]`). -/
def getItem? {α : Type*} (xs : List α) (i : ℤ) : Option α :=
  if 0 ≤ i then xs[i.toNat]?
  else if 0 ≤ i + xs.length then xs[(i + xs.length).toNat]?
  else none

/-- `itertools.combinations(xs, k)` as the list of combinations in emission order (lexicographic by position).
Used e.g. at src/rxn_network/reactions/hull.py:296 and src/rxn_network/utils/funcs.py:27. -/
def combinations {α : Type*} : List α → ℕ → List (List α)
  | _, 0 => [[]]
  | [], _ + 1 => []
  | x :: xs, k + 1 => (combinations xs k).map (x :: ·) ++ combinations xs (k + 1)

/-- `numpy.isclose(a, b)` with default tolerances (`rtol = 1e-5`, `atol = 1e-8`), on exact rationals.
Used e.g. at src/rxn_network/reactions/hull.py:137. NaN/inf are not modelled. -/
def isclose (a b : ℚ) : Bool :=
  decide (|a - b| ≤ 1 / 100000000 + 1 / 100000 * |b|)

end Verif.Py
