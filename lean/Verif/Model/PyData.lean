import Verif.Model.Py
import Mathlib.Algebra.Order.Floor.Defs
import Mathlib.Algebra.Order.Floor.Ring
import Mathlib.Data.Rat.Floor
import Mathlib.Algebra.BigOperators.Group.List.Basic
import Mathlib.Data.List.Sort

/-!
More Python / numpy primitives: exceptions, insertion-ordered dictionaries, `allclose`, `sorted`, `round`.
Library semantics (CPython, numpy), not repository code; each definition names a place in `/repo` that uses it.
-/

namespace Verif.Py

/-- The Python exceptions that the modelled code can raise (as values), e.g. at src/rxn_network/reactions/basic.py:276. -/
inductive Err
  | valueError
  | keyError
  | indexError
  | zeroDivision
  | typeError
  | attributeError
  | nonFinite -- numpy produced inf/nan instead of raising
  deriving DecidableEq, Repr

/-- `d[k] = v` on an insertion-ordered dict kept as an association list: an existing key keeps its position and has its
value replaced. Used e.g. at src/rxn_network/reactions/computed.py:128. -/
def dictSet {κ α : Type} [DecidableEq κ] : List (κ × α) → κ → α → List (κ × α)
  | [], k, v => [(k, v)]
  | (k', v') :: d, k, v => if k' = k then (k', v) :: d else (k', v') :: dictSet d k v

/-- A dict comprehension `{k: v for k, v in pairs}`: later pairs overwrite earlier ones.
Used e.g. at src/rxn_network/reactions/basic.py:61-63. -/
def dictOf {κ α : Type} [DecidableEq κ] (pairs : List (κ × α)) : List (κ × α) :=
  pairs.foldl (fun d p => dictSet d p.1 p.2) []

/-- `d.get(k)`; `none` is a missing key (`KeyError` for `d[k]`).
Used e.g. at src/rxn_network/reactions/hull.py:105. -/
def dictGet {κ α : Type} [DecidableEq κ] (d : List (κ × α)) (k : κ) : Option α :=
  (d.find? fun p => p.1 = k).map Prod.snd

/-- Python's `sorted` on numbers. Used e.g. at src/rxn_network/reactions/basic.py:473. -/
def sorted (l : List ℚ) : List ℚ := l.insertionSort (· ≤ ·)

/-- `numpy.allclose(a, b)` for one-dimensional arrays: equal lengths compare elementwise, a length-1 array is broadcast,
other length mismatches raise `ValueError`. Used at src/rxn_network/reactions/basic.py:473. -/
def allclose (a b : List ℚ) : Except Err Bool :=
  if a.length = b.length then .ok ((a.zip b).all fun p => isclose p.1 p.2)
  else match a, b with
    | [x], ys => .ok (ys.all fun y => isclose x y)
    | xs, [y] => .ok (xs.all fun x => isclose x y)
    | _, _ => .error .valueError

/-- Round half to even to an integer (Python's and numpy's rounding rule), used by `round` at
src/rxn_network/reactions/hull.py:113. -/
def roundHalfEven (y : ℚ) : ℤ :=
  if y - ⌊y⌋ < 1 / 2 then ⌊y⌋
  else if 1 / 2 < y - ⌊y⌋ then ⌊y⌋ + 1
  else if ⌊y⌋ % 2 = 0 then ⌊y⌋ else ⌊y⌋ + 1

/-- `round(x, n)` on exact numbers. Used at src/rxn_network/reactions/hull.py:113 with `n = 12`. -/
def roundDigits (n : ℕ) (x : ℚ) : ℚ := roundHalfEven (x * 10 ^ n) / 10 ^ n

end Verif.Py
