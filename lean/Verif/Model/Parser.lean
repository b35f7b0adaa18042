import Verif.Model.PyData
import Mathlib.Data.Int.Log
import Mathlib.Data.Nat.Digits.Defs

/-!
Model of printing and parsing reactions: `BasicReaction._str_from_formulas` and `BasicReaction.from_string`
(src/rxn_network/reactions/basic.py). Strings are lists of characters; the regular expression is modelled with its
backtracking order. Simplification: `\d`, `\w`, `\s` are the ASCII classes.
-/

namespace Verif.Model.Parser

open Verif.Py

/-! ### Number formatting (CPython's `.4g`) -/

/-- The decimal digit character of `d < 10`; used by `f"{amt:.4g}"`, src/rxn_network/reactions/basic.py:439-441. -/
def digitC (d : ℕ) : Char := Char.ofNat (48 + d)

/-- The digits of a natural number, part of `.4g` at src/rxn_network/reactions/basic.py:439. -/
def showNat (n : ℕ) : List Char := if n = 0 then ['0'] else ((Nat.digits 10 n).reverse).map digitC

/-- Exactly `p` digits of `n < 10 ^ p`, part of `.4g` at src/rxn_network/reactions/basic.py:439. -/
def pad : ℕ → ℕ → List Char
  | 0, _ => []
  | p + 1, n => digitC (n / 10 ^ p) :: pad p (n % 10 ^ p)

/-- Removing trailing zeros, as the `g` format does, src/rxn_network/reactions/basic.py:439. -/
def stripZ : List Char → List Char
  | [] => []
  | c :: s => match stripZ s with
    | [] => if c = '0' then [] else [c]
    | t :: ts => c :: t :: ts

/-- Fixed notation of `n / 10 ^ p` without trailing zeros (and without a trailing point), part of `.4g` at
src/rxn_network/reactions/basic.py:439. -/
def fixed (n p : ℕ) : List Char :=
  showNat (n / 10 ^ p) ++ (match stripZ (pad p (n % 10 ^ p)) with
    | [] => []
    | t :: ts => '.' :: t :: ts)

/-- Rounding to four significant digits: `(m, e)` stands for `m · 10 ^ (e − 3)` with `1000 ≤ m ≤ 9999`; part of
`.4g` at src/rxn_network/reactions/basic.py:439. -/
def sig4 (v : ℚ) : ℕ × ℤ :=
  let e := Int.log 10 v
  let m := (roundHalfEven (v / 10 ^ (e - 3))).toNat
  if m = 10000 then (1000, e + 1) else (m, e)

/-- The exponent part: sign and at least two digits; part of `.4g` at src/rxn_network/reactions/basic.py:439. -/
def showExp (e : ℤ) : List Char :=
  'e' :: (if e < 0 then '-' else '+') :: (if e.natAbs < 10 then '0' :: showNat e.natAbs else showNat e.natAbs)

/-- `f"{v:.4g}"` for positive `v`, used at src/rxn_network/reactions/basic.py:439 and 441. -/
def fmt4g (v : ℚ) : List Char :=
  if -4 ≤ (sig4 v).2 ∧ (sig4 v).2 < 4 then fixed (sig4 v).1 (3 - (sig4 v).2).toNat
  else fixed (sig4 v).1 3 ++ showExp (sig4 v).2

/-! ### Printing -/

/-- `TOLERANCE`, src/rxn_network/reactions/basic.py:25. -/
def tol : ℚ := 1 / 1000000

/-- What one coefficient and formula add to the reactant side, src/rxn_network/reactions/basic.py:434-439. -/
def reactantPiece (t : ℚ × List Char) : Option (List Char) :=
  if |t.1 + 1| < tol then some t.2
  else if |t.1 - 1| < tol then none
  else if t.1 < -tol then some (fmt4g (-t.1) ++ ' ' :: t.2)
  else none

/-- What one coefficient and formula add to the product side, src/rxn_network/reactions/basic.py:434-441. -/
def productPiece (t : ℚ × List Char) : Option (List Char) :=
  if |t.1 + 1| < tol then none
  else if |t.1 - 1| < tol then some t.2
  else if t.1 < -tol then none
  else if t.1 > tol then some (fmt4g t.1 ++ ' ' :: t.2)
  else none

/-- `" + ".join(...)`, src/rxn_network/reactions/basic.py:443. -/
def joinPlus : List (List Char) → List Char
  | [] => []
  | [s] => s
  | s :: t :: ts => s ++ ' ' :: '+' :: ' ' :: joinPlus (t :: ts)

/-- `_str_from_formulas`, src/rxn_network/reactions/basic.py:430-443; the input is `zip(coeffs, formulas)`. -/
def strFromFormulas (ts : List (ℚ × List Char)) : List Char :=
  joinPlus (ts.filterMap reactantPiece) ++ ' ' :: '-' :: '>' :: ' ' :: joinPlus (ts.filterMap productPiece)

/-- `_str_from_comp` without `reduce`, src/rxn_network/reactions/basic.py:446-458, which is `__str__`, lines 486-487:
each composition is replaced by its reduced formula and its amount multiplied by the factor; `red` is
`get_reduced_formula_and_factor`. -/
def strFromComp {κ : Type} (red : κ → List Char × ℚ) (ts : List (κ × ℚ)) : List Char :=
  strFromFormulas (ts.map fun t => (t.2 * (red t.1).2, (red t.1).1))

/-! ### Parsing -/

/-- `\d` (ASCII), src/rxn_network/reactions/basic.py:281. -/
def isD (c : Char) : Bool := decide (48 ≤ c.toNat ∧ c.toNat ≤ 57)
/-- `[\d\.]`, src/rxn_network/reactions/basic.py:281. -/
def isDD (c : Char) : Bool := isD c || c = '.'
/-- `[A-Z]`, src/rxn_network/reactions/basic.py:281. -/
def isUp (c : Char) : Bool := decide (65 ≤ c.toNat ∧ c.toNat ≤ 90)
/-- `[\w\.\(\)]` (ASCII), src/rxn_network/reactions/basic.py:281. -/
def isW (c : Char) : Bool :=
  isD c || isUp c || decide (97 ≤ c.toNat ∧ c.toNat ≤ 122) || c = '_' || c = '.' || c = '(' || c = ')'
/-- `\s` (ASCII), src/rxn_network/reactions/basic.py:281. -/
def isSp (c : Char) : Bool := c = ' ' || decide (9 ≤ c.toNat ∧ c.toNat ≤ 13) || decide (28 ≤ c.toNat ∧ c.toNat ≤ 31)

/-- All ways to match `p*` at the start, greediest first (the order in which `re` backtracks),
src/rxn_network/reactions/basic.py:281. -/
def runs (p : Char → Bool) : List Char → List (List Char × List Char)
  | [] => [([], [])]
  | c :: s => if p c then (runs p s).map (fun r => (c :: r.1, r.2)) ++ [([], c :: s)] else [([], c :: s)]

/-- All ways to match `[\d\.]+`, greediest first, src/rxn_network/reactions/basic.py:281. -/
def runs1 (p : Char → Bool) : List Char → List (List Char × List Char)
  | [] => []
  | c :: s => if p c then (runs p s).map (fun r => (c :: r.1, r.2)) else []

/-- All ways to match `-?[\d\.]+`, greediest first, src/rxn_network/reactions/basic.py:281. -/
def expTail : List Char → List (List Char × List Char)
  | [] => []
  | c :: s => if c = '-' then (runs1 isDD s).map fun r => ('-' :: r.1, r.2) else runs1 isDD (c :: s)

/-- All ways to match `(?:[eE]-?[\d\.]+)?`, the empty match last, src/rxn_network/reactions/basic.py:281. -/
def expPart : List Char → List (List Char × List Char)
  | [] => [([], [])]
  | c :: s => if c = 'e' ∨ c = 'E' then (expTail s).map (fun r => (c :: r.1, r.2)) ++ [([], c :: s)] else [([], c :: s)]

/-- `([A-Z][\w\.\(\)]*)` at the start; the last part of the pattern, so only the greediest match matters,
src/rxn_network/reactions/basic.py:281. -/
def formulaPart : List Char → Option (List Char × List Char)
  | [] => none
  | c :: s => if isUp c then some (c :: s.takeWhile isW, s.dropWhile isW) else none

/-- The whole pattern at the start of the text: groups 1 and 2 and the remaining text,
src/rxn_network/reactions/basic.py:281. -/
def matchHere (s : List Char) : Option (List Char × List Char × List Char) :=
  (runs isDD s).findSome? fun d =>
    (expPart d.2).findSome? fun x =>
      (runs isSp x.2).findSome? fun w =>
        (formulaPart w.2).map fun f => (d.1 ++ x.1, f.1, f.2)

/-- `re.finditer`: leftmost match, then continue behind it, src/rxn_network/reactions/basic.py:281. The first argument bounds
the number of steps; `s.length + 1` always suffices. -/
def findAll : ℕ → List Char → List (List Char × List Char)
  | 0, _ => []
  | fuel + 1, s => match matchHere s with
    | some (n, f, rest) => (n, f) :: findAll fuel rest
    | none => match s with
      | [] => []
      | _ :: t => findAll fuel t

/-- The value of a digit character, part of `float` at src/rxn_network/reactions/basic.py:280. -/
def digitVal (c : Char) : ℕ := c.toNat - 48

/-- The value of a digit string, part of `float` at src/rxn_network/reactions/basic.py:280. -/
def natVal (s : List Char) : ℕ := Nat.ofDigits 10 (s.reverse.map digitVal)

/-- The value of the digits behind a decimal point, part of `float` at src/rxn_network/reactions/basic.py:280. -/
def fracVal : List Char → ℚ
  | [] => 0
  | c :: s => (digitVal c + fracVal s) / 10

/-- `float` on a string of digits and points, src/rxn_network/reactions/basic.py:280. -/
def decimal (s : List Char) : Option ℚ :=
  match s.dropWhile isD with
  | [] => if s.takeWhile isD = [] then none else some (natVal (s.takeWhile isD))
  | c :: f =>
    if c = '.' ∧ f.all isD ∧ ¬ (s.takeWhile isD = [] ∧ f = []) then some (natVal (s.takeWhile isD) + fracVal f) else none

/-- The exponent of a float literal (only the signs the pattern lets through), part of `float` at
src/rxn_network/reactions/basic.py:280. -/
def exponent : List Char → Option ℤ
  | [] => none
  | c :: s =>
    if c = '-' then (if s ≠ [] ∧ s.all isD then some (-(natVal s : ℤ)) else none)
    else if (c :: s).all isD then some (natVal (c :: s)) else none

/-- Not the exponent marker of a float literal, part of `float` at src/rxn_network/reactions/basic.py:280. -/
def notE (c : Char) : Bool := decide (c ≠ 'e' ∧ c ≠ 'E')

/-- `float(m.group(1))`, src/rxn_network/reactions/basic.py:280, on the strings that group 1 can be. -/
def floatOf (s : List Char) : Except Err ℚ :=
  match s.dropWhile notE with
  | [] => match decimal s with
    | some v => .ok v
    | none => .error .valueError
  | _ :: x => match decimal (s.takeWhile notE), exponent x with
    | some a, some k => .ok (a * 10 ^ k)
    | _, _ => .error .valueError

/-- `float(m.group(1) or 1)`, src/rxn_network/reactions/basic.py:280. -/
def amountOf (n : List Char) : Except Err ℚ := if n = [] then .ok 1 else floatOf n

/-- One item of the dict comprehension, src/rxn_network/reactions/basic.py:280; `comp` is `Composition(...)`. -/
def item {κ : Type} (comp : List Char → Except Err κ) (m : List Char × List Char) : Except Err (κ × ℚ) :=
  match comp m.2 with
  | .error e => .error e
  | .ok k => match amountOf m.1 with
    | .error e => .error e
    | .ok v => .ok (k, v)

/-- `get_comp_amt`, src/rxn_network/reactions/basic.py:278-282. -/
def getCompAmt {κ : Type} [DecidableEq κ] (comp : List Char → Except Err κ) (s : List Char) : Except Err (List (κ × ℚ)) :=
  match (findAll (s.length + 1) s).mapM (item comp) with
  | .error e => .error e
  | .ok l => .ok (dictOf l)

/-- `rxn_string.split("->")`, src/rxn_network/reactions/basic.py:276. -/
def splitArrow : List Char → List (List Char)
  | [] => [[]]
  | [c] => [[c]]
  | c :: d :: s =>
    if c = '-' ∧ d = '>' then [] :: splitArrow s
    else match splitArrow (d :: s) with
      | [] => [[c]]
      | p :: ps => (c :: p) :: ps

/-- `_from_coeff_dicts`, src/rxn_network/reactions/basic.py:424-427, up to the constructor: compositions with signed
coefficients. `zip(*[])` cannot be unpacked into two names: `ValueError`. -/
def fromCoeffDicts {κ : Type} (r p : List (κ × ℚ)) : Except Err (List (κ × ℚ)) :=
  if r = [] ∨ p = [] then .error .valueError else .ok (r.map (fun x => (x.1, -1 * x.2)) ++ p)

/-- `from_string`, src/rxn_network/reactions/basic.py:265-287. -/
def fromString {κ : Type} [DecidableEq κ] (comp : List Char → Except Err κ) (s : List Char) : Except Err (List (κ × ℚ)) :=
  match splitArrow s with
  | [a, b] => match getCompAmt comp a with
    | .error e => .error e
    | .ok r => match getCompAmt comp b with
      | .error e => .error e
      | .ok p => fromCoeffDicts r p
  | _ => .error .valueError

end Verif.Model.Parser
