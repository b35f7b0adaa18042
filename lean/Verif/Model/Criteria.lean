import Verif.Model.Parser
import Mathlib.Data.List.Sort
import Mathlib.Data.List.Dedup
import Mathlib.Data.List.Lex
import Mathlib.Data.Char

/-!
Model of `parse_criteria` (src/rxn_network/entries/utils.py:438-505). Strings are lists of characters; character classes are the ASCII ones. Regular
expressions are modelled with their greedy choices: `.*` in braces reaches up to the last closing brace. `Element(...)` and `Composition(...)` are parameters.
-/

namespace Verif.Model.Criteria
open Verif.Py Verif.Model.Parser

/-- Strings, as parsed at src/rxn_network/entries/utils.py:462-505. -/
abbrev Str := List Char

/-- `\w` (ASCII), src/rxn_network/entries/utils.py:471. -/
def isWord (c : Char) : Bool := isD c || isUp c || decide (97 ≤ c.toNat ∧ c.toNat ≤ 122) || c = '_'

/-- `[a-z]`, src/rxn_network/entries/utils.py:485. -/
def isLow (c : Char) : Bool := decide (97 ≤ c.toNat ∧ c.toNat ≤ 122)

/-- External calls: all element symbols, `Element(s).symbol`, `Composition(s)`, `len(c)`, `Element(e.symbol)` for all its elements, its reduced formula,
src/rxn_network/entries/utils.py:464-500. -/
structure Chem (γ : Type) where
  table : List Str
  element : Str → Except Err Str
  parse : Str → Except Err γ
  count : γ → ℕ
  check : γ → Except Err Unit
  reduced : γ → Str

/-- The last closing brace: the text before and behind it; the greedy `.*` of src/rxn_network/entries/utils.py:465, :485 and :492. -/
def lastBrace : Str → Option (Str × Str)
  | [] => none
  | c :: s => match lastBrace s with
    | some (a, b) => some (c :: a, b)
    | none => if c = '}' then some ([], s) else none

/-- `s.strip()`, src/rxn_network/entries/utils.py:467. -/
def strip (s : Str) : Str := ((s.dropWhile isSp).reverse.dropWhile isSp).reverse

/-- `parse_sym`, src/rxn_network/entries/utils.py:462-468. -/
def parseSym (table : List Str) (sym : Str) : List Str :=
  if sym = ['*'] then table
  else match sym with
    | [] => [sym]
    | c :: s =>
      if c = '{' then match lastBrace s with
        | some (g, _) => (g.splitOn ',').map strip
        | none => [sym]
      else [sym]

/-- `itertools.product(*lists)`, src/rxn_network/entries/utils.py:476 and :494. -/
def product {α : Type} : List (List α) → List (List α)
  | [] => [[]]
  | l :: ls => l.flatMap fun x => (product ls).map fun r => x :: r

/-- `re.match(r"\w+-\d+", t)`, src/rxn_network/entries/utils.py:471: only the start of the token has to match. -/
def isId (t : Str) : Bool :=
  decide (t.takeWhile isWord ≠ []) && match t.dropWhile isWord with
    | d :: c :: _ => decide (d = '-') && isD c
    | _ => false

/-- Sorted symbols joined by dashes, src/rxn_network/entries/utils.py:480. -/
def join (cs : List Str) : Str := ['-'].intercalate (cs.insertionSort (· ≤ ·))

/-- Chemical systems, src/rxn_network/entries/utils.py:473-481. -/
def systems {γ : Type} (X : Chem γ) (t : Str) : Except Err (List Str) :=
  ((product ((t.splitOn '-').map (parseSym X.table))).filter fun cs => decide cs.Nodup).mapM fun cs => (cs.mapM X.element).map join

/-- `re.findall(...)` and the sorting of its matches, src/rxn_network/entries/utils.py:482-490: `none` for a wildcard, `some` for an explicit symbol. The
first argument bounds the number of steps. -/
def symbols : ℕ → Str → List (Option Str)
  | 0, _ => []
  | _, [] => []
  | fuel + 1, c :: s =>
    if c = '*' then none :: symbols fuel (s.dropWhile isDD)
    else if c = '{' then match lastBrace s with
      | some (_, rest) => none :: symbols fuel (rest.dropWhile isDD)
      | none => symbols fuel s
    else if isUp c then some (c :: s.takeWhile isLow) :: symbols fuel ((s.dropWhile isLow).dropWhile isDD)
    else symbols fuel s

/-- `nelements`, src/rxn_network/entries/utils.py:491. -/
def nelements (syms : List (Option Str)) : ℕ := (syms.filter Option.isNone).length + syms.reduceOption.dedup.length

/-- `re.split(r"(\*|\{.*\})", t)`, src/rxn_network/entries/utils.py:492; `acc` is the literal text read so far. -/
def parts : ℕ → Str → Str → List Str
  | 0, acc, _ => [acc]
  | _, acc, [] => [acc]
  | fuel + 1, acc, c :: s =>
    if c = '*' then acc :: ['*'] :: parts fuel [] s
    else if c = '{' then match lastBrace s with
      | some (g, rest) => acc :: ('{' :: g ++ ['}']) :: parts fuel [] rest
      | none => parts fuel (acc ++ [c]) s
    else parts fuel (acc ++ [c]) s

/-- The strings tried, src/rxn_network/entries/utils.py:492-494. -/
def candidates (table : List Str) (t : Str) : List Str :=
  (product (((parts (t.length + 1) [] t).filter fun s => decide (s ≠ [])).map (parseSym table))).map List.flatten

/-- One candidate, src/rxn_network/entries/utils.py:495-500. -/
def candidate {γ : Type} (X : Chem γ) (n : ℕ) (s : Str) : Except Err (Option Str) := do
  let c ← X.parse s
  if X.count c = n then do
    X.check c
    return some (X.reduced c)
  else return none

/-- Formulas, src/rxn_network/entries/utils.py:482-501. -/
def formulas {γ : Type} (X : Chem γ) (t : Str) : Except Err (List Str) :=
  ((candidates X.table t).mapM (candidate X (nelements (symbols (t.length + 1) t)))).map fun l => l.reduceOption.dedup

/-- Criteria for one token, src/rxn_network/entries/utils.py:470-501. -/
inductive Criterion
  | taskId (id : Str)
  | chemsys (l : List Str)
  | formula (l : List Str)
  deriving DecidableEq

/-- `parse_tok`, src/rxn_network/entries/utils.py:470-501. -/
def parseTok {γ : Type} (X : Chem γ) (t : Str) : Except Err Criterion :=
  if isId t then .ok (.taskId t)
  else if '-' ∈ t then (systems X t).map .chemsys
  else (formulas X t).map .formula

/-- The query, src/rxn_network/entries/utils.py:503-505. -/
inductive Query
  | one (c : Criterion)
  | or (l : List Criterion)
  deriving DecidableEq

/-- `criteria_string.split()`, src/rxn_network/entries/utils.py:460. -/
def words (s : Str) : List Str := (s.splitOnP isSp).filter fun t => decide (t ≠ [])

/-- `parse_criteria`, src/rxn_network/entries/utils.py:438-505. -/
def parseCriteria {γ : Type} (X : Chem γ) (s : Str) : Except Err Query :=
  match words s with
  | [t] => (parseTok X t).map .one
  | ts => (ts.mapM (parseTok X)).map .or

/-- A stored material, as queried at src/rxn_network/entries/utils.py:295. -/
structure Material where
  id : Str
  elements : List Str
  formula : Str
  deriving DecidableEq

/-- What the database does with a criterion; the field `chemsys` holds the sorted symbols joined by dashes
(query made at src/rxn_network/entries/utils.py:295, criteria at :470-501). -/
def Criterion.holds (m : Material) : Criterion → Bool
  | .taskId i => decide (m.id = i)
  | .chemsys l => decide (join m.elements ∈ l)
  | .formula l => decide (m.formula ∈ l)

/-- What the database does with a query; an empty `$or` is rejected (src/rxn_network/entries/utils.py:295, query built at :503-505). -/
def Query.holds (m : Material) : Query → Except Err Bool
  | .one c => .ok (c.holds m)
  | .or [] => .error .valueError
  | .or l => .ok (l.any (·.holds m))

end Verif.Model.Criteria
