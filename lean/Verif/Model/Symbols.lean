import Mathlib.Data.List.Dedup
import Mathlib.Data.List.Sort
import Mathlib.Data.List.Lex
import Mathlib.Data.Char
import Verif.Model.PyData

/-!
Model of the strings naming chemical systems and added elements: src/rxn_network/reactions/basic.py:353-356,
src/rxn_network/reactions/open.py:157-160, src/rxn_network/reactions/reaction_set.py:611-626, src/rxn_network/jobs/utils.py:20-35
and src/rxn_network/jobs/core.py:240-258. A Python set of symbols is a duplicate-free list whose iteration order is a parameter.
-/

namespace Verif.Model.Symbols

/-- An element symbol, `str(el)` at src/rxn_network/reactions/basic.py:356. -/
abbrev Sym := List Char

/-- `"-".join(sorted(...))`, src/rxn_network/reactions/basic.py:356. -/
def chemStr (els : List Sym) : List Char := ['-'].intercalate (els.insertionSort (· ≤ ·))

/-- `total_chemical_system`, src/rxn_network/reactions/open.py:157-160: the elements of an open reaction exclude the open ones. -/
def totalStr (els opens : List Sym) : List Char := chemStr (((els.filter fun e => e ∉ opens) ++ opens).dedup)

/-- The system string used by `_get_added_elems`, src/rxn_network/reactions/reaction_set.py:621-625; `opens` is `none` for a reaction that
is not an `OpenComputedReaction`. -/
def rxnStr (els : List Sym) (opens : Option (List Sym)) : List Char := match opens with
  | none => chemStr els
  | some os => totalStr els os

/-- `_get_added_elems`, src/rxn_network/reactions/reaction_set.py:611-626. -/
def addedElems (setOrder : List Sym → List Sym) (els : List Sym) (opens : Option (List Sym)) (target : List Sym) : List Char :=
  chemStr (setOrder ((((rxnStr els opens).splitOn '-').dedup).filter fun e => e ∉ (chemStr target).splitOn '-'))

/-- `get_added_elem_data`, src/rxn_network/jobs/utils.py:20-35: the list of elements and the string. `chemsys` is `entries.chemsys`. -/
def addedElemData (setOrder : List Sym → List Sym) (chemsys : List Sym) (targets : List (List Sym)) : List Sym × List Char :=
  (setOrder (chemsys.filter fun e => e ∉ targets.flatten),
   chemStr (setOrder (chemsys.filter fun e => e ∉ targets.flatten)))

/-- The part of a task document about elements, src/rxn_network/jobs/core.py:240-258. -/
structure Meta where
  elements : List Sym
  chemsys : List Char
  targets : List (List Char)
  added : Option (List Sym × List Char)
  deriving DecidableEq

/-- `_get_metadata`, src/rxn_network/jobs/core.py:240-258. `targets` are the target formulas found by going through the
enumerators (none when the iterator is already used up); `elemsOf` parses a formula. -/
def metadata (setOrder : List Sym → List Sym) (elemsOf : List Char → List Sym) (chemsys : List Sym) (targets : List (List Char)) : Meta :=
  let s := ['-'].intercalate (setOrder chemsys)
  ⟨s.splitOn '-', s, targets.dedup.insertionSort (· ≤ ·),
   if targets = [] then none else some (addedElemData setOrder chemsys (targets.dedup.map elemsOf))⟩

end Verif.Model.Symbols
