import Mathlib.Data.Finset.Sort
import Mathlib.Data.Finset.Union
import Mathlib.Data.List.Sort
import Mathlib.Data.Char
import Verif.Model.Network

/-!
Model of the node entries of a network, src/rxn_network/network/entry.py. An entry (phase) is a value of a type `η` with a lawful equality
(`DecidableEq`), an element a value of a linearly ordered type `σ` (pymatgen's `Element`, ordered by electronegativity) with a symbol.
-/

namespace Verif.Model.NetEntry
open Verif.Py Verif.Model.Network

variable {η σ : Type} [DecidableEq η] [LinearOrder σ]

/-- What the class of an object is: `NetworkEntry` (src/rxn_network/network/entry.py:30) or `DummyEntry` (src/rxn_network/network/entry.py:107).
`ident` is the identity of a dummy object, which is all that its equality looks at. -/
inductive Cls where
  | plain
  | dummy (ident : ℕ)
  deriving DecidableEq

/-- The attributes of a node entry, src/rxn_network/network/entry.py:41-45. -/
structure NEntry (η σ : Type) where
  cls : Cls
  entries : Finset η
  elements : List σ
  chemsys : List Char
  dim : ℕ
  description : Kind

/-- `NetworkEntry.__init__`, src/rxn_network/network/entry.py:35-45. `els` gives the elements of a phase, `sym` the symbol of an element. The
collection may be a list or a set; it is traversed twice. -/
def mk (els : η → List σ) (sym : σ → List Char) (entries : List η) (description : Kind) : NEntry η σ :=
  let elements := (entries.flatMap els).dedup.insertionSort (· ≤ ·)
  let chemsys := ['-'].intercalate (elements.map sym)
  ⟨.plain, entries.toFinset, elements, chemsys, chemsys.length, description⟩

/-- `DummyEntry.__init__`, src/rxn_network/network/entry.py:112-118. -/
def mkDummy (ident : ℕ) : NEntry η σ := ⟨.dummy ident, ∅, [], [], 0, .dummy⟩

/-- `NetworkEntry.__eq__` on the attributes, src/rxn_network/network/entry.py:94-101. -/
def plainEq (a b : NEntry η σ) : Bool :=
  if a.description = b.description ∧ a.chemsys = b.chemsys then decide (a.entries = b.entries) else false

/-- `a == b`, src/rxn_network/network/entry.py:94-101 and 123-124. If only one side is a dummy Python asks the dummy (the subclass overrides
`__eq__`, so the reflected method is tried first), which compares identities. -/
def eq (a b : NEntry η σ) : Bool := match a.cls, b.cls with
  | .dummy i, .dummy j => decide (i = j)
  | .dummy _, .plain => false
  | .plain, .dummy _ => false
  | .plain, .plain => plainEq a b

/-- `__hash__`, src/rxn_network/network/entry.py:103-104 and 126-127; `hashSet` is Python's hash of the pair of role and frozen set, `hashDummy`
that of the string `Dummy`. -/
def entryHash (hashSet : Kind × Finset η → ℤ) (hashDummy : ℤ) (a : NEntry η σ) : ℤ := match a.cls with
  | .plain => hashSet (a.description, a.entries)
  | .dummy _ => hashDummy

/-- The numbers given by `auto()`, src/rxn_network/network/entry.py:20-27. -/
def value : Kind → ℕ
  | .precursors => 1
  | .reactants => 2
  | .products => 3
  | .target => 4
  | .dummy => 5

/-- `NetworkEntryType(n)`, used at src/rxn_network/network/entry.py:86: `ValueError` for other numbers. -/
def ofValue : ℕ → Except Err Kind
  | 1 => .ok .precursors
  | 2 => .ok .reactants
  | 3 => .ok .products
  | 4 => .ok .target
  | 5 => .ok .dummy
  | _ => .error .valueError

/-- The dictionary of src/rxn_network/network/entry.py:71-78. -/
structure EDict (η : Type) where
  isDummy : Bool
  entries : List η
  description : ℕ

/-- `as_dict`, src/rxn_network/network/entry.py:71-78; `order` is the iteration order of the set. -/
def asDict (order : Finset η → List η) (a : NEntry η σ) : EDict η :=
  ⟨match a.cls with
    | .plain => false
    | .dummy _ => true, order a.entries, value a.description⟩

/-- `from_dict`, src/rxn_network/network/entry.py:80-87, called on the class named in the dictionary. `decode` is monty's decoding of the phases.
`DummyEntry` inherits it, but its constructor takes no arguments: `TypeError`. -/
def fromDict (els : η → List σ) (sym : σ → List Char) (decode : η → η) (d : EDict η) : Except Err (NEntry η σ) := do
  let k ← ofValue d.description
  if d.isDummy then .error .typeError else .ok (mk els sym (d.entries.map decode) k)

end Verif.Model.NetEntry
