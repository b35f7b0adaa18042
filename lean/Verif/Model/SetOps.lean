import Verif.Model.EntryFlow

/-!
Model of entry sets as Python objects that are copied, combined and changed: the members of `GibbsEntrySet`
(src/rxn_network/entries/entry_set.py:52-129, 465-474) and the operators it inherits from `collections.abc.MutableSet`, which are built
from `__contains__`, `__iter__`, `__len__`, `add`, `discard` and the constructor. Objects are positions in a list; entries have a lawful
equality (see C89 for where they do not).
-/

namespace Verif.Model.SetOps
open Verif.Py Verif.Model.Entries Verif.Model.EntryFlow

variable {η : Type} [DecidableEq η]

/-- An entry set object, src/rxn_network/entries/entry_set.py:78-80: members and the two settings it remembers. -/
structure SetObj (η : Type) where
  members : List η
  hulls : Bool
  mini : Bool
  deriving DecidableEq, Repr

/-- The constructor with default settings, src/rxn_network/entries/entry_set.py:60-80; also `_from_iterable` of the inherited operators. -/
def SetObj.new (l : List η) : SetObj η := ⟨l.foldl insertE [], false, false⟩

/-- Operations on the objects numbered `h` and `k`. Those in the first group return a new object, the others change `h`.
src/rxn_network/entries/entry_set.py:99-128, 465-467 and the operators inherited at :52. -/
inductive Call (η : Type)
  | copy (h : ℕ) | union (h k : ℕ) | inter (h k : ℕ) | diff (h k : ℕ) | xor (h k : ℕ)
  | add (h : ℕ) (e : η) | discard (h : ℕ) (e : η) | iunion (h k : ℕ) | iinter (h k : ℕ) | idiff (h k : ℕ) | ixor (h k : ℕ)
  deriving DecidableEq, Repr

/-- `copy`, src/rxn_network/entries/entry_set.py:465-467. -/
def SetObj.copy (a : SetObj η) : SetObj η := .new a.members

/-- `a | b` (inherited by src/rxn_network/entries/entry_set.py:52): the members of both, chained. -/
def SetObj.union (a b : SetObj η) : SetObj η := .new (a.members ++ b.members)

/-- `a & b` (inherited by src/rxn_network/entries/entry_set.py:52): the members of `b` that are in `a`. -/
def SetObj.inter (a b : SetObj η) : SetObj η := .new (b.members.filter fun e => e ∈ a.members)

/-- `a - b` (inherited by src/rxn_network/entries/entry_set.py:52, used in src/rxn_network/enumerators/basic.py:296). -/
def SetObj.diff (a b : SetObj η) : SetObj η := .new (a.members.filter fun e => e ∉ b.members)

/-- `a ^ b` (inherited by src/rxn_network/entries/entry_set.py:52): `(a - b) | (b - a)`. -/
def SetObj.xor (a b : SetObj η) : SetObj η := (a.diff b).union (b.diff a)

/-- `add`, src/rxn_network/entries/entry_set.py:99-106. -/
def SetObj.add (a : SetObj η) (e : η) : SetObj η := { a with members := insertE a.members e }

/-- `discard`, src/rxn_network/entries/entry_set.py:121-128. -/
def SetObj.discard (a : SetObj η) (e : η) : SetObj η := { a with members := a.members.erase e }

/-- `clear()` (inherited by src/rxn_network/entries/entry_set.py:52): `pop` until it raises `KeyError`. -/
def SetObj.clear (a : SetObj η) : SetObj η := { a with members := a.members.foldl (fun l e => l.erase e) a.members }

/-- One value of `a ^= b` (inherited by src/rxn_network/entries/entry_set.py:52). -/
def SetObj.toggle (a : SetObj η) (e : η) : SetObj η := if e ∈ a.members then a.discard e else a.add e

/-- `a |= b` (inherited by src/rxn_network/entries/entry_set.py:52) for two objects. -/
def SetObj.iunion (a b : SetObj η) : SetObj η := b.members.foldl SetObj.add a

/-- `a &= b` (inherited by src/rxn_network/entries/entry_set.py:52) for two objects. -/
def SetObj.iinter (a b : SetObj η) : SetObj η := (a.diff b).members.foldl SetObj.discard a

/-- `a -= b` (inherited by src/rxn_network/entries/entry_set.py:52); `same` says that both are one object, which the code asks for. -/
def SetObj.idiff (same : Bool) (a b : SetObj η) : SetObj η := if same then a.clear else b.members.foldl SetObj.discard a

/-- `a ^= b` (inherited by src/rxn_network/entries/entry_set.py:52); `same` says that both are one object, which the code asks for. -/
def SetObj.ixor (same : Bool) (a b : SetObj η) : SetObj η := if same then a.clear else b.members.foldl SetObj.toggle a

/-- Append the result of an operation on two objects; nothing happens when one of them does not exist. Only bookkeeping, there is no
counterpart in src/rxn_network/entries/entry_set.py. -/
def made (st : List (SetObj η)) (h k : ℕ) (f : SetObj η → SetObj η → SetObj η) : List (SetObj η) := match st[h]?, st[k]? with
  | some a, some b => st ++ [f a b]
  | _, _ => st

/-- Replace object `h`; bookkeeping like `made`, without counterpart in src/rxn_network/entries/entry_set.py. -/
def changed (st : List (SetObj η)) (h k : ℕ) (f : SetObj η → SetObj η → SetObj η) : List (SetObj η) := match st[h]?, st[k]? with
  | some a, some b => st.set h (f a b)
  | _, _ => st

/-- One operation of a history of calls, src/rxn_network/entries/entry_set.py:90-128, 465-467. -/
def step (st : List (SetObj η)) : Call η → List (SetObj η)
  | .copy h => made st h h fun a _ => a.copy
  | .union h k => made st h k SetObj.union
  | .inter h k => made st h k SetObj.inter
  | .diff h k => made st h k SetObj.diff
  | .xor h k => made st h k SetObj.xor
  | .add h e => changed st h h fun a _ => a.add e
  | .discard h e => changed st h h fun a _ => a.discard e
  | .iunion h k => changed st h k SetObj.iunion
  | .iinter h k => changed st h k SetObj.iinter
  | .idiff h k => changed st h k (SetObj.idiff (h == k))
  | .ixor h k => changed st h k (SetObj.ixor (h == k))

/-- A history of calls, src/rxn_network/entries/entry_set.py:90-128, 465-467. -/
def run (st : List (SetObj η)) (ops : List (Call η)) : List (SetObj η) := ops.foldl step st

/-! ### Settings -/

section Settings
variable {κ ε φ : Type} [DecidableEq κ] [DecidableEq ε] [DecidableEq φ]

/-- The constructor with its settings, src/rxn_network/entries/entry_set.py:78-88, for entries that keep their stored hull distance. `ehull
es e` is `get_e_above_hull` of a set with entries `es`. Minimizing first empties `data`. -/
def construct (ehull : List (Ent κ) → Ent κ → Except Err ℚ) (l : List (Ent κ)) (hulls mini : Bool) : Except Err (SetObj (Ent κ)) :=
  let es := entrySet l
  let es' := if mini then es.map Ent.resetHull else es
  if hulls then (withHulls ehull es').map fun r => ⟨r, hulls, mini⟩ else .ok ⟨es', hulls, mini⟩

/-- `get_entries_with_new_temperature`, src/rxn_network/entries/entry_set.py:264-283: only the first setting is passed on. -/
def atTemperature (W : World κ ε φ) (ehull : List (Ent κ) → Ent κ → Except Err ℚ) (s : SetObj (Ent κ)) (t : ℚ) :
    Except Err (SetObj (Ent κ)) := do
  let l ← newTemps W t s.members
  construct ehull l s.hulls false

/-- `as_dict`, src/rxn_network/entries/entry_set.py:469-474. The inherited `MSONable.as_dict` stores every argument of the constructor that
is an attribute, here also `minimize_obj_size`. The dictionaries of the entries are taken as the entries themselves (C113, C118). -/
structure Saved (κ : Type) where
  entries : List (Ent κ)
  hulls : Bool
  mini : Bool

/-- `as_dict`, src/rxn_network/entries/entry_set.py:469-474. -/
def save (s : SetObj (Ent κ)) : Saved κ := ⟨s.members, s.hulls, s.mini⟩

/-- `from_dict`, inherited from `MSONable` by src/rxn_network/entries/entry_set.py:52: the constructor applied to the decoded values. -/
def load (ehull : List (Ent κ) → Ent κ → Except Err ℚ) (d : Saved κ) : Except Err (SetObj (Ent κ)) := construct ehull d.entries d.hulls d.mini

end Settings

end Verif.Model.SetOps
