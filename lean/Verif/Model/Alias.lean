import Verif.Model.PyData

/-! Model of the `data` dictionaries of reactions as mutable objects: a heap of dictionaries and, for every reaction (or dictionary held
by the caller), the address of its dictionary. Everything else a reaction stores is copied by the constructors (`list`, `np.array`) or
never modified. Values are numbers. -/

namespace Verif.Model.Alias
open Verif.Py

/-- Contents of a `data` dictionary, src/rxn_network/reactions/basic.py:79. -/
abbrev Data := List (String × ℚ)

/-- All dictionaries, and the address held by each object, in order of creation, src/rxn_network/reactions/basic.py:79. -/
structure St where
  heap : List Data
  objs : List ℕ
  deriving DecidableEq, Repr

/-- Operations that create or change objects.
* `new d`: a reaction (or a dictionary) made from scratch, src/rxn_network/reactions/basic.py:33-80
* `pass i`: a constructor is given object `i`'s dictionary: `copy` and `reverse` (src/rxn_network/reactions/basic.py:169-189,
  src/rxn_network/reactions/computed.py:165-171, src/rxn_network/reactions/open.py:162-180), `normalize_to` and `normalize_to_element` of computed
  reactions (src/rxn_network/reactions/computed.py:173-202), `get_new_temperature` (src/rxn_network/reactions/computed.py:79-109,
  src/rxn_network/reactions/open.py:107-133)
* `fresh i`: the dictionary is copied first: `from_computed_rxn` (src/rxn_network/reactions/open.py:203-221) and the `deepcopy` of `decorate`
  (src/rxn_network/costs/base.py:37-53)
* `bare i`: no dictionary is passed: `normalize_to` and `normalize_to_element` of basic reactions, src/rxn_network/reactions/basic.py:116-146
* `balance i n`: `balance` called with object `i`'s dictionary, which gets the number of constraints `n`, src/rxn_network/reactions/basic.py:83-114,
  src/rxn_network/reactions/computed.py:49-77, src/rxn_network/reactions/open.py:61-105
* `write i k v`: `r.data[k] = v` -/
inductive Op
  | new (d : Data)
  | pass (i : ℕ)
  | fresh (i : ℕ)
  | bare (i : ℕ)
  | balance (i : ℕ) (n : ℚ)
  | write (i : ℕ) (k : String) (v : ℚ)
  deriving DecidableEq, Repr

/-- What object `i` sees as its data, src/rxn_network/reactions/basic.py:79. -/
def seen (s : St) (i : ℕ) : Option Data := match s.objs[i]? with
  | none => none
  | some a => s.heap[a]?

/-- A new object with its own dictionary `d`: `self.data = data if data else {}` for a dictionary nobody else holds,
src/rxn_network/reactions/basic.py:79. -/
def alloc (s : St) (d : Data) : St := ⟨s.heap ++ [d], s.objs ++ [s.heap.length]⟩

/-- A new object given the dictionary at address `a` with contents `d`: `self.data = data if data else {}`; an empty dictionary is
replaced by a new one, src/rxn_network/reactions/basic.py:79. -/
def share (s : St) (a : ℕ) (d : Data) : St := if d = [] then alloc s [] else ⟨s.heap, s.objs ++ [a]⟩

/-- `heap[a][k] = v`, src/rxn_network/reactions/basic.py:101. -/
def poke (s : St) (a : ℕ) (d : Data) (k : String) (v : ℚ) : St := ⟨s.heap.set a (dictSet d k v), s.objs⟩

/-- One operation (`none`: there is no object `i`); see `Op` for the code, src/rxn_network/reactions/basic.py:79-114. -/
def step (s : St) : Op → Option St
  | .new d => some (alloc s d)
  | .pass i => match s.objs[i]?, seen s i with
    | some a, some d => some (share s a d)
    | _, _ => none
  | .fresh i => match seen s i with
    | some d => some (alloc s d)
    | none => none
  | .bare i => match seen s i with
    | some _ => some (alloc s [])
    | none => none
  | .balance i n => match s.objs[i]?, seen s i with
    | some a, some d =>
      if d = [] then some (alloc s [("num_constraints", n)])
      else some (share (poke s a d "num_constraints" n) a (dictSet d "num_constraints" n))
    | _, _ => none
  | .write i k v => match s.objs[i]?, seen s i with
    | some a, some d => some (poke s a d k v)
    | _, _ => none

/-- A history of operations, one after the other; see `Op` for the code, src/rxn_network/reactions/basic.py:79-114. -/
def run (s : St) : List Op → Option St
  | [] => some s
  | o :: os => match step s o with
    | none => none
    | some s' => run s' os

end Verif.Model.Alias
