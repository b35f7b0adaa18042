import Mathlib.Data.List.Sort
import Verif.Model.Solver

/-!
Positions stored on entry objects: `build_indices` (src/rxn_network/entries/entry_set.py:197-209), its caller in the network constructor
(src/rxn_network/network/base.py:41) and its reader `get_entry_idx_vector` (src/rxn_network/reactions/computed.py:204-217). Entry objects are values of a type
`ω` with decidable identity (`is`, not `==`); what `data["idx"]` holds for each of them is the store.
-/

namespace Verif.Model.Indices
open Verif.Py

variable {ω : Type} [DecidableEq ω]

/-- `e.data.get("idx")` for every entry object, src/rxn_network/entries/entry_set.py:209. -/
abbrev Store (ω : Type) := ω → Option ℕ

/-- `set(entries)`, src/rxn_network/entries/entry_set.py:78: of objects that compare equal the first is kept. -/
def unique (same : ω → ω → Bool) (acc : List ω) : List ω → List ω
  | [] => acc
  | o :: os => if acc.any fun a => same a o then unique same acc os else unique same (acc ++ [o]) os

/-- `entries_list`, src/rxn_network/entries/entry_set.py:557-560: a stable sort by composition (`le`) of the set in its iteration order `so`. -/
def entriesList (le : ω → ω → Bool) (so : List ω → List ω) (s : List ω) : List ω :=
  (so s).insertionSort fun a b => le a b = true

/-- `e.data.update({"idx": idx})`, src/rxn_network/entries/entry_set.py:209. -/
def setIdx (σ : Store ω) (o : ω) (i : ℕ) : Store ω := fun o' => if o' = o then some i else σ o'

/-- The loop of `build_indices` from position `i` on, src/rxn_network/entries/entry_set.py:208-209. -/
def buildFrom (σ : Store ω) : ℕ → List ω → Store ω
  | _, [] => σ
  | i, o :: os => buildFrom (setIdx σ o i) (i + 1) os

/-- `build_indices`, src/rxn_network/entries/entry_set.py:197-209, on the entry list `l`. -/
def buildIndices (σ : Store ω) (l : List ω) : Store ω := buildFrom σ 0 l

/-- `Network.__init__`, src/rxn_network/network/base.py:40-41: the entry list of the new network, and the store afterwards. -/
def newNetwork (same le : ω → ω → Bool) (so : List ω → List ω) (σ : Store ω) (rxnEntries : List ω) : List ω × Store ω :=
  let l := entriesList le so (unique same [] rxnEntries)
  (l, buildIndices σ l)

/-- `deepcopy` of entry objects (src/rxn_network/pathways/solver.py:127 and :173, src/rxn_network/enumerators/basic.py:337): each pair is an object and its copy. -/
def copyAll (σ : Store ω) : List (ω × ω) → Store ω
  | [] => σ
  | p :: ps => copyAll (fun o => if o = p.2 then σ p.1 else σ o) ps

/-- What happens to stored positions: an entry list is indexed (a network or an enumerator starts, src/rxn_network/network/base.py:41 and
src/rxn_network/enumerators/basic.py:360), or objects are copied. -/
inductive Op (ω : Type) where
  | index (l : List ω)
  | copy (ps : List (ω × ω))

/-- One step of a history; see `Op`, src/rxn_network/entries/entry_set.py:197-209. -/
def step (σ : Store ω) : Op ω → Store ω
  | .index l => buildIndices σ l
  | .copy ps => copyAll σ ps

/-- A history; see `Op`, src/rxn_network/entries/entry_set.py:197-209. -/
def run (σ : Store ω) (ops : List (Op ω)) : Store ω := ops.foldl step σ

/-- `e.data["idx"]`, src/rxn_network/reactions/computed.py:213. -/
def readIdx (σ : Store ω) (o : ω) : Except Err ℕ := match σ o with
  | some i => .ok i
  | none => .error .keyError

/-- `get_entry_idx_vector(n)`, src/rxn_network/reactions/computed.py:204-217, reading the positions from the objects. -/
def entryVector (σ : Store ω) (n : ℕ) (objs : List ω) (coeffs : List ℚ) : Except Err (List ℚ) :=
  match objs.mapM (readIdx σ) with
  | .error e => .error e
  | .ok is => if is.length ≠ coeffs.length then .error .valueError else Solver.assign (List.replicate n 0) (is.zip coeffs)

end Verif.Model.Indices
