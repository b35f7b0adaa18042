import Verif.Model.Network

/-!
# Saving and loading a network

Models `Network.as_dict` and `Network.from_dict`, src/rxn_network/network/base.py:63-89, and what the methods of
src/rxn_network/network/network.py do with a loaded network, whose precursors are a *list* and, after JSON, not even decoded.

External (monty, not in /repo): `super().as_dict()`/`super().from_dict` write and read the constructor arguments `rxns` and
`cost_function`, taken to be restored exactly (see C22 for reaction sets); the encoder replaces every object by a dictionary; the
decoder hands a class with its own `from_dict` the *undecoded* contents of the dictionary. Reactions and node payloads are values that
survive this (C50, C107).
-/

namespace Verif.Model.NetDict
open Verif.Py Verif.Model.Network

/-- A phase in a dictionary: the entry itself, or the plain dictionary `entry.as_dict()` that stands for it once the network's
dictionary has gone through JSON (src/rxn_network/network/base.py:68-69 put the objects in; only the graph is decoded again, line 85). -/
inductive Val (η : Type)
  | obj (e : η)
  | plain (e : η)
  deriving DecidableEq

/-- What the attribute `_precursors` can hold: a set (src/rxn_network/network/network.py:171) or, after loading, a list
(src/rxn_network/network/base.py:67,82). -/
inductive Coll (η : Type)
  | set (s : Finset η)
  | list (l : List (Val η))
  deriving DecidableEq

variable {η ρ φ : Type} [DecidableEq η]

/-- A network object, possibly loaded, src/rxn_network/network/base.py:37-45. -/
structure LNet (η ρ : Type) where
  rxns : List ρ
  entries : Finset η
  precursors : Option (Coll η)
  target : Option (Val η)
  g : Option (Graph (Node η) (Edge ρ))

/-- The dictionary of a network, src/rxn_network/network/base.py:66-70. A missing key is `none`; a key with value `None` is `some none`. -/
structure NetD (η ρ : Type) where
  rxns : List ρ
  precursors : Option (Option (List (Val η)))
  target : Option (Option (Val η))
  graph : Option (GraphDict (Node η) (Edge ρ))

/-- A network as made by the constructor and the methods of src/rxn_network/network/network.py:114-225. -/
def ofNet (n : Net η ρ) : LNet η ρ := ⟨n.rxns, n.entries, n.precursors.map .set, n.target.map .obj, n.g⟩

/-- `list(self.precursors) if self.precursors else None`, src/rxn_network/network/base.py:68; `order` is the iteration order of a set. -/
def savePrecursors (order : Finset η → List η) : Option (Coll η) → Option (List (Val η))
  | none => none
  | some (.set s) => if s = ∅ then none else some ((order s).map .obj)
  | some (.list l) => if l = [] then none else some l

/-- `as_dict`, src/rxn_network/network/base.py:63-71: without a graph, `None.as_dict()` is an `AttributeError`. -/
def asDict (order : Finset η → List η) (n : LNet η ρ) : Except Err (NetD η ρ) := match n.g with
  | none => .error .attributeError
  | some g => .ok ⟨n.rxns, some (savePrecursors order n.precursors), some n.target, some g.asDict⟩

/-- Line 85 of src/rxn_network/network/base.py: a missing or `None` graph stays `None`. -/
def loadGraph : Option (GraphDict (Node η) (Edge ρ)) → Except Err (Option (Graph (Node η) (Edge ρ)))
  | none => .ok none
  | some d => match Graph.fromDict d with
    | .error e => .error e
    | .ok g => .ok (some g)

/-- `from_dict`, src/rxn_network/network/base.py:73-89. The second component is the caller's dictionary afterwards: three keys have been
popped (lines 78-80). `entriesOf` is `GibbsEntrySet(rxns.entries)` of the constructor (line 40). -/
def fromDict (entriesOf : List ρ → Finset η) (d : NetD η ρ) : Except Err (LNet η ρ) × NetD η ρ :=
  (match loadGraph d.graph with
    | .error e => .error e
    | .ok g => .ok ⟨d.rxns, entriesOf d.rxns, (d.precursors.getD none).map .list, d.target.getD none, g⟩,
   ⟨d.rxns, none, none, none⟩)

/-- The plain dictionary of a phase (monty's encoder, applied to the values of src/rxn_network/network/base.py:67-68). -/
def Val.encode : Val η → Val η
  | .obj e => .plain e
  | .plain e => .plain e

/-- Writing the dictionary of src/rxn_network/network/base.py:66-70 to JSON and reading it: phases become plain dictionaries. -/
def json (d : NetD η ρ) : NetD η ρ :=
  { d with precursors := d.precursors.map (·.map (·.map Val.encode)), target := d.target.map (·.map Val.encode) }

/-! ### The methods on a loaded network -/

/-- `not g`, src/rxn_network/network/network.py:129,187,232. -/
def usableL (n : LNet η ρ) : Option (Graph (Node η) (Edge ρ)) := match n.g with
  | none => none
  | some g => if g.nodes = [] then none else some g

/-- Truth value of `self.precursors`, src/rxn_network/network/network.py:99,143. -/
def truthy : Option (Coll η) → Bool
  | none => false
  | some (.set s) => decide (s ≠ ∅)
  | some (.list l) => !l.isEmpty

/-- Lines 143-149 of src/rxn_network/network/network.py. -/
def detachP (old : Option (Coll η)) (g : Graph (Node η) (Edge ρ)) : Except Err (Graph (Node η) (Edge ρ)) :=
  if truthy old then
    match findKind .precursors g with
    | some i => .ok (g.removeNode i)
    | none => .error .valueError
  else .ok g

/-- `set_precursors`, src/rxn_network/network/network.py:114-171. The comparison of line 137 is between a set and whatever is stored: it
is false for a list. -/
def setPrecursors (minEntry : φ → Except Err η) (n : LNet η ρ) (args : List (Arg η φ)) : Except Err (LNet η ρ) :=
  match usableL n with
  | none => .error .valueError
  | some g =>
    match args.mapM (resolve minEntry) with
    | .error e => .error e
    | .ok l =>
      if n.precursors = some (.set l.toFinset) then .ok n
      else if ¬ l.toFinset ⊆ n.entries then .error .valueError
      else match detachP n.precursors g with
        | .error e => .error e
        | .ok g' => .ok { n with g := some (attachPrecursors l.toFinset g'), precursors := some (.set l.toFinset) }

/-- Lines 202-208 of src/rxn_network/network/network.py. -/
def detachT (old : Option (Val η)) (g : Graph (Node η) (Edge ρ)) : Except Err (Graph (Node η) (Edge ρ)) := match old with
  | none => .ok g
  | some _ => match findKind .target g with
    | some i => .ok (g.removeNode i)
    | none => .error .valueError

/-- `set_target`, src/rxn_network/network/network.py:173-225. An entry is never equal to a plain dictionary (line 196). -/
def setTarget (minEntry : φ → Except Err η) (n : LNet η ρ) (arg : Arg η φ) : Except Err (LNet η ρ) :=
  match usableL n with
  | none => .error .valueError
  | some g =>
    match resolve minEntry arg with
    | .error e => .error e
    | .ok t =>
      if n.target = some (.obj t) then .ok n
      else if t ∉ n.entries then .error .valueError
      else match detachT n.target g with
        | .error e => .error e
        | .ok g' => .ok { n with g := some (attachTarget t g'), target := some (.obj t) }

/-- Reading `entry.composition` of a phase (src/rxn_network/network/entry.py:42): a plain dictionary has no such attribute. -/
def Val.entry : Val η → Except Err η
  | .obj e => .ok e
  | .plain _ => .error .attributeError

/-- The entries of `NetworkEntry(self.precursors, …)`, src/rxn_network/network/network.py:236-238: `set(None)` is a `TypeError`. -/
def phases : Option (Coll η) → Except Err (Finset η)
  | none => .error .typeError
  | some (.set s) => .ok s
  | some (.list l) => match l.mapM Val.entry with
    | .error e => .error e
    | .ok m => .ok m.toFinset

/-- The entry of `NetworkEntry([self.target], …)`, src/rxn_network/network/network.py:239. -/
def targetPhase : Option (Val η) → Except Err η
  | none => .error .attributeError
  | some v => v.entry

variable [DecidableEq ρ]

/-- `_k_shortest_paths`, src/rxn_network/network/network.py:227-246. -/
def kShortest (d : Graph (Node η) (Edge ρ) → ℕ → ℕ → Option (List ℕ)) (c : ρ → ℚ) (n : LNet η ρ) (k : ℕ) :
    Except Err (List (List (Edge ρ × ℚ))) :=
  match usableL n with
  | none => .error .valueError
  | some g => match phases n.precursors with
    | .error e => .error e
    | .ok ps => match targetPhase n.target with
      | .error e => .error e
      | .ok t => match findNode g ⟨.precursors, ps⟩, findNode g ⟨.target, {t}⟩ with
        | some s, some e =>
          match yens d (weightOf c) g k s e with
          | none => .error .keyError
          | some paths => paths.mapM (pathFromGraph (fun r => .ok (c r)) g)
        | _, _ => .error .typeError

/-- Lines 103-110 of src/rxn_network/network/network.py, one target. -/
def findOne (minEntry : φ → Except Err η) (d : Graph (Node η) (Edge ρ) → ℕ → ℕ → Option (List ℕ)) (c : ρ → ℚ) (k : ℕ)
    (st : LNet η ρ × List (List (Edge ρ × ℚ))) (t : Arg η φ) : Except Err (LNet η ρ × List (List (Edge ρ × ℚ))) :=
  match setTarget minEntry st.1 t with
  | .error e => .error e
  | .ok n => match kShortest d c n k with
    | .error e => .error e
    | .ok ps => .ok (n, st.2 ++ ps)

/-- `find_pathways`, src/rxn_network/network/network.py:89-112. -/
def findPathways (minEntry : φ → Except Err η) (d : Graph (Node η) (Edge ρ) → ℕ → ℕ → Option (List ℕ)) (c : ρ → ℚ) (n : LNet η ρ)
    (targets : List (Arg η φ)) (k : ℕ) : Except Err (LNet η ρ × List (List (Edge ρ × ℚ))) :=
  if truthy n.precursors then targets.foldlM (findOne minEntry d c k) (n, []) else .error .attributeError

end Verif.Model.NetDict
