import Verif.Model.PyData
import Mathlib.Data.List.Sort

/-!
Model of the table of reactions, `ReactionSet.to_dataframe` (src/rxn_network/reactions/reaction_set.py:189-280), and of the
cache around it. A DataFrame is its dictionary of columns. Values of reaction data are of an arbitrary type `V`.
-/

namespace Verif.Model.Table
open Verif.Py

/-- What the table looks at in an entry: `data.get("e_above_hull")` (`none`: no such key, `some none`: the value `None`), whether
`"icsd_ids"` or `"theoretical"` is a key, and `is_experimental`; src/rxn_network/reactions/reaction_set.py:225-233, 262-271. -/
structure TEntry where
  eHull : Option (Option ℚ)
  hasSource : Bool
  exper : Except Err Bool

/-- What the table looks at in a reaction, src/rxn_network/reactions/reaction_set.py:223-278. `key` identifies the object;
`precursorSizes` are the lengths of `elements` of the reactants. -/
structure TRxn (V : Type) where
  key : ℕ
  energy : Except Err ℚ
  unc : Except Err ℚ
  data : List (String × V)
  entries : List TEntry
  reactantEntries : List TEntry
  productEntries : List TEntry
  precursorSizes : List ℕ

/-- The arguments of `to_dataframe`, src/rxn_network/reactions/reaction_set.py:190-196. A target is represented by what the
method computes from it: `_get_added_elems(rxn, target)` and `rxn.is_separable(target)`. -/
structure Args (V : Type) where
  cost : TRxn V → Except Err ℚ
  target : Option (TRxn V → String × Except Err Bool)
  unc : Bool
  sep : Bool

/-- A cell of the table, src/rxn_network/reactions/reaction_set.py:230-280. -/
inductive Cell (V : Type) where
  | rxn (key : ℕ)
  | num (q : ℚ)
  | str (s : String)
  | bool (b : Bool)
  | nat (n : ℕ)
  | any (v : Option V)
  deriving DecidableEq

variable {V : Type}

/-- `GibbsComputedEntry.is_experimental`, src/rxn_network/entries/gibbs.py:271-282: `theoretical` is the truth value of
`data["theoretical"]` if there is one, `icsd` the length of `data["icsd_ids"]` (`some none`: a value without length). -/
def gibbsExper (theoretical : Option Bool) (icsd : Option (Option ℕ)) : Except Err Bool :=
  match theoretical with
  | some t => .ok (!t)
  | none => match icsd with
    | some (some n) => .ok (decide (1 ≤ n))
    | some none => .error .typeError
    | none => .ok false

/-- `max(...)` of a generator; `ValueError` when empty. src/rxn_network/reactions/reaction_set.py:263-268. -/
def pyMaxQ : List ℚ → Except Err ℚ
  | [] => .error .valueError
  | x :: xs => .ok (xs.foldl max x)

/-- `max(len(precursor.elements) for ...)`, src/rxn_network/reactions/reaction_set.py:273. -/
def pyMaxN : List ℕ → Except Err ℕ
  | [] => .error .valueError
  | x :: xs => .ok (xs.foldl max x)

/-- `e.data.get("e_above_hull", 0.0) or 0.0`, src/rxn_network/reactions/reaction_set.py:264. -/
def hullOf (e : TEntry) : ℚ := match e.eHull with
  | some (some q) => q
  | _ => 0

/-- `sum(bool(not e.is_experimental) for e in ...)`, src/rxn_network/reactions/reaction_set.py:270. -/
def numTheoretical (es : List TEntry) : Except Err ℕ :=
  (es.mapM TEntry.exper).map fun l => (l.filter fun b => !b).length

/-- `calculate_e_above_hulls`: decided by the first entry of the first reaction, src/rxn_network/reactions/reaction_set.py:223-229. -/
def wantsHull (e : TEntry) : Bool := match e.eHull with
  | some (some _) => true
  | _ => false

/-- The two flags and the extra attributes, src/rxn_network/reactions/reaction_set.py:218-240; `IndexError` if the first reaction has
no entries. -/
def flagsOf (rxns : List (TRxn V)) : Except Err (Bool × Bool × List String) :=
  match rxns with
  | [] => .ok (false, false, [])
  | r :: _ => match r.entries with
    | [] => .error .indexError
    | e :: _ => .ok (wantsHull e, e.hasSource, (r.data.map Prod.fst).erase "num_constraints")

/-- `data[k] = []` in order, src/rxn_network/reactions/reaction_set.py:217-250. -/
def setEmpty (cols : List (String × List (Cell V))) (ks : List String) : List (String × List (Cell V)) :=
  ks.foldl (fun d k => dictSet d k []) cols

/-- The empty columns, src/rxn_network/reactions/reaction_set.py:217-250. -/
def initCols (a : Args V) (hull theo : Bool) (attrs : List String) : List (String × List (Cell V)) :=
  let c := setEmpty [("rxn", []), ("energy", [])]
    ((if hull then ["max_e_hull_reactants", "max_e_hull_products"] else []) ++
      if theo then ["num_theoretical_reactants", "num_theoretical_products"] else [])
  let c := setEmpty c ((if a.unc then ["dE"] else []) ++ match a.target with
    | none => []
    | some _ => "added_elems" :: if a.sep then ["separable"] else [])
  setEmpty (setEmpty c ["max_num_precursor_elems"]) (attrs ++ ["cost"])

/-- The values appended for one reaction, in the order of the code, src/rxn_network/reactions/reaction_set.py:252-278. -/
def rowThunks (a : Args V) (hull theo : Bool) (attrs : List String) (r : TRxn V) : List (String × Except Err (Cell V)) :=
  [("rxn", .ok (.rxn r.key)), ("energy", r.energy.map .num)] ++
  (if a.unc then [("dE", r.unc.map .num)] else []) ++
  (match a.target with
    | none => []
    | some f => ("added_elems", .ok (.str (f r).1)) :: if a.sep then [("separable", (f r).2.map .bool)] else []) ++
  (if hull then [("max_e_hull_reactants", (pyMaxQ (r.reactantEntries.map hullOf)).map .num),
    ("max_e_hull_products", (pyMaxQ (r.productEntries.map hullOf)).map .num)] else []) ++
  (if theo then [("num_theoretical_reactants", (numTheoretical r.reactantEntries).map .nat),
    ("num_theoretical_products", (numTheoretical r.productEntries).map .nat)] else []) ++
  [("max_num_precursor_elems", (pyMaxN r.precursorSizes).map .nat)] ++
  attrs.map (fun k => (k, .ok (.any (dictGet r.data k)))) ++
  [("cost", (a.cost r).map .num)]

/-- `data[k].append(v)`; `KeyError` without the column. src/rxn_network/reactions/reaction_set.py:252-278. -/
def appendCell (cols : List (String × List (Cell V))) (p : String × Except Err (Cell V)) :
    Except Err (List (String × List (Cell V))) :=
  match p.2 with
  | .error e => .error e
  | .ok c => match dictGet cols p.1 with
    | none => .error .keyError
    | some l => .ok (dictSet cols p.1 (l ++ [c]))

/-- One pass of the loop, src/rxn_network/reactions/reaction_set.py:252-278. -/
def appendRow (a : Args V) (hull theo : Bool) (attrs : List String) (cols : List (String × List (Cell V))) (r : TRxn V) :
    Except Err (List (String × List (Cell V))) :=
  (rowThunks a hull theo attrs r).foldlM appendCell cols

/-- `DataFrame(data)`: `ValueError` unless all columns have the same length. src/rxn_network/reactions/reaction_set.py:280. -/
def sameLengths (cols : List (String × List (Cell V))) : Bool :=
  match cols with
  | [] => true
  | (_, l) :: rest => rest.all fun p => decide (p.2.length = l.length)

/-- The rows of a column in the given order, src/rxn_network/reactions/reaction_set.py:280. -/
def pickRows (idx : List ℕ) (col : List (Cell V)) : List (Cell V) := idx.filterMap fun i => col[i]?

/-- `to_dataframe` without the cache, src/rxn_network/reactions/reaction_set.py:190-280. `sortIdx` is the order computed by
`sort_values("cost")` (pandas' default sort is not stable, so the order of ties is a parameter). -/
def toTable (sortIdx : List (Cell V) → List ℕ) (a : Args V) (rxns : List (TRxn V)) : Except Err (List (String × List (Cell V))) :=
  match flagsOf rxns with
  | .error e => .error e
  | .ok (hull, theo, attrs) =>
    match rxns.foldlM (appendRow a hull theo attrs) (initCols a hull theo attrs) with
    | .error e => .error e
    | .ok cols =>
      if sameLengths cols then
        .ok (cols.map fun p => (p.1, pickRows (sortIdx ((dictGet cols "cost").getD [])) p.2))
      else .error .valueError

/-- `calculate_costs`, src/rxn_network/reactions/reaction_set.py:282-291. -/
def calculateCosts (cost : TRxn V → Except Err ℚ) (rxns : List (TRxn V)) : Except Err (List ℚ) := rxns.mapM cost

/-! ### the cache -/

/-- The cache of `to_dataframe` and the tables handed out so far (`lru_cache(maxsize=1)`,
src/rxn_network/reactions/reaction_set.py:189). Tables are mutable objects, addressed by position. -/
structure CacheSt (K T : Type) where
  cache : Option (K × ℕ)
  heap : List T

/-- What a caller can do: ask for the table, or change a table obtained before (tables are shared through
`lru_cache`, src/rxn_network/reactions/reaction_set.py:189). -/
inductive CacheOp (K T : Type) where
  | call (k : K)
  | edit (ref : ℕ) (t : T)

/-- One operation; a call returns the reference to a table. src/rxn_network/reactions/reaction_set.py:189-196. A failing call is
not cached and not modelled. -/
def cacheStep {K T : Type} [DecidableEq K] (compute : K → T) (s : CacheSt K T) (op : CacheOp K T) : CacheSt K T × Option ℕ :=
  match op with
  | .edit ref t => (⟨s.cache, s.heap.set ref t⟩, none)
  | .call k => match s.cache with
    | some (k', ref) => if k = k' then (s, some ref) else (⟨some (k, s.heap.length), s.heap ++ [compute k]⟩, some s.heap.length)
    | none => (⟨some (k, s.heap.length), s.heap ++ [compute k]⟩, some s.heap.length)

/-- A history of operations, src/rxn_network/reactions/reaction_set.py:189-280 called any number of times. -/
def cacheRun {K T : Type} [DecidableEq K] (compute : K → T) (s : CacheSt K T) (ops : List (CacheOp K T)) : CacheSt K T :=
  ops.foldl (fun s op => (cacheStep compute s op).1) s

end Verif.Model.Table
