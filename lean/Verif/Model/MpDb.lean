import Verif.Model.EntryFlow

/-!
Model of the Materials Project searches: `get_entries` and `get_all_entries_in_chemsys` (src/rxn_network/entries/utils.py:218-435) and the choice of
strategy in `GetEntrySetMaker.make` (src/rxn_network/jobs/core.py:106-195).

Documents hold their element list and a dictionary of fields with values in an arbitrary type; a query returns only the fields asked for. The constructors
of entries and structures, the conventional cell and the compatibility scheme (which adjusts or drops entries one at a time) are parameters.
-/

namespace Verif.Model.MpDb
open Verif.Py Verif.Model Verif.Model.EntryFlow

/-- A document of the materials database, queried at src/rxn_network/entries/utils.py:295. -/
structure MDoc (V : Type) where
  elements : List Enum.Sym
  fields : List (String × V)
  deriving DecidableEq

/-- The field `chemsys` that queries refer to, src/rxn_network/entries/utils.py:416: the sorted symbols joined by dashes. -/
def MDoc.chemsys {V : Type} (d : MDoc V) : List Char := ['-'].intercalate (d.elements.insertionSort (· ≤ ·))

/-- An entry: a formula or a structure, energy, parameters, data and id (src/rxn_network/entries/utils.py:314-336). -/
structure Ent (V S : Type) where
  body : V ⊕ S
  energy : ℚ
  params : List (String × V)
  data : List (String × V)
  id : V
  deriving DecidableEq

/-- External calls at src/rxn_network/entries/utils.py:295-342: truth and number of a value, the POTCAR symbols of a pseudopotential, `ent.get(k)`,
`from_dict` of entries and structures, number of sites, the conventional cell, and the compatibility scheme. -/
structure Ext (V S : Type) where
  truthy : V → Bool
  num : V → ℚ
  potcar : V → Except Err V
  sub : V → String → Except Err (Option V)
  entry : V → Except Err (Ent V S)
  structure_ : V → Except Err S
  sites : S → ℕ
  conventional : S → S
  adjust : Ent V S → Option (Ent V S)

/-- The options of `get_entries`, src/rxn_network/entries/utils.py:218-227. `inc` is `inc_structure`. -/
structure Opts where
  compatible : Bool
  inc : Option String
  premade : Bool
  conventional : Bool
  sort : Bool
  deriving DecidableEq

variable {V S : Type}

/-- `params`, src/rxn_network/entries/utils.py:263-271. -/
def params : List String := ["deprecated", "run_type", "is_hubbard", "pseudo_potential", "hubbards", "potcar_symbols", "oxide_type"]

/-- What becomes of `property_data`, src/rxn_network/entries/utils.py:273-277: the list used, and the contents of the caller's list afterwards. -/
def properties (sort : Bool) (p : Option (List String)) : Option (List String) × Option (List String) :=
  match sort, p with
  | true, some (x :: l) => if "e_above_hull" ∈ x :: l then (p, p) else (some (x :: l ++ ["e_above_hull"]), some (x :: l ++ ["e_above_hull"]))
  | true, _ => (some ["e_above_hull"], p)
  | false, _ => (p, p)

/-- The fields asked for, src/rxn_network/entries/utils.py:272-292. `inc_structure` may be the empty string. -/
def projection (o : Opts) (p : Option (List String)) : List String :=
  if o.premade then ["entries", "deprecated"]
  else ["final_energy", "unit_cell_formula", "task_id"] ++ params ++ p.getD [] ++
    match o.inc with
    | none => []
    | some "" => []
    | some "initial" => ["initial_structure"]
    | some _ => ["structure"]

/-- A document as returned by the query, src/rxn_network/entries/utils.py:295. -/
def project (keys : List String) (d : MDoc V) : List (String × V) := d.fields.filter fun f => decide (f.1 ∈ keys)

/-- `d[k]`, src/rxn_network/entries/utils.py:313. -/
def item (d : List (String × V)) (k : String) : Except Err V := match dictGet d k with
  | some v => .ok v
  | none => .error .keyError

/-- `{k: d[k] for k in keys}`, src/rxn_network/entries/utils.py:313 and :318. -/
def items (d : List (String × V)) (keys : List String) : Except Err (List (String × V)) :=
  (keys.mapM fun k => (item d k).map fun v => (k, v))

/-- A premade entry, src/rxn_network/entries/utils.py:298-306. -/
def premade (X : Ext V S) (d : List (String × V)) : Except Err (Option (Ent V S)) := do
  let ent ← item d "entries"
  match ← X.sub ent "GGA" with
  | some v => return some (← X.entry v)
  | none => match ← X.sub ent "GGA+U" with
    | some v => return some (← X.entry v)
    | none => return none

/-- The structure and energy of an entry, src/rxn_network/entries/utils.py:323-329. -/
def structured (X : Ext V S) (o : Opts) (inc : String) (d : List (String × V)) : Except Err (S × ℚ) := do
  let prim ← X.structure_ (← item d (if inc = "initial" then "initial_structure" else "structure"))
  let e ← item d "final_energy"
  if o.conventional then
    let s := X.conventional prim
    if X.sites prim = 0 then .error .zeroDivision else return (s, X.num e * ((X.sites s : ℚ) / X.sites prim))
  else return (prim, X.num e)

/-- Formula or structure and energy, src/rxn_network/entries/utils.py:316-317 and :323-329. -/
def body (X : Ext V S) (o : Opts) (d : List (String × V)) : Except Err ((V ⊕ S) × ℚ) :=
  match o.inc with
  | none => plain
  | some "" => plain
  | some inc => (structured X o inc d).map fun r => (.inr r.1, r.2)
where
  plain := do
    let f ← item d "unit_cell_formula"
    let e ← item d "final_energy"
    return (.inl f, X.num e)

/-- A new entry, src/rxn_network/entries/utils.py:307-336. -/
def fresh (X : Ext V S) (o : Opts) (p : Option (List String)) (d : List (String × V)) : Except Err (Ent V S) := do
  let d := dictSet d "potcar_symbols" (← X.potcar (← item d "pseudo_potential"))
  let ox ← item d "oxide_type"
  let extra ← items d (p.getD [])
  let (b, e) ← body X o d
  let ps ← items d params
  let id ← item d "task_id"
  return ⟨b, e, dictOf ps, extra.foldl (fun acc f => dictSet acc f.1 f.2) [("oxide_type", ox)], id⟩

/-- One document, src/rxn_network/entries/utils.py:295-337; `none` is skipped. -/
def one (X : Ext V S) (o : Opts) (p : Option (List String)) (d : MDoc V) : Except Err (Option (Ent V S)) :=
  let r := project (projection o p) d
  if ((dictGet r "deprecated").map X.truthy).getD false then .ok none
  else if o.premade then premade X r
  else (fresh X o p r).map some

/-- Compatibility and sorting, src/rxn_network/entries/utils.py:339-345. -/
def finish (X : Ext V S) (o : Opts) (es : List (Ent V S)) : Except Err (List (Ent V S)) :=
  let es := if o.compatible then es.filterMap X.adjust else es
  if o.sort then do
    let keyed ← es.mapM fun e => (item e.data "e_above_hull").map fun v => (X.num v, e)
    return (keyed.insertionSort fun a b => a.1 ≤ b.1).map Prod.snd
  else .ok es

/-- `get_entries`, src/rxn_network/entries/utils.py:218-347, for a criterion; also returns the caller's `property_data` afterwards. -/
def getEntries (X : Ext V S) (db : List (MDoc V)) (crit : MDoc V → Bool) (o : Opts) (p : Option (List String)) :
    Option (List String) × Except Err (List (Ent V S)) :=
  let (used, after) := properties o.sort p
  (after, do
    let es ← (db.filter crit).mapM (one X o used)
    finish X o es.reduceOption)

/-- `divide_chunks`, src/rxn_network/entries/utils.py:396-398: step 0 is an error, negative steps give nothing. -/
def chunks {α : Type} (n : ℤ) (l : List α) : Except Err (List (List α)) :=
  if n = 0 then .error .valueError else if n < 0 then .ok [] else .ok (divideChunks n.toNat l)

/-- The `chemsys` strategy, src/rxn_network/entries/utils.py:402-423. -/
def bySystems (X : Ext V S) (db : List (MDoc V)) (els : List Enum.Sym) (o : Opts) (p : Option (List String)) (n : ℤ) : Except Err (List (Ent V S)) := do
  let groups ← chunks n (subsystems els)
  let parts ← groups.mapM fun g => (getEntries X db (fun d => decide (d.chemsys ∈ g)) o p).2
  return parts.flatten

/-- `get_all_entries_in_chemsys`, src/rxn_network/entries/utils.py:350-435, for a list of symbols. It never sorts, so `property_data` is left as it is. -/
def getAll (X : Ext V S) (db : List (MDoc V)) (els : List Enum.Sym) (o : Opts) (p : Option (List String)) (n : ℤ) : Except Err (List (Ent V S)) :=
  if els.length ≤ 13 then bySystems X db els { o with sort := false } p n
  else (getEntries X db (fun d => d.elements.all fun x => decide (x ∈ els)) { o with sort := false } p).2

/-! ### `GetEntrySetMaker` -/

/-- The three sources of `GetEntrySetMaker.make` (src/rxn_network/jobs/core.py:120-156): the configured entry database with the elements as a string,
`MPRester.get_entries_in_chemsys`, `summary.search(exclude_elements=…)` and `get_entries(ids)`; `element` is `Element(symbol)`, `table` all elements. -/
structure Rester (ι α : Type) where
  element : Enum.Sym → Except Err Enum.Sym
  table : List Enum.Sym
  inChemsys : List Enum.Sym → Except Err (List α)
  excluding : List Enum.Sym → Except Err (List ι)
  byIds : List ι → Except Err (List α)

/-- `_get_exclude_elems`, src/rxn_network/jobs/core.py:183-195. -/
def excluded (table elems : List Enum.Sym) : List Enum.Sym := table.filter fun e => decide (e ∉ elems)

/-- Entries from the Materials Project, src/rxn_network/jobs/core.py:131-156. -/
def fetch {ι α : Type} (R : Rester ι α) (chemsys : List Char) : Except Err (List α) := do
  let syms := chemsys.splitOn '-'
  let elems ← syms.mapM R.element
  if elems.dedup.length ≤ 25 then R.inChemsys syms
  else do
    let ids ← R.excluding (excluded R.table elems)
    R.byIds ids

/-- What `make` does before processing, src/rxn_network/jobs/core.py:117-160: the entries, and the maker's `property_data` afterwards. `db` is the configured
database, if there is one. -/
def acquire {ι α : Type} (R : Rester ι α) (db : Option (List (Doc α))) (custom : List α) (property : Option (List String)) (chemsys : List Char) :
    Option (List String) × Except Err (List α) :=
  match db with
  | some docs => (property.map fun l => if "theoretical" ∈ l then l else l ++ ["theoretical"], .ok (dbChemsysStr docs chemsys ++ custom))
  | none => (property, (fetch R chemsys).map fun l => l ++ custom)

end Verif.Model.MpDb
