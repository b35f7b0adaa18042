import Verif.Model.PyData
import Verif.Model.Enum
import Mathlib.Data.List.Sort

/-!
Model of `src/rxn_network/entries/` : the entry set with its cached attributes, its queries, and the temperature dependence of
entries. The iteration order of a Python `set` of entries is the order of a duplicate-free list (arbitrary, so theorems hold for
every order); entries are compared by `==`, which is decidable equality of `η`.
-/

namespace Verif.Model.Entries
open Verif.Py

/-! ### The entry set and its caches -/

/-- The cached properties of `GibbsEntrySet`, src/rxn_network/entries/entry_set.py:129-135,557-600. -/
inductive View
  | pdDict | entriesList | minEntries | temperature | chemsys
  deriving DecidableEq, Repr

/-- `inspect.getmembers(GibbsEntrySet)` restricted to cached properties, src/rxn_network/entries/entry_set.py:691-692. -/
def allViews : List View := [.chemsys, .entriesList, .minEntries, .pdDict, .temperature]

/-- A `GibbsEntrySet` object: the set and the instance attributes that hold cached values,
src/rxn_network/entries/entry_set.py:78-80. -/
structure ES (η V : Type) where
  entries : List η
  cache : List (View × V)

variable {η V : Type} [DecidableEq η]

/-- `set.add`, src/rxn_network/entries/entry_set.py:105. -/
def insertE (l : List η) (e : η) : List η := if e ∈ l then l else l ++ [e]

/-- `_clear_cache`: `delattr` for every cached property, missing ones are skipped, src/rxn_network/entries/entry_set.py:687-696. -/
def clearCache (cache : List (View × V)) : List (View × V) :=
  allViews.foldl (fun c v => c.filter fun p => p.1 ≠ v) cache

/-- `add`, src/rxn_network/entries/entry_set.py:99-106. -/
def add (s : ES η V) (e : η) : ES η V := ⟨insertE s.entries e, clearCache s.cache⟩

/-- `update`, src/rxn_network/entries/entry_set.py:108-118, with an iterable that yields `items` and then either stops or raises
(`raises`): `set.update` keeps what it has added before the exception, and the cache is then not cleared. -/
def update (s : ES η V) (items : List η) (raises : Bool) : ES η V × Except Err Unit :=
  if raises then (⟨items.foldl insertE s.entries, s.cache⟩, .error .typeError)
  else (⟨items.foldl insertE s.entries, clearCache s.cache⟩, .ok ())

/-- `discard`, src/rxn_network/entries/entry_set.py:120-127. -/
def discard (s : ES η V) (e : η) : ES η V := ⟨s.entries.erase e, clearCache s.cache⟩

/-- `remove` (mixin method of `collections.abc.MutableSet`, inherited at src/rxn_network/entries/entry_set.py:52). -/
def remove (s : ES η V) (e : η) : ES η V × Except Err Unit :=
  if e ∈ s.entries then (discard s e, .ok ()) else (s, .error .keyError)

/-- `pop` (mixin method, inherited at src/rxn_network/entries/entry_set.py:52): the first entry in iteration order. -/
def pop (s : ES η V) : ES η V × Except Err Unit := match s.entries with
  | [] => (s, .error .keyError)
  | e :: _ => (discard s e, .ok ())

/-- Reading a cached property (`functools.cached_property`): the stored value if there is one, otherwise computed from the current
entries and stored (unless the computation raises), src/rxn_network/entries/entry_set.py:129-135,557-600. -/
def read (compute : View → List η → Except Err V) (s : ES η V) (v : View) : ES η V × Except Err V := match dictGet s.cache v with
  | some x => (s, .ok x)
  | none => match compute v s.entries with
    | .ok x => (⟨s.entries, dictSet s.cache v x⟩, .ok x)
    | .error e => (s, .error e)

/-- One user action on an entry set: the methods of src/rxn_network/entries/entry_set.py:99-127. -/
inductive Op (η : Type)
  | add (e : η)
  | update (items : List η) (raises : Bool)
  | discard (e : η)
  | remove (e : η)
  | pop
  | read (v : View)

/-- Performing an action (src/rxn_network/entries/entry_set.py:99-127); the second component is the value read, if any. -/
def step (compute : View → List η → Except Err V) (s : ES η V) : Op η → ES η V × Option (Except Err V)
  | .add e => (add s e, none)
  | .update items raises => ((update s items raises).1, none)
  | .discard e => (discard s e, none)
  | .remove e => ((remove s e).1, none)
  | .pop => ((pop s).1, none)
  | .read v => ((read compute s v).1, some (read compute s v).2)

/-- A history of actions (src/rxn_network/entries/entry_set.py:99-127) with everything that was read. -/
def run (compute : View → List η → Except Err V) : ES η V → List (Op η) → ES η V × List (Except Err V)
  | s, [] => (s, [])
  | s, o :: os =>
    let r := step compute s o
    let rest := run compute r.1 os
    (rest.1, r.2.toList ++ rest.2)

/-- `GibbsEntrySet(entries)`, src/rxn_network/entries/entry_set.py:78 (without the two optional preparation loops). -/
def mk (entries : List η) : ES η V := ⟨entries.foldl insertE [], []⟩

/-! ### Queries -/

/-- `sorted(entries, key=lambda x: x.energy_per_atom)[0]` (stable), src/rxn_network/entries/entry_set.py:571-572. -/
def lowest (epa : η → ℚ) (l : List η) : Except Err η := match l.insertionSort fun a b => epa a ≤ epa b with
  | [] => .error .indexError
  | e :: _ => .ok e

/-- Loop body of `min_entries_by_formula`, src/rxn_network/entries/entry_set.py:568-572. -/
def minStep {φ : Type} [DecidableEq φ] (form : η → φ) (epa : η → ℚ) (entries : List η) (d : List (φ × η)) (e : η) :
    Except Err (List (φ × η)) :=
  match dictGet d (form e) with
  | some _ => .ok d
  | none => do
    let m ← lowest epa (entries.filter fun x => form x = form e)
    return dictSet d (form e) m

/-- `min_entries_by_formula`, src/rxn_network/entries/entry_set.py:562-574; `form` is the reduced formula. -/
def minEntries {φ : Type} [DecidableEq φ] (form : η → φ) (epa : η → ℚ) (entries : List η) : Except Err (List (φ × η)) :=
  entries.foldlM (minStep form epa entries) []

/-- `get_min_entry_by_formula`, src/rxn_network/entries/entry_set.py:211-220; `f` is the reduced formula of the request. -/
def getMinEntry {φ : Type} [DecidableEq φ] (form : η → φ) (epa : η → ℚ) (entries : List η) (f : φ) : Except Err η := do
  let d ← minEntries form epa entries
  match dictGet d f with
  | some e => .ok e
  | none => .error .keyError

/-- `chemsys`, src/rxn_network/entries/entry_set.py:591-600. -/
def chemsys {ε : Type} [DecidableEq ε] (elems : η → List ε) (entries : List η) : List ε := (entries.flatMap elems).dedup

/-- `get_subset_in_chemsys`, src/rxn_network/entries/entry_set.py:137-160, for a list of elements (a string is split at dashes
first). -/
def subsetInChemsys {ε : Type} [DecidableEq ε] (elems : η → List ε) (entries : List η) (chemSys : List ε) : Except Err (List η) :=
  if chemSys.all fun x => x ∈ chemsys elems entries then .ok (entries.filter fun e => (elems e).all fun x => x ∈ chemSys)
  else .error .valueError

/-- `get_subset_in_chemsys` for a string, src/rxn_network/entries/entry_set.py:148-149. -/
def subsetInChemsysStr (elems : η → List Enum.Sym) (entries : List η) (chemSys : List Char) : Except Err (List η) :=
  subsetInChemsys elems entries (chemSys.splitOn '-')

/-- A phase diagram as used by the stability filter (src/rxn_network/entries/entry_set.py:181-183): its entries and `get_e_above_hull` (pymatgen, external). -/
structure PD (η : Type) where
  all : List η
  ehull : η → ℚ

/-- State of `filter_by_stability`: `filtered_entries` and `all_comps`, src/rxn_network/entries/entry_set.py:178-179. -/
structure FS (η φ : Type) where
  filtered : List η
  comps : List (φ × η)

/-- Loop body of `filter_by_stability`, src/rxn_network/entries/entry_set.py:183-193. -/
def filterStep {φ : Type} [DecidableEq φ] (form : η → φ) (epa : η → ℚ) (cut : ℚ) (poly : Bool) (pd : PD η) (s : FS η φ) (e : η) :
    Except Err (FS η φ) :=
  if e ∈ s.filtered ∨ cut < pd.ehull e then .ok s
  else match poly, dictGet s.comps (form e) with
    | false, some old =>
      if epa old < epa e then .ok s
      else if old ∈ s.filtered then .ok ⟨insertE (s.filtered.erase old) e, dictSet s.comps (form e) e⟩
      else .error .keyError
    | _, _ => .ok ⟨insertE s.filtered e, dictSet s.comps (form e) e⟩

/-- `filter_by_stability` for the phase diagrams of `pd_dict`, src/rxn_network/entries/entry_set.py:162-195. -/
def filterByStability {φ : Type} [DecidableEq φ] (form : η → φ) (epa : η → ℚ) (pds : List (PD η)) (cut : ℚ) (poly : Bool) :
    Except Err (List η) := do
  let s ← pds.foldlM (fun s pd => pd.all.foldlM (filterStep form epa cut poly pd) s) (⟨[], []⟩ : FS η φ)
  return s.filtered

/-! ### Energies, adjustments and temperatures -/

/-- Energy adjustments: named constants, the carbonate correction (per ion) and the temperature-dependent CO2 correction, whose
value is `n_atoms * (1/3) k_B temp ln(pCO2)`; the logarithm of the stored pressure is the field `lnp`, src/rxn_network/entries/corrections.py:13-91. -/
inductive Adj
  | const (name : String) (v : ℚ)
  | carbonate (n v : ℚ)
  | co2 (n temp lnp : ℚ)
  deriving DecidableEq, Repr

/-- The name given to the Gibbs correction, src/rxn_network/entries/gibbs.py:91,100. -/
def sisso : String := "Gibbs SISSO Correction"

/-- `adjustment.name`, src/rxn_network/entries/corrections.py:34,68. -/
def Adj.name : Adj → String
  | .const n _ => n
  | .carbonate _ _ => "Carbonate Correction"
  | .co2 _ _ _ => "Atmospheric CO2 Correction"

/-- `adjustment.value`, src/rxn_network/entries/corrections.py:31-36,65-81. -/
def Adj.value : Adj → ℚ
  | .const _ v => v
  | .carbonate n v => n * v
  | .co2 n temp lnp => n * (1 / 3 * (8617 / 100000000) * temp * lnp)

/-- What a `GibbsComputedEntry` stores, src/rxn_network/entries/gibbs.py:82-120; `κ` is the composition. -/
structure Gibbs (κ : Type) where
  comp : κ
  feAtom : ℚ
  vol : ℚ
  temp : ℚ
  adjs : List Adj
  ehull : Option ℚ -- `data["e_above_hull"]`, if present and not `None`
  deriving DecidableEq, Repr

/-- External facts about compositions and the SISSO correction: number of atoms, `gibbs_adjustment` (uses `log`; a missing table
entry raises), src/rxn_network/entries/gibbs.py:137-159. -/
structure Thermo (κ : Type) where
  atoms : κ → ℚ
  gadj : κ → ℚ → ℚ → Except Err ℚ

/-- `GibbsComputedEntry.__init__`, src/rxn_network/entries/gibbs.py:47-120. -/
def gibbsInit {κ : Type} (X : Thermo κ) (comp : κ) (feAtom vol temp : ℚ) (adjs : List Adj) (ehull : Option ℚ) : Except Err (Gibbs κ) :=
  if temp < 300 ∨ 2000 < temp then .error .valueError
  else do
    let g ← X.gadj comp vol temp
    return ⟨comp, feAtom, vol, temp, (adjs.filter fun a => a.name ≠ sisso) ++ [.const sisso g], ehull⟩

/-- `energy` = uncorrected energy plus the adjustments (pymatgen's `ComputedEntry`), src/rxn_network/entries/gibbs.py:105-117. -/
def Gibbs.energy {κ : Type} (X : Thermo κ) (e : Gibbs κ) : ℚ := X.atoms e.comp * e.feAtom + (e.adjs.map Adj.value).sum

/-- `get_new_temperature`, src/rxn_network/entries/gibbs.py:122-135,318-331. -/
def Gibbs.newTemperature {κ : Type} (X : Thermo κ) (e : Gibbs κ) (t : ℚ) : Except Err (Gibbs κ) :=
  gibbsInit X e.comp e.feAtom e.vol t e.adjs e.ehull

/-- `get_adjusted_entry` on a Gibbs entry, src/rxn_network/entries/entry_set.py:602-622: through `as_dict`/`from_dict`. -/
def Gibbs.adjusted {κ : Type} (X : Thermo κ) (e : Gibbs κ) (a : Adj) : Except Err (Gibbs κ) :=
  gibbsInit X e.comp e.feAtom e.vol e.temp (e.adjs ++ [a]) e.ehull

/-- `get_stabilized_entry`, src/rxn_network/entries/entry_set.py:222-262; `ehullOf` is `get_e_above_hull` on the current set. -/
def stabilized {κ : Type} (X : Thermo κ) (ehullOf : Gibbs κ → Except Err ℚ) (e : Gibbs κ) (tol : ℚ) (force : Bool) :
    Except Err (Gibbs κ) := do
  let h ← match e.ehull with
    | some h => .ok h
    | none => ehullOf e
  if h = 0 ∧ force = false then return e
  else e.adjusted X (.const "Stabilization Adjustment" (-1 * h * X.atoms e.comp - tol))

/-- A plain pymatgen `ComputedEntry`: composition, uncorrected energy, total correction;
used at src/rxn_network/enumerators/utils.py:160-165. -/
structure Computed (κ : Type) where
  comp : κ
  uncorrected : ℚ
  correction : ℚ
  deriving DecidableEq, Repr

/-- `energy` of a plain entry (pymatgen), used at src/rxn_network/enumerators/utils.py:163. -/
def Computed.energy {κ : Type} (e : Computed κ) : ℚ := e.uncorrected + e.correction

/-- One iteration of `stabilize_entries`, src/rxn_network/enumerators/utils.py:160-165 (`to_dict` taken to be `as_dict`; the
dictionary's other items, in particular the correction, are kept). -/
def stabilizeOne {κ : Type} (atoms : κ → ℚ) (ehull : Computed κ → ℚ) (tol : ℚ) (e : Computed κ) : Computed κ :=
  { e with uncorrected := e.uncorrected + (ehull e * atoms e.comp - tol) }

/-- `stabilize_entries`, src/rxn_network/enumerators/utils.py:141-167: `index` raises for an entry outside the diagram, and an
iterable that can be traversed only once (`once`) is used up by the first comprehension, so that the loop sees nothing. -/
def stabilizeEntries {κ : Type} [DecidableEq κ] (atoms : κ → ℚ) (ehull : Computed κ → ℚ) (tol : ℚ) (all es : List (Computed κ))
    (once : Bool) : Except Err (List (Computed κ)) :=
  if es.all fun e => e ∈ all then .ok ((if once then [] else es).map (stabilizeOne atoms ehull tol)) else .error .valueError

/-- `get_entries_with_new_temperature`,
src/rxn_network/entries/entry_set.py:264-283, on Gibbs entries: entries that raise `ValueError` are skipped, any other exception
escapes; the stored hull distance is reset. -/
def newTemperatures {κ : Type} (X : Thermo κ) (t : ℚ) : List (Gibbs κ) → Except Err (List (Gibbs κ))
  | [] => .ok []
  | e :: es => match e.newTemperature X t with
    | .ok e' => (newTemperatures X t es).map fun r => { e' with ehull := none } :: r
    | .error .valueError => newTemperatures X t es
    | .error x => .error x

/-- An `ExperimentalReferenceEntry`, src/rxn_network/entries/experimental.py:33-70. -/
structure Exper (κ : Type) where
  comp : κ
  temp : ℚ
  base : ℚ -- tabulated energy
  adjs : List Adj
  deriving DecidableEq, Repr

/-- `interp1d` on sorted nodes (scipy: piecewise linear, `ValueError` outside the nodes' range), used at
src/rxn_network/entries/experimental.py:128 and src/rxn_network/entries/gibbs.py:205. -/
def interp : List (ℚ × ℚ) → ℚ → Option ℚ
  | [], _ => none
  | [(t, g)], x => if x = t then some g else none
  | (t0, g0) :: (t1, g1) :: l, x =>
    if x < t0 then none
    else if x ≤ t1 then some (g0 + (x - t0) * ((g1 - g0) / (t1 - t0)))
    else interp ((t1, g1) :: l) x

/-- `temperature % 100 > 0`, src/rxn_network/entries/experimental.py:127, src/rxn_network/entries/gibbs.py:202. -/
def offGrid (t : ℚ) : Bool := 0 < t - 100 * ⌊t / 100⌋

/-- `_validate_temperature`, src/rxn_network/entries/experimental.py:99-110: `none` = not in the reference data; an empty table
makes `min` raise `ValueError` too. -/
def validate (data : Option (List (ℚ × ℚ))) (t : ℚ) : Except Err (List (ℚ × ℚ)) := match data with
  | none => .error .valueError
  | some d => match (d.map Prod.fst).min?, (d.map Prod.fst).max? with
    | some lo, some hi => if t < lo ∨ hi < t then .error .valueError else .ok d
    | _, _ => .error .valueError

/-- `_get_energy`, src/rxn_network/entries/experimental.py:112-131. -/
def tableEnergy (d : List (ℚ × ℚ)) (t : ℚ) : Except Err ℚ :=
  if offGrid t then match interp d t with
    | some g => .ok g
    | none => .error .valueError
  else match dictGet d t with
    | some g => .ok g
    | none => .error .keyError

/-- `ExperimentalReferenceEntry.__init__`, src/rxn_network/entries/experimental.py:33-70: `table` gives the reference data of a
composition's reduced formula, `deprecated` formulas have energy 0 and skip the validation. -/
def experInit {κ : Type} (table : κ → Option (List (ℚ × ℚ))) (deprecated : κ → Bool) (comp : κ) (t : ℚ) (adjs : List Adj) :
    Except Err (Exper κ) :=
  if deprecated comp then .ok ⟨comp, t, 0, adjs⟩
  else do
    let d ← validate (table comp) t
    let g ← tableEnergy d t
    return ⟨comp, t, g, adjs⟩

/-- `energy` of an experimental entry, src/rxn_network/entries/experimental.py:60-66. -/
def Exper.energy {κ : Type} (e : Exper κ) : ℚ := e.base + (e.adjs.map Adj.value).sum

/-- `adj["temp"] = new_temperature` followed by decoding, src/rxn_network/entries/experimental.py:82-83,181-187: only the CO2 correction
accepts the keyword `temp`; every other adjustment class raises `TypeError` for the unknown argument. -/
def Adj.setTemp (t : ℚ) : Adj → Except Err Adj
  | .co2 n _ lnp => .ok (.co2 n t lnp)
  | .const _ _ => .error .typeError
  | .carbonate _ _ => .error .typeError

/-- `get_new_temperature`, src/rxn_network/entries/experimental.py:72-86. -/
def Exper.newTemperature {κ : Type} (table : κ → Option (List (ℚ × ℚ))) (deprecated : κ → Bool) (e : Exper κ) (t : ℚ) :
    Except Err (Exper κ) := do
  let adjs ← e.adjs.mapM (Adj.setTemp t)
  experInit table deprecated e.comp t adjs

/-- `get_adjusted_entry` on an experimental entry, src/rxn_network/entries/entry_set.py:602-622. -/
def Exper.adjusted {κ : Type} (table : κ → Option (List (ℚ × ℚ))) (deprecated : κ → Bool) (e : Exper κ) (a : Adj) :
    Except Err (Exper κ) := experInit table deprecated e.comp e.temp (e.adjs ++ [a])

/-! ### Elemental chemical potentials -/

/-- A Python number given as a temperature, after the range check of src/rxn_network/entries/gibbs.py:86 (so integers are
nonnegative). -/
inductive Num
  | int (z : ℕ)
  | float (q : ℚ)
  deriving DecidableEq, Repr

/-- The mathematical value of a temperature argument, src/rxn_network/entries/gibbs.py:196. -/
def Num.val : Num → ℚ
  | .int z => z
  | .float q => q

/-- `str(temperature)` for the temperatures that reach it (multiples of 100 between 300 and 2000), src/rxn_network/entries/gibbs.py:211:
a float prints its integer part followed by `.0`. -/
def Num.str : Num → List Char
  | .int z => Nat.toDigits 10 z
  | .float q => Nat.toDigits 10 ⌊q⌋.toNat ++ ['.', '0']

/-- One element's column of the table `G_ELEMS` (src/rxn_network/data/mu_elements.json, whose keys are the decimal integer strings
"300", "400", …, "2000"; read at src/rxn_network/entries/gibbs.py:202-211): temperature and chemical potential of a node. An element
missing from the table (`KeyError`) has no column. -/
structure Node where
  t : ℕ
  mu : ℚ

/-- The chemical potential of one element in `_sum_g_i`, src/rxn_network/entries/gibbs.py:202-211. -/
def elemMu (tbl : List Node) (t : Num) : Except Err ℚ :=
  if offGrid t.val then match interp (tbl.map fun n => ((n.t : ℚ), n.mu)) t.val with
    | some g => .ok g
    | none => .error .valueError
  else match dictGet (tbl.map fun n => (Nat.toDigits 10 n.t, n.mu)) t.str with
    | some g => .ok g
    | none => .error .keyError

/-! ### Building an entry set from a phase diagram -/

/-- Where an entry of the new set comes from, src/rxn_network/entries/entry_set.py:406-457. -/
inductive Src (η φ : Type)
  | nist (f : φ)
  | freed (f : φ)
  | gibbs (e : η)
  deriving DecidableEq, Repr

/-- Loop body of `from_pd`, src/rxn_network/entries/entry_set.py:406-457. `skip` is the test for elemental entries that are not
references; `hasNist`/`hasFreed` tell whether `_check_for_experimental` returns an entry (at the chosen temperature). -/
def fromPdStep {φ : Type} [DecidableEq φ] (form : η → φ) (skip : η → Bool) (hasNist hasFreed : φ → Bool) (nist freed : Bool)
    (s : List (Src η φ) × List φ) (e : η) : List (Src η φ) × List φ :=
  if skip e ∨ form e ∈ s.2 then s
  else
    let fromNist := nist && hasNist (form e)
    let fromFreed := freed && hasFreed (form e)
    let new := (if fromNist then [Src.nist (form e)] else []) ++ (if fromFreed then [Src.freed (form e)] else [])
    -- `new_entry` holds the result of the last look-up only
    let last := if freed then fromFreed else fromNist
    if last then (s.1 ++ new, s.2 ++ [form e]) else (s.1 ++ (new ++ [Src.gibbs e]), s.2)

/-- `from_pd`, src/rxn_network/entries/entry_set.py:363-463 (the entries; then collected in a set). -/
def fromPd {φ : Type} [DecidableEq φ] (form : η → φ) (skip : η → Bool) (hasNist hasFreed : φ → Bool) (nist freed : Bool)
    (all : List η) : List (Src η φ) :=
  (all.foldl (fromPdStep form skip hasNist hasFreed nist freed) ([], [])).1

end Verif.Model.Entries
