import Verif.Model.Thermo
import Verif.Model.RxnSet

/-!
Model of the functions that build and process whole entry sets: `src/rxn_network/entries/utils.py` (`process_entries`,
`initialize_entry`, the database queries), the corresponding methods of `GibbsEntrySet`, the preparation step of the enumerators
and `run_enumerators`. Phase diagrams (pymatgen) enter through hull energies and hull distances.

Simplification: sets of entries are duplicate-free lists under structural equality. The Python sets use the entries' own `__eq__`
(energies up to a tolerance) and `__hash__`, which are modelled separately at the end of the file.
-/

namespace Verif.Model.EntryFlow
open Verif.Py Verif.Model Verif.Model.Entries

/-! ### Entries of all kinds -/

/-- The members of a `GibbsEntrySet`, src/rxn_network/entries/entry_set.py:62. An `InterpolatedEntry`
(src/rxn_network/entries/interpolated.py:20-66) has a composition, an energy and, inside its identifier, the temperature at which it
was made (src/rxn_network/entries/entry_set.py:342). -/
inductive Ent (κ : Type)
  | gibbs (e : Gibbs κ)
  | exper (e : Exper κ)
  | interp (comp : κ) (energy made : ℚ)
  deriving DecidableEq, Repr

/-- External facts: compositions (atoms, SISSO correction), reference tables, element lists, formulas, and the reduced composition
of a formula (`Composition(formula).reduced_composition`, src/rxn_network/entries/entry_set.py:326). -/
structure World (κ ε φ : Type) where
  thermo : Thermo κ
  table : κ → Option (List (ℚ × ℚ))
  deprecated : κ → Bool
  elems : κ → List ε
  form : κ → φ
  comp : φ → κ

variable {κ ε φ : Type} [DecidableEq κ] [DecidableEq ε] [DecidableEq φ]

/-- `entry.composition`, read at src/rxn_network/entries/entry_set.py:569. -/
def Ent.comp : Ent κ → κ
  | .gibbs e => e.comp
  | .exper e => e.comp
  | .interp c _ _ => c

/-- `entry.energy`, read through `energy_per_atom` at src/rxn_network/entries/entry_set.py:572. -/
def Ent.energy (W : World κ ε φ) : Ent κ → ℚ
  | .gibbs e => e.energy W.thermo
  | .exper e => e.energy
  | .interp _ g _ => g

/-- `entry.energy_per_atom`, read at src/rxn_network/entries/entry_set.py:572. -/
def Ent.epa (W : World κ ε φ) (e : Ent κ) : ℚ := e.energy W / W.thermo.atoms e.comp

/-- Reduced formula of an entry, src/rxn_network/entries/entry_set.py:569. -/
def Ent.form (W : World κ ε φ) (e : Ent κ) : φ := W.form e.comp

/-- The temperature an entry reports; interpolated entries have none, src/rxn_network/entries/entry_set.py:586. -/
def Ent.temp? : Ent κ → Option ℚ
  | .gibbs e => some e.temp
  | .exper e => some e.temp
  | .interp _ _ _ => none

/-- `temperature` of an entry set, src/rxn_network/entries/entry_set.py:576-589: the first one met, else `0.0`. -/
def setTemperature (es : List (Ent κ)) : ℚ := (es.findSome? Ent.temp?).getD 0

/-- `get_new_temperature`, src/rxn_network/entries/gibbs.py:122-135, experimental.py:72-86 and interpolated.py:79-95 (a copy of the
entry itself). -/
def Ent.newTemperature (W : World κ ε φ) (t : ℚ) : Ent κ → Except Err (Ent κ)
  | .gibbs e => (e.newTemperature W.thermo t).map Ent.gibbs
  | .exper e => (e.newTemperature W.table W.deprecated t).map Ent.exper
  | .interp c g m => .ok (.interp c g m)

/-- `new_entry.data["e_above_hull"] = None`, src/rxn_network/entries/entry_set.py:280. -/
def Ent.resetHull : Ent κ → Ent κ
  | .gibbs e => .gibbs { e with ehull := none }
  | e => e

/-- The loop of `get_entries_with_new_temperature`, src/rxn_network/entries/entry_set.py:271-283: entries raising `ValueError` are
skipped. -/
def newTemps (W : World κ ε φ) (t : ℚ) : List (Ent κ) → Except Err (List (Ent κ))
  | [] => .ok []
  | e :: es => match e.newTemperature W t with
    | .ok e' => (newTemps W t es).map fun r => e'.resetHull :: r
    | .error .valueError => newTemps W t es
    | .error x => .error x

/-- The set made of a list of entries, src/rxn_network/entries/entry_set.py:78. -/
def entrySet (es : List (Ent κ)) : List (Ent κ) := es.foldl insertE []

/-! ### Interpolated entries and `initialize_entry` -/

/-- `get_interpolated_entry`, src/rxn_network/entries/entry_set.py:315-343. `hullE` constructs a phase diagram of the entries (which
may raise) and returns its hull energy at a composition; `tol` is 1e-3 by default. -/
def interpolated (W : World κ ε φ) (hullE : List (Ent κ) → κ → Except Err ℚ) (es : List (Ent κ)) (f : φ) (tol : ℚ) :
    Except Err (Ent κ) := do
  let sub ← subsetInChemsys (fun e : Ent κ => W.elems e.comp) es (W.elems (W.comp f))
  let h ← hullE sub (W.comp f)
  return .interp (W.comp f) (h - tol * W.thermo.atoms (W.comp f)) (setTemperature es)

/-- `initialize_entry(formula, entry_set)`, src/rxn_network/entries/utils.py:99-120, with `stabilize=False` (the value every caller
in the package passes, src/rxn_network/enumerators/basic.py:112). The formula is normalised first,
src/rxn_network/entries/entry_set.py:220. -/
def initializeEntry (W : World κ ε φ) (hullE : List (Ent κ) → κ → Except Err ℚ) (es : List (Ent κ)) (f : φ) : Except Err (Ent κ) :=
  match getMinEntry (Ent.form W) (Ent.epa W) es (W.form (W.comp f)) with
  | .error .keyError => interpolated W hullE es f (1 / 1000)
  | r => r

/-! ### `process_entries` -/

/-- Settings of `process_entries`, src/rxn_network/entries/utils.py:29-40 (the data-source options only affect how the first entry
set is built, see `base` below). -/
structure Settings (φ : Type) where
  temperature : ℚ
  filterAt : Option ℚ
  cut : ℚ
  polymorphs : Bool
  formulas : List φ
  calcHulls : Bool

/-- `temp`, src/rxn_network/entries/utils.py:74-76; a filter temperature of 0 is false. -/
def Settings.first (s : Settings φ) : ℚ := match s.filterAt with
  | some t => if t = 0 then s.temperature else t
  | none => s.temperature

/-- `filter_at_temperature and (filter_at_temperature != temperature)`, src/rxn_network/entries/utils.py:90. -/
def Settings.changes (s : Settings φ) : Bool := match s.filterAt with
  | some t => decide (t ≠ 0 ∧ t ≠ s.temperature)
  | none => false

/-- Storing the hull distance in an entry's data, src/rxn_network/entries/entry_set.py:86-88; only kept by the model for Gibbs
entries, the only ones whose stored value is read again. -/
def Ent.setHull (h : ℚ) : Ent κ → Ent κ
  | .gibbs e => .gibbs { e with ehull := some h }
  | e => e

/-- `GibbsEntrySet(deepcopy(entry_set), calculate_e_above_hulls=True)`, src/rxn_network/entries/utils.py:93-94. -/
def withHulls (ehull : List (Ent κ) → Ent κ → Except Err ℚ) (es : List (Ent κ)) : Except Err (List (Ent κ)) :=
  es.mapM fun e => (ehull es e).map fun h => e.setHull h

/-- The change of temperature, src/rxn_network/entries/utils.py:90-91. -/
def convert (W : World κ ε φ) (s : Settings φ) (es : List (Ent κ)) : Except Err (List (Ent κ)) :=
  if s.changes then (newTemps W s.temperature es).map entrySet else .ok es

/-- `process_entries`, src/rxn_network/entries/utils.py:29-96. `base t` is `GibbsEntrySet.from_computed_entries(entries, t, …)`;
`pds` is `pd_dict` of an entry set; `hullE`/`ehull` as above. -/
def processEntries (W : World κ ε φ) (base : ℚ → Except Err (List (Ent κ))) (pds : List (Ent κ) → Except Err (List (PD (Ent κ))))
    (hullE : List (Ent κ) → κ → Except Err ℚ) (ehull : List (Ent κ) → Ent κ → Except Err ℚ) (s : Settings φ) :
    Except Err (List (Ent κ)) := do
  let es0 ← base s.first
  let included ← s.formulas.mapM (initializeEntry W hullE es0)
  let es1 ← filterByStability (Ent.form W) (Ent.epa W) (← pds es0) s.cut s.polymorphs
  let es2 := included.foldl insertE es1
  let es3 ← convert W s es2
  if s.calcHulls then withHulls ehull es3 else .ok es3

/-! ### Random shifts -/

/-- `get_adjusted_entry` for every kind of entry, src/rxn_network/entries/entry_set.py:602-622; an interpolated entry keeps its
energy and gets one more adjustment. -/
def Ent.adjusted (W : World κ ε φ) (name : String) (v : ℚ) : Ent κ → Except Err (Ent κ)
  | .gibbs e => (e.adjusted W.thermo (.const name v)).map Ent.gibbs
  | .exper e => (e.adjusted W.table W.deprecated (.const name v)).map Ent.exper
  | .interp c g m => .ok (.interp c (g + v) m)

/-- Loop body of `get_entries_with_jitter`, src/rxn_network/entries/entry_set.py:299-311; `unc` is the correction uncertainty
(`none` is nan), the second component of the pair the random number. -/
def jitterOne (W : World κ ε φ) (unc : Ent κ → Option ℚ) (p : Ent κ × ℚ) : Except Err (Option (Ent κ)) :=
  if (W.elems p.1.comp).length = 1 then .ok none
  else (p.1.adjusted W "Random jitter" (p.2 * (unc p.1).getD 0)).map some

/-- `get_entries_with_jitter`, src/rxn_network/entries/entry_set.py:285-313; `es` is `entries_list`, `noise` the sample. -/
def jitter (W : World κ ε φ) (unc : Ent κ → Option ℚ) (noise : List ℚ) (es : List (Ent κ)) : Except Err (List (Ent κ)) :=
  ((es.zip noise).mapM (jitterOne W unc)).map fun l => entrySet (l.filterMap id)

/-! ### Entry sets share their entries -/

/-- The mutable fields of an entry object that the constructor touches, src/rxn_network/entries/entry_set.py:82-88. -/
structure Obj where
  params : List (String × String)
  data : List (String × ℚ)
  deriving DecidableEq, Repr

/-- `e.parameters = {}; e.data = {}` for the entries of a set, src/rxn_network/entries/entry_set.py:82-85; the heap maps object
references to objects. -/
def clearObjs (heap : List (ℕ × Obj)) (refs : List ℕ) : List (ℕ × Obj) :=
  heap.map fun p => if p.1 ∈ refs then (p.1, ⟨[], []⟩) else p

/-- `e.data["e_above_hull"] = …`, src/rxn_network/entries/entry_set.py:86-88. -/
def storeHulls (ehull : ℕ → ℚ) (heap : List (ℕ × Obj)) (refs : List ℕ) : List (ℕ × Obj) :=
  heap.map fun p => if p.1 ∈ refs then (p.1, { p.2 with data := dictSet p.2.data "e_above_hull" (ehull p.1) }) else p

/-- `GibbsEntrySet(entries, calculate_e_above_hulls, minimize_obj_size)`, src/rxn_network/entries/entry_set.py:60-88: the effect on
the heap of entry objects. The set only holds references. -/
def newSet (ehull : ℕ → ℚ) (hulls mini : Bool) (heap : List (ℕ × Obj)) (refs : List ℕ) : List (ℕ × Obj) :=
  let h := if mini then clearObjs heap refs else heap
  if hulls then storeHulls ehull h refs else h

/-! ### Large chemical systems -/

section Large
variable {η : Type} [DecidableEq η]

/-- `pd.el_refs` for one element (pymatgen): the lowest-energy entry among those made of this element only; a phase diagram is used
at src/rxn_network/entries/entry_set.py:410. -/
def elRef (elems : η → List Enum.Sym) (epa : η → ℚ) (es : List η) (x : Enum.Sym) : Except Err η :=
  match lowest epa (es.filter fun e => elems e = [x]) with
  | .ok e => .ok e
  | .error _ => .error .valueError

/-- Construction of a phase diagram (pymatgen) as far as `from_pd` uses it: every element must have a reference, otherwise
`ValueError`; called at src/rxn_network/entries/entry_set.py:526 and through `expand_pd` at :539. -/
def buildPd (elems : η → List Enum.Sym) (epa : η → ℚ) (es : List η) : Except Err (List (Enum.Sym × η) × List η) :=
  ((chemsys elems es).mapM fun x => (elRef elems epa es x).map fun e => (x, e)).map fun r => (r, es)

/-- `pd.get_form_energy_per_atom(entry)` (pymatgen), src/rxn_network/entries/entry_set.py:443: energy per atom minus the atomic
fractions times the references' energies per atom. -/
def formE (elems : η → List Enum.Sym) (epa : η → ℚ) (frac : η → Enum.Sym → ℚ) (refs : List (Enum.Sym × η)) (e : η) : ℚ :=
  epa e - ((elems e).map fun x => frac e x * ((dictGet refs x).map epa).getD 0).sum

/-- The test for elemental entries that are not references, src/rxn_network/entries/entry_set.py:410. -/
def skipEntry (elems : η → List Enum.Sym) (refs : List (Enum.Sym × η)) (e : η) : Bool :=
  decide ((elems e).length = 1) && decide (e ∉ refs.map Prod.snd)

/-- `from_pd` with the formation energies of the computed entries, src/rxn_network/entries/entry_set.py:363-463. -/
def fromPdE (elems : η → List Enum.Sym) (epa : η → ℚ) (frac : η → Enum.Sym → ℚ) (form : η → φ) (hasNist hasFreed : φ → Bool)
    (nist freed : Bool) (pd : List (Enum.Sym × η) × List η) : List (Src (η × ℚ) φ) :=
  fromPd (fun e : η × ℚ => form e.1) (fun e => skipEntry elems pd.1 e.1) hasNist hasFreed nist freed
    (pd.2.map fun e => (e, formE elems epa frac pd.1 e))

/-- The parts of an entry set that matter here: its entries and the two flags, src/rxn_network/entries/entry_set.py:78-80. -/
structure Result (α : Type) where
  entries : List α
  calcHulls : Bool
  minimize : Bool

/-- `from_computed_entries`, src/rxn_network/entries/entry_set.py:476-555; the set of all entries is a list in iteration order. The
second branch does not pass the flags on. -/
def fromComputed (elems : η → List Enum.Sym) (epa : η → ℚ) (frac : η → Enum.Sym → ℚ) (form : η → φ) (hasNist hasFreed : φ → Bool)
    (nist freed hulls mini : Bool) (es : List η) : Except Err (Result (Src (η × ℚ) φ)) :=
  if (chemsys elems es).length ≤ 9 then
    (buildPd elems epa es).map fun pd => ⟨fromPdE elems epa frac form hasNist hasFreed nist freed pd, hulls, mini⟩
  else do
    let d ← Thermo.expandPd elems (buildPd elems epa) es
    return ⟨d.flatMap fun p => fromPdE elems epa frac form hasNist hasFreed nist freed p.2, false, false⟩

end Large

/-! ### Preparation step of the enumerators -/

/-- One requested entry in `_get_initialized_entries`, src/rxn_network/enumerators/basic.py:346-354. -/
def addRequested (W : World κ ε φ) (work : List (Ent κ)) (e : Ent κ) : List (Ent κ) :=
  if e ∈ work then work
  else match getMinEntry (Ent.form W) (Ent.epa W) work (e.form W) with
    | .ok old => insertE (work.erase old) e
    | .error _ => insertE work e

/-- `_get_initialized_entries`, src/rxn_network/enumerators/basic.py:329-366 (`stabilize` is `False` for every enumerator): the
working set, precursors, targets and open entries. `order` is the iteration order of the set of requested entries. `build_indices`
only numbers the entries. -/
def initializedEntries (W : World κ ε φ) (hullE : List (Ent κ) → κ → Except Err ℚ) (order : List (Ent κ) → List (Ent κ))
    (es : List (Ent κ)) (precursors targets openPhases : List φ) : Except Err (List (Ent κ) × List (Ent κ) × List (Ent κ) × List (Ent κ)) := do
  let ps ← precursors.mapM (initializeEntry W hullE es)
  let ts ← targets.mapM (initializeEntry W hullE es)
  let work := (order (Enum.union (entrySet ps) (entrySet ts))).foldl (addRequested W) es
  return (work, entrySet ps, entrySet ts, work.filter fun e => e.form W ∈ openPhases)

/-! ### Several enumerators -/

/-- `run_enumerators`, src/rxn_network/enumerators/utils.py:170-190: `sets` are the results of the enumerators in order,
`setOrder` the iteration order of the sizes when merging, `filt` is `filter_duplicates`. `none` is `None`. -/
def runEnumerators {η δ ε' : Type} [DecidableEq η] (setOrder : List ℕ → List ℕ)
    (filt : RxnSet.RSet η δ ε' → Except Err (RxnSet.RSet η δ ε')) (sets : List (RxnSet.RSet η δ ε')) :
    Except Err (Option (RxnSet.RSet η δ ε')) := match sets with
  | [] => .ok none
  | s :: rest => do
    let all ← rest.foldlM (RxnSet.addRxnSet setOrder) s
    return some (← filt all)

/-! ### Database queries -/

/-- A document of the entry database, queried at src/rxn_network/entries/utils.py:148-160: element list (field `elements`) and the
stored calculations. The field `chemsys` holds the sorted symbols joined by dashes. -/
structure Doc (α : Type) where
  elements : List Enum.Sym
  ggaU : Option α
  gga : Option α
  deriving DecidableEq

/-- Field `chemsys` of a document, queried at src/rxn_network/entries/utils.py:206. -/
def Doc.chemsys {α : Type} (d : Doc α) : List Char := ['-'].intercalate (d.elements.insertionSort (· ≤ ·))

/-- Choice of the calculation, src/rxn_network/entries/utils.py:149-160; documents without one are skipped. -/
def Doc.entry {α : Type} (d : Doc α) : Option α := match d.ggaU with
  | some e => some e
  | none => d.gga

/-- `get_entries_from_entry_db` for a criterion, src/rxn_network/entries/utils.py:123-162. -/
def dbEntries {α : Type} (db : List (Doc α)) (crit : Doc α → Bool) : List α := (db.filter crit).filterMap Doc.entry

/-- `combinations(elements, i + 1)` for all `i`, joined, src/rxn_network/entries/utils.py:194-197. -/
def subsystems (els : List Enum.Sym) : List (List Char) :=
  (List.range els.length).flatMap fun i =>
    (combinations els (i + 1)).map fun c => ['-'].intercalate (c.insertionSort (· ≤ ·))

/-- `divide_chunks`, src/rxn_network/entries/utils.py:186-188: slices of length `n`. -/
def divideChunks {α : Type} (n : ℕ) (l : List α) : List (List α) :=
  (List.range ((l.length + n - 1) / n)).map fun i => (l.drop (i * n)).take n

/-- `get_all_entries_in_chemsys_from_entry_db`, src/rxn_network/entries/utils.py:165-215, for a list of symbols. -/
def dbChemsys {α : Type} (db : List (Doc α)) (els : List Enum.Sym) : List α :=
  if els.length ≤ 13 then
    (divideChunks 1000 (subsystems els)).flatMap fun group => dbEntries db fun d => decide (d.chemsys ∈ group)
  else dbEntries db fun d => d.elements.all fun x => decide (x ∈ els)

/-- The same for a chemical system given as a string, src/rxn_network/entries/utils.py:190-191. -/
def dbChemsysStr {α : Type} (db : List (Doc α)) (s : List Char) : List α := dbChemsys db (s.splitOn '-')

/-! ### Equality and hashing of entries -/

/-- The fields compared and hashed by `GibbsComputedEntry` and `InterpolatedEntry`
(src/rxn_network/entries/gibbs.py:343-366, interpolated.py:114-133); an interpolated entry has no temperature, so `temp` is the same
for all of them. -/
structure Fields (κ : Type) where
  comp : κ
  energy : ℚ
  temp : ℚ
  id : String
  deriving DecidableEq

/-- `__eq__`, src/rxn_network/entries/gibbs.py:343-356, interpolated.py:114-124 (entries of the same class). -/
def fieldsEq (a b : Fields κ) : Bool :=
  if ¬ isclose a.temp b.temp then false
  else if ¬ isclose a.energy b.energy then false
  else if a.id ≠ "" ∧ b.id ≠ "" then decide (a.id = b.id)
  else decide (a.comp = b.comp)

/-- The hashed tuple, src/rxn_network/entries/gibbs.py:358-366, interpolated.py:126-133. -/
def fieldsHash (a : Fields κ) : κ × ℚ × String × ℚ := (a.comp, a.energy, a.id, a.temp)

/-- The fields compared and hashed by `ExperimentalReferenceEntry` (src/rxn_network/entries/experimental.py:202-218). -/
structure XFields (κ : Type) where
  comp : κ
  temp : ℚ
  corr : ℚ
  deriving DecidableEq

/-- `__eq__`, src/rxn_network/entries/experimental.py:202-212; `closeRel` is `math.isclose`. -/
def experEq (form : κ → φ) (closeRel : ℚ → ℚ → Bool) (a b : XFields κ) : Bool :=
  decide (form a.comp = form b.comp) && decide (a.temp = b.temp) && closeRel a.corr b.corr

/-- The hashed string's parts, src/rxn_network/entries/experimental.py:214-218 (class name omitted). -/
def experHash (a : XFields κ) : κ × ℚ := (a.comp, a.temp)

end Verif.Model.EntryFlow
