import Verif.Model.PyData

/-!
Model of saving and loading Gibbs entries: `GibbsComputedEntry.__init__`, `as_dict`, `_sanitize_data` and `from_dict`
(src/rxn_network/entries/gibbs.py:46-117, 292-331), on top of pymatgen's `ComputedEntry.as_dict`, which sends adjustments, parameters and data through
`json.loads(json.dumps(...))`.

Data are dictionaries of values that are dictionaries themselves or anything else (`W`); what JSON does to the latter is a parameter. Keys are strings,
elements, other things JSON can write as keys (numbers, booleans, `None`; given by the text JSON writes), or things it cannot.
-/

namespace Verif.Model.GibbsDict
open Verif.Py

/-- Keys of data dictionaries, src/rxn_network/entries/gibbs.py:313-314. -/
inductive Key (ε : Type)
  | str (s : String)
  | elem (e : ε)
  | lit (text : String)
  | other
  deriving DecidableEq

/-- Values of data dictionaries, src/rxn_network/entries/gibbs.py:312-313. -/
inductive Val (ε W : Type)
  | leaf (w : W)
  | dict (l : List (Key ε × W))
  deriving DecidableEq

/-- Data dictionaries, src/rxn_network/entries/gibbs.py:312-314. -/
abbrev Data (ε W : Type) := List (Key ε × Val ε W)

/-- Entries, src/rxn_network/entries/gibbs.py:78-117: composition, volume and formation energy per atom, temperature, adjustments, parameters, data, id. -/
structure Entry (ε W C A ι : Type) where
  comp : C
  vol : ℚ
  formation : ℚ
  temp : ℚ
  adjs : List A
  params : W
  data : Data ε W
  id : ι
  deriving DecidableEq

/-- The dictionary written, src/rxn_network/entries/gibbs.py:292-306. `J` are adjustments and `D` compositions as dictionaries. -/
structure Saved (ε W D J ι : Type) where
  comp : D
  vol : ℚ
  formation : ℚ
  temp : ℚ
  adjs : List J
  params : W
  data : Data ε W
  id : ι
  deriving DecidableEq

/-- External calls: symbols of elements, JSON of a value that is not a dictionary of the first two levels, of an adjustment and a composition, whether an
adjustment is the Gibbs correction, the Gibbs correction itself (src/rxn_network/entries/gibbs.py:92-99), and the default id (:103-104). -/
structure Ext (ε W C A ι D J : Type) where
  symbol : ε → String
  json : W → Except Err W
  adjOut : A → Except Err J
  adjIn : J → Except Err A
  compOut : C → D
  compIn : D → Except Err C
  isGibbs : A → Bool
  gibbs : C → ℚ → ℚ → Except Err A
  defaultId : C → ℚ → ι

variable {ε W C A ι D J : Type} [DecidableEq ε]

/-- `__init__`, src/rxn_network/entries/gibbs.py:46-117; an id is `none` if not given. -/
def init (X : Ext ε W C A ι D J) (comp : C) (formation vol temp : ℚ) (adjs : List A) (params : W) (data : Data ε W) (id : Option ι) :
    Except Err (Entry ε W C A ι) :=
  if temp < 300 ∨ 2000 < temp then .error .valueError
  else (X.gibbs comp vol temp).map fun g =>
    ⟨comp, vol, formation, temp, adjs.filter (fun a => !X.isGibbs a) ++ [g], params, data, id.getD (X.defaultId comp vol)⟩

/-- Element keys become strings, src/rxn_network/entries/gibbs.py:314. -/
def sanitizeKey (symbol : ε → String) : Key ε → Key ε
  | .elem e => .str (symbol e)
  | k => k

/-- One value, src/rxn_network/entries/gibbs.py:313-314: a dict comprehension, so later keys win. -/
def sanitizeVal (symbol : ε → String) : Val ε W → Val ε W
  | .dict l => .dict (dictOf (l.map fun p => (sanitizeKey symbol p.1, p.2)))
  | v => v

/-- `_sanitize_data`, src/rxn_network/entries/gibbs.py:308-316. -/
def sanitize (symbol : ε → String) (d : Data ε W) : Data ε W := dictOf (d.map fun p => (p.1, sanitizeVal symbol p.2))

/-- The key that JSON writes; `TypeError` for elements and other objects. Called through src/rxn_network/entries/gibbs.py:301. -/
def keyText : Key ε → Except Err (Key ε)
  | .str s => .ok (.str s)
  | .lit s => .ok (.str s)
  | _ => .error .typeError

/-- JSON of one pair. Called through src/rxn_network/entries/gibbs.py:301. -/
def jsonPair {V : Type} (f : V → Except Err V) (p : Key ε × V) : Except Err (Key ε × V) := do
  let k ← keyText p.1
  let v ← f p.2
  return (k, v)

/-- JSON of a dictionary: keys become text, the last of equal keys wins when it is read. Called through src/rxn_network/entries/gibbs.py:301. -/
def jsonDict {V : Type} (f : V → Except Err V) (l : List (Key ε × V)) : Except Err (List (Key ε × V)) :=
  (l.mapM (jsonPair f)).map dictOf

/-- JSON of a value. Called through src/rxn_network/entries/gibbs.py:301. -/
def jsonVal (X : Ext ε W C A ι D J) : Val ε W → Except Err (Val ε W)
  | .leaf w => (X.json w).map .leaf
  | .dict l => (jsonDict X.json l).map .dict

/-- pymatgen's `ComputedEntry.as_dict` and the fields added, src/rxn_network/entries/gibbs.py:301-305. -/
def write (X : Ext ε W C A ι D J) (e : Entry ε W C A ι) : Except Err (Saved ε W D J ι) := do
  let adjs ← e.adjs.mapM X.adjOut
  let params ← X.json e.params
  let data ← jsonDict (jsonVal X) e.data
  return ⟨X.compOut e.comp, e.vol, e.formation, e.temp, adjs, params, data, e.id⟩

/-- `as_dict`, src/rxn_network/entries/gibbs.py:292-306: the entry afterwards and the result. The data are put back only if nothing is raised. -/
def asDict (X : Ext ε W C A ι D J) (e : Entry ε W C A ι) : Entry ε W C A ι × Except Err (Saved ε W D J ι) :=
  let swapped := { e with data := sanitize X.symbol e.data }
  match write X swapped with
  | .error x => (swapped, .error x)
  | .ok d => (e, .ok d)

/-- `from_dict`, src/rxn_network/entries/gibbs.py:318-331. -/
def fromDict (X : Ext ε W C A ι D J) (d : Saved ε W D J ι) : Except Err (Entry ε W C A ι) := do
  let adjs ← d.adjs.mapM X.adjIn
  let comp ← X.compIn d.comp
  init X comp d.formation d.vol d.temp adjs d.params d.data (some d.id)

end Verif.Model.GibbsDict
