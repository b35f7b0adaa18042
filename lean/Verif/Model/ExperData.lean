import Verif.Model.Chem
import Verif.Model.Entries

/-!
Model of the loading of tables of experimental data (src/rxn_network/data/__init__.py:20-32) and of the naming, saving and loading of the entries
built on them (src/rxn_network/entries/experimental.py:49-70, 133-187). Energies are in Model/Entries (`experInit`).
-/

namespace Verif.Model.ExperData
open Verif.Py Verif.Model.Entries

variable {φ τ κ D A C : Type} [DecidableEq φ]

/-- `make_float_keys`, src/rxn_network/data/__init__.py:30-32; `num` is `float` applied to a key. -/
def floatKeys (num : τ → Except Err ℚ) (d : List (τ × ℚ)) : Except Err (List (ℚ × ℚ)) :=
  (d.mapM fun p => (num p.1).map fun t => (t, p.2)).map dictOf

/-- `load_experimental_data`, src/rxn_network/data/__init__.py:20-27; `file` is the decoded file. -/
def loadData (num : τ → Except Err ℚ) (file : List (φ × List (τ × ℚ))) : Except Err (List (φ × List (ℚ × ℚ))) :=
  (file.mapM fun p => (floatKeys num p.2).map fun d => (p.1, d)).map dictOf

/-- An entry class: its reference data, its deprecated formulas (src/rxn_network/entries/experimental.py:30-31), reduced formulas of compositions, and
the texts of its name and of formatted temperatures (:53). Simplification: the text of a temperature depends on its value only (Python
prints the integer 300 and the float 300.0 differently). -/
structure Cls (κ φ : Type) where
  refs : List (φ × List (ℚ × ℚ))
  deprecated : List φ
  form : κ → φ
  cls : String
  show' : φ → String
  showT : ℚ → String

/-- Entry with its `data` dictionary, src/rxn_network/entries/experimental.py:60-66. -/
structure XEntry (κ D : Type) where
  entry : Exper κ
  data : D
  deriving DecidableEq

/-- `__init__`, src/rxn_network/entries/experimental.py:33-70. -/
def xinit (K : Cls κ φ) (comp : κ) (t : ℚ) (adjs : List Adj) (data : D) : Except Err (XEntry κ D) :=
  (experInit (fun c => dictGet K.refs (K.form c)) (fun c => decide (K.form c ∈ K.deprecated)) comp t adjs).map fun e => ⟨e, data⟩

/-- `name`, src/rxn_network/entries/experimental.py:68-70. -/
def XEntry.name (K : Cls κ φ) (e : XEntry κ D) : String :=
  if K.form e.entry.comp ∈ K.deprecated then K.show' (K.form e.entry.comp) ++ " (deprecated)" else K.show' (K.form e.entry.comp)

/-- `entry_id` and `unique_id`, src/rxn_network/entries/experimental.py:53, 148-154. -/
def XEntry.id (K : Cls κ φ) (e : XEntry κ D) : String := K.cls ++ "-" ++ K.show' (K.form e.entry.comp) ++ "_" ++ K.showT e.entry.temp

/-- The dictionary written by `as_dict`, src/rxn_network/entries/experimental.py:156-169: energy, id, parameters and correction are left out. -/
structure Saved (C A D : Type) where
  comp : C
  temp : ℚ
  adjs : List A
  data : D

/-- JSON forms of compositions and adjustments (pymatgen, monty), used at src/rxn_network/entries/experimental.py:160, 182-185. -/
structure Json (κ C A : Type) where
  compOut : κ → C
  compIn : C → Except Err κ
  adjOut : Adj → A
  adjIn : A → Except Err Adj

/-- `as_dict`, src/rxn_network/entries/experimental.py:156-169; `data` is assumed to be left alone by JSON. -/
def asDict (J : Json κ C A) (e : XEntry κ D) : Saved C A D := ⟨J.compOut e.entry.comp, e.entry.temp, e.entry.adjs.map J.adjOut, e.data⟩

/-- `from_dict`, src/rxn_network/entries/experimental.py:172-187. -/
def fromDict (K : Cls κ φ) (J : Json κ C A) (d : Saved C A D) : Except Err (XEntry κ D) :=
  match J.compIn d.comp with
  | .error e => .error e
  | .ok c => match d.adjs.mapM J.adjIn with
    | .error e => .error e
    | .ok adjs => xinit K c d.temp adjs d.data

/-- `energy_per_atom` (pymatgen: `energy / composition.num_atoms`) of the entry, src/rxn_network/entries/experimental.py:24,60-67. -/
def perAtom {ε : Type} (X : Chem κ ε) (e : XEntry κ D) : ℚ := e.entry.energy / X.natoms e.entry.comp

end Verif.Model.ExperData
