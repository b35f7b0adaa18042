import Verif.Model.RxnSet
import Verif.Model.Parser

/-!
Model of saving and loading reaction sets and reactions: `ReactionSet.__init__` with its handling of text keys and lists
(src/rxn_network/reactions/reaction_set.py:44-94), `OpenComputedReaction.as_dict`/`from_dict`
(src/rxn_network/reactions/open.py:223-233), and the generic `MSONable.as_dict`/`from_dict` of monty: the constructor's arguments are read from the
attributes of the same names, and loading calls the constructor with the decoded values.

A saved set can be handed on in memory (src/rxn_network/jobs/core.py:375, 734), written as JSON with monty's encoder (arrays come back as arrays, dictionary
keys as text), or written as plain JSON as `jsanitize` does for databases (arrays come back as lists, keys as text). Entries and per-reaction data have
their own encoding, which is a parameter.
-/

namespace Verif.Model.SetDict
open Verif.Py Verif.Model.RxnSet Verif.Model.Parser

/-- A key of the dictionaries by size, src/rxn_network/reactions/reaction_set.py:74-87: an integer, or text after JSON. -/
inductive Key
  | int (n : ℕ)
  | text (s : List Char)
  deriving DecidableEq

/-- A value of these dictionaries, src/rxn_network/reactions/reaction_set.py:75-87: an array (`nd`), or a list. -/
structure Arr (α : Type) where
  nd : Bool
  rows : List α
  deriving DecidableEq

/-- Dictionaries by size, src/rxn_network/reactions/reaction_set.py:75-87. -/
abbrev SizeDict (α : Type) := List (Key × Arr α)

/-- `open_elem`, src/rxn_network/reactions/reaction_set.py:49: a string or an element. -/
inductive OpenElem (ε : Type)
  | str (s : String)
  | elem (e : ε)
  deriving DecidableEq

/-- The attributes of a set, src/rxn_network/reactions/reaction_set.py:63-94. -/
structure State (η δ ε : Type) where
  entries : List η
  indices : SizeDict (List ℕ)
  coeffs : SizeDict (List ℚ)
  data : SizeDict δ
  openElem : Option (OpenElem ε)
  chempot : ℚ
  mu : Option (ε × ℚ)
  deriving DecidableEq

variable {η δ ε S : Type}

/-- `int(size)`, src/rxn_network/reactions/reaction_set.py:76. Signs, blanks and underscores, which JSON keys of sizes never contain, are not modelled. -/
def intOf : Key → Except Err ℕ
  | .int n => .ok n
  | .text s => if s ≠ [] ∧ s.all isD then .ok (natVal s) else .error .valueError

/-- `isinstance(k, int)`, src/rxn_network/reactions/reaction_set.py:73. -/
def isInt : Key → Bool
  | .int _ => true
  | .text _ => false

/-- One pair of the conversion, src/rxn_network/reactions/reaction_set.py:76. -/
def convPair {α : Type} (p : Key × Arr α) : Except Err (Key × Arr α) := (intOf p.1).map fun n => (.int n, ⟨true, p.2.rows⟩)

/-- The conversion of one dictionary, src/rxn_network/reactions/reaction_set.py:73-76 (and :78-81, :83-86): only if some key is no integer or some value no
array; a dict comprehension, so later keys win. -/
def convert {α : Type} (d : SizeDict α) : Except Err (SizeDict α) :=
  if (!(d.all fun p => isInt p.1)) || (!(d.all fun p => p.2.nd)) then (d.mapM convPair).map dictOf else .ok d

/-- `{int(i): np.array([]) for i in self.indices}`, src/rxn_network/reactions/reaction_set.py:69. -/
def noData (indices : SizeDict (List ℕ)) : Except Err (SizeDict δ) :=
  (indices.mapM fun p => (intOf p.1).map fun n => (Key.int n, (⟨true, []⟩ : Arr δ))).map dictOf

/-- `Element(open_elem)`, src/rxn_network/reactions/reaction_set.py:94; `el` is `Element` on strings. -/
def elemOf (el : String → Except Err ε) : OpenElem ε → Except Err ε
  | .str s => el s
  | .elem e => .ok e

/-- The truth value of `open_elem`, src/rxn_network/reactions/reaction_set.py:93. -/
def truthy : Option (OpenElem ε) → Option (OpenElem ε)
  | some (.str s) => if s = "" then none else some (.str s)
  | o => o

/-- `mu_dict`, src/rxn_network/reactions/reaction_set.py:91-94. -/
def muOf (el : String → Except Err ε) (o : Option (OpenElem ε)) (m : ℚ) : Except Err (Option (ε × ℚ)) := match truthy o with
  | some x => (elemOf el x).map fun e => some (e, m)
  | none => .ok none

/-- The data given, or none for every size, src/rxn_network/reactions/reaction_set.py:68-71. -/
def givenData (indices : SizeDict (List ℕ)) : Option (SizeDict δ) → Except Err (SizeDict δ)
  | some d => .ok d
  | none => noData indices

/-- `__init__`, src/rxn_network/reactions/reaction_set.py:44-94. -/
def init (el : String → Except Err ε) (entries : List η) (indices : SizeDict (List ℕ)) (coeffs : SizeDict (List ℚ)) (o : Option (OpenElem ε)) (m : ℚ)
    (data : Option (SizeDict δ)) : Except Err (State η δ ε) := do
  let d ← givenData indices data
  let i ← convert indices
  let c ← convert coeffs
  let d ← convert d
  let mu ← muOf el o m
  return ⟨entries, i, c, d, o, m, mu⟩

/-- How a saved set travels: in memory (src/rxn_network/jobs/core.py:375), as JSON of monty's encoder, or as plain JSON. -/
inductive Via
  | memory
  | monty
  | plain
  deriving DecidableEq

/-- The dictionary written for a set by `as_dict`, src/rxn_network/reactions/reaction_set.py:44-52 (one item per constructor argument). -/
structure Saved (S δ ε : Type) where
  entries : List S
  indices : SizeDict (List ℕ)
  coeffs : SizeDict (List ℚ)
  data : SizeDict δ
  openElem : Option (OpenElem ε)
  chempot : ℚ
  deriving DecidableEq

/-- The codecs of entries and of per-reaction data: `out` is `as_dict` of an entry, `back` its `from_dict`, `json` what JSON makes of the data. Used through
src/rxn_network/jobs/core.py:375, 734. -/
structure Codec (η δ S : Type) where
  out : η → Except Err S
  back : S → Except Err η
  json : δ → Except Err δ

/-- `MSONable.as_dict` of a set, called at src/rxn_network/jobs/core.py:375. -/
def asDict (C : Codec η δ S) (s : State η δ ε) : Except Err (Saved S δ ε) :=
  (s.entries.mapM C.out).map fun es => ⟨es, s.indices, s.coeffs, s.data, s.openElem, s.chempot⟩

/-- What JSON makes of a key, see src/rxn_network/reactions/reaction_set.py:73-76. -/
def keyText : Key → Key
  | .int n => .text (showNat n)
  | k => k

/-- What JSON makes of a dictionary by size, see src/rxn_network/reactions/reaction_set.py:73-76: keys become text (the last of equal texts wins), arrays
stay arrays with monty's encoder and become lists without it. -/
def jsonDict {α : Type} (nd : Bool) (f : α → Except Err α) (d : SizeDict α) : Except Err (SizeDict α) :=
  (d.mapM fun p : Key × Arr α => (p.2.rows.mapM f).map fun rows => (keyText p.1, (⟨p.2.nd && nd, rows⟩ : Arr α))).map dictOf

/-- What arrives, see src/rxn_network/reactions/reaction_set.py:73-87. -/
def transport (C : Codec η δ S) (via : Via) (d : Saved S δ ε) : Except Err (Saved S δ ε) := match via with
  | .memory => .ok d
  | v => do
    let i ← jsonDict (decide (v = .monty)) .ok d.indices
    let c ← jsonDict (decide (v = .monty)) .ok d.coeffs
    let a ← jsonDict (decide (v = .monty)) C.json d.data
    return { d with indices := i, coeffs := c, data := a }

/-- `MSONable.from_dict` of a set, called at src/rxn_network/jobs/core.py:734. -/
def fromDict (C : Codec η δ S) (el : String → Except Err ε) (d : Saved S δ ε) : Except Err (State η δ ε) := do
  let es ← d.entries.mapM C.back
  init el es d.indices d.coeffs d.openElem d.chempot (some d.data)

/-- Saving, handing on and loading a set, src/rxn_network/jobs/core.py:375 and :734. -/
def reload (C : Codec η δ S) (el : String → Except Err ε) (via : Via) (s : State η δ ε) : Except Err (State η δ ε) := do
  let d ← asDict C s
  let d ← transport C via d
  fromDict C el d

/-- Integer keys and array values, as in the other model of sets (`Verif.Model.RxnSet`), src/rxn_network/reactions/reaction_set.py:73-87. -/
def plainDict {α : Type} (d : SizeDict α) : Except Err (List (ℕ × List α)) := d.mapM fun p => (intOf p.1).map fun n => (n, p.2.rows)

/-- The set as the other methods see it, src/rxn_network/reactions/reaction_set.py:63-94. -/
def view (s : State η δ ε) : Except Err (RSet η δ ε) := do
  let i ← plainDict s.indices
  let c ← plainDict s.coeffs
  let d ← plainDict s.data
  return ⟨s.entries, i, c, d, s.mu.map Prod.fst, s.chempot⟩

/-- A dictionary by size as it is built by `from_rxns`, src/rxn_network/reactions/reaction_set.py:149-160. -/
def arrays {α : Type} (d : List (ℕ × List α)) : SizeDict α := d.map fun p => (.int p.1, ⟨true, p.2⟩)

/-- The attributes of a set made by `from_rxns`, src/rxn_network/reactions/reaction_set.py:174-187. -/
def ofSet (s : RSet η δ ε) : State η δ ε :=
  ⟨s.entries, arrays s.indices, arrays s.coeffs, arrays s.data, s.openElem.map .elem, s.chempot, s.openElem.map fun e => (e, s.chempot)⟩

/-! ### Single reactions -/

/-- The attributes of a reaction, src/rxn_network/reactions/open.py:28-65 and src/rxn_network/reactions/computed.py:26-47: with the number of balancing
errors; `chempots` is `none` for a `ComputedReaction`. -/
structure Rxn (η δ ε : Type) where
  entries : List η
  coeffs : List ℚ
  data : δ
  errors : ℕ
  chempots : Option (List (ε × ℚ))
  deriving DecidableEq

/-- A key of a chemical-potential dictionary, src/rxn_network/reactions/open.py:226, 232: an element or its symbol. -/
inductive CKey (ε : Type)
  | elem (e : ε)
  | sym (s : String)
  deriving DecidableEq

/-- The dictionary written for a reaction, src/rxn_network/reactions/open.py:223-227. -/
structure SavedRxn (S δ ε : Type) where
  entries : List S
  coeffs : List ℚ
  data : δ
  errors : ℕ
  chempots : Option (List (CKey ε × ℚ))
  deriving DecidableEq

/-- `as_dict`, src/rxn_network/reactions/open.py:223-227 (and the generic one for closed reactions). -/
def rxnDict [DecidableEq ε] (C : Codec η δ S) (symbol : ε → String) (r : Rxn η δ ε) : Except Err (SavedRxn S δ ε) := do
  let es ← r.entries.mapM C.out
  return ⟨es, r.coeffs, r.data, r.errors, r.chempots.map fun d => dictOf (d.map fun p => (CKey.sym (symbol p.1), p.2))⟩

/-- `Element(symbol)`, src/rxn_network/reactions/open.py:232; an element is returned as it is. -/
def ckeyElem (el : String → Except Err ε) : CKey ε → Except Err ε
  | .elem e => .ok e
  | .sym s => el s

/-- The first statement of `from_dict`, src/rxn_network/reactions/open.py:232: it changes the dictionary that was passed. -/
def openDict [DecidableEq ε] (el : String → Except Err ε) (d : SavedRxn S δ ε) : Except Err (SavedRxn S δ ε) := match d.chempots with
  | none => .error .keyError
  | some l => (l.mapM fun p => (ckeyElem el p.1).map fun e => (e, p.2)).map fun l => { d with chempots := some ((dictOf l).map fun p => (.elem p.1, p.2)) }

/-- The decoded chemical potentials, src/rxn_network/reactions/open.py:233. -/
def decodePots (el : String → Except Err ε) : Option (List (CKey ε × ℚ)) → Except Err (Option (List (ε × ℚ)))
  | none => .ok none
  | some l => (l.mapM fun p => (ckeyElem el p.1).map fun e => (e, p.2)).map some

/-- The generic `from_dict`, called at src/rxn_network/reactions/open.py:233: the constructor on the decoded arguments. -/
def baseLoad (C : Codec η δ S) (el : String → Except Err ε) (d : SavedRxn S δ ε) : Except Err (Rxn η δ ε) := do
  let es ← d.entries.mapM C.back
  let cs ← decodePots el d.chempots
  return ⟨es, d.coeffs, d.data, d.errors, cs⟩

/-- `from_dict`, src/rxn_network/reactions/open.py:229-233; returns the reaction and the dictionary as the caller sees it afterwards. -/
def rxnLoad [DecidableEq ε] (C : Codec η δ S) (el : String → Except Err ε) (d : SavedRxn S δ ε) : Except Err (Rxn η δ ε × SavedRxn S δ ε) :=
  match d.chempots with
  | none => (baseLoad C el d).map fun r => (r, d)
  | some _ => do
    let d' ← openDict el d
    let r ← baseLoad C el d'
    return (r, d')

/-- Whether a dictionary can be written as JSON, see src/rxn_network/reactions/open.py:226: its keys are texts. -/
def writable (d : SavedRxn S δ ε) : Bool := match d.chempots with
  | none => true
  | some l => l.all fun p => match p.1 with
    | .sym _ => true
    | .elem _ => false

/-- What a set keeps of a reaction, src/rxn_network/reactions/reaction_set.py:142-156. -/
def forget (r : Rxn η δ ε) : SRxn η δ ε := ⟨r.entries, r.coeffs, r.data, r.chempots.getD []⟩

/-- The reaction that a set builds, src/rxn_network/reactions/reaction_set.py:585-596: `lowest_num_errors` has its default. -/
def rebuild (r : SRxn η δ ε) : Rxn η δ ε := ⟨r.entries, r.coeffs, r.data, 0, if r.chempots = [] then none else some r.chempots⟩

end Verif.Model.SetDict
