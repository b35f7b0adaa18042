import Verif.Model.RxnSet

/-!
Model of `get_rxns_from_db` (src/rxn_network/utils/database.py:12-56): query of the job store and rebuilding of the reaction set. A query by `None` matches
fields that are null and fields that are missing (MongoDB). `Element(...)` of the symbol asked for is a parameter.
-/

namespace Verif.Model.JobStore
open Verif.Py Verif.Model.RxnSet

variable {φ σ η δ ε υ : Type} [DecidableEq φ] [DecidableEq σ] [DecidableEq η] [DecidableEq ε] [DecidableEq υ]

/-- How the open element is stored in a document: not at all, null, as its symbol, or as an encoded object (queried at
src/rxn_network/utils/database.py:34). -/
inductive Field (σ : Type)
  | missing
  | null
  | text (s : σ)
  | object (s : σ)
  deriving DecidableEq

/-- The queried fields of a stored job and its reaction set, src/rxn_network/utils/database.py:32-52: `rxns = none` for documents without reactions. -/
structure Doc (φ σ η δ ε : Type) where
  target : Option φ
  openElem : Field σ
  chempot : Option ℚ
  fw : Option ℕ
  completed : ℚ
  rxns : Option (RSet η δ ε)

/-- The query, src/rxn_network/utils/database.py:32-39; `target` is the reduced formula of the target. -/
structure Query (φ σ : Type) where
  target : φ
  openElem : Option σ
  chempot : ℚ
  fw : Option ℕ

/-- Matching of the open element, src/rxn_network/utils/database.py:34. -/
def fieldMatches (o : Option σ) (f : Field σ) : Bool := match o, f with
  | none, .missing => true
  | none, .null => true
  | some s, .text s' => decide (s = s')
  | _, _ => false

/-- Matching of a document, src/rxn_network/utils/database.py:32-39; without `fw_id` it is not queried. -/
def docMatches (q : Query φ σ) (d : Doc φ σ η δ ε) : Bool :=
  decide (d.target = some q.target) && fieldMatches q.openElem d.openElem && decide (d.chempot = some q.chempot) &&
    match q.fw with
    | none => true
    | some n => decide (d.fw = some n)

/-- `query_one` sorted by descending time of completion, src/rxn_network/utils/database.py:41; `sort` is the store's sort. -/
def queryOne (sort : List (Doc φ σ η δ ε) → List (Doc φ σ η δ ε)) (docs : List (Doc φ σ η δ ε)) (q : Query φ σ) : Option (Doc φ σ η δ ε) :=
  (sort (docs.filter (docMatches q))).head?

/-- The reaction set returned, src/rxn_network/utils/database.py:49-56. -/
def rebuild (uid : η → υ) (setOrder : List η → List η) (elem : σ → ε) (q : Query φ σ) (d : Doc φ σ η δ ε) : Except Err (RSet η δ ε) :=
  match d.rxns with
  | none => .error .attributeError
  | some s => match q.openElem with
    | none => .ok s
    | some o => match getRxns s with
      | .error e => .error e
      | .ok rs => fromRxns uid setOrder rs none (some (elem o)) q.chempot

/-- `get_rxns_from_db`, src/rxn_network/utils/database.py:12-56. -/
def fetch (uid : η → υ) (setOrder : List η → List η) (elem : σ → ε) (sort : List (Doc φ σ η δ ε) → List (Doc φ σ η δ ε))
    (docs : List (Doc φ σ η δ ε)) (q : Query φ σ) : Except Err (RSet η δ ε) :=
  match queryOne sort docs q with
  | none => .error .valueError
  | some d => rebuild uid setOrder elem q d

end Verif.Model.JobStore
