import Verif.Model.RxnSet
import Verif.Model.EntryFlow

/-!
Recalculation at a new temperature when an entry can fail to convert: `src/rxn_network/reactions/reaction_set.py` (530-570) and the
`get_new_temperature` methods of the two reaction classes. `Verif.Model.RxnSet` has the same functions for a conversion that never
fails. `conv` is the entries' own `get_new_temperature` (modelled in `Verif.Model.EntryFlow`).
-/

namespace Verif.Model.RxnTemp
open Verif.Py Verif.Model.RxnSet

variable {η δ ε υ κ : Type} [DecidableEq η] [DecidableEq ε] [DecidableEq υ] [DecidableEq κ]

/-- What is passed as `entries_at_temp`: nothing, `None`, or a dictionary; src/rxn_network/reactions/computed.py:82 (default `None`)
and src/rxn_network/reactions/open.py:107 (no default). -/
inductive Arg (κ η : Type)
  | omitted
  | noneGiven
  | table (t : List (κ × η))

/-- `new_entries = [e.get_new_temperature(new_temperature) for e in self.entries]` and the construction of the new reaction with the
same coefficients, data and potentials, src/rxn_network/reactions/computed.py:93 and 103-108, src/rxn_network/reactions/open.py:118
and 127-133. -/
def retempOwn (conv : η → Except Err η) (r : SRxn η δ ε) : Except Err (SRxn η δ ε) :=
  (r.entries.mapM conv).map fun es => { r with entries := es }

/-- `get_new_temperature` of a reaction, src/rxn_network/reactions/computed.py:81-108 (`isOpen = false`) and
src/rxn_network/reactions/open.py:107-133 (`isOpen = true`, where leaving the second argument out is a `TypeError`). -/
def newTemperature (comp : η → κ) (conv : η → Except Err η) (isOpen : Bool) (arg : Arg κ η) (r : SRxn η δ ε) :
    Except Err (SRxn η δ ε) :=
  match arg with
  | .omitted => if isOpen then .error .typeError else retempOwn conv r
  | .noneGiven => retempOwn conv r
  | .table t => retemp comp t r

/-- `{e.composition: e.get_new_temperature(new_temp) for e in self.entries}`, src/rxn_network/reactions/reaction_set.py:543 and 565:
an exception of any entry propagates. -/
def tableAt (comp : η → κ) (conv : η → Except Err η) (es : List η) : Except Err (List (κ × η)) :=
  (es.mapM fun e => (conv e).map fun e' => (comp e, e')).map dictOf

/-- `set_new_temperature`, src/rxn_network/reactions/reaction_set.py:530-547. -/
def setTemp (uid : η → υ) (setOrder : List η → List η) (comp : η → κ) (conv : η → Except Err η) (s : RSet η δ ε) :
    Except Err (RSet η δ ε) := do
  let table ← tableAt comp conv s.entries
  let rxns ← getRxns s
  let new ← rxns.mapM (newTemperature comp conv s.openElem.isSome (.table table))
  fromRxns uid setOrder new none s.openElem s.chempot

/-- One turn of the loop of `compute_at_temperatures`, src/rxn_network/reactions/reaction_set.py:563-569. -/
def stepTemps {τ : Type} [DecidableEq τ] (uid : η → υ) (setOrder : List η → List η) (comp : η → κ) (conv : τ → η → Except Err η)
    (s : RSet η δ ε) (rxns : List (SRxn η δ ε)) (d : List (τ × RSet η δ ε)) (t : τ) : Except Err (List (τ × RSet η δ ε)) := do
  let table ← tableAt comp (conv t) s.entries
  let new ← rxns.mapM (newTemperature comp (conv t) s.openElem.isSome (.table table))
  let x ← fromRxns uid setOrder new none s.openElem s.chempot
  return dictSet d t x

/-- `compute_at_temperatures`, src/rxn_network/reactions/reaction_set.py:549-570. -/
def atTemps {τ : Type} [DecidableEq τ] (uid : η → υ) (setOrder : List η → List η) (comp : η → κ) (conv : τ → η → Except Err η)
    (s : RSet η δ ε) (temps : List τ) : Except Err (List (τ × RSet η δ ε)) := do
  let rxns ← getRxns s
  temps.foldlM (stepTemps uid setOrder comp conv s rxns) []

end Verif.Model.RxnTemp
