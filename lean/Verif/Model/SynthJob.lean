import Verif.Model.RxnSet
import Verif.Model.Jobs

/-!
Model of `CalculateCompetitionMaker.make` (src/rxn_network/jobs/core.py:302-405) with the two parallel stages (:407-446 and :448-479) on reaction sets.
What is computed for one reaction is a parameter here (competition scores are modelled in `Model.Jobs`, `Model.Costs` and `Model.Hull`, chemical potential
distances in `Model.Chempot`). The task document and the added elements (modelled in `Model.Symbols`) are left out: the result is the reaction set `rxns`.
-/

namespace Verif.Model.SynthJob
open Verif.Py Verif.Model.RxnSet

variable {η δ ε υ : Type} [DecidableEq η] [DecidableEq ε] [DecidableEq υ]

/-- `all_rxns = rxn_sets[0]` and the loop over the others, src/rxn_network/jobs/core.py:334-336. -/
def combine (so : List ℕ → List ℕ) : List (RSet η δ ε) → Except Err (RSet η δ ε)
  | [] => .error .indexError
  | s :: rest => rest.foldlM (addRxnSet so) s

/-- Reinitialization with the open element, src/rxn_network/jobs/core.py:338-346. -/
def reopen (openElem : Option ε) (chempot : ℚ) (s : RSet η δ ε) : RSet η δ ε := match openElem with
  | none => s
  | some e => mk s.entries s.indices s.coeffs (some e) chempot (some s.data)

/-- `get_rxns_by_product(..., return_set=True)`, src/rxn_network/reactions/reaction_set.py:367-404; `none` stands for the empty *list* returned at line 386. -/
def byProductSet (s : RSet η δ ε) (isP : η → Bool) : Except Err (Option (RSet η δ ε)) :=
  match s.entries.findIdx? isP with
  | none => .ok none
  | some 0 => .ok none
  | some (k + 1) => (selectRows s (productTest (k + 1)) >>= setByIndices s).map some

/-- `get_rxns_by_reactants(..., return_set=True)`, src/rxn_network/reactions/reaction_set.py:336-365; `none` stands for the empty *list* returned at
line 347. -/
def byReactantsSet (s : RSet η δ ε) (inR : η → Bool) : Except Err (Option (RSet η δ ε)) :=
  if positions s.entries inR = [] then .ok none
  else (selectRows s (reactantTest (positions s.entries inR)) >>= setByIndices s).map some

/-- Distribution of reactions over chunks and collection in order of completion, src/rxn_network/jobs/core.py:424-444 and :460-477; the padding is skipped
by the tasks. -/
def chunked {ρ σ : Type} (wait : ℕ → List (List (Option ρ)) → List (List (Option ρ)) × List (List (Option ρ))) (f : List ρ → Except Err (List σ))
    (n : ℕ) (l : List ρ) : Except Err (List σ) :=
  match Solver.collect wait (fun c => f (c.filterMap id)) (Utils.grouper (l.map some) n none) with
  | .error e => .error e
  | .ok out => .ok out.flatten

/-- Settings of the maker (src/rxn_network/jobs/core.py:289-296), resources of the cluster (:413-414), schedules of both stages and the calculations:
`score pool r` decorates one reaction with competition scores (:731-756), `dist o m chunk` the reactions of a chunk with chemical potential distances
(:759-796); `sortSys` is the sort by chemical system (:461). -/
structure Cfg (η δ ε υ φ : Type) where
  uid : η → υ
  order : List η → List η
  so : List ℕ → List ℕ
  formula : η → φ
  openElem : Option ε
  chempot : ℚ
  competition : Bool
  distances : Bool
  chunk : ℕ
  cpus : ℕ
  memory : ℕ
  score : RSet η δ ε → SRxn η δ ε → Except Err (SRxn η δ ε)
  dist : Option ε → ℚ → List (SRxn η δ ε) → Except Err (List (SRxn η δ ε))
  sortSys : List (SRxn η δ ε) → List (SRxn η δ ε)
  wait1 : ℕ → List (List (Option (SRxn η δ ε))) → List (List (Option (SRxn η δ ε))) × List (List (Option (SRxn η δ ε)))
  wait2 : ℕ → List (List (Option (SRxn η δ ε))) → List (List (Option (SRxn η δ ε))) × List (List (Option (SRxn η δ ε)))

variable {φ : Type} [DecidableEq φ]

/-- `_get_competition_decorated_rxns`, src/rxn_network/jobs/core.py:407-446. -/
def competitionStage (c : Cfg η δ ε υ φ) (targets pool : RSet η δ ε) : Except Err (RSet η δ ε) := do
  let n ← Jobs.chunkSizeFor c.chunk (len targets) (len pool) c.cpus c.memory
  let out ← chunked c.wait1 (fun l => l.mapM (c.score pool)) n (← getRxns targets)
  fromRxns c.uid c.order out none none 0

/-- `_get_chempot_decorated_rxns`, src/rxn_network/jobs/core.py:448-479. -/
def distanceStage (c : Cfg η δ ε υ φ) (s : RSet η δ ε) : Except Err (RSet η δ ε) := do
  let out ← chunked c.wait2 (c.dist s.openElem s.chempot) c.chunk (c.sortSys (← getRxns s))
  fromRxns c.uid c.order out none none 0

/-- Formulas of the reactants of the target reactions, src/rxn_network/jobs/core.py:363. -/
def reactantFormulas (c : Cfg η δ ε υ φ) (rxns : List (SRxn η δ ε)) : List φ :=
  rxns.flatMap fun r => ((r.entries.zip r.coeffs).filter fun p => decide (p.2 < (0:ℚ))).map fun p => c.formula p.1

/-- The scores, src/rxn_network/jobs/core.py:376-386. -/
def decorate (c : Cfg η δ ε υ φ) (targets pool : RSet η δ ε) : Except Err (RSet η δ ε) :=
  match if c.competition then competitionStage c targets pool else .ok targets with
  | .error e => .error e
  | .ok d => if c.distances then distanceStage c d else .ok d

/-- From the target reactions to the result, src/rxn_network/jobs/core.py:358-389. A list instead of a set of competing reactions has no `as_dict`. -/
def finish (c : Cfg η δ ε υ φ) (all targets : RSet η δ ε) (entries : List η) : Except Err (RSet η δ ε) :=
  if len targets = 0 then .error .valueError
  else do
    let fs := reactantFormulas c (← getRxns targets)
    match ← byReactantsSet all fun e => decide (c.formula e ∈ fs) with
    | none => .error .attributeError
    | some pool => fromRxns c.uid c.order (← getRxns (← decorate c targets pool)) (some entries) none 0

/-- `make`, src/rxn_network/jobs/core.py:302-389: the set stored as `rxns`. -/
def make (c : Cfg η δ ε υ φ) (sets : List (RSet η δ ε)) (entries : List η) (target : φ) : Except Err (RSet η δ ε) := do
  let all := reopen c.openElem c.chempot (← combine c.so sets)
  match ← byProductSet all fun e => decide (c.formula e = target) with
  | none => .error .valueError
  | some targets => finish c all targets entries

end Verif.Model.SynthJob
