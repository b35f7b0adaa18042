import Verif.Model.PyData
import Verif.Model.Utils
import Verif.Model.Solver

/-!
Model of the selectivity part of `src/rxn_network/jobs/core.py`: competition scores, chemical potential distances by chunk,
the memory-limited chunk size and the narrowing of the reaction pool.
-/

namespace Verif.Model.Jobs

open Verif.Py

/-! ### Competition score of one reaction -/

/-- `other_energies.min()`; numpy raises `ValueError` on an empty array, src/rxn_network/jobs/core.py:705. -/
def npMin : List ℚ → Except Err ℚ
  | [] => .error .valueError
  | x :: xs => .ok (xs.foldl min x)

/-- `secondary_rxn_energies.max()`, src/rxn_network/jobs/core.py:709. -/
def npMax : List ℚ → Except Err ℚ
  | [] => .error .valueError
  | x :: xs => .ok (xs.foldl max x)

/-- Adding the identity reaction unless some competing energy is close to zero, src/rxn_network/jobs/core.py:702-703. -/
def withIdentity (es : List ℚ) : List ℚ := if es.any fun x => isclose x 0 then es else es ++ [0]

/-- The positive energy differences, src/rxn_network/jobs/core.py:707-708. -/
def positiveDiffs (energy : ℚ) (es : List ℚ) : List ℚ := (es.map fun x => energy - x).filter fun d => decide (0 < d)

/-- `secondary_rxn_energies.max() if secondary_rxn_energies.any() else 0.0`, src/rxn_network/jobs/core.py:709. -/
def secondaryOf (ds : List ℚ) : Except Err ℚ := if ds.any fun d => decide (d ≠ 0) then npMax ds else .ok 0

/-- Both scores of a single-precursor reaction, src/rxn_network/jobs/core.py:702-711, from its energy and the energies of the
other competing reactions. -/
def singleScores (energy : ℚ) (others : List ℚ) : Except Err (ℚ × ℚ) :=
  match npMin (withIdentity others) with
  | .error e => .error e
  | .ok m => match secondaryOf (positiveDiffs energy (withIdentity others)) with
    | .error e => .error e
    | .ok s => .ok (roundDigits 4 (energy - m), roundDigits 4 s)

/-- What the jobs observe of a reaction. `key` stands for its identity under `==` (src/rxn_network/jobs/core.py:701), `elems`
for `chemical_system.split("-")` (src/rxn_network/jobs/core.py:771-772). -/
structure JRxn (φ : Type) where
  key : ℕ
  reactants : List φ
  products : List φ
  energy : ℚ
  data : Option (List (String × ℚ))
  elems : List ℕ
  deriving DecidableEq

/-- The single-precursor branch of `_get_competition_decorated_rxn`, src/rxn_network/jobs/core.py:699-713. A reaction whose
data is `None` raises `TypeError` at line 710. -/
def decorateSingle {φ : Type} (rxn : JRxn φ) (competing : List (JRxn φ)) : Except Err (JRxn φ) :=
  match singleScores rxn.energy ((competing.filter fun r => decide (r.key ≠ rxn.key)).map JRxn.energy) with
  | .error e => .error e
  | .ok (p, s) => match rxn.data with
    | none => .error .typeError
    | some d => .ok { rxn with data := some (dictSet (dictSet d "primary_competition" p) "secondary_competition" s) }

/-- `_get_competition_decorated_rxn`, src/rxn_network/jobs/core.py:695-727. `hull a b competing rxn` is the two-precursor
branch (lines 715-725: interface reaction hull and the two calculators, modelled in `Model.Hull` and `Model.Costs`). -/
def decorateRxn {φ : Type} (hull : φ → φ → List (JRxn φ) → JRxn φ → Except Err (JRxn φ)) (rxn : JRxn φ)
    (competing : List (JRxn φ)) (precursors : List φ) : Except Err (JRxn φ) :=
  match precursors with
  | [_] => decorateSingle rxn competing
  | a :: b :: _ => hull a b competing rxn
  | [] => .error .indexError

/-! ### Chunks -/

/-- The inputs shared by all chunks, src/rxn_network/jobs/core.py:731-734. `getBy` is `all_rxns.get_rxns_by_reactants`
(modelled in `Model.RxnSet`), `setOrder` the order in which a set of formulas is listed (line 750). -/
structure CompCfg (φ : Type) where
  hull : φ → φ → List (JRxn φ) → JRxn φ → Except Err (JRxn φ)
  getBy : List φ → Except Err (List (JRxn φ))
  openF : Option φ
  setOrder : List φ → List φ

/-- The precursors passed on, src/rxn_network/jobs/core.py:748-752. -/
def precursorsOf {φ : Type} [DecidableEq φ] (c : CompCfg φ) (rxn : JRxn φ) : Except Err (List φ) :=
  if 3 ≤ rxn.reactants.length then
    match c.openF with
    | some o => .ok (c.setOrder (rxn.reactants.filter fun f => decide (f ≠ o)))
    | none => .error .valueError
  else .ok rxn.reactants

/-- The loop body of `_get_competition_decorated_rxns_by_chunk`, src/rxn_network/jobs/core.py:740-754. -/
def competeOne {φ : Type} [DecidableEq φ] (c : CompCfg φ) (rxn : JRxn φ) : Except Err (JRxn φ) :=
  match c.getBy (rxn.reactants ++ c.openF.toList) with
  | .error e => .error e
  | .ok competing => match precursorsOf c rxn with
    | .error e => .error e
    | .ok ps => decorateRxn c.hull rxn competing ps

/-- `_get_competition_decorated_rxns_by_chunk`, src/rxn_network/jobs/core.py:731-756; `None` is padding (lines 737-738). -/
def competeChunk {φ : Type} [DecidableEq φ] (c : CompCfg φ) (chunk : List (Option (JRxn φ))) : Except Err (List (JRxn φ)) :=
  (chunk.filterMap id).mapM (competeOne c)

/-- `chunk_size`, src/rxn_network/jobs/core.py:411-422; memory in bytes as natural numbers. -/
def chunkSizeFor (chunk nTargets nRxns numCpus available : ℕ) : Except Err ℕ :=
  if available < numCpus * (250 * nRxns) then
    if available / (250 * nRxns) = 0 then .error .zeroDivision
    else .ok (nTargets / (available / (250 * nRxns)) + 1)
  else .ok chunk

/-- The distribution over chunks, src/rxn_network/jobs/core.py:424-444: the list passed to `ReactionSet.from_rxns`. -/
def competeAll {φ : Type} [DecidableEq φ] (c : CompCfg φ)
    (wait : ℕ → List (List (Option (JRxn φ))) → List (List (Option (JRxn φ))) × List (List (Option (JRxn φ))))
    (chunkSize : ℕ) (rxns : List (JRxn φ)) : Except Err (List (JRxn φ)) :=
  match Solver.collect wait (competeChunk c) (Utils.grouper (rxns.map some) chunkSize none) with
  | .error e => .error e
  | .ok out => .ok out.flatten

/-! ### Chemical potential distances by chunk -/

/-- One calculator per chemical system: `build sys` constructs the calculator for the elements `sys` and the result decorates
a reaction, src/rxn_network/jobs/core.py:779-789. -/
abbrev Build (φ : Type) := List ℕ → Except Err (JRxn φ → Except Err (JRxn φ))

/-- The loop of `_get_chempot_decorated_rxns_by_chunk` with its cache, src/rxn_network/jobs/core.py:770-793. -/
def chempotLoop {φ : Type} (build : Build φ) :
    List (List ℕ × (JRxn φ → Except Err (JRxn φ))) → List (JRxn φ) → Except Err (List (JRxn φ))
  | _, [] => .ok []
  | cache, rxn :: rest =>
    match cache.find? fun c => rxn.elems.all fun e => decide (e ∈ c.1) with
    | some c => match c.2 rxn with
      | .error e => .error e
      | .ok r => match chempotLoop build cache rest with
        | .error e => .error e
        | .ok rs => .ok (r :: rs)
    | none => match build rxn.elems with
      | .error e => .error e
      | .ok f => match f rxn with
        | .error e => .error e
        | .ok r => match chempotLoop build (cache ++ [(rxn.elems, f)]) rest with
          | .error e => .error e
          | .ok rs => .ok (r :: rs)

/-- `sorted(rxn_chunk, key=lambda rxn: len(rxn.elements), reverse=True)`, src/rxn_network/jobs/core.py:770. -/
def sortBySize {φ : Type} (rxns : List (JRxn φ)) : List (JRxn φ) :=
  rxns.insertionSort fun a b => b.elems.length ≤ a.elems.length

/-- `_get_chempot_decorated_rxns_by_chunk` up to the final `ReactionSet.from_rxns`, src/rxn_network/jobs/core.py:760-793. -/
def chempotChunk {φ : Type} (build : Build φ) (chunk : List (Option (JRxn φ))) : Except Err (List (JRxn φ)) :=
  chempotLoop build [] (sortBySize (chunk.filterMap id))

/-! ### Narrowing the pool of reactions -/

/-- `get_rxns_by_reactants` on a plain list of reactions: those whose reactants are all among the given formulas
(src/rxn_network/reactions/reaction_set.py:336-365; that the stored set behaves like this filter is a theorem about
`Model.RxnSet.byReactants`). -/
def byReactants {φ : Type} [DecidableEq φ] (all : List (JRxn φ)) (fs : List φ) : List (JRxn φ) :=
  all.filter fun r => r.reactants.all fun f => decide (f ∈ fs)

/-- The target reactions, src/rxn_network/jobs/core.py:354. -/
def targetsOf {φ : Type} [DecidableEq φ] (all : List (JRxn φ)) (target : φ) : List (JRxn φ) :=
  all.filter fun r => decide (target ∈ r.products)

/-- The pool kept "to save memory", src/rxn_network/jobs/core.py:363-367. -/
def poolOf {φ : Type} [DecidableEq φ] (all : List (JRxn φ)) (target : φ) : List (JRxn φ) :=
  byReactants all ((targetsOf all target).flatMap JRxn.reactants)

/-- The competing reactions the job uses for a target reaction, src/rxn_network/jobs/core.py:363-375, 740-746. -/
def jobCompeting {φ : Type} [DecidableEq φ] (all : List (JRxn φ)) (target : φ) (openF : Option φ) (t : JRxn φ) : List (JRxn φ) :=
  byReactants (poolOf all target) (t.reactants ++ openF.toList)

end Verif.Model.Jobs
