import Mathlib.Data.Rat.Defs
import Mathlib.Data.List.Basic
import Verif.Model.PyData

/-!
Model of `NetworkFlowMaker.make` (src/rxn_network/flows/core.py:94-217): the jobs of the flow and how they refer to each other.

A job is described by the settings of its maker and the outputs of earlier jobs it is given (by position in the flow). Job names, the flow name, the cost
functions and the other settings of the makers that are passed on untouched are left out. jobflow's `update_kwargs` returns an updated copy of a maker.
Keyword dictionaries are association lists; only clashes with keywords given explicitly are modelled (`TypeError`), not unknown keywords.
-/

namespace Verif.Model.Flow
open Verif.Py

/-- The enumerators of an enumeration job, src/rxn_network/flows/core.py:142-160 and :202-206. -/
inductive Enumerator (ε φ κ : Type)
  | basic (kw : List (String × κ))
  | basicOpen (phases : List φ) (kw : List (String × κ))
  | gibbs (kw : List (String × κ))
  | grand (elem : ε) (mu : ℚ) (kw : List (String × κ))
  deriving DecidableEq

/-- Settings of `NetworkMaker`, src/rxn_network/jobs/core.py:510-516. -/
structure NetMaker (ε φ : Type) where
  precursors : Option (List φ)
  targets : Option (List φ)
  paths : Option ℕ
  openElem : Option ε
  chempot : ℚ
  deriving DecidableEq

/-- Settings of `PathwaySolverMaker`, src/rxn_network/jobs/core.py:608-619. -/
structure SolverMaker (ε φ : Type) where
  precursors : List φ
  targets : List φ
  openElem : Option ε
  chempot : ℚ
  deriving DecidableEq

/-- Where the entries come from: the caller or the output of a job, src/rxn_network/flows/core.py:123-135. -/
inductive Source
  | caller
  | job (i : ℕ)
  deriving DecidableEq

/-- The jobs of a flow; numbers refer to the jobs whose outputs are passed, src/rxn_network/flows/core.py:121-217. -/
inductive Job (ε φ κ : Type)
  | entries (chemsys : List ε) (formulas : List φ)
  | enumerate (enumerators : List (Enumerator ε φ κ)) (source : Source)
  | network (maker : NetMaker ε φ) (sets : List ℕ)
  | solve (maker : SolverMaker ε φ) (paths entries : ℕ)
  deriving DecidableEq

/-- Settings of `NetworkFlowMaker` (src/rxn_network/flows/core.py:82-92 and `__post_init__`), and what the flow depends on: parsing and reducing a formula, its
elements, the formula of an element as a phase, and the iteration order of sets. -/
structure Maker (ε φ κ : Type) where
  included : List φ
  network : NetMaker ε φ
  solver : Option (SolverMaker ε φ)
  openElem : Option ε
  chempots : List ℚ
  useBasic : Bool
  useMinimize : Bool
  basicKw : List (String × κ)
  minimizeKw : List (String × κ)
  reduce : φ → Except Err φ
  elements : φ → List ε
  phase : ε → φ
  orderE : List ε → List ε
  orderF : List φ → List φ

variable {ε φ κ : Type}

/-- Passing `**kw` next to explicit keywords: a clash is a `TypeError`, src/rxn_network/flows/core.py:143-160. -/
def explicit (names : List String) (kw : List (String × κ)) : Except Err (List (String × κ)) :=
  if kw.any fun p => names.contains p.1 then .error .typeError else .ok kw

/-- The basic enumerators, src/rxn_network/flows/core.py:142-154. -/
def basicEnumerators (m : Maker ε φ κ) : Except Err (List (Enumerator ε φ κ)) :=
  if m.useBasic then
    match m.openElem with
    | none => .ok [.basic m.basicKw]
    | some e => (explicit ["open_phases"] m.basicKw).map fun kw => [.basic m.basicKw, .basicOpen [m.phase e] kw]
  else .ok []

/-- All enumerators of the first enumeration job, src/rxn_network/flows/core.py:140-160. -/
def baseEnumerators (m : Maker ε φ κ) : Except Err (List (Enumerator ε φ κ)) :=
  (basicEnumerators m).map fun l => l ++ if m.useMinimize then [.gibbs m.minimizeKw] else []

/-- The jobs before enumeration, src/rxn_network/flows/core.py:121-134. -/
def entryJobs (m : Maker ε φ κ) (given : Bool) (formulas : List φ) : List (Job ε φ κ) :=
  if given then [] else [.entries (m.orderE (formulas.flatMap m.elements)) (m.orderF (m.included ++ formulas))]

/-- The source of the entries afterwards, src/rxn_network/flows/core.py:123,135. -/
def sourceOf (given : Bool) : Source := if given then .caller else .job 0

/-- The closed part of the flow, src/rxn_network/flows/core.py:162-175; `n` jobs precede it. -/
def baseJobs (m : Maker ε φ κ) (source : Source) (n : ℕ) (es : List (Enumerator ε φ κ)) : List (Job ε φ κ) :=
  [.enumerate es source, .network m.network [n]] ++ (m.solver.map fun s => Job.solve s (n + 1) (n + 1)).toList

/-- The jobs for one chemical potential, src/rxn_network/flows/core.py:179-215; `n` jobs precede them and `base` is the first enumeration job. -/
def potentialJobs (m : Maker ε φ κ) (source : Source) (base n : ℕ) (e : ε) (mu : ℚ) : Except Err (List (Job ε φ κ)) :=
  (explicit ["open_elem", "mu"] m.minimizeKw).map fun kw =>
    [.enumerate [.grand e mu kw] source, .network { m.network with chempot := mu, openElem := some e } [base, n]] ++
      (m.solver.map fun s => Job.solve { s with chempot := mu, openElem := some e } (n + 1) (n + 1)).toList

/-- The loop over the chemical potentials, src/rxn_network/flows/core.py:178-215. -/
def loop (m : Maker ε φ κ) (source : Source) (base : ℕ) (e : ε) : List ℚ → List (Job ε φ κ) → Except Err (List (Job ε φ κ))
  | [], jobs => .ok jobs
  | mu :: mus, jobs => match potentialJobs m source base jobs.length e mu with
    | .error x => .error x
    | .ok l => loop m source base e mus (jobs ++ l)

/-- `make`, src/rxn_network/flows/core.py:94-217. -/
def make (m : Maker ε φ κ) (precursors targets : List φ) (given : Bool) : Except Err (List (Job ε φ κ)) := do
  let ps ← precursors.mapM m.reduce
  let ts ← targets.mapM m.reduce
  let first := entryJobs m given (ps ++ ts)
  let es ← baseEnumerators m
  let jobs := first ++ baseJobs m (sourceOf given) first.length es
  match m.useMinimize, m.openElem with
  | true, some e => loop m (sourceOf given) first.length e m.chempots jobs
  | _, _ => .ok jobs

end Verif.Model.Flow
