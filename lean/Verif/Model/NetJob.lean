import Verif.Model.RxnSet
import Verif.Model.Network

/-!
Model of `NetworkMaker.make` (src/rxn_network/jobs/core.py:519-567) on reaction sets (`Model.RxnSet`) and networks (`Model.Network`). The pathways are
returned as lists of reactions with costs; packing them into a `PathwaySet` is modelled in `Model.Pathway`. The task document is left out.
-/

namespace Verif.Model.NetJob
open Verif.Py Verif.Model.RxnSet Verif.Model.Network

variable {η δ ε υ φ : Type} [DecidableEq η] [DecidableEq δ] [DecidableEq ε] [DecidableEq υ]

/-- `reactant_entries` as a set, src/rxn_network/reactions/computed.py:43 and src/rxn_network/network/entry.py:41. -/
def reactantsOf (r : SRxn η δ ε) : Finset η := (((r.entries.zip r.coeffs).filter fun p => decide (p.2 < (0:ℚ))).map Prod.fst).toFinset

/-- `product_entries` as a set, src/rxn_network/reactions/computed.py:44 and src/rxn_network/network/entry.py:41. -/
def productsOf (r : SRxn η δ ε) : Finset η := (((r.entries.zip r.coeffs).filter fun p => decide ((0:ℚ) < p.2)).map Prod.fst).toFinset

/-- Settings of the maker (src/rxn_network/jobs/core.py:510-516), the cost of each reaction under its cost function, and what the calls depend on: numpy and
ray in `filter_duplicates`, the lowest-energy entry of a formula among the entries of the network (src/rxn_network/network/network.py:133,193), rustworkx's
shortest path. -/
structure Cfg (η δ ε υ φ : Type) where
  uid : η → υ
  order : List η → List η
  argsort : List ℚ → List ℕ
  groupBy : List (List ℕ) → List (List ℕ)
  cpus : ℕ
  wait : ℕ → List Task → List Task × List Task
  minEntry : Finset η → φ → Except Err η
  shortest : Graph (Node η) (Edge (SRxn η δ ε)) → ℕ → ℕ → Option (List ℕ)
  cost : SRxn η δ ε → ℚ
  precursors : Option (List φ)
  targets : Option (List φ)
  paths : Option ℕ
  openElem : Option ε
  chempot : ℚ

/-- All reactions of all sets, combined, src/rxn_network/jobs/core.py:540-545. -/
def combined (c : Cfg η δ ε υ φ) (sets : List (RSet η δ ε)) : Except Err (RSet η δ ε) := do
  let rxns ← sets.mapM getRxns
  let all ← fromRxns c.uid c.order rxns.flatten none c.openElem c.chempot
  filterDuplicatesParallel c.argsort c.groupBy c.cpus c.wait all []

/-- The network of a reaction set, src/rxn_network/jobs/core.py:547-548. -/
def network (s : RSet η δ ε) : Except Err (Net η (SRxn η δ ε)) :=
  (getRxns s).map fun rxns => (Net.new rxns s.entries.toFinset).build reactantsOf productsOf

/-- `if self.precursors: rn.set_precursors(self.precursors)`, src/rxn_network/jobs/core.py:551-552. -/
def withPrecursors (c : Cfg η δ ε υ φ) (n : Net η (SRxn η δ ε)) : Except Err (Net η (SRxn η δ ε)) := match c.precursors with
  | some (p :: ps) => n.setPrecursors (c.minEntry n.entries) ((p :: ps).map .formula)
  | _ => .ok n

/-- `if self.targets: rn.set_target(self.targets[0])`, src/rxn_network/jobs/core.py:553-554. -/
def withTarget (c : Cfg η δ ε υ φ) (n : Net η (SRxn η δ ε)) : Except Err (Net η (SRxn η δ ε)) := match c.targets with
  | some (t :: _) => n.setTarget (c.minEntry n.entries) (.formula t)
  | _ => .ok n

/-- `if self.calculate_pathways and self.targets: ...`, src/rxn_network/jobs/core.py:555-556; `find_pathways` changes the network. -/
def withPaths (c : Cfg η δ ε υ φ) (n : Net η (SRxn η δ ε)) :
    Except Err (Net η (SRxn η δ ε) × Option (List (List (Edge (SRxn η δ ε) × ℚ)))) := match c.paths, c.targets with
  | some (k + 1), some (t :: ts) =>
    match findPathways (c.minEntry n.entries) c.shortest c.cost n ((t :: ts).map .formula) (k + 1) with
    | .error e => .error e
    | .ok (n', l) => .ok (n', some l)
  | _, _ => .ok (n, none)

/-- `make`, src/rxn_network/jobs/core.py:519-567: the network and the pathways stored in the document. -/
def make (c : Cfg η δ ε υ φ) (sets : List (RSet η δ ε)) :
    Except Err (Net η (SRxn η δ ε) × Option (List (List (Edge (SRxn η δ ε) × ℚ)))) := do
  let s ← combined c sets
  let n ← network s
  withPaths c (← withTarget c (← withPrecursors c n))

end Verif.Model.NetJob
