import Verif.Model.RxnSet

/-!
Model of the search for intermediate reactions by the pathway solver, `PathwaySolver._find_intermediate_rxns`,
src/rxn_network/pathways/solver.py:342-403. The four enumerators are parameters: functions from the intermediate phases to a reaction set or an error (the
target formulas and the open element they are constructed with are fixed during the call).
-/

namespace Verif.Model.Intermediates
open Verif.Py Verif.Model.RxnSet

variable {η δ ε υ : Type} [DecidableEq η] [DecidableEq ε] [DecidableEq υ]

/-- The phases of the reactions, the targets and the elemental entries, src/rxn_network/pathways/solver.py:352-359. A `GibbsEntrySet` is a set; it is
represented by a list of which only membership and `order` (its `entries_list`) are used. -/
def intermediates (isElem : η → Bool) (reactions : List (SRxn η δ ε)) (targets entries : List η) : List η :=
  ((reactions.flatMap fun r => r.entries) ++ targets) ++ entries.filter isElem

/-- The four enumerators of src/rxn_network/pathways/solver.py:370-394. -/
structure Enumerators (η δ ε : Type) where
  basic : List η → Except Err (RSet η δ ε)
  basicOpen : List η → Except Err (RSet η δ ε)
  gibbs : List η → Except Err (RSet η δ ε)
  grand : List η → Except Err (RSet η δ ε)

/-- `rxn_set.add_rxn_set(enumerator.enumerate(intermediates))`, src/rxn_network/pathways/solver.py:372. -/
def addFound (so : List ℕ → List ℕ) (s : RSet η δ ε) (found : Except Err (RSet η δ ε)) : Except Err (RSet η δ ε) :=
  match found with
  | .error e => .error e
  | .ok f => addRxnSet so s f

/-- The basic enumerators, src/rxn_network/pathways/solver.py:370-380. -/
def addBasic (so : List ℕ → List ℕ) (E : Enumerators η δ ε) (inter : List η) (isOpen : Bool) (s : RSet η δ ε) : Except Err (RSet η δ ε) :=
  match addFound so s (E.basic inter) with
  | .error e => .error e
  | .ok s1 => if isOpen then addFound so s1 (E.basicOpen inter) else .ok s1

/-- The minimizing enumerators, src/rxn_network/pathways/solver.py:382-394. The set returned by the last `add_rxn_set` is dropped, as in line 394. -/
def addMinimize (so : List ℕ → List ℕ) (E : Enumerators η δ ε) (inter : List η) (isOpen : Bool) (s : RSet η δ ε) : Except Err (RSet η δ ε) :=
  match addFound so s (E.gibbs inter) with
  | .error e => .error e
  | .ok s1 =>
    if isOpen then
      match addFound so s1 (E.grand inter) with
      | .error e => .error e
      | .ok _ => .ok s1
    else .ok s1

/-- The enabled enumerators one after the other, src/rxn_network/pathways/solver.py:370-394. -/
def enumerateAll (so : List ℕ → List ℕ) (E : Enumerators η δ ε) (inter : List η) (isOpen useBasic useMinimize : Bool) (s : RSet η δ ε) :
    Except Err (RSet η δ ε) :=
  match if useBasic then addBasic so E inter isOpen s else .ok s with
  | .error e => .error e
  | .ok s1 => if useMinimize then addMinimize so E inter isOpen s1 else .ok s1

/-- `filter(lambda x: x.energy_per_atom < energy_cutoff, rxn_set)`, src/rxn_network/pathways/solver.py:396; reading the energy may raise. -/
def below (epa : SRxn η δ ε → Except Err ℚ) (cutoff : ℚ) : List (SRxn η δ ε) → Except Err (List (SRxn η δ ε))
  | [] => .ok []
  | r :: rs => match epa r with
    | .error e => .error e
    | .ok x => match below epa cutoff rs with
      | .error e => .error e
      | .ok l => .ok (if x < cutoff then r :: l else l)

/-- `_find_intermediate_rxns`, src/rxn_network/pathways/solver.py:342-403. `order` is the list of entries of an entry set or of
`sorted(set(entries), …)`, `so` the iteration order of a set of sizes. -/
def findIntermediate (uid : η → υ) (order : List η → List η) (so : List ℕ → List ℕ) (argsort : List ℚ → List ℕ)
    (groupBy : List (List ℕ) → List (List ℕ)) (cpus : ℕ) (wait : ℕ → List Task → List Task × List Task) (epa : SRxn η δ ε → Except Err ℚ)
    (isElem : η → Bool) (E : Enumerators η δ ε) (reactions : List (SRxn η δ ε)) (targets entries : List η) (openElem : Option ε) (chempot cutoff : ℚ)
    (useBasic useMinimize : Bool) : Except Err (RSet η δ ε) := do
  let inter := intermediates isElem reactions targets entries
  let s ← enumerateAll so E inter openElem.isSome useBasic useMinimize (mk (order inter) [] [] openElem chempot (some []))
  let rxns ← below epa cutoff (← getRxns s)
  let kept := rxns.filter fun r => r.entries.all fun e => decide (e ∈ inter)
  filterDuplicatesParallel argsort groupBy cpus wait (← fromRxns uid order kept none none 0) []

end Verif.Model.Intermediates
