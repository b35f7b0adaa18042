import Verif.Model.Enum
import Verif.Model.Entries

/-!
Model of `src/rxn_network/enumerators/minimize.py`, of the phase diagram pre-loop of `BasicEnumerator.enumerate`
(src/rxn_network/enumerators/basic.py:174-199), of `_get_entries_and_pds` (basic.py:611-633) and of `get_computed_rxn` and
`react_interface` (src/rxn_network/enumerators/utils.py:32-89).

pymatgen's `PhaseDiagram`, `GrandPotentialPhaseDiagram` and interfacial reactivity classes are parameters (`mkPd`, `mkGrand`,
`kinks`); they may raise.
-/

namespace Verif.Model.Minimize
open Verif.Py Verif.Model.Enum

variable {η π γ : Type} [DecidableEq η]

/-- The tuple `(filtered_entries, pd, grand_pd)`, src/rxn_network/enumerators/basic.py:632. -/
structure Tag (η π γ : Type) where
  /-- `filtered_entries` -/
  entries : List η
  /-- `pd` -/
  pd : Option π
  /-- `grand_pd` -/
  grand : Option γ

/-- `x = None; if flag: x = build(...)`, src/rxn_network/enumerators/basic.py:619-630. -/
def optBuild {α : Type} (flag : Bool) (x : Except Err α) : Except Err (Option α) := if flag then x.map some else .ok none

/-- The body of `_get_entries_and_pds` for one system, src/rxn_network/enumerators/basic.py:617-632, for an enumerator that builds
at least one kind of phase diagram. -/
def pdItem (elems : η → List Sym) (entries : List η) (buildPd buildGrand : Bool) (mkPd : List η → Except Err π)
    (mkGrand : List η → Except Err γ) (key : List Char) : Except Err (Tag η π γ) := do
  let sub ← Entries.subsetInChemsysStr elems entries key
  let pd ← optBuild buildPd (mkPd sub)
  let grand ← optBuild buildGrand (mkGrand sub)
  return ⟨sub, pd, grand⟩

/-- One iteration of the loop of `_get_entries_and_pds`, src/rxn_network/enumerators/basic.py:613-632: a padding item is skipped. -/
def pdStep {τ : Type} (item : List Char → Except Err τ) (d : List (List Char × τ)) : Option (List Char) → Except Err (List (List Char × τ))
  | none => .ok d
  | some key => (item key).map fun t => dictSet d key t

/-- `_get_entries_and_pds` for one chunk, src/rxn_network/enumerators/basic.py:611-633. -/
def pdChunk {τ : Type} (item : List Char → Except Err τ) (chunk : List (Option (List Char))) : Except Err (List (List Char × τ)) :=
  chunk.foldlM (pdStep item) []

/-- The chunks of systems, src/rxn_network/enumerators/basic.py:179-182. -/
def pdChunks (keys : List (List Char)) (cpus : ℕ) : List (List (Option (List Char))) :=
  Utils.grouper (keys.map some) (keys.length / cpus + 1) none

/-- The pre-loop, src/rxn_network/enumerators/basic.py:174-199. `wait` is ray's scheduler; `num_cpus = 0` divides by zero. -/
def pdDict {τ : Type} (item : List Char → Except Err τ) (cpus : ℕ)
    (wait : ℕ → List (List (Option (List Char))) → List (List (Option (List Char))) × List (List (Option (List Char))))
    (keys : List (List Char)) : Except Err (List (List Char × τ)) :=
  if cpus = 0 then .error .zeroDivision
  else
    match Utils.toIterator (pdChunk item) wait (pdChunks keys cpus).length 0 (pdChunks keys cpus) with
    | none => .error .indexError
    | some (_, some e) => .error e
    | some (outs, none) => .ok (outs.foldl (fun d o => o.foldl (fun d p => dictSet d p.1 p.2) d) [])

/-- `pd_dict[chemsys]`, src/rxn_network/enumerators/basic.py:220. -/
def lookup {τ : Type} (d : List (List Char × τ)) (key : List Char) : Except Err τ := match dictGet d key with
  | some t => .ok t
  | none => .error .keyError

/-- `_get_rxn_iterable`, src/rxn_network/enumerators/minimize.py:116-120: `product(combos, [None])`; `None` becomes the empty set at
src/rxn_network/enumerators/basic.py:571. -/
def pairsMin (combos : List (List η)) : List (List η × List η) := combos.map fun c => (c, [])

/-- The tag of one item of the combination dictionary together with its iterable, src/rxn_network/enumerators/basic.py:215-220. -/
def itemMin {τ : Type} (d : List (List Char × τ)) (p : List Char × List (List η)) :
    Except Err (List (List η × List η) × τ) := (lookup d p.1).map fun t => (pairsMin p.2, t)

/-- `enumerate` of a minimization enumerator up to `ReactionSet.from_rxns`, src/rxn_network/enumerators/basic.py:155-268, with
`_rxn_iter_length` of src/rxn_network/enumerators/minimize.py:123-125. `waitPd` and `wait` are the two ray schedules. -/
def enumerateMin {τ : Type} (elems : η → List Sym) (cfg : Cfg η) (entries : List η) (n : ℤ) (item : List Char → Except Err τ)
    (cpus : ℕ)
    (waitPd : ℕ → List (List (Option (List Char))) → List (List (Option (List Char))) × List (List (Option (List Char))))
    (chunkSize maxJobs : ℕ) (react : List η → List η → τ → Except Err (List (Rx η)))
    (wait : ℕ → List (Chunk (List η × List η) τ) → List (Chunk (List η × List η) τ) × List (Chunk (List η × List η) τ)) :
    Except Err (List (Rx η)) := do
  let d := filterDict elems cfg (combosDict elems entries cfg.openEntries n)
  let pds ← pdDict item cpus waitPd (d.map Prod.fst)
  let size ← effSize chunkSize maxJobs (totalLen (fun c => c.length) d)
  let items ← d.mapM (itemMin pds)
  runChunks cfg react wait (buildChunks size items)

/-! ### The reactions of one pair -/

section react
variable {κ ε φ : Type} [DecidableEq κ] [DecidableEq ε] [DecidableEq φ]

/-- The entries chosen for one side, src/rxn_network/enumerators/utils.py:46-47. `form` is the reduced formula. -/
def pickEntries (form : κ → φ) (epa : Reaction.Entry κ → ℚ) (entries : List (Reaction.Entry κ)) (side : List κ) :
    Except Err (List (Reaction.Entry κ)) :=
  side.mapM fun c => Entries.getMinEntry (fun e : Reaction.Entry κ => form e.comp) epa entries (form c)

/-- `get_computed_rxn`, src/rxn_network/enumerators/utils.py:32-54. The chemical potentials are part of the result; an empty list
stands for a closed `ComputedReaction`. Both `balance` methods compute the same coefficients
(src/rxn_network/reactions/open.py:66-105). `rank`/`solve` are numpy (external). -/
def getComputedRxn (X : Chem κ ε) (form : κ → φ) (epa : Reaction.Entry κ → ℚ)
    (rank : List (Reaction.Entry κ) → List (Reaction.Entry κ) → ℕ)
    (solve : List (Reaction.Entry κ) → List (Reaction.Entry κ) → List ℕ → List ℚ)
    (entries : List (Reaction.Entry κ)) (rxn : Reaction.Rxn κ) (chempots : List (ε × ℚ)) :
    Except Err (Reaction.CRxn κ × List (ε × ℚ)) := do
  let rs ← pickEntries form epa entries (Reaction.reactants rxn)
  let ps ← pickEntries form epa entries (Reaction.products rxn)
  return (Reaction.balanceComputed X rs ps (rank rs ps) (solve rs ps) [], chempots)

/-- `react_interface`, src/rxn_network/enumerators/utils.py:57-89. `kinks` is the list of reactions of pymatgen's
`get_kinks()` (external). The chemical potentials are those of the grand potential diagram, if there is one. -/
def reactInterface (X : Chem κ ε) (form : κ → φ) (epa : Reaction.Entry κ → ℚ)
    (rank : List (Reaction.Entry κ) → List (Reaction.Entry κ) → ℕ)
    (solve : List (Reaction.Entry κ) → List (Reaction.Entry κ) → List ℕ → List ℚ)
    (kinks : κ → κ → Option π → Option γ → Except Err (List (Reaction.Rxn κ))) (potsOf : γ → List (ε × ℚ))
    (a b : κ) (t : Tag (Reaction.Entry κ) π γ) : Except Err (List (Reaction.CRxn κ × List (ε × ℚ))) := do
  let rxns ← kinks a b t.pd t.grand
  rxns.mapM fun r => getComputedRxn X form epa rank solve t.entries r ((t.grand.map potsOf).getD [])

/-- `r = list(reactants); r0 = r[0]; r1 = r[0] if len(r) == 1 else r[1]`, src/rxn_network/enumerators/minimize.py:102-105. -/
def firstTwo {α : Type} : List α → Except Err (α × α)
  | [] => .error .indexError
  | [a] => .ok (a, a)
  | a :: b :: _ => .ok (a, b)

/-- `MinimizeGibbsEnumerator._react_function`, src/rxn_network/enumerators/minimize.py:96-113. `order` is the iteration order of the
set of reactants. -/
def reactGibbs (X : Chem κ ε) (form : κ → φ) (epa : Reaction.Entry κ → ℚ)
    (rank : List (Reaction.Entry κ) → List (Reaction.Entry κ) → ℕ)
    (solve : List (Reaction.Entry κ) → List (Reaction.Entry κ) → List ℕ → List ℚ)
    (kinks : κ → κ → Option π → Option γ → Except Err (List (Reaction.Rxn κ))) (potsOf : γ → List (ε × ℚ))
    (order : List (Reaction.Entry κ) → List (Reaction.Entry κ))
    (r : List (Reaction.Entry κ)) (_ : List (Reaction.Entry κ)) (t : Tag (Reaction.Entry κ) π γ) :
    Except Err (List (Reaction.CRxn κ × List (ε × ℚ))) := do
  let p ← firstTwo (order r)
  reactInterface X form epa rank solve kinks potsOf p.1.comp p.2.comp t

/-- `open_elem = next(iter(grand_pd.chempots.keys()))`, src/rxn_network/enumerators/minimize.py:235. Without a grand potential diagram
the attribute access fails; without chemical potentials `next` raises `StopIteration` (recorded as `indexError`). -/
def openElem (potsOf : γ → List (ε × ℚ)) : Option γ → Except Err ε
  | none => .error .attributeError
  | some g => match potsOf g with
    | [] => .error .indexError
    | p :: _ => .ok p.1

/-- `MinimizeGrandPotentialEnumerator._react_function`, src/rxn_network/enumerators/minimize.py:224-248: nothing is suggested when
some reactant is the open element. -/
def reactGrand (X : Chem κ ε) (form : κ → φ) (epa : Reaction.Entry κ → ℚ)
    (rank : List (Reaction.Entry κ) → List (Reaction.Entry κ) → ℕ)
    (solve : List (Reaction.Entry κ) → List (Reaction.Entry κ) → List ℕ → List ℚ)
    (kinks : κ → κ → Option π → Option γ → Except Err (List (Reaction.Rxn κ))) (potsOf : γ → List (ε × ℚ))
    (order : List (Reaction.Entry κ) → List (Reaction.Entry κ))
    (r : List (Reaction.Entry κ)) (_ : List (Reaction.Entry κ)) (t : Tag (Reaction.Entry κ) π γ) :
    Except Err (List (Reaction.CRxn κ × List (ε × ℚ))) := do
  let p ← firstTwo (order r)
  let o ← openElem potsOf t.grand
  if r.any fun e => X.elems e.comp = [o] then return []
  else reactInterface X form epa rank solve kinks potsOf p.1.comp p.2.comp t

/-- What `_react` sees of the suggestions, src/rxn_network/enumerators/basic.py:587-600. -/
def viewAll (x : Except Err (List (Reaction.CRxn κ × List (ε × ℚ)))) : Except Err (List (Rx (Reaction.Entry κ))) :=
  x.map fun l => l.map fun p => viewOf p.1

end react

end Verif.Model.Minimize
