import Verif.Model.PyData
import Verif.Model.Utils
import Verif.Model.Balance
import Mathlib.Data.List.Dedup
import Mathlib.Data.List.Sort
import Mathlib.Data.Char

/-!
Model of `src/rxn_network/enumerators/basic.py` (candidate generation, chunking, filtering) and of the grouping helpers in
`src/rxn_network/enumerators/utils.py`.

Python sets of entries are duplicate-free lists whose order is the (arbitrary) iteration order; only membership is used by the
set operations below.
-/

namespace Verif.Model.Enum
open Verif.Py

/-! ### Chunking -/

/-- A chunk: candidate pairs together with the references `(filtered_entries, pd, grand_pd)` of their chemical system
(one tag `τ`), src/rxn_network/enumerators/basic.py:228. -/
abbrev Chunk (ρ τ : Type) := List (List ρ × τ)

/-- `current_chunk[-1][0].append(r)`, src/rxn_network/enumerators/basic.py:235. On an empty chunk Python would raise
`IndexError`; a segment has always been appended before (line 227), and the losslessness theorem would fail otherwise. -/
def appendLast {ρ τ : Type} : Chunk ρ τ → ρ → Chunk ρ τ
  | [], _ => []
  | [(l, t)], r => [(l ++ [r], t)]
  | s :: s' :: c, r => s :: appendLast (s' :: c) r

/-- `sum(len(c[0]) for c in current_chunk)`, src/rxn_network/enumerators/basic.py:226. -/
def load {ρ τ : Type} (c : Chunk ρ τ) : ℕ := (c.map fun s => s.1.length).sum

/-- Loop state: `to_run`, `current_chunk`, `current_chunk_length`, src/rxn_network/enumerators/basic.py:208,226. -/
structure St (ρ τ : Type) where
  done : List (Chunk ρ τ)
  cur : Chunk ρ τ
  len : ℕ

/-- Inner loop body, src/rxn_network/enumerators/basic.py:229-236. -/
def pushPair {ρ τ : Type} (size : ℕ) (tag : τ) (st : St ρ τ) (r : ρ) : St ρ τ :=
  if st.len = size then ⟨st.done ++ [st.cur], [([r], tag)], 1⟩
  else ⟨st.done, appendLast st.cur r, st.len + 1⟩

/-- End of one chemical system, src/rxn_network/enumerators/basic.py:238-240. -/
def flush {ρ τ : Type} (size : ℕ) (st : St ρ τ) : St ρ τ :=
  if st.len = size then ⟨st.done ++ [st.cur], [], st.len⟩ else st

/-- Outer loop body for one chemical system with its pairs and references, src/rxn_network/enumerators/basic.py:209-240. -/
def pushItem {ρ τ : Type} (size : ℕ) (st : St ρ τ) (item : List ρ × τ) : St ρ τ :=
  flush size (item.1.foldl (pushPair size item.2) ⟨st.done, st.cur ++ [([], item.2)], load st.cur⟩)

/-- Chunk construction, src/rxn_network/enumerators/basic.py:208-243: the list `to_run`. -/
def buildChunks {ρ τ : Type} (size : ℕ) (items : List (List ρ × τ)) : List (Chunk ρ τ) :=
  let st := items.foldl (pushItem size) ⟨[], [], 0⟩
  if st.cur = [] then st.done else st.done ++ [st.cur]

/-- Chunk size after applying the job limit, src/rxn_network/enumerators/basic.py:201-206. -/
def effSize (chunkSize maxJobs total : ℕ) : Except Err ℕ :=
  if chunkSize = 0 then .error .zeroDivision
  else if (maxJobs : ℚ) < (total : ℚ) / chunkSize then
    if maxJobs = 0 then .error .zeroDivision else .ok (total / maxJobs + 1)
  else .ok chunkSize

/-! ### Candidate pairs -/

/-- An element symbol (`str(el)`), src/rxn_network/enumerators/utils.py:117. -/
abbrev Sym := List Char

variable {η : Type} [DecidableEq η]

/-- `combo & other` as a list, src/rxn_network/enumerators/basic.py:520,534,579. -/
def inter (a b : List η) : List η := a.filter fun x => x ∈ b

/-- `a | b`, src/rxn_network/enumerators/basic.py:534,574. -/
def union (a b : List η) : List η := a ++ b.filter fun x => x ∉ a

/-- `get_total_chemsys_str`, src/rxn_network/enumerators/utils.py:107-117. -/
def chemsysKey (elems : η → List Sym) (combo : List η) (openElems : List Sym) : List Char :=
  ['-'].intercalate (((combo.flatMap elems ++ openElems).dedup).insertionSort (· ≤ ·))

/-- `combo_dict[key].append(combo)` / `combo_dict[key] = [combo]`, src/rxn_network/enumerators/utils.py:131-136. -/
def addCombo {κ α : Type} [DecidableEq κ] (d : List (κ × List α)) (k : κ) (c : α) : List (κ × List α) := match dictGet d k with
  | some l => dictSet d k (l ++ [c])
  | none => dictSet d k [c]

/-- `group_by_chemsys`, src/rxn_network/enumerators/utils.py:120-138. -/
def groupByChemsys (elems : η → List Sym) (combos : List (List η)) (openElems : List Sym) : List (List Char × List (List η)) :=
  combos.foldl (fun d c => addCombo d (chemsysKey elems c openElems) c) []

/-- Grouped combinations before filtering, src/rxn_network/enumerators/basic.py:288-299. `entries` is the iteration order of
the entry set. -/
def combosDict (elems : η → List Sym) (entries openEntries : List η) (n : ℤ) : List (List Char × List (List η)) :=
  groupByChemsys elems (Utils.limitedPowerset (entries.filter fun e => e ∉ openEntries) n) (openEntries.flatMap elems)

/-- `getattr(base, "issuperset" | "intersection")(x)` used as a truth value, src/rxn_network/enumerators/basic.py:114-115,
392,395,576-577. -/
def setFunc {α : Type} [DecidableEq α] (excl : Bool) (base x : List α) : Bool :=
  if excl then x.all fun a => a ∈ base else x.any fun a => a ∈ base

/-- Enumerator settings after `_get_initialized_entries`, src/rxn_network/enumerators/basic.py:102-116,329-366. -/
structure Cfg (η : Type) where
  precursors : List η
  targets : List η
  openEntries : List η
  exclP : Bool
  exclT : Bool
  removeUnbalanced : Bool
  removeChanged : Bool
  maxConstraints : ℕ
  filterChemsys : List Char -- `[]` is `None` (or the empty string)

/-- The condition of `_filter_dict_by_elems` for one key, src/rxn_network/enumerators/basic.py:386-401: `true` = kept. -/
def keepSys (elems : η → List Sym) (cfg : Cfg η) (key : List Char) : Bool :=
  let els := (key.splitOn '-').dedup
  let opens := cfg.openEntries.flatMap elems
  if cfg.filterChemsys ≠ [] ∧ ¬ (∀ f ∈ cfg.filterChemsys.splitOn '-', f ∈ els) then false
  else if 10 ≤ els.length ∨ els.length = 1 then false
  else if cfg.precursors ≠ [] ∧ ¬ setFunc cfg.exclP (cfg.precursors.flatMap elems ++ opens) els then false
  else if cfg.targets ≠ [] ∧ ¬ setFunc cfg.exclT (cfg.targets.flatMap elems ++ opens) els then false
  else true

/-- `_filter_dict_by_elems`, src/rxn_network/enumerators/basic.py:368-403. -/
def filterDict (elems : η → List Sym) (cfg : Cfg η) (d : List (List Char × List (List η))) : List (List Char × List (List η)) :=
  d.filter fun p => keepSys elems cfg p.1

/-- `combinations(combos, 2)` as pairs, src/rxn_network/enumerators/basic.py:323-327. -/
def pairs2 {α : Type} : List α → List (α × α)
  | [] => []
  | a :: l => l.map (fun b => (a, b)) ++ pairs2 l

/-- `_get_open_combos` of the open enumerator, src/rxn_network/enumerators/basic.py:524-528. -/
def openCombos (openEntries : List η) : List (List η) := Utils.limitedPowerset openEntries openEntries.length

/-- `combos_with_open`, src/rxn_network/enumerators/basic.py:533-535. -/
def combosWithOpen (combos ocs : List (List η)) : List (List η) :=
  combos.flatMap fun c => (ocs.filter fun o => inter c o = []).map fun o => union c o

/-- `_get_rxn_iterable` of the open enumerator, src/rxn_network/enumerators/basic.py:530-536. -/
def pairsOpen (combos ocs : List (List η)) : List (List η × List η) :=
  combos.flatMap fun c => (combosWithOpen combos ocs).map fun d => (c, d)

/-- `_rxn_iter_length` of the open enumerator, src/rxn_network/enumerators/basic.py:518-522. -/
def iterLengthOpen (combos ocs : List (List η)) : ℕ :=
  combos.length * (combos.map fun i => (ocs.map fun j => if inter i j = [] then 1 else 0).sum).sum

/-! ### Reacting and filtering -/

/-- What the filter reads from a suggested reaction, src/rxn_network/enumerators/basic.py:591-600. `lne = none` is infinity;
`nc = none` is a missing `num_constraints` key. -/
structure Rx (η : Type) where
  isIdentity : Bool
  balanced : Bool
  lne : Option ℕ
  nc : Option ℚ
  reactants : List η
  products : List η
  deriving DecidableEq

/-- `precursor_func`, src/rxn_network/enumerators/basic.py:576. -/
def precFunc (cfg : Cfg η) (x : List η) : Bool :=
  if cfg.precursors = [] then true else setFunc cfg.exclP (union cfg.precursors cfg.openEntries) x

/-- `target_func`, src/rxn_network/enumerators/basic.py:577. -/
def targFunc (cfg : Cfg η) (x : List η) : Bool :=
  if cfg.targets = [] then true else setFunc cfg.exclT (union cfg.targets cfg.openEntries) x

/-- The early filter on a candidate pair, src/rxn_network/enumerators/basic.py:571-585: `true` = reacted. `p = []` is the
missing product side of the minimization enumerators. -/
def earlyOk (cfg : Cfg η) (r p : List η) : Bool :=
  if inter r p ≠ [] ∨ (cfg.precursors ≠ [] ∧ inter cfg.precursors (union r p) = []) ∨
      (p ≠ [] ∧ cfg.targets ≠ [] ∧ inter cfg.targets (union r p) = []) then false
  else if ¬ (precFunc cfg r ∨ (p ≠ [] ∧ precFunc cfg p)) then false
  else if p ≠ [] ∧ ¬ (targFunc cfg r ∨ targFunc cfg p) then false
  else true

/-- The final filter on a suggested reaction, src/rxn_network/enumerators/basic.py:591-603. -/
def accept (cfg : Cfg η) (x : Rx η) : Except Err Bool :=
  if x.isIdentity ∨ (cfg.removeUnbalanced ∧ ¬ x.balanced) ∨ (cfg.removeChanged ∧ x.lne ≠ some 0) then .ok false
  else match x.nc with
    | none => .error .keyError
    | some k =>
      if (cfg.maxConstraints : ℚ) < k then .ok false
      else .ok (precFunc cfg (x.reactants.filter fun e => e ∉ cfg.openEntries) &&
        targFunc cfg (x.products.filter fun e => e ∉ cfg.openEntries))

/-- `for rxn in suggested_rxns`, src/rxn_network/enumerators/basic.py:589-603. -/
def acceptAll (cfg : Cfg η) : List (Rx η) → Except Err (List (Rx η))
  | [] => .ok []
  | x :: xs => do
    let b ← accept cfg x
    let rest ← acceptAll cfg xs
    return if b then x :: rest else rest

/-- One iteration over a pair, src/rxn_network/enumerators/basic.py:568-605. `react` is the enumerator's `_react_function`
(balancing, interfacial reactivity: external), given the references of the chemical system. -/
def reactPair {τ : Type} (cfg : Cfg η) (react : List η → List η → τ → Except Err (List (Rx η))) (rp : List η × List η) (t : τ) :
    Except Err (List (Rx η)) :=
  if earlyOk cfg rp.1 rp.2 then do acceptAll cfg (← react rp.1 rp.2 t) else .ok []

/-- `for rp in rxn_iterable`, src/rxn_network/enumerators/basic.py:567-605. -/
def reactSeg {τ : Type} (cfg : Cfg η) (react : List η → List η → τ → Except Err (List (Rx η)))
    (s : List (List η × List η) × τ) : Except Err (List (Rx η)) :=
  (s.1.mapM fun rp => reactPair cfg react rp s.2).map List.flatten

/-- `_react` on a chunk, src/rxn_network/enumerators/basic.py:539-607. -/
def reactChunk {τ : Type} (cfg : Cfg η) (react : List η → List η → τ → Except Err (List (Rx η)))
    (c : Chunk (List η × List η) τ) : Except Err (List (Rx η)) :=
  (c.mapM (reactSeg cfg react)).map List.flatten

/-- Submission and collection of the chunks, src/rxn_network/enumerators/basic.py:245-268. `wait` is ray's scheduler. -/
def runChunks {τ : Type} (cfg : Cfg η) (react : List η → List η → τ → Except Err (List (Rx η)))
    (wait : ℕ → List (Chunk (List η × List η) τ) → List (Chunk (List η × List η) τ) × List (Chunk (List η × List η) τ))
    (chunks : List (Chunk (List η × List η) τ)) : Except Err (List (Rx η)) :=
  match Utils.toIterator (reactChunk cfg react) wait chunks.length 0 chunks with
  | none => .error .indexError
  | some (_, some e) => .error e
  | some (out, none) => .ok out.flatten

/-- `total`, src/rxn_network/enumerators/basic.py:202, from the enumerator's `_rxn_iter_length`. -/
def totalLen {κ α : Type} (iterLen : List α → ℕ) (d : List (κ × List α)) : ℕ := (d.map fun p => iterLen p.2).sum

/-- `enumerate` after entry initialization and up to `ReactionSet.from_rxns`, src/rxn_network/enumerators/basic.py:155-268.
`pairsOf`/`iterLen` are `_get_rxn_iterable`/`_rxn_iter_length`, `tagOf` gives the references of a chemical system. -/
def enumerate {τ : Type} (elems : η → List Sym) (cfg : Cfg η) (entries : List η) (n : ℤ)
    (pairsOf : List (List η) → List (List η × List η)) (iterLen : List (List η) → ℕ) (tagOf : List Char → τ)
    (chunkSize maxJobs : ℕ) (react : List η → List η → τ → Except Err (List (Rx η)))
    (wait : ℕ → List (Chunk (List η × List η) τ) → List (Chunk (List η × List η) τ) × List (Chunk (List η × List η) τ)) :
    Except Err (List (Rx η)) := do
  let d := filterDict elems cfg (combosDict elems entries cfg.openEntries n)
  let size ← effSize chunkSize maxJobs (totalLen iterLen d)
  runChunks cfg react wait (buildChunks size (d.map fun p => (pairsOf p.2, tagOf p.1)))

/-- What the filter sees of a `ComputedReaction`, src/rxn_network/enumerators/basic.py:591-600; the entry lists are
src/rxn_network/reactions/computed.py:43-44. `is_identity` never raises for dictionaries built from one coefficient list. -/
def viewOf {κ : Type} [DecidableEq κ] (c : Reaction.CRxn κ) : Rx (Reaction.Entry κ) where
  isIdentity := (Reaction.isIdentity c.base).getD true
  balanced := c.base.balanced
  lne := c.base.lne
  nc := dictGet c.base.data "num_constraints"
  reactants := ((c.entries.zip c.base.coeffs).filter fun p => p.2 < 0).map Prod.fst
  products := ((c.entries.zip c.base.coeffs).filter fun p => 0 < p.2).map Prod.fst

/-- `BasicEnumerator._react_function`, src/rxn_network/enumerators/basic.py:315-320: the balanced reaction and its reverse.
`rank`/`solve` are numpy's rank and pseudo-inverse solutions for the given sides (external). -/
def reactBasic {κ ε τ : Type} [DecidableEq κ] [DecidableEq ε] (X : Chem κ ε)
    (rank : List (Reaction.Entry κ) → List (Reaction.Entry κ) → ℕ)
    (solve : List (Reaction.Entry κ) → List (Reaction.Entry κ) → List ℕ → List ℚ)
    (r p : List (Reaction.Entry κ)) (_ : τ) : Except Err (List (Rx (Reaction.Entry κ))) :=
  let f := Reaction.balanceComputed X r p (rank r p) (solve r p) []
  .ok [viewOf f, viewOf (Reaction.creverse X f)]

end Verif.Model.Enum
