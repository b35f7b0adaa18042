import Verif.Model.PyData
import Verif.Model.Utils

/-!
Model of `ReactionSet`, src/rxn_network/reactions/reaction_set.py. `η` is the type of entries, `δ` of per-reaction data,
`ε` of elements. numpy arrays are lists; rows of the index arrays are natural numbers (negative indices are never stored by
`from_rxns`). Iteration orders of Python sets, `np.argsort` and the grouping done by `np.unique`/`np.split` are parameters.
-/

namespace Verif.Model.RxnSet
open Verif.Py

variable {η δ ε υ : Type} [DecidableEq η] [DecidableEq ε] [DecidableEq υ]

/-- What determines a `ComputedReaction` / `OpenComputedReaction` constructed at
src/rxn_network/reactions/reaction_set.py:587-594: entries, coefficients, data and chemical potentials (`[]` for a closed
`ComputedReaction`). -/
structure SRxn (η δ ε : Type) where
  entries : List η
  coeffs : List ℚ
  data : δ
  chempots : List (ε × ℚ)
  deriving DecidableEq

/-- The fields of `ReactionSet`, src/rxn_network/reactions/reaction_set.py:63-94: dictionaries from reaction size to arrays. -/
structure RSet (η δ ε : Type) where
  entries : List η
  indices : List (ℕ × List (List ℕ))
  coeffs : List (ℕ × List (List ℚ))
  data : List (ℕ × List δ)
  openElem : Option ε
  chempot : ℚ
  deriving DecidableEq

/-- `__init__`, src/rxn_network/reactions/reaction_set.py:63-86; `all_data=None` creates an *empty* array per size. -/
def mk (entries : List η) (indices : List (ℕ × List (List ℕ))) (coeffs : List (ℕ × List (List ℚ))) (openElem : Option ε)
    (chempot : ℚ) (data : Option (List (ℕ × List δ))) : RSet η δ ε where
  entries := entries
  indices := indices
  coeffs := coeffs
  data := match data with
    | some d => d
    | none => indices.map fun p => (p.1, [])
  openElem := openElem
  chempot := chempot

/-- `mu_dict`, src/rxn_network/reactions/reaction_set.py:91-94 (`[]` for `None`). -/
def muDict (s : RSet η δ ε) : List (ε × ℚ) := match s.openElem with
  | some e => [(e, s.chempot)]
  | none => []

/-- `d[k]` with `KeyError`, src/rxn_network/reactions/reaction_set.py:581-583. -/
def getKey {α : Type} (d : List (ℕ × α)) (k : ℕ) : Except Err α := match dictGet d k with
  | some v => .ok v
  | none => .error .keyError

/-- `arr[i]` with `IndexError`, src/rxn_network/reactions/reaction_set.py:581-585. -/
def getIdx {α : Type} (l : List α) (i : ℕ) : Except Err α := match l[i]? with
  | some v => .ok v
  | none => .error .indexError

/-- One iteration of the inner loop, src/rxn_network/reactions/reaction_set.py:585-596. -/
def buildRxn (s : RSet η δ ε) (row : List ℕ × List ℚ × δ) : Except Err (SRxn η δ ε) :=
  (row.1.mapM (getIdx s.entries)).map fun es => ⟨es, row.2.1, row.2.2, muDict s⟩

/-- One iteration of the outer loop for a full slice, src/rxn_network/reactions/reaction_set.py:574-596:
`zip(..., strict=False)` truncates to the shortest array. -/
def sizeRxns (s : RSet η δ ε) (p : ℕ × List (List ℕ)) : Except Err (List (SRxn η δ ε)) := do
  let cs ← getKey s.coeffs p.1
  let ds ← getKey s.data p.1
  (p.2.zip (cs.zip ds)).mapM (buildRxn s)

/-- `get_rxns`, src/rxn_network/reactions/reaction_set.py:96-102 with :572-596 (full slices).
The generator is run to exhaustion. -/
def getRxns (s : RSet η δ ε) : Except Err (List (SRxn η δ ε)) :=
  (s.indices.mapM (sizeRxns s)).map List.flatten

/-- Fancy indexing `arr[idx_arr]`, src/rxn_network/reactions/reaction_set.py:581-583 and :604-608. -/
def pick {α : Type} (arr : List α) (is : List ℕ) : Except Err (List α) := is.mapM (getIdx arr)

/-- One iteration of the outer loop for a list of row numbers, src/rxn_network/reactions/reaction_set.py:574-596. -/
def pickedRxns (s : RSet η δ ε) (p : ℕ × List ℕ) : Except Err (List (SRxn η δ ε)) := do
  let is ← pick (← getKey s.indices p.1) p.2
  let cs ← pick (← getKey s.coeffs p.1) p.2
  let ds ← pick (← getKey s.data p.1) p.2
  (is.zip (cs.zip ds)).mapM (buildRxn s)

/-- `_get_rxns_by_indices`, src/rxn_network/reactions/reaction_set.py:572-596, for lists of row numbers. -/
def rxnsByIndices (s : RSet η δ ε) (idxs : List (ℕ × List ℕ)) : Except Err (List (SRxn η δ ε)) :=
  (idxs.mapM (pickedRxns s)).map List.flatten

/-- One of the dictionary comprehensions at src/rxn_network/reactions/reaction_set.py:604-608. -/
def pickDict {α : Type} (d : List (ℕ × List α)) (idxs : List (ℕ × List ℕ)) : Except Err (List (ℕ × List α)) :=
  idxs.mapM fun p => do return (p.1, ← pick (← getKey d p.1) p.2)

/-- `_get_rxn_set_by_indices`, src/rxn_network/reactions/reaction_set.py:598-609. -/
def setByIndices (s : RSet η δ ε) (idxs : List (ℕ × List ℕ)) : Except Err (RSet η δ ε) := do
  let i ← pickDict s.indices idxs
  let c ← pickDict s.coeffs idxs
  let d ← pickDict s.data idxs
  return mk s.entries i c s.openElem s.chempot (some d)

/-- `__len__`, src/rxn_network/reactions/reaction_set.py:651-653. -/
def len (s : RSet η δ ε) : ℕ := (s.indices.map fun p => p.2.length).sum

/-- `d[k].append(v)` after creating the empty list for a new key, src/rxn_network/reactions/reaction_set.py:149-156. -/
def dictAppend {α : Type} (d : List (ℕ × List α)) (k : ℕ) (v : α) : List (ℕ × List α) := match dictGet d k with
  | some l => dictSet d k (l ++ [v])
  | none => dictSet d k [v]

/-- `all_entry_indices[e.unique_id]`, src/rxn_network/reactions/reaction_set.py:144-147. -/
def entryIdx (uid : η → υ) (table : List (υ × ℕ)) (e : η) : Except Err ℕ := match dictGet table (uid e) with
  | some i => .ok i
  | none => .error .keyError

/-- Index of every entry of a reaction, src/rxn_network/reactions/reaction_set.py:142-147. -/
def rowOf (uid : η → υ) (table : List (υ × ℕ)) (r : SRxn η δ ε) : Except Err (List ℕ) := r.entries.mapM (entryIdx uid table)

/-- Choice of open element, src/rxn_network/reactions/reaction_set.py:163-173. -/
def detectOpen (rxns : List (SRxn η δ ε)) (openElem : Option ε) (chempot : ℚ) : Option ε × ℚ :=
  if (rxns.all fun r => decide (r.chempots ≠ [])) && openElem.isNone then
    match ((rxns.flatMap fun r => r.chempots).map Prod.fst).dedup, ((rxns.flatMap fun r => r.chempots).map Prod.snd).dedup with
    | [e], [m] => (some e, m)
    | _, _ => (openElem, chempot)
  else (openElem, chempot)

/-- `entries` or the union of the reactions' entries, src/rxn_network/reactions/reaction_set.py:123-124. -/
def givenEntries (rxns : List (SRxn η δ ε)) (entries : Option (List η)) : List η := match entries with
  | some (e :: es) => e :: es
  | _ => rxns.flatMap fun r => r.entries

/-- `from_rxns` without `filter_duplicates`, src/rxn_network/reactions/reaction_set.py:104-187. `setOrder` is
`sorted(set(entries), key=composition)` (a duplicate-free arrangement of the entries); the three dictionaries are filled in
lockstep, so one dictionary of triples is split afterwards. `uid` is `unique_id` or `entry_id`. -/
def fromRxns (uid : η → υ) (setOrder : List η → List η) (rxns : List (SRxn η δ ε)) (entries : Option (List η))
    (openElem : Option ε) (chempot : ℚ) : Except Err (RSet η δ ε) := do
  let es := setOrder (givenEntries rxns entries)
  let table := dictOf (es.zipIdx.map fun p => (uid p.1, p.2))
  let rows ← rxns.mapM (rowOf uid table)
  let d := (rows.zip rxns).foldl (fun d p => dictAppend d p.2.entries.length (p.1, p.2.coeffs, p.2.data)) []
  let om := detectOpen rxns openElem chempot
  return mk es (d.map fun p => (p.1, p.2.map fun t => t.1)) (d.map fun p => (p.1, p.2.map fun t => t.2.1)) om.1 om.2
    (some (d.map fun p => (p.1, p.2.map fun t => t.2.2)))

/-- Merging one of the three dictionaries for one size, src/rxn_network/reactions/reaction_set.py:320-332. `inA`/`inB` say
whether the size is a key of the two `indices` dictionaries. -/
def mergeAt {α : Type} (inA inB : Bool) (a b : List (ℕ × List α)) (size : ℕ) : Except Err (Option (ℕ × List α)) :=
  if inA && inB then do return some (size, (← getKey a size) ++ (← getKey b size))
  else if inA then do return some (size, ← getKey a size)
  else if inB then do return some (size, ← getKey b size)
  else .ok none

/-- `add_rxn_set`, src/rxn_network/reactions/reaction_set.py:303-334; `setOrder` is the iteration order of the set of sizes. -/
def addRxnSet (setOrder : List ℕ → List ℕ) (a b : RSet η δ ε) : Except Err (RSet η δ ε) :=
  if a.entries ≠ b.entries then .error .valueError
  else do
    let sizes := setOrder (a.indices.map Prod.fst ++ b.indices.map Prod.fst)
    let inA := fun n => decide (n ∈ a.indices.map Prod.fst)
    let inB := fun n => decide (n ∈ b.indices.map Prod.fst)
    let i ← sizes.mapM fun n => mergeAt (inA n) (inB n) a.indices b.indices n
    let c ← sizes.mapM fun n => mergeAt (inA n) (inB n) a.coeffs b.coeffs n
    let d ← sizes.mapM fun n => mergeAt (inA n) (inB n) a.data b.data n
    return mk a.entries (i.filterMap id) (c.filterMap id) a.openElem a.chempot (some (d.filterMap id))

/-- `add_rxns`, src/rxn_network/reactions/reaction_set.py:293-301. -/
def addRxns (uid : η → υ) (entryOrder : List η → List η) (setOrder : List ℕ → List ℕ) (a : RSet η δ ε)
    (rxns : List (SRxn η δ ε)) : Except Err (RSet η δ ε) := do
  addRxnSet setOrder a (← fromRxns uid entryOrder rxns (some a.entries) none 0)

/-- Row numbers selected by a Boolean test on (indices, coefficients), src/rxn_network/reactions/reaction_set.py:350-360 and
:388-399 (`np.argwhere` and the loop). -/
def selectRows (s : RSet η δ ε) (test : List ℕ → List ℚ → Bool) : Except Err (List (ℕ × List ℕ)) :=
  s.indices.mapM fun p => do
    let cs ← getKey s.coeffs p.1
    return (p.1, ((p.2.zip cs).zipIdx.filter fun q => test q.1.1 q.1.2).map Prod.snd)

/-- The reactant test, src/rxn_network/reactions/reaction_set.py:352 and :358-359. -/
def reactantTest (ridx : List ℕ) (is : List ℕ) (cs : List ℚ) : Bool :=
  (is.any fun i => decide (i ∈ ridx)) &&
    ((cs.zip is).filter fun p => decide (p.1 < 1 / 1000000000000)).all fun p => decide (p.2 ∈ ridx)

/-- Positions of the entries satisfying `p`, src/rxn_network/reactions/reaction_set.py:342-344. -/
def positions (es : List η) (p : η → Bool) : List ℕ := (es.zipIdx.filter fun q => p q.1).map Prod.snd

/-- `get_rxns_by_reactants(..., return_set=False)`, src/rxn_network/reactions/reaction_set.py:336-365. `inR e` says that the
reduced formula of `e` is in the list. -/
def byReactants (s : RSet η δ ε) (inR : η → Bool) : Except Err (List (SRxn η δ ε)) :=
  if positions s.entries inR = [] then .ok []
  else do rxnsByIndices s (← selectRows s (reactantTest (positions s.entries inR)))

/-- The product test, src/rxn_network/reactions/reaction_set.py:390 and :397-398. -/
def productTest (k : ℕ) (is : List ℕ) (cs : List ℚ) : Bool :=
  (is.any fun i => decide (i = k)) &&
    ((cs.zip is).filter fun p => decide (-(1 / 1000000000000) < p.1)).any fun p => decide (p.2 = k)

/-- `get_rxns_by_product(..., return_set=False)`, src/rxn_network/reactions/reaction_set.py:367-404. `isP e` says that the
reduced formula of `e` is the requested one. `if not product_index` is true for `None` *and* for index 0. -/
def byProduct (s : RSet η δ ε) (isP : η → Bool) : Except Err (List (SRxn η δ ε)) :=
  match s.entries.findIdx? isP with
  | none => .ok []
  | some 0 => .ok []
  | some (k + 1) => do rxnsByIndices s (← selectRows s (productTest (k + 1)))

/-! ### Duplicate filtering -/

/-- IEEE results of a division, as far as they can appear at src/rxn_network/reactions/reaction_set.py:668. -/
inductive Fl
  | fin (q : ℚ)
  | pinf
  | ninf
  | nan
  deriving DecidableEq

/-- numpy division, src/rxn_network/reactions/reaction_set.py:668. -/
def npdiv (a b : ℚ) : Fl :=
  if b = 0 then (if a = 0 then .nan else if 0 < a then .pinf else .ninf) else .fin (a / b)

/-- `abs`, src/rxn_network/reactions/reaction_set.py:670. -/
def Fl.abs : Fl → Fl
  | .fin q => .fin |q|
  | .pinf => .pinf
  | .ninf => .pinf
  | .nan => .nan

/-- `np.isclose` including non-finite values, src/rxn_network/reactions/reaction_set.py:670. -/
def Fl.close : Fl → Fl → Bool
  | .fin a, .fin b => isclose a b
  | .pinf, .pinf => true
  | .ninf, .ninf => true
  | _, _ => false

/-- Whether `other` counts as a positive multiple of `row`, src/rxn_network/reactions/reaction_set.py:668-671. An empty row
(numpy error) is mapped to `false`, which also ends in an error below. -/
def dupTest (row other : List ℚ) : Bool :=
  let m := List.zipWith npdiv other row
  match m with
  | [] => false
  | r0 :: _ => m.all fun r => r0.abs.close r

/-- The loop of `_get_idxs_to_keep`, src/rxn_network/reactions/reaction_set.py:663-688; the pair is `(to_keep, to_remove)`. -/
def keepLoop (rows : List (List ℚ)) (order ens : List ℕ) : List ℕ → List ℕ × List ℕ → Except Err (List ℕ × List ℕ)
  | [], st => .ok st
  | idx :: rest, (keep, rem) =>
    if idx ∈ rem then keepLoop rows order ens rest (keep, rem)
    else
      let group := order.filter fun j => dupTest (rows.getD idx []) (rows.getD j [])
      let overlap := group.filter fun j => decide (j ∈ ens)
      if ens ≠ [] ∧ overlap ≠ [] then
        if overlap.all fun j => decide (j ∈ keep) then keepLoop rows order ens rest (keep, rem)
        else keepLoop rows order ens rest (keep ++ overlap, rem ++ group.filter fun j => decide (j ∉ ens))
      else match group with
        | [] => .error .indexError
        | g :: gs => keepLoop rows order ens rest (keep ++ [g], rem ++ gs)

/-- Absolute coefficient sum of a row, src/rxn_network/reactions/reaction_set.py:658. -/
def absSum (row : List ℚ) : ℚ := (row.map fun c => |c|).sum

/-- `_get_idxs_to_keep`, src/rxn_network/reactions/reaction_set.py:656-690; `argsort` is `np.argsort`. -/
def idxsToKeep (argsort : List ℚ → List ℕ) (rows : List (List ℚ)) (ens : List ℕ) : Except Err (List ℕ) :=
  let order := argsort (rows.map absSum)
  (keepLoop rows order ens order ([], [])).map fun st => st.1.insertionSort (· ≤ ·)

/-- Body of the loop in `_process_duplicates`, src/rxn_network/reactions/reaction_set.py:732-741. -/
def processGroup (argsort : List ℚ → List ℕ) (coeffs : List (List ℚ)) (ens : List ℕ) (group : Option (List ℕ)) :
    Except Err (List ℕ) :=
  match group with
  | none => .ok []
  | some g => do
    let rows ← pick coeffs g
    let rel := (ens.filter fun i => decide (i ∈ g)).map fun i => g.idxOf i
    pick g (← idxsToKeep argsort rows rel)

/-- `_process_duplicates`, src/rxn_network/reactions/reaction_set.py:716-743. -/
def processDuplicates (argsort : List ℚ → List ℕ) (groups : List (Option (List ℕ))) (coeffs : List (List ℚ)) (ens : List ℕ) :
    Except Err (List ℕ) := (groups.mapM (processGroup argsort coeffs ens)).map List.flatten

/-- Reordering the columns of a row by ascending entry index, src/rxn_network/reactions/reaction_set.py:459-461 (stable). -/
def sortCols (is : List ℕ) (cs : List ℚ) : List (ℕ × ℚ) := (is.zip cs).insertionSort fun a b => a.1 ≤ b.1

/-- Row numbers grouped by equal sorted index rows, src/rxn_network/reactions/reaction_set.py:459-475; `groupBy` is the
`np.unique`/`np.argsort`/`np.split` combination. -/
def groupsOf (groupBy : List (List ℕ) → List (List ℕ)) (rows : List (List ℕ)) (cs : List (List ℚ)) : List (List ℕ) :=
  groupBy ((rows.zip cs).map fun p => (sortCols p.1 p.2).map Prod.fst)

/-- The column-sorted coefficient array, src/rxn_network/reactions/reaction_set.py:461. -/
def sortedCoeffs (rows : List (List ℕ)) (cs : List (List ℚ)) : List (List ℚ) :=
  (rows.zip cs).map fun p => (sortCols p.1 p.2).map Prod.snd

/-- Groups of one row are kept at once, src/rxn_network/reactions/reaction_set.py:476-477. -/
def singles (groups : List (List ℕ)) : List ℕ := (groups.filter fun g => decide (g.length = 1)).flatten

/-- The other groups, src/rxn_network/reactions/reaction_set.py:478-479. -/
def multis (groups : List (List ℕ)) : List (List ℕ) := groups.filter fun g => decide (g.length ≠ 1)

/-- Rows of one size kept by the serial branch, src/rxn_network/reactions/reaction_set.py:455-499. -/
def keepRows (argsort : List ℚ → List ℕ) (groupBy : List (List ℕ) → List (List ℕ)) (rows : List (List ℕ))
    (cs : List (List ℚ)) (ens : List ℕ) : Except Err (List ℕ) :=
  let groups := groupsOf groupBy rows cs
  (processDuplicates argsort ((multis groups).map some) (sortedCoeffs rows cs) ens).map fun l => singles groups ++ l

/-- `self.entries.index(e)`, src/rxn_network/reactions/reaction_set.py:436. -/
def listIndex (es : List η) (e : η) : Except Err ℕ := match es.findIdx? fun x => decide (x = e) with
  | some i => .ok i
  | none => .error .valueError

/-- The row of the set that equals an ensured reaction, src/rxn_network/reactions/reaction_set.py:435-453:
`(size, row number)`. The test on the first column is a pre-filter implied by the full comparison; an empty reaction
(`rxn_idxs[0]`) raises `IndexError`. -/
def findRow (s : RSet η δ ε) (r : SRxn η δ ε) : Except Err (ℕ × ℕ) := do
  let is ← r.entries.mapM (listIndex s.entries)
  if is = [] then .error .indexError
  else
    let rows ← getKey s.indices is.length
    let cs ← getKey s.coeffs is.length
    match (rows.zip cs).findIdx? fun p => decide (p.1 = is ∧ p.2 = r.coeffs) with
    | some i => .ok (is.length, i)
    | none => .error .valueError

/-- `ensure_idxs[size]` after the loop, src/rxn_network/reactions/reaction_set.py:431-453. -/
def ensOf (found : List (ℕ × ℕ)) (size : ℕ) : List ℕ := (found.filter fun p => decide (p.1 = size)).map Prod.snd

/-- One iteration of the loop over sizes, src/rxn_network/reactions/reaction_set.py:455-499. -/
def keepSize (argsort : List ℚ → List ℕ) (groupBy : List (List ℕ) → List (List ℕ)) (s : RSet η δ ε) (found : List (ℕ × ℕ))
    (p : ℕ × List (List ℕ)) : Except Err (ℕ × List ℕ) := do
  let cs ← getKey s.coeffs p.1
  return (p.1, ← keepRows argsort groupBy p.2 cs (ensOf found p.1))

/-- Row numbers kept by the serial branch, src/rxn_network/reactions/reaction_set.py:455-499. -/
def keepRowsSerial (argsort : List ℚ → List ℕ) (groupBy : List (List ℕ) → List (List ℕ)) (s : RSet η δ ε)
    (found : List (ℕ × ℕ)) : Except Err (List (ℕ × List ℕ)) :=
  s.indices.mapM (keepSize argsort groupBy s found)

/-- `filter_duplicates(ensure_rxns, parallelize=False)`, src/rxn_network/reactions/reaction_set.py:406-510. `idxs_to_keep` has
the sizes in the order of `self.indices`. -/
def filterDuplicates (argsort : List ℚ → List ℕ) (groupBy : List (List ℕ) → List (List ℕ)) (s : RSet η δ ε)
    (ensure : List (SRxn η δ ε)) : Except Err (RSet η δ ε) := do
  let found ← ensure.mapM (findRow s)
  setByIndices s (← keepRowsSerial argsort groupBy s found)

/-- A submitted Ray task, src/rxn_network/reactions/reaction_set.py:497: size, chunk of groups, coefficients, ensured rows. -/
structure Task where
  size : ℕ
  chunk : List (Option (List ℕ))
  coeffs : List (List ℚ)
  ens : List ℕ

/-- The remote function, src/rxn_network/reactions/reaction_set.py:693-713. -/
def runTask (argsort : List ℚ → List ℕ) (t : Task) : Except Err (ℕ × List ℕ) :=
  (processDuplicates argsort t.chunk t.coeffs t.ens).map fun l => (t.size, l)

/-- Tasks submitted for one size, src/rxn_network/reactions/reaction_set.py:484-497; `ncpu` is `num_cpus`, i.e. the number of
CPUs minus one. -/
def tasksOf (ncpu : ℕ) (size : ℕ) (groups : List (List ℕ)) (coeffs : List (List ℚ)) (ens : List ℕ) :
    Except Err (List Task) :=
  if multis groups = [] then .ok []
  else if ncpu = 0 then .error .zeroDivision
  else .ok ((Utils.grouper ((multis groups).map some) ((multis groups).length / ncpu + 1) none).map
    fun c => ⟨size, c, coeffs, ens⟩)

/-- One iteration of the loop over sizes, src/rxn_network/reactions/reaction_set.py:455-497. -/
def submitSize (groupBy : List (List ℕ) → List (List ℕ)) (ncpu : ℕ) (s : RSet η δ ε) (found : List (ℕ × ℕ))
    (p : ℕ × List (List ℕ)) : Except Err ((ℕ × List ℕ) × List Task) := do
  let cs ← getKey s.coeffs p.1
  let ts ← tasksOf ncpu p.1 (groupsOf groupBy p.2 cs) (sortedCoeffs p.2 cs) (ensOf found p.1)
  return ((p.1, singles (groupsOf groupBy p.2 cs)), ts)

/-- Row numbers kept by the parallel branch, src/rxn_network/reactions/reaction_set.py:425-510, for CPU count `cpus ≥ 1`.
`wait` is the `ray.wait` scheduler; `to_iterator` delivers the results in completion order. -/
def keepRowsParallel (argsort : List ℚ → List ℕ) (groupBy : List (List ℕ) → List (List ℕ)) (cpus : ℕ)
    (wait : ℕ → List Task → List Task × List Task) (s : RSet η δ ε) (found : List (ℕ × ℕ)) :
    Except Err (List (ℕ × List ℕ)) := do
  let parts ← s.indices.mapM (submitSize groupBy (cpus - 1) s found)
  let tasks := (parts.map fun q => q.2).flatten
  match Utils.toIterator (runTask argsort) wait tasks.length 0 tasks with
  | none => .error .indexError
  | some (_, some e) => .error e
  | some (out, none) =>
    return parts.map fun q => (q.1.1, q.1.2 ++ (out.filter fun r => decide (r.1 = q.1.1)).flatMap Prod.snd)

/-- `filter_duplicates(ensure_rxns, parallelize=True)`, src/rxn_network/reactions/reaction_set.py:406-510. -/
def filterDuplicatesParallel (argsort : List ℚ → List ℕ) (groupBy : List (List ℕ) → List (List ℕ)) (cpus : ℕ)
    (wait : ℕ → List Task → List Task × List Task) (s : RSet η δ ε) (ensure : List (SRxn η δ ε)) : Except Err (RSet η δ ε) := do
  let found ← ensure.mapM (findRow s)
  setByIndices s (← keepRowsParallel argsort groupBy cpus wait s found)

/-! ### Chemical potential and temperature -/

/-- `set_chempot`, src/rxn_network/reactions/reaction_set.py:512-528. -/
def setChempot (s : RSet η δ ε) (openElem : Option ε) (chempot : Option ℚ) : RSet η δ ε :=
  mk s.entries s.indices s.coeffs openElem (chempot.getD 0) (some s.data)

/-- `entries_at_temp.get(e.composition)`, src/rxn_network/reactions/computed.py:95; a missing key gives `None`, modelled as
`TypeError` (raised when the reaction is built). -/
def lookupT {κ : Type} [DecidableEq κ] (comp : η → κ) (table : List (κ × η)) (e : η) : Except Err η :=
  match dictGet table (comp e) with
  | some e' => .ok e'
  | none => .error .typeError

/-- `rxn.get_new_temperature(new_temp, entries)`, src/rxn_network/reactions/computed.py:94-108 and src/rxn_network/reactions/open.py:116-133, with the
dictionary keyed by composition. -/
def retemp {κ : Type} [DecidableEq κ] (comp : η → κ) (table : List (κ × η)) (r : SRxn η δ ε) : Except Err (SRxn η δ ε) :=
  (r.entries.mapM (lookupT comp table)).map fun es => { r with entries := es }

/-- `set_new_temperature`, src/rxn_network/reactions/reaction_set.py:530-547; `at_T` is `get_new_temperature(new_temp)`. -/
def setNewTemperature {κ : Type} [DecidableEq κ] (uid : η → υ) (setOrder : List η → List η) (comp : η → κ) (atT : η → η)
    (s : RSet η δ ε) : Except Err (RSet η δ ε) := do
  let table := dictOf (s.entries.map fun e => (comp e, atT e))
  let rxns ← getRxns s
  let new ← rxns.mapM (retemp comp table)
  fromRxns uid setOrder new none s.openElem s.chempot

/-- The body of the loop of `compute_at_temperatures` for one temperature, src/rxn_network/reactions/reaction_set.py:563-568. -/
def atTemperature {κ τ : Type} [DecidableEq κ] (uid : η → υ) (setOrder : List η → List η) (comp : η → κ) (atT : τ → η → η)
    (s : RSet η δ ε) (rxns : List (SRxn η δ ε)) (t : τ) : Except Err (RSet η δ ε) := do
  let table := dictOf (s.entries.map fun e => (comp e, atT t e))
  let new ← rxns.mapM (retemp comp table)
  fromRxns uid setOrder new none s.openElem s.chempot

/-- `result[t] = ...`, src/rxn_network/reactions/reaction_set.py:569. -/
def storeAt {κ τ : Type} [DecidableEq κ] [DecidableEq τ] (uid : η → υ) (setOrder : List η → List η) (comp : η → κ) (atT : τ → η → η)
    (s : RSet η δ ε) (rxns : List (SRxn η δ ε)) (d : List (τ × RSet η δ ε)) (t : τ) : Except Err (List (τ × RSet η δ ε)) :=
  (atTemperature uid setOrder comp atT s rxns t).map fun x => dictSet d t x

/-- `compute_at_temperatures`, src/rxn_network/reactions/reaction_set.py:549-570. -/
def computeAtTemperatures {κ τ : Type} [DecidableEq κ] [DecidableEq τ] (uid : η → υ) (setOrder : List η → List η) (comp : η → κ)
    (atT : τ → η → η) (s : RSet η δ ε) (temps : List τ) : Except Err (List (τ × RSet η δ ε)) := do
  let rxns ← getRxns s
  temps.foldlM (storeAt uid setOrder comp atT s rxns) []

end Verif.Model.RxnSet
