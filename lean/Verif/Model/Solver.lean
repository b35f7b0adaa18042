import Verif.Model.Pathway

/-!
Model of the pathway solver, src/rxn_network/pathways/solver.py.  Floats are rationals; arrays are lists; a composition
matrix is the list of its rows, one per reaction.  External calls are parameters: `pinv` stands for
`np.linalg.pinv(mat).T @ net`, `wait` for `ray.wait`, `eq` for `==` on reactions, `pick` for `set(...)` on pathways.
The task executions of ray are the functions themselves.
-/

namespace Verif.Model.Solver
open Verif.Py Verif.Model.RxnSet Verif.Model.Pathway

/-- A combination of reactions as a matrix, one row per reaction (`np.vstack`), src/rxn_network/pathways/solver.py:474. -/
abbrev Mat := List (List ℚ)

variable {η δ ε κ : Type} [DecidableEq κ]

/-- `Solver.__init__`, src/rxn_network/pathways/solver.py:52-62, and the same loop over intermediate reactions,
:195-198: candidates with their costs, skipping those that equal an earlier one (`rxn not in rxns`). -/
def collectRxns {ρ : Type} (eq : ρ → ρ → Bool) (acc : List (ρ × ℚ)) : List (ρ × ℚ) → List (ρ × ℚ)
  | [] => acc
  | rc :: rest =>
    if acc.any fun a => eq a.1 rc.1 then collectRxns eq acc rest else collectRxns eq (acc ++ [rc]) rest

/-- The pairs visited by the two loops, src/rxn_network/pathways/solver.py:55-56. -/
def pathPairs {ρ : Type} (paths : List (Path ρ)) : List (ρ × ℚ) := paths.flatMap fun p => p.reactions.zip p.costs

/-- `cleaned_reactions, cleaned_costs`, src/rxn_network/pathways/solver.py:200-203: `inClean r` is `r in clean_r_set`;
unpacking `zip(*[])` raises `ValueError`. -/
def clean {ρ : Type} (inClean : ρ → Bool) (ne : ρ → Bool) (cands : List (ρ × ℚ)) : Except Err (List (ρ × ℚ)) :=
  match cands.filter fun a => inClean a.1 && ne a.1 with
  | [] => .error .valueError
  | c => .ok c

/-- `v[indices] = coefficients` on a zero vector, one position after the other,
src/rxn_network/reactions/computed.py:213-217. -/
def assign : List ℚ → List (ℕ × ℚ) → Except Err (List ℚ)
  | v, [] => .ok v
  | v, (i, c) :: rest => if i < v.length then assign (v.set i c) rest else .error .indexError

/-- `get_entry_idx_vector(n)`, src/rxn_network/reactions/computed.py:204-217.  `idx e` is `e.data["idx"]` (negative indices
are not modelled); different numbers of entries and coefficients raise `ValueError`. -/
def idxVector (idx : η → ℕ) (n : ℕ) (r : SRxn η δ ε) : Except Err (List ℚ) :=
  if r.entries.length ≠ r.coeffs.length then .error .valueError
  else assign (List.replicate n 0) ((r.entries.map idx).zip r.coeffs)

/-- The filter on one matrix, src/rxn_network/pathways/solver.py:477 and :436-442: each component of the net reaction occurs
in some row. -/
def covers (net : List ℚ) (mat : Mat) : Bool :=
  (List.range net.length).all fun j => decide (net.getD j 0 = 0) || mat.any fun row => decide (row.getD j 0 ≠ 0)

/-- The rows of one combination, src/rxn_network/pathways/solver.py:474. -/
def matOf (idx : η → ℕ) (n : ℕ) (rxns : List (SRxn η δ ε)) (combo : List ℕ) : Except Err Mat :=
  combo.mapM fun i => (getIdx rxns i).bind (idxVector idx n)

/-- `_create_comp_matrices`, src/rxn_network/pathways/solver.py:470-477: `None` paddings are skipped, `np.stack([])` raises
`ValueError`. -/
def createMats (idx : η → ℕ) (n : ℕ) (rxns : List (SRxn η δ ε)) (net : List ℚ) (group : List (Option (List ℕ))) :
    Except Err (List Mat) :=
  match (group.filterMap id).mapM (matOf idx n rxns) with
  | .error e => .error e
  | .ok [] => .error .valueError
  | .ok (m :: ms) => .ok ((m :: ms).filter (covers net))

/-- Exhausting `to_iterator`, src/rxn_network/pathways/solver.py:231-233, 274-279 and 287-292. -/
def collect {ι β : Type} (wait : ℕ → List ι → List ι × List ι) (task : ι → Except Err β) (refs : List ι) :
    Except Err (List β) :=
  match Utils.toIterator task wait refs.length 0 refs with
  | some (out, none) => .ok out
  | some (_, some e) => .error e
  | none => .error .indexError

/-- `np.concatenate`, src/rxn_network/pathways/solver.py:235. -/
def concat {β : Type} : List (List β) → Except Err (List β)
  | [] => .error .valueError
  | l => .ok l.flatten

/-- The matrices of size `k`, src/rxn_network/pathways/solver.py:218-238; `none` when deleted (:237-238). -/
def stage (wait : ℕ → List (List (Option (List ℕ))) → List (List (Option (List ℕ))) × List (List (Option (List ℕ))))
    (idx : η → ℕ) (n : ℕ) (rxns : List (SRxn η δ ε)) (net : List ℚ) (chunk k : ℕ) : Except Err (ℕ × List Mat) :=
  match collect wait (createMats idx n rxns net)
      (Utils.grouper ((combinations (List.range rxns.length) k).map some) chunk none) with
  | .error e => .error e
  | .ok groups => (concat groups).map fun mats => (k, mats)

/-- `comp_matrices[n].any()`, src/rxn_network/pathways/solver.py:237. -/
def anyNonzero (mats : List Mat) : Bool := mats.any fun m => m.any fun row => row.any fun c => decide (c ≠ 0)

/-- `np.array_split(l, k)`, used at src/rxn_network/pathways/solver.py:255: the first `len % k` parts are one longer. -/
def splitSizes {β : Type} : List ℕ → List β → List (List β)
  | [], _ => []
  | s :: ss, l => l.take s :: splitSizes ss (l.drop s)

/-- `np.array_split(l, k)`, src/rxn_network/pathways/solver.py:255. -/
def arraySplit {β : Type} (l : List β) (k : ℕ) : List (List β) :=
  splitSizes (List.replicate (l.length % k) (l.length / k + 1) ++ List.replicate (k - l.length % k) (l.length / k)) l

/-- `splits` without the empty ones, src/rxn_network/pathways/solver.py:253-261. -/
def jobsOf (chunk : ℕ) (p : ℕ × List Mat) : List (List Mat) :=
  (if 4 ≤ p.1 then arraySplit p.2 (p.2.length / chunk + 1) else [p.2]).filter fun g => !g.isEmpty

/-- The batches in which jobs are submitted, src/rxn_network/pathways/solver.py:259-292: a batch is flushed when it holds
`batch` jobs, and what is left (possibly nothing) at the end. -/
def batches {β : Type} (batch : ℕ) : List β → List β → List (List β)
  | pend, [] => [pend]
  | pend, g :: gs =>
    if batch ≤ (pend ++ [g]).length then (pend ++ [g]) :: batches batch [] gs else batches batch (pend ++ [g]) gs

/-- `comp_matrices[i].T @ multiplicities`, one component, src/rxn_network/pathways/solver.py:446. -/
def solvedAt (mat : Mat) (mult : List ℚ) (j : ℕ) : ℚ := (mat.zipWith (fun row m => row.getD j 0 * m) mult).sum

/-- The two tests, src/rxn_network/pathways/solver.py:448-452. -/
def accepted (tol : ℚ) (net : List ℚ) (mat : Mat) (mult : List ℚ) : Bool :=
  !(mult.any fun m => decide (m < tol)) &&
    (List.range net.length).all fun j =>
      decide (|solvedAt mat mult j - net.getD j 0| ≤ 1 / 10 ^ 8 + 1 / 10 ^ 5 * |net.getD j 0|)

/-- One iteration of `_balance_path_arrays_cpu`, src/rxn_network/pathways/solver.py:434-455. -/
def balanceOne (pinv : Mat → List ℚ → Except Err (List ℚ)) (tol : ℚ) (net : List ℚ) (mat : Mat) :
    Except Err (Option (Mat × List ℚ)) :=
  if covers net mat then
    match pinv mat net with
    | .error e => .error e
    | .ok mult => .ok (if accepted tol net mat mult then some (mat, mult) else none)
  else .ok none

/-- `_balance_path_arrays_cpu`, src/rxn_network/pathways/solver.py:411-467, and its wrapper :480-486 with the default
tolerance. -/
def balance (pinv : Mat → List ℚ → Except Err (List ℚ)) (net : List ℚ) (mats : List Mat) :
    Except Err (List (Mat × List ℚ)) :=
  (mats.mapM (balanceOne pinv (1 / 10 ^ 6) net)).map fun l => l.filterMap id

/-- The reaction rebuilt from a row, src/rxn_network/pathways/solver.py:304-316: unpacking `zip(*[])` raises `ValueError`. -/
def rebuild (entries : List η) (data : δ) (mu : List (ε × ℚ)) (row : List ℚ) : Except Err (SRxn η δ ε) :=
  match (entries.zip row).filter fun p => !isclose p.2 0 with
  | [] => .error .valueError
  | l => .ok ⟨l.map Prod.fst, l.map Prod.snd, data, mu⟩

/-- The cost of a rebuilt reaction, src/rxn_network/pathways/solver.py:318-323: a failed lookup is skipped. -/
def costOf {ρ : Type} (eq : ρ → ρ → Bool) (cleaned : List (ρ × ℚ)) (r : ρ) : Option ℚ :=
  (cleaned.find? fun a => eq a.1 r).map Prod.snd

/-- One pathway, src/rxn_network/pathways/solver.py:299-326. -/
def pathFrom (eq : SRxn η δ ε → SRxn η δ ε → Bool) (entries : List η) (data : δ) (mu : List (ε × ℚ))
    (cleaned : List (SRxn η δ ε × ℚ)) (cm : Mat × List ℚ) : Except Err (Path (SRxn η δ ε)) :=
  (cm.1.mapM (rebuild entries data mu)).map fun rs => ⟨rs, rs.filterMap (costOf eq cleaned), some cm.2, true⟩

/-- The average cost used as the sort key, src/rxn_network/pathways/solver.py:338. -/
def keyed {ρ : Type} (p : Path ρ) : Except Err (ℚ × Path ρ) :=
  match p.coefficients with
  | none => .error .attributeError
  | some c => (averageCost c p.costs).map fun a => (a, p)

/-- Everything the solver is configured with (src/rxn_network/pathways/solver.py:102-133), together with the external
calls. -/
structure Config (η δ ε κ : Type) where
  eq : SRxn η δ ε → SRxn η δ ε → Bool
  idx : η → ℕ
  entries : List η
  data : δ
  mu : List (ε × ℚ)
  chunk : ℕ
  batch : Option ℕ
  cpus : ℕ
  pinv : Mat → List ℚ → Except Err (List ℚ)
  wait₁ : ℕ → ℕ → List (List (Option (List ℕ))) → List (List (Option (List ℕ))) × List (List (Option (List ℕ)))
  wait₂ : ℕ → ℕ → List (List Mat) → List (List Mat) × List (List Mat)
  order : List (SRxn η δ ε) → List (SRxn η δ ε)
  R : SRxn η δ ε → Finset κ
  P : SRxn η δ ε → Finset κ
  pick : List (Path (SRxn η δ ε)) → List (Path (SRxn η δ ε))

/-- `batch_size`, src/rxn_network/pathways/solver.py:209: zero counts as not given. -/
def batchSize (c : Config η δ ε κ) : ℕ := match c.batch with
  | some (b + 1) => b + 1
  | _ => c.cpus - 1

/-- All accepted combinations, src/rxn_network/pathways/solver.py:205-296. -/
def solutions (c : Config η δ ε κ) (net : SRxn η δ ε) (maxCombos : ℕ) (rxns : List (SRxn η δ ε)) :
    Except Err (List (Mat × List ℚ)) :=
  match idxVector c.idx c.entries.length net with
  | .error e => .error e
  | .ok netV =>
    match (List.range' 1 maxCombos).mapM fun k => stage (c.wait₁ k) c.idx c.entries.length rxns netV c.chunk k with
    | .error e => .error e
    | .ok stages =>
      let kept := stages.filter fun p => anyNonzero p.2
      if (decide (c.chunk = 0) && !kept.isEmpty) || decide (batchSize c = 0) then .error .zeroDivision
      else
        match (batches (batchSize c) [] (kept.flatMap (jobsOf c.chunk))).zipIdx.mapM
            fun b => collect (c.wait₂ b.2) (balance c.pinv netV) b.1 with
        | .error e => .error e
        | .ok results =>
          if results.flatten.isEmpty then .error .valueError else .ok results.flatten.flatten

/-- The pathways of the solutions, filtered and sorted, src/rxn_network/pathways/solver.py:298-338. -/
def finish (c : Config η δ ε κ) (precursors : Finset κ) (filterInter : Bool) (cleaned : List (SRxn η δ ε × ℚ))
    (sols : List (Mat × List ℚ)) : Except Err (List (Path (SRxn η δ ε))) :=
  match sols.mapM (pathFrom c.eq c.entries c.data c.mu cleaned) with
  | .error e => .error e
  | .ok paths =>
    match (c.pick (if filterInter then paths.filter fun p => !interdependent c.order c.R c.P precursors p.reactions
        else paths)).mapM keyed with
    | .error e => .error e
    | .ok ks => .ok ((ks.insertionSort fun a b => a.1 ≤ b.1).map Prod.snd)

/-- `solve`, src/rxn_network/pathways/solver.py:135-338, up to the final conversion into a `PathwaySet` (:340, modelled by
`Pathway.roundTrip`).  `balanced` is `net_rxn.balanced`; `inter` are the intermediate reactions with their costs
(:185-194, empty when not asked for). -/
def solve (c : Config η δ ε κ) (balanced : Bool) (inClean : List (SRxn η δ ε × ℚ) → SRxn η δ ε → Bool)
    (paths : List (Path (SRxn η δ ε))) (inter : List (SRxn η δ ε × ℚ)) (net : SRxn η δ ε) (precursors : Finset κ)
    (maxCombos : ℕ) (filterInter : Bool) : Except Err (List (Path (SRxn η δ ε))) :=
  if !balanced then .error .valueError
  else
    let cands := collectRxns c.eq (collectRxns c.eq [] (pathPairs paths)) inter
    match clean (inClean cands) (fun r => !c.eq r net) cands with
    | .error e => .error e
    | .ok cleaned =>
      match solutions c net maxCombos (cleaned.map Prod.fst) with
      | .error e => .error e
      | .ok sols => finish c precursors filterInter cleaned sols

end Verif.Model.Solver
