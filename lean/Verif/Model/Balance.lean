import Verif.Model.Reaction

/-! Model of reaction balancing: src/rxn_network/reactions/basic.py:82-114 and :365-421, computed.py:50-79, open.py:66-105. -/

namespace Verif.Model.Reaction
open Verif.Py Verif.Model

variable {κ ε : Type} [DecidableEq κ] [DecidableEq ε]

/-- One row of `np.matmul(comp_matrix, coeffs)`, src/rxn_network/reactions/basic.py:410. -/
def rowSum (X : Chem κ ε) (comps : List κ) (coeffs : List ℚ) (e : ε) : ℚ :=
  ((comps.zip coeffs).map fun p => X.amt p.1 e * p.2).sum

/-- `np.allclose(np.matmul(comp_matrix, coeffs), np.zeros(...))`, src/rxn_network/reactions/basic.py:410. -/
def conservesClose (X : Chem κ ε) (comps : List κ) (coeffs : List ℚ) : Bool :=
  (elements X comps).all fun e => isclose (rowSum X comps coeffs e) 0

/-- `num_errors`, src/rxn_network/reactions/basic.py:409-412. -/
def numErrors (nReact nProd : ℕ) (coeffs : List ℚ) : ℕ :=
  (((List.replicate nReact (-1 : ℚ) ++ List.replicate nProd (1 : ℚ)).zip coeffs).filter
    fun p : ℚ × ℚ => decide (p.1 * p.2 < tol)).length

/-- The constraint sets in the order tried, src/rxn_network/reactions/basic.py:388-396: combinations of product indices of size
`num_constraints` down to 1, then of reactant indices. -/
def constraintSets (nReact nComp numConstr : ℕ) : List (List ℕ) :=
  ((List.range numConstr).map fun i => combinations ((List.range nComp).drop nReact) (numConstr - i)).flatten ++
  ((List.range numConstr).map fun i => combinations (List.range nReact) (numConstr - i)).flatten

/-- The value to which constrained coefficients are fixed, src/rxn_network/reactions/basic.py:401 (`min(constraints)`). -/
def constraintValue (nReact : ℕ) (cs : List ℕ) : ℚ := if (∀ k ∈ cs, nReact ≤ k) then 1 else -1

/-- `comp_matrix`, src/rxn_network/reactions/basic.py:376: one row per element, one column per composition. -/
def compRows (X : Chem κ ε) (comps : List κ) : List (List ℚ) :=
  (elements X comps).map fun e => comps.map fun c => X.amt c e

/-- The constrained system `comp_and_constraints`, `b` for one constraint set, src/rxn_network/reactions/basic.py:399-405: a zero row per
constraint in which the constrained column is then set to one. -/
def constrainedSystem (X : Chem κ ε) (reacts prods : List κ) (cs : List ℕ) : List (List ℚ) × List ℚ :=
  (compRows X (reacts ++ prods) ++ cs.map fun k => (List.replicate (reacts ++ prods).length (0 : ℚ)).set k 1,
    List.replicate (elements X (reacts ++ prods)).length 0 ++ List.replicate cs.length (constraintValue reacts.length cs))

/-- `np.matmul(np.linalg.pinv(comp_and_constraints), b)`, src/rxn_network/reactions/basic.py:407; `pinvMul A b` is the external
pseudo-inverse of `A` applied to `b`. -/
def constrainedSolve (X : Chem κ ε) (reacts prods : List κ) (pinvMul : List (List ℚ) → List ℚ → List ℚ) (cs : List ℕ) : List ℚ :=
  pinvMul (constrainedSystem X reacts prods cs).1 (constrainedSystem X reacts prods cs).2

/-- The search loop, src/rxn_network/reactions/basic.py:396-419. `solve cs` is `np.matmul(np.linalg.pinv(...), b)` for the
constraint set `cs` (external linear algebra); `ok` and `errs` are the two checks; the accumulator is
`(best_soln, lowest_num_errors)` with `none` for infinity. -/
def balanceLoop (ok : List ℚ → Bool) (errs : List ℚ → ℕ) (solve : List ℕ → List ℚ) :
    List (List ℕ) → List ℚ × Option ℕ → List ℚ × Option ℕ
  | [], acc => acc
  | cs :: rest, acc =>
    if ok (solve cs) then
      if errs (solve cs) = 0 then (solve cs, some 0)
      else if (match acc.2 with | none => true | some m => decide (errs (solve cs) < m)) then
        balanceLoop ok errs solve rest (solve cs, some (errs (solve cs)))
      else balanceLoop ok errs solve rest acc
    else balanceLoop ok errs solve rest acc

/-- `num_constraints`, src/rxn_network/reactions/basic.py:378-380. -/
def numConstraints (nComp rank : ℕ) : ℕ := if 2 ≤ nComp - rank then nComp - rank else 1

/-- `_balance_coeffs`, src/rxn_network/reactions/basic.py:366-421; `rank` is `np.linalg.matrix_rank` (external). The final
`np.squeeze` is not modelled (it turns a single-phase result into a scalar). -/
def balanceCoeffs (X : Chem κ ε) (reacts prods : List κ) (rank : ℕ) (solve : List ℕ → List ℚ) : List ℚ × Option ℕ × ℕ :=
  let comps := reacts ++ prods
  let nc := numConstraints comps.length rank
  let r := balanceLoop (conservesClose X comps) (numErrors reacts.length prods.length) solve
    (constraintSets reacts.length comps.length nc) (List.replicate comps.length 0, none)
  (r.1, r.2, nc)

/-- `BasicReaction.balance`, src/rxn_network/reactions/basic.py:83-114 (`coeffs is None` never happens). -/
def balanceBasic (X : Chem κ ε) (reacts prods : List κ) (rank : ℕ) (solve : List ℕ → List ℚ) (data : List (String × ℚ)) :
    Rxn κ :=
  let r := balanceCoeffs X reacts prods rank solve
  let data := dictSet data "num_constraints" (r.2.2 : ℚ)
  match r.2.1 with
  | none => init X (reacts ++ prods) (List.replicate (reacts ++ prods).length 0) (some false) data none
  | some k => init X (reacts ++ prods) r.1 (some true) data (some k)

/-- `ComputedReaction.balance`, src/rxn_network/reactions/computed.py:50-79: the outcome is passed to the constructor, which
recomputes `balanced`. -/
def balanceComputed (X : Chem κ ε) (reacts prods : List (Entry κ)) (rank : ℕ) (solve : List ℕ → List ℚ)
    (data : List (String × ℚ)) : CRxn κ :=
  let r := balanceCoeffs X (reacts.map fun e => X.red e.comp) (prods.map fun e => X.red e.comp) rank solve
  cinit X (reacts ++ prods) r.1 (dictSet data "num_constraints" (r.2.2 : ℚ)) r.2.1

end Verif.Model.Reaction
