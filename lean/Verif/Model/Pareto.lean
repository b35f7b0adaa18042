import Verif.Model.Py

/-! Model of `src/rxn_network/costs/pareto.py`. -/

namespace Verif.Model.Pareto

/-- `np.any(row < p)` for one row, src/rxn_network/costs/pareto.py:58. -/
def anyLt (row p : List ℚ) : Bool := (row.zip p).any fun q => decide (q.1 < q.2)

/-- Body of the `while` loop, src/rxn_network/costs/pareto.py:58-62. The parallel arrays `is_efficient` and `costs` are a
list of pairs. `none` would be an `IndexError`. -/
def step (l : List (ℕ × List ℚ)) (next : ℕ) : Option (List (ℕ × List ℚ) × ℕ) := do
  let p ← l[next]?
  let mask := l.zipIdx.map fun qi => decide (qi.2 = next) || anyLt qi.1.2 p.2
  let l' := ((l.zip mask).filter fun qm => qm.2).map Prod.fst
  pure (l', ((mask.take next).filter id).length + 1)

/-- The loop, src/rxn_network/costs/pareto.py:57-62; `fuel` bounds the number of iterations (`none` if exceeded). -/
def loop : ℕ → List (ℕ × List ℚ) → ℕ → Option (List (ℕ × List ℚ))
  | 0, l, next => if next < l.length then none else some l
  | fuel + 1, l, next =>
    if next < l.length then do
      let r ← step l next
      loop fuel r.1 r.2
    else some l

/-- Model of `is_pareto_efficient(costs)`, src/rxn_network/costs/pareto.py:41-68: the indices of the efficient rows
(`return_mask=False`). -/
def efficientIdx (costs : List (List ℚ)) : Option (List ℕ) :=
  (loop costs.length ((List.range costs.length).zip costs) 0).map fun l => l.map Prod.fst

/-- Model of `is_pareto_efficient(costs, return_mask=True)`, src/rxn_network/costs/pareto.py:63-66. -/
def efficientMask (costs : List (List ℚ)) : Option (List Bool) :=
  (efficientIdx costs).map fun is => (List.range costs.length).map fun i => decide (i ∈ is)

/-- `pts[:, 1:] = pts[:, 1:] * -1`, src/rxn_network/costs/pareto.py:35-36. -/
def flipTail (p : List ℚ) : List ℚ :=
  match p with
  | [] => []
  | x :: xs => x :: xs.map (· * -1)

/-- Model of `get_pareto_front(df, metrics, maximize)`, src/rxn_network/costs/pareto.py:13-38: a table is a list of rows,
`metrics row` the selected columns. -/
def paretoFront {ρ : Type} (metrics : ρ → List ℚ) (maximize : Bool) (df : List ρ) : Option (List ρ) := do
  let pts := df.map fun r => if maximize then flipTail (metrics r) else metrics r
  let mask ← efficientMask pts
  pure (((df.zip mask).filter fun rm => rm.2).map Prod.fst)

end Verif.Model.Pareto
