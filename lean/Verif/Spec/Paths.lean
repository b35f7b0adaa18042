import Verif.Model.Network
import Mathlib.Tactic.Linarith

/-!
# Paths in a network graph

Specification vocabulary for C51–C53: which node sequences are paths, what they cost, and what is
assumed of `rx.dijkstra_shortest_paths`.
-/

namespace Verif.Spec.Paths

open Verif.Model.Network

variable {ν ε : Type}

/-- The node sequence can be walked along edges of total weight `c` (one edge per step; with
parallel edges there may be several totals). -/
def Realizes (w : ε → ℚ) (g : Graph ν ε) : List ℕ → ℚ → Prop
  | a :: b :: l, c => ∃ e c', (a, b, e) ∈ g.edges ∧ Realizes w g (b :: l) c' ∧ c = w e + c'
  | _, c => c = 0

/-- Consecutive nodes are joined by edges. -/
def IsWalk (g : Graph ν ε) : List ℕ → Prop
  | a :: b :: l => (∃ e, (a, b, e) ∈ g.edges) ∧ IsWalk g (b :: l)
  | _ => True

/-- A walk from `s` to `t`. -/
structure Joins (g : Graph ν ε) (s t : ℕ) (p : List ℕ) : Prop where
  start : p.head? = some s
  stop : p.getLast? = some t
  walk : IsWalk g p

/-- Edge weights are not negative. -/
def NonNeg (w : ε → ℚ) (g : Graph ν ε) : Prop := ∀ e ∈ g.edges, 0 ≤ w e.2.2

/-- What is assumed of `rx.dijkstra_shortest_paths(g, s, t)` for non-negative weights and `s ≠ t`:
it returns a loop-free path of least total weight, and nothing only if there is no path. -/
structure Dijkstra (w : ε → ℚ) (d : Graph ν ε → ℕ → ℕ → Option (List ℕ)) : Prop where
  some_joins : ∀ g s t p, NonNeg w g → s ≠ t → d g s t = some p → Joins g s t p
  some_nodup : ∀ g s t p, NonNeg w g → s ≠ t → d g s t = some p → p.Nodup
  some_least : ∀ g s t p, NonNeg w g → s ≠ t → d g s t = some p →
    ∃ c, Realizes w g p c ∧ ∀ q c', Joins g s t q → Realizes w g q c' → c ≤ c'
  none_joins : ∀ g s t, NonNeg w g → s ≠ t → d g s t = none → ∀ q, ¬ Joins g s t q

/-- At most one edge between any ordered pair of nodes. -/
def NoParallel (g : Graph ν ε) : Prop := (g.edges.map fun e => (e.1, e.2.1)).Nodup

end Verif.Spec.Paths
