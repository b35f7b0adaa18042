import Mathlib.Combinatorics.Enumerative.Catalan.Tree
import Mathlib.Data.Rat.Defs

/-!
Specification of step-by-step decomposition of an interface, independent of the model.

An interface with vertices `p, p+1, ..., p+n+1` has `n` interior vertices.  One step picks an interior vertex
`j`, splitting the interval into two; decomposition continues in both halves until no interior vertex is left.
A full decomposition is therefore a binary tree with `n` inner nodes.
-/

namespace Verif.Spec.Hull

/-- Total altitude of all steps of a decomposition tree `t` of the interval starting at vertex `p`
(the interval ends at vertex `p + t.numNodes + 1`). `alt i j k` is the altitude of vertex `j` over the segment
from vertex `i` to vertex `k`. -/
def treeEnergy {K : Type*} [AddMonoid K] (alt : ℕ → ℕ → ℕ → K) : ℕ → BinaryTree Unit → K
  | _, .nil => 0
  | p, .node _ l r =>
      alt p (p + l.numNodes + 1) (p + l.numNodes + r.numNodes + 2)
        + treeEnergy alt p l + treeEnergy alt (p + l.numNodes + 1) r

/-- Sum of the energies of all complete decompositions of an interval with `n` interior vertices that starts
at vertex `p`. -/
def totalTreeEnergy {K : Type*} [AddCommMonoid K] (alt : ℕ → ℕ → ℕ → K) (p n : ℕ) : K :=
  ∑ t ∈ BinaryTree.treesOfNumNodesEq n, treeEnergy alt p t

end Verif.Spec.Hull

namespace Verif.Spec.Hull

/-- `a` and `b` are consecutive in `vs`. -/
def Adjacent (vs : List (ℚ × ℚ)) (a b : ℚ × ℚ) : Prop := ∃ l r, vs = l ++ a :: b :: r

/-- `p` lies on the straight line through `a` and `b` (for `a.1 < b.1`). -/
def OnLine (a b p : ℚ × ℚ) : Prop :=
  p.2 * (b.1 - a.1) = a.2 * (b.1 - p.1) + b.2 * (p.1 - a.1)

/-- `p` lies on or above the straight line through `a` and `b` (for `a.1 < b.1`). -/
def AboveLine (a b p : ℚ × ℚ) : Prop :=
  a.2 * (b.1 - p.1) + b.2 * (p.1 - a.1) ≤ p.2 * (b.1 - a.1)

/-- `vs` is the lower convex hull of the points `pts` over `[0, 1]`: a chain of points of `pts` going from
`x = 0` to `x = 1` whose edges are supporting lines (no point of `pts` lies below an edge line). -/
structure LowerHull (pts vs : List (ℚ × ℚ)) : Prop where
  strict : vs.Pairwise fun a b => a.1 < b.1
  sub : ∀ v ∈ vs, v ∈ pts
  first : (vs.head?.map Prod.fst) = some 0
  last : (vs.getLast?.map Prod.fst) = some 1
  support : ∀ a b, Adjacent vs a b → ∀ p ∈ pts, AboveLine a b p

/-- `p` lies on the polygonal chain `vs`. -/
def OnChain (vs : List (ℚ × ℚ)) (p : ℚ × ℚ) : Prop :=
  ∃ a b, Adjacent vs a b ∧ a.1 ≤ p.1 ∧ p.1 ≤ b.1 ∧ OnLine a b p

/-- `p` is a corner of the convex hull of `pts`: some linear functional is larger at `p` than at every other point. -/
def Corner (pts : List (ℚ × ℚ)) (p : ℚ × ℚ) : Prop :=
  p ∈ pts ∧ ∃ u w : ℚ, ∀ q ∈ pts, q ≠ p → u * q.1 + w * q.2 < u * p.1 + w * p.2

/-- What a planar convex hull routine returns: the index of every corner, once for each corner. -/
structure HullIndices (pts : List (ℚ × ℚ)) (idx : List ℕ) : Prop where
  nodup : idx.Nodup
  sound : ∀ i ∈ idx, ∃ p, pts[i]? = some p ∧ Corner pts p
  complete : ∀ p, Corner pts p → ∃ i ∈ idx, pts[i]? = some p
  once : ∀ i ∈ idx, ∀ j ∈ idx, pts[i]? = pts[j]? → i = j

end Verif.Spec.Hull
