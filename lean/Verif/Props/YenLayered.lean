import Verif.Lemmas.YenLayers

/-!
# C52: k-shortest paths on layered and on acyclic graphs

The search is right for every number of paths if all edges lead from one layer of the graph to the
next.  It is wrong already for acyclic graphs whose paths have different lengths: the comparison of
the roots leaves out the spur node, so edges leaving other nodes at the same position are removed.
-/

namespace Verif.Props.YenLayered

set_option linter.unusedSectionVars false

open Verif.Model.Network Verif.Spec.Paths Verif.Lemmas.Paths Verif.Props.Yen Verif.Lemmas.YenLayers

variable {ν ε : Type}

/-- **C52 for layered graphs.**  If every edge leads from a layer to the next one and there are no
parallel edges, the search returns loop-free paths in order of cost, no path left out is cheaper
than a returned one, and fewer than `k` paths are returned only if there are no more.  Missing from
the full property: graphs that are not layered, where it fails (`C52_acyclic_violated`). -/
theorem C52_layered_partial {w : ε → ℚ} {d : Graph ν ε → ℕ → ℕ → Option (List ℕ)} (hd : Dijkstra w d)
    (g : Graph ν ε) (hn : NonNeg w g) (hpar : NoParallel g) (level : ℕ → ℕ)
    (hl : ∀ e ∈ g.edges, level e.2.1 = level e.1 + 1) (k s t : ℕ) (hst : s ≠ t) (hk : 1 ≤ k)
    (paths : List (List ℕ)) (hy : yens d w g k s t = some paths) :
    (∀ p ∈ paths, p.Nodup) ∧
    (paths.Pairwise fun p q => ∀ c c', Realizes w g p c → Realizes w g q c' → c ≤ c') ∧
    (∀ p ∈ paths, ∀ q, Joins g s t q → q ∉ paths → ∀ c c', Realizes w g p c → Realizes w g q c' → c ≤ c') ∧
    (paths.length = k ∨ ∀ q, Joins g s t q → q ∈ paths) := by
  obtain ⟨paths', e1, hj, -⟩ := C51_paths hd g hn k s t hst
  rw [hy, Option.some.injEq] at e1
  subst e1
  refine ⟨fun p hp => walk_nodup hl p (hj p hp).1.walk, ?_⟩
  unfold yens at hy
  cases hf : d g s t with
  | none =>
    rw [hf] at hy
    simp only [Option.some.injEq] at hy
    subst hy
    exact ⟨List.Pairwise.nil, by simp, Or.inr fun q hq => absurd hq (hd.none_joins g s t hn hst hf q)⟩
  | some first =>
    rw [hf] at hy
    have hfj := hd.some_joins g s t first hn hst hf
    have hgood := good_of_nodup hfj (hd.some_nodup g s t first hn hst hf)
    obtain ⟨c0, hr0, hmin⟩ := hd.some_least g s t first hn hst hf
    obtain ⟨c, hc, _⟩ := pathCost_some w g first hfj.walk
    simp only at hy
    rw [hc] at hy
    simp only at hy
    obtain ⟨h1, h2⟩ := loop_best hd hn hpar hl hst (k - 1) g [] first [] (List.Perm.refl _)
      (by intro p hp; simp at hp; exact hp ▸ hgood) (by simp)
      ⟨by simp, fun p hp q hq _ c c' hpc hc' => by
        simp at hp; subst hp
        rw [realizes_unique hpar _ _ _ hpc hr0]
        exact hmin q c' hq hc'⟩
      (by intro p hp i hi; simp at hp; subst hp; exact Or.inl ⟨hi, rfl⟩) paths hy
    refine ⟨h1.sorted, h1.rest, h2.imp (fun h => ?_) id⟩
    rw [h]; simp; omega

section Examples

/-- Two layers between 0 and 5 with two nodes each, and all edges between neighbouring layers. -/
def layers : Graph Unit ℚ :=
  ⟨[(0, ()), (1, ()), (2, ()), (3, ()), (4, ()), (5, ())], [], 6,
    [(0, 1, 1), (0, 2, 2), (1, 3, 1), (1, 4, 3), (2, 3, 1), (2, 4, 1), (3, 5, 1), (4, 5, 1)]⟩

/-- The layer of a node. -/
def layer : ℕ → ℕ
  | 0 => 0
  | 1 | 2 => 1
  | 3 | 4 => 2
  | _ => 3

/-- The hypotheses of `C52_layered_partial` are met by a graph with four paths; three are asked for. -/
example : NonNeg id layers ∧ NoParallel layers ∧ (∀ e ∈ layers.edges, layer e.2.1 = layer e.1 + 1) ∧
    yens (shortest id) id layers 3 0 5 = some [[0, 1, 3, 5], [0, 2, 3, 5], [0, 2, 4, 5]] := by
  refine ⟨?_, by unfold NoParallel; decide, by decide, by decide +kernel⟩
  unfold NonNeg
  decide +kernel

/-- Asked for more paths than there are, all are returned. -/
example : yens (shortest id) id layers 7 0 5 = some [[0, 1, 3, 5], [0, 2, 3, 5], [0, 2, 4, 5], [0, 1, 4, 5]] := by
  decide +kernel

/-- `0 → 2 → 3 → 4`, `0 → 1 → 4` and `1 → 2`. -/
def ahead : Graph Unit ℚ :=
  ⟨[(0, ()), (1, ()), (2, ()), (3, ()), (4, ())], [], 5,
    [(0, 2, 1), (2, 3, 1), (3, 4, 1), (0, 1, 1), (1, 4, 3), (1, 2, 5)]⟩

/-- **C52 (violated).**  Without parallel edges and without cycles (every edge leads to a node with
a larger number) the search still misses a path: of three paths only two are returned although five
are asked for. -/
theorem C52_acyclic_violated :
    Dijkstra (ν := Unit) (id : ℚ → ℚ) (shortest id) ∧ NoParallel ahead ∧ NonNeg id ahead ∧
    (∀ e ∈ ahead.edges, e.1 < e.2.1) ∧
    yens (shortest id) id ahead 5 0 4 = some [[0, 2, 3, 4], [0, 1, 4]] ∧
    Joins ahead 0 4 [0, 1, 2, 3, 4] ∧ [0, 1, 2, 3, 4].Nodup := by
  refine ⟨shortest_dijkstra _, by unfold NoParallel; decide, ?_, by decide, by decide +kernel, ⟨rfl, rfl, ?_⟩, by decide⟩
  · unfold NonNeg; decide +kernel
  · exact ⟨⟨1, by decide +kernel⟩, ⟨5, by decide +kernel⟩, ⟨1, by decide +kernel⟩, ⟨1, by decide +kernel⟩, trivial⟩

end Examples

end Verif.Props.YenLayered
