import Verif.Props.NetworkState
import Verif.Lemmas.Dict

/-!
# C50: serialization of the network graph
-/

namespace Verif.Props.Network

open Verif.Py Verif.Model.Network Verif.Spec.Network Verif.Lemmas.Network Verif.Lemmas.Dict

section Graph

variable {ν ε : Type} [DecidableEq ν]

/-- The new number of an old index. -/
def renumber (g : Graph ν ε) (i : ℕ) : ℕ := (g.nodes.map (·.1)).idxOf i

theorem zip_range'_eq (l : List ℕ) (k : ℕ) (h : l.Nodup) :
    ((List.range' k l.length).zip l).map (fun p => (p.2, p.1)) = l.map fun i => (i, k + l.idxOf i) := by
  induction l generalizing k with
  | nil => rfl
  | cons a l ih =>
    rw [List.length_cons, List.range'_succ, List.zip_cons_cons, List.map_cons, List.map_cons,
      ih (k + 1) (List.nodup_cons.mp h).2]
    congr 1
    · simp
    · apply List.map_congr_left
      intro i hi
      have hne : a ≠ i := fun hc => (List.nodup_cons.mp h).1 (hc ▸ hi)
      rw [List.idxOf_cons_ne _ hne]
      simp only [Prod.mk.injEq, true_and]
      omega

/-- **C50.** Every graph whose node payloads are distinct, whatever insertions and removals led to
it, is restored by `from_dict(as_dict())` with the same payloads and the same edges (with
multiplicity), up to the numbering of the nodes. -/
theorem C50_roundtrip_partial (g : Graph ν ε) (hW : WF g) (hnd : (viewN g).Nodup) :
    ∃ g', Graph.fromDict g.asDict = .ok g' ∧ SameUpToNumbering g g' ∧ viewN g' = viewN g ∧ g'.nodes.length = g.nodes.length ∧
      WF g' := by
  have hnd' : (g.nodes.map (·.2)).Nodup := Multiset.coe_nodup.mp hnd
  have hlen : (g.nodes.map (·.2)).length = (g.nodes.map (·.1)).length := by simp
  have hdict : dictOf ((g.nodes.map (·.2)).zip (g.nodes.map (·.1))) = g.nodes.map fun p => (p.2, p.1) := by
    have hz : (g.nodes.map (·.2)).zip (g.nodes.map (·.1)) = g.nodes.map fun p => (p.2, p.1) := by
      generalize g.nodes = l
      induction l with
      | nil => rfl
      | cons p l ih => simpa using ih
    rw [hz]
    apply dictOf_eq_self
    rw [List.map_map]
    exact hnd'
  have hadd := addNodesFrom_spec (ε := ε) (g.nodes.map (·.2)) [] 0 [] (by simp)
  have hmap : dictOf (((List.range' 0 (g.nodes.map (·.2)).length).zip (g.nodes.map fun p => (p.2, p.1))).map
      fun p => (p.2.2, p.1)) = (g.nodes.map (·.1)).map fun i => (i, renumber g i) := by
    have h1 : ((List.range' 0 (g.nodes.map (·.2)).length).zip (g.nodes.map fun p => (p.2, p.1))).map
        (fun p => (p.2.2, p.1)) =
        ((List.range' 0 (g.nodes.map (·.1)).length).zip (g.nodes.map (·.1))).map (fun p => (p.2, p.1)) := by
      rw [hlen]
      have : g.nodes.map (·.1) = (g.nodes.map fun p => (p.2, p.1)).map (·.2) := by rw [List.map_map]; rfl
      conv_rhs => rw [this, List.zip_map_right, List.map_map]
      simp only [List.length_map]
      rfl
    rw [h1, zip_range'_eq _ _ hW.nodup]
    simp only [Nat.zero_add]
    apply dictOf_eq_self
    rw [List.map_map]
    change ((g.nodes.map (·.1)).map (fun i => i)).Nodup
    rw [List.map_id']
    exact hW.nodup
  have hget : ∀ i ∈ g.nodes.map (·.1), dictGet ((g.nodes.map (·.1)).map fun i => (i, renumber g i)) i =
      some (renumber g i) := by
    intro i hi
    apply dictGet_eq_some_of_mem
    · rw [List.map_map]
      change ((g.nodes.map (·.1)).map (fun i => i)).Nodup
      rw [List.map_id']
      exact hW.nodup
    · exact List.mem_map_of_mem hi
  have hes : g.edges.reverse.mapM (remapEdge ((g.nodes.map (·.1)).map fun i => (i, renumber g i))) =
      .ok (g.edges.reverse.map fun e => (renumber g e.1, renumber g e.2.1, e.2.2)) := by
    apply Verif.Lemmas.Exc.mapM_eq_map
    intro e he
    rw [List.mem_reverse] at he
    unfold remapEdge
    rw [hget _ (hW.edges e he).1]
    simp only
    rw [hget _ (hW.edges e he).2]
  have hnodes' : (g.nodes.map fun p => (renumber g p.1, p.2)) =
      ((g.nodes.map (·.2)).zipIdx 0).map fun p => (p.2, p.1) := by
    have hn := hW.nodup
    unfold renumber
    have : ∀ (l : List (ℕ × ν)) (k : ℕ), (l.map (·.1)).Nodup →
        (l.map fun p => (k + (l.map (·.1)).idxOf p.1, p.2)) = ((l.map (·.2)).zipIdx k).map fun p => (p.2, p.1) := by
      intro l
      induction l with
      | nil => intros; rfl
      | cons a l ih =>
        intro k hn
        rw [List.map_cons, List.map_cons, List.map_cons, List.zipIdx_cons, List.map_cons,
          ← ih (k + 1) (List.nodup_cons.mp hn).2]
        congr 1
        · simp
        · apply List.map_congr_left
          intro p hp
          have hne : a.1 ≠ p.1 := by
            intro hc
            apply (List.nodup_cons.mp hn).1
            change a.1 ∈ _
            rw [hc]
            exact List.mem_map_of_mem (f := (·.1)) hp
          rw [List.idxOf_cons_ne _ hne]
          simp only [Prod.mk.injEq, and_true]
          omega
    have := this g.nodes 0 hn
    simpa using this
  have hlive : ∀ i ∈ g.nodes.map (·.1), renumber g i < g.nodes.length := by
    intro i hi
    have := List.idxOf_lt_length_of_mem hi
    simpa [renumber] using this
  refine ⟨(Graph.mk (((g.nodes.map (·.2)).zipIdx 0).map fun p => (p.2, p.1)) [] (0 + (g.nodes.map (·.2)).length) []).addEdgesFrom
    (g.edges.reverse.map fun e => (renumber g e.1, renumber g e.2.1, e.2.2)), ?_, ⟨renumber g, ?_, ?_, ?_⟩, ?_, ?_, ?_⟩
  · unfold Graph.fromDict Graph.asDict
    simp only
    rw [hdict]
    rw [show (g.nodes.map fun p => (p.2, p.1)).map (·.1) = g.nodes.map (·.2) by rw [List.map_map]; rfl]
    unfold Graph.empty
    rw [hadd]
    simp only
    rw [hmap, hes]
    rfl
  · intro i hi j hj hij
    exact (List.idxOf_inj hi).mp hij
  · rw [hnodes']
    exact List.Perm.refl _
  · change (g.edges.map fun e => (renumber g e.1, renumber g e.2.1, e.2.2)).Perm
      ((g.edges.reverse.map fun e => (renumber g e.1, renumber g e.2.1, e.2.2)).reverse ++ [])
    rw [List.append_nil, ← List.map_reverse, List.reverse_reverse]
  · unfold viewN Graph.addEdgesFrom
    simp only
    rw [← hnodes', List.map_map]
    rfl
  · simp [Graph.addEdgesFrom]
  · have hfst : (((g.nodes.map (·.2)).zipIdx 0).map fun p => (p.2, p.1)).map (·.1) = List.range g.nodes.length := by
      rw [List.map_map]
      have := List.zipIdx_map_snd 0 (g.nodes.map (·.2))
      rw [← List.range_eq_range', List.length_map] at this
      exact this
    refine ⟨?_, ?_, ?_, ?_, ?_⟩
    · unfold Graph.addEdgesFrom
      simp only
      rw [hfst]
      exact List.nodup_range
    · exact List.nodup_nil
    · intro i hi
      exact absurd hi List.not_mem_nil
    · intro i hi
      unfold Graph.addEdgesFrom at hi ⊢
      simp only at hi ⊢
      rw [hfst, List.mem_range] at hi
      simpa using hi
    · intro e he
      unfold Graph.addEdgesFrom at he ⊢
      simp only at he ⊢
      rw [hfst]
      rw [List.append_nil, ← List.map_reverse, List.reverse_reverse, List.mem_map] at he
      obtain ⟨e', he', rfl⟩ := he
      simp only [List.mem_range]
      exact ⟨hlive _ (hW.edges e' he').1, hlive _ (hW.edges e' he').2⟩

end Graph

variable {η ρ φ : Type} [DecidableEq η]

/-- **C50 for networks.** The graph of a network is restored after any history of calls (none with
an empty precursors set): all payloads are then distinct. -/
theorem C50_network (R P : ρ → Finset η) (rxns : List ρ) (entries : Finset η)
    (minEntry : φ → Except Err η) (ops : List (Op η φ)) (hne : NoEmpty ops) :
    ∃ g g', (runOps minEntry ((Net.new rxns entries).build R P) ops).g = some g ∧
      Graph.fromDict g.asDict = .ok g' ∧ SameUpToNumbering g g' := by
  obtain ⟨chs, h, _⟩ := hist_run minEntry ops hne [] _ (hist_build R P rxns entries)
  obtain ⟨g, hg, hW, _, _⟩ := h.graph
  obtain ⟨g', h1, h2, _⟩ := C50_roundtrip_partial g hW (hist_nodup h g hg)
  exact ⟨g, g', hg, h1, h2⟩

/-- **C50 (violated)** for graphs with equal payloads.  They are reachable: after setting empty
precursors, `{0, 2}`, empty, `{0, 2}` there are three precursors nodes, two of them equal, and `from_dict` fails
with a `KeyError`. -/
theorem C50_equal_payloads_violated :
    ((runOps noFormula stNet [.setPrecursors [], P1, .setPrecursors [], P1]).g.map fun g =>
      ((g.nodes.filter fun p => p.2.kind == .precursors).map (·.2),
        match Graph.fromDict g.asDict with
        | .ok _ => none
        | .error e => some e)) =
      some ([⟨.precursors, ∅⟩, ⟨.precursors, {0, 2}⟩, ⟨.precursors, {0, 2}⟩], some Err.keyError) := by
  decide +kernel

/-- A graph with gaps in its numbering (after a removal) for `C50_roundtrip_partial`. -/
example : (((((Graph.empty : Graph ℕ ℕ).addNodesFrom [7, 8, 9]).2.addEdgesFrom
    [(0, 2, 5), (2, 0, 6), (0, 2, 5), (1, 2, 4)]).removeNode 1).asDict.nodeIndices = [0, 2]) ∧
    (match Graph.fromDict ((((Graph.empty : Graph ℕ ℕ).addNodesFrom [7, 8, 9]).2.addEdgesFrom
      [(0, 2, 5), (2, 0, 6), (0, 2, 5), (1, 2, 4)]).removeNode 1).asDict with
      | .ok g => (g.nodes, g.edges)
      | .error _ => ([], [])) = ([(0, 7), (1, 9)], [(0, 1, 5), (1, 0, 6), (0, 1, 5)]) := by
  decide +kernel

example := C50_network stR stP [0, 1] {0, 1, 2, 3} noFormula [P1, .setTarget (.entry 3)] (by
  intro args h
  simp only [List.mem_cons, P1, Op.setPrecursors.injEq, reduceCtorEq, List.not_mem_nil, or_false] at h
  subst h
  simp)

end Verif.Props.Network
