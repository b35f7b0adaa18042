import Mathlib.Data.List.Dedup
import Mathlib.Data.List.Perm.Lattice
import Mathlib.Tactic.Ring
import Verif.Spec.Network

/-! Lemmas on the graph structure used by the network model. -/

namespace Verif.Lemmas.Network

open Verif.Model.Network Verif.Spec.Network

variable {ν ε : Type}

/-- The representation invariant of a graph. -/
structure WF (g : Graph ν ε) : Prop where
  nodup : (g.nodes.map (·.1)).Nodup
  freeNodup : g.free.Nodup
  free : ∀ i ∈ g.free, i < g.bound ∧ i ∉ g.nodes.map (·.1)
  bound : ∀ i ∈ g.nodes.map (·.1), i < g.bound
  edges : ∀ e ∈ g.edges, e.1 ∈ g.nodes.map (·.1) ∧ e.2.1 ∈ g.nodes.map (·.1)

theorem insertNode_perm (i : ℕ) (v : ν) (l : List (ℕ × ν)) :
    (Graph.insertNode i v l).Perm ((i, v) :: l) := by
  induction l with
  | nil => exact List.Perm.refl _
  | cons p l ih =>
    unfold Graph.insertNode
    split
    · exact List.Perm.refl _
    · exact (ih.cons p).trans (List.Perm.swap _ _ _)

theorem wf_empty : WF (Graph.empty : Graph ν ε) :=
  ⟨by simp [Graph.empty], by simp [Graph.empty], by simp [Graph.empty], by simp [Graph.empty], by simp [Graph.empty]⟩

theorem nodeData_iff {g : Graph ν ε} (h : WF g) (i : ℕ) (v : ν) :
    g.nodeData i = some v ↔ (i, v) ∈ g.nodes := by
  unfold Graph.nodeData
  have := h.nodup
  generalize g.nodes = l at this
  induction l with
  | nil => simp
  | cons p l ih =>
    obtain ⟨j, w⟩ := p
    simp only [List.map_cons, List.nodup_cons] at this
    rw [List.find?_cons]
    by_cases hj : j = i
    · subst hj
      simp only [beq_self_eq_true, Option.map_some, Option.some.injEq, List.mem_cons, Prod.mk.injEq, true_and]
      constructor
      · rintro rfl; exact Or.inl rfl
      · rintro (rfl | hm)
        · rfl
        · exact absurd (List.mem_map_of_mem (f := (·.1)) hm) this.1
    · have hji : (j == i) = false := by simpa using hj
      simp only [hji, List.mem_cons, Prod.mk.injEq]
      refine (ih this.2).trans ?_
      constructor
      · exact Or.inr
      · rintro (⟨rfl, _⟩ | hm)
        · exact absurd rfl hj
        · exact hm

theorem nodeData_none {g : Graph ν ε} (i : ℕ) :
    g.nodeData i = none ↔ i ∉ g.nodes.map (·.1) := by
  unfold Graph.nodeData
  simp only [Option.map_eq_none_iff, List.find?_eq_none, beq_iff_eq, List.mem_map, not_exists, not_and]

/-- The index returned by `addNode` is new, and the node list gains exactly this node. -/
theorem addNode_spec {g : Graph ν ε} (h : WF g) (v : ν) :
    (g.addNode v).1 ∉ g.nodes.map (·.1) ∧ (g.addNode v).2.nodes.Perm (((g.addNode v).1, v) :: g.nodes) ∧
      (g.addNode v).2.edges = g.edges ∧ WF (g.addNode v).2 := by
  unfold Graph.addNode
  cases hf : g.free with
  | cons i fr =>
    have hi := h.free i (by rw [hf]; simp)
    have hnd := h.freeNodup
    rw [hf] at hnd
    have hp : ((Graph.insertNode i v g.nodes).map (·.1)).Perm (i :: g.nodes.map (·.1)) :=
      (insertNode_perm i v g.nodes).map (·.1)
    refine ⟨hi.2, insertNode_perm _ _ _, rfl, ⟨?_, ?_, ?_, ?_, ?_⟩⟩
    · exact hp.nodup_iff.mpr (List.nodup_cons.mpr ⟨hi.2, h.nodup⟩)
    · exact (List.nodup_cons.mp hnd).2
    · intro j hj
      have := h.free j (by rw [hf]; exact List.mem_cons_of_mem _ hj)
      refine ⟨this.1, ?_⟩
      rw [hp.mem_iff, List.mem_cons]
      rintro (rfl | hm)
      · exact (List.nodup_cons.mp hnd).1 hj
      · exact this.2 hm
    · intro j hj
      rw [hp.mem_iff, List.mem_cons] at hj
      rcases hj with rfl | hm
      · exact hi.1
      · exact h.bound j hm
    · intro e he
      have := h.edges e he
      simp only [hp.mem_iff]
      exact ⟨List.mem_cons_of_mem _ this.1, List.mem_cons_of_mem _ this.2⟩
  | nil =>
    have hi : g.bound ∉ g.nodes.map (·.1) := fun hm => absurd (h.bound _ hm) (lt_irrefl _)
    have hp : ((Graph.insertNode g.bound v g.nodes).map (·.1)).Perm (g.bound :: g.nodes.map (·.1)) :=
      (insertNode_perm g.bound v g.nodes).map (·.1)
    refine ⟨hi, insertNode_perm _ _ _, rfl, ⟨?_, ?_, ?_, ?_, ?_⟩⟩
    · exact hp.nodup_iff.mpr (List.nodup_cons.mpr ⟨hi, h.nodup⟩)
    · exact List.nodup_nil
    · intro j hj
      exact absurd hj List.not_mem_nil
    · intro j hj
      rw [hp.mem_iff, List.mem_cons] at hj
      rcases hj with rfl | hm
      · exact Nat.lt_succ_self _
      · exact Nat.lt_succ_of_lt (h.bound j hm)
    · intro e he
      have := h.edges e he
      simp only [hp.mem_iff]
      exact ⟨List.mem_cons_of_mem _ this.1, List.mem_cons_of_mem _ this.2⟩

theorem nodeData_addNode {g : Graph ν ε} (h : WF g) (v : ν) (i : ℕ) (hi : i ∈ g.nodes.map (·.1)) :
    (g.addNode v).2.nodeData i = g.nodeData i := by
  obtain ⟨p, hp, rfl⟩ := List.mem_map.mp hi
  have h1 := (nodeData_iff h p.1 p.2).mpr hp
  rw [h1, nodeData_iff (addNode_spec h v).2.2.2, (addNode_spec h v).2.1.mem_iff]
  exact List.mem_cons_of_mem _ hp

theorem nodeData_addNode_new {g : Graph ν ε} (h : WF g) (v : ν) :
    (g.addNode v).2.nodeData (g.addNode v).1 = some v := by
  rw [nodeData_iff (addNode_spec h v).2.2.2, (addNode_spec h v).2.1.mem_iff]
  exact List.mem_cons_self

theorem viewN_addNode {g : Graph ν ε} (h : WF g) (v : ν) : viewN (g.addNode v).2 = v ::ₘ viewN g := by
  unfold viewN
  rw [Multiset.cons_coe, Multiset.coe_eq_coe]
  exact (addNode_spec h v).2.1.map (·.2)

theorem viewE_addNode {g : Graph ν ε} (h : WF g) (v : ν) : viewE (g.addNode v).2 = viewE g := by
  unfold viewE
  rw [(addNode_spec h v).2.2.1]
  congr 1
  apply List.map_congr_left
  intro e he
  unfold viewEdge
  rw [nodeData_addNode h v _ (h.edges e he).1, nodeData_addNode h v _ (h.edges e he).2]

theorem wf_addEdges {g : Graph ν ε} (h : WF g) (es : List (ℕ × ℕ × ε))
    (hes : ∀ e ∈ es, e.1 ∈ g.nodes.map (·.1) ∧ e.2.1 ∈ g.nodes.map (·.1)) : WF (g.addEdgesFrom es) := by
  refine ⟨h.nodup, h.freeNodup, h.free, h.bound, ?_⟩
  intro e he
  unfold Graph.addEdgesFrom at he
  rw [List.mem_append, List.mem_reverse] at he
  exact he.elim (hes e) (h.edges e)

theorem viewN_addEdges (g : Graph ν ε) (es : List (ℕ × ℕ × ε)) : viewN (g.addEdgesFrom es) = viewN g := rfl

theorem viewEdge_addEdges (g : Graph ν ε) (es : List (ℕ × ℕ × ε)) :
    viewEdge (g.addEdgesFrom es) = viewEdge g := rfl

theorem viewE_addEdges (g : Graph ν ε) (es : List (ℕ × ℕ × ε)) :
    viewE (g.addEdgesFrom es) = viewE g + ↑(es.map (viewEdge g)) := by
  unfold viewE
  rw [viewEdge_addEdges, Multiset.coe_add, Multiset.coe_eq_coe]
  unfold Graph.addEdgesFrom
  rw [List.map_append, List.map_reverse]
  exact (List.perm_append_comm).trans (List.Perm.append_left _ (List.reverse_perm _))

theorem wf_removeNode {g : Graph ν ε} (h : WF g) (i : ℕ) (hi : i ∈ g.nodes.map (·.1)) : WF (g.removeNode i) := by
  have hm : ∀ j, j ∈ (g.removeNode i).nodes.map (·.1) ↔ j ∈ g.nodes.map (·.1) ∧ j ≠ i := by
    intro j
    unfold Graph.removeNode
    simp only [List.mem_map, List.mem_filter, bne_iff_ne]
    constructor
    · rintro ⟨p, ⟨hp, hne⟩, rfl⟩; exact ⟨⟨p, hp, rfl⟩, hne⟩
    · rintro ⟨⟨p, hp, rfl⟩, hne⟩; exact ⟨p, ⟨hp, hne⟩, rfl⟩
  refine ⟨?_, ?_, ?_, ?_, ?_⟩
  · exact h.nodup.sublist (List.Sublist.map _ List.filter_sublist)
  · exact List.nodup_cons.mpr ⟨fun hf => (h.free i hf).2 hi, h.freeNodup⟩
  · intro j hj
    rw [hm]
    change j ∈ i :: g.free at hj
    rw [List.mem_cons] at hj
    rcases hj with rfl | hj
    · exact ⟨h.bound _ hi, fun hc => hc.2 rfl⟩
    · exact ⟨(h.free j hj).1, fun hc => (h.free j hj).2 hc.1⟩
  · intro j hj
    exact h.bound j ((hm j).mp hj).1
  · intro e he
    unfold Graph.removeNode at he
    rw [List.mem_filter, Bool.and_eq_true, bne_iff_ne, bne_iff_ne] at he
    rw [hm, hm]
    exact ⟨⟨(h.edges e he.1).1, he.2.1⟩, ⟨(h.edges e he.1).2, he.2.2⟩⟩

/-- Removing the only node whose payload satisfies `b`: what the view loses. -/
theorem view_removeNode {g : Graph ν ε} (h : WF g) (b : ν → Bool) (i : ℕ) (v : ν) (hi : (i, v) ∈ g.nodes)
    (hb : ∀ p ∈ g.nodes, b p.2 = true ↔ p.1 = i) :
    viewN (g.removeNode i) = (viewN g).filter (fun x => ¬ b x = true) ∧
    viewE (g.removeNode i) =
      (viewE g).filter (fun e => ¬ (e.1.any b = true) ∧ ¬ (e.2.1.any b = true)) := by
  have hW := wf_removeNode h i (List.mem_map_of_mem (f := (·.1)) hi)
  have hdata : ∀ j, j ∈ g.nodes.map (·.1) → ((g.nodeData j).any b = true ↔ j = i) := by
    intro j hj
    obtain ⟨p, hp, rfl⟩ := List.mem_map.mp hj
    rw [(nodeData_iff h p.1 p.2).mpr hp]
    exact hb p hp
  have hkeep : ∀ j, j ∈ g.nodes.map (·.1) → j ≠ i → (g.removeNode i).nodeData j = g.nodeData j := by
    intro j hj hne
    obtain ⟨p, hp, rfl⟩ := List.mem_map.mp hj
    rw [(nodeData_iff h p.1 p.2).mpr hp, nodeData_iff hW]
    exact List.mem_filter.mpr ⟨hp, by simpa using hne⟩
  constructor
  · unfold viewN
    rw [Multiset.filter_coe, List.filter_map]
    congr 2
    apply List.filter_congr
    intro p hp
    have := hb p hp
    rw [Bool.eq_iff_iff]
    simp only [bne_iff_ne, Function.comp, decide_eq_true_eq]
    tauto
  · unfold viewE
    rw [Multiset.filter_coe, List.filter_map]
    congr 1
    have : (g.removeNode i).edges =
        g.edges.filter ((fun e => decide (¬ (e.1.any b = true) ∧ ¬ (e.2.1.any b = true))) ∘ viewEdge g) := by
      apply List.filter_congr
      intro e he
      have h1 := hdata _ (h.edges e he).1
      have h2 := hdata _ (h.edges e he).2
      rw [Bool.eq_iff_iff]
      rw [Bool.and_eq_true, bne_iff_ne, bne_iff_ne, Function.comp, decide_eq_true_iff]
      exact (and_congr (not_congr h1) (not_congr h2)).symm
    rw [this]
    apply List.map_congr_left
    intro e he
    rw [← this] at he
    unfold Graph.removeNode at he
    rw [List.mem_filter, Bool.and_eq_true, bne_iff_ne, bne_iff_ne] at he
    unfold viewEdge
    rw [hkeep _ (h.edges e he.1).1 he.2.1, hkeep _ (h.edges e he.1).2 he.2.2]

/-- Adding nodes to the empty graph numbers them from zero. -/
theorem addNodesFrom_spec (vs : List ν) (l : List (ℕ × ν)) (n : ℕ) (es : List (ℕ × ℕ × ε))
    (hl : ∀ p ∈ l, p.1 < n) :
    (Graph.mk l [] n es).addNodesFrom vs =
      (List.range' n vs.length, Graph.mk (l ++ (vs.zipIdx n).map fun p => (p.2, p.1)) [] (n + vs.length) es) := by
  have hins : ∀ (v : ν) (l : List (ℕ × ν)) (n : ℕ), (∀ p ∈ l, p.1 < n) → Graph.insertNode n v l = l ++ [(n, v)] := by
    intro v l n hl
    induction l with
    | nil => rfl
    | cons p l ih =>
      have := hl p (by simp)
      unfold Graph.insertNode
      rw [if_neg (by omega), ih (fun q hq => hl q (by simp [hq]))]
      rfl
  induction vs generalizing l n with
  | nil => simp [Graph.addNodesFrom]
  | cons v vs ih =>
    have hadd : (Graph.mk l [] n es : Graph ν ε).addNode v = (n, Graph.mk (l ++ [(n, v)]) [] (n + 1) es) := by
      unfold Graph.addNode
      simp only [hins v l n hl]
    rw [Graph.addNodesFrom, hadd]
    simp only
    rw [ih (l ++ [(n, v)]) (n + 1) (by
      intro p hp
      rw [List.mem_append, List.mem_singleton] at hp
      rcases hp with hp | rfl
      · exact Nat.lt_succ_of_lt (hl p hp)
      · exact Nat.lt_succ_self _)]
    simp [List.range'_succ, List.zipIdx_cons, Nat.add_comm, Nat.add_left_comm]

/-- The index of a payload. -/
def indexOf [DecidableEq ν] (h : Graph ν ε) (v : Option ν) : ℕ :=
  ((h.nodes.find? fun p => some p.2 = v).map (·.1)).getD 0

theorem indexOf_mem [DecidableEq ν] {h : Graph ν ε} (hnd : (viewN h).Nodup) {i : ℕ} {v : ν} (hm : (i, v) ∈ h.nodes) :
    indexOf h (some v) = i := by
  unfold indexOf
  have hnd' : (h.nodes.map (·.2)).Nodup := Multiset.coe_nodup.mp hnd
  generalize h.nodes = l at hm hnd'
  induction l with
  | nil => simp at hm
  | cons p l ih =>
    rw [List.map_cons, List.nodup_cons] at hnd'
    rw [List.find?_cons]
    rw [List.mem_cons] at hm
    rcases hm with rfl | hm
    · simp
    · have : p.2 ≠ v := fun hc => hnd'.1 (hc ▸ List.mem_map_of_mem (f := (·.2)) hm)
      have hd : decide (some p.2 = some v) = false := by simpa using this
      simp only [hd]
      exact ih hm hnd'.2

/-- Graphs with the same payloads and edges, all payloads distinct, differ only in numbering. -/
theorem same_of_view [DecidableEq ν] {g h : Graph ν ε} (hg : WF g) (hh : WF h) (hnd : (viewN g).Nodup)
    (hN : viewN g = viewN h) (hE : viewE g = viewE h) : SameUpToNumbering g h := by
  have hnd' : (viewN h).Nodup := hN ▸ hnd
  refine ⟨fun i => indexOf h (g.nodeData i), ?_, ?_, ?_⟩
  · intro i hi j hj hij
    obtain ⟨p, hp, rfl⟩ := List.mem_map.mp hi
    obtain ⟨q, hq, rfl⟩ := List.mem_map.mp hj
    have h1 := (nodeData_iff hg p.1 p.2).mpr hp
    have h2 := (nodeData_iff hg q.1 q.2).mpr hq
    have hp' : p.2 ∈ viewN h := hN ▸ Multiset.mem_coe.mpr (List.mem_map_of_mem (f := (·.2)) hp)
    have hq' : q.2 ∈ viewN h := hN ▸ Multiset.mem_coe.mpr (List.mem_map_of_mem (f := (·.2)) hq)
    obtain ⟨p', hp', hpe⟩ := List.mem_map.mp (Multiset.mem_coe.mp hp')
    obtain ⟨q', hq', hqe⟩ := List.mem_map.mp (Multiset.mem_coe.mp hq')
    simp only [h1, h2] at hij
    rw [← hpe, ← hqe, indexOf_mem hnd' (i := p'.1) hp', indexOf_mem hnd' (i := q'.1) hq'] at hij
    have e1 := (nodeData_iff hh p'.1 p'.2).mpr hp'
    have e2 := (nodeData_iff hh q'.1 q'.2).mpr hq'
    rw [hij, e2, Option.some.injEq] at e1
    have hpq : p.2 = q.2 := by rw [← hpe, ← hqe, e1]
    have i1 := indexOf_mem hnd (i := p.1) hp
    have i2 := indexOf_mem hnd (i := q.1) hq
    rw [hpq] at i1
    exact i1.symm.trans i2
  · have : (g.nodes.map fun p => (indexOf h (g.nodeData p.1), p.2)) =
        (g.nodes.map (·.2)).map fun v => (indexOf h (some v), v) := by
      rw [List.map_map]
      apply List.map_congr_left
      intro p hp
      simp only [Function.comp, (nodeData_iff hg p.1 p.2).mpr hp]
    rw [this]
    have h2 : h.nodes = (h.nodes.map (·.2)).map fun v => (indexOf h (some v), v) := by
      rw [List.map_map]
      conv_lhs => rw [← List.map_id h.nodes]
      apply List.map_congr_left
      intro p hp
      simp only [Function.comp, indexOf_mem hnd' (i := p.1) hp, id]
    rw [h2]
    exact (Multiset.coe_eq_coe.mp hN).map _
  · have : (g.edges.map fun e => (indexOf h (g.nodeData e.1), indexOf h (g.nodeData e.2.1), e.2.2)) =
        (g.edges.map (viewEdge g)).map fun e => (indexOf h e.1, indexOf h e.2.1, e.2.2) := by
      rw [List.map_map]
      rfl
    rw [this]
    have h2 : h.edges = (h.edges.map (viewEdge h)).map fun e => (indexOf h e.1, indexOf h e.2.1, e.2.2) := by
      rw [List.map_map]
      conv_lhs => rw [← List.map_id h.edges]
      apply List.map_congr_left
      intro e he
      obtain ⟨p, hp, hpe⟩ := List.mem_map.mp (hh.edges e he).1
      obtain ⟨q, hq, hqe⟩ := List.mem_map.mp (hh.edges e he).2
      have e1 := (nodeData_iff hh p.1 p.2).mpr hp
      have e2 := (nodeData_iff hh q.1 q.2).mpr hq
      simp only [Function.comp, viewEdge, id]
      rw [← hpe, ← hqe, e1, e2, indexOf_mem hnd' (i := p.1) hp, indexOf_mem hnd' (i := q.1) hq]
      rw [hpe, hqe]
    rw [h2]
    exact (Multiset.coe_eq_coe.mp hE).map _

end Verif.Lemmas.Network
