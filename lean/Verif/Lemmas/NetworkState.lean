import Mathlib.Algebra.Order.BigOperators.Group.Multiset
import Verif.Lemmas.Network
import Verif.Lemmas.Except

/-! Lemmas on `set_precursors` and `set_target`: their effect on the view of the graph. -/

namespace Verif.Lemmas.Network

open Verif.Py Verif.Model.Network Verif.Spec.Network

section Multiset

variable {α β : Type}

theorem bind_if_singleton (s : Multiset α) (p : α → Prop) [DecidablePred p] (f : α → β) :
    (s.bind fun a => if p a then {f a} else 0) = (s.filter p).map f := by
  induction s using Multiset.induction with
  | empty => simp
  | cons a s ih =>
    rw [Multiset.cons_bind, ih, Multiset.filter_cons]
    by_cases h : p a
    · simp [h]
    · simp [h]

theorem bind_if (s : Multiset α) (p : α → Prop) [DecidablePred p] (f : α → Multiset β) :
    (s.bind fun a => if p a then f a else 0) = (s.filter p).bind f := by
  induction s using Multiset.induction with
  | empty => simp
  | cons a s ih =>
    rw [Multiset.cons_bind, ih, Multiset.filter_cons]
    by_cases h : p a
    · simp [h]
    · simp [h]

end Multiset

set_option linter.unusedSectionVars false

variable {η ρ : Type} [DecidableEq η]

/-- No endpoint of the edge is a node of kind `k`. -/
def NoKind (k : Kind) (e : VEdge η ρ) : Prop :=
  ¬ (e.1.any (fun v => v.kind == k) = true) ∧ ¬ (e.2.1.any (fun v => v.kind == k) = true)

instance (k : Kind) : DecidablePred (NoKind (η := η) (ρ := ρ) k) := fun _ => instDecidableAnd

theorem newLoopbacks_view (g : Graph (Node η) (Edge ρ)) (ps : Finset η) (nodes : List (ℕ × Node η))
    (hn : ∀ p ∈ nodes, g.nodeData p.1 = some p.2) (p : ℕ × Node η) (hp : g.nodeData p.1 = some p.2) :
    (((newLoopbacks ps nodes p).map (viewEdge g) : List (VEdge η ρ)) : Multiset (VEdge η ρ)) =
      ((↑(nodes.map (·.2)) : Multiset (Node η)).filter fun q =>
        q.kind = .reactants ∧ ¬ q.entries ⊆ ps ∧ q.entries ⊆ ps ∪ p.2.entries).map
      fun q => (some p.2, some q, Edge.loopback) := by
  induction nodes with
  | nil => rfl
  | cons q l ih =>
    have ih' := ih (fun x hx => hn x (List.mem_cons_of_mem _ hx))
    have hq := hn q List.mem_cons_self
    unfold newLoopbacks at ih' ⊢
    rw [List.filterMap_cons, List.map_cons, ← Multiset.cons_coe, Multiset.filter_cons]
    by_cases h1 : q.2.kind = .reactants
    · by_cases h2 : q.2.entries ⊆ ps
      · rw [if_pos h1, if_pos h2, if_neg (by tauto), zero_add]
        exact ih'
      · by_cases h3 : q.2.entries ⊆ ps ∪ p.2.entries
        · rw [if_pos h1, if_neg h2, if_pos h3, if_pos ⟨h1, h2, h3⟩, Multiset.map_add, ← ih']
          rw [List.map_cons, ← Multiset.cons_coe, ← Multiset.singleton_add, Multiset.map_singleton]
          congr 1
          simp [viewEdge, hp, hq]
        · rw [if_pos h1, if_neg h2, if_neg h3, if_neg (by tauto), zero_add]
          exact ih'
    · rw [if_neg h1, if_neg (by tauto), zero_add]
      exact ih'

theorem startE_cons (ps : Finset η) (N : Multiset (Node η)) (v : Node η) (hv : v.kind ≠ .reactants) :
    (startE ps (v ::ₘ N) : Multiset (VEdge η ρ)) = startE ps N := by
  unfold startE
  rw [Multiset.filter_cons_of_neg _ (fun h => hv h.1)]

theorem returnE_cons (ps : Finset η) (N : Multiset (Node η)) (v : Node η) (hv : v.kind ≠ .reactants)
    (hv' : v.kind ≠ .products) : (returnE ps (v ::ₘ N) : Multiset (VEdge η ρ)) = returnE ps N := by
  unfold returnE
  rw [Multiset.filter_cons_of_neg (p := fun p : Node η => p.kind = .products) _ hv']
  congr 1
  funext p
  rw [Multiset.filter_cons_of_neg _ (fun h => hv h.1)]

theorem targetE_cons (t : η) (N : Multiset (Node η)) (v : Node η) (hv' : v.kind ≠ .products) :
    (targetE t (v ::ₘ N) : Multiset (VEdge η ρ)) = targetE t N := by
  unfold targetE
  rw [Multiset.filter_cons_of_neg _ (fun h => hv' h.1)]

theorem mem_precursorEdgesAt (ps : Finset η) (pn : ℕ) (nodes : List (ℕ × Node η)) (p : ℕ × Node η)
    (e : ℕ × ℕ × Edge ρ) (hp : p ∈ nodes) (he : e ∈ precursorEdgesAt ps pn nodes p) :
    (e.1 = pn ∨ e.1 ∈ nodes.map (·.1)) ∧ e.2.1 ∈ nodes.map (·.1) := by
  unfold precursorEdgesAt at he
  split at he
  · split at he
    · rw [List.mem_singleton] at he
      subst he
      exact ⟨Or.inl rfl, List.mem_map_of_mem (f := (·.1)) hp⟩
    · simp at he
  · split at he
    · unfold newLoopbacks at he
      rw [List.mem_filterMap] at he
      obtain ⟨q, hq, he⟩ := he
      split at he
      · split at he
        · simp at he
        · split at he
          · simp only [Option.some.injEq] at he
            subst he
            exact ⟨Or.inr (List.mem_map_of_mem (f := (·.1)) hp), List.mem_map_of_mem (f := (·.1)) hq⟩
          · simp at he
      · simp at he
    · simp at he

/-- What `set_precursors` adds. -/
theorem attachPrecursors_view (ps : Finset η) {g : Graph (Node η) (Edge ρ)} (h : WF g) :
    viewN (attachPrecursors ps g) = ⟨.precursors, ps⟩ ::ₘ viewN g ∧
    viewE (attachPrecursors ps g) = viewE g + (startE ps (viewN g) + returnE ps (viewN g)) ∧
    WF (attachPrecursors ps g) := by
  obtain ⟨hnew, hperm, hedge, hW⟩ := addNode_spec h (⟨.precursors, ps⟩ : Node η)
  have hN := viewN_addNode h (⟨.precursors, ps⟩ : Node η)
  have hE := viewE_addNode h (⟨.precursors, ps⟩ : Node η)
  have hd := nodeData_addNode_new h (⟨.precursors, ps⟩ : Node η)
  unfold attachPrecursors
  simp only
  set a := g.addNode (⟨.precursors, ps⟩ : Node η) with ha
  have hdata : ∀ p ∈ a.2.nodes, a.2.nodeData p.1 = some p.2 := fun p hp => (nodeData_iff hW p.1 p.2).mpr hp
  refine ⟨by rw [viewN_addEdges, hN], ?_, ?_⟩
  · rw [viewE_addEdges, hE]
    congr 1
    rw [List.map_flatMap, ← Multiset.coe_bind]
    have hcong : ∀ p ∈ (↑a.2.nodes : Multiset (ℕ × Node η)),
        (((precursorEdgesAt ps a.1 a.2.nodes p).map (viewEdge a.2) : List (VEdge η ρ)) : Multiset (VEdge η ρ)) =
        (if p.2.kind = .reactants ∧ p.2.entries ⊆ ps then
          {((some ⟨.precursors, ps⟩, some p.2, Edge.precursor) : VEdge η ρ)} else 0) +
        (if p.2.kind = .products then ((viewN a.2).filter fun q =>
          q.kind = .reactants ∧ ¬ q.entries ⊆ ps ∧ q.entries ⊆ ps ∪ p.2.entries).map
          (fun q => ((some p.2, some q, Edge.loopback) : VEdge η ρ)) else 0) := by
      intro p hp
      have hp' : p ∈ a.2.nodes := Multiset.mem_coe.mp hp
      unfold precursorEdgesAt
      by_cases h1 : p.2.kind = .reactants
      · have h2 : ¬ p.2.kind = .products := by rw [h1]; decide
        rw [if_pos h1, if_neg h2, add_zero]
        by_cases h3 : p.2.entries ⊆ ps
        · rw [if_pos h3, if_pos ⟨h1, h3⟩]
          simp [viewEdge, hd, hdata p hp']
        · rw [if_neg h3, if_neg (fun hc => h3 hc.2)]
          rfl
      · rw [if_neg h1, if_neg (c := _ ∧ _) (fun hc => h1 hc.1), zero_add]
        by_cases h2 : p.2.kind = .products
        · rw [if_pos h2, if_pos h2]
          exact newLoopbacks_view a.2 ps a.2.nodes hdata p (hdata p hp')
        · rw [if_neg h2, if_neg h2]
          rfl
    rw [Multiset.bind_congr hcong, Multiset.bind_add]
    have hmap : ∀ F : Node η → Multiset (VEdge η ρ),
        ((↑a.2.nodes : Multiset (ℕ × Node η)).bind fun p => F p.2) = (viewN a.2).bind F := by
      intro F
      rw [viewN, ← Multiset.map_coe, Multiset.bind_map]
    rw [hmap (fun q => if q.kind = .reactants ∧ q.entries ⊆ ps then
        {((some ⟨.precursors, ps⟩, some q, Edge.precursor) : VEdge η ρ)} else 0),
      hmap (fun p => if p.kind = .products then ((viewN a.2).filter fun q =>
          q.kind = .reactants ∧ ¬ q.entries ⊆ ps ∧ q.entries ⊆ ps ∪ p.entries).map
          (fun q => ((some p, some q, Edge.loopback) : VEdge η ρ)) else 0), bind_if_singleton, bind_if]
    change startE ps (viewN a.2) + returnE ps (viewN a.2) = _
    rw [hN, startE_cons _ _ _ (by simp), returnE_cons _ _ _ (by simp) (by simp)]
  · apply wf_addEdges hW
    intro e he
    rw [List.mem_flatMap] at he
    obtain ⟨p, hp, he⟩ := he
    have := mem_precursorEdgesAt ps a.1 a.2.nodes p e hp he
    refine ⟨?_, this.2⟩
    rcases this.1 with h1 | h1
    · rw [h1, (hperm.map (·.1)).mem_iff]
      exact List.mem_cons_self
    · exact h1

/-- What `set_target` adds. -/
theorem attachTarget_view (t : η) {g : Graph (Node η) (Edge ρ)} (h : WF g) :
    viewN (attachTarget t g) = ⟨.target, {t}⟩ ::ₘ viewN g ∧
    viewE (attachTarget t g) = viewE g + targetE t (viewN g) ∧ WF (attachTarget t g) := by
  obtain ⟨hnew, hperm, hedge, hW⟩ := addNode_spec h (⟨.target, {t}⟩ : Node η)
  have hN := viewN_addNode h (⟨.target, {t}⟩ : Node η)
  have hE := viewE_addNode h (⟨.target, {t}⟩ : Node η)
  have hd := nodeData_addNode_new h (⟨.target, {t}⟩ : Node η)
  unfold attachTarget
  simp only
  set a := g.addNode (⟨.target, {t}⟩ : Node η) with ha
  have hdata : ∀ p ∈ a.2.nodes, a.2.nodeData p.1 = some p.2 := fun p hp => (nodeData_iff hW p.1 p.2).mpr hp
  refine ⟨by rw [viewN_addEdges, hN], ?_, ?_⟩
  · rw [viewE_addEdges, hE]
    congr 1
    rw [← targetE_cons t (viewN g) (⟨.target, {t}⟩ : Node η) (by simp), ← hN]
    unfold targetE viewN
    generalize hl : a.2.nodes = l at *
    clear hl hperm hN
    induction l with
    | nil => rfl
    | cons p l ih =>
      have ih' := ih (fun x hx => hdata x (List.mem_cons_of_mem _ hx))
      have hp := hdata p List.mem_cons_self
      rw [List.filterMap_cons, List.map_cons, ← Multiset.cons_coe, Multiset.filter_cons, Multiset.map_add, ← ih']
      by_cases hc : p.2.kind = .products ∧ t ∈ p.2.entries
      · rw [if_pos hc, if_pos hc, List.map_cons, ← Multiset.cons_coe, Multiset.map_singleton,
          Multiset.singleton_add]
        simp [viewEdge, hp, hd]
      · rw [if_neg hc, if_neg hc, Multiset.map_zero, zero_add]
  · apply wf_addEdges hW
    intro e he
    rw [List.mem_filterMap] at he
    obtain ⟨p, hp, he⟩ := he
    split at he
    · simp only [Option.some.injEq] at he
      subst he
      refine ⟨List.mem_map_of_mem (f := (·.1)) hp, ?_⟩
      rw [(hperm.map (·.1)).mem_iff]
      exact List.mem_cons_self
    · simp at he

/-- Removing the only node of a kind. -/
theorem detach_view (k : Kind) {g : Graph (Node η) (Edge ρ)} (h : WF g) (v : Node η)
    (hu : (viewN g).filter (fun x => x.kind = k) = {v}) :
    ∃ i, findKind k g = some i ∧ WF (g.removeNode i) ∧
      viewN (g.removeNode i) = (viewN g).filter (fun x => ¬ x.kind = k) ∧
      viewE (g.removeNode i) = (viewE g).filter (NoKind k) := by
  have hfl : ∃ q, g.nodes.filter (fun p => p.2.kind == k) = [q] := by
    have : (g.nodes.filter (fun p => p.2.kind == k)).map (·.2) = [v] := by
      unfold viewN at hu
      rw [Multiset.filter_coe, List.filter_map, ← Multiset.coe_singleton, Multiset.coe_eq_coe,
        List.perm_singleton] at hu
      rw [← hu]
      congr 1
    generalize g.nodes.filter (fun p => p.2.kind == k) = l at this
    match l, this with
    | [q], _ => exact ⟨q, rfl⟩
  obtain ⟨q, hq⟩ := hfl
  have hqm : q ∈ g.nodes ∧ (q.2.kind == k) = true := by
    have : q ∈ g.nodes.filter (fun p => p.2.kind == k) := by rw [hq]; simp
    exact List.mem_filter.mp this
  have hfind : findKind k g = some q.1 := by
    unfold findKind
    rw [← List.head?_filter, hq]
    rfl
  have hb : ∀ p ∈ g.nodes, (p.2.kind == k) = true ↔ p.1 = q.1 := by
    intro p hp
    constructor
    · intro hk
      have : p ∈ g.nodes.filter (fun p => p.2.kind == k) := List.mem_filter.mpr ⟨hp, hk⟩
      rw [hq, List.mem_singleton] at this
      rw [this]
    · intro he
      have h1 := (nodeData_iff h p.1 p.2).mpr hp
      have h2 := (nodeData_iff h q.1 q.2).mpr hqm.1
      rw [he, h2, Option.some.injEq] at h1
      rw [← h1]
      exact hqm.2
  have hv := view_removeNode h (fun v => v.kind == k) q.1 q.2 hqm.1 hb
  refine ⟨q.1, hfind, wf_removeNode h _ (List.mem_map_of_mem (f := (·.1)) hqm.1), ?_, ?_⟩
  · rw [hv.1]
    apply Multiset.filter_congr
    intro x _
    simp
  · rw [hv.2]
    rfl

theorem startE_kinds (ps : Finset η) (N : Multiset (Node η)) (e : VEdge η ρ) (he : e ∈ startE ps N) :
    ¬ NoKind .precursors e ∧ NoKind .target e := by
  unfold startE at he
  rw [Multiset.mem_map] at he
  obtain ⟨q, hq, rfl⟩ := he
  rw [Multiset.mem_filter] at hq
  constructor
  · intro hc
    exact hc.1 (by simp)
  · exact ⟨by simp, by simp [hq.2.1]⟩

theorem returnE_kinds (ps : Finset η) (N : Multiset (Node η)) (e : VEdge η ρ) (he : e ∈ returnE ps N) :
    NoKind .precursors e ∧ NoKind .target e := by
  unfold returnE at he
  rw [Multiset.mem_bind] at he
  obtain ⟨p, hp, he⟩ := he
  rw [Multiset.mem_map] at he
  obtain ⟨q, hq, rfl⟩ := he
  rw [Multiset.mem_filter] at hp hq
  exact ⟨⟨by simp [hp.2], by simp [hq.2.1]⟩, ⟨by simp [hp.2], by simp [hq.2.1]⟩⟩

theorem targetE_kinds (t : η) (N : Multiset (Node η)) (e : VEdge η ρ) (he : e ∈ targetE t N) :
    NoKind .precursors e ∧ ¬ NoKind .target e := by
  unfold targetE at he
  rw [Multiset.mem_map] at he
  obtain ⟨q, hq, rfl⟩ := he
  rw [Multiset.mem_filter] at hq
  constructor
  · exact ⟨by simp [hq.2.1], by simp⟩
  · intro hc
    exact hc.2 (by simp)

theorem builtE_kinds (R P : ρ → Finset η) (rxns : List ρ) (e : VEdge η ρ) (he : e ∈ builtE R P rxns) :
    NoKind .precursors e ∧ NoKind .target e := by
  unfold builtE at he
  rw [Multiset.mem_coe, List.mem_append, List.mem_map, List.mem_map] at he
  rcases he with ⟨r, _, rfl⟩ | ⟨s, _, rfl⟩
  · exact ⟨⟨by simp, by simp⟩, ⟨by simp, by simp⟩⟩
  · exact ⟨⟨by simp, by simp⟩, ⟨by simp, by simp⟩⟩

theorem builtN_kinds (R P : ρ → Finset η) (rxns : List ρ) (v : Node η) (hv : v ∈ builtN R P rxns) :
    v.kind = .reactants ∨ v.kind = .products := by
  unfold builtN at hv
  rw [Multiset.mem_coe, List.mem_append, List.mem_map, List.mem_map] at hv
  rcases hv with ⟨s, _, rfl⟩ | ⟨s, _, rfl⟩
  · exact Or.inl rfl
  · exact Or.inr rfl

end Verif.Lemmas.Network
