import Verif.Lemmas.Network

/-!
# C47: the built network

The graph made by `ReactionNetwork.build()` has exactly the nodes and edges that the specification
(`builtN`, `builtE`) lists, with multiplicity.
-/

namespace Verif.Props.Network

open Verif.Py Verif.Model.Network Verif.Spec.Network Verif.Lemmas.Network

set_option linter.unusedSectionVars false

variable {η ρ : Type} [DecidableEq η]

theorem internNode_spec (nodes : List (Node η)) (v : Node η) (h : nodes.Nodup) :
    (internNode nodes v).1.Nodup ∧ (∀ x, x ∈ (internNode nodes v).1 ↔ x = v ∨ x ∈ nodes) ∧
      nodes <+: (internNode nodes v).1 ∧ (internNode nodes v).1[(internNode nodes v).2]? = some v := by
  unfold internNode
  split
  · rename_i hv
    refine ⟨h, ?_, List.prefix_refl _, ?_⟩
    · intro x
      constructor
      · exact Or.inr
      · rintro (rfl | hx)
        · exact hv
        · exact hx
    · rw [List.getElem?_eq_getElem (List.idxOf_lt_length_of_mem hv), List.getElem_idxOf]
  · rename_i hv
    refine ⟨?_, ?_, List.prefix_append _ _, ?_⟩
    · rw [List.nodup_append]
      refine ⟨h, List.nodup_singleton _, ?_⟩
      intro a ha b hb hab
      rw [List.mem_singleton] at hb
      exact hv (hb ▸ hab ▸ ha)
    · intro x
      simp [or_comm]
    · simp

theorem getElem?_prefix {α : Type} {l l' : List α} (h : l <+: l') {i : ℕ} {x : α} (hx : l[i]? = some x) :
    l'[i]? = some x := by
  obtain ⟨m, rfl⟩ := h
  rw [List.getElem?_append_left, hx]
  exact (List.getElem?_eq_some_iff.mp hx).1

/-- Looking an edge up in the node list. -/
def look (nodes : List (Node η)) (e : ℕ × ℕ × Edge ρ) : VEdge η ρ := (nodes[e.1]?, nodes[e.2.1]?, e.2.2)

theorem rxnNodes_spec (R P : ρ → Finset η) (rs : List ρ) (nodes : List (Node η)) (edges : List (ℕ × ℕ × Edge ρ))
    (done : List ρ) (h1 : nodes.Nodup)
    (h2 : ∀ v, v ∈ nodes ↔ ∃ r ∈ done, v = ⟨.reactants, R r⟩ ∨ v = ⟨.products, P r⟩)
    (h3 : edges.map (look nodes) =
      done.map fun r => ((some ⟨.reactants, R r⟩, some ⟨.products, P r⟩, Edge.rxn r) : VEdge η ρ)) :
    (rs.foldl (rxnStep R P) (nodes, edges)).1.Nodup ∧
    (∀ v, v ∈ (rs.foldl (rxnStep R P) (nodes, edges)).1 ↔
      ∃ r ∈ done ++ rs, v = ⟨.reactants, R r⟩ ∨ v = ⟨.products, P r⟩) ∧
    (rs.foldl (rxnStep R P) (nodes, edges)).2.map (look (rs.foldl (rxnStep R P) (nodes, edges)).1) =
      (done ++ rs).map fun r => ((some ⟨.reactants, R r⟩, some ⟨.products, P r⟩, Edge.rxn r) : VEdge η ρ) := by
  induction rs generalizing nodes edges done with
  | nil => simpa using ⟨h1, h2, h3⟩
  | cons r rs ih =>
    have ha := internNode_spec nodes ⟨.reactants, R r⟩ h1
    have hb := internNode_spec (internNode nodes ⟨.reactants, R r⟩).1 ⟨.products, P r⟩ ha.1
    have hpre := ha.2.2.1.trans hb.2.2.1
    have key := ih (rxnStep R P (nodes, edges) r).1 (rxnStep R P (nodes, edges) r).2 (done ++ [r])
      hb.1 (by
        intro v
        change v ∈ (internNode _ _).1 ↔ _
        rw [hb.2.1, ha.2.1, h2]
        simp only [List.mem_append, List.mem_singleton]
        constructor
        · rintro (rfl | rfl | ⟨q, hq, h⟩)
          · exact ⟨r, Or.inr rfl, Or.inr rfl⟩
          · exact ⟨r, Or.inr rfl, Or.inl rfl⟩
          · exact ⟨q, Or.inl hq, h⟩
        · rintro ⟨q, hq | rfl, h⟩
          · exact Or.inr (Or.inr ⟨q, hq, h⟩)
          · tauto) (by
        change (edges ++ [((internNode nodes ⟨.reactants, R r⟩).2,
          (internNode (internNode nodes ⟨.reactants, R r⟩).1 ⟨.products, P r⟩).2, Edge.rxn r)]).map (look
            (internNode (internNode nodes ⟨.reactants, R r⟩).1 ⟨.products, P r⟩).1) = _
        rw [List.map_append, List.map_append, ← h3]
        congr 1
        · apply List.map_congr_left
          intro e he
          have : look nodes e ∈ edges.map (look nodes) := List.mem_map_of_mem he
          rw [h3, List.mem_map] at this
          obtain ⟨q, _, hq⟩ := this
          unfold look at hq
          simp only [Prod.mk.injEq] at hq
          unfold look
          rw [getElem?_prefix hpre hq.1.symm, getElem?_prefix hpre hq.2.1.symm, ← hq.1, ← hq.2.1]
        · simp only [List.map_cons, List.map_nil, look, hb.2.2.2, getElem?_prefix hb.2.2.1 ha.2.2.2])
    rw [List.append_assoc, List.singleton_append] at key
    exact key

/-- For one product node, the reactant node with the same entries. -/
theorem loopbackFrom_spec (nodes : List (Node η)) (hn : nodes.Nodup) (p : Node η × ℕ)
    (hp : nodes[p.2]? = some p.1) :
    (loopbackFrom (ρ := ρ) nodes p).map (look nodes) =
      if p.1.kind = .products ∧ (⟨.reactants, p.1.entries⟩ : Node η) ∈ nodes then
        [(some p.1, some ⟨.reactants, p.1.entries⟩, Edge.loopback)] else [] := by
  unfold loopbackFrom
  by_cases hk : p.1.kind = .products
  · rw [if_neg (by simpa using hk)]
    have hgen : ∀ (l : List (Node η)) (k : ℕ), (∀ i, l[i]? = none ∨ nodes[k + i]? = l[i]?) → l.Nodup →
        ((l.zipIdx k).filterMap fun r =>
          if r.1.kind ≠ .reactants then none
          else if p.1.entries = r.1.entries then some (p.2, r.2, (Edge.loopback : Edge ρ)) else none).map (look nodes) =
        if (⟨.reactants, p.1.entries⟩ : Node η) ∈ l then
          [(some p.1, some ⟨.reactants, p.1.entries⟩, Edge.loopback)] else [] := by
      intro l
      induction l with
      | nil => intros; rfl
      | cons q l ih =>
        intro k hk' hnd
        rw [List.zipIdx_cons, List.filterMap_cons]
        have hq : nodes[k]? = some q := by
          rcases hk' 0 with h | h
          · simp at h
          · simpa using h
        have ih' := ih (k + 1) (fun i => by
          have := hk' (i + 1)
          rw [List.getElem?_cons_succ] at this
          rwa [show k + 1 + i = k + (i + 1) by omega]) (List.nodup_cons.mp hnd).2
        have hnot := (List.nodup_cons.mp hnd).1
        by_cases h1 : q.kind = .reactants
        · by_cases h2 : p.1.entries = q.entries
          · have hqe : (⟨.reactants, p.1.entries⟩ : Node η) = q := by
              cases q; simp_all
            subst hqe
            rw [if_neg hnot] at ih'
            rw [if_pos List.mem_cons_self]
            simp only [ne_eq, not_true_eq_false, if_false, if_true, List.map_cons, ih']
            simp [look, hp, hq]
          · simp only [h1, ne_eq, not_true_eq_false, if_false, h2]
            rw [ih']
            have : ¬ ((⟨.reactants, p.1.entries⟩ : Node η) = q) := fun hc => h2 (by rw [← hc])
            simp [this]
        · simp only [ne_eq, h1, not_false_eq_true, if_true]
          rw [ih']
          have : ¬ ((⟨.reactants, p.1.entries⟩ : Node η) = q) := fun hc => h1 (by rw [← hc])
          simp [this]
    rw [hgen nodes 0 (fun i => Or.inr (by rw [Nat.zero_add])) hn]
    simp [hk]
  · rw [if_pos (by simpa using hk), if_neg (fun h => hk h.1)]
    rfl

/-- A node of a built network is a reactant set or a product set of some reaction. -/
theorem mem_builtN (R P : ρ → Finset η) (rxns : List ρ) (v : Node η) :
    v ∈ builtN R P rxns ↔ ∃ r ∈ rxns, v = ⟨.reactants, R r⟩ ∨ v = ⟨.products, P r⟩ := by
  unfold builtN
  simp only [Multiset.mem_coe, List.mem_append, List.mem_map, List.mem_dedup]
  constructor
  · rintro (⟨s, ⟨r, hr, rfl⟩, rfl⟩ | ⟨s, ⟨r, hr, rfl⟩, rfl⟩)
    · exact ⟨r, hr, Or.inl rfl⟩
    · exact ⟨r, hr, Or.inr rfl⟩
  · rintro ⟨r, hr, rfl | rfl⟩
    · exact Or.inl ⟨_, ⟨r, hr, rfl⟩, rfl⟩
    · exact Or.inr ⟨_, ⟨r, hr, rfl⟩, rfl⟩

theorem nodup_builtN (R P : ρ → Finset η) (rxns : List ρ) : (builtN R P rxns).Nodup := by
  unfold builtN
  rw [Multiset.coe_nodup, List.nodup_append]
  refine ⟨(List.nodup_dedup _).map (fun a b h => by simpa using h),
    (List.nodup_dedup _).map (fun a b h => by simpa using h), ?_⟩
  intro a ha b hb hab
  rw [List.mem_map] at ha hb
  obtain ⟨s, _, rfl⟩ := ha
  obtain ⟨s', _, rfl⟩ := hb
  simp at hab

theorem build_nodes (R P : ρ → Finset η) (rxns : List ρ) :
    (buildGraph R P rxns).nodes = (rxnNodesAndEdges R P rxns).1.zipIdx.map (fun p => (p.2, p.1)) := by
  unfold buildGraph Graph.empty
  simp only
  rw [addNodesFrom_spec _ _ _ _ (by simp)]
  simp [Graph.addEdgesFrom]

theorem nodes_zipIdx_data {l : List (Node η)} (g : Graph (Node η) (Edge ρ))
    (hg : g.nodes = l.zipIdx.map (fun p => (p.2, p.1))) (i : ℕ) : g.nodeData i = l[i]? := by
  unfold Graph.nodeData
  rw [hg]
  have hgen : ∀ (l : List (Node η)) (k : ℕ), ((((l.zipIdx k).map fun p => (p.2, p.1)).find? fun p => p.1 == i).map
      (·.2)) = if k ≤ i then l[i - k]? else none := by
    intro l
    induction l with
    | nil => intro k; simp
    | cons v l ih =>
      intro k
      rw [List.zipIdx_cons, List.map_cons, List.find?_cons]
      by_cases hk : k = i
      · subst hk; simp
      · have : (k == i) = false := by simpa using hk
        simp only [this]
        rw [ih]
        by_cases hlt : k < i
        · rw [if_pos (by omega), if_pos (by omega), show i - k = (i - (k + 1)) + 1 by omega,
            List.getElem?_cons_succ]
        · rw [if_neg (by omega), if_neg (by omega)]
  rw [hgen l 0]
  simp

/-- **C47.** For every reaction set, the network built from it has one node per distinct reactant
set and one per distinct product set, one edge per reaction (with multiplicity, and carrying that
reaction) from its reactants to its products, one loopback edge from each product set to the equal
reactant set, and nothing else.  Edge endpoints are always nodes of the graph. -/
theorem C47_build (R P : ρ → Finset η) (rxns : List ρ) :
    viewN (buildGraph R P rxns) = builtN R P rxns ∧ viewE (buildGraph R P rxns) = builtE R P rxns ∧
      (viewN (buildGraph R P rxns)).Nodup ∧ WF (buildGraph R P rxns) := by
  have hne := rxnNodes_spec R P rxns [] [] [] (by simp) (by simp) (by simp)
  change (rxnNodesAndEdges R P rxns).1.Nodup ∧ (∀ v, v ∈ (rxnNodesAndEdges R P rxns).1 ↔ _) ∧
    (rxnNodesAndEdges R P rxns).2.map (look (rxnNodesAndEdges R P rxns).1) = _ at hne
  rw [List.nil_append] at hne
  obtain ⟨h1, h2, h3⟩ := hne
  have hnodes := build_nodes R P rxns
  set l := (rxnNodesAndEdges R P rxns).1 with hl
  have hdata : ∀ i, (buildGraph R P rxns).nodeData i = l[i]? := nodes_zipIdx_data _ hnodes
  have hview : viewEdge (buildGraph R P rxns) = look l := by
    funext e
    unfold viewEdge look
    rw [hdata, hdata]
  have hsnd : (buildGraph R P rxns).nodes.map (·.2) = l := by
    rw [hnodes, List.map_map]
    exact List.zipIdx_map_fst 0 l
  have hfst : (buildGraph R P rxns).nodes.map (·.1) = List.range l.length := by
    rw [hnodes, List.map_map]
    have := List.zipIdx_map_snd 0 l
    rw [← List.range_eq_range'] at this
    exact this
  have hN : viewN (buildGraph R P rxns) = builtN R P rxns := by
    unfold viewN
    rw [hsnd]
    refine (Multiset.Nodup.ext (Multiset.coe_nodup.mpr h1) (nodup_builtN R P rxns)).mpr ?_
    intro v
    rw [mem_builtN, Multiset.mem_coe, h2]
  have hedges : (buildGraph R P rxns).edges =
      ((rxnNodesAndEdges R P rxns).2 ++ loopbackEdges l).reverse := by
    unfold buildGraph Graph.empty
    simp only
    rw [addNodesFrom_spec _ _ _ _ (by simp)]
    simp [Graph.addEdgesFrom, hl]
  have hloop : ((loopbackEdges (ρ := ρ) l).map (look l)) =
      (l.filter fun p => decide (p.kind = .products ∧ (⟨.reactants, p.entries⟩ : Node η) ∈ l)).map
        fun p => (some p, some ⟨.reactants, p.entries⟩, Edge.loopback) := by
    unfold loopbackEdges
    rw [List.map_flatMap]
    have hz : ∀ p ∈ l.zipIdx, (loopbackFrom (ρ := ρ) l p).map (look l) =
        if p.1.kind = .products ∧ (⟨.reactants, p.1.entries⟩ : Node η) ∈ l then
          [(some p.1, some ⟨.reactants, p.1.entries⟩, Edge.loopback)] else [] := by
      intro p hp
      apply loopbackFrom_spec l h1
      exact List.mk_mem_zipIdx_iff_getElem?.mp hp
    rw [List.flatMap_congr hz]
    have : ∀ (m : List (Node η × ℕ)), (m.flatMap fun p =>
        if p.1.kind = .products ∧ (⟨.reactants, p.1.entries⟩ : Node η) ∈ l then
          [((some p.1, some ⟨.reactants, p.1.entries⟩, Edge.loopback) : VEdge η ρ)] else []) =
        ((m.map (·.1)).filter fun p => decide (p.kind = .products ∧ (⟨.reactants, p.entries⟩ : Node η) ∈ l)).map
        fun p => (some p, some ⟨.reactants, p.entries⟩, Edge.loopback) := by
      intro m
      induction m with
      | nil => rfl
      | cons p m ih =>
        rw [List.flatMap_cons, ih, List.map_cons, List.filter_cons]
        by_cases hc : p.1.kind = .products ∧ (⟨.reactants, p.1.entries⟩ : Node η) ∈ l
        · rw [if_pos hc, if_pos (decide_eq_true hc)]; rfl
        · rw [if_neg hc, if_neg (by simpa using hc)]; rfl
    rw [this]
    exact congrArg _ (congrArg _ (List.zipIdx_map_fst 0 l))
  refine ⟨hN, ?_, hN ▸ nodup_builtN R P rxns, ⟨?_, ?_, ?_, ?_, ?_⟩⟩
  · unfold viewE builtE
    rw [hview, hedges, Multiset.coe_eq_coe, List.map_reverse, List.map_append, h3, hloop]
    refine (List.reverse_perm _).trans (List.Perm.append_left _ ?_)
    have hperm : (l.filter fun p => decide (p.kind = .products ∧ (⟨.reactants, p.entries⟩ : Node η) ∈ l)).Perm
        ((((rxns.map P).dedup.filter fun s => decide (s ∈ rxns.map R))).map
          fun s => (⟨.products, s⟩ : Node η)) := by
      refine (List.perm_ext_iff_of_nodup (h1.filter _)
        (((List.nodup_dedup _).filter _).map (fun a b h => by simpa using h))).mpr ?_
      intro v
      simp only [List.mem_filter, List.mem_map, List.mem_dedup, h2, decide_eq_true_iff]
      constructor
      · rintro ⟨⟨r, hr, hv⟩, hk, q, hq, hv'⟩
        rcases hv with rfl | rfl
        · simp at hk
        · rcases hv' with hv' | hv'
          · simp only [Node.mk.injEq, true_and] at hv'
            exact ⟨P r, ⟨⟨r, hr, rfl⟩, q, hq, hv'.symm⟩, rfl⟩
          · simp at hv'
      · rintro ⟨s, ⟨⟨r, hr, rfl⟩, q, hq, hs⟩, rfl⟩
        exact ⟨⟨r, hr, Or.inr rfl⟩, rfl, q, hq, Or.inl (by rw [hs])⟩
    refine (hperm.map _).trans ?_
    rw [List.map_map]
    exact List.Perm.refl _
  · rw [hfst]; exact List.nodup_range
  · unfold buildGraph Graph.empty
    simp only
    rw [addNodesFrom_spec _ _ _ _ (by simp)]
    simp [Graph.addEdgesFrom]
  · unfold buildGraph Graph.empty
    simp only
    rw [addNodesFrom_spec _ _ _ _ (by simp)]
    simp [Graph.addEdgesFrom]
  · rw [hfst]
    unfold buildGraph Graph.empty
    simp only
    rw [addNodesFrom_spec _ _ _ _ (by simp)]
    simp [Graph.addEdgesFrom, hl]
  · intro e he
    have hmem : ∀ i, (l[i]?).isSome → i ∈ (buildGraph R P rxns).nodes.map (·.1) := by
      intro i hi
      rw [hfst, List.mem_range]
      rw [Option.isSome_iff_exists] at hi
      obtain ⟨a, ha⟩ := hi
      exact (List.getElem?_eq_some_iff.mp ha).1
    have hlook : look l e ∈ ((rxnNodesAndEdges R P rxns).2 ++ loopbackEdges l).map (look l) := by
      rw [hedges, List.mem_reverse] at he
      exact List.mem_map_of_mem he
    rw [List.map_append, h3, hloop, List.mem_append] at hlook
    rcases hlook with hm | hm
    · obtain ⟨r, _, hr⟩ := List.mem_map.mp hm
      unfold look at hr
      simp only [Prod.mk.injEq] at hr
      exact ⟨hmem _ (by rw [← hr.1]; rfl), hmem _ (by rw [← hr.2.1]; rfl)⟩
    · obtain ⟨r, _, hr⟩ := List.mem_map.mp hm
      unfold look at hr
      simp only [Prod.mk.injEq] at hr
      exact ⟨hmem _ (by rw [← hr.1]; rfl), hmem _ (by rw [← hr.2.1]; rfl)⟩

/-- The cost of an edge of a built network: the cost function for a reaction, zero for a loopback;
nothing else occurs, so `get_edge_weight` never meets an unknown edge. -/
theorem C47_weight (R P : ρ → Finset η) (rxns : List ρ) (cf : ρ → Except Err ℚ)
    (e : ℕ × ℕ × Edge ρ) (he : e ∈ (buildGraph R P rxns).edges) :
    (∃ r ∈ rxns, e.2.2 = .rxn r ∧ edgeWeight cf e.2.2 = cf r ∧
      (buildGraph R P rxns).nodeData e.1 = some ⟨.reactants, R r⟩ ∧
      (buildGraph R P rxns).nodeData e.2.1 = some ⟨.products, P r⟩) ∨
    (e.2.2 = .loopback ∧ edgeWeight cf e.2.2 = .ok 0) := by
  have hv : viewEdge (buildGraph R P rxns) e ∈ viewE (buildGraph R P rxns) :=
    Multiset.mem_coe.mpr (List.mem_map_of_mem he)
  rw [(C47_build R P rxns).2.1] at hv
  unfold builtE viewEdge at hv
  simp only [Multiset.mem_coe, List.mem_append, List.mem_map, Prod.mk.injEq] at hv
  rcases hv with ⟨r, hr, h1, h2, h3⟩ | ⟨s, _, _, _, h3⟩
  · exact Or.inl ⟨r, hr, h3.symm, by rw [← h3]; rfl, h1.symm, h2.symm⟩
  · exact Or.inr ⟨h3.symm, by rw [← h3]; rfl⟩

section Examples

/-- Four reactions on six phases; reaction 0 and 3 have the same reactants and products, the
products of reaction 1 are the reactants of reaction 2. -/
def exR : ℕ → Finset ℕ
  | 0 => {0, 1}
  | 1 => {0, 1}
  | 2 => {3}
  | _ => {0, 1}

def exP : ℕ → Finset ℕ
  | 0 => {2}
  | 1 => {3}
  | 2 => {4, 5}
  | _ => {2}

example : (buildGraph exR exP [0, 1, 2, 3]).nodes =
    [(0, ⟨.reactants, {0, 1}⟩), (1, ⟨.products, {2}⟩), (2, ⟨.products, {3}⟩), (3, ⟨.reactants, {3}⟩),
      (4, ⟨.products, {4, 5}⟩)] ∧
    (buildGraph exR exP [0, 1, 2, 3]).edges =
      [(2, 3, .loopback), (0, 1, .rxn 3), (3, 4, .rxn 2), (0, 2, .rxn 1), (0, 1, .rxn 0)] := by
  decide +kernel

end Examples

end Verif.Props.Network
