import Verif.Props.NetworkState
import Verif.Props.Yen
import Verif.Spec.Pathfinding

/-!
# C53, C69: from graph paths to pathways

`find_pathways` end to end: the reactions extracted from a path are those on its reaction edges,
every returned pathway can be carried out, and the first one is the cheapest of *all* chains of
reactions that lead from the precursors to the target.
-/

namespace Verif.Props.Pathfinding

open Verif.Py Verif.Model.Network Verif.Spec.Network Verif.Spec.Paths Verif.Spec.Pathfinding
open Verif.Lemmas.Network Verif.Lemmas.Paths Verif.Props.Network Verif.Props.Yen

set_option linter.unusedSectionVars false

variable {η ρ φ : Type} [DecidableEq η] [DecidableEq ρ]

/-- Everything that was ever declared a precursor. -/
def everPrecursor (chs : List (Finset η)) : Finset η := chs.foldr (· ∪ ·) ∅

theorem subset_ever (chs : List (Finset η)) (s : Finset η) (h : s ∈ chs) : s ⊆ everPrecursor chs := by
  induction chs with
  | nil => simp at h
  | cons a l ih =>
    unfold everPrecursor at *
    rw [List.foldr_cons]
    rcases List.mem_cons.mp h with rfl | h
    · exact Finset.subset_union_left
    · exact (ih h).trans Finset.subset_union_right

/-- The four sorts of edges in a network. -/
inductive EdgeSort (R P : ρ → Finset η) (rxns : List ρ) (chs : List (Finset η)) (n : Net η ρ)
    (g : Graph (Node η) (Edge ρ)) (a b : ℕ) : Edge ρ → Prop
  | rxn (r : ρ) (hr : r ∈ rxns) (ha : g.nodeData a = some ⟨.reactants, R r⟩)
      (hb : g.nodeData b = some ⟨.products, P r⟩) : EdgeSort R P rxns chs n g a b (.rxn r)
  | loopback (S Q : Finset η) (ha : g.nodeData a = some ⟨.products, S⟩)
      (hb : g.nodeData b = some ⟨.reactants, Q⟩) (hs : Q ⊆ everPrecursor chs ∪ S) :
      EdgeSort R P rxns chs n g a b .loopback
  | start (ps Q : Finset η) (hp : n.precursors = some ps) (ha : g.nodeData a = some ⟨.precursors, ps⟩)
      (hb : g.nodeData b = some ⟨.reactants, Q⟩) (hs : Q ⊆ ps) : EdgeSort R P rxns chs n g a b .precursor
  | target (t : η) (S : Finset η) (ht : n.target = some t) (ha : g.nodeData a = some ⟨.products, S⟩)
      (hb : g.nodeData b = some ⟨.target, {t}⟩) (hs : t ∈ S) : EdgeSort R P rxns chs n g a b .target

theorem mem_return_sum (N : Multiset (Node η)) (chs : List (Finset η)) (e : VEdge η ρ)
    (he : e ∈ (chs.map fun s => (returnE s N : Multiset (VEdge η ρ))).sum) :
    ∃ s ∈ chs, e ∈ (returnE s N : Multiset (VEdge η ρ)) := by
  induction chs with
  | nil => simp at he
  | cons s chs ih =>
    rw [List.map_cons, List.sum_cons, Multiset.mem_add] at he
    rcases he with he | he
    · exact ⟨s, List.mem_cons_self, he⟩
    · obtain ⟨s', hs', h⟩ := ih he
      exact ⟨s', List.mem_cons_of_mem _ hs', h⟩

theorem edge_sort {R P : ρ → Finset η} {rxns : List ρ} {chs : List (Finset η)} {n : Net η ρ}
    (h : HistState R P rxns chs n) {g : Graph (Node η) (Edge ρ)} (hg : n.g = some g) {a b : ℕ} {e : Edge ρ}
    (he : (a, b, e) ∈ g.edges) : EdgeSort R P rxns chs n g a b e := by
  obtain ⟨g', hg', _, _, hE⟩ := h.graph
  rw [hg, Option.some.injEq] at hg'
  subst hg'
  have hm : viewEdge g (a, b, e) ∈ viewE g := by
    unfold viewE
    rw [Multiset.mem_coe]
    exact List.mem_map_of_mem he
  rw [hE, Multiset.mem_add, Multiset.mem_add, Multiset.mem_add] at hm
  unfold viewEdge at hm
  simp only at hm
  rcases hm with ((hm | hm) | hm) | hm
  · unfold builtE at hm
    rw [Multiset.mem_coe, List.mem_append, List.mem_map, List.mem_map] at hm
    rcases hm with ⟨r, hr, hm⟩ | ⟨s, hs, hm⟩
    · simp only [Prod.mk.injEq] at hm
      obtain ⟨h1, h2, rfl⟩ := hm
      exact .rxn r hr h1.symm h2.symm
    · simp only [Prod.mk.injEq] at hm
      obtain ⟨h1, h2, rfl⟩ := hm
      exact .loopback s s h1.symm h2.symm Finset.subset_union_right
  · obtain ⟨s, hs, hm⟩ := mem_return_sum _ _ _ hm
    unfold returnE at hm
    rw [Multiset.mem_bind] at hm
    obtain ⟨p, hp, hm⟩ := hm
    rw [Multiset.mem_filter] at hp
    rw [Multiset.mem_map] at hm
    obtain ⟨q, hq, hm⟩ := hm
    rw [Multiset.mem_filter] at hq
    simp only [Prod.mk.injEq] at hm
    obtain ⟨h1, h2, rfl⟩ := hm
    obtain ⟨pk, pe⟩ := p
    obtain ⟨qk, qe⟩ := q
    simp only at hp hq
    obtain ⟨_, rfl⟩ := hp
    obtain ⟨_, rfl, _, hsub⟩ := hq
    exact .loopback pe qe h1.symm h2.symm
      (hsub.trans (Finset.union_subset_union_left (subset_ever chs s hs)))
  · cases hp : n.precursors with
    | none => rw [hp] at hm; simp [startEdges] at hm
    | some ps =>
      rw [hp] at hm
      simp only [startEdges, startE, Multiset.mem_map, Multiset.mem_filter, Prod.mk.injEq] at hm
      obtain ⟨⟨qk, qe⟩, ⟨_, hk, hs⟩, h1, h2, rfl⟩ := hm
      simp only at hk hs
      subst hk
      exact .start ps qe hp h1.symm h2.symm hs
  · cases ht : n.target with
    | none => rw [ht] at hm; simp [targetEdges] at hm
    | some t =>
      rw [ht] at hm
      simp only [targetEdges, targetE, Multiset.mem_map, Multiset.mem_filter, Prod.mk.injEq] at hm
      obtain ⟨⟨qk, qe⟩, ⟨_, hk, hs⟩, h1, h2, rfl⟩ := hm
      simp only at hk hs
      subst hk
      exact .target t qe ht h1.symm h2.symm hs

/-- What is extracted from the part of a walk after `x`, with the information needed to go on by
induction. -/
theorem walk_out {R P : ρ → Finset η} {rxns : List ρ} {chs : List (Finset η)} {n : Net η ρ}
    (h : HistState R P rxns chs n) {g : Graph (Node η) (Edge ρ)} (hg : n.g = some g) (c : ρ → ℚ) :
    ∀ (l : List ℕ) (x : ℕ), IsWalk g (x :: l) → ∃ rs : List ρ,
      pathFrom (fun r => .ok (c r)) g x l = .ok (rs.map fun r => (Edge.rxn r, c r)) ∧
      pathCost (weightOf c) g (x :: l) = some (rs.map c).sum ∧ Traverses g (x :: l) rs ∧ (∀ r ∈ rs, r ∈ rxns) ∧
      ∀ t e, n.target = some t → (x :: l).getLast? = some e → g.nodeData e = some ⟨.target, {t}⟩ →
        (∀ S, g.nodeData x = some ⟨.products, S⟩ → Runs R P (everPrecursor chs) t S rs) ∧
        (∀ S, g.nodeData x = some ⟨.reactants, S⟩ →
          ∃ r rs', rs = r :: rs' ∧ R r = S ∧ Runs R P (everPrecursor chs) t (P r) rs')
  | [], x, _ => by
    refine ⟨[], rfl, rfl, rfl, by simp, ?_⟩
    intro t e _ he hd
    have : x = e := by simpa using he
    subst this
    constructor <;> intro S hS <;> rw [hd] at hS <;> simp at hS
  | y :: l, x, hw => by
    obtain ⟨hex, hw'⟩ := hw
    obtain ⟨ed, hed⟩ := getEdge_exists g x y hex
    have hmem := getEdge_mem g x y ed hed
    obtain ⟨rs, h1, h2, h3, h4, h5⟩ := walk_out h hg c l y hw'
    have hs := edge_sort h hg hmem
    have hpc : pathCost (weightOf c) g (x :: y :: l) = some (weightOf c ed + (rs.map c).sum) := by
      rw [pathCost, hed]
      simp only [h2, Option.map_some]
    cases hs with
    | rxn r hr ha hb =>
      refine ⟨r :: rs, ?_, by rw [hpc]; rfl, Or.inl ⟨r, rs, hmem, rfl, h3⟩, ?_, ?_⟩
      · simp only [pathFrom, stepEdge, hb, if_true, hed, edgeWeight, h1, List.map_cons, List.singleton_append]
      · intro r' hr'
        rcases List.mem_cons.mp hr' with rfl | hr'
        · exact hr
        · exact h4 r' hr'
      · intro t e ht he hd
        rw [List.getLast?_cons_cons] at he
        have := (h5 t e ht he hd).1 _ hb
        constructor
        · intro S hS
          rw [ha] at hS
          simp at hS
        · intro S hS
          rw [ha] at hS
          simp only [Option.some.injEq, Node.mk.injEq, true_and] at hS
          exact ⟨r, rs, rfl, hS, this⟩
    | loopback S Q ha hb hsub =>
      refine ⟨rs, ?_, by rw [hpc]; simp [weightOf], Or.inr ⟨_, hmem, by simp, h3⟩, h4, ?_⟩
      · simp [pathFrom, stepEdge, hb, h1]
      · intro t e ht he hd
        rw [List.getLast?_cons_cons] at he
        obtain ⟨r, rs', rfl, hR, hrun⟩ := (h5 t e ht he hd).2 _ hb
        constructor
        · intro S' hS
          rw [ha] at hS
          simp only [Option.some.injEq, Node.mk.injEq, true_and] at hS
          subst hS
          exact ⟨hR ▸ hsub, hrun⟩
        · intro S' hS
          rw [ha] at hS
          simp at hS
    | start ps Q hp ha hb hsub =>
      refine ⟨rs, ?_, by rw [hpc]; simp [weightOf], Or.inr ⟨_, hmem, by simp, h3⟩, h4, ?_⟩
      · simp [pathFrom, stepEdge, hb, h1]
      · intro t e ht he hd
        constructor <;> intro S' hS <;> rw [ha] at hS <;> simp at hS
    | target t' S ht' ha hb hmemt =>
      refine ⟨rs, ?_, by rw [hpc]; simp [weightOf], Or.inr ⟨_, hmem, by simp, h3⟩, h4, ?_⟩
      · simp [pathFrom, stepEdge, hb, h1]
      · intro t e ht he hd
        constructor
        · intro S' hS
          rw [ha] at hS
          simp only [Option.some.injEq, Node.mk.injEq, true_and] at hS
          subst hS
          -- nothing leaves the target node
          cases l with
          | nil =>
            have hrs : rs = [] := h3
            rw [hrs]
            rw [ht, Option.some.injEq] at ht'
            subst ht'
            exact hmemt
          | cons z l =>
            exfalso
            obtain ⟨⟨ez, hez⟩, _⟩ := hw'
            have := edge_sort h hg hez
            cases this with
            | rxn _ _ ha' _ => rw [hb] at ha'; simp at ha'
            | loopback _ _ ha' _ _ => rw [hb] at ha'; simp at ha'
            | start _ _ _ ha' _ _ => rw [hb] at ha'; simp at ha'
            | target _ _ _ ha' _ _ => rw [hb] at ha'; simp at ha'
        · intro S' hS
          rw [ha] at hS
          simp at hS

/-- Node payloads are distinct, so an index is determined by its payload. -/
theorem data_inj {R P : ρ → Finset η} {rxns : List ρ} {chs : List (Finset η)} {n : Net η ρ}
    (h : HistState R P rxns chs n) {g : Graph (Node η) (Edge ρ)} (hg : n.g = some g) {i j : ℕ} {v : Node η}
    (hi : g.nodeData i = some v) (hj : g.nodeData j = some v) : i = j := by
  have hnd := hist_nodup h g hg
  obtain ⟨g', hg', hW, _, _⟩ := h.graph
  rw [hg, Option.some.injEq] at hg'
  subst hg'
  rw [nodeData_iff hW] at hi hj
  unfold viewN at hnd
  rw [Multiset.coe_nodup] at hnd
  have := List.inj_on_of_nodup_map hnd hi hj rfl
  simpa using this

theorem findNode_some {g : Graph (Node η) (Edge ρ)} (hW : WF g) {v : Node η} (hv : v ∈ viewN g) :
    ∃ i, findNode g v = some i ∧ g.nodeData i = some v := by
  unfold viewN at hv
  rw [Multiset.mem_coe, List.mem_map] at hv
  obtain ⟨p, hp, rfl⟩ := hv
  unfold findNode
  cases hf : g.nodes.find? (fun q => q.2 == p.2) with
  | none =>
    rw [List.find?_eq_none] at hf
    exact absurd (hf p hp) (by simp)
  | some q =>
    have h1 := List.mem_of_find?_eq_some hf
    have h2 := List.find?_some hf
    rw [beq_iff_eq] at h2
    refine ⟨q.1, rfl, ?_⟩
    rw [nodeData_iff hW, ← h2]
    exact h1

theorem mem_viewE {g : Graph (Node η) (Edge ρ)} {a b : Option (Node η)} {e : Edge ρ}
    (h : (a, b, e) ∈ viewE g) : ∃ i j, (i, j, e) ∈ g.edges ∧ g.nodeData i = a ∧ g.nodeData j = b := by
  unfold viewE at h
  rw [Multiset.mem_coe, List.mem_map] at h
  obtain ⟨⟨i, j, e'⟩, he, hv⟩ := h
  unfold viewEdge at hv
  simp only [Prod.mk.injEq] at hv
  obtain ⟨h1, h2, rfl⟩ := hv
  exact ⟨i, j, he, h1, h2⟩

theorem mem_return_of (N : Multiset (Node η)) (chs : List (Finset η)) (e : VEdge η ρ) (s : Finset η) (hs : s ∈ chs)
    (he : e ∈ (returnE s N : Multiset (VEdge η ρ))) :
    e ∈ (chs.map fun s => (returnE s N : Multiset (VEdge η ρ))).sum := by
  induction chs with
  | nil => simp at hs
  | cons a l ih =>
    rw [List.map_cons, List.sum_cons, Multiset.mem_add]
    rcases List.mem_cons.mp hs with rfl | hs
    · exact Or.inl he
    · exact Or.inr (ih hs)

/-- Every chain of reactions is matched by a walk in the graph that does not cost more. -/
theorem chain_walk {R P : ρ → Finset η} {rxns : List ρ} {chs : List (Finset η)} {n : Net η ρ}
    (h : HistState R P rxns chs n) {g : Graph (Node η) (Edge ρ)} (hg : n.g = some g) (c : ρ → ℚ)
    (hc : ∀ r ∈ rxns, 0 ≤ c r) (ps : Finset η) (hps : n.precursors = some ps) (t : η) (ht : n.target = some t)
    (s e : ℕ) (hs : g.nodeData s = some ⟨.precursors, ps⟩) (he : g.nodeData e = some ⟨.target, {t}⟩) :
    ∀ (rs : List ρ) (r : ρ), r ∈ rxns → (∀ r' ∈ rs, r' ∈ rxns) → Runs R P ps t (P r) rs →
      ∃ q c', c' ≤ (rs.map c).sum ∧ Realizes (weightOf c) g q c' ∧
        (Joins g s e q ∨ ∃ i, g.nodeData i = some ⟨.products, P r⟩ ∧ Joins g i e q)
  | [], r, hr, _, hrun => by
    obtain ⟨g', hg', _, _, hE⟩ := h.graph
    rw [hg, Option.some.injEq] at hg'
    subst hg'
    have hm : ((some ⟨.products, P r⟩, some ⟨.target, {t}⟩, Edge.target) : VEdge η ρ) ∈ viewE g := by
      rw [hE, Multiset.mem_add, ht]
      refine Or.inr ?_
      simp only [targetEdges, targetE, Multiset.mem_map, Multiset.mem_filter]
      exact ⟨⟨.products, P r⟩, ⟨(mem_builtN R P rxns _).mpr ⟨r, hr, Or.inr rfl⟩, rfl, hrun⟩, rfl⟩
    obtain ⟨i, j, hij, hi, hj⟩ := mem_viewE hm
    have : j = e := data_inj h hg hj he
    subst this
    exact ⟨[i, j], 0, by simp, ⟨_, 0, hij, rfl, by simp [weightOf]⟩, Or.inr ⟨i, hi, rfl, rfl, ⟨_, hij⟩, trivial⟩⟩
  | r' :: rs, r, hr, hrs, hrun => by
    obtain ⟨hsub, hrun'⟩ := hrun
    have hr' := hrs r' List.mem_cons_self
    obtain ⟨q, c', hle, hq, hj⟩ := chain_walk h hg c hc ps hps t ht s e hs he rs r' hr'
      (fun x hx => hrs x (List.mem_cons_of_mem _ hx)) hrun'
    rw [List.map_cons, List.sum_cons]
    have hcr := hc r' hr'
    rcases hj with hj | ⟨i, hi, hj⟩
    · exact ⟨q, c', by linarith, hq, Or.inl hj⟩
    · obtain ⟨g', hg', _, _, hE⟩ := h.graph
      rw [hg, Option.some.injEq] at hg'
      subst hg'
      have hmr : ((some ⟨.reactants, R r'⟩, some ⟨.products, P r'⟩, Edge.rxn r') : VEdge η ρ) ∈ viewE g := by
        rw [hE, Multiset.mem_add, Multiset.mem_add, Multiset.mem_add]
        refine Or.inl (Or.inl (Or.inl ?_))
        unfold builtE
        rw [Multiset.mem_coe, List.mem_append]
        exact Or.inl (List.mem_map_of_mem hr')
      obtain ⟨a, i', hai, ha, hi'⟩ := mem_viewE hmr
      have : i' = i := data_inj h hg hi' hi
      subst this
      cases q with
      | nil => simpa using hj.start
      | cons q0 q =>
        have hq0 : q0 = i' := by simpa using hj.start
        subst hq0
        have hstop : ∀ b : List ℕ, (b ++ q0 :: q).getLast? = some e := by
          intro b
          rw [List.getLast?_append, hj.stop]
          rfl
        by_cases hin : R r' ⊆ ps
        · have hms : ((some ⟨.precursors, ps⟩, some ⟨.reactants, R r'⟩, Edge.precursor) : VEdge η ρ) ∈ viewE g := by
            rw [hE, Multiset.mem_add, Multiset.mem_add, hps]
            refine Or.inl (Or.inr ?_)
            simp only [startEdges, startE, Multiset.mem_map, Multiset.mem_filter]
            exact ⟨⟨.reactants, R r'⟩, ⟨(mem_builtN R P rxns _).mpr ⟨r', hr', Or.inl rfl⟩, rfl, hin⟩, rfl⟩
          obtain ⟨s', a', hsa, hs', ha'⟩ := mem_viewE hms
          have : s' = s := data_inj h hg hs' hs
          subst this
          have : a' = a := data_inj h hg ha' ha
          subst this
          refine ⟨s' :: a' :: q0 :: q, 0 + (c r' + c'), by linarith,
            ⟨_, _, hsa, ⟨_, _, hai, hq, rfl⟩, by simp [weightOf]⟩, Or.inl ⟨rfl, hstop [s', a'], ⟨_, hsa⟩, ⟨_, hai⟩, hj.walk⟩⟩
        · have hml : ((some ⟨.products, P r⟩, some ⟨.reactants, R r'⟩, Edge.loopback) : VEdge η ρ) ∈ viewE g := by
            rw [hE, Multiset.mem_add, Multiset.mem_add, Multiset.mem_add]
            refine Or.inl (Or.inl (Or.inr ?_))
            have hch : ps ∈ chs := by
              have := h.last
              rw [hps] at this
              exact List.mem_of_getLast? this.symm
            apply mem_return_of _ _ _ ps hch
            unfold returnE
            rw [Multiset.mem_bind]
            refine ⟨⟨.products, P r⟩, Multiset.mem_filter.mpr ⟨(mem_builtN R P rxns _).mpr ⟨r, hr, Or.inr rfl⟩, rfl⟩, ?_⟩
            rw [Multiset.mem_map]
            exact ⟨⟨.reactants, R r'⟩, Multiset.mem_filter.mpr
              ⟨(mem_builtN R P rxns _).mpr ⟨r', hr', Or.inl rfl⟩, rfl, hin, hsub⟩, rfl⟩
          obtain ⟨p', a', hpa, hp', ha'⟩ := mem_viewE hml
          have : a' = a := data_inj h hg ha' ha
          subst this
          refine ⟨p' :: a' :: q0 :: q, 0 + (c r' + c'), by linarith,
            ⟨_, _, hpa, ⟨_, _, hai, hq, rfl⟩, by simp [weightOf]⟩,
            Or.inr ⟨p', hp', rfl, hstop [p', a'], ⟨_, hpa⟩, ⟨_, hai⟩, hj.walk⟩⟩

/-- The same from the start. -/
theorem pathway_walk {R P : ρ → Finset η} {rxns : List ρ} {chs : List (Finset η)} {n : Net η ρ}
    (h : HistState R P rxns chs n) {g : Graph (Node η) (Edge ρ)} (hg : n.g = some g) (c : ρ → ℚ)
    (hc : ∀ r ∈ rxns, 0 ≤ c r) (ps : Finset η) (hps : n.precursors = some ps) (t : η) (ht : n.target = some t)
    (s e : ℕ) (hs : g.nodeData s = some ⟨.precursors, ps⟩) (he : g.nodeData e = some ⟨.target, {t}⟩)
    (rs : List ρ) (hrs : ∀ r' ∈ rs, r' ∈ rxns) (hrun : Pathway R P ps t rs) :
    ∃ q c', c' ≤ (rs.map c).sum ∧ Realizes (weightOf c) g q c' ∧ Joins g s e q := by
  cases rs with
  | nil => simp [Pathway, Runs] at hrun
  | cons r rs =>
    obtain ⟨hsub, hrun'⟩ := hrun
    rw [Finset.union_empty] at hsub
    have hr := hrs r List.mem_cons_self
    obtain ⟨q, c', hle, hq, hj⟩ := chain_walk h hg c hc ps hps t ht s e hs he rs r hr
      (fun x hx => hrs x (List.mem_cons_of_mem _ hx)) hrun'
    rw [List.map_cons, List.sum_cons]
    have hcr := hc r hr
    rcases hj with hj | ⟨i, hi, hj⟩
    · exact ⟨q, c', by linarith, hq, hj⟩
    · obtain ⟨g', hg', _, _, hE⟩ := h.graph
      rw [hg, Option.some.injEq] at hg'
      subst hg'
      have hmr : ((some ⟨.reactants, R r⟩, some ⟨.products, P r⟩, Edge.rxn r) : VEdge η ρ) ∈ viewE g := by
        rw [hE, Multiset.mem_add, Multiset.mem_add, Multiset.mem_add]
        refine Or.inl (Or.inl (Or.inl ?_))
        unfold builtE
        rw [Multiset.mem_coe, List.mem_append]
        exact Or.inl (List.mem_map_of_mem hr)
      obtain ⟨a, i', hai, ha, hi'⟩ := mem_viewE hmr
      have : i' = i := data_inj h hg hi' hi
      subst this
      have hms : ((some ⟨.precursors, ps⟩, some ⟨.reactants, R r⟩, Edge.precursor) : VEdge η ρ) ∈ viewE g := by
        rw [hE, Multiset.mem_add, Multiset.mem_add, hps]
        refine Or.inl (Or.inr ?_)
        simp only [startEdges, startE, Multiset.mem_map, Multiset.mem_filter]
        exact ⟨⟨.reactants, R r⟩, ⟨(mem_builtN R P rxns _).mpr ⟨r, hr, Or.inl rfl⟩, rfl, hsub⟩, rfl⟩
      obtain ⟨s', a', hsa, hs', ha'⟩ := mem_viewE hms
      have : s' = s := data_inj h hg hs' hs
      subst this
      have : a' = a := data_inj h hg ha' ha
      subst this
      cases q with
      | nil => simpa using hj.start
      | cons q0 q =>
        have hq0 : q0 = i' := by simpa using hj.start
        subst hq0
        refine ⟨s' :: a' :: q0 :: q, 0 + (c r + c'), by linarith,
          ⟨_, _, hsa, ⟨_, _, hai, hq, rfl⟩, by simp [weightOf]⟩, rfl, ?_, ⟨_, hsa⟩, ⟨_, hai⟩, hj.walk⟩
        rw [List.getLast?_cons_cons, List.getLast?_cons_cons]
        exact hj.stop

/-- If reactions between the same phases cost the same, a walk has only one cost. -/
theorem realizes_unique_net {R P : ρ → Finset η} {rxns : List ρ} {chs : List (Finset η)} {n : Net η ρ}
    (h : HistState R P rxns chs n) {g : Graph (Node η) (Edge ρ)} (hg : n.g = some g) (c : ρ → ℚ)
    (hpar : ∀ r ∈ rxns, ∀ r' ∈ rxns, R r = R r' → P r = P r' → c r = c r') :
    ∀ p c₁ c₂, Realizes (weightOf c) g p c₁ → Realizes (weightOf c) g p c₂ → c₁ = c₂
  | [], _, _, h1, h2 => h1.trans (Eq.symm h2)
  | [_], _, _, h1, h2 => h1.trans (Eq.symm h2)
  | a :: b :: l, c₁, c₂, h1, h2 => by
    obtain ⟨e₁, d₁, m₁, r₁, rfl⟩ := h1
    obtain ⟨e₂, d₂, m₂, r₂, rfl⟩ := h2
    rw [realizes_unique_net h hg c hpar (b :: l) d₁ d₂ r₁ r₂]
    congr 1
    have s1 := edge_sort h hg m₁
    have s2 := edge_sort h hg m₂
    cases s1 with
    | rxn r hr ha hb =>
      cases s2 with
      | rxn r' hr' ha' hb' =>
        rw [ha] at ha'
        rw [hb] at hb'
        simp only [Option.some.injEq, Node.mk.injEq, true_and] at ha' hb'
        exact hpar r hr r' hr' ha' hb'
      | loopback _ _ _ hb' _ => rw [hb] at hb'; simp at hb'
      | start _ _ _ _ hb' _ => rw [hb] at hb'; simp at hb'
      | target _ _ _ _ hb' _ => rw [hb] at hb'; simp at hb'
    | loopback _ _ _ hb _ =>
      cases s2 with
      | rxn _ _ _ hb' => rw [hb] at hb'; simp at hb'
      | _ => rfl
    | start _ _ _ _ hb _ =>
      cases s2 with
      | rxn _ _ _ hb' => rw [hb] at hb'; simp at hb'
      | _ => rfl
    | target _ _ _ _ hb _ =>
      cases s2 with
      | rxn _ _ _ hb' => rw [hb] at hb'; simp at hb'
      | _ => rfl

/-- The list of pathways as `_path_from_graph` represents it: reaction edges with their costs. -/
def asPath (c : ρ → ℚ) (rs : List ρ) : List (Edge ρ × ℚ) := rs.map fun r => (Edge.rxn r, c r)

theorem asPath_cost (c : ρ → ℚ) (rs : List ρ) : ((asPath c rs).map (·.2)).sum = (rs.map c).sum := by
  unfold asPath
  rw [List.map_map]
  rfl

/-- **C53.**  On every network reached by any history of calls, for every path from the precursors
node to the target node: extraction does not raise; the reactions are exactly those on the reaction
edges of the path, in order, each a reaction of the network with its own cost; and the summed cost
is the cost of the path. -/
theorem C53_extract {R P : ρ → Finset η} {rxns : List ρ} {chs : List (Finset η)} {n : Net η ρ}
    (h : HistState R P rxns chs n) {g : Graph (Node η) (Edge ρ)} (hg : n.g = some g) (c : ρ → ℚ)
    (ps : Finset η) (s e : ℕ) (hs : g.nodeData s = some ⟨.precursors, ps⟩) (p : List ℕ) (hp : Joins g s e p) :
    ∃ rs : List ρ, pathFromGraph (fun r => .ok (c r)) g p = .ok (asPath c rs) ∧ Traverses g p rs ∧
      (∀ r ∈ rs, r ∈ rxns) ∧ pathCost (weightOf c) g p = some ((asPath c rs).map (·.2)).sum := by
  cases p with
  | nil => simpa using hp.start
  | cons x l =>
    have hx : x = s := by simpa using hp.start
    subst hx
    obtain ⟨rs, h1, h2, h3, h4, _⟩ := walk_out h hg c l x hp.walk
    refine ⟨rs, ?_, h3, h4, by rw [asPath_cost]; exact h2⟩
    unfold pathFromGraph
    simp only [pathFrom, stepEdge, hs, h1]
    rfl

/-- The executable chain behind a path. -/
theorem extract_runs {R P : ρ → Finset η} {rxns : List ρ} {chs : List (Finset η)} {n : Net η ρ}
    (h : HistState R P rxns chs n) {g : Graph (Node η) (Edge ρ)} (hg : n.g = some g) (c : ρ → ℚ)
    (ps : Finset η) (t : η) (ht : n.target = some t)
    (s e : ℕ) (hs : g.nodeData s = some ⟨.precursors, ps⟩) (he : g.nodeData e = some ⟨.target, {t}⟩)
    (p : List ℕ) (hp : Joins g s e p) :
    ∃ (r : ρ) (rs : List ρ), pathFromGraph (fun r => .ok (c r)) g p = .ok (asPath c (r :: rs)) ∧
      pathCost (weightOf c) g p = some ((r :: rs).map c).sum ∧ (∀ r' ∈ r :: rs, r' ∈ rxns) ∧
      R r ⊆ ps ∧ Runs R P (everPrecursor chs) t (P r) rs := by
  match p, hp with
  | [], hp => simpa using hp.start
  | [x], hp =>
    have h1 : x = s := by simpa using hp.start
    have h2 : x = e := by simpa using hp.stop
    rw [← h1] at hs
    rw [← h2, hs] at he
    simp at he
  | x :: y :: l, hp =>
    have hx : x = s := by simpa using hp.start
    subst hx
    have hw := hp.walk
    obtain ⟨⟨ed, hed⟩, hw'⟩ := hw
    obtain ⟨rs, h1, h2, h3, h4, h5⟩ := walk_out h hg c l y hw'
    have hy : ∃ Q, g.nodeData y = some ⟨.reactants, Q⟩ ∧ Q ⊆ ps ∧ ∀ ed', (x, y, ed') ∈ g.edges → ed' = .precursor := by
      have hsort : ∀ ed', (x, y, ed') ∈ g.edges → ∃ Q, g.nodeData y = some ⟨.reactants, Q⟩ ∧ Q ⊆ ps ∧ ed' = .precursor := by
        intro ed' hed'
        have := edge_sort h hg hed'
        cases this with
        | rxn _ _ ha' _ => rw [hs] at ha'; simp at ha'
        | loopback _ _ ha' _ _ => rw [hs] at ha'; simp at ha'
        | start ps' Q _ ha' hb' hsub =>
          rw [hs] at ha'
          simp only [Option.some.injEq, Node.mk.injEq, true_and] at ha'
          exact ⟨Q, hb', ha' ▸ hsub, rfl⟩
        | target _ _ _ ha' _ _ => rw [hs] at ha'; simp at ha'
      obtain ⟨Q, hQ, hsub, _⟩ := hsort ed hed
      exact ⟨Q, hQ, hsub, fun ed' h' => by obtain ⟨_, _, _, h''⟩ := hsort ed' h'; exact h''⟩
    obtain ⟨Q, hQ, hsub, hall⟩ := hy
    have hstop := hp.stop
    rw [List.getLast?_cons_cons] at hstop
    obtain ⟨r, rs', rfl, hR, hrun⟩ := (h5 t e ht hstop he).2 Q hQ
    obtain ⟨ed', hed'⟩ := getEdge_exists g x y ⟨ed, hed⟩
    have hpre := hall ed' (getEdge_mem g x y ed' hed')
    subst hpre
    refine ⟨r, rs', ?_, ?_, h4, hR ▸ hsub, hrun⟩
    · unfold pathFromGraph
      simp only [pathFrom, stepEdge, hs, hQ, h1]
      rfl
    · rw [pathCost, hed']
      simp only [h2, Option.map_some, weightOf, zero_add]

theorem mapM_asPath {α : Type} (f : α → Except Err (List (Edge ρ × ℚ))) (c : ρ → ℚ) (Q : α → List ρ → Prop)
    (l : List α) (h : ∀ a ∈ l, ∃ rs, f a = .ok (asPath c rs) ∧ Q a rs) :
    ∃ Ls : List (List ρ), l.mapM f = .ok (Ls.map (asPath c)) ∧ List.Forall₂ Q l Ls := by
  induction l with
  | nil => exact ⟨[], rfl, .nil⟩
  | cons a l ih =>
    obtain ⟨rs, h1, h2⟩ := h a List.mem_cons_self
    obtain ⟨Ls, h3, h4⟩ := ih (fun b hb => h b (List.mem_cons_of_mem _ hb))
    refine ⟨rs :: Ls, ?_, .cons h2 h4⟩
    rw [Verif.Lemmas.Exc.mapM_cons, h1, h3]
    rfl

/-- What the search for one target returns: at most `max k 1` pathways, each an executable chain of
reactions of the network; nothing only if there is no chain at all; and the first pathway is as
cheap as any chain. -/
structure Answer (R P : ρ → Finset η) (rxns : List ρ) (c : ρ → ℚ) (ps : Finset η) (k : ℕ) (t : η)
    (Ls : List (List ρ)) : Prop where
  count : Ls.length ≤ max k 1
  sound : ∀ rs ∈ Ls, (∀ r ∈ rs, r ∈ rxns) ∧ Pathway R P ps t rs
  none : Ls = [] ↔ ∀ rs, (∀ r ∈ rs, r ∈ rxns) → ¬ Pathway R P ps t rs
  first : (∀ r ∈ rxns, ∀ r' ∈ rxns, R r = R r' → P r = P r' → c r = c r') → ∀ rs, Ls.head? = some rs →
    ∀ rs', (∀ r ∈ rs', r ∈ rxns) → Pathway R P ps t rs' → (rs.map c).sum ≤ (rs'.map c).sum

theorem runs_mono {R P : ρ → Finset η} {ps ps' : Finset η} {t : η} (h : ps ⊆ ps') :
    ∀ (rs : List ρ) (a : Finset η), Runs R P ps t a rs → Runs R P ps' t a rs
  | [], _, hr => hr
  | _ :: rs, _, hr => ⟨hr.1.trans (Finset.union_subset_union_left h), runs_mono h rs _ hr.2⟩

/-- One target, after any history: the search does not raise and returns chains in which every
reaction uses what was ever declared a precursor or made by the reaction before; and if the history
has a single precursors set, the answer is as specified. -/
theorem kShortest_answer {R P : ρ → Finset η} {rxns : List ρ} {chs : List (Finset η)} {n : Net η ρ}
    (h : HistState R P rxns chs n) (c : ρ → ℚ) (hc : ∀ r ∈ rxns, 0 ≤ c r) (ps : Finset η)
    (hps : n.precursors = some ps) (t : η) (ht : n.target = some t)
    {d : Graph (Node η) (Edge ρ) → ℕ → ℕ → Option (List ℕ)} (hd : Dijkstra (weightOf c) d) (k : ℕ) :
    ∃ Ls : List (List ρ), kShortest d c n k = .ok (Ls.map (asPath c)) ∧ Ls.length ≤ max k 1 ∧
      (∀ rs ∈ Ls, (∀ r ∈ rs, r ∈ rxns) ∧ ∃ r rs', rs = r :: rs' ∧ R r ⊆ ps ∧
        Runs R P (everPrecursor chs) t (P r) rs') ∧
      (chs = [ps] → Answer R P rxns c ps k t Ls) := by
  obtain ⟨g, hg, hW, hN, hE⟩ := h.graph
  have hpn : (⟨.precursors, ps⟩ : Node η) ∈ viewN g := by
    rw [hN, hps, Multiset.mem_add, Multiset.mem_add]
    exact Or.inl (Or.inr (by simp [startN]))
  have htn : (⟨.target, {t}⟩ : Node η) ∈ viewN g := by
    rw [hN, ht, Multiset.mem_add]
    exact Or.inr (by simp [targetN])
  obtain ⟨s, hsf, hs⟩ := findNode_some hW hpn
  obtain ⟨e, hef, he⟩ := findNode_some hW htn
  have hse : s ≠ e := by
    rintro rfl
    rw [hs] at he
    simp at he
  have hus : usable n = some g := by
    unfold usable
    rw [hg]
    simp only
    rw [if_neg]
    intro hnil
    have := (nodeData_iff hW s _).mp hs
    rw [hnil] at this
    simp at this
  have hnn : NonNeg (weightOf c) g := by
    rintro ⟨a, b, ed⟩ hed
    have := edge_sort h hg hed
    cases this with
    | rxn r hr _ _ => exact hc r hr
    | _ => exact le_refl _
  obtain ⟨paths, hy, hgood, hnd, hlen, hemp, hfirst⟩ := C51_paths hd g hnn k s e hse
  obtain ⟨Ls, hL, hfa⟩ := mapM_asPath (pathFromGraph (fun r => .ok (c r)) g) c
    (fun p rs => pathCost (weightOf c) g p = some (rs.map c).sum ∧ (∀ r ∈ rs, r ∈ rxns) ∧
      ∃ r rs', rs = r :: rs' ∧ R r ⊆ ps ∧ Runs R P (everPrecursor chs) t (P r) rs') paths (by
    intro p hp
    obtain ⟨r, rs, h1, h2, h3, h4, h5⟩ := extract_runs h hg c ps t ht s e hs he p (hgood p hp).1
    exact ⟨r :: rs, h1, h2, h3, r, rs, rfl, h4, h5⟩)
  have hlenL : Ls.length ≤ max k 1 := by rw [← hfa.length_eq]; exact hlen
  have hsound : ∀ rs ∈ Ls, (∀ r ∈ rs, r ∈ rxns) ∧ ∃ r rs', rs = r :: rs' ∧ R r ⊆ ps ∧
      Runs R P (everPrecursor chs) t (P r) rs' := by
    intro rs hrs
    obtain ⟨i, hi, hrs⟩ := List.mem_iff_getElem.mp hrs
    have := List.forall₂_iff_get.mp hfa |>.2 i (by rw [hfa.length_eq]; exact hi) hi
    simp only [List.get_eq_getElem, hrs] at this
    exact this.2
  refine ⟨Ls, ?_, hlenL, hsound, ?_⟩
  · unfold kShortest
    simp only [hus, hps, ht, hsf, hef, hy]
    exact hL
  · intro hch
    have hever : everPrecursor chs = ps := by rw [hch]; simp [everPrecursor]
    refine ⟨hlenL, ?_, ?_, ?_⟩
    · intro rs hrs
      obtain ⟨h1, r, rs', rfl, h2, h3⟩ := hsound rs hrs
      rw [hever] at h3
      exact ⟨h1, by rw [Finset.union_empty]; exact h2, h3⟩
    · constructor
      · intro hnil rs hrs hpw
        have hp : paths = [] := by
          rw [hnil] at hfa
          exact List.forall₂_nil_right_iff.mp hfa
        obtain ⟨q, _, _, _, hj⟩ := pathway_walk h hg c hc ps hps t ht s e hs he rs hrs hpw
        exact hemp.mp hp q hj
      · intro hno
        cases Ls with
        | nil => rfl
        | cons rs Ls =>
          obtain ⟨h1, r, rs', rfl, h2, h3⟩ := hsound rs List.mem_cons_self
          rw [hever] at h3
          exact absurd ⟨by rw [Finset.union_empty]; exact h2, h3⟩ (hno _ h1)
    · intro hpar rs hhead rs' hrs' hpw
      cases hfa with
      | nil => simp at hhead
      | @cons p rs₀ paths' Ls' hh hfa' =>
        have : rs₀ = rs := by simpa using hhead
        subst this
        obtain ⟨_, cp, hr1, hmin⟩ := hfirst p rfl
        obtain ⟨q, c', hle, hr2, hj⟩ := pathway_walk h hg c hc ps hps t ht s e hs he rs' hrs' hpw
        have h1 := hmin q c' hj hr2
        have h2 := realizes_unique_net h hg c hpar p _ _ hr1 (pathCost_realizes _ g p _ hh.1)
        linarith

/-- The loop over the targets. -/
theorem findTargets {R P : ρ → Finset η} {rxns : List ρ} (minEntry : φ → Except Err η) (c : ρ → ℚ)
    (hc : ∀ r ∈ rxns, 0 ≤ c r) (ps : Finset η)
    {d : Graph (Node η) (Edge ρ) → ℕ → ℕ → Option (List ℕ)} (hd : Dijkstra (weightOf c) d) (k : ℕ)
    (targets : List (Arg η φ)) (n : Net η ρ) (out : List (List (Edge ρ × ℚ)))
    (h : HistState R P rxns [ps] n) (hps : n.precursors = some ps)
    (hin : ∀ a ∈ targets, ∃ t, resolve minEntry a = .ok t ∧ t ∈ n.entries) :
    ∃ (n' : Net η ρ) (Lss : List (List (List ρ))),
      targets.foldlM (findOne minEntry d c k) (n, out) = .ok (n', out ++ Lss.flatten.map (asPath c)) ∧
      List.Forall₂ (fun a Ls => ∃ t, resolve minEntry a = .ok t ∧ Answer R P rxns c ps k t Ls) targets Lss := by
  induction targets generalizing n out with
  | nil => exact ⟨n, [], by simp; rfl, .nil⟩
  | cons a l ih =>
    obtain ⟨t, hat, htin⟩ := hin a List.mem_cons_self
    -- the call to `set_target` is accepted
    have hset : ∃ n₁, n.setTarget minEntry a = .ok n₁ := by
      obtain ⟨g, hg, hW, hN, hE⟩ := h.graph
      have hpn : (⟨.precursors, ps⟩ : Node η) ∈ viewN g := by
        rw [hN, hps, Multiset.mem_add, Multiset.mem_add]
        exact Or.inl (Or.inr (by simp [startN]))
      obtain ⟨s, _, hs⟩ := findNode_some hW hpn
      have hus : usable n = some g := by
        unfold usable
        rw [hg]
        simp only
        rw [if_neg]
        intro hnil
        have := (nodeData_iff hW s _).mp hs
        rw [hnil] at this
        simp at this
      unfold Net.setTarget
      simp only [hus, hat]
      by_cases h1 : some t = n.target
      · exact ⟨n, by rw [if_pos h1]⟩
      · rw [if_neg h1, if_neg (by simpa using htin)]
        cases hold : n.target with
        | none => exact ⟨_, rfl⟩
        | some t' =>
          have htn : (⟨.target, {t'}⟩ : Node η) ∈ viewN g := by
            rw [hN, hold, Multiset.mem_add]
            exact Or.inr (by simp [targetN])
          unfold viewN at htn
          rw [Multiset.mem_coe, List.mem_map] at htn
          obtain ⟨q, hq, hq2⟩ := htn
          unfold detachTarget
          simp only
          cases hf : findKind .target g with
          | some i => exact ⟨_, rfl⟩
          | none =>
            exfalso
            unfold findKind at hf
            rw [Option.map_eq_none_iff, List.find?_eq_none] at hf
            exact hf q hq (by rw [hq2]; rfl)
    obtain ⟨n₁, hn₁⟩ := hset
    have h₁ := hist_setTarget minEntry a h hn₁
    obtain ⟨_, ⟨t', ht', htar⟩, hp', _, hent⟩ := setTarget_state minEntry n n₁ a _ _ (hist_targetState h) hn₁
    rw [hat] at ht'
    have : t = t' := by simpa using ht'
    subst this
    have hps₁ : n₁.precursors = some ps := hp'.trans hps
    obtain ⟨Ls, hk, _, _, hans⟩ := kShortest_answer h₁ c hc ps hps₁ t htar hd k
    obtain ⟨n', Lss, hf, hfa⟩ := ih n₁ (out ++ Ls.map (asPath c)) h₁ hps₁ (by
      intro b hb
      rw [hent]
      exact hin b (List.mem_cons_of_mem _ hb))
    refine ⟨n', Ls :: Lss, ?_, .cons ⟨t, hat, hans rfl⟩ hfa⟩
    rw [List.foldlM_cons]
    have hone : findOne minEntry d c k (n, out) a = .ok (n₁, out ++ Ls.map (asPath c)) := by
      unfold findOne
      simp only [hn₁, hk]
    rw [hone, Verif.Lemmas.Exc.bind_ok]
    exact ⟨_, rfl, by rw [hf]; simp⟩

/-- **C69.**  On a network with a single precursors set, `find_pathways` succeeds for every list of
targets in the network, and returns target by target: at most `max k 1` pathways, each of which can
be carried out from the precursors step by step and ends with the target among its products;
nothing only if the network contains no such chain of reactions at all; and the first pathway costs
no more than *any* such chain (provided reactions between the same phases cost the same, see
`C69_parallel_violated`). -/
theorem C69_find (R P : ρ → Finset η) (rxns : List ρ) (entries : Finset η) (minEntry : φ → Except Err η)
    (c : ρ → ℚ) (hc : ∀ r ∈ rxns, 0 ≤ c r) (args : List (Arg η φ)) (hne : args ≠ []) (n : Net η ρ)
    (hset : ((Net.new rxns entries).build R P).setPrecursors minEntry args = .ok n)
    {d : Graph (Node η) (Edge ρ) → ℕ → ℕ → Option (List ℕ)} (hd : Dijkstra (weightOf c) d) (k : ℕ)
    (targets : List (Arg η φ)) (hin : ∀ a ∈ targets, ∃ t, resolve minEntry a = .ok t ∧ t ∈ entries) :
    ∃ (n' : Net η ρ) (l : List η) (Lss : List (List (List ρ))), args.mapM (resolve minEntry) = .ok l ∧
      findPathways minEntry d c n targets k = .ok (n', Lss.flatten.map (asPath c)) ∧
      List.Forall₂ (fun a Ls => ∃ t, resolve minEntry a = .ok t ∧ Answer R P rxns c l.toFinset k t Ls) targets Lss := by
  obtain ⟨l, hl, hp, _, hent, hcase⟩ := hist_setPrecursors minEntry args hne (hist_build R P rxns entries) hset
  rcases hcase with ⟨h1, _⟩ | ⟨_, _, hs⟩
  · simp [Net.build, Net.new] at h1
  · rw [List.nil_append] at hs
    obtain ⟨n', Lss, hf, hfa⟩ := findTargets minEntry c hc l.toFinset hd k targets n [] hs hp (by
      intro a ha
      rw [hent]
      exact hin a ha)
    refine ⟨n', l, Lss, hl, ?_, hfa⟩
    unfold findPathways
    rw [hp]
    simp only
    rw [if_neg (hs.nonempty _ (by simp))]
    exact hf

/-- **C69 after several precursors sets.**  What still holds after any history: the first reaction
uses current precursors only, each further reaction uses products of the one before and phases that
are *or once were* precursors. -/
theorem C69_history_partial {R P : ρ → Finset η} {rxns : List ρ} {chs : List (Finset η)} {n : Net η ρ}
    (h : HistState R P rxns chs n) (c : ρ → ℚ) (hc : ∀ r ∈ rxns, 0 ≤ c r) (ps : Finset η)
    (hps : n.precursors = some ps) (t : η) (ht : n.target = some t)
    {d : Graph (Node η) (Edge ρ) → ℕ → ℕ → Option (List ℕ)} (hd : Dijkstra (weightOf c) d) (k : ℕ) :
    ∃ Ls : List (List ρ), kShortest d c n k = .ok (Ls.map (asPath c)) ∧ Ls.length ≤ max k 1 ∧
      (∀ rs ∈ Ls, (∀ r ∈ rs, r ∈ rxns) ∧ ∃ r rs', rs = r :: rs' ∧ R r ⊆ ps ∧
        Runs R P (everPrecursor chs) t (P r) rs') := by
  obtain ⟨Ls, h1, h2, h3, _⟩ := kShortest_answer h c hc ps hps t ht hd k
  exact ⟨Ls, h1, h2, h3⟩

section Examples

/-- The pathways found after a history, with `shortest` as the search routine. -/
def found (n : Net ℕ ℕ) (c : ℕ → ℚ) (t k : ℕ) : Option (List (List (Edge ℕ × ℚ))) :=
  match findPathways noFormula (shortest (weightOf c)) c n [.entry t] k with
  | .ok r => some r.2
  | .error _ => none

/-- **C69 (violated after a change of precursors).**  Reactions `0 → 1` and `1 + 2 → 3`, precursors
first `{0, 2}` and then `{0}`: the pathway `0 → 1`, `1 + 2 → 3` is still returned, although phase 2
is no longer available. -/
theorem C69_stale_violated :
    found (runOps noFormula stNet [P1, P2]) (fun _ => 1) 3 1 = some [[(.rxn 0, 1), (.rxn 1, 1)]] ∧
      ¬ Pathway stR stP {0} 3 [0, 1] ∧ found (runOps noFormula stNet [P2]) (fun _ => 1) 3 1 = some [] := by
  refine ⟨by decide +kernel, by decide, by decide +kernel⟩

/-- Two reactions `0 → 1` of different cost, and `0 → 2`, `2 → 1`. -/
def parR : ℕ → Finset ℕ
  | 3 => {2}
  | _ => {0}

def parP : ℕ → Finset ℕ
  | 2 => {2}
  | _ => {1}

def parC : ℕ → ℚ
  | 0 => 1
  | 1 => 9
  | _ => 2

/-- **C69 (violated for parallel reactions).**  With two reactions `0 → 1` of cost 1 and 9, the
search follows the cheap one but the pathway reported contains the expensive one (and costs 9,
although the reaction of cost 1 is there). -/
theorem C69_parallel_violated :
    found (runOps noFormula ((Net.new [0, 1, 2, 3] {0, 1, 2}).build parR parP) [P2]) parC 1 1 =
      some [[(.rxn 1, 9)]] ∧ Pathway parR parP {0} 1 [0] := by
  refine ⟨by decide +kernel, by decide⟩

/-- A non-trivial instance of `C69_find`: `0 → 1` and `1 + 2 → 3` with precursors 0 and 2. -/
example : found (runOps noFormula stNet [P1]) (fun r => r + 1) 3 5 = some [[(.rxn 0, 1), (.rxn 1, 2)]] ∧
    Pathway stR stP {0, 2} 3 [0, 1] := by
  refine ⟨by decide +kernel, by decide⟩

/-- `0 → 9` (cost 1), `0 → 1` and `1 → 0` (cost 1/10), `1 → 9` (cost 99/10). -/
def loopR : ℕ → Finset ℕ
  | 2 => {1}
  | 3 => {1}
  | _ => {0}

def loopP : ℕ → Finset ℕ
  | 1 => {1}
  | 2 => {0}
  | _ => {9}

def loopC : ℕ → ℚ
  | 0 => 1
  | 3 => 99 / 10
  | _ => 1 / 10

/-- **C52 (violated) seen from `find_pathways`**: the pathways have costs 1, 10 and 12/10, and the
third makes phase 1 and turns it back before doing what the first does. -/
theorem C52_pathways_violated :
    found (runOps noFormula ((Net.new [0, 1, 2, 3] {0, 1, 9}).build loopR loopP) [P2]) loopC 9 3 =
      some [[(.rxn 0, 1)], [(.rxn 1, 1 / 10), (.rxn 3, 99 / 10)], [(.rxn 1, 1 / 10), (.rxn 2, 1 / 10), (.rxn 0, 1)]] := by
  decide +kernel

/-- `0 → 1`, `1 → 2`, `0 + 1 → 2 + 3`. -/
def dupR : ℕ → Finset ℕ
  | 0 => {0}
  | 1 => {1}
  | _ => {0, 1}

def dupP : ℕ → Finset ℕ
  | 0 => {1}
  | 1 => {2}
  | _ => {2, 3}

/-- **C52 (violated) seen from `find_pathways`**: `build` and `set_precursors` both add the edge from
the products `1` to the reactants `1`.  The search removes one copy only, and the second pathway
(`0 → 1`, `0 + 1 → 2 + 3`) is never found. -/
theorem C52_missed_violated :
    found (runOps noFormula ((Net.new [0, 1, 2] {0, 1, 2, 3}).build dupR dupP) [P2]) (fun r => r + 1) 2 15 =
      some [[(.rxn 0, 1), (.rxn 1, 2)]] ∧ Pathway dupR dupP {0} 2 [0, 2] := by
  refine ⟨by decide +kernel, by decide⟩

end Examples

end Verif.Props.Pathfinding
