import Verif.Props.Network
import Verif.Lemmas.NetworkState

/-!
# C48, C49: histories of `set_precursors` and `set_target`

Any history of calls is characterised exactly.  The target part of the graph depends on the last
target only (C49).  The precursors part does not: the return edges made possible by *earlier*
precursors stay (C48, violated), and this is the only trace they leave as long as no call passes
an empty precursors set.
-/

namespace Verif.Props.Network

open Verif.Py Verif.Model.Network Verif.Spec.Network Verif.Lemmas.Network

set_option linter.unusedSectionVars false

variable {η ρ φ : Type} [DecidableEq η]

/-- The target node, if a target is set. -/
def targetN (t : Option η) : Multiset (Node η) :=
  match t with
  | none => 0
  | some t => {⟨.target, {t}⟩}

/-- The target edges, if a target is set. -/
def targetEdges (t : Option η) (N : Multiset (Node η)) : Multiset (VEdge η ρ) :=
  match t with
  | none => 0
  | some t => targetE t N

/-- The precursors node, if precursors are set. -/
def startN (ps : Option (Finset η)) : Multiset (Node η) :=
  match ps with
  | none => 0
  | some ps => {⟨.precursors, ps⟩}

/-- The precursor edges, if precursors are set. -/
def startEdges (ps : Option (Finset η)) (N : Multiset (Node η)) : Multiset (VEdge η ρ) :=
  match ps with
  | none => 0
  | some ps => startE ps N

/-- The network is a core without target node, plus the node and the edges of the current target. -/
structure TargetState (n : Net η ρ) (N : Multiset (Node η)) (E : Multiset (VEdge η ρ)) : Prop where
  coreN : ∀ v ∈ N, v.kind ≠ .target
  coreE : ∀ e ∈ E, NoKind .target e
  graph : ∃ g, n.g = some g ∧ WF g ∧ viewN g = N + targetN n.target ∧
    viewE g = E + targetEdges n.target N

theorem usable_some {n : Net η ρ} {g : Graph (Node η) (Edge ρ)} (h : usable n = some g) : n.g = some g := by
  unfold usable at h
  split at h
  · simp at h
  · rename_i g' hg
    split at h
    · simp at h
    · rw [hg, h]

theorem targetEdges_kinds (t : Option η) (N : Multiset (Node η)) (e : VEdge η ρ) (he : e ∈ targetEdges t N) :
    NoKind .precursors e ∧ ¬ NoKind .target e := by
  cases t with
  | none => simp [targetEdges] at he
  | some t => exact targetE_kinds t N e he

theorem startEdges_kinds (ps : Option (Finset η)) (N : Multiset (Node η)) (e : VEdge η ρ)
    (he : e ∈ startEdges ps N) : ¬ NoKind .precursors e ∧ NoKind .target e := by
  cases ps with
  | none => simp [startEdges] at he
  | some ps => exact startE_kinds ps N e he

/-- One accepted `set_target` call. -/
theorem setTarget_state (minEntry : φ → Except Err η) (n n' : Net η ρ) (arg : Arg η φ)
    (N : Multiset (Node η)) (E : Multiset (VEdge η ρ)) (h : TargetState n N E)
    (hr : n.setTarget minEntry arg = .ok n') :
    TargetState n' N E ∧ (∃ t, resolve minEntry arg = .ok t ∧ n'.target = some t) ∧
      n'.precursors = n.precursors ∧ n'.rxns = n.rxns ∧ n'.entries = n.entries := by
  unfold Net.setTarget at hr
  split at hr
  · simp at hr
  · rename_i g hg
    split at hr
    · simp at hr
    · rename_i t ht
      split at hr
      · rename_i heq
        simp only [Except.ok.injEq] at hr
        subst hr
        exact ⟨h, ⟨t, ht, heq.symm⟩, rfl, rfl, rfl⟩
      · split at hr
        · simp at hr
        · split at hr
          · simp at hr
          · rename_i g' hdet
            simp only [Except.ok.injEq] at hr
            subst hr
            obtain ⟨g0, hg0, hW, hN, hE⟩ := h.graph
            rw [usable_some hg, Option.some.injEq] at hg0
            subst hg0
            have hdet' : WF g' ∧ viewN g' = N ∧ viewE g' = E := by
              unfold detachTarget at hdet
              cases htn : n.target with
              | none =>
                rw [htn] at hdet hN hE
                simp only [Except.ok.injEq] at hdet
                subst hdet
                refine ⟨hW, by simpa [targetN] using hN, by simpa [targetEdges] using hE⟩
              | some t0 =>
                rw [htn] at hdet hN hE
                simp only [targetN, targetEdges] at hN hE
                have hu : (viewN g).filter (fun x => x.kind = .target) = {⟨.target, {t0}⟩} := by
                  rw [hN, Multiset.filter_add, Multiset.filter_eq_nil.mpr (fun a ha => h.coreN a ha), zero_add,
                    Multiset.filter_eq_self.mpr]
                  intro a ha
                  rw [Multiset.mem_singleton] at ha
                  rw [ha]
                obtain ⟨i, hi, hW', hN', hE'⟩ := detach_view .target hW _ hu
                rw [hi] at hdet
                simp only [Except.ok.injEq] at hdet
                subst hdet
                refine ⟨hW', ?_, ?_⟩
                · rw [hN', hN, Multiset.filter_add, Multiset.filter_eq_self.mpr (fun a ha => h.coreN a ha),
                    Multiset.filter_eq_nil.mpr, add_zero]
                  intro a ha
                  rw [Multiset.mem_singleton] at ha
                  rw [ha]
                  simp
                · rw [hE', hE, Multiset.filter_add, Multiset.filter_eq_self.mpr (fun a ha => h.coreE a ha),
                    Multiset.filter_eq_nil.mpr, add_zero]
                  exact fun a ha => (targetE_kinds t0 N a ha).2
            have hatt := attachTarget_view t hdet'.1
            refine ⟨⟨h.coreN, h.coreE, _, rfl, hatt.2.2, ?_, ?_⟩, ⟨t, ht, rfl⟩, rfl, rfl, rfl⟩
            · rw [hatt.1, hdet'.2.1, ← Multiset.singleton_add, add_comm]
              rfl
            · rw [hatt.2.1, hdet'.2.1, hdet'.2.2]
              rfl

/-- A sequence of `set_target` calls; a call that raises leaves the object as it was. -/
def runTargets (minEntry : φ → Except Err η) (n : Net η ρ) (args : List (Arg η φ)) : Net η ρ :=
  args.foldl (fun n a => match n.setTarget minEntry a with
    | .ok n' => n'
    | .error _ => n) n

/-- **C49.** After any sequence of `set_target` calls (accepted or rejected), the network is its
target-free core plus one node for the current target and one zero-cost edge from exactly each
product set containing it: the graph is the same as after setting only the last accepted target,
and the precursors are untouched. -/
theorem C49_history (minEntry : φ → Except Err η) (n : Net η ρ) (args : List (Arg η φ))
    (N : Multiset (Node η)) (E : Multiset (VEdge η ρ)) (h : TargetState n N E) :
    TargetState (runTargets minEntry n args) N E ∧
      (runTargets minEntry n args).precursors = n.precursors ∧
      ((runTargets minEntry n args).target = n.target ∨
        ∃ a ∈ args, ∃ t, resolve minEntry a = .ok t ∧ (runTargets minEntry n args).target = some t) := by
  induction args generalizing n with
  | nil => exact ⟨h, rfl, Or.inl rfl⟩
  | cons a args ih =>
    unfold runTargets
    rw [List.foldl_cons]
    cases hr : n.setTarget minEntry a with
    | error e =>
      obtain ⟨h1, h2, h3⟩ := ih n h
      refine ⟨h1, h2, ?_⟩
      rcases h3 with h3 | ⟨b, hb, h3⟩
      · exact Or.inl h3
      · exact Or.inr ⟨b, List.mem_cons_of_mem _ hb, h3⟩
    | ok n' =>
      obtain ⟨hs, ⟨t, ht, htn⟩, hp, _, _⟩ := setTarget_state minEntry n n' a N E h hr
      obtain ⟨h1, h2, h3⟩ := ih n' hs
      refine ⟨h1, h2.trans hp, Or.inr ?_⟩
      rcases h3 with h3 | ⟨b, hb, h3⟩
      · exact ⟨a, List.mem_cons_self, t, ht, h3.trans htn⟩
      · exact ⟨b, List.mem_cons_of_mem _ hb, h3⟩

/-- The last call decides: if it is accepted, the network has the same nodes and edges as when only
this call is made, whatever was called before. -/
theorem C49_last (minEntry : φ → Except Err η) (n : Net η ρ) (args : List (Arg η φ)) (a : Arg η φ)
    (N : Multiset (Node η)) (E : Multiset (VEdge η ρ)) (h : TargetState n N E) (n₁ n₂ : Net η ρ)
    (h₁ : (runTargets minEntry n args).setTarget minEntry a = .ok n₁) (h₂ : n.setTarget minEntry a = .ok n₂) :
    n₁.target = n₂.target ∧ ∃ g₁ g₂, n₁.g = some g₁ ∧ n₂.g = some g₂ ∧ viewN g₁ = viewN g₂ ∧ viewE g₁ = viewE g₂ := by
  obtain ⟨s₁, ⟨t₁, e₁, ht₁⟩, _⟩ := setTarget_state minEntry _ _ a N E (C49_history minEntry n args N E h).1 h₁
  obtain ⟨s₂, ⟨t₂, e₂, ht₂⟩, _⟩ := setTarget_state minEntry _ _ a N E h h₂
  have htt : t₁ = t₂ := by rw [e₁] at e₂; simpa using e₂
  subst htt
  obtain ⟨g₁, hg₁, _, a₁, b₁⟩ := s₁.graph
  obtain ⟨g₂, hg₂, _, a₂, b₂⟩ := s₂.graph
  refine ⟨ht₁.trans ht₂.symm, g₁, g₂, hg₁, hg₂, ?_, ?_⟩
  · rw [a₁, a₂, ht₁, ht₂]
  · rw [b₁, b₂, ht₁, ht₂]

/-- When a `set_target` call is rejected, and with which exception: no network yet (or an empty
one), an unknown formula, a phase that is not in the network.  The internal error "old target node
not found" cannot occur. -/
theorem C49_rejected (minEntry : φ → Except Err η) (n : Net η ρ) (a : Arg η φ)
    (N : Multiset (Node η)) (E : Multiset (VEdge η ρ)) (h : TargetState n N E) (e : Err)
    (hr : n.setTarget minEntry a = .error e) :
    usable n = none ∨ resolve minEntry a = .error e ∨
      ∃ t, resolve minEntry a = .ok t ∧ t ∉ n.entries ∧ some t ≠ n.target := by
  unfold Net.setTarget at hr
  split at hr
  · exact Or.inl (by assumption)
  · rename_i g hg
    split at hr
    · rename_i e' he
      simp only [Except.error.injEq] at hr
      exact Or.inr (Or.inl (hr ▸ he))
    · rename_i t ht
      split at hr
      · simp at hr
      · rename_i hne
        split at hr
        · rename_i hm
          exact Or.inr (Or.inr ⟨t, ht, hm, hne⟩)
        · split at hr
          · rename_i hdet
            exfalso
            obtain ⟨g0, hg0, hW, hN, hE⟩ := h.graph
            rw [usable_some hg, Option.some.injEq] at hg0
            subst hg0
            unfold detachTarget at hdet
            cases htn : n.target with
            | none => rw [htn] at hdet; simp at hdet
            | some t0 =>
              rw [htn] at hdet hN
              have hu : (viewN g).filter (fun x => x.kind = .target) = {⟨.target, {t0}⟩} := by
                rw [hN, Multiset.filter_add, Multiset.filter_eq_nil.mpr (fun a ha => h.coreN a ha), zero_add,
                  Multiset.filter_eq_self.mpr]
                · rfl
                intro a ha
                simp only [targetN] at ha
                rw [Multiset.mem_singleton] at ha
                rw [ha]
              obtain ⟨i, hi, _⟩ := detach_view .target hW _ hu
              rw [hi] at hdet
              simp at hdet
          · simp at hr

/-! ### Mixed histories -/

/-- The state after a history in which `chs` are the precursors sets that were really set (in order):
all return edges ever added are still there. -/
structure HistState (R P : ρ → Finset η) (rxns : List ρ) (chs : List (Finset η)) (n : Net η ρ) : Prop where
  rxns_eq : n.rxns = rxns
  last : n.precursors = chs.getLast?
  nonempty : ∀ s ∈ chs, s ≠ ∅
  graph : ∃ g, n.g = some g ∧ WF g ∧
    viewN g = builtN R P rxns + startN n.precursors + targetN n.target ∧
    viewE g = builtE R P rxns + (chs.map fun s => returnE s (builtN R P rxns)).sum +
      startEdges n.precursors (builtN R P rxns) + targetEdges n.target (builtN R P rxns)

theorem sum_kinds (N : Multiset (Node η)) (chs : List (Finset η)) (e : VEdge η ρ)
    (he : e ∈ (chs.map fun s => (returnE s N : Multiset (VEdge η ρ))).sum) :
    NoKind .precursors e ∧ NoKind .target e := by
  induction chs with
  | nil => simp at he
  | cons s chs ih =>
    rw [List.map_cons, List.sum_cons, Multiset.mem_add] at he
    rcases he with he | he
    · exact returnE_kinds s N e he
    · exact ih he

theorem targetEdges_add (t : Option η) (N : Multiset (Node η)) (ps : Option (Finset η)) :
    (targetEdges t (N + startN ps) : Multiset (VEdge η ρ)) = targetEdges t N := by
  cases t with
  | none => rfl
  | some t =>
    cases ps with
    | none => simp [startN]
    | some ps =>
      simp only [targetEdges, startN]
      rw [add_comm, Multiset.singleton_add, targetE_cons _ _ _ (by simp)]

/-- A freshly built network is in the state with empty history. -/
theorem hist_build (R P : ρ → Finset η) (rxns : List ρ) (entries : Finset η) :
    HistState R P rxns [] ((Net.new rxns entries).build R P) := by
  obtain ⟨h1, h2, _, h4⟩ := C47_build R P rxns
  refine ⟨rfl, rfl, by simp, _, rfl, h4, ?_, ?_⟩
  · rw [show (Net.new rxns entries).rxns = rxns from rfl, h1]
    simp [Net.build, Net.new, startN, targetN]
  · rw [show (Net.new rxns entries).rxns = rxns from rfl, h2]
    simp [Net.build, Net.new, startEdges, targetEdges]

theorem hist_targetState {R P : ρ → Finset η} {rxns : List ρ} {chs : List (Finset η)} {n : Net η ρ}
    (h : HistState R P rxns chs n) :
    TargetState n (builtN R P rxns + startN n.precursors)
      (builtE R P rxns + (chs.map fun s => returnE s (builtN R P rxns)).sum +
        startEdges n.precursors (builtN R P rxns)) := by
  refine ⟨?_, ?_, ?_⟩
  · intro v hv
    rw [Multiset.mem_add] at hv
    rcases hv with hv | hv
    · rcases builtN_kinds R P rxns v hv with hk | hk <;> rw [hk] <;> decide
    · cases hp : n.precursors with
      | none => rw [hp] at hv; simp [startN] at hv
      | some ps =>
        rw [hp] at hv
        simp only [startN, Multiset.mem_singleton] at hv
        rw [hv]
        simp
  · intro e he
    rw [Multiset.mem_add, Multiset.mem_add] at he
    rcases he with (he | he) | he
    · exact (builtE_kinds R P rxns e he).2
    · exact (sum_kinds _ chs e he).2
    · exact (startEdges_kinds _ _ e he).2
  · obtain ⟨g, hg, hW, hN, hE⟩ := h.graph
    exact ⟨g, hg, hW, hN, by rw [targetEdges_add]; exact hE⟩

/-- `set_target` in a mixed history. -/
theorem hist_setTarget {R P : ρ → Finset η} {rxns : List ρ} {chs : List (Finset η)} {n n' : Net η ρ}
    (minEntry : φ → Except Err η) (arg : Arg η φ) (h : HistState R P rxns chs n)
    (hr : n.setTarget minEntry arg = .ok n') : HistState R P rxns chs n' := by
  obtain ⟨hs, _, hp, hx, _⟩ := setTarget_state minEntry n n' arg _ _ (hist_targetState h) hr
  obtain ⟨g, hg, hW, hN, hE⟩ := hs.graph
  refine ⟨hx.trans h.rxns_eq, hp.trans h.last, h.nonempty, g, hg, hW, ?_, ?_⟩
  · rw [hN, hp]
  · rw [hE, hp, targetEdges_add]

theorem filter_targetN (t : Option η) :
    (targetN t).filter (fun x => x.kind = .precursors) = 0 ∧
      (targetN t).filter (fun x => ¬ x.kind = .precursors) = targetN t := by
  cases t with
  | none => simp [targetN]
  | some t => simp [targetN, Multiset.filter_singleton]

/-- Replacing the precursors node: the return edges of the new set are added to all the earlier ones. -/
theorem hist_reattach {R P : ρ → Finset η} {rxns : List ρ} {chs : List (Finset η)} {n : Net η ρ}
    (h : HistState R P rxns chs n) (ps : Finset η) (hlne : ps ≠ ∅) (g : Graph (Node η) (Edge ρ)) (hg : n.g = some g)
    (g' : Graph (Node η) (Edge ρ)) (hdet : detachPrecursors n.precursors g = .ok g') :
    HistState R P rxns (chs ++ [ps]) { n with g := some (attachPrecursors ps g'), precursors := some ps } := by
  obtain ⟨g0, hg0, hW, hN, hE⟩ := h.graph
  rw [hg, Option.some.injEq] at hg0
  subst hg0
  have hdet' : WF g' ∧ viewN g' = builtN R P rxns + targetN n.target ∧
      viewE g' = builtE R P rxns + (chs.map fun s => returnE s (builtN R P rxns)).sum +
        targetEdges n.target (builtN R P rxns) := by
    unfold detachPrecursors at hdet
    cases hpn : n.precursors with
    | none =>
      rw [hpn] at hdet hN hE
      simp only [Except.ok.injEq] at hdet
      subst hdet
      exact ⟨hW, by simpa [startN] using hN, by simpa [startEdges] using hE⟩
    | some s0 =>
      have hs0 : s0 ≠ ∅ := h.nonempty s0 (by
        have := h.last
        rw [hpn] at this
        exact List.mem_of_getLast? this.symm)
      rw [hpn] at hdet hN hE
      simp only [startN, startEdges, if_neg hs0] at hN hE hdet
      have hbk : ∀ a ∈ builtN R P rxns, ¬ a.kind = .precursors := by
        intro a ha
        rcases builtN_kinds R P rxns a ha with hk | hk <;> rw [hk] <;> decide
      have hu : (viewN g).filter (fun x => x.kind = .precursors) = {⟨.precursors, s0⟩} := by
        rw [hN, Multiset.filter_add, Multiset.filter_add, Multiset.filter_eq_nil.mpr hbk, zero_add,
          (filter_targetN n.target).1, add_zero, Multiset.filter_eq_self.mpr]
        intro a ha
        rw [Multiset.mem_singleton] at ha
        rw [ha]
      obtain ⟨i, hi, hW', hN', hE'⟩ := detach_view .precursors hW _ hu
      rw [hi] at hdet
      simp only [Except.ok.injEq] at hdet
      subst hdet
      refine ⟨hW', ?_, ?_⟩
      · rw [hN', hN, Multiset.filter_add, Multiset.filter_add, Multiset.filter_eq_self.mpr hbk,
          (filter_targetN n.target).2, Multiset.filter_eq_nil.mpr, add_zero]
        intro a ha
        rw [Multiset.mem_singleton] at ha
        rw [ha]
        simp
      · rw [hE', hE, Multiset.filter_add, Multiset.filter_add, Multiset.filter_add,
          Multiset.filter_eq_self.mpr (fun a ha => (builtE_kinds R P rxns a ha).1),
          Multiset.filter_eq_self.mpr (fun a ha => (sum_kinds _ chs a ha).1),
          Multiset.filter_eq_self.mpr (fun a ha => (targetEdges_kinds _ _ a ha).1),
          Multiset.filter_eq_nil.mpr (fun a ha => (startE_kinds _ _ a ha).1), add_zero]
  have hatt := attachPrecursors_view ps hdet'.1
  have hcore : ∀ (F : Multiset (Node η) → Multiset (VEdge η ρ)),
      (∀ N (v : Node η), v.kind ≠ .reactants → v.kind ≠ .products → F (v ::ₘ N) = F N) →
      F (builtN R P rxns + targetN n.target) = F (builtN R P rxns) := by
    intro F hF
    cases n.target with
    | none => simp [targetN]
    | some t =>
      simp only [targetN]
      rw [add_comm, Multiset.singleton_add, hF _ _ (by simp) (by simp)]
  refine ⟨h.rxns_eq, ?_, ?_, _, rfl, hatt.2.2, ?_, ?_⟩
  · simp
  · intro s hs
    rw [List.mem_append, List.mem_singleton] at hs
    rcases hs with hs | rfl
    · exact h.nonempty s hs
    · exact hlne
  · rw [hatt.1, hdet'.2.1, ← Multiset.singleton_add]
    simp only [startN]
    rw [add_left_comm, add_assoc]
  · rw [hatt.2.1, hdet'.2.1, hdet'.2.2, hcore _ (fun N v h1 _ => startE_cons _ N v h1),
      hcore _ (fun N v h1 h2 => returnE_cons _ N v h1 h2), List.map_append, List.sum_append]
    simp only [List.map_cons, List.map_nil, List.sum_cons, List.sum_nil, add_zero, startEdges]
    abel

/-- `set_precursors` in a mixed history: if the set is new, its return edges are added to all the
earlier ones. -/
theorem hist_setPrecursors {R P : ρ → Finset η} {rxns : List ρ} {chs : List (Finset η)} {n n' : Net η ρ}
    (minEntry : φ → Except Err η) (args : List (Arg η φ)) (hne : args ≠ []) (h : HistState R P rxns chs n)
    (hr : n.setPrecursors minEntry args = .ok n') :
    ∃ l, args.mapM (resolve minEntry) = .ok l ∧ n'.precursors = some l.toFinset ∧ n'.target = n.target ∧
      n'.entries = n.entries ∧
      ((some l.toFinset = n.precursors ∧ n' = n) ∨
        (some l.toFinset ≠ n.precursors ∧ l.toFinset ⊆ n.entries ∧ HistState R P rxns (chs ++ [l.toFinset]) n')) := by
  unfold Net.setPrecursors at hr
  split at hr
  · simp at hr
  · rename_i g hg
    split at hr
    · simp at hr
    · rename_i l hl
      refine ⟨l, hl, ?_⟩
      have hlne : l.toFinset ≠ ∅ := by
        intro hc
        rw [List.toFinset_eq_empty_iff] at hc
        subst hc
        have := Verif.Lemmas.Exc.mapM_length _ _ _ hl
        exact hne (List.length_eq_zero_iff.mp this.symm)
      split at hr
      · rename_i heq
        simp only [Except.ok.injEq] at hr
        subst hr
        exact ⟨heq.symm, rfl, rfl, Or.inl ⟨heq, rfl⟩⟩
      · rename_i hneq
        split at hr
        · simp at hr
        · rename_i hsub
          split at hr
          · simp at hr
          · rename_i g' hdet
            simp only [Except.ok.injEq] at hr
            subst hr
            refine ⟨rfl, rfl, rfl, Or.inr ⟨hneq, not_not.mp hsub, ?_⟩⟩
            exact hist_reattach h l.toFinset hlne g (usable_some hg) g' hdet

/-- A call on a network. -/
inductive Op (η φ : Type)
  | setPrecursors (args : List (Arg η φ))
  | setTarget (arg : Arg η φ)

/-- One call; a call that raises leaves the object as it was. -/
def runOp (minEntry : φ → Except Err η) (n : Net η ρ) : Op η φ → Net η ρ
  | .setPrecursors args => match n.setPrecursors minEntry args with
    | .ok n' => n'
    | .error _ => n
  | .setTarget a => match n.setTarget minEntry a with
    | .ok n' => n'
    | .error _ => n

/-- A history of calls. -/
def runOps (minEntry : φ → Except Err η) (n : Net η ρ) (ops : List (Op η φ)) : Net η ρ :=
  ops.foldl (runOp minEntry) n

/-- No call passes an empty collection of precursors. -/
def NoEmpty (ops : List (Op η φ)) : Prop := ∀ args, Op.setPrecursors args ∈ ops → args ≠ []

/-- The precursors set that a call asks for. -/
def Asked (minEntry : φ → Except Err η) (ops : List (Op η φ)) (s : Finset η) : Prop :=
  ∃ args l, Op.setPrecursors args ∈ ops ∧ args.mapM (resolve minEntry) = .ok l ∧ s = l.toFinset

theorem hist_run {R P : ρ → Finset η} {rxns : List ρ} (minEntry : φ → Except Err η) (ops : List (Op η φ))
    (hne : NoEmpty ops) (chs : List (Finset η)) (n : Net η ρ) (h : HistState R P rxns chs n) :
    ∃ more, HistState R P rxns (chs ++ more) (runOps minEntry n ops) ∧ ∀ s ∈ more, Asked minEntry ops s := by
  induction ops generalizing chs n with
  | nil => exact ⟨[], by simpa [runOps] using h, by simp⟩
  | cons op ops ih =>
    have hne' : NoEmpty ops := fun args ha => hne args (List.mem_cons_of_mem _ ha)
    have hmono : ∀ s, Asked minEntry ops s → Asked minEntry (op :: ops) s :=
      fun s ⟨args, l, h1, h2, h3⟩ => ⟨args, l, List.mem_cons_of_mem _ h1, h2, h3⟩
    have hskip : ∀ n', HistState R P rxns chs n' → ∃ more, HistState R P rxns (chs ++ more) (runOps minEntry n' ops) ∧
        ∀ s ∈ more, Asked minEntry (op :: ops) s := by
      intro n' h'
      obtain ⟨more, h1, h2⟩ := ih hne' chs n' h'
      exact ⟨more, h1, fun s hs => hmono s (h2 s hs)⟩
    unfold runOps
    rw [List.foldl_cons]
    change ∃ more, HistState R P rxns (chs ++ more) (runOps minEntry (runOp minEntry n op) ops) ∧ _
    cases op with
    | setTarget a =>
      simp only [runOp]
      cases hr : n.setTarget minEntry a with
      | error e => exact hskip n h
      | ok n' => exact hskip n' (hist_setTarget minEntry a h hr)
    | setPrecursors args =>
      simp only [runOp]
      cases hr : n.setPrecursors minEntry args with
      | error e => exact hskip n h
      | ok n' =>
        obtain ⟨l, hl, _, _, _, hc⟩ := hist_setPrecursors minEntry args (hne args List.mem_cons_self) h hr
        rcases hc with ⟨_, rfl⟩ | ⟨_, _, hs⟩
        · exact hskip _ h
        · obtain ⟨more, h1, h2⟩ := ih hne' _ _ hs
          refine ⟨l.toFinset :: more, by rw [← List.append_cons] at h1; exact h1, ?_⟩
          intro s hs
          rw [List.mem_cons] at hs
          rcases hs with rfl | hs
          · exact ⟨args, l, List.mem_cons_self, hl, rfl⟩
          · exact hmono s (h2 s hs)

/-- **C48, what does hold.**  After any history of calls (accepted or rejected, none with an empty
precursors set) on a built network, the nodes are those of the built network, one node for the
current precursors and one for the current target; the edges are those of the built network, the
start edges of the *current* precursors, the target edges, and the return edges of every
precursors set that was in force at some time.  Missing from the full property: the return edges
of sets no longer in force are not removed. -/
theorem C48_history_partial (R P : ρ → Finset η) (rxns : List ρ) (entries : Finset η)
    (minEntry : φ → Except Err η) (ops : List (Op η φ)) (hne : NoEmpty ops) :
    ∃ (chs : List (Finset η)) (g : Graph (Node η) (Edge ρ)), (∀ s ∈ chs, Asked minEntry ops s) ∧
      (runOps minEntry ((Net.new rxns entries).build R P) ops).precursors = chs.getLast? ∧
      (runOps minEntry ((Net.new rxns entries).build R P) ops).g = some g ∧ WF g ∧
      viewN g = builtN R P rxns +
        startN (runOps minEntry ((Net.new rxns entries).build R P) ops).precursors +
        targetN (runOps minEntry ((Net.new rxns entries).build R P) ops).target ∧
      viewE g = builtE R P rxns + (chs.map fun s => returnE s (builtN R P rxns)).sum +
        startEdges (runOps minEntry ((Net.new rxns entries).build R P) ops).precursors (builtN R P rxns) +
        targetEdges (runOps minEntry ((Net.new rxns entries).build R P) ops).target (builtN R P rxns) := by
  obtain ⟨chs, h, hask⟩ := hist_run minEntry ops hne [] _ (hist_build R P rxns entries)
  rw [List.nil_append] at h
  obtain ⟨g, hg, hW, hN, hE⟩ := h.graph
  exact ⟨chs, g, hask, h.last, hg, hW, hN, hE⟩

/-- The first `set_precursors` call on a built network is exact: one precursors node, a zero-cost
edge to each reactant set contained in the precursors, and return edges for these precursors only. -/
theorem C48_first (R P : ρ → Finset η) (rxns : List ρ) (entries : Finset η) (minEntry : φ → Except Err η)
    (args : List (Arg η φ)) (hne : args ≠ []) (n : Net η ρ)
    (hr : ((Net.new rxns entries).build R P).setPrecursors minEntry args = .ok n) :
    ∃ l g, args.mapM (resolve minEntry) = .ok l ∧ n.precursors = some l.toFinset ∧ l.toFinset ⊆ entries ∧
      n.g = some g ∧ viewN g = builtN R P rxns + {⟨.precursors, l.toFinset⟩} ∧
      viewE g = builtE R P rxns + returnE l.toFinset (builtN R P rxns) + startE l.toFinset (builtN R P rxns) := by
  obtain ⟨l, hl, hp, ht, _, hc⟩ := hist_setPrecursors minEntry args hne (hist_build R P rxns entries) hr
  rcases hc with ⟨h1, _⟩ | ⟨_, h2, hs⟩
  · simp [Net.build, Net.new] at h1
  · obtain ⟨g, hg, _, hN, hE⟩ := hs.graph
    have ht' : n.target = none := ht
    rw [hp, ht'] at hN hE
    refine ⟨l, g, hl, hp, h2, hg, ?_, ?_⟩
    · simpa [startN, targetN] using hN
    · simpa [startEdges, targetEdges] using hE

/-- Nodes stay distinct, so the graph is determined up to numbering by its nodes and edges. -/
theorem hist_nodup {R P : ρ → Finset η} {rxns : List ρ} {chs : List (Finset η)} {n : Net η ρ}
    (h : HistState R P rxns chs n) (g : Graph (Node η) (Edge ρ)) (hg : n.g = some g) : (viewN g).Nodup := by
  obtain ⟨g', hg', _, hN, _⟩ := h.graph
  rw [hg, Option.some.injEq] at hg'
  subst hg'
  rw [hN]
  have hk := builtN_kinds R P rxns
  refine Multiset.nodup_add.mpr ⟨Multiset.nodup_add.mpr ⟨nodup_builtN R P rxns, ?_, ?_⟩, ?_, ?_⟩
  · cases n.precursors <;> simp [startN]
  · rw [Multiset.disjoint_left]
    intro v hv hv'
    cases hp : n.precursors with
    | none => rw [hp] at hv'; simp [startN] at hv'
    | some ps =>
      rw [hp] at hv'
      simp only [startN, Multiset.mem_singleton] at hv'
      rcases hk v hv with h1 | h1 <;> rw [hv'] at h1 <;> simp at h1
  · cases n.target <;> simp [targetN]
  · rw [Multiset.disjoint_left]
    intro v hv hv'
    cases ht : n.target with
    | none => rw [ht] at hv'; simp [targetN] at hv'
    | some t =>
      rw [ht] at hv'
      simp only [targetN, Multiset.mem_singleton] at hv'
      rw [Multiset.mem_add] at hv
      rcases hv with hv | hv
      · rcases hk v hv with h1 | h1 <;> rw [hv'] at h1 <;> simp at h1
      · cases hp : n.precursors with
        | none => rw [hp] at hv; simp [startN] at hv
        | some ps =>
          rw [hp] at hv
          simp only [startN, Multiset.mem_singleton] at hv
          rw [hv'] at hv
          simp at hv

/-- **C49 in a mixed history.**  Two histories with the same effective precursors changes and the
same current target end in the same graph up to numbering, however the targets were set in between. -/
theorem C49_mixed (R P : ρ → Finset η) (rxns : List ρ) (chs : List (Finset η)) (n₁ n₂ : Net η ρ)
    (h₁ : HistState R P rxns chs n₁) (h₂ : HistState R P rxns chs n₂) (ht : n₁.target = n₂.target) :
    ∃ g₁ g₂, n₁.g = some g₁ ∧ n₂.g = some g₂ ∧ SameUpToNumbering g₁ g₂ := by
  obtain ⟨g₁, hg₁, hW₁, hN₁, hE₁⟩ := h₁.graph
  obtain ⟨g₂, hg₂, hW₂, hN₂, hE₂⟩ := h₂.graph
  refine ⟨g₁, g₂, hg₁, hg₂, same_of_view hW₁ hW₂ (hist_nodup h₁ g₁ hg₁) ?_ ?_⟩
  · rw [hN₁, hN₂, h₁.last, h₂.last, ht]
  · rw [hE₁, hE₂, h₁.last, h₂.last, ht]

/-! ### Rebuilding -/

/-- **C68 (violated).**  `build()` resets the graph but not the precursors: on every network with
(non-empty) precursors, building again and setting the *same* precursors is accepted and does
nothing, so the graph has no precursors node at all. -/
theorem C68_rebuild_same_violated (R P : ρ → Finset η) (rxns : List ρ) (chs : List (Finset η)) (n : Net η ρ)
    (h : HistState R P rxns chs n) (ps : Finset η) (hp : n.precursors = some ps) (hb : rxns ≠ [])
    (l : List η) (hl : l.toFinset = ps) (minEntry : φ → Except Err η) :
    (n.build R P).setPrecursors minEntry (l.map Arg.entry) = .ok (n.build R P) ∧
      ∃ g, (n.build R P).g = some g ∧ ∀ v ∈ viewN g, v.kind ≠ .precursors := by
  obtain ⟨h1, _, _, _⟩ := C47_build R P n.rxns
  have hus : usable (n.build R P) = some (buildGraph R P n.rxns) := by
    unfold usable Net.build
    simp only
    rw [if_neg]
    intro hc
    have : viewN (buildGraph R P n.rxns) = 0 := by unfold viewN; rw [hc]; rfl
    rw [h1] at this
    obtain ⟨r, rs, hrs⟩ := List.exists_cons_of_ne_nil hb
    have hm : (⟨.reactants, R r⟩ : Node η) ∈ builtN R P n.rxns :=
      (mem_builtN R P n.rxns _).mpr ⟨r, by rw [h.rxns_eq, hrs]; simp, Or.inl rfl⟩
    rw [this] at hm
    simp at hm
  constructor
  · unfold Net.setPrecursors
    rw [hus]
    simp only
    have : (l.map (Arg.entry (φ := φ))).mapM (resolve minEntry) = .ok l := by
      rw [Verif.Lemmas.Exc.mapM_map]
      have := Verif.Lemmas.Exc.mapM_eq_map (fun a => resolve minEntry (Arg.entry a)) id l (fun a _ => rfl)
      rwa [List.map_id] at this
    rw [this]
    simp only
    rw [if_pos]
    change some l.toFinset = n.precursors
    rw [hl, hp]
  · refine ⟨_, rfl, ?_⟩
    intro v hv
    rw [h1] at hv
    rcases builtN_kinds R P n.rxns v hv with hk | hk <;> rw [hk] <;> decide

/-- **C68 (violated).**  Building again and setting *different* precursors raises `ValueError`
("old precursors node not found"). -/
theorem C68_rebuild_other_violated (R P : ρ → Finset η) (n : Net η ρ) (ps : Finset η)
    (hp : n.precursors = some ps) (hps : ps ≠ ∅) (l : List η) (hl : l.toFinset ≠ ps)
    (minEntry : φ → Except Err η) :
    (n.build R P).setPrecursors minEntry (l.map Arg.entry) = .error .valueError := by
  obtain ⟨h1, _, _, _⟩ := C47_build R P n.rxns
  unfold Net.setPrecursors
  split
  · rfl
  · rename_i g hg
    have hgb := usable_some hg
    have hgb' : g = buildGraph R P n.rxns := by
      unfold Net.build at hgb
      simpa using hgb.symm
    have : (l.map (Arg.entry (φ := φ))).mapM (resolve minEntry) = .ok l := by
      rw [Verif.Lemmas.Exc.mapM_map]
      have := Verif.Lemmas.Exc.mapM_eq_map (fun a => resolve minEntry (Arg.entry a)) id l (fun a _ => rfl)
      rwa [List.map_id] at this
    rw [this]
    simp only
    rw [if_neg (by
      change ¬ some l.toFinset = n.precursors
      rw [hp]
      simpa using hl)]
    split
    · rfl
    · have hd : detachPrecursors (n.build R P).precursors g = .error .valueError := by
        change detachPrecursors n.precursors g = _
        rw [hp]
        unfold detachPrecursors
        simp only [if_neg hps]
        have : findKind .precursors g = none := by
          unfold findKind
          rw [Option.map_eq_none_iff, List.find?_eq_none]
          intro p hpm
          have hv : p.2 ∈ viewN g := Multiset.mem_coe.mpr (List.mem_map_of_mem (f := (·.2)) hpm)
          rw [hgb', h1] at hv
          rcases builtN_kinds R P n.rxns p.2 hv with hk | hk <;> rw [hk] <;> decide
        rw [this]
      rw [hd]

section Examples

/-- `0 → 1`, `1 + 2 → 3`. -/
def stR : ℕ → Finset ℕ
  | 0 => {0}
  | _ => {1, 2}

def stP : ℕ → Finset ℕ
  | 0 => {1}
  | _ => {3}

def noFormula : ℕ → Except Err ℕ := fun _ => .error .keyError

/-- The network of the two reactions. -/
def stNet : Net ℕ ℕ := (Net.new [0, 1] {0, 1, 2, 3}).build stR stP

/-- Edges between payloads after a history, as a list. -/
def edgesAfter (ops : List (Op ℕ ℕ)) : List (VEdge ℕ ℕ) :=
  match (runOps noFormula stNet ops).g with
  | none => []
  | some g => g.edges.map (viewEdge g)

def P1 : Op ℕ ℕ := .setPrecursors [.entry 0, .entry 2]
def P2 : Op ℕ ℕ := .setPrecursors [.entry 0]

/-- **C48 (violated).**  With precursors `{0, 2}` and then `{0}`, the edge `1 → 1 + 2` that needed
phase 2 as a precursor is still in the graph; it is not there when only `{0}` is set. -/
theorem C48_stale_violated :
    edgesAfter [P1, P2] = ((some ⟨.precursors, {0}⟩, some ⟨.reactants, {0}⟩, .precursor) :
      VEdge ℕ ℕ) :: (some ⟨.products, {1}⟩, some ⟨.reactants, {1, 2}⟩, .loopback) ::
      (some ⟨.reactants, {1, 2}⟩, some ⟨.products, {3}⟩, .rxn 1) ::
      [(some ⟨.reactants, {0}⟩, some ⟨.products, {1}⟩, .rxn 0)] ∧
    (some ⟨.products, {1}⟩, some ⟨.reactants, {1, 2}⟩, .loopback) ∉ edgesAfter [P2] := by
  decide +kernel

/-- Setting `{0, 2}`, `{0}`, `{0, 2}` leaves the same edge twice. -/
theorem C48_parallel_violated :
    (edgesAfter [P1, P2, P1]).count (some ⟨.products, {1}⟩, some ⟨.reactants, {1, 2}⟩, .loopback) = 2 ∧
    (edgesAfter [P1]).count (some ⟨.products, {1}⟩, some ⟨.reactants, {1, 2}⟩, .loopback) = 1 := by
  decide +kernel

/-- After an empty precursors set the old precursors node is not removed: two precursors nodes. -/
theorem C48_empty_violated :
    ((runOps noFormula stNet [.setPrecursors [], P1]).g.map fun g =>
      (g.nodes.filter fun p => p.2.kind == .precursors).map (·.2)) =
      some [⟨.precursors, ∅⟩, ⟨.precursors, {0, 2}⟩] := by
  decide +kernel

/-- A non-trivial history for `C48_history_partial`/`C49_history`: accepted and rejected calls. -/
example : NoEmpty [P1, .setTarget (.entry 3), P2, .setTarget (.entry 9), .setTarget (.entry 1)] ∧
    (runOps noFormula stNet [P1, .setTarget (.entry 3), P2, .setTarget (.entry 9), .setTarget (.entry 1)]).target =
      some 1 := by
  constructor
  · intro args ha
    simp [P1, P2] at ha
    rcases ha with rfl | rfl <;> simp
  · decide +kernel

example : HistState stR stP [0, 1] [] stNet := hist_build _ _ _ _

example := C48_history_partial stR stP [0, 1] {0, 1, 2, 3} noFormula [P1, .setTarget (.entry 3), P2, .setTarget (.entry 9)] (by
  intro args ha
  simp [P1, P2] at ha
  rcases ha with rfl | rfl <;> simp)

/-- Targets 3, then 9 (not in the network, rejected), then 1. -/
example := C49_history noFormula stNet [.entry 3, .entry 9, .entry 1] _ _ (hist_targetState (hist_build stR stP [0, 1] {0, 1, 2, 3}))

/-- The network with target 3 and then 1 against the one with target 1 only. -/
def stTwo : Net ℕ ℕ := runTargets noFormula stNet [.entry 3, .entry 1]
def stOne : Net ℕ ℕ := runTargets noFormula stNet [.entry 1]

example : stTwo.target = some 1 ∧ stOne.target = some 1 ∧ stTwo.g.isSome ∧ stOne.g.isSome := by decide +kernel

theorem stAccepts (n : Net ℕ ℕ) (a : Arg ℕ ℕ) (h : (n.setTarget noFormula a).toOption.isSome = true) :
    ∃ n', n.setTarget noFormula a = .ok n' := by
  cases hc : n.setTarget noFormula a with
  | ok n' => exact ⟨n', rfl⟩
  | error e => rw [hc] at h; simp [Except.toOption] at h

/-- Both calls of `C49_last` are accepted here, so its conclusion is not vacuous. -/
example : ∃ n₁ n₂, (runTargets noFormula stNet [.entry 3, .entry 9]).setTarget noFormula (.entry 1) = .ok n₁ ∧
    stNet.setTarget noFormula (.entry 1) = .ok n₂ ∧ n₁.target = n₂.target := by
  obtain ⟨n₁, h₁⟩ := stAccepts (runTargets noFormula stNet [.entry 3, .entry 9]) (.entry 1) (by decide +kernel)
  obtain ⟨n₂, h₂⟩ := stAccepts stNet (.entry 1) (by decide +kernel)
  exact ⟨n₁, n₂, h₁, h₂, (C49_last noFormula stNet _ _ _ _ (hist_targetState (hist_build stR stP [0, 1] {0, 1, 2, 3})) n₁ n₂ h₁ h₂).1⟩

/-- A rejected target: phase 9 is not in the network. -/
example : ∃ e, stNet.setTarget noFormula (.entry 9) = .error e ∧ (usable stNet = none ∨ resolve noFormula (.entry 9) = .error e ∨
    ∃ t, resolve noFormula (.entry 9) = .ok t ∧ t ∉ stNet.entries ∧ some t ≠ stNet.target) := by
  cases hc : stNet.setTarget noFormula (.entry 9) with
  | ok n' => exact absurd (by rw [hc]; rfl : (stNet.setTarget noFormula (.entry 9)).toOption.isSome = true) (by decide +kernel)
  | error e => exact ⟨e, rfl, C49_rejected noFormula stNet _ _ _ (hist_targetState (hist_build stR stP [0, 1] {0, 1, 2, 3})) e hc⟩

/-- The first precursors of a built network, accepted. -/
example : ∃ n l, stNet.setPrecursors noFormula [.entry 0, .entry 2] = .ok n ∧ n.precursors = some (List.toFinset l) := by
  cases hc : stNet.setPrecursors noFormula [.entry 0, .entry 2] with
  | ok n =>
    obtain ⟨l, _, _, hp, _⟩ := C48_first stR stP [0, 1] {0, 1, 2, 3} noFormula [.entry 0, .entry 2] (by simp) n hc
    exact ⟨n, l, rfl, hp⟩
  | error e =>
    have : (stNet.setPrecursors noFormula [.entry 0, .entry 2]).toOption.isSome = true := by decide +kernel
    rw [hc] at this
    simp [Except.toOption] at this

theorem hist_targets {R P : ρ → Finset η} {rxns : List ρ} {chs : List (Finset η)} (minEntry : φ → Except Err η)
    (args : List (Arg η φ)) (n : Net η ρ) (h : HistState R P rxns chs n) :
    HistState R P rxns chs (runTargets minEntry n args) := by
  induction args generalizing n with
  | nil => exact h
  | cons a args ih =>
    unfold runTargets
    rw [List.foldl_cons]
    cases hr : n.setTarget minEntry a with
    | error e => exact ih n h
    | ok n' => exact ih n' (hist_setTarget minEntry a h hr)

/-- Two histories with the same target on the built network. -/
example : ∃ g₁ g₂, stTwo.g = some g₁ ∧ stOne.g = some g₂ ∧ SameUpToNumbering g₁ g₂ :=
  C49_mixed stR stP [0, 1] [] stTwo stOne (hist_targets _ _ _ (hist_build _ _ _ _)) (hist_targets _ _ _ (hist_build _ _ _ _))
    (by decide +kernel)

end Examples

end Verif.Props.Network
