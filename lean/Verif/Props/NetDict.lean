import Verif.Model.NetDict
import Verif.Props.NetworkDict

/-!
# C106: saving and loading a network

`Shows L n` says that the (possibly loaded) object `L` presents the network `n` to its user: the same reactions, entries, target and graph,
and precursors that are the same *as a collection*. All statements are about what is shown.
-/

namespace Verif.Props.NetDict
open Verif.Py
open Verif.Model.Network hiding kShortest findOne findPathways
open Verif.Model.NetDict Verif.Spec.Network Verif.Lemmas.Network Verif.Props.Network

set_option linter.unusedSectionVars false

variable {η ρ φ : Type} [DecidableEq η]

/-- The stored collection contains exactly the phases `s` (as objects). -/
def Holds (s : Finset η) : Coll η → Prop
  | .set s' => s' = s
  | .list l => ∃ m : List η, l = m.map .obj ∧ m.toFinset = s

/-- The object presents the network `n`. -/
structure Shows (L : LNet η ρ) (n : Net η ρ) : Prop where
  rxns : L.rxns = n.rxns
  entries : L.entries = n.entries
  target : L.target = n.target.map .obj
  g : L.g = n.g
  precursors : (L.precursors = none ∧ n.precursors = none) ∨ ∃ c s, L.precursors = some c ∧ n.precursors = some s ∧ Holds s c

theorem shows_ofNet (n : Net η ρ) : Shows (ofNet n) n := by
  refine ⟨rfl, rfl, rfl, rfl, ?_⟩
  cases h : n.precursors with
  | none => exact Or.inl ⟨by simp [ofNet, h], rfl⟩
  | some s => exact Or.inr ⟨.set s, s, by simp [ofNet, h], rfl, rfl⟩

theorem shows_usable {L : LNet η ρ} {n : Net η ρ} (h : Shows L n) : usableL L = usable n := by
  unfold usableL usable
  rw [h.g]
  cases n.g <;> rfl

/-- A precursors node that ought to be there is found. -/
theorem detach_ok {R P : ρ → Finset η} {rxns : List ρ} {chs : List (Finset η)} {n : Net η ρ} (h : HistState R P rxns chs n)
    (g : Graph (Node η) (Edge ρ)) (hg : n.g = some g) : ∃ g', detachPrecursors n.precursors g = .ok g' := by
  obtain ⟨g0, hg0, _, hN, _⟩ := h.graph
  rw [hg, Option.some.injEq] at hg0
  subst hg0
  unfold detachPrecursors
  cases hp : n.precursors with
  | none => exact ⟨g, rfl⟩
  | some s =>
    simp only
    split
    · exact ⟨g, rfl⟩
    · have hm : (⟨.precursors, s⟩ : Node η) ∈ viewN g := by
        rw [hN, hp]
        simp [startN]
      unfold viewN at hm
      rw [Multiset.mem_coe, List.mem_map] at hm
      obtain ⟨p, hp1, hp2⟩ := hm
      cases hf : findKind .precursors g with
      | some i => exact ⟨_, rfl⟩
      | none =>
        exfalso
        unfold findKind at hf
        rw [Option.map_eq_none_iff, List.find?_eq_none] at hf
        exact hf p hp1 (by rw [hp2]; rfl)

theorem detachP_eq {L : LNet η ρ} {n : Net η ρ} (h : Shows L n) (g : Graph (Node η) (Edge ρ)) :
    detachP L.precursors g = detachPrecursors n.precursors g := by
  unfold detachP detachPrecursors
  rcases h.precursors with ⟨h1, h2⟩ | ⟨c, s, h1, h2, h3⟩
  · rw [h1, h2]
    rfl
  · rw [h1, h2]
    cases c with
    | set s' =>
      have h3 : s' = s := h3
      subst h3
      by_cases hs : s' = ∅
      · simp [truthy, hs]
      · simp only [truthy, hs, ne_eq, not_false_eq_true, decide_true, if_true, if_false]
        cases findKind .precursors g <;> rfl
    | list l =>
      obtain ⟨m, rfl, rfl⟩ := h3
      cases m with
      | nil => simp [truthy]
      | cons a m =>
        simp only [truthy, List.map_cons, List.isEmpty_cons, Bool.not_false, if_true, List.toFinset_cons, Finset.insert_ne_empty, if_false]
        cases findKind .precursors g <;> rfl

/-- `set_target` does to the object what it does to the network shown. -/
theorem setTarget_shows {L : LNet η ρ} {n : Net η ρ} (h : Shows L n) (minEntry : φ → Except Err η) (a : Arg η φ) :
    (∃ e, setTarget minEntry L a = .error e ∧ n.setTarget minEntry a = .error e) ∨
      ∃ L' n', setTarget minEntry L a = .ok L' ∧ n.setTarget minEntry a = .ok n' ∧ Shows L' n' := by
  unfold setTarget Net.setTarget
  rw [shows_usable h]
  cases hu : usable n with
  | none => exact Or.inl ⟨_, rfl, rfl⟩
  | some g =>
    simp only
    cases hr : resolve minEntry a with
    | error e => exact Or.inl ⟨_, rfl, rfl⟩
    | ok t =>
      simp only
      have h1 : (L.target = some (.obj t)) ↔ (some t = n.target) := by
        rw [h.target]
        cases n.target with
        | none => simp
        | some t' => simp [eq_comm]
      have h2 : detachT L.target g = detachTarget n.target g := by
        rw [h.target]
        cases n.target <;> rfl
      by_cases hc : some t = n.target
      · rw [if_pos (h1.mpr hc), if_pos hc]
        exact Or.inr ⟨L, n, rfl, rfl, h⟩
      · rw [if_neg (fun x => hc (h1.mp x)), if_neg hc]
        by_cases he : t ∉ n.entries
        · rw [if_pos (h.entries.symm ▸ he), if_pos he]
          exact Or.inl ⟨_, rfl, rfl⟩
        · rw [if_neg (h.entries.symm ▸ he), if_neg he, h2]
          cases hd : detachTarget n.target g with
          | error e => exact Or.inl ⟨_, rfl, rfl⟩
          | ok g' => exact Or.inr ⟨_, _, rfl, rfl, ⟨h.rxns, h.entries, rfl, rfl, h.precursors⟩⟩

/-! ### Loading -/

theorem viewE_of_same {ν ε : Type} {g g' : Graph ν ε} (hW : WF g) (hW' : WF g') (hs : SameUpToNumbering g g') : viewE g' = viewE g := by
  obtain ⟨f, hf, hn, he⟩ := hs
  have hd : ∀ i ∈ g.nodes.map (·.1), g'.nodeData (f i) = g.nodeData i := by
    intro i hi
    obtain ⟨p, hp, rfl⟩ := List.mem_map.mp hi
    rw [(nodeData_iff hW p.1 p.2).mpr hp, nodeData_iff hW', ← hn.mem_iff]
    exact List.mem_map.mpr ⟨p, hp, rfl⟩
  unfold viewE
  rw [Multiset.coe_eq_coe]
  refine ((he.map (viewEdge g')).symm).trans ?_
  rw [List.map_map]
  apply List.Perm.of_eq
  apply List.map_congr_left
  intro e hem
  simp only [Function.comp, viewEdge]
  rw [hd _ (hW.edges e hem).1, hd _ (hW.edges e hem).2]

/-- **C106 (first load).** After any history of a built network (`HistState`; none of the calls with an empty precursors set), loaded before or
not, the network can be saved, and the first load from the dictionary gives an object that shows a network with the same reactions, entries,
precursors and target and the same graph up to numbering. Missing: saving before `build`, further loads from the same dictionary, loading
from JSON (violations below). -/
theorem C106_load_partial (order : Finset η → List η) (ho : ∀ s, (order s).toFinset = s) (entriesOf : List ρ → Finset η)
    {R P : ρ → Finset η} {rxns : List ρ} {chs : List (Finset η)} {n : Net η ρ} {L : LNet η ρ} (hL : Shows L n)
    (h : HistState R P rxns chs n) (hE : entriesOf rxns = n.entries) :
    ∃ d L' n', asDict order L = .ok d ∧ (fromDict entriesOf d).1 = .ok L' ∧ Shows L' n' ∧ n'.rxns = n.rxns ∧ n'.entries = n.entries ∧
      n'.precursors = n.precursors ∧ n'.target = n.target ∧
      (∃ g g', n.g = some g ∧ n'.g = some g' ∧ SameUpToNumbering g g') ∧ HistState R P rxns chs n' := by
  obtain ⟨g, hg, hW, hN, hEd⟩ := h.graph
  obtain ⟨g', h1, h2, h3, _, h5⟩ := C50_roundtrip_partial g hW (hist_nodup h g hg)
  have hx : L.rxns = rxns := hL.rxns.trans h.rxns_eq
  have hv : viewE g' = viewE g := viewE_of_same hW h5 h2
  refine ⟨⟨L.rxns, some (savePrecursors order L.precursors), some L.target, some g.asDict⟩,
    ⟨L.rxns, entriesOf L.rxns, (savePrecursors order L.precursors).map .list, L.target, some g'⟩, { n with g := some g' },
    by unfold asDict; rw [hL.g, hg], by simp only [fromDict, loadGraph, h1, Option.getD_some], ?_, rfl, rfl, rfl, rfl, ⟨g, g', hg, rfl, h2⟩, ?_⟩
  · refine ⟨hL.rxns, by rw [hx, hE], hL.target, rfl, ?_⟩
    simp only
    rcases hL.precursors with ⟨a1, a2⟩ | ⟨c, s, a1, a2, a3⟩
    · exact Or.inl ⟨by rw [a1]; rfl, a2⟩
    · have hs : s ≠ ∅ := h.nonempty s (by
        have := h.last
        rw [a2] at this
        exact List.mem_of_getLast? this.symm)
      refine Or.inr ?_
      cases c with
      | set s' =>
        have a3 : s' = s := a3
        subst a3
        refine ⟨.list ((order s').map .obj), s', ?_, a2, order s', rfl, ho s'⟩
        rw [a1]
        simp only [savePrecursors, if_neg hs, Option.map_some]
      | list l =>
        refine ⟨.list l, s, ?_, a2, a3⟩
        obtain ⟨m, rfl, rfl⟩ := a3
        have hm : m.map Val.obj ≠ [] := by
          intro hc
          rw [List.map_eq_nil_iff] at hc
          subst hc
          exact hs rfl
        rw [a1]
        simp only [savePrecursors, if_neg hm, Option.map_some]
  · exact ⟨h.rxns_eq, h.last, h.nonempty, g', rfl, h5, h3.trans hN, hv.trans hEd⟩

/-! ### Histories with saving and loading -/

/-- A call, or saving the network and going on with the loaded one. -/
inductive SOp (η φ : Type)
  | call (o : Op η φ)
  | saveLoad

/-- One step; a step that raises leaves the object as it was. -/
def stepS (order : Finset η → List η) (entriesOf : List ρ → Finset η) (minEntry : φ → Except Err η) (L : LNet η ρ) : SOp η φ → LNet η ρ
  | .call (.setPrecursors args) => match setPrecursors minEntry L args with
    | .ok L' => L'
    | .error _ => L
  | .call (.setTarget a) => match setTarget minEntry L a with
    | .ok L' => L'
    | .error _ => L
  | .saveLoad => match asDict order L with
    | .error _ => L
    | .ok d => match (fromDict entriesOf d).1 with
      | .ok L' => L'
      | .error _ => L

/-- The calls among the steps. -/
def calls : List (SOp η φ) → List (Op η φ)
  | [] => []
  | .call o :: os => o :: calls os
  | .saveLoad :: os => calls os

/-- An object that has been saved and loaded compared with a network that has not. -/
def Rel (R P : ρ → Finset η) (rxns : List ρ) (E : Finset η) (L : LNet η ρ) (n0 : Net η ρ) : Prop :=
  ∃ n chs chs0, Shows L n ∧ HistState R P rxns chs n ∧ HistState R P rxns chs0 n0 ∧ n.precursors = n0.precursors ∧ n.target = n0.target ∧
    n.entries = E ∧ n0.entries = E ∧ (∀ s, s ∈ chs ↔ s ∈ chs0) ∧ ∀ s, n.precursors = some s → s ⊆ E

theorem usable_iff {R P : ρ → Finset η} {rxns : List ρ} {chs chs0 : List (Finset η)} {n n0 : Net η ρ} (h : HistState R P rxns chs n)
    (h0 : HistState R P rxns chs0 n0) (hp : n.precursors = n0.precursors) (ht : n.target = n0.target) :
    usable n = none ↔ usable n0 = none := by
  obtain ⟨g, hg, _, hN, _⟩ := h.graph
  obtain ⟨g0, hg0, _, hN0, _⟩ := h0.graph
  have hv : viewN g = viewN g0 := by rw [hN, hN0, hp, ht]
  have hz : ∀ g : Graph (Node η) (Edge ρ), g.nodes = [] ↔ viewN g = 0 := by
    intro g
    unfold viewN
    rw [Multiset.coe_eq_zero, List.map_eq_nil_iff]
  unfold usable
  rw [hg, hg0]
  simp only
  by_cases hc : g.nodes = []
  · rw [if_pos hc, if_pos ((hz g0).mpr (hv ▸ (hz g).mp hc))]
  · rw [if_neg hc, if_neg (fun x => hc ((hz g).mpr (hv ▸ (hz g0).mp x)))]
    simp

theorem usable_eq_some {n : Net η ρ} {g : Graph (Node η) (Edge ρ)} (hg : n.g = some g) (hu : usable n ≠ none) : usable n = some g := by
  unfold usable at hu ⊢
  rw [hg] at hu ⊢
  simp only at hu ⊢
  split at hu
  · exact absurd rfl hu
  · rename_i hc
    rw [if_neg hc]

theorem rel_setTarget {R P : ρ → Finset η} {rxns : List ρ} {E : Finset η} {L : LNet η ρ} {n0 : Net η ρ} (hR : Rel R P rxns E L n0)
    (order : Finset η → List η) (entriesOf : List ρ → Finset η) (minEntry : φ → Except Err η) (a : Arg η φ) :
    Rel R P rxns E (stepS order entriesOf minEntry L (.call (.setTarget a))) (runOp minEntry n0 (.setTarget a)) := by
  obtain ⟨n, chs, chs0, hL, h, h0, hp, ht, hE, hE0, hm, hsub⟩ := hR
  have same : Rel R P rxns E L n0 := ⟨n, chs, chs0, hL, h, h0, hp, ht, hE, hE0, hm, hsub⟩
  simp only [stepS, runOp]
  rcases setTarget_shows hL minEntry a with ⟨e, e1, e2⟩ | ⟨L', n', e1, e2, hs⟩
  · rw [e1]
    have : ∃ e', n0.setTarget minEntry a = .error e' := by
      rcases C49_rejected minEntry n a _ _ (hist_targetState h) e e2 with hu | hr | ⟨t, hr, hne, _⟩
      · unfold Net.setTarget
        rw [(usable_iff h h0 hp ht).mp hu]
        exact ⟨_, rfl⟩
      · unfold Net.setTarget
        rw [hr]
        cases usable n0 <;> exact ⟨_, rfl⟩
      · unfold Net.setTarget
        rw [hr]
        cases usable n0 with
        | none => exact ⟨_, rfl⟩
        | some g0 =>
          simp only
          rename_i hnt
          rw [if_neg (ht ▸ hnt), if_pos (by rw [hE0, ← hE]; exact hne)]
          exact ⟨_, rfl⟩
    obtain ⟨e', he'⟩ := this
    rw [he']
    exact same
  · rw [e1]
    cases e0 : n0.setTarget minEntry a with
    | error e' =>
      exfalso
      rcases C49_rejected minEntry n0 a _ _ (hist_targetState h0) e' e0 with hu | hr | ⟨t, hr, hne, hnt⟩
      · unfold Net.setTarget at e2
        rw [(usable_iff h h0 hp ht).mpr hu] at e2
        exact absurd e2 (by simp)
      · unfold Net.setTarget at e2
        rw [hr] at e2
        cases hu : usable n <;> rw [hu] at e2 <;> simp at e2
      · unfold Net.setTarget at e2
        rw [hr] at e2
        cases hu : usable n with
        | none => rw [hu] at e2; simp at e2
        | some g =>
          rw [hu] at e2
          simp only at e2
          rw [if_neg (ht ▸ hnt), if_pos (by rw [hE, ← hE0]; exact hne)] at e2
          simp at e2
    | ok n0' =>
      obtain ⟨_, ⟨t1, r1, ht1⟩, p1, _, en1⟩ := setTarget_state minEntry n n' a _ _ (hist_targetState h) e2
      obtain ⟨_, ⟨t2, r2, ht2⟩, p2, _, en2⟩ := setTarget_state minEntry n0 n0' a _ _ (hist_targetState h0) e0
      have htt : t1 = t2 := by rw [r1] at r2; simpa using r2
      subst htt
      refine ⟨n', chs, chs0, hs, hist_setTarget minEntry a h e2, hist_setTarget minEntry a h0 e0, by rw [p1, p2, hp], by rw [ht1, ht2],
        by rw [en1, hE], by rw [en2, hE0], hm, ?_⟩
      intro s hs'
      exact hsub s (p1 ▸ hs')

theorem rel_setPrecursors {R P : ρ → Finset η} {rxns : List ρ} {E : Finset η} {L : LNet η ρ} {n0 : Net η ρ} (hR : Rel R P rxns E L n0)
    (order : Finset η → List η) (entriesOf : List ρ → Finset η) (minEntry : φ → Except Err η) (args : List (Arg η φ)) (hne : args ≠ []) :
    Rel R P rxns E (stepS order entriesOf minEntry L (.call (.setPrecursors args))) (runOp minEntry n0 (.setPrecursors args)) := by
  obtain ⟨n, chs, chs0, hL, h, h0, hp, ht, hE, hE0, hm, hsub⟩ := hR
  have same : Rel R P rxns E L n0 := ⟨n, chs, chs0, hL, h, h0, hp, ht, hE, hE0, hm, hsub⟩
  simp only [stepS, runOp]
  unfold setPrecursors Net.setPrecursors
  rw [shows_usable hL]
  by_cases hu : usable n = none
  · rw [hu, (usable_iff h h0 hp ht).mp hu]
    exact same
  · obtain ⟨g, hg, _⟩ := h.graph
    obtain ⟨g0, hg0, _⟩ := h0.graph
    rw [usable_eq_some hg hu, usable_eq_some hg0 (fun x => hu ((usable_iff h h0 hp ht).mpr x))]
    simp only
    cases hr : args.mapM (resolve minEntry) with
    | error e => exact same
    | ok l =>
      simp only
      have hlne : l.toFinset ≠ ∅ := by
        intro hc
        rw [List.toFinset_eq_empty_iff] at hc
        subst hc
        have := Verif.Lemmas.Exc.mapM_length _ _ _ hr
        exact hne (List.length_eq_zero_iff.mp this.symm)
      obtain ⟨g', hd⟩ := detach_ok h g hg
      obtain ⟨g0', hd0⟩ := detach_ok h0 g0 hg0
      have hre := hist_reattach h l.toFinset hlne g hg g' hd
      have hre0 := hist_reattach h0 l.toFinset hlne g0 hg0 g0' hd0
      have hshow : Shows { L with g := some (attachPrecursors l.toFinset g'), precursors := some (.set l.toFinset) }
          { n with g := some (attachPrecursors l.toFinset g'), precursors := some l.toFinset } :=
        ⟨hL.rxns, hL.entries, hL.target, rfl, Or.inr ⟨_, _, rfl, rfl, rfl⟩⟩
      have hLE : L.entries = E := hL.entries.trans hE
      rw [detachP_eq hL, hd, hd0]
      simp only
      by_cases hcur : some l.toFinset = n0.precursors
      · rw [if_pos hcur]
        by_cases hl : L.precursors = some (.set l.toFinset)
        · rw [if_pos hl]
          exact same
        · rw [if_neg hl]
          have hs : l.toFinset ⊆ E := hsub _ (hp.trans hcur.symm)
          rw [if_neg (not_not.mpr (hLE ▸ hs))]
          refine ⟨_, _, chs0, hshow, hre, h0, hcur, ht, hE, hE0, ?_, ?_⟩
          · intro s
            rw [List.mem_append, List.mem_singleton, hm]
            constructor
            · rintro (hx | rfl)
              · exact hx
              · have := h0.last
                rw [← hcur] at this
                exact List.mem_of_getLast? this.symm
            · exact Or.inl
          · intro s hx
            rw [Option.some.injEq] at hx
            exact hx ▸ hs
      · rw [if_neg hcur]
        have hl : ¬ L.precursors = some (.set l.toFinset) := by
          intro hc
          rcases hL.precursors with ⟨h1, _⟩ | ⟨c, s, h1, h2, h3⟩
          · rw [h1] at hc; simp at hc
          · rw [h1, Option.some.injEq] at hc
            subst hc
            have h3 : l.toFinset = s := h3
            exact hcur (by rw [← hp, h2, h3])
        rw [if_neg hl]
        by_cases hs : l.toFinset ⊆ E
        · rw [if_neg (not_not.mpr (hLE ▸ hs)), if_neg (not_not.mpr (hE0 ▸ hs))]
          refine ⟨_, _, _, hshow, hre, hre0, rfl, ht, hE, hE0, ?_, ?_⟩
          · intro s
            rw [List.mem_append, List.mem_append, hm]
          · intro s hx
            rw [Option.some.injEq] at hx
            exact hx ▸ hs
        · rw [if_pos (hLE.symm ▸ hs), if_pos (hE0.symm ▸ hs)]
          exact same

theorem rel_saveLoad {R P : ρ → Finset η} {rxns : List ρ} {E : Finset η} {L : LNet η ρ} {n0 : Net η ρ} (hR : Rel R P rxns E L n0)
    (order : Finset η → List η) (ho : ∀ s, (order s).toFinset = s) (entriesOf : List ρ → Finset η) (hEnt : entriesOf rxns = E)
    (minEntry : φ → Except Err η) : Rel R P rxns E (stepS order entriesOf minEntry L .saveLoad) n0 := by
  obtain ⟨n, chs, chs0, hL, h, h0, hp, ht, hE, hE0, hm, hsub⟩ := hR
  obtain ⟨d, L', n', h1, h2, h3, _, h5, h6, h7, _, h9⟩ := C106_load_partial order ho entriesOf hL h (hEnt.trans hE.symm)
  simp only [stepS, h1, h2]
  exact ⟨n', chs, chs0, h3, h9, h0, h6.trans hp, h7.trans ht, h5.trans hE, hE0, hm, fun s hs => hsub s (h6 ▸ hs)⟩

theorem rel_run {R P : ρ → Finset η} {rxns : List ρ} {E : Finset η} (order : Finset η → List η) (ho : ∀ s, (order s).toFinset = s)
    (entriesOf : List ρ → Finset η) (hEnt : entriesOf rxns = E) (minEntry : φ → Except Err η) (ops : List (SOp η φ))
    (hne : NoEmpty (calls ops)) (L : LNet η ρ) (n0 : Net η ρ) (hR : Rel R P rxns E L n0) :
    Rel R P rxns E (ops.foldl (stepS order entriesOf minEntry) L) (runOps minEntry n0 (calls ops)) := by
  induction ops generalizing L n0 with
  | nil => exact hR
  | cons o ops ih =>
    cases o with
    | saveLoad => exact ih hne _ _ (rel_saveLoad hR order ho entriesOf hEnt minEntry)
    | call o =>
      have hne' : NoEmpty (calls ops) := fun args ha => hne args (List.mem_cons_of_mem _ ha)
      cases o with
      | setTarget a => exact ih hne' _ _ (rel_setTarget hR order entriesOf minEntry a)
      | setPrecursors args =>
        exact ih hne' _ _ (rel_setPrecursors hR order entriesOf minEntry args (hne args List.mem_cons_self))

theorem mem_sum_returnE (N : Multiset (Node η)) (chs : List (Finset η)) (e : VEdge η ρ) :
    e ∈ (chs.map fun s => (returnE s N : Multiset (VEdge η ρ))).sum ↔ ∃ s ∈ chs, e ∈ (returnE s N : Multiset (VEdge η ρ)) := by
  induction chs with
  | nil => simp
  | cons s chs ih => simp [ih]

/-- **C106 (at any time, any number of times).** Saving and loading at any points of any history of calls changes nothing that is observable but
the multiplicity of return edges: the object shows a network with the same reactions, precursors, target and entries as the one that was never saved, with
the same nodes and the same edges (up to multiplicity). -/
theorem C106_history_partial (order : Finset η → List η) (ho : ∀ s, (order s).toFinset = s) (entriesOf : List ρ → Finset η)
    (R P : ρ → Finset η) (rxns : List ρ) (minEntry : φ → Except Err η) (ops : List (SOp η φ)) (hne : NoEmpty (calls ops)) :
    ∃ n g g0, Shows (ops.foldl (stepS order entriesOf minEntry) (ofNet ((Net.new rxns (entriesOf rxns)).build R P))) n ∧
      n.rxns = rxns ∧
      n.precursors = (runOps minEntry ((Net.new rxns (entriesOf rxns)).build R P) (calls ops)).precursors ∧
      n.target = (runOps minEntry ((Net.new rxns (entriesOf rxns)).build R P) (calls ops)).target ∧
      n.entries = (runOps minEntry ((Net.new rxns (entriesOf rxns)).build R P) (calls ops)).entries ∧
      n.g = some g ∧ (runOps minEntry ((Net.new rxns (entriesOf rxns)).build R P) (calls ops)).g = some g0 ∧
      viewN g = viewN g0 ∧ ∀ e, e ∈ viewE g ↔ e ∈ viewE g0 := by
  have h0 := hist_build R P rxns (entriesOf rxns)
  have hR : Rel R P rxns (entriesOf rxns) (ofNet ((Net.new rxns (entriesOf rxns)).build R P)) ((Net.new rxns (entriesOf rxns)).build R P) :=
    ⟨_, [], [], shows_ofNet _, h0, h0, rfl, rfl, rfl, rfl, fun _ => Iff.rfl, fun s hs => by simp [Net.build, Net.new] at hs⟩
  obtain ⟨n, chs, chs0, hL, h, h0', hp, ht, hE, hE0, hm, _⟩ := rel_run order ho entriesOf rfl minEntry ops hne _ _ hR
  obtain ⟨g, hg, _, hN, hEd⟩ := h.graph
  obtain ⟨g0, hg0, _, hN0, hEd0⟩ := h0'.graph
  refine ⟨n, g, g0, hL, h.rxns_eq, hp, ht, by rw [hE, hE0], hg, hg0, by rw [hN, hN0, hp, ht], ?_⟩
  intro e
  rw [hEd, hEd0, hp, ht]
  simp only [Multiset.mem_add, mem_sum_returnE, hm]

/-! ### Searching in a loaded network -/

variable [DecidableEq ρ]

theorem phases_shows {L : LNet η ρ} {n : Net η ρ} (h : Shows L n) (s : Finset η) (hp : n.precursors = some s) : phases L.precursors = .ok s := by
  rcases h.precursors with ⟨_, h2⟩ | ⟨c, s', h1, h2, h3⟩
  · rw [hp] at h2; simp at h2
  · rw [hp, Option.some.injEq] at h2
    subst h2
    rw [h1]
    cases c with
    | set s' => exact congrArg _ h3
    | list l =>
      obtain ⟨m, rfl, rfl⟩ := h3
      have : (m.map Val.obj).mapM Val.entry = .ok m := by
        rw [Verif.Lemmas.Exc.mapM_map]
        have := Verif.Lemmas.Exc.mapM_eq_map (fun a : η => Val.entry (.obj a)) id m (fun a _ => rfl)
        rwa [List.map_id] at this
      simp only [phases, this]

theorem kShortest_shows {L : LNet η ρ} {n : Net η ρ} (h : Shows L n) (s : Finset η) (hp : n.precursors = some s) (t : η)
    (ht : n.target = some t) (d : Graph (Node η) (Edge ρ) → ℕ → ℕ → Option (List ℕ)) (c : ρ → ℚ) (k : ℕ) :
    kShortest d c L k = Verif.Model.Network.kShortest d c n k := by
  unfold kShortest Verif.Model.Network.kShortest
  rw [shows_usable h, phases_shows h s hp, h.target, hp, ht]
  rfl

/-- **C106 (use).** The loaded network can be searched like the network it shows: the same answer or the same error, for every list of targets. -/
theorem C106_find {L : LNet η ρ} {n : Net η ρ} (h : Shows L n) (minEntry : φ → Except Err η)
    (d : Graph (Node η) (Edge ρ) → ℕ → ℕ → Option (List ℕ)) (c : ρ → ℚ) (targets : List (Arg η φ)) (k : ℕ) :
    (∃ e, findPathways minEntry d c L targets k = .error e ∧ Verif.Model.Network.findPathways minEntry d c n targets k = .error e) ∨
      ∃ L' n' ps, findPathways minEntry d c L targets k = .ok (L', ps) ∧ Verif.Model.Network.findPathways minEntry d c n targets k = .ok (n', ps) ∧
        Shows L' n' := by
  unfold findPathways Verif.Model.Network.findPathways
  rcases h.precursors with ⟨h1, h2⟩ | ⟨co, s, h1, h2, h3⟩
  · rw [h1, h2]
    exact Or.inl ⟨_, rfl, rfl⟩
  · have htr : truthy L.precursors = decide (s ≠ ∅) := by
      rw [h1]
      cases co with
      | set s' => have h3 : s' = s := h3; subst h3; rfl
      | list l =>
        obtain ⟨m, rfl, rfl⟩ := h3
        cases m <;> simp [truthy]
    rw [htr, h2]
    by_cases hs : s = ∅
    · simp only [hs, ne_eq, not_true_eq_false, decide_false, if_true]
      exact Or.inl ⟨_, rfl, rfl⟩
    · simp only [hs, ne_eq, not_false_eq_true, decide_true, if_true, if_false]
      have gen : ∀ (ts : List (Arg η φ)) (L : LNet η ρ) (n : Net η ρ) (acc : List (List (Edge ρ × ℚ))), Shows L n → n.precursors = some s →
          (∃ e, ts.foldlM (findOne minEntry d c k) (L, acc) = .error e ∧ ts.foldlM (Verif.Model.Network.findOne minEntry d c k) (n, acc) = .error e) ∨
          ∃ L' n' ps, ts.foldlM (findOne minEntry d c k) (L, acc) = .ok (L', ps) ∧
            ts.foldlM (Verif.Model.Network.findOne minEntry d c k) (n, acc) = .ok (n', ps) ∧ Shows L' n' := by
        intro ts
        induction ts with
        | nil => intro L n acc hL _; exact Or.inr ⟨L, n, acc, rfl, rfl, hL⟩
        | cons a ts ih =>
          intro L n acc hL hp
          rw [List.foldlM_cons, List.foldlM_cons]
          rcases setTarget_shows hL minEntry a with ⟨e, e1, e2⟩ | ⟨L', n', e1, e2, hs'⟩
          · refine Or.inl ⟨e, ?_, ?_⟩
            · simp only [findOne, e1]; rfl
            · simp only [Verif.Model.Network.findOne, e2]; rfl
          · have hp' : n'.precursors = some s ∧ ∃ t, n'.target = some t := by
              unfold Net.setTarget at e2
              split at e2
              · simp at e2
              · split at e2
                · simp at e2
                · rename_i t _
                  split at e2
                  · rename_i hc
                    rw [Except.ok.injEq] at e2
                    subst e2
                    exact ⟨hp, t, hc.symm⟩
                  · split at e2
                    · simp at e2
                    · split at e2
                      · simp at e2
                      · rw [Except.ok.injEq] at e2
                        subst e2
                        exact ⟨hp, t, rfl⟩
            obtain ⟨hp', t, ht'⟩ := hp'
            have hk := kShortest_shows hs' s hp' t ht' d c k
            cases hkk : Verif.Model.Network.kShortest d c n' k with
            | error e =>
              refine Or.inl ⟨e, ?_, ?_⟩
              · simp only [findOne, e1, hk, hkk]; rfl
              · simp only [Verif.Model.Network.findOne, e2, hkk]; rfl
            | ok ps =>
              have f1 : findOne minEntry d c k (L, acc) a = .ok (L', acc ++ ps) := by simp only [findOne, e1, hk, hkk]
              have f2 : Verif.Model.Network.findOne minEntry d c k (n, acc) a = .ok (n', acc ++ ps) := by simp only [Verif.Model.Network.findOne, e2, hkk]
              rw [f1, f2]
              exact ih L' n' (acc ++ ps) hs' hp'
      exact gen targets L n [] h h2

/-! ### Violations -/

/-- **C106 (violated): before `build`.** A network that has not been built cannot be saved. -/
theorem C106_unbuilt_violated (order : Finset η → List η) (rxns : List ρ) (entries : Finset η) :
    asDict order (ofNet (Net.new rxns entries)) = .error .attributeError := rfl

/-- **C106 (violated): no precursors.** An empty set of precursors that was set is not restored: the loaded network has none. -/
theorem C106_empty_violated (order : Finset η → List η) (entriesOf : List ρ → Finset η) (n : Net η ρ) (hp : n.precursors = some ∅) (d : NetD η ρ)
    (hd : asDict order (ofNet n) = .ok d) (L : LNet η ρ) (hL : (fromDict entriesOf d).1 = .ok L) : L.precursors = none := by
  unfold asDict at hd
  split at hd
  · cases hd
  · cases hd
    unfold fromDict at hL
    simp only at hL
    split at hL
    · cases hL
    · cases hL
      simp [ofNet, hp, savePrecursors]

/-- **C106 (violated): second load.** Loading twice from the same dictionary gives, the second time, a network without graph, precursors and
target, whatever the network was. -/
theorem C106_second_load_violated (entriesOf : List ρ → Finset η) (d : NetD η ρ) :
    (fromDict entriesOf (fromDict entriesOf d).2).1 = .ok ⟨d.rxns, entriesOf d.rxns, none, none, none⟩ := rfl

/-- **C106 (violated): JSON.** A network with precursors that was saved, written to JSON and loaded can never be searched: every search for one or
more targets raises, until the precursors are set again. -/
theorem C106_json_violated (order : Finset η → List η) (ho : ∀ s, (order s).toFinset = s) (entriesOf : List ρ → Finset η) (n : Net η ρ)
    (s : Finset η) (hs : s ≠ ∅) (hp : n.precursors = some s) (d : NetD η ρ) (hd : asDict order (ofNet n) = .ok d) (L : LNet η ρ)
    (hL : (fromDict entriesOf (json d)).1 = .ok L) (minEntry : φ → Except Err η)
    (dij : Graph (Node η) (Edge ρ) → ℕ → ℕ → Option (List ℕ)) (c : ρ → ℚ) (a : Arg η φ) (targets : List (Arg η φ)) (k : ℕ) :
    ∃ e, findPathways minEntry dij c L (a :: targets) k = .error e := by
  have hpre : L.precursors = some (.list ((order s).map Val.plain)) := by
    unfold asDict at hd
    split at hd
    · simp at hd
    · rw [Except.ok.injEq] at hd
      subst hd
      unfold fromDict json at hL
      simp only at hL
      split at hL
      · simp at hL
      · rw [Except.ok.injEq] at hL
        subst hL
        simp [ofNet, hp, savePrecursors, hs, Val.encode]
  have hne : order s ≠ [] := by
    intro hc
    have := ho s
    rw [hc] at this
    exact hs this.symm
  unfold findPathways
  rw [hpre]
  have ht : truthy (some (Coll.list ((order s).map Val.plain))) = true := by simp [truthy, hne]
  rw [ht, if_pos rfl, List.foldlM_cons]
  have hf : ∃ e, findOne minEntry dij c k (L, []) a = .error e := by
    unfold findOne
    cases h1 : setTarget minEntry L a with
    | error e => exact ⟨e, rfl⟩
    | ok L' =>
      have hp' : L'.precursors = L.precursors := by
        unfold setTarget at h1
        split at h1
        · simp at h1
        · split at h1
          · simp at h1
          · split at h1
            · rw [Except.ok.injEq] at h1; rw [h1]
            · split at h1
              · simp at h1
              · split at h1
                · simp at h1
                · rw [Except.ok.injEq] at h1; subst h1; rfl
      have hk : ∃ e, kShortest dij c L' k = .error e := by
        unfold kShortest
        rw [hp', hpre]
        cases usableL L' with
        | none => exact ⟨_, rfl⟩
        | some g =>
          obtain ⟨x, xs, hx⟩ := List.exists_cons_of_ne_nil hne
          refine ⟨.attributeError, ?_⟩
          have : phases (some (Coll.list ((order s).map Val.plain))) = .error .attributeError := by
            rw [hx]
            simp only [phases, List.map_cons, List.mapM_cons, Val.entry]
            rfl
          simp only [this]
      obtain ⟨e, he⟩ := hk
      simp only [he]
      exact ⟨e, rfl⟩
  obtain ⟨e, he⟩ := hf
  rw [he]
  exact ⟨e, rfl⟩

/-- Edges between payloads of a loaded object, as a list. -/
def shownEdges (L : LNet ℕ ℕ) : List (VEdge ℕ ℕ) := match L.g with
  | none => []
  | some g => g.edges.map (viewEdge g)

/-- An object after a history; sets are listed in increasing order. -/
def after (ops : List (SOp ℕ ℕ)) : LNet ℕ ℕ :=
  ops.foldl (stepS (fun s => (List.range 4).filter (· ∈ s)) (fun _ => {0, 1, 2, 3}) noFormula) (ofNet stNet)

/-- **C106 (violated): setting the same precursors again** is without effect before saving, but after loading it adds the return edges once more. -/
theorem C106_reset_violated :
    (shownEdges (after [.call P1, .call P1])).count (some ⟨.products, {1}⟩, some ⟨.reactants, {1, 2}⟩, .loopback) = 1 ∧
    (shownEdges (after [.call P1, .saveLoad, .call P1])).count (some ⟨.products, {1}⟩, some ⟨.reactants, {1, 2}⟩, .loopback) = 2 := by
  decide +kernel

/-- A history with saves to which `C106_history_partial` applies: the object really is a loaded one, with a target and precursors. -/
example : (after [.call P1, .saveLoad, .call (.setTarget (.entry 3)), .saveLoad]).precursors = some (.list [.obj 0, .obj 2]) ∧
    (after [.call P1, .saveLoad, .call (.setTarget (.entry 3)), .saveLoad]).target = some (.obj 3) ∧
    NoEmpty (calls ([.call P1, .saveLoad, .call (.setTarget (.entry 3)), .saveLoad] : List (SOp ℕ ℕ))) := by
  refine ⟨by decide +kernel, by decide +kernel, ?_⟩
  intro args h
  simp only [calls, List.mem_cons, P1, Op.setPrecursors.injEq, reduceCtorEq, List.not_mem_nil, or_false] at h
  subst h
  simp

/-- A saved network to which `C106_json_violated` applies. -/
example : ((asDict (fun s => (List.range 4).filter (· ∈ s)) (ofNet (runOps noFormula stNet [P1]))).toOption.map fun d =>
    (json d).precursors) = some (some (some [.plain 0, .plain 2])) := by decide +kernel

/-- A built network whose precursors were set to nothing, to which `C106_empty_violated` applies. -/
example : (runOps noFormula stNet [.setPrecursors []]).precursors = some ∅ ∧
    ((asDict (fun s => (List.range 4).filter (· ∈ s)) (ofNet (runOps noFormula stNet [.setPrecursors []]))).toOption.map fun d => d.precursors) = some (some none) := by
  decide +kernel

example := C106_history_partial (fun s : Finset ℕ => s.toList) (fun s => by simp) (fun _ : List ℕ => {0, 1, 2, 3}) stR stP
  [0, 1] noFormula [.call P1, .saveLoad, .call (.setTarget (.entry 3)), .saveLoad] (by
    intro args h
    simp only [calls, List.mem_cons, P1, Op.setPrecursors.injEq, reduceCtorEq, List.not_mem_nil, or_false] at h
    subst h
    simp)

end Verif.Props.NetDict
