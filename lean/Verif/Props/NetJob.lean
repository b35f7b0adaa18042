import Verif.Model.NetJob
import Verif.Props.Intermediates
import Verif.Props.Pathfinding

/-! Property C110: the network job (src/rxn_network/jobs/core.py:519-567). -/

set_option linter.unusedSectionVars false

namespace Verif.Props.NetJob
open Verif.Py Verif.Model.RxnSet Verif.Model.NetJob Verif.Spec.RxnSet Verif.Lemmas.RxnSet Verif.Lemmas.Exc Verif.Props.RxnSet Verif.Props.RxnFilter
open Verif.Model.Network Verif.Spec.Network Verif.Spec.Paths Verif.Spec.Pathfinding Verif.Lemmas.Network Verif.Props.Network Verif.Props.Pathfinding
open Verif.Props.Intermediates

variable {η δ ε υ φ : Type} [DecidableEq η] [DecidableEq δ] [DecidableEq ε] [DecidableEq υ]

/-! ### Specification -/

/-- All reactions of all sets, at the requested potential. -/
def pool (o : Option ε) (mu : ℚ) (ls : List (List (SRxn η δ ε))) : List (SRxn η δ ε) := ls.flatten.map (priced o mu)

/-- Phases of some reaction. -/
def phasesOf (l : List (SRxn η δ ε)) : Finset η := (l.flatMap fun r => r.entries).toFinset

/-- The phases a formula list stands for. -/
def Resolves (min : φ → Except Err η) (E : Finset η) (fs : List φ) (ps : List η) : Prop := List.Forall₂ (fun f p => min f = .ok p ∧ p ∈ E) fs ps

/-- Well-behaved inputs: sets as made by the library, one id per phase, ordinary reactions whose coefficient ratios are told apart by the tolerance, a cluster
with workers, and (for a closed request) at least one closed reaction. -/
structure Inputs (c : Cfg η δ ε υ φ) (sets : List (RSet η δ ε)) (ls : List (List (SRxn η δ ε))) : Prop where
  sets : List.Forall₂ (fun s l => Built s ∧ getRxns s = .ok l) sets ls
  order : SetOrder c.order
  argsort : ArgSort c.argsort
  groupBy : GroupBy c.groupBy
  cpus : 2 ≤ c.cpus
  wait : Verif.Props.Utils.WaitSpec c.wait
  ids : ∀ r ∈ ls.flatten, ∀ r' ∈ ls.flatten, ∀ a ∈ r.entries, ∀ b ∈ r'.entries, c.uid a = c.uid b → a = b
  proper : ∀ r ∈ ls.flatten, Proper r
  separated : ∀ r ∈ ls.flatten, ∀ r' ∈ ls.flatten, Separated r r'
  potential : c.openElem = none → ls.flatten = [] ∨ ∃ r ∈ ls.flatten, r.chempots = []

/-! ### Lemmas -/

theorem detect_asked (o : Option ε) (mu : ℚ) (l : List (SRxn η δ ε)) (h : o = none → l = [] ∨ ∃ r ∈ l, r.chempots = []) : detectOpen l o mu = (o, mu) := by
  unfold detectOpen
  cases o with
  | some e => simp
  | none =>
    rcases h rfl with rfl | ⟨r, hr, hc⟩
    · simp
    · have : (l.all fun r => decide (r.chempots ≠ [])) = false := by
        rw [List.all_eq_false]
        exact ⟨r, hr, by simp [hc]⟩
      rw [this]
      simp

/-- `from_rxns` at a requested potential. -/
theorem fromRxns_asked (uid : η → υ) (order : List η → List η) (ho : SetOrder order) (o : Option ε) (mu : ℚ) (l : List (SRxn η δ ε))
    (h : o = none → l = [] ∨ ∃ r ∈ l, r.chempots = [])
    (hinj : ∀ r ∈ l, ∀ r' ∈ l, ∀ a ∈ r.entries, ∀ b ∈ r'.entries, uid a = uid b → a = b) :
    ∃ t, fromRxns uid order l none o mu = .ok t ∧ Built t ∧ (stored t).Perm (l.map (priced o mu)) ∧ t.entries.toFinset = phasesOf l := by
  obtain ⟨t, sizes, h1, h2, h3, h4, h5, h6, h7⟩ := fromRxns_ok uid order ho l none o mu (fun r hr e he => List.mem_flatMap.mpr ⟨r, hr, he⟩)
    (by
      intro a ha b hb
      obtain ⟨r, hr, ha⟩ := List.mem_flatMap.mp ha
      obtain ⟨r', hr', hb⟩ := List.mem_flatMap.mp hb
      exact hinj r hr r' hr' a ha b hb)
  rw [detect_asked o mu l h, Prod.mk.injEq] at h4
  refine ⟨t, h1, .fromRxns uid order l none o mu t ho h1, ?_, ?_⟩
  · rw [h7, muDict_eq t o mu h4.1 h4.2]
    have e : (sizes.flatMap fun n => (l.filter fun r => decide (r.entries.length = n)).map fun r => ({ r with chempots := (o.map fun e => (e, mu)).toList } : SRxn η δ ε))
        = (sizes.flatMap fun n => l.filter fun r => decide (r.entries.length = n)).map (priced o mu) := by
      rw [List.map_flatMap]
      rfl
    rw [e]
    apply List.Perm.map
    refine perm_flatMap_filter l (fun r => r.entries.length) sizes h5 ?_
    intro k
    rw [h6, List.mem_map]
  · rw [h3]
    ext e
    rw [List.mem_toFinset, (ho _).2 e]
    unfold phasesOf givenEntries
    rw [List.mem_toFinset]

/-- Removing duplicates from a set keeps one representative of each reaction, and all phases. -/
theorem filter_built (argsort : List ℚ → List ℕ) (ha : ArgSort argsort) (groupBy : List (List ℕ) → List (List ℕ)) (hg : GroupBy groupBy) (cpus : ℕ)
    (hc : 2 ≤ cpus) (wait : ℕ → List Task → List Task × List Task) (hw : Verif.Props.Utils.WaitSpec wait) (t : RSet η δ ε) (hb : Built t)
    (hproper : ∀ r ∈ stored t, Proper r) (hsep : ∀ r ∈ stored t, ∀ r' ∈ stored t, Separated r r') :
    ∃ s out, filterDuplicatesParallel argsort groupBy cpus wait t [] = .ok s ∧ getRxns s = .ok out ∧ Representatives (stored t) out ∧ s.entries = t.entries := by
  obtain ⟨s1, out1, g1, g2, _, g4⟩ := C25_filter_partial argsort ha groupBy hg t hb (stored t) (getRxns_ok t (built_wf t hb)) hproper hsep [] (by simp)
  obtain ⟨s2, o1, out2, k1, k2, k3, k4, _⟩ := (C26_parallel_partial argsort groupBy cpus hc wait hw t hb []).1 s1 g1
  rw [g2] at k2
  have := Except.ok.inj k2
  subst this
  refine ⟨s2, out2, k1, k3, ⟨k4.subperm.trans g4.sub, ?_, ?_⟩, ?_⟩
  · intro r hr
    obtain ⟨r', hr', hm, hs⟩ := g4.cover r hr
    refine ⟨r', k4.mem_iff.mpr hr', hm, ?_⟩
    rcases hs with ⟨e, he, _⟩ | hs
    · simp at he
    · exact hs
  · refine (k4.symm.pairwise_iff fun {a b} hab hba => hab (multiple_symm _ _ hba)).mp ?_
    refine g4.uniq.imp ?_
    intro a b hab hmul
    obtain ⟨⟨e, he, _⟩, _⟩ := hab hmul
    simp at he
  · unfold filterDuplicatesParallel at k1
    rw [bind_ok] at k1
    obtain ⟨_, _, k1⟩ := k1
    rw [bind_ok] at k1
    obtain ⟨idxs, _, k1⟩ := k1
    unfold setByIndices at k1
    simp only [bind_ok] at k1
    obtain ⟨_, _, _, _, _, _, k1⟩ := k1
    cases k1
    rfl

theorem mem_reactantsOf (r : SRxn η δ ε) (e : η) : e ∈ reactantsOf r ↔ consumes r e := by
  unfold reactantsOf consumes
  rw [List.mem_toFinset, List.mem_map]
  constructor
  · rintro ⟨p, hp, rfl⟩
    rw [List.mem_filter, decide_eq_true_eq] at hp
    exact ⟨p.2, hp.1, hp.2⟩
  · rintro ⟨c, hc, hn⟩
    exact ⟨(e, c), by rw [List.mem_filter, decide_eq_true_eq]; exact ⟨hc, hn⟩, rfl⟩

theorem mem_productsOf (r : SRxn η δ ε) (e : η) : e ∈ productsOf r ↔ produces r e := by
  unfold productsOf produces
  rw [List.mem_toFinset, List.mem_map]
  constructor
  · rintro ⟨p, hp, rfl⟩
    rw [List.mem_filter, decide_eq_true_eq] at hp
    exact ⟨p.2, hp.1, hp.2⟩
  · rintro ⟨c, hc, hn⟩
    exact ⟨(e, c), by rw [List.mem_filter, decide_eq_true_eq]; exact ⟨hc, hn⟩, rfl⟩

theorem multiple_consumes (a b : SRxn η δ ε) (h : Multiple (terms a) (terms b)) (e : η) : consumes a e ↔ consumes b e := by
  have one : ∀ a b : SRxn η δ ε, Multiple (terms a) (terms b) → consumes a e → consumes b e := by
    rintro a b ⟨s, hs, hp⟩ ⟨c, hc, hn⟩
    exact ⟨c * s, hp.mem_iff.mpr (List.mem_map.mpr ⟨(e, c), hc, rfl⟩), mul_neg_of_neg_of_pos hn hs⟩
  exact ⟨one a b h, one b a (multiple_symm _ _ h)⟩

theorem multiple_produces (a b : SRxn η δ ε) (h : Multiple (terms a) (terms b)) (e : η) : produces a e ↔ produces b e := by
  have one : ∀ a b : SRxn η δ ε, Multiple (terms a) (terms b) → produces a e → produces b e := by
    rintro a b ⟨s, hs, hp⟩ ⟨c, hc, hn⟩
    exact ⟨c * s, hp.mem_iff.mpr (List.mem_map.mpr ⟨(e, c), hc, rfl⟩), mul_pos hn hs⟩
  exact ⟨one a b h, one b a (multiple_symm _ _ h)⟩

/-- Replacing reactions by others with the same reactants and products does not change what can be carried out. -/
theorem runs_replace {ρ : Type} (R P : ρ → Finset η) (ps : Finset η) (t : η) (f : ρ → ρ) (rs : List ρ) (hf : ∀ r ∈ rs, R (f r) = R r ∧ P (f r) = P r)
    (a : Finset η) (h : Runs R P ps t a rs) : Runs R P ps t a (rs.map f) := by
  induction rs generalizing a with
  | nil => exact h
  | cons r rs ih =>
    obtain ⟨h1, h2⟩ := hf r List.mem_cons_self
    refine ⟨by rw [h1]; exact h.1, ?_⟩
    rw [h2]
    exact ih (fun x hx => hf x (List.mem_cons_of_mem _ hx)) _ h.2

/-- Searching among representatives is as good as searching among all reactions. -/
theorem answer_all (R P : SRxn η δ ε → Finset η) (hR : ∀ r e, e ∈ R r ↔ consumes r e) (hP : ∀ r e, e ∈ P r ↔ produces r e) (all out : List (SRxn η δ ε))
    (hrep : Representatives all out) (c : SRxn η δ ε → ℚ) (ps : Finset η) (k : ℕ) (t : η) (Ls : List (List (SRxn η δ ε)))
    (h : Answer R P out c ps k t Ls) : Answer R P all c ps k t Ls := by
  have hsub : ∀ r ∈ out, r ∈ all := fun r hr => hrep.sub.subset hr
  have hex : ∀ r, ∃ r', r ∈ all → r' ∈ out ∧ R r' = R r ∧ P r' = P r := by
    intro r
    by_cases hr : r ∈ all
    · obtain ⟨r', h1, h2, _⟩ := hrep.cover r hr
      refine ⟨r', fun _ => ⟨h1, ?_, ?_⟩⟩
      · ext e; rw [hR, hR, multiple_consumes r' r h2]
      · ext e; rw [hP, hP, multiple_produces r' r h2]
    · exact ⟨r, fun x => absurd x hr⟩
  choose f hf using hex
  have hmap : ∀ rs : List (SRxn η δ ε), (∀ r ∈ rs, r ∈ all) → Pathway R P ps t rs → (∀ r ∈ rs.map f, r ∈ out) ∧ Pathway R P ps t (rs.map f) := by
    intro rs hrs hp
    constructor
    · intro r hr
      obtain ⟨x, hx, rfl⟩ := List.mem_map.mp hr
      exact (hf x (hrs x hx)).1
    · exact runs_replace R P ps t f rs (fun x hx => (hf x (hrs x hx)).2) _ hp
  refine ⟨h.count, fun rs hrs => ⟨fun r hr => hsub r ((h.sound rs hrs).1 r hr), (h.sound rs hrs).2⟩, ?_, ?_⟩
  · rw [h.none]
    constructor
    · intro hn rs hrs hp
      exact hn _ (hmap rs hrs hp).1 (hmap rs hrs hp).2
    · intro hn rs hrs
      exact hn rs fun r hr => hsub r (hrs r hr)
  · intro hsame rs hhead rs' hrs' hp
    have h1 := h.first (fun r hr r' hr' => hsame r (hsub r hr) r' (hsub r' hr')) rs hhead _ (hmap rs' hrs' hp).1 (hmap rs' hrs' hp).2
    have h2 : (rs'.map f).map c = rs'.map c := by
      rw [List.map_map]
      apply List.map_congr_left
      intro x hx
      obtain ⟨a1, a2, a3⟩ := hf x (hrs' x hx)
      exact hsame _ (hsub _ a1) _ (hrs' x hx) a2 a3
    rw [h2] at h1
    exact h1

theorem sets_mapM (sets : List (RSet η δ ε)) (ls : List (List (SRxn η δ ε))) (h : List.Forall₂ (fun s l => Built s ∧ getRxns s = .ok l) sets ls) :
    sets.mapM getRxns = .ok ls := by
  induction h with
  | nil => rfl
  | @cons s l ss ls h1 _ ih =>
    rw [mapM_cons, h1.2, ih]

theorem proper_priced (o : Option ε) (mu : ℚ) (r : SRxn η δ ε) (h : Proper r) : Proper (priced o mu r) := ⟨h.ne, h.nodup, h.len, h.nz⟩

theorem combined_ok (c : Cfg η δ ε υ φ) (sets : List (RSet η δ ε)) (ls : List (List (SRxn η δ ε))) (hi : Inputs c sets ls) :
    ∃ s out, combined c sets = .ok s ∧ getRxns s = .ok out ∧ Representatives (pool c.openElem c.chempot ls) out ∧ s.entries.toFinset = phasesOf ls.flatten := by
  obtain ⟨t, h1, hb, hperm, hent⟩ := fromRxns_asked c.uid c.order hi.order c.openElem c.chempot ls.flatten hi.potential hi.ids
  have hmem : ∀ r, r ∈ stored t → ∃ r0 ∈ ls.flatten, priced c.openElem c.chempot r0 = r := fun r hr => List.mem_map.mp (hperm.mem_iff.mp hr)
  obtain ⟨s, out, k1, k2, k3, k4⟩ := filter_built c.argsort hi.argsort c.groupBy hi.groupBy c.cpus hi.cpus c.wait hi.wait t hb
    (by
      intro r hr
      obtain ⟨r0, hr0, rfl⟩ := hmem r hr
      exact proper_priced _ _ _ (hi.proper r0 hr0))
    (by
      intro r hr r' hr'
      obtain ⟨r0, hr0, rfl⟩ := hmem r hr
      obtain ⟨r1, hr1, rfl⟩ := hmem r' hr'
      exact hi.separated r0 hr0 r1 hr1)
  refine ⟨s, out, ?_, k2, representatives_perm _ _ _ hperm k3, by rw [k4]; exact hent⟩
  unfold combined
  simp only [bind, Except.bind]
  rw [sets_mapM sets ls hi.sets]
  simp only
  rw [h1]
  exact k1

theorem usable_of_rxns {ρ : Type} {R P : ρ → Finset η} {rxns : List ρ} {chs : List (Finset η)} {n : Net η ρ} (h : HistState R P rxns chs n) (hne : rxns ≠ []) :
    ∃ g, n.g = some g ∧ usable n = some g := by
  obtain ⟨g, hg, _, hN, _⟩ := h.graph
  refine ⟨g, hg, ?_⟩
  unfold usable
  rw [hg]
  simp only
  rw [if_neg]
  intro hnil
  obtain ⟨r, hr⟩ := List.exists_mem_of_ne_nil _ hne
  have hm : (⟨.reactants, R r⟩ : Node η) ∈ viewN g := by
    rw [hN, Multiset.mem_add, Multiset.mem_add]
    exact Or.inl (Or.inl ((mem_builtN R P rxns _).mpr ⟨r, hr, Or.inl rfl⟩))
  unfold viewN at hm
  rw [hnil] at hm
  simp at hm

/-- A target in the network is accepted. -/
theorem accepts_target {ρ : Type} {R P : ρ → Finset η} {rxns : List ρ} {chs : List (Finset η)} {n : Net η ρ} (h : HistState R P rxns chs n) (hne : rxns ≠ [])
    (min : φ → Except Err η) (f : φ) (t : η) (hf : min f = .ok t) (ht : t ∈ n.entries) :
    ∃ n', n.setTarget min (.formula f) = .ok n' ∧ HistState R P rxns chs n' ∧ n'.target = some t ∧ n'.precursors = n.precursors ∧ n'.entries = n.entries := by
  cases hr : n.setTarget min (.formula f) with
  | ok n' =>
    obtain ⟨_, ⟨t', ht', h1⟩, h2, _, h3⟩ := setTarget_state min n n' _ _ _ (hist_targetState h) hr
    rw [show resolve min (.formula f) = min f from rfl, hf] at ht'
    cases ht'
    exact ⟨n', rfl, hist_setTarget min _ h hr, h1, h2, h3⟩
  | error e =>
    exfalso
    obtain ⟨g, _, hu⟩ := usable_of_rxns h hne
    rcases C49_rejected min n _ _ _ (hist_targetState h) e hr with h1 | h1 | ⟨t', h1, h2, _⟩
    · rw [hu] at h1; simp at h1
    · rw [show resolve min (.formula f) = min f from rfl, hf] at h1; simp at h1
    · rw [show resolve min (.formula f) = min f from rfl, hf] at h1
      cases h1
      exact h2 ht

theorem resolves_mapM (min : φ → Except Err η) (E : Finset η) (fs : List φ) (ps : List η) (h : Resolves min E fs ps) :
    (fs.map (Arg.formula (η := η))).mapM (resolve min) = .ok ps ∧ ps.toFinset ⊆ E := by
  induction h with
  | nil => exact ⟨rfl, by simp⟩
  | @cons f p fs ps h1 _ ih =>
    constructor
    · rw [List.map_cons, mapM_cons, ih.1, show resolve min (.formula f) = min f from rfl, h1.1]
    · rw [List.toFinset_cons]
      exact Finset.insert_subset h1.2 ih.2

/-- The first precursors in the network are accepted. -/
theorem accepts_precursors {ρ : Type} {R P : ρ → Finset η} {rxns : List ρ} (E : Finset η) (hne : rxns ≠ []) (min : φ → Except Err η) (f : φ) (fs : List φ)
    (ps : List η) (h : Resolves min E (f :: fs) ps) :
    ∃ n', ((Net.new rxns E).build R P).setPrecursors min ((f :: fs).map .formula) = .ok n' ∧ HistState R P rxns [ps.toFinset] n' ∧
      n'.precursors = some ps.toFinset ∧ n'.entries = E ∧ n'.target = none := by
  have h0 := hist_build R P rxns E
  obtain ⟨g, _, hu⟩ := usable_of_rxns h0 hne
  obtain ⟨h1, h2⟩ := resolves_mapM min E _ _ h
  have hp : ((Net.new rxns E).build R P).precursors = none := rfl
  have hex : ∃ n', ((Net.new rxns E).build R P).setPrecursors min ((f :: fs).map .formula) = .ok n' := by
    unfold Net.setPrecursors
    simp only [hu, h1, hp]
    rw [if_neg (by simp), if_neg (not_not.mpr (show ps.toFinset ⊆ ((Net.new rxns E).build R P).entries from h2))]
    exact ⟨_, rfl⟩
  obtain ⟨n', hn'⟩ := hex
  obtain ⟨l, a1, a2, a3, a4, a5⟩ := hist_setPrecursors min _ (by simp) h0 hn'
  rw [h1] at a1
  cases a1
  refine ⟨n', hn', ?_, a2, a4, a3⟩
  rcases a5 with ⟨b1, _⟩ | ⟨_, _, b3⟩
  · rw [hp] at b1; simp at b1
  · simpa using b3

/-- What the job does once the sets are combined. -/
theorem setup (c : Cfg η δ ε υ φ) (sets : List (RSet η δ ε)) (ls : List (List (SRxn η δ ε))) (hi : Inputs c sets ls) :
    ∃ out, Representatives (pool c.openElem c.chempot ls) out ∧
      make c sets = ((withPrecursors c ((Net.new out (phasesOf ls.flatten)).build reactantsOf productsOf)) >>= fun n => withTarget c n >>= withPaths c) ∧
      ∀ f fs ps, c.precursors = some (f :: fs) → Resolves (c.minEntry (phasesOf ls.flatten)) (phasesOf ls.flatten) (f :: fs) ps → out ≠ [] ∧
        ∃ n1, withPrecursors c ((Net.new out (phasesOf ls.flatten)).build reactantsOf productsOf) = .ok n1 ∧
          HistState reactantsOf productsOf out [ps.toFinset] n1 ∧ n1.precursors = some ps.toFinset ∧ n1.entries = phasesOf ls.flatten ∧ n1.target = none ∧
          ∀ g gs ts t, c.targets = some (g :: gs) → Resolves (c.minEntry (phasesOf ls.flatten)) (phasesOf ls.flatten) (g :: gs) (t :: ts) →
            ∃ n2, withTarget c n1 = .ok n2 ∧ HistState reactantsOf productsOf out [ps.toFinset] n2 ∧ n2.precursors = some ps.toFinset ∧
              n2.entries = phasesOf ls.flatten ∧ n2.target = some t := by
  obtain ⟨s, out, h1, h2, h3, h4⟩ := combined_ok c sets ls hi
  have hnet : network s = .ok ((Net.new out (phasesOf ls.flatten)).build reactantsOf productsOf) := by
    unfold network
    rw [h2, h4]
    rfl
  refine ⟨out, h3, ?_, ?_⟩
  · unfold make
    simp only [bind, Except.bind]
    rw [h1]
    simp only
    rw [hnet]
  · intro f fs ps hp hres
    have hne : out ≠ [] := by
      rintro rfl
      cases hres with
      | cons a _ =>
        have := a.2
        unfold phasesOf at this
        rw [List.mem_toFinset, List.mem_flatMap] at this
        obtain ⟨r, hr, _⟩ := this
        obtain ⟨r', hr', _⟩ := h3.cover (priced c.openElem c.chempot r) (List.mem_map_of_mem hr)
        simp at hr'
    obtain ⟨n1, k1, k2, k3, k4, k5⟩ := accepts_precursors (R := reactantsOf) (P := productsOf) (phasesOf ls.flatten) hne _ f fs ps hres
    refine ⟨hne, n1, ?_, k2, k3, k4, k5, ?_⟩
    · unfold withPrecursors
      rw [hp]
      exact k1
    · intro g gs ts t ht hrt
      cases hrt with
      | cons a _ =>
        obtain ⟨n2, m1, m2, m3, m4, m5⟩ := accepts_target k2 hne (c.minEntry (phasesOf ls.flatten)) g t a.1 (k4 ▸ a.2)
        refine ⟨n2, ?_, m2, m4.trans k3, m5.trans k4, m3⟩
        unfold withTarget
        rw [ht, k4]
        exact m1

/-! ### C110 -/

/-- The network job combines all reactions of all sets at the requested potential and removes multiples only; the network is built on these reactions and
knows all their phases; precursors and the first target are set; nothing is searched without targets or without a number of pathways. Missing for the full
statement: a closed request when all reactions given are open (`C110_closed_violated`), and the cases in which duplicate filtering itself fails (C25, C26). -/
theorem C110_network_partial (c : Cfg η δ ε υ φ) (sets : List (RSet η δ ε)) (ls : List (List (SRxn η δ ε))) (hi : Inputs c sets ls)
    (R P : SRxn η δ ε → Finset η) (hR : ∀ r e, e ∈ R r ↔ consumes r e) (hP : ∀ r e, e ∈ P r ↔ produces r e) :
    ∃ out, Representatives (pool c.openElem c.chempot ls) out ∧
      (c.precursors.getD [] = [] → c.targets.getD [] = [] →
        ∃ n, make c sets = .ok (n, none) ∧ HistState R P out [] n ∧ n.entries = phasesOf ls.flatten ∧ n.target = none) ∧
      ∀ f fs ps, c.precursors = some (f :: fs) → Resolves (c.minEntry (phasesOf ls.flatten)) (phasesOf ls.flatten) (f :: fs) ps →
        (c.targets.getD [] = [] → ∃ n, make c sets = .ok (n, none) ∧ HistState R P out [ps.toFinset] n ∧ n.entries = phasesOf ls.flatten ∧ n.target = none) ∧
        ∀ g gs ts t, c.targets = some (g :: gs) → Resolves (c.minEntry (phasesOf ls.flatten)) (phasesOf ls.flatten) (g :: gs) (t :: ts) →
          c.paths.getD 0 = 0 → ∃ n, make c sets = .ok (n, none) ∧ HistState R P out [ps.toFinset] n ∧ n.entries = phasesOf ls.flatten ∧ n.target = some t := by
  have eR : R = reactantsOf := by funext r; ext e; rw [hR, mem_reactantsOf]
  have eP : P = productsOf := by funext r; ext e; rw [hP, mem_productsOf]
  subst eR eP
  obtain ⟨out, h3, hmake, hrest⟩ := setup c sets ls hi
  have noT : c.targets.getD [] = [] → ∀ n, (withTarget c n >>= withPaths c) = .ok (n, none) := by
    intro ht n
    unfold withTarget withPaths
    rcases hc : c.targets with _ | _ | ⟨a, l⟩
    · rcases c.paths with _ | _ | k <;> rfl
    · rcases c.paths with _ | _ | k <;> rfl
    · rw [hc] at ht; simp at ht
  refine ⟨out, h3, ?_, ?_⟩
  · intro hp ht
    refine ⟨_, ?_, hist_build _ _ _ _, rfl, rfl⟩
    have : withPrecursors c ((Net.new out (phasesOf ls.flatten)).build reactantsOf productsOf) = .ok ((Net.new out (phasesOf ls.flatten)).build reactantsOf productsOf) := by
      unfold withPrecursors
      rcases hc : c.precursors with _ | _ | ⟨a, l⟩
      · rfl
      · rfl
      · rw [hc] at hp; simp at hp
    rw [hmake, this]
    exact noT ht _
  · intro f fs ps hp hres
    obtain ⟨_, n1, k1, k2, _, k4, k5, k6⟩ := hrest f fs ps hp hres
    constructor
    · intro ht
      refine ⟨n1, ?_, k2, k4, k5⟩
      rw [hmake, k1]
      exact noT ht _
    · intro g gs ts t ht hrt hk
      obtain ⟨n2, m1, m2, _, m4, m5⟩ := k6 g gs ts t ht hrt
      refine ⟨n2, ?_, m2, m4, m5⟩
      rw [hmake, k1]
      simp only [bind, Except.bind]
      rw [m1]
      simp only
      unfold withPaths
      rcases hc : c.paths with _ | _ | k
      · rfl
      · rfl
      · rw [hc] at hk; simp at hk

/-- With precursors, targets and a number of pathways, the job returns for every target pathways made of the reactions given (all of them, at the requested
potential): at most as many as asked for, each executable from the precursors, none only if there is none, and the first no dearer than any other. Missing for
the full statement: as above. -/
theorem C110_pathways_partial (c : Cfg η δ ε υ φ) (sets : List (RSet η δ ε)) (ls : List (List (SRxn η δ ε))) (hi : Inputs c sets ls)
    (R P : SRxn η δ ε → Finset η) (hR : ∀ r e, e ∈ R r ↔ consumes r e) (hP : ∀ r e, e ∈ P r ↔ produces r e)
    (hd : Dijkstra (weightOf c.cost) c.shortest) (hc : ∀ r ∈ pool c.openElem c.chempot ls, 0 ≤ c.cost r)
    (fs gs : List φ) (ps ts : List η) (k : ℕ) (hfs : fs ≠ []) (hgs : gs ≠ []) (hk : k ≠ 0)
    (hp : c.precursors = some fs) (ht : c.targets = some gs) (hpaths : c.paths = some k)
    (hrp : Resolves (c.minEntry (phasesOf ls.flatten)) (phasesOf ls.flatten) fs ps)
    (hrt : Resolves (c.minEntry (phasesOf ls.flatten)) (phasesOf ls.flatten) gs ts) :
    ∃ n Lss, make c sets = .ok (n, some (Lss.flatten.map (asPath c.cost))) ∧
      List.Forall₂ (fun t Ls => Answer R P (pool c.openElem c.chempot ls) c.cost ps.toFinset k t Ls) ts Lss := by
  have eR : R = reactantsOf := by funext r; ext e; rw [hR, mem_reactantsOf]
  have eP : P = productsOf := by funext r; ext e; rw [hP, mem_productsOf]
  obtain ⟨f, fs, rfl⟩ := List.exists_cons_of_ne_nil hfs
  obtain ⟨g, gs, rfl⟩ := List.exists_cons_of_ne_nil hgs
  obtain ⟨k, rfl⟩ := Nat.exists_eq_succ_of_ne_zero hk
  obtain ⟨out, hrep, hmake, hrest⟩ := setup c sets ls hi
  obtain ⟨_, n1, k1, _, _, _, _, k6⟩ := hrest f fs ps hp hrp
  obtain ⟨t, ts, rfl⟩ : ∃ t ts', ts = t :: ts' := by
    cases hrt with
    | cons _ _ => exact ⟨_, _, rfl⟩
  obtain ⟨n2, m1, m2, m3, m4, _⟩ := k6 g gs ts t ht hrt
  obtain ⟨n3, Lss, hf, hfa⟩ := findTargets (R := reactantsOf) (P := productsOf) (c.minEntry (phasesOf ls.flatten)) c.cost
    (fun r hr => hc r (hrep.sub.subset hr)) ps.toFinset hd (k + 1) ((g :: gs).map .formula) n2 [] m2 m3 (by
      intro a ha
      obtain ⟨f', hf', rfl⟩ := List.mem_map.mp ha
      have h := List.forall₂_iff_get.mp hrt
      obtain ⟨i, hi, rfl⟩ := List.mem_iff_getElem.mp hf'
      have := h.2 i hi (h.1 ▸ hi)
      exact ⟨_, this.1, by rw [m4]; exact this.2⟩)
  refine ⟨n3, Lss, ?_, ?_⟩
  · rw [hmake, k1]
    simp only [bind, Except.bind]
    rw [m1]
    simp only
    unfold withPaths
    rw [hpaths, ht]
    simp only
    have hfp : findPathways (c.minEntry n2.entries) c.shortest c.cost n2 ((g :: gs).map .formula) (k + 1) = .ok (n3, Lss.flatten.map (asPath c.cost)) := by
      unfold findPathways
      rw [m3]
      simp only
      rw [if_neg (m2.nonempty _ (by simp)), m4]
      simpa using hf
    rw [hfp]
  · subst eR eP
    have := List.forall₂_map_left_iff.mp hfa
    clear hfa hf
    generalize (g :: gs) = gl at this hrt
    generalize (t :: ts) = tl at hrt
    induction hrt generalizing Lss with
    | nil => cases this; exact .nil
    | @cons a b l l' hab _ ih =>
      cases this with
      | @cons _ L _ Lss h1 h2 =>
        refine .cons ?_ (ih Lss h2)
        obtain ⟨t', ht', hans⟩ := h1
        rw [show resolve (c.minEntry (phasesOf ls.flatten)) (.formula a) = c.minEntry (phasesOf ls.flatten) a from rfl, hab.1] at ht'
        cases ht'
        exact answer_all _ _ hR hP _ out hrep _ _ _ _ _ hans

/-- Searching for pathways without precursors fails, whatever the sets are. -/
theorem C110_no_precursors (c : Cfg η δ ε υ φ) (sets : List (RSet η δ ε)) (hp : c.precursors.getD [] = []) (ht : c.targets.getD [] ≠ [])
    (hk : c.paths.getD 0 ≠ 0) : ∃ e, make c sets = .error e := by
  cases hm : make c sets with
  | error e => exact ⟨e, rfl⟩
  | ok x =>
    exfalso
    unfold make at hm
    simp only [bind_ok] at hm
    obtain ⟨s, _, n, hn, n1, hn1, n2, hn2, hm⟩ := hm
    unfold network at hn
    cases hg : getRxns s with
    | error e => rw [hg] at hn; simp [Except.map] at hn
    | ok out =>
      rw [hg] at hn
      simp only [Except.map, Except.ok.injEq] at hn
      subst hn
      have e1 : n1 = (Net.new out s.entries.toFinset).build reactantsOf productsOf := by
        unfold withPrecursors at hn1
        rcases hc : c.precursors with _ | _ | ⟨a, l⟩
        · rw [hc] at hn1; exact (Except.ok.inj hn1).symm
        · rw [hc] at hn1; exact (Except.ok.inj hn1).symm
        · rw [hc] at hp; simp at hp
      have h0 := hist_build (reactantsOf (η := η) (δ := δ) (ε := ε)) productsOf out s.entries.toFinset
      have e2 : n2.precursors = none := by
        unfold withTarget at hn2
        rcases hc : c.targets with _ | _ | ⟨a, l⟩
        · rw [hc] at ht; simp at ht
        · rw [hc] at ht; simp at ht
        · rw [hc, e1] at hn2
          obtain ⟨_, _, h2, _⟩ := setTarget_state _ _ _ _ _ _ (hist_targetState h0) hn2
          exact h2
      unfold withPaths at hm
      rcases hc : c.targets with _ | _ | ⟨a, l⟩
      · rw [hc] at ht; simp at ht
      · rw [hc] at ht; simp at ht
      · rcases hq : c.paths with _ | _ | k
        · rw [hq] at hk; simp at hk
        · rw [hq] at hk; simp at hk
        · rw [hc, hq] at hm
          simp only [findPathways, e2] at hm
          simp at hm

/-- A precursor that is in no reaction makes the job fail. -/
theorem C110_unknown_precursor (c : Cfg η δ ε υ φ) (sets : List (RSet η δ ε)) (ls : List (List (SRxn η δ ε))) (hi : Inputs c sets ls) (fs : List φ)
    (f : φ) (hf : f ∈ fs) (hp : c.precursors = some fs) (hno : ∀ e, c.minEntry (phasesOf ls.flatten) f = .ok e → e ∉ phasesOf ls.flatten) :
    ∃ e, make c sets = .error e := by
  obtain ⟨f0, fs, rfl⟩ := List.exists_cons_of_ne_nil (List.ne_nil_of_mem hf)
  obtain ⟨out, _, hmake, _⟩ := setup c sets ls hi
  have h0 := hist_build (reactantsOf (η := η) (δ := δ) (ε := ε)) productsOf out (phasesOf ls.flatten)
  cases hw : withPrecursors c ((Net.new out (phasesOf ls.flatten)).build reactantsOf productsOf) with
  | error e => rw [hmake, hw]; exact ⟨e, rfl⟩
  | ok n1 =>
    exfalso
    unfold withPrecursors at hw
    rw [hp] at hw
    obtain ⟨l, a1, a2, a3, a4, a5⟩ := hist_setPrecursors _ _ (by simp) h0 hw
    have hF := List.forall₂_iff_get.mp ((mapM_ok _ _ _).mp a1)
    obtain ⟨i, hi1, hi2⟩ := List.mem_iff_getElem.mp (List.mem_map_of_mem (f := (Arg.formula : φ → Arg η φ)) hf)
    have hx := hF.2 i hi1 (hF.1 ▸ hi1)
    simp only [List.get_eq_getElem, hi2] at hx
    have hxl := List.getElem_mem (hF.1 ▸ hi1 : i < l.length)
    rcases a5 with ⟨b1, _⟩ | ⟨_, b2, _⟩
    · simp [Net.build, Net.new] at b1
    · exact hno _ hx (b2 (List.mem_toFinset.mpr hxl))

/-! ### Witnesses -/

/-- `1 → 2`, `2 → 4` and its double. -/
def setA : RSet ℕ ℕ ℕ := mk [1, 2, 3, 4] [(2, [[0, 1], [1, 3], [1, 3]])] [(2, [[-1, 1], [-1, 1], [-2, 2]])] none 0 (some [(2, [1, 2, 3])])

/-- `1 → 2` again and `1 + 2 → 3`, at the potential `5` of the open element `8`. -/
def setB : RSet ℕ ℕ ℕ := mk [1, 2, 3] [(2, [[0, 1]]), (3, [[0, 1, 2]])] [(2, [[-3, 3]]), (3, [[-1, -1, 1]])] (some 8) 5 (some [(2, [4]), (3, [5])])

/-- Formulas are the phases themselves; the data of a reaction are its cost. -/
def cfgEx (openElem : Option ℕ) (precursors : Option (List ℕ)) : Cfg ℕ ℕ ℕ ℕ ℕ where
  uid := id
  order := List.dedup
  argsort := argsortEx
  groupBy := groupByEx
  cpus := 2
  wait := lastFirst
  minEntry := fun s f => if f ∈ s then .ok f else .error .keyError
  shortest := Verif.Lemmas.Paths.shortest (weightOf fun r : SRxn ℕ ℕ ℕ => (r.data : ℚ))
  cost := fun r => r.data
  precursors := precursors
  targets := some [4, 3]
  paths := some 2
  openElem := openElem
  chempot := -2

/-- The reactions of the network made by the job. -/
def rxnsEx (openElem : Option ℕ) (precursors : Option (List ℕ)) (sets : List (RSet ℕ ℕ ℕ)) : Except Err (List (SRxn ℕ ℕ ℕ)) :=
  (make (cfgEx openElem precursors) sets).map fun x => x.1.rxns

/-- The pathways found by the job. -/
def pathsEx (openElem : Option ℕ) (precursors : Option (List ℕ)) (sets : List (RSet ℕ ℕ ℕ)) : Option (List (List (Edge (SRxn ℕ ℕ ℕ) × ℚ))) :=
  match make (cfgEx openElem precursors) sets with
  | .ok x => x.2
  | .error _ => none

example : rxnsEx (some 8) (some [1]) [setA, setB] =
    .ok [⟨[2, 4], [-1, 1], 2, [(8, -2)]⟩, ⟨[1, 2], [-1, 1], 1, [(8, -2)]⟩, ⟨[1, 2, 3], [-1, -1, 1], 5, [(8, -2)]⟩] := by decide +kernel

example : pathsEx (some 8) (some [1]) [setA, setB] =
    some [[(.rxn ⟨[1, 2], [-1, 1], 1, [(8, -2)]⟩, 1), (.rxn ⟨[2, 4], [-1, 1], 2, [(8, -2)]⟩, 2)],
        [(.rxn ⟨[1, 2], [-1, 1], 1, [(8, -2)]⟩, 1), (.rxn ⟨[1, 2, 3], [-1, -1, 1], 5, [(8, -2)]⟩, 5)]] := by decide +kernel

example : rxnsEx (some 8) none [setA, setB] = .error .attributeError := by decide +kernel

example : rxnsEx (some 8) (some [1, 7]) [setA, setB] = .error .keyError := by decide +kernel

/-- A closed request on open reactions only: the network is built at the potential the reactions came with, not on the closed reactions asked for. -/
theorem C110_closed_violated :
    (make { cfgEx none none with targets := none } [setB]).map (fun x => x.1.rxns) =
      .ok [⟨[1, 2], [-3, 3], 4, [(8, 5)]⟩, ⟨[1, 2, 3], [-1, -1, 1], 5, [(8, 5)]⟩] ∧
    (cfgEx none none).openElem = none := by decide +kernel

theorem setA_built : Built setA :=
  .fromRxns id List.dedup [⟨[1, 2], [-1, 1], 1, []⟩, ⟨[2, 4], [-1, 1], 2, []⟩, ⟨[2, 4], [-2, 2], 3, []⟩] (some [1, 2, 3, 4]) none 0 _ setOrder_dedup
    (by decide +kernel)

theorem setB_built : Built setB :=
  .fromRxns id List.dedup [⟨[1, 2], [-3, 3], 4, []⟩, ⟨[1, 2, 3], [-1, -1, 1], 5, []⟩] (some [1, 2, 3]) (some 8) 5 _ setOrder_dedup (by decide +kernel)

/-- The hypotheses of the theorems hold for these inputs, open and closed. -/
example (o : Option ℕ) : Inputs (cfgEx o (some [1])) [setA, setB]
      [[⟨[1, 2], [-1, 1], 1, []⟩, ⟨[2, 4], [-1, 1], 2, []⟩, ⟨[2, 4], [-2, 2], 3, []⟩],
        [⟨[1, 2], [-3, 3], 4, [(8, 5)]⟩, ⟨[1, 2, 3], [-1, -1, 1], 5, [(8, 5)]⟩]] ∧
    Dijkstra (weightOf (cfgEx o (some [1])).cost) (cfgEx o (some [1])).shortest ∧
    Resolves ((cfgEx o (some [1])).minEntry {1, 2, 3, 4}) {1, 2, 3, 4} [1] [1] ∧
    Resolves ((cfgEx o (some [1])).minEntry {1, 2, 3, 4}) {1, 2, 3, 4} [4, 3] [4, 3] := by
  refine ⟨⟨.cons ⟨setA_built, by decide +kernel⟩ (.cons ⟨setB_built, by decide +kernel⟩ .nil), setOrder_dedup, argsortEx_ok, groupByEx_ok, le_refl _,
    lastFirst_spec, fun r _ r' _ a _ b _ h => h, ?_, ?_, fun _ => Or.inr ⟨_, List.mem_cons_self, rfl⟩⟩, Verif.Lemmas.Paths.shortest_dijkstra _, ?_, ?_⟩
  · intro r hr
    simp only [List.flatten_cons, List.flatten_nil, List.append_nil, List.cons_append, List.nil_append, List.mem_cons, List.not_mem_nil, or_false] at hr
    rcases hr with rfl | rfl | rfl | rfl | rfl <;> exact ⟨by simp, by simp, rfl, by simp⟩
  · have key : ∀ a b : SRxn ℕ ℕ ℕ, (∀ p ∈ terms a, ∀ q ∈ terms b, ∀ p' ∈ terms a, ∀ q' ∈ terms b, p.1 = q.1 → p'.1 = q'.1 →
        isclose |q.2 / p.2| (q'.2 / p'.2) = true → |q.2 / p.2| = q'.2 / p'.2) → Separated a b := by
      intro a b h e x y e' x' y' h1 h2 h3 h4 hc
      exact h (e, x) h1 (e, y) h2 (e', x') h3 (e', y') h4 rfl rfl hc
    have all : ∀ a ∈ ([⟨[1, 2], [-1, 1], 1, []⟩, ⟨[2, 4], [-1, 1], 2, []⟩, ⟨[2, 4], [-2, 2], 3, []⟩, ⟨[1, 2], [-3, 3], 4, [(8, 5)]⟩,
        ⟨[1, 2, 3], [-1, -1, 1], 5, [(8, 5)]⟩] : List (SRxn ℕ ℕ ℕ)),
        ∀ b ∈ ([⟨[1, 2], [-1, 1], 1, []⟩, ⟨[2, 4], [-1, 1], 2, []⟩, ⟨[2, 4], [-2, 2], 3, []⟩, ⟨[1, 2], [-3, 3], 4, [(8, 5)]⟩,
        ⟨[1, 2, 3], [-1, -1, 1], 5, [(8, 5)]⟩] : List (SRxn ℕ ℕ ℕ)), ∀ p ∈ terms a, ∀ q ∈ terms b, ∀ p' ∈ terms a, ∀ q' ∈ terms b, p.1 = q.1 → p'.1 = q'.1 →
        isclose |q.2 / p.2| (q'.2 / p'.2) = true → |q.2 / p.2| = q'.2 / p'.2 := by decide +kernel
    exact fun r hr r' hr' => key r r' (all r hr r' hr')
  · exact .cons ⟨rfl, by simp⟩ .nil
  · exact .cons ⟨rfl, by simp⟩ (.cons ⟨rfl, by simp⟩ .nil)

end Verif.Props.NetJob
