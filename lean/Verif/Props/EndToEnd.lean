import Verif.Props.EnumExact
import Verif.Props.Pathfinding
import Verif.Spec.Pathway

/-! Property C133: from phases to pathways. Enumerate the reactions of a set of phases, build the network of all of them and search it. -/

set_option linter.unusedSectionVars false

namespace Verif.Props.EndToEnd
open Verif.Py Verif.Model Verif.Model.Enum Verif.Model.Reaction Verif.Spec.Reaction Verif.Lemmas Verif.Props.Enum
  Verif.Props.EnumGroup Verif.Props.BalanceLinear Verif.Props.EnumComplete Verif.Props.EnumExact
open Verif.Model.Network (Net Arg Edge Graph Node findPathways resolve)
open Verif.Spec.Paths (Dijkstra)
open Verif.Spec.Pathfinding (Runs Pathway)
open Verif.Props.Pathfinding (asPath Answer)

variable {κ : Type} [DecidableEq κ]

/-! ### Specification -/

/-- The phases that react and those that are made. -/
abbrev Step (κ : Type) := Finset (Entry κ) × Finset (Entry κ)

/-- The step is a reaction the settings ask for. -/
def Allowed (X : Chem κ Sym) (cfg : Cfg (Entry κ)) (entries : List (Entry κ)) (n : ℤ) (q : Step κ) : Prop :=
  ∃ r p a b, q = (r.toFinset, p.toFinset) ∧ Sought X cfg entries n r p a b

/-- A route from the precursors `ps` to `t`: balanced reactions of the given phases, each using precursors and products of the one
before. -/
def Route (X : Chem κ Sym) (cfg : Cfg (Entry κ)) (entries : List (Entry κ)) (n : ℤ) (ps : Finset (Entry κ)) (t : Entry κ) (qs : List (Step κ)) : Prop :=
  (∀ q ∈ qs, Allowed X cfg entries n q) ∧ Pathway Prod.fst Prod.snd ps t qs

/-- The whole workflow: a network of the reactions `out` with entries `E`, precursors `ps`, and a search for `k` pathways to `t` that
returns `Ls`; the cost of a reaction depends on its phases. -/
def Search (cost : Step κ → ℚ) (out : List (Rx (Entry κ))) (E : Finset (Entry κ)) (ps : List (Entry κ)) (t : Entry κ) (k : ℕ)
    (Ls : List (List (Rx (Entry κ)))) : Prop :=
  ∃ (minEntry : String → Except Err (Entry κ)) (d : Graph (Node (Entry κ)) (Edge (Rx (Entry κ))) → ℕ → ℕ → Option (List ℕ))
    (net net' : Net (Entry κ) (Rx (Entry κ))),
    Dijkstra (Verif.Model.Network.weightOf fun x => cost (sides x)) d ∧
    ((Net.new out E).build (fun x => (sides x).1) fun x => (sides x).2).setPrecursors minEntry (ps.map .entry) = .ok net ∧
    findPathways minEntry d (fun x => cost (sides x)) net [.entry t] k = .ok (net', Ls.map (asPath fun x => cost (sides x)))

/-! ### Helper lemmas -/

theorem runs_sides (ps : Finset (Entry κ)) (t : Entry κ) : ∀ (rs : List (Rx (Entry κ))) (a : Finset (Entry κ)),
    Runs (fun x : Rx (Entry κ) => (sides x).1) (fun x => (sides x).2) ps t a rs ↔ Runs Prod.fst Prod.snd ps t a (rs.map sides)
  | [], _ => Iff.rfl
  | x :: rs, a => by
    simp only [List.map_cons, Runs]
    rw [runs_sides ps t rs]

theorem lift_steps (out : List (Rx (Entry κ))) : ∀ qs : List (Step κ), (∀ q ∈ qs, ∃ x ∈ out, sides x = q) →
    ∃ rs : List (Rx (Entry κ)), (∀ x ∈ rs, x ∈ out) ∧ rs.map sides = qs
  | [], _ => ⟨[], by simp, rfl⟩
  | q :: qs, h => by
    obtain ⟨x, hx, hq⟩ := h q List.mem_cons_self
    obtain ⟨rs, h1, h2⟩ := lift_steps out qs fun q hq => h q (List.mem_cons_of_mem _ hq)
    refine ⟨x :: rs, ?_, by rw [List.map_cons, hq, h2]⟩
    intro y hy
    rcases List.mem_cons.mp hy with rfl | hy
    · exact hx
    · exact h1 y hy

theorem mapM_entries (minEntry : String → Except Err (Entry κ)) : ∀ ps : List (Entry κ),
    (ps.map Arg.entry).mapM (resolve minEntry) = .ok ps
  | [] => rfl
  | e :: ps => by
    rw [List.map_cons, List.mapM_cons, mapM_entries minEntry ps]
    rfl

theorem asPath_inj {ρ : Type} (c : ρ → ℚ) : Function.Injective (asPath c) := by
  intro a b h
  unfold asPath at h
  exact List.map_injective_iff.mpr (fun x y hxy => by simpa using congrArg Prod.fst hxy) h

/-- A returned reaction is an allowed step, and every allowed step is returned. -/
theorem allowed_iff (X : Chem κ Sym) (hX : X.Lawful) (hsym : Symbols fun e : Entry κ => X.elems e.comp)
    (cfg : Cfg (Entry κ)) (hcfg : Plain cfg) (entries : List (Entry κ)) (hn : (entries.map fun e => X.red e.comp).Nodup)
    (hsharp : Sharp X entries) (n : ℤ) (out : List (Rx (Entry κ))) (h : Returns X cfg entries n out) (q : Step κ) :
    Allowed X cfg entries n q ↔ ∃ x ∈ out, sides x = q := by
  constructor
  · rintro ⟨r, p, a, b, rfl, hS⟩
    obtain ⟨x, hx, h1, h2⟩ := (C132_exact_partial X hX hsym cfg hcfg entries hn hsharp n out h r p hS.nodupR hS.nodupP).1.mpr ⟨a, b, hS⟩
    exact ⟨x, hx, by unfold sides; rw [h1, h2]⟩
  · rintro ⟨x, hx, rfl⟩
    obtain ⟨a, b, hS⟩ := returned_sought X hX hsym cfg hcfg entries hn hsharp n out h x hx
    exact ⟨x.reactants, x.products, a, b, rfl, hS⟩

/-! ### The workflow -/

/-- **C133 (partial: reactions that need two intermediates made separately are not chained, see `C133_convergent_violated`; and the limits of
C132).** What the workflow finds: every returned pathway is a route; nothing is returned only if there is no route; the first pathway
costs no more than any route. -/
theorem C133_find_partial (X : Chem κ Sym) (hX : X.Lawful) (hsym : Symbols fun e : Entry κ => X.elems e.comp)
    (cfg : Cfg (Entry κ)) (hcfg : Plain cfg) (entries : List (Entry κ)) (hn : (entries.map fun e => X.red e.comp).Nodup)
    (hsharp : Sharp X entries) (n : ℤ) (out : List (Rx (Entry κ))) (h : Returns X cfg entries n out)
    (cost : Step κ → ℚ) (hcost : ∀ q, 0 ≤ cost q) (E : Finset (Entry κ)) (ps : List (Entry κ)) (hps : ps ≠ []) (t : Entry κ) (ht : t ∈ E) (k : ℕ)
    (Ls : List (List (Rx (Entry κ)))) (hs : Search cost out E ps t k Ls) :
    Ls.length ≤ max k 1 ∧ (∀ rs ∈ Ls, Route X cfg entries n ps.toFinset t (rs.map sides)) ∧
    (Ls = [] ↔ ∀ qs, ¬ Route X cfg entries n ps.toFinset t qs) ∧
    ∀ rs, Ls.head? = some rs → ∀ qs, Route X cfg entries n ps.toFinset t qs → ((rs.map sides).map cost).sum ≤ (qs.map cost).sum := by
  obtain ⟨minEntry, d, net, net', hd, hset, hfind⟩ := hs
  obtain ⟨n'', l, Lss, hl, hf, hall⟩ := Verif.Props.Pathfinding.C69_find (fun x : Rx (Entry κ) => (sides x).1) (fun x => (sides x).2) out E minEntry
    (fun x => cost (sides x)) (fun r _ => hcost _) (ps.map .entry) (by simpa using hps) net hset hd k [.entry t]
    (by intro a ha; rw [List.mem_singleton.mp ha]; exact ⟨t, rfl, ht⟩)
  rw [mapM_entries] at hl
  obtain rfl := Except.ok.inj hl
  rw [hfind] at hf
  obtain ⟨_, hf2⟩ := Prod.mk.inj (Except.ok.inj hf)
  cases hall with
  | @cons _ L _ Lss' h1 h2 =>
    cases h2
    obtain ⟨t', ht', ans⟩ := h1
    obtain rfl : t = t' := Except.ok.inj ht'
    have hLs : Ls = L := by
      apply List.map_injective_iff.mpr (asPath_inj fun x : Rx (Entry κ) => cost (sides x))
      simpa using hf2
    subst hLs
    have hroute : ∀ rs : List (Rx (Entry κ)), (∀ r ∈ rs, r ∈ out) →
        (Pathway (fun x : Rx (Entry κ) => (sides x).1) (fun x => (sides x).2) ps.toFinset t rs ↔ Route X cfg entries n ps.toFinset t (rs.map sides)) := by
      intro rs hrs
      unfold Route Pathway
      rw [runs_sides]
      refine ⟨fun h2 => ⟨?_, h2⟩, fun h2 => h2.2⟩
      intro q hq
      obtain ⟨x, hx, rfl⟩ := List.mem_map.mp hq
      exact (allowed_iff X hX hsym cfg hcfg entries hn hsharp n out h _).mpr ⟨x, hrs x hx, rfl⟩
    have hlift : ∀ qs, Route X cfg entries n ps.toFinset t qs → ∃ rs : List (Rx (Entry κ)), (∀ r ∈ rs, r ∈ out) ∧ rs.map sides = qs :=
      fun qs hq => lift_steps out qs fun q h' => (allowed_iff X hX hsym cfg hcfg entries hn hsharp n out h q).mp (hq.1 q h')
    refine ⟨ans.count, fun rs hrs => (hroute rs (ans.sound rs hrs).1).mp (ans.sound rs hrs).2, ?_, ?_⟩
    · rw [ans.none]
      constructor
      · intro h1 qs hq
        obtain ⟨rs, h2, rfl⟩ := hlift qs hq
        exact h1 rs h2 ((hroute rs h2).mpr hq)
      · intro h1 rs h2 h3
        exact h1 _ ((hroute rs h2).mp h3)
    · intro rs hrs qs hq
      obtain ⟨rs', h2, rfl⟩ := hlift qs hq
      have := ans.first (fun r _ r' _ e1 e2 => by
        have : sides r = sides r' := Prod.ext e1 e2
        simp only [this]) rs hrs rs' h2 ((hroute rs' h2).mpr hq)
      simpa only [List.map_map, Function.comp_def] using this

/-- **C133, the search runs** if something was enumerated and the precursors and the target are entries of the network. -/
theorem C133_runs (out : List (Rx (Entry κ))) (cost : Step κ → ℚ) (hcost : ∀ q, 0 ≤ cost q) (E : Finset (Entry κ)) (ps : List (Entry κ))
    (hps : ps ≠ []) (t : Entry κ) (ht : t ∈ E) (k : ℕ) (hout : out ≠ []) (hE : ps.toFinset ⊆ E) : ∃ Ls, Search cost out E ps t k Ls := by
  set minEntry : String → Except Err (Entry κ) := fun _ => .error .keyError with hmin
  have hset : ∃ net, ((Net.new out E).build (fun x => (sides x).1) fun x => (sides x).2).setPrecursors minEntry (ps.map .entry) = .ok net := by
    obtain ⟨x, l, rfl⟩ := List.exists_cons_of_ne_nil hout
    have hst := Verif.Props.Network.hist_build (fun x : Rx (Entry κ) => (sides x).1) (fun x => (sides x).2) (x :: l) E
    obtain ⟨g, hg, hW, hN, _⟩ := hst.graph
    have hus : Verif.Model.Network.usable ((Net.new (x :: l) E).build (fun x : Rx (Entry κ) => (sides x).1) fun x => (sides x).2) = some g := by
      unfold Verif.Model.Network.usable
      rw [hg]
      simp only
      rw [if_neg]
      intro hnil
      have hm : (⟨.reactants, (sides x).1⟩ : Node (Entry κ)) ∈ Verif.Spec.Network.viewN g := by
        rw [hN, Multiset.mem_add, Multiset.mem_add]
        left; left
        unfold Verif.Spec.Network.builtN
        rw [Multiset.mem_coe, List.mem_append]
        left
        exact List.mem_map.mpr ⟨_, List.mem_dedup.mpr (List.mem_map.mpr ⟨x, List.mem_cons_self, rfl⟩), rfl⟩
      unfold Verif.Spec.Network.viewN at hm
      rw [hnil] at hm
      simp at hm
    unfold Net.setPrecursors
    simp only [hus, mapM_entries]
    rw [if_neg (by simp [Net.build, Net.new]), if_neg (by simpa [Net.build, Net.new] using hE)]
    exact ⟨_, rfl⟩
  obtain ⟨net, hnet⟩ := hset
  obtain ⟨n'', l, Lss, hl, hf, hall⟩ := Verif.Props.Pathfinding.C69_find (fun x : Rx (Entry κ) => (sides x).1) (fun x => (sides x).2) out E minEntry
    (fun x => cost (sides x)) (fun r _ => hcost _) (ps.map .entry) (by simpa using hps) net hnet (Verif.Lemmas.Paths.shortest_dijkstra _) k [.entry t]
    (by intro a ha; rw [List.mem_singleton.mp ha]; exact ⟨t, rfl, ht⟩)
  exact ⟨Lss.flatten, minEntry, _, net, n'', Verif.Lemmas.Paths.shortest_dijkstra _, hnet, hf⟩

/-- **C133, independence.** Two workflows on the same phases, listed in any two orders, with any chunk sizes, schedules, linear algebra and
shortest-path routines: both find a pathway or neither does, and the cheapest pathways cost the same. -/
theorem C133_same (X : Chem κ Sym) (hX : X.Lawful) (hsym : Symbols fun e : Entry κ => X.elems e.comp)
    (cfg : Cfg (Entry κ)) (hcfg : Plain cfg) (entries entries' : List (Entry κ)) (hperm : entries.Perm entries')
    (hn : (entries.map fun e => X.red e.comp).Nodup) (hsharp : Sharp X entries) (n : ℤ) (out out' : List (Rx (Entry κ)))
    (h : Returns X cfg entries n out) (h' : Returns X cfg entries' n out')
    (cost : Step κ → ℚ) (hcost : ∀ q, 0 ≤ cost q) (E : Finset (Entry κ)) (ps ps' : List (Entry κ)) (hps : ps ≠ []) (hpp : ps.toFinset = ps'.toFinset)
    (t : Entry κ) (ht : t ∈ E) (k k' : ℕ) (Ls Ls' : List (List (Rx (Entry κ)))) (hs : Search cost out E ps t k Ls) (hs' : Search cost out' E ps' t k' Ls') :
    (Ls = [] ↔ Ls' = []) ∧ ∀ rs rs', Ls.head? = some rs → Ls'.head? = some rs' → ((rs.map sides).map cost).sum = ((rs'.map sides).map cost).sum := by
  have hn' : (entries'.map fun e => X.red e.comp).Nodup := (hperm.map _).nodup_iff.mp hn
  have hsharp' : Sharp X entries' := fun r p h1 h2 => hsharp r p h1 fun x hx => hperm.mem_iff.mpr (h2 x hx)
  have hps' : ps' ≠ [] := by
    rintro rfl
    exact hps (List.toFinset_eq_empty_iff _ |>.mp (by rw [hpp]; rfl))
  obtain ⟨_, a2, a3, a4⟩ := C133_find_partial X hX hsym cfg hcfg entries hn hsharp n out h cost hcost E ps hps t ht k Ls hs
  obtain ⟨_, b2, b3, b4⟩ := C133_find_partial X hX hsym cfg hcfg entries' hn' hsharp' n out' h' cost hcost E ps' hps' t ht k' Ls' hs'
  have hA : ∀ q, Allowed X cfg entries n q ↔ Allowed X cfg entries' n q := by
    intro q
    constructor
    · rintro ⟨r, p, a, b, rfl, hS⟩
      exact ⟨r, p, a, b, rfl, hS.entries (fun e he => hperm.mem_iff.mp he) (le_refl _) (Looser.refl cfg) hcfg.closed hcfg.closed⟩
    · rintro ⟨r, p, a, b, rfl, hS⟩
      exact ⟨r, p, a, b, rfl, hS.entries (fun e he => hperm.mem_iff.mpr he) (le_refl _) (Looser.refl cfg) hcfg.closed hcfg.closed⟩
  have hR : ∀ qs, Route X cfg entries n ps.toFinset t qs ↔ Route X cfg entries' n ps'.toFinset t qs := by
    intro qs
    unfold Route
    rw [hpp]
    constructor
    · exact fun h => ⟨fun q hq => (hA q).mp (h.1 q hq), h.2⟩
    · exact fun h => ⟨fun q hq => (hA q).mpr (h.1 q hq), h.2⟩
  refine ⟨by rw [a3, b3]; exact ⟨fun h qs hq => h qs ((hR qs).mpr hq), fun h qs hq => h qs ((hR qs).mp hq)⟩, fun rs rs' h1 h2 => ?_⟩
  apply le_antisymm
  · exact a4 rs h1 _ ((hR _).mpr (b2 rs' (List.mem_of_mem_head? (by rw [h2]; rfl))))
  · exact b4 rs' h2 _ ((hR _).mp (a2 rs (List.mem_of_mem_head? (by rw [h1]; rfl))))

theorem runs_subset {ρ : Type} {R P : ρ → Finset (Entry κ)} {ps ps' : Finset (Entry κ)} {t : Entry κ} (h : ps ⊆ ps') :
    ∀ (rs : List ρ) (a : Finset (Entry κ)), Runs R P ps t a rs → Runs R P ps' t a rs
  | [], _, hr => hr
  | _ :: rs, _, hr => ⟨hr.1.trans (Finset.union_subset_union_left h), runs_subset h rs _ hr.2⟩

/-- **C133, growth.** With more phases, more precursors, a larger number of phases per side and looser settings, a pathway is still found,
and the cheapest one does not become more expensive. -/
theorem C133_monotone (X : Chem κ Sym) (hX : X.Lawful) (hsym : Symbols fun e : Entry κ => X.elems e.comp)
    (cfg cfg' : Cfg (Entry κ)) (hcfg : Plain cfg) (hcfg' : Plain cfg') (hL : Looser cfg cfg') (entries entries' : List (Entry κ))
    (hn : (entries'.map fun e => X.red e.comp).Nodup) (hn0 : entries.Nodup) (hsub : ∀ e ∈ entries, e ∈ entries')
    (hsharp : Sharp X entries') (n n' : ℤ) (hnn : n ≤ n') (out out' : List (Rx (Entry κ)))
    (h : Returns X cfg entries n out) (h' : Returns X cfg' entries' n' out')
    (cost : Step κ → ℚ) (hcost : ∀ q, 0 ≤ cost q) (E E' : Finset (Entry κ)) (ps ps' : List (Entry κ)) (hps : ps ≠ []) (hpp : ∀ e ∈ ps, e ∈ ps')
    (t : Entry κ) (ht : t ∈ E) (ht' : t ∈ E') (k k' : ℕ) (Ls Ls' : List (List (Rx (Entry κ))))
    (hs : Search cost out E ps t k Ls) (hs' : Search cost out' E' ps' t k' Ls') :
    ∀ rs, Ls.head? = some rs → ∃ rs', Ls'.head? = some rs' ∧ ((rs'.map sides).map cost).sum ≤ ((rs.map sides).map cost).sum := by
  have hnE : (entries.map fun e => X.red e.comp).Nodup :=
    hn0.map_on fun x hx y hy hxy => List.inj_on_of_nodup_map hn (hsub x hx) (hsub y hy) hxy
  have hsharp0 : Sharp X entries := fun r p h1 h2 => hsharp r p h1 fun x hx => hsub x (h2 x hx)
  have hps' : ps' ≠ [] := by
    obtain ⟨e, he⟩ := List.exists_mem_of_ne_nil _ hps
    exact List.ne_nil_of_mem (hpp e he)
  obtain ⟨_, a2, _, _⟩ := C133_find_partial X hX hsym cfg hcfg entries hnE hsharp0 n out h cost hcost E ps hps t ht k Ls hs
  obtain ⟨_, _, b3, b4⟩ := C133_find_partial X hX hsym cfg' hcfg' entries' hn hsharp n' out' h' cost hcost E' ps' hps' t ht' k' Ls' hs'
  intro rs hrs
  have hroute := a2 rs (List.mem_of_mem_head? (by rw [hrs]; rfl))
  have hroute' : Route X cfg' entries' n' ps'.toFinset t (rs.map sides) := by
    refine ⟨fun q hq => ?_, runs_subset ?_ _ _ hroute.2⟩
    · obtain ⟨r, p, a, b, h1, hS⟩ := hroute.1 q hq
      exact ⟨r, p, a, b, h1, hS.entries hsub hnn hL hcfg.closed hcfg'.closed⟩
    · intro e he
      rw [List.mem_toFinset] at he ⊢
      exact hpp e he
  cases hh : Ls'.head? with
  | none =>
    rw [List.head?_eq_none_iff] at hh
    exact absurd hroute' (b3.mp hh _)
  | some rs' => exact ⟨rs', rfl, b4 rs' hh _ hroute'⟩

/-! ### Examples -/

/-- Phases are told apart if every near-balance can be made exact without changing a sign. -/
theorem sharp_of (X : Chem κ Sym) (E : List (Entry κ)) (hE : E.Nodup)
    (H : ∀ V : Entry κ → ℚ, (∀ x ∈ E, V x = 0 ∨ V x ≤ -(1 / 1000000) ∨ 1 / 1000000 ≤ V x) →
      (∀ s, |(E.map fun x => V x * X.amt (X.red x.comp) s).sum| ≤ 1 / 100000000) →
      ∃ w : Entry κ → ℚ, (∀ x ∈ E, (V x < 0 → w x < 0) ∧ (0 < V x → 0 < w x) ∧ (V x = 0 → w x = 0)) ∧
        ∀ s, (E.map fun x => w x * X.amt (X.red x.comp) s).sum = 0) : Sharp X E := by
  intro r p hn hin v hr hp hc
  set L := r ++ p with hL
  have conv : ∀ f : Entry κ → ℚ, (L.map f).sum = (E.map fun x => if x ∈ L then f x else 0).sum := by
    intro f
    rw [← List.sum_toFinset f hn, ← List.sum_toFinset _ hE, ← Finset.sum_filter]
    apply Finset.sum_congr _ fun _ _ => rfl
    ext a
    simp only [List.mem_toFinset, Finset.mem_filter]
    exact ⟨fun h => ⟨hin a h, h⟩, fun h => h.2⟩
  set V : Entry κ → ℚ := fun x => if x ∈ L then v x else 0 with hV
  obtain ⟨w, hw, hw0⟩ := H V (by
    intro x _
    by_cases hx : x ∈ L
    · rw [hV]
      simp only [hx, if_true]
      rcases List.mem_append.mp hx with h | h
      · exact .inr (.inl (hr x h))
      · exact .inr (.inr (hp x h))
    · left; rw [hV]; simp only [hx, if_false]) (by
    intro s
    have := hc s
    rw [conv] at this
    have e : (fun x => if x ∈ L then v x * X.amt (X.red x.comp) s else 0) = fun x => V x * X.amt (X.red x.comp) s := by
      funext x
      rw [hV]
      by_cases hx : x ∈ L <;> simp [hx]
    rw [e] at this
    exact this)
  have inV : ∀ x ∈ L, V x = v x := fun x hx => by rw [hV]; simp only [hx, if_true]
  refine ⟨w, fun x hx => ?_, fun x hx => ?_, fun s => ?_⟩
  · have hxL : x ∈ L := List.mem_append_left _ hx
    refine (hw x (hin x hxL)).1 ?_
    rw [inV x hxL]
    have := hr x hx
    norm_num at this ⊢
    linarith
  · have hxL : x ∈ L := List.mem_append_right _ hx
    refine (hw x (hin x hxL)).2.1 ?_
    rw [inV x hxL]
    have := hp x hx
    norm_num at this ⊢
    linarith
  · rw [conv]
    refine Eq.trans ?_ (hw0 s)
    congr 1
    apply List.map_congr_left
    intro x hx
    by_cases hxL : x ∈ L
    · simp only [hxL, if_true]
    · have : V x = 0 := by rw [hV]; simp only [hxL, if_false]
      rw [(hw x hx).2.2 this]
      simp [hxL]

/-- `x + y → z` balances if `z` is the sum of the two and neither contains the other. -/
theorem balances_three (X : Chem κ Sym) (x y z : Entry κ)
    (hsum : ∀ s, X.amt (X.red z.comp) s = X.amt (X.red x.comp) s + X.amt (X.red y.comp) s) (s t : Sym)
    (h1 : X.amt (X.red x.comp) s = 1) (h2 : X.amt (X.red y.comp) s = 0) (h3 : X.amt (X.red x.comp) t = 0) (h4 : X.amt (X.red y.comp) t = 1) :
    Balances X [x, y] [z] (fun _ => 1) fun _ => 1 where
  consumed _ _ := one_pos
  made _ _ := one_pos
  conserved u := by
    simp only [List.map_cons, List.map_nil, List.sum_cons, List.sum_nil, hsum]
    ring
  only c hc := by
    have hs := hc s
    have ht := hc t
    simp only [List.map_cons, List.map_nil, List.sum_cons, List.sum_nil, hsum, h1, h2, h3, h4] at hs ht
    refine ⟨c z, ?_, ?_⟩
    · intro a ha
      simp only [List.mem_cons, List.not_mem_nil, or_false] at ha
      rcases ha with rfl | rfl <;> linarith
    · intro a ha
      rw [List.mem_singleton.mp ha]; ring

/-- A, B, C, D, AB, CD and ABCD. -/
def cvElems : Fin 7 → List Sym
  | 0 => [['A']]
  | 1 => [['B']]
  | 2 => [['C']]
  | 3 => [['D']]
  | 4 => [['A'], ['B']]
  | 5 => [['C'], ['D']]
  | 6 => [['A'], ['B'], ['C'], ['D']]

def cvChem : Chem (Fin 7) Sym where
  amt c s := if s ∈ cvElems c then 1 else 0
  elems c := cvElems c
  red c := c
  fac _ := 1

theorem cvLawful : cvChem.Lawful where
  nonneg c s := by unfold cvChem; simp only; split_ifs <;> norm_num
  mem_elems c s := by unfold cvChem; simp only; split_ifs with h <;> simp [h]
  nodup c := by unfold cvChem; fin_cases c <;> decide +kernel
  fac_pos _ := by unfold cvChem; norm_num
  red_amt c s := by unfold cvChem; simp
  red_red _ := rfl

theorem cvSymbols : Symbols fun e : Entry (Fin 7) => cvChem.elems e.comp where
  ne x := (by decide +kernel : ∀ c : Fin 7, cvChem.elems c ≠ []) x.comp
  dash x := (by decide +kernel : ∀ c : Fin 7, ∀ s ∈ cvChem.elems c, '-' ∉ s) x.comp

def cvEntries : List (Entry (Fin 7)) := [⟨0, -1⟩, ⟨1, -1⟩, ⟨2, -1⟩, ⟨3, -1⟩, ⟨4, -1⟩, ⟨5, -1⟩, ⟨6, -1⟩]

/-- `w` has the sign of `v`. -/
def SameSign (v w : ℚ) : Prop := (v < 0 → w < 0) ∧ (0 < v → 0 < w) ∧ (v = 0 → w = 0)

theorem pairFix (a b ab q : ℚ) (ha : a = 0 ∨ a ≤ -(1 / 1000000) ∨ 1 / 1000000 ≤ a) (hb : b = 0 ∨ b ≤ -(1 / 1000000) ∨ 1 / 1000000 ≤ b)
    (hab : ab = 0 ∨ ab ≤ -(1 / 1000000) ∨ 1 / 1000000 ≤ ab) (hq : q = 0 ∨ q ≤ -(1 / 1000000) ∨ 1 / 1000000 ≤ q)
    (h1 : |a + ab + q| ≤ 1 / 100000000) (h2 : |b + ab + q| ≤ 1 / 100000000) :
    ∃ a' b' ab' : ℚ, SameSign a a' ∧ SameSign b b' ∧ SameSign ab ab' ∧ a' + ab' + q = 0 ∧ b' + ab' + q = 0 := by
  rw [abs_le] at h1 h2
  obtain ⟨h1l, h1u⟩ := h1
  obtain ⟨h2l, h2u⟩ := h2
  by_cases ht : -(5 / 10000000) ≤ ab + q ∧ ab + q ≤ 5 / 10000000
  · obtain ⟨htl, htu⟩ := ht
    have ha0 : a = 0 := by rcases ha with h | h | h <;> linarith
    have hb0 : b = 0 := by rcases hb with h | h | h <;> linarith
    refine ⟨0, 0, -q, ?_, ?_, ?_, by ring, by ring⟩
    · rw [ha0]; exact ⟨fun h => h, fun h => h, fun h => h⟩
    · rw [hb0]; exact ⟨fun h => h, fun h => h, fun h => h⟩
    · refine ⟨fun h => ?_, fun h => ?_, fun h => ?_⟩
      · rcases hab with h' | h' | h' <;> linarith
      · rcases hab with h' | h' | h' <;> linarith
      · rcases hq with h' | h' | h' <;> linarith
  · have ht' : ab + q < -(5 / 10000000) ∨ 5 / 10000000 < ab + q := by
      by_contra hno
      push Not at hno
      exact ht hno
    refine ⟨-(ab + q), -(ab + q), ab, ?_, ?_, ⟨fun h => h, fun h => h, fun h => h⟩, by ring, by ring⟩
    · refine ⟨fun h => ?_, fun h => ?_, fun h => ?_⟩ <;> rcases ht' with h' | h' <;> linarith
    · refine ⟨fun h => ?_, fun h => ?_, fun h => ?_⟩ <;> rcases ht' with h' | h' <;> linarith

theorem cvSharp : Sharp cvChem cvEntries := by
  apply sharp_of cvChem cvEntries (by decide +kernel)
  intro V hV hc
  have hA := hc ['A']
  have hB := hc ['B']
  have hC := hc ['C']
  have hD := hc ['D']
  simp [cvEntries, cvChem, cvElems] at hA hB hC hD
  have hm : ∀ i : Fin 7, (⟨i, -1⟩ : Entry (Fin 7)) ∈ cvEntries := by decide +kernel
  obtain ⟨a, b, ab, s0, s1, s4, e0, e1⟩ := pairFix _ _ _ _ (hV _ (hm 0)) (hV _ (hm 1)) (hV _ (hm 4)) (hV _ (hm 6))
    (by rw [add_assoc, one_div]; exact hA) (by rw [add_assoc, one_div]; exact hB)
  obtain ⟨c, d, cd, s2, s3, s5, e2, e3⟩ := pairFix _ _ _ _ (hV _ (hm 2)) (hV _ (hm 3)) (hV _ (hm 5)) (hV _ (hm 6))
    (by rw [add_assoc, one_div]; exact hC) (by rw [add_assoc, one_div]; exact hD)
  let w : Entry (Fin 7) → ℚ := fun x => match x.comp with
    | 0 => a
    | 1 => b
    | 2 => c
    | 3 => d
    | 4 => ab
    | 5 => cd
    | 6 => V ⟨6, -1⟩
  refine ⟨w, ?_, ?_⟩
  · intro x hx
    simp only [cvEntries, List.mem_cons, List.not_mem_nil, or_false] at hx
    rcases hx with rfl | rfl | rfl | rfl | rfl | rfl | rfl
    · exact s0
    · exact s1
    · exact s2
    · exact s3
    · exact s4
    · exact s5
    · exact ⟨fun h => h, fun h => h, fun h => h⟩
  · intro s
    simp only [cvEntries, cvChem, cvElems, w, List.map_cons, List.map_nil, List.sum_cons, List.sum_nil, List.mem_cons, List.not_mem_nil, or_false]
    by_cases h1 : s = ['A']
    · subst h1; simp; linarith
    by_cases h2 : s = ['B']
    · subst h2; simp; linarith
    by_cases h3 : s = ['C']
    · subst h3; simp; linarith
    by_cases h4 : s = ['D']
    · subst h4; simp; linarith
    simp [h1, h2, h3, h4]

/-- Everything is asked for. -/
def cvAll : Cfg (Entry (Fin 7)) := ⟨[], [], [], false, false, true, true, 1, []⟩

theorem cvPlain : Plain cvAll := ⟨rfl, rfl, rfl⟩

theorem cvStep (r p : List (Entry (Fin 7))) (h : Balances cvChem r p (fun _ => 1) fun _ => 1)
    (hd : r.Nodup ∧ p.Nodup ∧ r ≠ [] ∧ p ≠ [] ∧ (r.length : ℤ) ≤ 2 ∧ (p.length : ℤ) ≤ 2 ∧ (∀ x ∈ r, x ∈ cvEntries) ∧ (∀ x ∈ p, x ∈ cvEntries) ∧
      (∀ x ∈ r, x ∉ p) ∧ 2 ≤ (r.flatMap fun e => cvChem.elems e.comp).dedup.length ∧ (r.flatMap fun e => cvChem.elems e.comp).dedup.length ≤ 9) :
    Allowed cvChem cvAll cvEntries 2 (r.toFinset, p.toFinset) := by
  obtain ⟨h1, h2, h3, h4, h5, h6, h7, h8, h9, h10, h11⟩ := hd
  exact ⟨r, p, _, _, rfl, h1, h2, h3, h4, h5, h6, h7, h8, h9, h, ⟨by simp [cvAll], by simp [cvAll], by simp [cvAll], by simp [cvAll]⟩, ⟨h10, h11⟩,
    fun h => absurd rfl h⟩

/-- Both halves, then the whole. -/
def cvRoute : List (Step (Fin 7)) :=
  [([⟨0, -1⟩, ⟨1, -1⟩].toFinset, [⟨4, -1⟩].toFinset), ([⟨2, -1⟩, ⟨3, -1⟩].toFinset, [⟨5, -1⟩].toFinset), ([⟨4, -1⟩, ⟨5, -1⟩].toFinset, [⟨6, -1⟩].toFinset)]

def cvPs : List (Entry (Fin 7)) := [⟨0, -1⟩, ⟨1, -1⟩, ⟨2, -1⟩, ⟨3, -1⟩]

theorem cvAllowed : ∀ q ∈ cvRoute, Allowed cvChem cvAll cvEntries 2 q := by
  intro q hq
  simp only [cvRoute, List.mem_cons, List.not_mem_nil, or_false] at hq
  rcases hq with rfl | rfl | rfl
  · refine cvStep _ _ (balances_three cvChem _ _ _ ?_ ['A'] ['B'] (by decide +kernel) (by decide +kernel) (by decide +kernel) (by decide +kernel)) (by decide +kernel)
    intro s
    by_cases h1 : s = ['A'] <;> by_cases h2 : s = ['B'] <;> simp [cvChem, cvElems, h1, h2]
  · refine cvStep _ _ (balances_three cvChem _ _ _ ?_ ['C'] ['D'] (by decide +kernel) (by decide +kernel) (by decide +kernel) (by decide +kernel)) (by decide +kernel)
    intro s
    by_cases h1 : s = ['C'] <;> by_cases h2 : s = ['D'] <;> simp [cvChem, cvElems, h1, h2]
  · refine cvStep _ _ (balances_three cvChem _ _ _ ?_ ['A'] ['C'] (by decide +kernel) (by decide +kernel) (by decide +kernel) (by decide +kernel)) (by decide +kernel)
    intro s
    by_cases h1 : s = ['A'] <;> by_cases h2 : s = ['B'] <;> by_cases h3 : s = ['C'] <;> by_cases h4 : s = ['D'] <;>
      simp [cvChem, cvElems, h1, h2, h3, h4]

theorem cvComps : Comps (fun e : Entry (Fin 7) => cvChem.elems e.comp) fun e => cvChem.amt (cvChem.red e.comp) :=
  comps cvChem cvLawful

/-- Two phases other than ABCD with all four elements are AB and CD. -/
theorem cvCover (r : List (Entry (Fin 7))) (hr : (r.length : ℤ) ≤ 2) (hin : ∀ x ∈ r, x ∈ cvEntries) (h6 : (⟨6, -1⟩ : Entry (Fin 7)) ∉ r)
    (hc : ∀ s ∈ cvElems 6, s ∈ r.flatMap fun e => cvChem.elems e.comp) :
    (⟨4, -1⟩ : Entry (Fin 7)) ∈ r ∧ (⟨5, -1⟩ : Entry (Fin 7)) ∈ r := by
  have key : ∀ x ∈ cvEntries, ∀ y ∈ cvEntries, x ≠ ⟨6, -1⟩ → y ≠ ⟨6, -1⟩ → (∀ s ∈ cvElems 6, s ∈ [x, y].flatMap fun e => cvChem.elems e.comp) →
      (⟨4, -1⟩ : Entry (Fin 7)) ∈ [x, y] ∧ (⟨5, -1⟩ : Entry (Fin 7)) ∈ [x, y] := by decide +kernel
  match r, hr, hin, h6, hc with
  | [], _, _, _, hc => exact absurd hc (by decide +kernel)
  | [x], _, hin, h6, hc =>
    have hx : x ≠ ⟨6, -1⟩ := fun h => h6 (by simp [h])
    have := key x (hin x (by simp)) x (hin x (by simp)) hx hx (fun s hs => by
      have := hc s hs
      simp only [List.flatMap_cons, List.flatMap_nil, List.append_nil, List.mem_append] at this ⊢
      exact .inl this)
    simpa using this
  | [x, y], _, hin, h6, hc =>
    exact key x (hin x (by simp)) y (hin y (by simp)) (fun h => h6 (by simp [h])) (fun h => h6 (by simp [h])) hc
  | _ :: _ :: _ :: _, hr, _, _, _ =>
    simp only [List.length_cons] at hr
    omega

theorem cvNoRuns : ∀ (qs : List (Step (Fin 7))) (avail : Finset (Entry (Fin 7))), (∀ q ∈ qs, Allowed cvChem cvAll cvEntries 2 q) →
    (⟨6, -1⟩ : Entry (Fin 7)) ∉ avail → ¬ ((⟨4, -1⟩ : Entry (Fin 7)) ∈ avail ∧ (⟨5, -1⟩ : Entry (Fin 7)) ∈ avail) →
    ¬ Runs Prod.fst Prod.snd cvPs.toFinset ⟨6, -1⟩ avail qs
  | [], _, _, h6, _ => h6
  | q :: qs, avail, hA, h6, h45 => by
    rintro ⟨hsub, hrest⟩
    obtain ⟨r, p, a, b, rfl, hS⟩ := hA q List.mem_cons_self
    have hr6 : (⟨6, -1⟩ : Entry (Fin 7)) ∉ r := by
      intro h
      rcases Finset.mem_union.mp (hsub (List.mem_toFinset.mpr h)) with h' | h'
      · exact absurd h' (by decide +kernel)
      · exact h6 h'
    have hr45 : ¬ ((⟨4, -1⟩ : Entry (Fin 7)) ∈ r ∧ (⟨5, -1⟩ : Entry (Fin 7)) ∈ r) := by
      rintro ⟨h4, h5⟩
      apply h45
      constructor
      · rcases Finset.mem_union.mp (hsub (List.mem_toFinset.mpr h4)) with h' | h'
        · exact absurd h' (by decide +kernel)
        · exact h'
      · rcases Finset.mem_union.mp (hsub (List.mem_toFinset.mpr h5)) with h' | h'
        · exact absurd h' (by decide +kernel)
        · exact h'
    have hcov : (∀ s ∈ cvElems 6, s ∈ p.flatMap fun e => cvChem.elems e.comp) → False := by
      intro hp
      exact hr45 (cvCover r hS.sizeR hS.inR hr6 fun s hs => (same_elements _ (fun e : Entry (Fin 7) => cvChem.amt (cvChem.red e.comp)) cvComps r p
        ⟨a, b, hS.balances.consumed, hS.balances.made, hS.balances.conserved⟩ s).mpr (hp s hs))
    refine cvNoRuns qs p.toFinset (fun q hq => hA q (List.mem_cons_of_mem _ hq)) ?_ ?_ hrest
    · intro h
      exact hcov fun s hs => List.mem_flatMap.mpr ⟨_, List.mem_toFinset.mp h, hs⟩
    · rintro ⟨h4, h5⟩
      apply hcov
      intro s hs
      have : s ∈ cvElems 4 ∨ s ∈ cvElems 5 := (by decide +kernel : ∀ s ∈ cvElems 6, s ∈ cvElems 4 ∨ s ∈ cvElems 5) s hs
      rcases this with h | h
      · exact List.mem_flatMap.mpr ⟨_, List.mem_toFinset.mp h4, h⟩
      · exact List.mem_flatMap.mpr ⟨_, List.mem_toFinset.mp h5, h⟩

theorem cvReturns (entries : List (Entry (Fin 7))) (n : ℤ) (cfg : Cfg (Entry (Fin 7))) : ∃ out, Returns cvChem cfg entries n out := by
  obtain ⟨pinv, hp⟩ := exact_exists
  obtain ⟨out, ho⟩ := C124_runs cvChem (rankFor cvChem) (solveFor cvChem pinv) (fun e => cvChem.elems e.comp) cfg entries n pairs2
    (fun c => c.length.choose 2) (fun _ => ()) 1 10 (by norm_num) (by norm_num) Verif.Props.Utils.lifo Verif.Props.Utils.lifo_spec
  exact ⟨out, Unit, _, _, 1, 10, _, pinv, Verif.Props.Utils.lifo_spec, hp, ho⟩

/-- **C133, the full claim fails.** Four precursors, and three enumerated reactions that can be run one after the other and make the target:
A + B → AB, C + D → CD, AB + CD → ABCD. Every search of every enumeration of these phases returns no pathway, as neither half is a product
of the reaction just before and both are needed. -/
theorem C133_convergent_violated :
    (∀ q ∈ cvRoute, Allowed cvChem cvAll cvEntries 2 q) ∧ Verif.Spec.Pathway.Exec Prod.fst Prod.snd cvPs.toFinset cvRoute ∧
    (∃ q ∈ cvRoute, (⟨6, -1⟩ : Entry (Fin 7)) ∈ q.2) ∧
    (∃ out, Returns cvChem cvAll cvEntries 2 out ∧ out ≠ []) ∧
    ∀ out, Returns cvChem cvAll cvEntries 2 out → ∀ cost : Step (Fin 7) → ℚ, (∀ q, 0 ≤ cost q) → ∀ k,
      (∃ Ls, Search cost out cvEntries.toFinset cvPs ⟨6, -1⟩ k Ls) ∧ ∀ Ls, Search cost out cvEntries.toFinset cvPs ⟨6, -1⟩ k Ls → Ls = [] := by
  have hne : ∀ out, Returns cvChem cvAll cvEntries 2 out → out ≠ [] := by
    rintro out h rfl
    obtain ⟨x, hx, _⟩ := (allowed_iff cvChem cvLawful cvSymbols cvAll cvPlain cvEntries (by decide +kernel) cvSharp 2 [] h _).mp
      (cvAllowed _ (List.mem_cons_self))
    simp at hx
  refine ⟨cvAllowed, by decide +kernel, by decide +kernel, ?_, ?_⟩
  · obtain ⟨out, h⟩ := cvReturns cvEntries 2 cvAll
    exact ⟨out, h, hne out h⟩
  · intro out h cost hcost k
    refine ⟨C133_runs out cost hcost cvEntries.toFinset cvPs (by decide +kernel) ⟨6, -1⟩ (by decide +kernel) k (hne out h) (by decide +kernel), fun Ls hs => ?_⟩
    rw [(C133_find_partial cvChem cvLawful cvSymbols cvAll cvPlain cvEntries (by decide +kernel) cvSharp 2 out h cost hcost cvEntries.toFinset cvPs
      (by decide +kernel) ⟨6, -1⟩ (by decide +kernel) k Ls hs).2.2.1]
    intro qs hq
    exact cvNoRuns qs ∅ hq.1 (by simp) (by simp) hq.2

/-- A, B and AB in either order: both searches find AB, at the same cost, which is at most that of A + B → AB. -/
example : ∃ out out' Ls Ls', Returns exChem exAll exThree 2 out ∧ Returns exChem exAll exThree.reverse 2 out' ∧
    Search (fun q => q.1.card) out exThree.toFinset [⟨0, -1⟩, ⟨1, -1⟩] ⟨2, -3⟩ 3 Ls ∧
    Search (fun q => q.1.card) out' exThree.toFinset [⟨1, -1⟩, ⟨0, -1⟩] ⟨2, -3⟩ 5 Ls' ∧
    ∃ rs rs', Ls.head? = some rs ∧ Ls'.head? = some rs' ∧ ((rs.map sides).map fun q => (q.1.card : ℚ)).sum ≤ 2 ∧
      ((rs.map sides).map fun q => (q.1.card : ℚ)).sum = ((rs'.map sides).map fun q => (q.1.card : ℚ)).sum := by
  obtain ⟨out, h⟩ := exReturns exThree 2 exAll
  obtain ⟨out', h'⟩ := exReturns exThree.reverse 2 exAll
  have hc : ∀ q : Step (Fin 4), (0 : ℚ) ≤ q.1.card := fun q => Nat.cast_nonneg _
  have hal : Allowed exChem exAll exThree 2 (([⟨0, -1⟩, ⟨1, -1⟩] : List (Entry (Fin 4))).toFinset, ([⟨2, -3⟩] : List (Entry (Fin 4))).toFinset) :=
    ⟨_, _, _, _, rfl, exSought⟩
  have hal' : Allowed exChem exAll exThree.reverse 2
      (([⟨0, -1⟩, ⟨1, -1⟩] : List (Entry (Fin 4))).toFinset, ([⟨2, -3⟩] : List (Entry (Fin 4))).toFinset) :=
    ⟨_, _, _, _, rfl, exSought.entries (by decide +kernel) (le_refl _) (Looser.refl _) exPlain.closed exPlain.closed⟩
  have hsharp' : Sharp exChem exThree.reverse := fun r p h1 h2 => exSharp r p h1 fun x hx => List.mem_reverse.mp (h2 x hx)
  have hne : out ≠ [] := by
    rintro rfl
    obtain ⟨x, hx, _⟩ := (allowed_iff exChem exLawful exSymbols exAll exPlain exThree (by decide) exSharp 2 [] h _).mp hal
    simp at hx
  have hne' : out' ≠ [] := by
    rintro rfl
    obtain ⟨x, hx, _⟩ := (allowed_iff exChem exLawful exSymbols exAll exPlain exThree.reverse (by decide) hsharp' 2 [] h' _).mp hal'
    simp at hx
  obtain ⟨Ls, hs⟩ := C133_runs out (fun q => q.1.card) hc exThree.toFinset [⟨0, -1⟩, ⟨1, -1⟩] (by simp) ⟨2, -3⟩ (by decide +kernel) 3 hne (by decide +kernel)
  obtain ⟨Ls', hs'⟩ := C133_runs out' (fun q => q.1.card) hc exThree.toFinset [⟨1, -1⟩, ⟨0, -1⟩] (by simp) ⟨2, -3⟩ (by decide +kernel) 5 hne' (by decide +kernel)
  obtain ⟨_, _, a3, a4⟩ := C133_find_partial exChem exLawful exSymbols exAll exPlain exThree (by decide) exSharp 2 out h _ hc exThree.toFinset
    [⟨0, -1⟩, ⟨1, -1⟩] (by simp) ⟨2, -3⟩ (by decide +kernel) 3 Ls hs
  obtain ⟨hb, hcst⟩ := C133_same exChem exLawful exSymbols exAll exPlain exThree _ (List.reverse_perm _).symm (by decide) exSharp 2 out out' h h' _ hc
    exThree.toFinset [⟨0, -1⟩, ⟨1, -1⟩] [⟨1, -1⟩, ⟨0, -1⟩] (by simp) (by decide +kernel) ⟨2, -3⟩ (by decide +kernel) 3 5 Ls Ls' hs hs'
  have hroute : Route exChem exAll exThree 2 ([⟨0, -1⟩, ⟨1, -1⟩] : List (Entry (Fin 4))).toFinset ⟨2, -3⟩
      [(([⟨0, -1⟩, ⟨1, -1⟩] : List (Entry (Fin 4))).toFinset, ([⟨2, -3⟩] : List (Entry (Fin 4))).toFinset)] :=
    ⟨fun q hq => by rw [List.mem_singleton.mp hq]; exact hal, by constructor <;> decide +kernel⟩
  have hLs : Ls ≠ [] := fun h0 => a3.mp h0 _ hroute
  have hLs' : Ls' ≠ [] := fun h0 => hLs (hb.mpr h0)
  obtain ⟨rs, l, rfl⟩ := List.exists_cons_of_ne_nil hLs
  obtain ⟨rs', l', rfl⟩ := List.exists_cons_of_ne_nil hLs'
  refine ⟨out, out', _, _, h, h', hs, hs', rs, rs', rfl, rfl, ?_, hcst rs rs' rfl rfl⟩
  have := a4 rs rfl _ hroute
  have e : ((([⟨0, -1⟩, ⟨1, -1⟩] : List (Entry (Fin 4))).toFinset.card : ℕ) : ℚ) = 2 := by decide +kernel
  simp only [List.map_cons, List.map_nil, List.sum_cons, List.sum_nil, e] at this
  linarith

end Verif.Props.EndToEnd
