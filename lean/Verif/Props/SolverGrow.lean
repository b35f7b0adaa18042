import Verif.Props.SolverChunks

/-!
Property C153: a larger solver run (more candidates, more reactions per pathway, no interdependence filter) returns every pathway of the smaller
one, and its best pathway is not more expensive (src/rxn_network/pathways/solver.py).
-/

set_option linter.unusedSectionVars false

namespace Verif.Props.SolverGrow
open Verif.Py Verif.Model.RxnSet Verif.Model.Pathway Verif.Model.Solver Verif.Lemmas.Exc Verif.Lemmas.Solver
  Verif.Props.Utils Verif.Props.Solver Verif.Props.SolverChunks Verif.Lemmas

variable {η δ ε κ : Type} [DecidableEq η] [DecidableEq κ]

/-! ### Specification -/

/-- What the user gives to a run: pathways from the network, intermediate reactions with costs, the largest number of reactions, the filter, and
which reactions the duplicate filter keeps. -/
structure Input (η δ ε : Type) where
  paths : List (Path (SRxn η δ ε))
  inter : List (SRxn η δ ε × ℚ)
  maxCombos : ℕ
  filterInter : Bool
  keep : List (SRxn η δ ε × ℚ) → SRxn η δ ε → Bool

/-- All reactions offered, in the order in which they are given. -/
def Input.offered (i : Input η δ ε) : List (SRxn η δ ε × ℚ) := (i.paths.flatMap fun p => p.reactions.zip p.costs) ++ i.inter

/-- The run. -/
def Input.run (i : Input η δ ε) (c : Config η δ ε κ) (net : SRxn η δ ε) (precursors : Finset κ) : Except Err (List (Path (SRxn η δ ε))) :=
  solve c true i.keep i.paths i.inter net precursors i.maxCombos i.filterInter

/-- `j` offers the reactions of `i` and further ones that are given later, or that equal none of those of `i`. -/
def Extends (eq : SRxn η δ ε → SRxn η δ ε → Bool) (l l' : List (SRxn η δ ε × ℚ)) : Prop :=
  (∃ more, l' = l ++ more) ∨
  ∃ p : SRxn η δ ε × ℚ → Bool, l = l'.filter p ∧ ∀ a ∈ l', ∀ b ∈ l', p a = true → p b = false → eq b.1 a.1 = false

/-- `j` is at least as wide a search as `i`; the duplicate filter treats the reactions of `i` as before. -/
structure Wider (c : Config η δ ε κ) (i j : Input η δ ε) : Prop where
  offered : Extends c.eq i.offered j.offered
  combos : i.maxCombos ≤ j.maxCombos
  filter : j.filterInter = true → i.filterInter = true
  keep : ∀ a ∈ i.offered, i.keep (collectRxns c.eq [] i.offered) a.1 = j.keep (collectRxns c.eq [] j.offered) a.1

/-- The mean cost of a pathway per unit of multiplicity. -/
def MeanCost {ρ : Type} (p : Path ρ) (m : ℚ) : Prop :=
  ∃ w, p.coefficients = some w ∧ w.length = p.costs.length ∧ w.sum ≠ 0 ∧ m * w.sum = (w.zipWith (· * ·) p.costs).sum

/-! ### Helper lemmas: candidates -/

theorem collect_append {ρ : Type} (eq : ρ → ρ → Bool) : ∀ (l₁ l₂ acc : List (ρ × ℚ)),
    collectRxns eq acc (l₁ ++ l₂) = collectRxns eq (collectRxns eq acc l₁) l₂
  | [], l₂, acc => rfl
  | rc :: l₁, l₂, acc => by
    rw [List.cons_append, collectRxns, collectRxns]
    split
    · exact collect_append eq l₁ l₂ acc
    · exact collect_append eq l₁ l₂ _

theorem collect_prefix {ρ : Type} (eq : ρ → ρ → Bool) : ∀ (l acc : List (ρ × ℚ)), ∃ t, collectRxns eq acc l = acc ++ t
  | [], acc => ⟨[], by simp [collectRxns]⟩
  | rc :: l, acc => by
    unfold collectRxns
    split
    · exact collect_prefix eq l acc
    · obtain ⟨t, ht⟩ := collect_prefix eq l (acc ++ [rc])
      exact ⟨rc :: t, by rw [ht]; simp⟩

theorem collect_filter {ρ : Type} (eq : ρ → ρ → Bool) (p : ρ × ℚ → Bool) : ∀ (l acc : List (ρ × ℚ)),
    (∀ a ∈ l, ∀ b ∈ acc ++ l, p a = true → p b = false → eq b.1 a.1 = false) →
    collectRxns eq (acc.filter p) (l.filter p) = (collectRxns eq acc l).filter p
  | [], acc, _ => rfl
  | rc :: l, acc, h => by
    have hr : ∀ acc', (∀ b ∈ acc', b ∈ acc ++ rc :: l) → ∀ a ∈ l, ∀ b ∈ acc' ++ l, p a = true → p b = false → eq b.1 a.1 = false := by
      intro acc' hacc a ha b hb
      refine h a (List.mem_cons_of_mem _ ha) b ?_
      rcases List.mem_append.mp hb with hb | hb
      · exact hacc b hb
      · exact List.mem_append.mpr (Or.inr (List.mem_cons_of_mem _ hb))
    have ih1 := collect_filter eq p l acc (hr acc fun b hb => List.mem_append.mpr (Or.inl hb))
    have ih2 := collect_filter eq p l (acc ++ [rc]) (hr _ fun b hb => by
      rcases List.mem_append.mp hb with hb | hb
      · exact List.mem_append.mpr (Or.inl hb)
      · rw [List.mem_singleton] at hb; subst hb; simp)
    cases hp : p rc with
    | false =>
      rw [List.filter_cons_of_neg (by simp [hp])]
      rw [List.filter_append, List.filter_cons_of_neg (by simp [hp]), List.filter_nil, List.append_nil] at ih2
      conv_rhs => unfold collectRxns
      split
      · exact ih1
      · exact ih2
    | true =>
      rw [List.filter_cons_of_pos hp]
      rw [List.filter_append, List.filter_cons_of_pos hp, List.filter_nil] at ih2
      have hany : (acc.filter p).any (fun a => eq a.1 rc.1) = acc.any fun a => eq a.1 rc.1 := by
        rw [Bool.eq_iff_iff, List.any_eq_true, List.any_eq_true]
        constructor
        · rintro ⟨a, ha, he⟩; exact ⟨a, (List.mem_filter.mp ha).1, he⟩
        · rintro ⟨a, ha, he⟩
          refine ⟨a, List.mem_filter.mpr ⟨ha, ?_⟩, he⟩
          by_contra hn
          have := h rc List.mem_cons_self a (List.mem_append.mpr (Or.inl ha)) hp (by simpa using hn)
          rw [this] at he; cases he
      conv_lhs => unfold collectRxns
      conv_rhs => unfold collectRxns
      rw [hany]
      split
      · exact ih1
      · exact ih2

theorem collect_sublist (eq : SRxn η δ ε → SRxn η δ ε → Bool) (l l' : List (SRxn η δ ε × ℚ)) (h : Extends eq l l') :
    (collectRxns eq [] l).Sublist (collectRxns eq [] l') := by
  rcases h with ⟨more, rfl⟩ | ⟨p, rfl, h⟩
  · rw [collect_append]
    obtain ⟨t, ht⟩ := collect_prefix eq more (collectRxns eq [] l)
    rw [ht]; exact List.sublist_append_left _ _
  · have := collect_filter eq p l' [] (by simpa using h)
    rw [List.filter_nil] at this
    rw [this]
    exact List.filter_sublist

theorem cands_eq (c : Config η δ ε κ) (i : Input η δ ε) :
    collectRxns c.eq (collectRxns c.eq [] (pathPairs i.paths)) i.inter = collectRxns c.eq [] i.offered := by
  unfold Input.offered pathPairs
  rw [collect_append]

/-! ### Helper lemmas: matrices -/

theorem steps_combo (idx : η → ℕ) (n : ℕ) (rxns steps : List (SRxn η δ ε)) (hs : steps.Sublist rxns) (mat : Mat)
    (h : List.Forall₂ (fun s row => idxVector idx n s = .ok row) steps mat) :
    ∃ combo, combo.Sublist (List.range rxns.length) ∧ combo.length = steps.length ∧ matOf idx n rxns combo = .ok mat := by
  have hall : (List.range rxns.length).map (fun i => rxns[i]?) = rxns.map some := by
    apply List.ext_getElem
    · simp
    · intro i h1 h2
      simp only [List.length_map] at h2
      rw [List.getElem_map, List.getElem_map, List.getElem_range, List.getElem?_eq_getElem h2]
  have hsub := hs.map some
  rw [← hall] at hsub
  obtain ⟨combo, hc, heq⟩ := List.sublist_map_iff.mp hsub
  have hlen : combo.length = steps.length := by
    have := congrArg List.length heq
    simpa using this.symm
  refine ⟨combo, hc, hlen, ?_⟩
  unfold matOf
  rw [mapM_ok]
  clear hc hsub hall hlen hs
  induction h generalizing combo with
  | nil =>
    cases combo with
    | nil => exact .nil
    | cons i l => simp at heq
  | @cons s row steps mat h1 _ ih =>
    cases combo with
    | nil => simp at heq
    | cons i l =>
      rw [List.map_cons, List.map_cons, List.cons.injEq] at heq
      refine .cons ?_ (ih l heq.2)
      unfold getIdx
      rw [← heq.1]
      exact h1

theorem canon_mono (idx : η → ℕ) (n : ℕ) {rxns rxns' : List (SRxn η δ ε)} (hs : rxns.Sublist rxns') (net : List ℚ) (k : ℕ) (m : Mat)
    (h : m ∈ canon idx n rxns net k) : m ∈ canon idx n rxns' net k := by
  unfold canon matsOf at h ⊢
  obtain ⟨h1, h2⟩ := List.mem_filter.mp h
  obtain ⟨combo, hc, hm⟩ := List.mem_filterMap.mp h1
  rw [opt_ok] at hm
  rw [mem_combinations] at hc
  obtain ⟨steps, hst, hf⟩ := matOf_steps idx n rxns combo hc.1 m hm
  have hl : steps.length = combo.length := by
    rw [hf.length_eq]
    unfold matOf at hm
    rw [mapM_ok] at hm
    exact hm.length_eq.symm
  obtain ⟨combo', h3, h4, h5⟩ := steps_combo idx n rxns' steps (hst.trans hs) m hf
  exact List.mem_filter.mpr ⟨List.mem_filterMap.mpr ⟨combo', mem_combinations.mpr ⟨h3, by rw [h4, hl, hc.2]⟩, opt_ok.mpr h5⟩, h2⟩

theorem allMats_mono (c : Config η δ ε κ) {rxns rxns' : List (SRxn η δ ε)} (hs : rxns.Sublist rxns') (net : List ℚ) {k k' : ℕ} (hk : k ≤ k')
    (m : Mat) (h : m ∈ allMats c net k rxns) : m ∈ allMats c net k' rxns' := by
  unfold allMats at h ⊢
  obtain ⟨l, hl, hm⟩ := List.mem_flatten.mp h
  obtain ⟨h1, h2⟩ := List.mem_filter.mp hl
  obtain ⟨s, hs1, rfl⟩ := List.mem_map.mp h1
  refine List.mem_flatten.mpr ⟨canon c.idx c.entries.length rxns' net s, List.mem_filter.mpr ⟨List.mem_map.mpr ⟨s, ?_, rfl⟩, ?_⟩,
    canon_mono _ _ hs _ _ _ hm⟩
  · rw [List.mem_range'_1] at hs1 ⊢; omega
  · unfold anyNonzero at h2 ⊢
    rw [List.any_eq_true] at h2 ⊢
    obtain ⟨x, hx, hy⟩ := h2
    exact ⟨x, canon_mono _ _ hs _ _ _ hx, hy⟩

theorem accOf_mem (pinv : Mat → List ℚ → Except Err (List ℚ)) (net : List ℚ) {a b : List Mat} (h : ∀ m ∈ a, m ∈ b) :
    ∀ x ∈ accOf pinv net a, x ∈ accOf pinv net b := by
  intro x hx
  unfold accOf at hx ⊢
  obtain ⟨y, hy, hyx⟩ := List.mem_filterMap.mp hx
  obtain ⟨m, hm, hmy⟩ := List.mem_filterMap.mp hy
  exact List.mem_filterMap.mpr ⟨y, List.mem_filterMap.mpr ⟨m, h m hm, hmy⟩, hyx⟩

/-! ### Helper lemmas: the parts of a run -/

theorem run_parts {c : Config η δ ε κ} {i : Input η δ ε} {net : SRxn η δ ε} {pre : Finset κ} {out : List (Path (SRxn η δ ε))}
    (h : i.run c net pre = .ok out) :
    ∃ cleaned sols ps ks, cleaned = (collectRxns c.eq [] i.offered).filter (fun a => i.keep (collectRxns c.eq [] i.offered) a.1 && !c.eq a.1 net) ∧
      solutions c net i.maxCombos (cleaned.map Prod.fst) = .ok sols ∧ sols.mapM (pathFrom c.eq c.entries c.data c.mu cleaned) = .ok ps ∧
      (c.pick (if i.filterInter then ps.filter fun p => !interdependent c.order c.R c.P pre p.reactions else ps)).mapM keyed = .ok ks ∧
      out = (ks.insertionSort fun a b => a.1 ≤ b.1).map Prod.snd := by
  unfold Input.run solve at h
  simp only [Bool.not_true, Bool.false_eq_true, if_false] at h
  rw [cands_eq] at h
  split at h
  · cases h
  · rename_i cleaned hcl
    split at h
    · cases h
    · rename_i sols hsol
      unfold finish at h
      split at h
      · cases h
      · rename_i ps hps
        split at h
        · cases h
        · rename_i ks hks
          rw [Except.ok.injEq] at h
          refine ⟨cleaned, sols, ps, ks, ?_, hsol, hps, hks, h.symm⟩
          unfold clean at hcl
          split at hcl
          · cases hcl
          · rw [Except.ok.injEq] at hcl; exact hcl.symm

/-- A kept pathway, before `set` and sorting. -/
theorem out_mem {c : Config η δ ε κ} {ps : List (Path (SRxn η δ ε))} {ks : List (ℚ × Path (SRxn η δ ε))}
    (hks : (c.pick ps).mapM keyed = .ok ks) (p : Path (SRxn η δ ε)) :
    p ∈ (ks.insertionSort fun a b => a.1 ≤ b.1).map Prod.snd ↔ p ∈ c.pick ps := by
  constructor
  · intro hp
    obtain ⟨x, hx, rfl⟩ := List.mem_map.mp hp
    rw [List.mem_insertionSort] at hx
    obtain ⟨p, hp, hkp⟩ := mapM_mem _ _ _ hks x hx
    rw [(keyed_ok p x hkp).1]; exact hp
  · intro hp
    obtain ⟨y, hy, hky⟩ := mapM_at _ _ _ hks p hp
    exact List.mem_map.mpr ⟨y, (List.mem_insertionSort _).mpr hy, (keyed_ok p y hky).1⟩

/-- What the two runs have in common. -/
theorem found_again {c c' : Config η δ ε κ} (hs : SameTask c c') (hu : Usable c) (hu' : Usable c') {i j : Input η δ ε} (hw : Wider c i j)
    {net : SRxn η δ ε} {cleaned cleaned' : List (SRxn η δ ε × ℚ)}
    (hc : cleaned = (collectRxns c.eq [] i.offered).filter (fun a => i.keep (collectRxns c.eq [] i.offered) a.1 && !c.eq a.1 net))
    (hc' : cleaned' = (collectRxns c'.eq [] j.offered).filter (fun a => j.keep (collectRxns c'.eq [] j.offered) a.1 && !c'.eq a.1 net))
    {sols sols' : List (Mat × List ℚ)} (h : solutions c net i.maxCombos (cleaned.map Prod.fst) = .ok sols)
    (h' : solutions c' net j.maxCombos (cleaned'.map Prod.fst) = .ok sols') : cleaned.Sublist cleaned' ∧ ∀ x ∈ sols, x ∈ sols' := by
  have hsub : cleaned.Sublist cleaned' := by
    rw [hc, hc', ← hs.eq]
    have h1 := (collect_sublist c.eq _ _ hw.offered).filter
      (fun a => j.keep (collectRxns c.eq [] j.offered) a.1 && !c.eq a.1 net)
    rw [List.filter_congr (q := fun a => j.keep (collectRxns c.eq [] j.offered) a.1 && !c.eq a.1 net)]
    · exact h1
    · intro a ha
      rw [hw.keep a]
      rcases collectRxns_mem c.eq _ _ a ha with ha | ha
      · simp at ha
      · exact ha
  refine ⟨hsub, ?_⟩
  obtain ⟨netV, hn, -, hp⟩ := solutions_ok c hu net _ _ _ h
  obtain ⟨netV', hn', -, hp'⟩ := solutions_ok c' hu' net _ _ _ h'
  rw [← hs.idx, ← hs.entries, hn] at hn'
  cases hn'
  intro x hx
  rw [hp'.mem_iff, ← hs.pinv]
  refine accOf_mem _ _ ?_ x (hp.mem_iff.mp hx)
  intro m hm
  have := allMats_mono c (hsub.map Prod.fst) netV hw.combos m hm
  unfold allMats at this ⊢
  rw [← hs.idx, ← hs.entries]
  exact this

theorem pathFrom_parts {eq : SRxn η δ ε → SRxn η δ ε → Bool} {es : List η} {data : δ} {mu : List (ε × ℚ)} {cleaned : List (SRxn η δ ε × ℚ)}
    {x : Mat × List ℚ} {p : Path (SRxn η δ ε)} (h : pathFrom eq es data mu cleaned x = .ok p) :
    ∃ rs, x.1.mapM (rebuild es data mu) = .ok rs ∧ p = ⟨rs, rs.filterMap (costOf eq cleaned), some x.2, true⟩ := by
  unfold pathFrom at h
  rw [map_ok] at h
  obtain ⟨rs, h1, h2⟩ := h
  exact ⟨rs, h1, h2.symm⟩

/-! ### The property -/

/-- **C153, nothing is lost.** Two successful runs with the same task, the second at least as wide: every pathway of the first is represented in
the second by one with the same multiplicities and equal steps. -/
theorem C153_kept_partial (c c' : Config η δ ε κ) (hs : SameTask c c') (hu : Usable c) (hu' : Usable c') (hsub : ∀ l, ∀ q ∈ c.pick l, q ∈ l)
    (hpick : PickSpec c'.eq c'.pick) (i j : Input η δ ε) (hw : Wider c i j) (net : SRxn η δ ε) (precursors : Finset κ)
    (out out' : List (Path (SRxn η δ ε))) (h : i.run c net precursors = .ok out) (h' : j.run c' net precursors = .ok out') :
    ∀ p ∈ out, ∃ q ∈ out', q.coefficients = p.coefficients ∧ List.Forall₂ (fun a b => a = b ∨ c.eq a b = true) q.reactions p.reactions := by
  obtain ⟨cl, sols, ps, ks, hcl, hsol, hps, hks, rfl⟩ := run_parts h
  obtain ⟨cl', sols', ps', ks', hcl', hsol', hps', hks', rfl⟩ := run_parts h'
  obtain ⟨hsubl, hin⟩ := found_again hs hu hu' hw hcl hcl' hsol hsol'
  intro p hp
  rw [out_mem hks] at hp
  have hp := hsub _ _ hp
  have hpm : p ∈ ps ∧ (i.filterInter = true → interdependent c.order c.R c.P precursors p.reactions = false) := by
    split_ifs at hp with hf
    · have := List.mem_filter.mp hp
      exact ⟨this.1, fun _ => by simpa using this.2⟩
    · exact ⟨hp, fun hf' => absurd hf' hf⟩
  obtain ⟨x, hx, hxp⟩ := mapM_mem _ _ _ hps p hpm.1
  obtain ⟨p', hp', hxp'⟩ := mapM_at _ _ _ hps' x (hin x hx)
  obtain ⟨rs, hrs, rfl⟩ := pathFrom_parts hxp
  rw [← hs.eq, ← hs.entries, ← hs.data, ← hs.mu] at hxp'
  obtain ⟨rs', hrs', rfl⟩ := pathFrom_parts hxp'
  rw [hrs] at hrs'
  cases hrs'
  have hl : (⟨rs, rs.filterMap (costOf c.eq cl'), some x.2, true⟩ : Path (SRxn η δ ε)) ∈
      (if j.filterInter then ps'.filter fun p => !interdependent c'.order c'.R c'.P precursors p.reactions else ps') := by
    rw [← hs.order, ← hs.R, ← hs.P]
    split_ifs with hf
    · exact List.mem_filter.mpr ⟨hp', by simpa using hpm.2 (hw.filter hf)⟩
    · exact hp'
  obtain ⟨q, hq, hq1, hq2⟩ := hpick.rep _ _ hl
  exact ⟨q, (out_mem hks' q).mpr hq, hq1, by rw [hs.eq]; exact hq2⟩

/-- The first candidate equal to a reaction is the same in both runs. -/
theorem cost_same {eq : SRxn η δ ε → SRxn η δ ε → Bool} (he : Equivalence fun a b => eq a b = true) {cl cl' : List (SRxn η δ ε × ℚ)}
    (hsub : cl.Sublist cl') (hpw : cl'.Pairwise fun a b => eq a.1 b.1 = false) {r r' : SRxn η δ ε} (hr : r' = r ∨ eq r' r = true) {v : ℚ}
    (h : costOf eq cl r = some v) : costOf eq cl' r' = some v := by
  unfold costOf at h ⊢
  rw [Option.map_eq_some_iff] at h ⊢
  obtain ⟨a, ha, rfl⟩ := h
  have ha1 := List.mem_of_find?_eq_some ha
  have ha2 : eq a.1 r = true := by simpa using List.find?_some ha
  have hrr : eq r r' = true := by
    rcases hr with rfl | hr
    · exact he.refl _
    · exact he.symm hr
  refine ⟨a, ?_, rfl⟩
  have ha3 : eq a.1 r' = true := he.trans ha2 hrr
  obtain ⟨l₁, l₂, hl⟩ := List.append_of_mem (hsub.subset ha1)
  rw [hl, List.find?_append, List.find?_eq_none.mpr, Option.none_or, List.find?_cons, ha3]
  intro b hb hbr
  rw [hl, List.pairwise_append] at hpw
  have h1 := hpw.2.2 b hb a List.mem_cons_self
  have h2 : eq b.1 a.1 = true := he.trans hbr (he.symm ha3)
  rw [h1] at h2; cases h2

theorem costs_same {eq : SRxn η δ ε → SRxn η δ ε → Bool} (he : Equivalence fun a b => eq a b = true) {cl cl' : List (SRxn η δ ε × ℚ)}
    (hsub : cl.Sublist cl') (hpw : cl'.Pairwise fun a b => eq a.1 b.1 = false) {rs rs' : List (SRxn η δ ε)}
    (h : List.Forall₂ (fun a b => a = b ∨ eq a b = true) rs' rs) (hall : (rs.filterMap (costOf eq cl)).length = rs.length) :
    rs'.filterMap (costOf eq cl') = rs.filterMap (costOf eq cl) := by
  induction h with
  | nil => rfl
  | @cons a b rs' rs hab h ih =>
    cases hb : costOf eq cl b with
    | none =>
      rw [List.filterMap_cons_none hb, List.length_cons] at hall
      have := List.length_filterMap_le (costOf eq cl) rs
      omega
    | some v =>
      rw [List.filterMap_cons_some hb] at hall ⊢
      rw [List.filterMap_cons_some (cost_same he hsub hpw hab hb), ih (by simpa using hall)]

theorem keyed_mean {ρ : Type} {p : Path ρ} {x : ℚ × Path ρ} (h : keyed p = .ok x) : MeanCost p x.1 := by
  unfold keyed at h
  cases hc : p.coefficients with
  | none => rw [hc] at h; cases h
  | some m =>
    rw [hc] at h
    simp only at h
    rw [map_ok] at h
    obtain ⟨a, ha, rfl⟩ := h
    unfold averageCost at ha
    split at ha
    · cases ha
    · split at ha
      · cases ha
      · rename_i h1 h2
        rw [Except.ok.injEq] at ha
        subst ha
        exact ⟨m, hc, not_not.mp h1, h2, div_mul_cancel₀ _ h2⟩

/-- **C153, same costs.** If equality of reactions is an equivalence, the representative has the same costs of its steps, hence the same mean
cost. -/
theorem C153_costs_partial (c c' : Config η δ ε κ) (hs : SameTask c c') (hu : Usable c) (hu' : Usable c') (hsub : ∀ l, ∀ q ∈ c.pick l, q ∈ l)
    (hpick : PickSpec c'.eq c'.pick) (he : Equivalence fun a b => c.eq a b = true)
    (hpinv : ∀ m v w, c.pinv m v = .ok w → w.length = m.length) (i j : Input η δ ε) (hw : Wider c i j) (net : SRxn η δ ε) (precursors : Finset κ)
    (out out' : List (Path (SRxn η δ ε))) (h : i.run c net precursors = .ok out) (h' : j.run c' net precursors = .ok out') :
    ∀ p ∈ out, ∃ q ∈ out', q.coefficients = p.coefficients ∧ q.costs = p.costs ∧
      List.Forall₂ (fun a b => a = b ∨ c.eq a b = true) q.reactions p.reactions := by
  intro p hp
  obtain ⟨q, hq, hq1, hq2⟩ := C153_kept_partial c c' hs hu hu' hsub hpick i j hw net precursors out out' h h' p hp
  refine ⟨q, hq, hq1, ?_, hq2⟩
  obtain ⟨cl, sols, ps, ks, hcl, hsol, hps, hks, rfl⟩ := run_parts h
  obtain ⟨cl', sols', ps', ks', hcl', hsol', hps', hks', rfl⟩ := run_parts h'
  obtain ⟨hsubl, hin⟩ := found_again hs hu hu' hw hcl hcl' hsol hsol'
  have mem : ∀ {b : Bool} {l : List (Path (SRxn η δ ε))} {f : Path (SRxn η δ ε) → Bool} {p}, p ∈ (if b then l.filter f else l) → p ∈ l := by
    intro b l f p hp
    split_ifs at hp
    · exact (List.mem_filter.mp hp).1
    · exact hp
  have hp2 := (out_mem hks p).mp hp
  obtain ⟨y, -, hky⟩ := mapM_at _ _ _ hks p hp2
  obtain ⟨w, hw1, hw2, -, -⟩ := keyed_mean hky
  obtain ⟨x, hx, hxp⟩ := mapM_mem _ _ _ hps p (mem (hsub _ _ hp2))
  obtain ⟨x', hx', hxp'⟩ := mapM_mem _ _ _ hps' q (mem (hpick.sub _ _ ((out_mem hks' q).mp hq)))
  obtain ⟨rs, hrs, rfl⟩ := pathFrom_parts hxp
  rw [← hs.eq, ← hs.entries, ← hs.data, ← hs.mu] at hxp'
  obtain ⟨rs', hrs', rfl⟩ := pathFrom_parts hxp'
  have hlen : rs.length = w.length := by
    obtain ⟨netV, -, -, hperm⟩ := solutions_ok c hu net _ _ _ hsol
    have hx2 := hperm.mem_iff.mp hx
    unfold accOf at hx2
    obtain ⟨o, ho, hox⟩ := List.mem_filterMap.mp hx2
    obtain ⟨m, -, hm⟩ := List.mem_filterMap.mp ho
    rw [opt_ok] at hm
    have hox : o = some x := hox
    subst hox
    unfold balanceOne at hm
    split_ifs at hm
    · split at hm
      · cases hm
      · rename_i mult hmult
        rw [Except.ok.injEq] at hm
        split_ifs at hm
        rw [Option.some.injEq] at hm
        subst hm
        rw [Option.some.injEq] at hw1
        subst hw1
        rw [hpinv _ _ _ hmult]
        rw [mapM_ok] at hrs
        exact hrs.length_eq.symm
    · cases hm
  refine costs_same he hsubl ?_ hq2 ?_
  · rw [hcl', ← hs.eq]
    exact (collectRxns_pairwise c.eq _ [] List.Pairwise.nil).filter _
  · rw [hlen]; exact hw2.symm

/-- **C153, the best pathway.** The first pathway of the wider run is not more expensive (mean cost per unit of multiplicity) than any pathway of
the other run. -/
theorem C153_best_partial (c c' : Config η δ ε κ) (hs : SameTask c c') (hu : Usable c) (hu' : Usable c') (hsub : ∀ l, ∀ q ∈ c.pick l, q ∈ l)
    (hpick : PickSpec c'.eq c'.pick) (he : Equivalence fun a b => c.eq a b = true)
    (hpinv : ∀ m v w, c.pinv m v = .ok w → w.length = m.length) (i j : Input η δ ε) (hw : Wider c i j) (net : SRxn η δ ε) (precursors : Finset κ)
    (out out' : List (Path (SRxn η δ ε))) (h : i.run c net precursors = .ok out) (h' : j.run c' net precursors = .ok out') :
    ∀ p ∈ out, ∃ best, out'.head? = some best ∧ ∃ m m', MeanCost p m ∧ MeanCost best m' ∧ m' ≤ m := by
  intro p hp
  obtain ⟨q, hq, hq1, hq2, -⟩ := C153_costs_partial c c' hs hu hu' hsub hpick he hpinv i j hw net precursors out out' h h' p hp
  obtain ⟨cl', sols', ps', ks', hcl', hsol', hps', hks', rfl⟩ := run_parts h'
  obtain ⟨x, hx, rfl⟩ := List.mem_map.mp hq
  have key : ∀ x ∈ ks'.insertionSort (fun a b => a.1 ≤ b.1), MeanCost x.2 x.1 := by
    intro x hx
    rw [List.mem_insertionSort] at hx
    obtain ⟨p, hp, hkp⟩ := mapM_mem _ _ _ hks' x hx
    rw [(keyed_ok p x hkp).1]
    exact keyed_mean hkp
  have pw : (ks'.insertionSort fun a b => a.1 ≤ b.1).Pairwise fun a b => a.1 ≤ b.1 := by
    have : Std.Total (fun a b : ℚ × Path (SRxn η δ ε) => a.1 ≤ b.1) := ⟨fun a b => le_total a.1 b.1⟩
    have : IsTrans (ℚ × Path (SRxn η δ ε)) (fun a b => a.1 ≤ b.1) := ⟨fun a b c => le_trans⟩
    exact List.pairwise_insertionSort _ _
  generalize ks'.insertionSort (fun a b => a.1 ≤ b.1) = l at hx key pw
  cases l with
  | nil => simp at hx
  | cons b l =>
    refine ⟨b.2, rfl, x.1, b.1, ?_, key b List.mem_cons_self, ?_⟩
    · obtain ⟨w, h1, h2, h3, h4⟩ := key x hx
      exact ⟨w, by rw [← hq1]; exact h1, by rw [← hq2]; exact h2, h3, by rw [← hq2]; exact h4⟩
    · rcases List.mem_cons.mp hx with rfl | hx
      · exact le_refl _
      · exact (List.pairwise_cons.mp pw).1 x hx

/-! ### Disagreement and examples -/

/-- **C153 (violated).**  Allowing more reactions per pathway than there are candidates makes the run fail instead of returning the pathway. -/
theorem C153_more_combos_violated : ∃ (c : Config ℕ Unit ℕ ℕ) (i j : Input ℕ Unit ℕ), Wider c i j ∧ Usable c ∧ PickSpec c.eq c.pick ∧
    i.run c netAB {0} = .ok [⟨[stepA, stepB], [3, 5], some [1, 1], true⟩] ∧ j.run c netAB {0} = .error .valueError :=
  ⟨exConfig tablePinv 2, ⟨[inPath], [], 2, true, fun _ _ => true⟩, ⟨[inPath], [], 4, true, fun _ _ => true⟩,
    ⟨Or.inl ⟨[], by simp [Input.offered]⟩, by decide, fun h => h, fun _ _ => rfl⟩, ⟨fun _ => lifo_spec, fun _ => lifo_spec, by decide, Or.inl (le_refl 2)⟩,
    ex_pick, by decide +kernel, by decide +kernel⟩

/-- `0 → 1` written for two units. -/
def stepD : SRxn ℕ Unit ℕ := ⟨[0, 1], [-2, 2], (), []⟩

/-- A pseudo-inverse for the wider run. -/
def widePinv (mat : Mat) (_ : List ℚ) : Except Err (List ℚ) :=
  if mat = [[-1, 1, 0], [0, -1, 1]] then .ok [1, 1] else
  if mat = [[-2, 2, 0], [0, -1, 1]] then .ok [1 / 2, 1] else
  if mat = [[0, -1, 1], [-2, 2, 0]] then .ok [1, 1 / 2] else .ok (List.replicate mat.length 0)

def narrow : Input ℕ Unit ℕ := ⟨[inPath], [], 2, true, fun _ _ => true⟩
def wide : Input ℕ Unit ℕ := ⟨[inPath], [(stepD, 1)], 3, false, fun _ _ => true⟩
def front : Input ℕ Unit ℕ := ⟨[⟨[stepD], [1], none, false⟩, inPath], [], 2, true, fun _ _ => true⟩

theorem wide_ok : Wider (exConfig widePinv 2) narrow wide :=
  ⟨Or.inl ⟨[(stepD, 1)], by simp [Input.offered, narrow, wide]⟩, by decide, fun _ => rfl, fun _ _ => rfl⟩

/-- The further reaction may also be found in an earlier pathway. -/
theorem front_ok : Wider (exConfig widePinv 2) narrow front :=
  ⟨Or.inr ⟨fun a => a.1 != stepD, by decide +kernel, by decide +kernel⟩, by decide, fun h => h, fun _ _ => rfl⟩

theorem wide_usable : Usable (exConfig widePinv 2) := ⟨fun _ => lifo_spec, fun _ => lifo_spec, by decide, Or.inl (le_refl 2)⟩

theorem ex_equiv : Equivalence fun a b => (exConfig widePinv 2).eq a b = true := by
  have key : ∀ a b, (exConfig widePinv 2).eq a b = true ↔ ∀ e ∈ List.range 3, Verif.Spec.Solver.amount (pairs a) e = Verif.Spec.Solver.amount (pairs b) e := by
    intro a b
    simp only [exConfig, exEq, List.all_eq_true, decide_eq_true_eq]
  simp only [key]
  exact ⟨fun _ _ _ => rfl, fun h e he => (h e he).symm, fun h h' e he => (h e he).trans (h' e he)⟩

theorem narrow_run : narrow.run (exConfig widePinv 2) netAB {0} = .ok [⟨[stepA, stepB], [3, 5], some [1, 1], true⟩] := by decide +kernel

theorem wide_run : wide.run (exConfig widePinv 2) netAB {0} = .ok [⟨[stepB, stepD], [5, 1], some [1, 1 / 2], true⟩,
    ⟨[stepA, stepB], [3, 5], some [1, 1], true⟩] := by decide +kernel

theorem front_run : front.run (exConfig widePinv 2) netAB {0} = .ok [⟨[stepD, stepB], [1, 5], some [1 / 2, 1], true⟩,
    ⟨[stepA, stepB], [3, 5], some [1, 1], true⟩] := by decide +kernel

theorem wide_pinv : ∀ m v w, (exConfig widePinv 2).pinv m v = .ok w → w.length = m.length := by
  intro m v w h
  change widePinv m v = .ok w at h
  unfold widePinv at h
  split_ifs at h with h1 h2 h3 <;> rw [Except.ok.injEq] at h <;> subst h
  · rw [h1]; rfl
  · rw [h2]; rfl
  · rw [h3]; rfl
  · simp

theorem same : SameTask (exConfig widePinv 2) (exConfig widePinv 2) := ⟨rfl, rfl, rfl, rfl, rfl, rfl, rfl, rfl, rfl⟩

/-- The hypotheses are met by runs that return pathways, and the wider run has a cheaper one (costs 5 and 1 in ratio 2:1, mean 11/3) in front. -/
example : ∃ q ∈ [(⟨[stepB, stepD], [5, 1], some [1, 1 / 2], true⟩ : Path (SRxn ℕ Unit ℕ)), ⟨[stepA, stepB], [3, 5], some [1, 1], true⟩],
    q.coefficients = some [1, 1] ∧ q.costs = [3, 5] ∧
      List.Forall₂ (fun a b => a = b ∨ (exConfig widePinv 2).eq a b = true) q.reactions [stepA, stepB] :=
  C153_costs_partial _ _ same wide_usable wide_usable (fun _ _ h => List.mem_dedup.mp h) ex_pick ex_equiv wide_pinv narrow wide wide_ok netAB {0} _ _
    narrow_run wide_run _ List.mem_cons_self

example : ∃ q ∈ [(⟨[stepD, stepB], [1, 5], some [1 / 2, 1], true⟩ : Path (SRxn ℕ Unit ℕ)), ⟨[stepA, stepB], [3, 5], some [1, 1], true⟩],
    q.coefficients = some [1, 1] ∧ List.Forall₂ (fun a b => a = b ∨ (exConfig widePinv 2).eq a b = true) q.reactions [stepA, stepB] :=
  C153_kept_partial _ _ same wide_usable wide_usable (fun _ _ h => List.mem_dedup.mp h) ex_pick narrow front front_ok netAB {0} _ _
    narrow_run front_run _ List.mem_cons_self

example : ∃ best, some (⟨[stepB, stepD], [5, 1], some [1, 1 / 2], true⟩ : Path (SRxn ℕ Unit ℕ)) = some best ∧
    ∃ m m', MeanCost (⟨[stepA, stepB], [3, 5], some [1, 1], true⟩ : Path (SRxn ℕ Unit ℕ)) m ∧ MeanCost best m' ∧ m' ≤ m :=
  C153_best_partial _ _ same wide_usable wide_usable (fun _ _ h => List.mem_dedup.mp h) ex_pick ex_equiv wide_pinv narrow wide wide_ok netAB {0} _ _
    narrow_run wide_run _ List.mem_cons_self

end Verif.Props.SolverGrow
