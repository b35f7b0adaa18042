import Verif.Props.ReactionNorm

/-! Properties C16 (equality and hashing) and C18 (`is_separable`). -/

set_option linter.unusedSectionVars false

namespace Verif.Props.Reaction
open Verif.Py Verif.Model Verif.Model.Reaction Verif.Spec.Reaction Verif.Lemmas.Dict Verif.Lemmas.Reaction

variable {κ ε : Type} [DecidableEq κ] [DecidableEq ε]

/-! ### C16 -/

def X3Y : TComp := ![3, 1, 0]
def XY3 : TComp := ![1, 3, 0]
def X2Y : TComp := ![2, 1, 0]
def XY2 : TComp := ![1, 2, 0]

/-- Two different balanced reactions between the same phases, `X3Y + 2 XY3 -> X2Y + 3 XY2` and
`2 X3Y + XY3 -> 3 X2Y + XY2`, compare equal and have equal hashes (also as computed reactions, when their energies per atom
agree), because only the sorted coefficients are compared. -/
theorem C16_different_reactions_counterexample :
    let comps := [X3Y, XY3, X2Y, XY2]
    let entries : List (Entry TComp) := comps.map fun c => ⟨c, 0⟩
    let a := cinit toy entries [-1, -2, 1, 3] [] (some 0)
    let b := cinit toy entries [-2, -1, 3, 1] [] (some 0)
    Conserved toy comps [-1, -2, 1, 3] ∧ Conserved toy comps [-2, -1, 3, 1] ∧
      rxnEq (elements toy comps) (elements toy comps) a.base b.base = .ok true ∧ ceq toy a b = .ok true ∧
      hashKey (elements toy comps) a.base = hashKey (elements toy comps) b.base ∧
      coeffOf a.base.comps a.base.coeffs X3Y = -1 ∧ coeffOf b.base.comps b.base.coeffs X3Y = -2 := by
  refine ⟨?_, ?_, by decide +kernel, by decide +kernel, by decide +kernel, by decide +kernel, by decide +kernel⟩
  · intro e; revert e; decide +kernel
  · intro e; revert e; decide +kernel

/-- Equality uses a tolerance but the hash does not: `A2 -> 2 A` and the same reaction with coefficients larger by one part in
10^9 are equal with different hashes. -/
theorem C16_hash_counterexample :
    let a := init toy [A2, A] [-1, 2] none [] (some 0)
    let b := init toy [A2, A] [-1 - 1/1000000000, 2 + 2/1000000000] none [] (some 0)
    rxnEq (elements toy [A2, A]) (elements toy [A2, A]) a b = .ok true ∧
      hashKey (elements toy [A2, A]) a ≠ hashKey (elements toy [A2, A]) b := by
  decide +kernel

/-- Equality is not symmetric (numpy's relative tolerance only looks at the second argument). -/
theorem C16_not_symmetric_counterexample :
    let t : ℚ := 1 + 1001005 / 100000000000
    let a := init toy [A2, A] [-1/2, 1] none [] (some 0)
    let b := init toy [A2, A] [-t/2, t] none [] (some 0)
    rxnEq (elements toy [A2, A]) (elements toy [A2, A]) a b = .ok true ∧
      rxnEq (elements toy [A2, A]) (elements toy [A2, A]) b a = .ok false := by
  decide +kernel

/-- Comparing reactions with equally many reactants and products but a different number of listed phases (one with an unused
phase) raises instead of returning a truth value. -/
theorem C16_raises_counterexample :
    let a := init toy [A2, A] [-1, 2] none [] (some 0)
    let b := init toy [A2, A, X3Y, XY3] [-1, 2, 0, 0] none [] (some 0)
    rxnEq (elements toy [A2, A, X3Y, XY3]) (elements toy [A2, A, X3Y, XY3]) a b = .error .valueError := by
  decide +kernel

theorem isclose_self (x : ℚ) : isclose x x = true := by
  simp only [isclose, sub_self, abs_zero, decide_eq_true_eq]
  positivity

theorem all_zip_self (l : List ℚ) : (l.zip l).all (fun p => isclose p.1 p.2) = true := by
  rw [List.all_eq_true]
  intro p hp
  have : p.1 = p.2 := by
    induction l with
    | nil => simp at hp
    | cons x l ih =>
      rcases List.mem_cons.mp (by simpa using hp) with h | h
      · rw [h]
      · exact ih h
  rw [this]
  exact isclose_self _

theorem keys_length_perm {p q : List (κ × ℚ)} (h : p.Perm q) :
    ((dictOf p).map Prod.fst).length = ((dictOf q).map Prod.fst).length ∧
      ((dictOf p).map Prod.fst).toFinset = ((dictOf q).map Prod.fst).toFinset := by
  have hm : ∀ k, k ∈ (dictOf p).map Prod.fst ↔ k ∈ (dictOf q).map Prod.fst := by
    intro k
    rw [mem_keys_dictOf, mem_keys_dictOf]
    exact (h.map Prod.fst).mem_iff
  have h1 := (List.perm_ext_iff_of_nodup (nodup_dictOf p) (nodup_dictOf q)).mpr hm
  exact ⟨h1.length_eq, by ext k; simp only [List.mem_toFinset]; exact hm k⟩

/-- The same reaction written with its phases in another order compares equal and has the same hash. -/
theorem C16_same_reaction_equal (X : Chem κ ε) (a b : Rxn κ) (ha : a.comps.length = a.coeffs.length)
    (hb : b.comps.length = b.coeffs.length) (h : (a.comps.zip a.coeffs).Perm (b.comps.zip b.coeffs)) :
    rxnEq (elements X a.comps) (elements X b.comps) a b = .ok true ∧
      hashKey (elements X a.comps) a = hashKey (elements X b.comps) b := by
  have hc : a.coeffs.Perm b.coeffs := by
    have := h.map Prod.snd
    rwa [List.map_snd_zip (by omega), List.map_snd_zip (by omega)] at this
  have hk : a.comps.Perm b.comps := by
    have := h.map Prod.fst
    rwa [List.map_fst_zip (by omega), List.map_fst_zip (by omega)] at this
  have hsys : chemsys (elements X a.comps) = chemsys (elements X b.comps) := by
    unfold chemsys
    ext e
    simp only [List.mem_toFinset, mem_elements]
    exact ⟨fun ⟨c, h1, h2⟩ => ⟨c, hk.mem_iff.mp h1, h2⟩, fun ⟨c, h1, h2⟩ => ⟨c, hk.mem_iff.mpr h1, h2⟩⟩
  have hsort := sorted_eq_of_perm hc
  have hp : (products a).length = (products b).length ∧ (products a).toFinset = (products b).toFinset :=
    keys_length_perm (h.filter fun p => 0 < p.2)
  have hr : (reactants a).length = (reactants b).length ∧ (reactants a).toFinset = (reactants b).toFinset :=
    keys_length_perm (h.filter fun p => p.2 < 0)
  constructor
  · unfold rxnEq
    rw [if_neg (not_not.mpr hsys), if_neg (not_not.mpr hp.1), if_neg (not_not.mpr hr.1), hsort]
    simp only [allclose, if_true, all_zip_self]
    rw [if_neg (not_not.mpr hr.2)]
    have hp2 : (products a).toFinset = (products b).toFinset := hp.2
    simp [hp2]
  · simp [hashKey, hsys, hsort]

example : rxnEq (elements toy [A, B2, AB]) (elements toy [AB, B2, A])
      (init toy [A, B2, AB] [-2, -1, 2] none [] none) (init toy [AB, B2, A] [2, -1, -2] none [] none) = .ok true :=
  (C16_same_reaction_equal toy (init toy [A, B2, AB] [-2, -1, 2] none [] none) (init toy [AB, B2, A] [2, -1, -2] none [] none)
    rfl rfl (List.reverse_perm _).symm).1

/-- What equality does guarantee in general: same chemical system, same phases on each side, coefficients that agree pairwise
after sorting. -/
theorem C16_equal_implies_phases_partial (els₁ els₂ : List ε) (a b : Rxn κ) (h : rxnEq els₁ els₂ a b = .ok true) :
    els₁.toFinset = els₂.toFinset ∧ (reactants a).toFinset = (reactants b).toFinset ∧
      (products a).toFinset = (products b).toFinset ∧ allclose (sorted a.coeffs) (sorted b.coeffs) = .ok true := by
  unfold rxnEq at h
  by_cases h1 : chemsys els₁ = chemsys els₂
  swap
  · rw [if_pos h1] at h; simp at h
  rw [if_neg (not_not.mpr h1)] at h
  by_cases h2 : (products a).length = (products b).length
  swap
  · rw [if_pos h2] at h; simp at h
  rw [if_neg (not_not.mpr h2)] at h
  by_cases h3 : (reactants a).length = (reactants b).length
  swap
  · rw [if_pos h3] at h; simp at h
  rw [if_neg (not_not.mpr h3)] at h
  cases h4 : allclose (sorted a.coeffs) (sorted b.coeffs) with
  | error e => rw [h4] at h; simp at h
  | ok v =>
    rw [h4] at h
    cases v with
    | false => simp at h
    | true =>
      simp only at h
      by_cases h5 : (reactants a).toFinset = (reactants b).toFinset
      swap
      · rw [if_pos h5] at h; simp at h
      rw [if_neg (not_not.mpr h5)] at h
      simp only [Except.ok.injEq, decide_eq_true_eq] at h
      exact ⟨h1, h5, h, rfl⟩

example : (reactants (init toy [A, B2, AB] [-2, -1, 2] none [] none)).toFinset
    = (reactants (init toy [AB, B2, A] [2, -1, -2] none [] none)).toFinset :=
  (C16_equal_implies_phases_partial (elements toy [A, B2, AB]) (elements toy [AB, B2, A]) _ _ (by decide +kernel)).2.1

theorem isclose_int (a b : ℚ) (ha : ∃ m : ℤ, a = m) (hb : ∃ m : ℤ, b = m) (hs : |b| ≤ 90000) (h : isclose a b = true) : a = b := by
  obtain ⟨m, rfl⟩ := ha
  obtain ⟨n, rfl⟩ := hb
  simp only [isclose, decide_eq_true_eq] at h
  have h1 : |(m : ℚ) - n| < 1 := by linarith
  have h2 : |m - n| < 1 := by
    have : ((|m - n| : ℤ) : ℚ) < 1 := by push_cast; exact h1
    exact_mod_cast this
  rw [Int.abs_lt_one_iff] at h2
  have : m = n := by omega
  rw [this]

theorem zip_all_eq (a b : List ℚ) (hl : a.length = b.length) (h : ∀ p ∈ a.zip b, p.1 = p.2) : a = b := by
  induction a generalizing b with
  | nil => cases b with
    | nil => rfl
    | cons y b => simp at hl
  | cons x a ih =>
    cases b with
    | nil => simp at hl
    | cons y b =>
      have h1 := h (x, y) (by simp)
      have h2 := ih b (by simpa using hl) (fun p hp => h p (by simp [hp]))
      simp only at h1
      rw [h1, h2]

/-- For integer coefficients up to 90000, equal reactions do have equal hashes. -/
theorem C16_integer_hash_partial (els₁ els₂ : List ε) (a b : Rxn κ) (hl : a.coeffs.length = b.coeffs.length)
    (ha : ∀ x ∈ a.coeffs, ∃ m : ℤ, x = m) (hb : ∀ x ∈ b.coeffs, ∃ m : ℤ, x = m) (hs : ∀ x ∈ b.coeffs, |x| ≤ 90000)
    (h : rxnEq els₁ els₂ a b = .ok true) : hashKey els₁ a = hashKey els₂ b := by
  obtain ⟨h1, _, _, h4⟩ := C16_equal_implies_phases_partial els₁ els₂ a b h
  have hl' : (sorted a.coeffs).length = (sorted b.coeffs).length := by
    rw [(sorted_perm _).length_eq, (sorted_perm _).length_eq, hl]
  simp only [allclose, hl', if_true, Except.ok.injEq, List.all_eq_true] at h4
  have : sorted a.coeffs = sorted b.coeffs := by
    apply zip_all_eq _ _ hl'
    intro p hp
    have hm := List.of_mem_zip (a := p.1) (b := p.2) hp
    have hpa := (sorted_perm _).mem_iff.mp hm.1
    have hpb := (sorted_perm _).mem_iff.mp hm.2
    exact isclose_int _ _ (ha _ hpa) (hb _ hpb) (hs _ hpb) (h4 p hp)
  simp [hashKey, this, chemsys, h1]

example : hashKey (elements toy [A, B2, AB]) (init toy [A, B2, AB] [-2, -1, 2] none [] none)
    = hashKey (elements toy [AB, B2, A]) (init toy [AB, B2, A] [2, -1, -2] none [] none) :=
  C16_integer_hash_partial _ _ _ _ rfl
    (fun x hx => ⟨x.num, by revert x; change ∀ x ∈ ([-2, -1, 2] : List ℚ), _; decide +kernel⟩)
    (fun x hx => ⟨x.num, by revert x; change ∀ x ∈ ([2, -1, -2] : List ℚ), _; decide +kernel⟩)
    (by change ∀ x ∈ ([2, -1, -2] : List ℚ), _; decide +kernel) (by decide +kernel)

/-- If the listed phases admit only one balanced reaction up to scaling, equality does identify the reactions: every phase has
the same coefficient up to numpy's tolerance. -/
theorem C16_unique_stoichiometry_partial (X : Chem κ ε) (els₁ els₂ : List ε) (a b : Rxn κ) (hcomps : a.comps = b.comps)
    (hn : a.comps.Nodup) (ha : a.comps.length = a.coeffs.length) (hb : b.comps.length = b.coeffs.length)
    (huniq : ∀ v : List ℚ, v.length = a.comps.length → Conserved X a.comps v → ∃ t, v = a.coeffs.map fun c => c * t)
    (hcb : Conserved X b.comps b.coeffs) (hne : reactants a ≠ []) (h : rxnEq els₁ els₂ a b = .ok true) :
    ∀ c, |coeffOf a.comps a.coeffs c - coeffOf b.comps b.coeffs c|
      ≤ 1 / 100000000 + 1 / 100000 * |coeffOf b.comps b.coeffs c| := by
  obtain ⟨t, ht⟩ := huniq b.coeffs (by rw [hcomps, hb]) (by rw [hcomps]; exact hcb)
  obtain ⟨_, hr, _, h4⟩ := C16_equal_implies_phases_partial els₁ els₂ a b h
  have hsa := sidesNodup_of_nodup a.comps a.coeffs hn
  have hsb := sidesNodup_of_nodup b.comps b.coeffs (hcomps ▸ hn)
  -- a reactant of `a` is a reactant of `b`, so the scale factor is positive
  have htpos : 0 < t := by
    obtain ⟨c, hc⟩ := List.exists_mem_of_ne_nil _ hne
    have hc' : c ∈ reactants b := by
      have : c ∈ (reactants a).toFinset := by simpa using hc
      rw [hr] at this; simpa using this
    unfold reactants at hc hc'
    rw [reactantCoeffs_eq _ _ hsa] at hc
    rw [reactantCoeffs_eq _ _ hsb, ht, ← hcomps] at hc'
    obtain ⟨p, hp, rfl⟩ := List.mem_map.mp hc
    obtain ⟨q, hq, hqp⟩ := List.mem_map.mp hc'
    have hp2 := List.mem_filter.mp hp
    have hq2 := List.mem_filter.mp hq
    rw [zip_map_right] at hq2
    obtain ⟨p', hp', rfl⟩ := List.mem_map.mp hq2.1
    have hpp : p' = p := by
      have h1 : (p'.1, p'.2) ∈ a.comps.zip a.coeffs := hp'
      have h2 : (p.1, p.2) ∈ a.comps.zip a.coeffs := hp2.1
      have hnz : ((a.comps.zip a.coeffs).map Prod.fst).Nodup := hn.sublist (map_fst_zip_sublist _ _)
      have e1 := dictGet_eq_some_of_mem _ hnz _ _ h1
      have e2 := dictGet_eq_some_of_mem _ hnz _ _ h2
      simp only at hqp
      rw [hqp, e2] at e1
      simp only [Option.some.injEq] at e1
      exact Prod.ext hqp e1.symm
    subst hpp
    have n1 : p'.2 < 0 := by simpa using hp2.2
    have n2 : p'.2 * t < 0 := by simpa using hq2.2
    by_contra hcon
    push Not at hcon
    exact absurd n2 (not_lt.mpr (mul_nonneg_of_nonpos_of_nonpos n1.le hcon))
  rw [ht, sorted_smul t htpos.le] at h4
  simp only [allclose, List.length_map, if_true, Except.ok.injEq, List.all_eq_true] at h4
  have h5 : ∀ x ∈ a.coeffs, |x - x * t| ≤ 1 / 100000000 + 1 / 100000 * |x * t| := by
    intro x hx
    have hx' := (sorted_perm a.coeffs).mem_iff.mpr hx
    have : (x, x * t) ∈ (sorted a.coeffs).zip ((sorted a.coeffs).map fun c => c * t) := by
      rw [List.zip_map_right]
      apply List.mem_map.mpr
      refine ⟨(x, x), ?_, rfl⟩
      generalize sorted a.coeffs = l at hx'
      clear h4
      induction l with
      | nil => simp at hx'
      | cons y l ih =>
        rcases List.mem_cons.mp hx' with rfl | h'
        · simp
        · simp [ih h']
    have := h4 _ this
    simpa [isclose] using this
  intro c
  rw [ht, ← hcomps, coeffOf_scale]
  by_cases hc : c ∈ a.comps
  · obtain ⟨i, _, hi⟩ := findIdx_coeff a.comps a.coeffs c hn ha hc
    exact h5 _ (List.mem_of_getElem? hi)
  · have h0 : coeffOf a.comps a.coeffs c = 0 := by
      unfold coeffOf
      have : (a.comps.zip a.coeffs).filter (fun p => p.1 = c) = [] := by
        rw [List.filter_eq_nil_iff]
        intro p hp
        simp only [decide_eq_true_eq]
        rintro rfl
        exact hc (List.of_mem_zip (a := p.1) (b := p.2) hp).1
      rw [this]; rfl
    rw [h0]; simp

example : rxnEq (elements toy [A, B2, AB]) (elements toy [AB, A, B2])
    (init toy [A, B2, AB] [-2, -1, 2] none [] (some 0)) (init toy [AB, A, B2] [2, -2, -1] none [] (some 0)) = .ok true := by
  decide +kernel

/-- `2 A + B2 -> 2 AB` has a one-dimensional solution space, so the uniqueness hypothesis is satisfiable. -/
example : ∀ v : List ℚ, v.length = [A, B2, AB].length → Conserved toy [A, B2, AB] v →
    ∃ t, v = ([-2, -1, 2] : List ℚ).map fun c => c * t := by
  intro v hv hc
  match v, hv with
  | [x, y, z], _ =>
    have h0 := hc 0
    have h1 := hc 1
    simp [net, toy, A, B2, AB] at h0 h1
    refine ⟨z / 2, ?_⟩
    simp only [List.map_cons, List.map_nil, List.cons.injEq, and_true]
    refine ⟨by linarith, by linarith, by ring⟩

/-! ### C18 -/

theorem removeAll_ok (ps ts : List κ) (hts : ts.Nodup) (h : ∀ t ∈ ts, t ∈ ps) :
    removeAll ps ts = .ok (ps.filter fun p => p ∉ ts) := by
  induction ts generalizing ps with
  | nil => simp [removeAll]
  | cons t ts ih =>
    simp only [List.nodup_cons] at hts
    simp only [removeAll, h t List.mem_cons_self, if_true]
    rw [ih _ hts.2]
    · rw [List.filter_filter]
      congr 1
      apply List.filter_congr
      intro p _
      simp [Bool.and_comm]
    · intro x hx
      rw [List.mem_filter]
      refine ⟨h x (List.mem_cons_of_mem _ hx), ?_⟩
      simp only [decide_eq_true_eq]
      rintro rfl; exact hts.1 hx

theorem removeAll_keyError (ps ts : List κ) (h : ∃ t ∈ ts, t ∉ ps) : removeAll ps ts = .error .keyError := by
  induction ts generalizing ps with
  | nil => simp at h
  | cons t ts ih =>
    simp only [removeAll]
    split_ifs with ht
    · obtain ⟨x, hx, hxp⟩ := h
      rcases List.mem_cons.mp hx with rfl | hx
      · exact absurd ht hxp
      · exact ih _ ⟨x, hx, fun h' => hxp (List.mem_filter.mp h').1⟩
    · rfl

/-- Complete behaviour of `is_separable` for pairwise distinct compositions.
* No listed phase has the target's composition: `ValueError`.
* Some phase with the target's composition is not a product: `KeyError` (undocumented).
* Otherwise the answer is true exactly when every other product is a common gas or has no element in common with the target
  (all its elements being among the counted elements of the reaction). -/
theorem C18_decision_partial (X : Chem κ ε) (inGases : κ → Bool) (els : List ε) (r : Rxn κ) (target : κ)
    (hn : r.comps.Nodup) :
    ((∀ c ∈ r.comps, X.red c ≠ X.red target) → isSeparable X inGases els r target = .error .valueError) ∧
    ((∃ c ∈ r.comps, X.red c = X.red target ∧ c ∉ products r) → isSeparable X inGases els r target = .error .keyError) ∧
    ((∃ c ∈ r.comps, X.red c = X.red target) → (∀ c ∈ r.comps, X.red c = X.red target → c ∈ products r) →
      ∃ b, isSeparable X inGases els r target = .ok b ∧
        (b = true ↔ ∀ p ∈ products r, X.red p ≠ X.red target →
          inGases p = true ∨ ∀ e ∈ X.elems p, e ∈ els ∧ e ∉ X.elems target)) := by
  refine ⟨?_, ?_, ?_⟩
  · intro h
    have : r.comps.filter (fun c => X.red c = X.red target) = [] := by
      rw [List.filter_eq_nil_iff]; intro c hc; simpa using h c hc
    simp [isSeparable, this]
  · rintro ⟨c, hc, hred, hp⟩
    have hm : c ∈ r.comps.filter (fun c => X.red c = X.red target) := List.mem_filter.mpr ⟨hc, by simpa using hred⟩
    have hl : (r.comps.filter fun c => X.red c = X.red target).length ≠ 0 := by
      intro h; rw [List.length_eq_zero_iff] at h; rw [h] at hm; simp at hm
    simp only [isSeparable]
    rw [if_neg hl, removeAll_keyError _ _ ⟨c, hm, by rwa [List.mem_dedup]⟩]
    rfl
  · rintro ⟨c, hc, hred⟩ hall
    have hm : c ∈ r.comps.filter (fun c => X.red c = X.red target) := List.mem_filter.mpr ⟨hc, by simpa using hred⟩
    have hl : (r.comps.filter fun c => X.red c = X.red target).length ≠ 0 := by
      intro h; rw [List.length_eq_zero_iff] at h; rw [h] at hm; simp at hm
    have hrem := removeAll_ok (products r).dedup (r.comps.filter fun c => X.red c = X.red target)
      (hn.sublist List.filter_sublist) (by
        intro t ht
        have := List.mem_filter.mp ht
        rw [List.mem_dedup]
        exact hall t this.1 (by simpa using this.2))
    simp only [isSeparable]
    rw [if_neg hl, hrem]
    refine ⟨_, rfl, ?_⟩
    have hpc : ∀ p ∈ products r, p ∈ r.comps := by
      intro p hp
      obtain ⟨q, hq, rfl⟩ := List.mem_map.mp hp
      exact (List.of_mem_zip (a := q.1) (b := q.2) (List.mem_filter.mp (mem_dictOf _ _ hq)).1).1
    simp only [List.all_eq_true, List.mem_filter, List.mem_dedup, decide_eq_true_eq, Bool.or_eq_true, not_and]
    constructor
    · intro h p hp hne
      exact h p ⟨hp, fun _ => hne⟩
    · intro h p ⟨hp, h2⟩
      exact h p hp (h2 (hpc p hp))

example : isSeparable toy (fun _ => false) (elements toy [A, B2, AB]) (init toy [A, B2, AB] [-2, -1, 2] none [] none) C1
    = .error .valueError :=
  (C18_decision_partial toy (fun _ => false) _ (init toy [A, B2, AB] [-2, -1, 2] none [] none) C1 (by decide +kernel)).1
    (by decide +kernel)

example : ∃ b, isSeparable toy (fun _ => false) (elements toy [ABC, AB, C1]) (init toy [ABC, AB, C1] [-1, 1, 1] none [] none) AB
    = .ok b := by
  obtain ⟨b, h, -⟩ := (C18_decision_partial toy (fun _ => false) (elements toy [ABC, AB, C1])
    (init toy [ABC, AB, C1] [-1, 1, 1] none [] none) AB (by decide +kernel)).2.2 (by decide +kernel) (by decide +kernel)
  exact ⟨b, h⟩

/-- A target that only occurs as a reactant gives `KeyError` instead of the documented `ValueError`. -/
theorem C18_keyError_counterexample :
    isSeparable toy (fun _ => false) (elements toy [A, B2, AB]) (init toy [A, B2, AB] [-2, -1, 2] none [] (some 0)) A
      = .error .keyError := by
  decide +kernel

/-- Also when the target is listed twice as a product (two polymorphs), the second removal raises `KeyError`. -/
theorem C18_polymorph_counterexample :
    isSeparable toy (fun _ => false) (elements toy [A, B2, AB, AB]) (init toy [A, B2, AB, AB] [-2, -1, 1, 1] none [] (some 0)) AB
      = .error .keyError := by
  decide +kernel

example : isSeparable toy (fun _ => false) (elements toy [ABC, A, AB, C1]) (init toy [ABC, AB, C1] [-1, 1, 1] none [] (some 0)) AB
      = .ok true := by
  decide +kernel

end Verif.Props.Reaction
