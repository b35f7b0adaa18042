import Verif.Props.ReactionNorm

/-! Properties C15 (fractions) and C08 (interface coordinate). -/

set_option linter.unusedSectionVars false

namespace Verif.Props.Reaction
open Verif.Py Verif.Model Verif.Model.Reaction Verif.Spec.Reaction Verif.Lemmas.Dict Verif.Lemmas.Reaction

variable {κ ε : Type} [DecidableEq κ] [DecidableEq ε]

/-! ### C15 -/

omit [DecidableEq κ] [DecidableEq ε] in
theorem sum_div_map (l : List (κ × ℚ)) (f : κ × ℚ → ℚ) (n : ℚ) :
    (l.map fun p => f p / n).sum = (l.map f).sum / n := by
  simp only [div_eq_mul_inv]
  rw [List.sum_map_mul_right]

theorem molar_aux (d : List (κ × ℚ)) (hn : (d.map Prod.fst).Nodup) (hne : d ≠ [])
    (hs : (∀ p ∈ d, 0 < p.2) ∨ (∀ p ∈ d, p.2 < 0)) :
    let f := dictOf (d.map fun p => (p.1, p.2 / (d.map Prod.snd).sum))
    f.map Prod.fst = d.map Prod.fst ∧ (f.map Prod.snd).sum = 1 ∧ ∀ p ∈ f, 0 < p.2 := by
  intro f
  have hf : f = d.map fun p => (p.1, p.2 / (d.map Prod.snd).sum) := by
    apply dictOf_eq_self
    rw [List.map_map]
    exact hn
  have hsum : (∀ p ∈ d, 0 < p.2 / (d.map Prod.snd).sum) ∧ (d.map Prod.snd).sum ≠ 0 := by
    rcases hs with hs | hs
    · have : 0 < (d.map Prod.snd).sum := by
        apply List.sum_pos
        · intro x hx; obtain ⟨p, hp, rfl⟩ := List.mem_map.mp hx; exact hs p hp
        · simpa using hne
      exact ⟨fun p hp => div_pos (hs p hp) this, this.ne'⟩
    · have : 0 < (d.map fun p => -p.2).sum := by
        apply List.sum_pos
        · intro x hx; obtain ⟨p, hp, rfl⟩ := List.mem_map.mp hx; exact neg_pos.mpr (hs p hp)
        · simpa using hne
      have h2 : (d.map fun p => -p.2).sum = -(d.map Prod.snd).sum := by
        clear hf hn hne hs this f
        induction d with
        | nil => simp
        | cons p d ih => simp only [List.map_cons, List.sum_cons, ih]; ring
      have h3 : (d.map Prod.snd).sum < 0 := by linarith
      exact ⟨fun p hp => div_pos_of_neg_of_neg (hs p hp) h3, h3.ne⟩
  rw [hf]
  refine ⟨by rw [List.map_map]; rfl, ?_, ?_⟩
  · rw [List.map_map]
    have := sum_div_map d Prod.snd (d.map Prod.snd).sum
    rw [div_self hsum.2] at this
    exact this
  · intro p hp
    obtain ⟨q, hq, rfl⟩ := List.mem_map.mp hp
    exact hsum.1 q hq

theorem mem_productCoeffs_pos (comps : List κ) (coeffs : List ℚ) (p : κ × ℚ) (h : p ∈ productCoeffs comps coeffs) : 0 < p.2 := by
  have := (List.mem_filter.mp (mem_dictOf _ _ h)).2
  simpa using this

theorem mem_reactantCoeffs_neg (comps : List κ) (coeffs : List ℚ) (p : κ × ℚ) (h : p ∈ reactantCoeffs comps coeffs) : p.2 < 0 := by
  have := (List.mem_filter.mp (mem_dictOf _ _ h)).2
  simpa using this

/-- Molar fractions of every balanced reaction with at least one phase on the side: one fraction per phase of that side, all
positive, summing to 1. -/
theorem C15_molar (r : Rxn κ) (hb : r.balanced = true) :
    (reactants r ≠ [] → ∃ f, reactantMolarFractions r = .ok f ∧ f.map Prod.fst = reactants r ∧ (f.map Prod.snd).sum = 1 ∧
      ∀ p ∈ f, 0 < p.2) ∧
    (products r ≠ [] → ∃ f, productMolarFractions r = .ok f ∧ f.map Prod.fst = products r ∧ (f.map Prod.snd).sum = 1 ∧
      ∀ p ∈ f, 0 < p.2) := by
  constructor
  · intro h
    have := molar_aux (reactantCoeffs r.comps r.coeffs) (nodup_dictOf _) (by intro h'; exact h (by simp [reactants, h']))
      (Or.inr fun p hp => mem_reactantCoeffs_neg _ _ p hp)
    exact ⟨_, by simp [reactantMolarFractions, hb], this⟩
  · intro h
    have := molar_aux (productCoeffs r.comps r.coeffs) (nodup_dictOf _) (by intro h'; exact h (by simp [products, h']))
      (Or.inl fun p hp => mem_productCoeffs_pos _ _ p hp)
    exact ⟨_, by simp [productMolarFractions, hb], this⟩

example : ∃ f, reactantMolarFractions (init toy [A, B2, AB] [-2, -1, 2] none [] none) = .ok f ∧ (f.map Prod.snd).sum = 1 := by
  obtain ⟨f, h, -, hs, -⟩ := (C15_molar (init toy [A, B2, AB] [-2, -1, 2] none [] none) (by decide +kernel)).1 (by decide +kernel)
  exact ⟨f, h, hs⟩

/-- All four properties refuse an unbalanced reaction. -/
theorem C15_unbalanced (X : Chem κ ε) (w : κ → ℚ) (n : ℚ) (r : Rxn κ) (hb : r.balanced = false) :
    reactantMolarFractions r = .error .valueError ∧ productMolarFractions r = .error .valueError ∧
      reactantAtomicFractions X w n r = .error .valueError ∧ productAtomicFractions X w n r = .error .valueError ∧
      openProductAtomicFractions X w n r = .error .valueError := by
  simp [reactantMolarFractions, productMolarFractions, reactantAtomicFractions, productAtomicFractions,
    openProductAtomicFractions, hb]

example : reactantMolarFractions (init toy [A, B2, AB] [-2, -1, 1] none [] none) = .error .valueError :=
  (C15_unbalanced toy toy.natoms 1 (init toy [A, B2, AB] [-2, -1, 1] none [] none) (by decide +kernel)).1

theorem natoms_pos (X : Chem κ ε) (hX : X.Lawful) (c : κ) (h : X.elems c ≠ []) : 0 < X.natoms c := by
  unfold Chem.natoms
  apply List.sum_pos
  · intro x hx
    obtain ⟨e, he, rfl⟩ := List.mem_map.mp hx
    exact lt_of_le_of_ne (hX.nonneg _ _) (Ne.symm ((hX.mem_elems c e).mp he))
  · simpa using h

/-- Sum of the weights of the two sides, for any set of counted elements: the fractions add up to one. -/
theorem atomic_aux (X : Chem κ ε) (els : List ε) (r : Rxn κ) (hb : r.balanced = true) (hn : r.comps.Nodup)
    (hred : (r.comps.map X.red).Nodup) (hc : ∀ e ∈ els, net X r.comps r.coeffs e = 0)
    (w : κ → ℚ) (hw : ∀ c ∈ r.comps, w c = (els.map (X.amt c)).sum) (n : ℚ) (hnn : n = numAtoms X els r.comps r.coeffs)
    (hn0 : n ≠ 0) :
    (∃ f, reactantAtomicFractions X w n r = .ok f ∧ f = (neg r.comps r.coeffs).map (fun p => (X.red p.1, -p.2 * w p.1 / n)) ∧
      (f.map Prod.snd).sum = 1) ∧
    (∃ f, productAtomicFractions X w n r = .ok f ∧ f = (pos r.comps r.coeffs).map (fun p => (X.red p.1, p.2 * w p.1 / n)) ∧
      (f.map Prod.snd).sum = 1) := by
  have hs := sidesNodup_of_nodup r.comps r.coeffs hn
  have hsub : ∀ q : κ × ℚ → Bool, ((((r.comps.zip r.coeffs).filter q).map fun p => X.red p.1)).Nodup := by
    intro q
    have h1 : ((r.comps.zip r.coeffs).map fun p => X.red p.1).Sublist (r.comps.map X.red) := by
      have := (map_fst_zip_sublist r.comps r.coeffs).map X.red
      rwa [List.map_map] at this
    exact hred.sublist ((List.filter_sublist.map _).trans h1)
  have hmem : ∀ q : κ × ℚ → Bool, ∀ p ∈ (r.comps.zip r.coeffs).filter q, p.1 ∈ r.comps := fun q p hp =>
    (List.of_mem_zip (a := p.1) (b := p.2) (List.mem_filter.mp hp).1).1
  constructor
  · refine ⟨(neg r.comps r.coeffs).map (fun p => (X.red p.1, -p.2 * w p.1 / n)), ?_, rfl, ?_⟩
    · simp only [reactantAtomicFractions, hb]
      rw [reactantCoeffs_eq _ _ hs, dictOf_eq_self]
      · rfl
      · rw [List.map_map]; exact hsub _
    · rw [List.map_map]
      have h1 := sum_div_map (neg r.comps r.coeffs) (fun p => -p.2 * w p.1) n
      have h2 : ((neg r.comps r.coeffs).map fun p => -p.2 * w p.1).sum = n := by
        rw [hnn, ← numAtoms_reactants X els r.comps r.coeffs hs hc, reactantCoeffs_eq _ _ hs]
        congr 1
        apply List.map_congr_left
        intro p hp
        rw [hw p.1 (hmem _ p hp)]
      rw [h2, div_self hn0] at h1
      exact h1
  · refine ⟨(pos r.comps r.coeffs).map (fun p => (X.red p.1, p.2 * w p.1 / n)), ?_, rfl, ?_⟩
    · simp only [productAtomicFractions, hb]
      rw [productCoeffs_eq _ _ hs, dictOf_eq_self]
      · rfl
      · rw [List.map_map]; exact hsub _
    · rw [List.map_map]
      have h1 := sum_div_map (pos r.comps r.coeffs) (fun p => p.2 * w p.1) n
      have h2 : ((pos r.comps r.coeffs).map fun p => p.2 * w p.1).sum = n := by
        rw [hnn]
        unfold numAtoms
        rw [productCoeffs_eq _ _ hs]
        congr 1
        apply List.map_congr_left
        intro p hp
        rw [hw p.1 (hmem _ p hp)]
      rw [h2, div_self hn0] at h1
      exact h1

theorem numAtoms_pos (X : Chem κ ε) (hX : X.Lawful) (comps : List κ) (coeffs : List ℚ)
    (hne : ∀ c ∈ comps, X.elems c ≠ []) (hp : productCoeffs comps coeffs ≠ []) :
    0 < numAtoms X (elements X comps) comps coeffs := by
  unfold numAtoms
  apply List.sum_pos
  · intro x hx
    obtain ⟨p, hp, rfl⟩ := List.mem_map.mp hx
    have hm : p.1 ∈ comps := (List.of_mem_zip (a := p.1) (b := p.2) (List.mem_filter.mp (mem_dictOf _ _ hp)).1).1
    rw [← natoms_eq X hX p.1 _ (nodup_elements X comps) (fun e he => (mem_elements X comps e).mpr ⟨_, hm, he⟩)]
    exact mul_pos (mem_productCoeffs_pos _ _ p hp) (natoms_pos X hX _ (hne _ hm))
  · simpa using hp

/-- Atomic fractions of a conserving closed reaction between distinct (non-proportional) phases: positive on both sides, and
summing to 1 on both sides. -/
theorem C15_atomic (X : Chem κ ε) (hX : X.Lawful) (r : Rxn κ) (hb : r.balanced = true) (hn : r.comps.Nodup)
    (hred : (r.comps.map X.red).Nodup) (hc : Conserved X r.comps r.coeffs) (hne : ∀ c ∈ r.comps, X.elems c ≠ [])
    (hp : products r ≠ []) :
    let n := numAtoms X (elements X r.comps) r.comps r.coeffs
    (∃ f, reactantAtomicFractions X X.natoms n r = .ok f ∧ (f.map Prod.snd).sum = 1 ∧ ∀ p ∈ f, 0 < p.2) ∧
    (∃ f, productAtomicFractions X X.natoms n r = .ok f ∧ (f.map Prod.snd).sum = 1 ∧ ∀ p ∈ f, 0 < p.2) := by
  intro n
  have hn0 : 0 < n := numAtoms_pos X hX _ _ hne (by intro h; exact hp (by simp [products, h]))
  obtain ⟨⟨f, h1, h2, h3⟩, ⟨g, g1, g2, g3⟩⟩ := atomic_aux X (elements X r.comps) r hb hn hred (fun e _ => hc e) X.natoms
    (fun c hc => natoms_eq X hX c _ (nodup_elements X _) (fun e he => (mem_elements X _ e).mpr ⟨_, hc, he⟩)) n rfl hn0.ne'
  refine ⟨⟨f, h1, h3, ?_⟩, ⟨g, g1, g3, ?_⟩⟩
  · intro p hp
    rw [h2] at hp
    obtain ⟨q, hq, rfl⟩ := List.mem_map.mp hp
    have hq' := List.mem_filter.mp hq
    have hm := (List.of_mem_zip (a := q.1) (b := q.2) hq'.1).1
    have : q.2 < 0 := by simpa using hq'.2
    exact div_pos (mul_pos (neg_pos.mpr this) (natoms_pos X hX _ (hne _ hm))) hn0
  · intro p hp
    rw [g2] at hp
    obtain ⟨q, hq, rfl⟩ := List.mem_map.mp hp
    have hq' := List.mem_filter.mp hq
    have hm := (List.of_mem_zip (a := q.1) (b := q.2) hq'.1).1
    have : 0 < q.2 := by simpa using hq'.2
    exact div_pos (mul_pos this (natoms_pos X hX _ (hne _ hm))) hn0

example : ∃ f, reactantAtomicFractions toy toy.natoms 4 (init toy [A, B2, AB] [-2, -1, 2] none [] none) = .ok f ∧
    (f.map Prod.snd).sum = 1 := by
  obtain ⟨⟨f, h, hs, -⟩, -⟩ := C15_atomic toy toy_lawful (init toy [A, B2, AB] [-2, -1, 2] none [] none) (by decide +kernel)
    (by decide +kernel) (by decide +kernel) (by intro e; revert e; decide +kernel) (by decide +kernel) (by decide +kernel)
  refine ⟨f, ?_, hs⟩
  rw [← h, show numAtoms toy (elements toy (init toy [A, B2, AB] [-2, -1, 2] none [] none).comps)
    (init toy [A, B2, AB] [-2, -1, 2] none [] none).comps (init toy [A, B2, AB] [-2, -1, 2] none [] none).coeffs = 4 by decide +kernel]

/-- Open reactions: the *reactant* atomic fractions (open elements not counted) are non-negative and sum to 1. (Partial: the
product fractions are wrong, see the counterexample.) -/
theorem C15_open_reactants_partial (X : Chem κ ε) (hX : X.Lawful) (o : ORxn κ ε) (hb : o.base.balanced = true)
    (hn : o.base.comps.Nodup) (hred : (o.base.comps.map X.red).Nodup) (hc : Conserved X o.base.comps o.base.coeffs)
    (hn0 : numAtoms X (oelements X o) o.base.comps o.base.coeffs ≠ 0) :
    ∃ f, reactantAtomicFractions X (fun c => ((oelements X o).map (X.amt c)).sum)
        (numAtoms X (oelements X o) o.base.comps o.base.coeffs) o.base = .ok f ∧
      (f.map Prod.snd).sum = 1 ∧ ∀ p ∈ f, 0 ≤ p.2 := by
  obtain ⟨⟨f, h1, h2, h3⟩, _⟩ := atomic_aux X (oelements X o) o.base hb hn hred (fun e _ => hc e)
    (fun c => ((oelements X o).map (X.amt c)).sum) (fun _ _ => rfl) _ rfl hn0
  have hw : ∀ c, 0 ≤ ((oelements X o).map (X.amt c)).sum := by
    intro c
    apply List.sum_nonneg
    intro x hx
    obtain ⟨e, _, rfl⟩ := List.mem_map.mp hx
    exact hX.nonneg _ _
  have hnn : 0 ≤ numAtoms X (oelements X o) o.base.comps o.base.coeffs := by
    unfold numAtoms
    apply List.sum_nonneg
    intro x hx
    obtain ⟨p, hp, rfl⟩ := List.mem_map.mp hx
    exact mul_nonneg (mem_productCoeffs_pos _ _ p hp).le (hw _)
  refine ⟨f, h1, h3, ?_⟩
  intro p hp
  rw [h2] at hp
  obtain ⟨q, hq, rfl⟩ := List.mem_map.mp hp
  have : q.2 < 0 := by simpa using (List.mem_filter.mp hq).2
  exact div_nonneg (mul_nonneg (neg_pos.mpr this).le (hw _)) hnn

example := C15_open_reactants_partial toy toy_lawful (oinit toy [⟨A, -1⟩, ⟨B1, -2⟩, ⟨A2B, -9⟩] [-4, -2, 2] [(1, -3)] [] none)
  (by decide +kernel) (by decide +kernel) (by decide +kernel) (by intro e; revert e; decide +kernel) (by decide +kernel)

/-- The product atomic fractions of an open reaction forget the coefficients: for `4 A + B2 -> 2 A2B` with B open they sum
to 1/2 instead of 1. -/
theorem C15_open_products_counterexample :
    let o := oinit toy [⟨A, -1⟩, ⟨B1, -2⟩, ⟨A2B, -9⟩] [-4, -2, 2] [(1, -3)] [] (some 0)
    Conserved toy o.base.comps o.base.coeffs ∧ o.base.balanced = true ∧
      (openProductAtomicFractions toy (fun c => ((oelements toy o).map (toy.amt c)).sum)
        (numAtoms toy (oelements toy o) o.base.comps o.base.coeffs) o.base).map (fun f => (f.map Prod.snd).sum) = .ok (1/2) := by
  refine ⟨?_, by decide +kernel, by decide +kernel⟩
  intro e; revert e; decide +kernel

/-- Proportional phases on one side (`A` and `A2`) collide in the fraction dictionary, so distinct reduced compositions are
needed. -/
theorem C15_proportional_counterexample :
    let r := init toy [A, A2, B1, A2B] [-2, -1, -2, 2] none [] (some 0)
    r.balanced = true ∧
      (reactantAtomicFractions toy toy.natoms (numAtoms toy (elements toy r.comps) r.comps r.coeffs) r).map
        (fun f => (f.map Prod.snd).sum) = .ok (2/3) := by
  decide +kernel

example : (init toy [A, B2, AB] [-2, -1, 2] none [] (some 0)).balanced = true ∧ ([A, B2, AB].map toy.red).Nodup ∧
    products (init toy [A, B2, AB] [-2, -1, 2] none [] (some 0)) ≠ [] ∧ (∀ c ∈ [A, B2, AB], toy.elems c ≠ []) := by
  decide +kernel
example : Conserved toy [A, B2, AB] [-2, -1, 2] := by intro e; revert e; decide +kernel
example : reactantMolarFractions (init toy [A, B2, AB] [-2, -1, 2] none [] (some 0)) = .ok [(A, 2/3), (B2, 1/3)] := by decide +kernel

/-! ### C08 -/

theorem dictGet_consumed (X : Chem κ ε) (r : Rxn κ) (w : κ → ℚ) (n : ℚ) (c : κ) (hn : r.comps.Nodup)
    (hr : ∀ c ∈ r.comps, X.red c = c) (hb : r.balanced = true) :
    ∃ f, reactantAtomicFractions X w n r = .ok f ∧ (dictGet f c).getD 0 = consumed r.comps r.coeffs c * w c / n := by
  have hs := sidesNodup_of_nodup r.comps r.coeffs hn
  have hsub : ((neg r.comps r.coeffs).map Prod.fst).Nodup := hs.2
  have hred : ∀ p ∈ neg r.comps r.coeffs, X.red p.1 = p.1 := fun p hp =>
    hr _ (List.of_mem_zip (a := p.1) (b := p.2) (List.mem_filter.mp hp).1).1
  have h0 : (neg r.comps r.coeffs).map (fun p => (X.red p.1, -p.2 * w p.1 / n))
      = (neg r.comps r.coeffs).map (fun p => (p.1, -p.2 * w p.1 / n)) := by
    apply List.map_congr_left
    intro p hp
    rw [hred p hp]
  refine ⟨(neg r.comps r.coeffs).map (fun p => (p.1, -p.2 * w p.1 / n)), ?_, ?_⟩
  · simp only [reactantAtomicFractions, hb]
    rw [reactantCoeffs_eq _ _ hs, h0, dictOf_eq_self]
    · rfl
    · rw [List.map_map]; exact hsub
  · have h1 : consumed r.comps r.coeffs c = (((neg r.comps r.coeffs).filter fun p => p.1 = c).map fun p => -p.2).sum := by
      unfold consumed neg
      rw [List.filter_filter]
      congr 2
      apply List.filter_congr
      intro p _
      simp
    rw [h1]
    clear h1 h0 hred hs
    generalize neg r.comps r.coeffs = l at hsub
    induction l with
    | nil => simp [dictGet]
    | cons p l ih =>
      simp only [List.map_cons, List.nodup_cons] at hsub
      rw [List.map_cons, dictGet_cons]
      by_cases h : p.1 = c
      · have : l.filter (fun p => p.1 = c) = [] := by
          rw [List.filter_eq_nil_iff]
          intro q hq
          simp only [decide_eq_true_eq]
          intro h'
          exact hsub.1 (h.trans h'.symm ▸ List.mem_map_of_mem (f := Prod.fst) hq)
        simp [h, this]
      · rw [if_neg (by simpa using h), ih hsub.2, List.filter_cons_of_neg (by simpa using h)]

omit [DecidableEq ε] in
theorem consumed_nonneg (comps : List κ) (coeffs : List ℚ) (c : κ) : 0 ≤ consumed comps coeffs c := by
  unfold consumed
  apply List.sum_nonneg
  intro x hx
  obtain ⟨p, hp, rfl⟩ := List.mem_map.mp hx
  have := (List.mem_filter.mp hp).2
  simp only [decide_eq_true_eq] at this
  linarith [this.2]

theorem natoms_nonneg (X : Chem κ ε) (hX : X.Lawful) (c : κ) : 0 ≤ X.natoms c := by
  unfold Chem.natoms
  apply List.sum_nonneg
  intro x hx
  obtain ⟨e, _, rfl⟩ := List.mem_map.mp hx
  exact hX.nonneg _ _

omit [DecidableEq κ] [DecidableEq ε] in
theorem roundDigits_range (x : ℚ) (h0 : 0 ≤ x) (h1 : x ≤ 1) :
    0 ≤ roundDigits 12 x ∧ roundDigits 12 x ≤ 1 ∧ |roundDigits 12 x - x| ≤ 1 / (2 * 10 ^ 12) ∧
      (roundDigits 12 x = 0 ↔ x ≤ 1 / (2 * 10 ^ 12)) ∧ (x = 0 → roundDigits 12 x = 0) ∧ (x = 1 → roundDigits 12 x = 1) := by
  have a0 : (0 : ℤ) ≤ roundHalfEven (x * 10 ^ 12) := by
    have := round_mono (x := ((0 : ℤ) : ℚ)) (y := x * 10 ^ 12) (by push_cast; positivity)
    rwa [round_int] at this
  have a1 : roundHalfEven (x * 10 ^ 12) ≤ 10 ^ 12 := by
    have := round_mono (x := x * 10 ^ 12) (y := (((10 : ℤ) ^ 12 : ℤ) : ℚ)) (by push_cast; linarith)
    rwa [round_int] at this
  have b := round_bounds (x * 10 ^ 12)
  have a0' : (0 : ℚ) ≤ roundHalfEven (x * 10 ^ 12) := by exact_mod_cast a0
  have a1' : (roundHalfEven (x * 10 ^ 12) : ℚ) ≤ 10 ^ 12 := by exact_mod_cast a1
  unfold roundDigits
  refine ⟨by positivity, by rw [div_le_one (by positivity)]; exact a1', ?_, ?_, ?_, ?_⟩
  · have e : (roundHalfEven (x * 10 ^ 12) : ℚ) / 10 ^ 12 - x = (roundHalfEven (x * 10 ^ 12) - x * 10 ^ 12) / 10 ^ 12 := by
      ring
    rw [e, abs_div, abs_of_pos (a := (10 : ℚ) ^ 12) (by positivity), div_le_iff₀ (by positivity)]
    have : (1 / (2 * 10 ^ 12) : ℚ) * 10 ^ 12 = 1 / 2 := by norm_num
    rw [this, abs_le]
    constructor <;> linarith [b.1, b.2]
  · rw [div_eq_zero_iff]
    have : ((10 : ℚ) ^ 12 = 0) ↔ False := by norm_num
    rw [this, or_false, Int.cast_eq_zero, round_eq_zero_iff _ (by positivity)]
    constructor
    · intro h; rw [le_div_iff₀ (by positivity)]; linarith
    · intro h; rw [le_div_iff₀ (by positivity)] at h; linarith
  · rintro rfl
    have := round_int 0
    push_cast at this
    simp [this]
  · rintro rfl
    have h := round_int (10 ^ 12)
    have h2 : (((10 : ℤ) ^ 12 : ℤ) : ℚ) = 1 * 10 ^ 12 := by norm_num
    rw [h2] at h
    rw [h]
    norm_num

/-- The coordinate of a reaction between (reduced) phases `c1` and `c2` is the share of `c2` in the atoms consumed from `c1`
and `c2`, rounded to 12 digits; it lies in `[0, 1]`; it is 0 if only `c1` is consumed and 1 if only `c2` is, and conversely a
coordinate of 0 means that the share of `c2` is at most 5e-13. If neither is consumed it is a `ValueError`. Missing: that a coordinate of 0
means that no `c2` is consumed, which is false (`C08_trace_violated`). -/
theorem C08_coordinate_partial (X : Chem κ ε) (hX : X.Lawful) (r : Rxn κ) (c1 c2 : κ) (hb : r.balanced = true)
    (hn : r.comps.Nodup) (hr : ∀ c ∈ r.comps, X.red c = c)
    (hn0 : numAtoms X (elements X r.comps) r.comps r.coeffs ≠ 0) :
    let a1 := atomsConsumed X r.comps r.coeffs c1
    let a2 := atomsConsumed X r.comps r.coeffs c2
    let x := coordinate c1 c2 (reactantAtomicFractions X X.natoms (numAtoms X (elements X r.comps) r.comps r.coeffs) r)
    (a1 + a2 = 0 → x = .error .valueError) ∧
    (a1 + a2 ≠ 0 → ∃ v, x = .ok v ∧ 0 ≤ v ∧ v ≤ 1 ∧ |v - a2 / (a1 + a2)| ≤ 1 / (2 * 10 ^ 12) ∧
      (v = 0 ↔ a2 / (a1 + a2) ≤ 1 / (2 * 10 ^ 12)) ∧ (a2 = 0 → v = 0) ∧ (a1 = 0 → v = 1) ∧
      v = roundDigits 12 (a2 / (a1 + a2))) := by
  intro a1 a2 x
  set n := numAtoms X (elements X r.comps) r.comps r.coeffs with hnd
  obtain ⟨f, hf, h1⟩ := dictGet_consumed X r X.natoms n c1 hn hr hb
  obtain ⟨f', hf', h2⟩ := dictGet_consumed X r X.natoms n c2 hn hr hb
  rw [hf] at hf'
  cases hf'
  have h1' : (dictGet f c1).getD 0 = a1 / n := h1
  have h2' : (dictGet f c2).getD 0 = a2 / n := h2
  have hx : x = if a1 / n + a2 / n = 0 then .error .valueError
      else .ok (roundDigits 12 (a2 / n / (a1 / n + a2 / n))) := by
    show coordinate c1 c2 (reactantAtomicFractions X X.natoms n r) = _
    rw [hf]
    simp only [coordinate, h1', h2']
  have e1 : a1 / n + a2 / n = (a1 + a2) / n := by ring
  rw [hx, e1]
  have p1 : 0 ≤ a1 := mul_nonneg (consumed_nonneg _ _ _) (natoms_nonneg X hX _)
  have p2 : 0 ≤ a2 := mul_nonneg (consumed_nonneg _ _ _) (natoms_nonneg X hX _)
  constructor
  · intro h; simp [h]
  · intro h
    have hp : 0 < a1 + a2 := lt_of_le_of_ne (add_nonneg p1 p2) (Ne.symm h)
    rw [if_neg (div_ne_zero h hn0), div_div_div_cancel_right₀ hn0]
    have := roundDigits_range (a2 / (a1 + a2)) (by positivity) (by rw [div_le_one hp]; linarith)
    refine ⟨_, rfl, this.1, this.2.1, this.2.2.1, this.2.2.2.1, ?_, ?_, rfl⟩
    · intro h'; exact this.2.2.2.2.1 (by rw [h', zero_div])
    · intro h'; exact this.2.2.2.2.2 (by rw [h', zero_add]; rw [h', zero_add] at h; exact div_self h)

example : ∃ v, coordinate A B1 (reactantAtomicFractions toy toy.natoms
      (numAtoms toy (elements toy [A, B1, A2B]) [A, B1, A2B] [-2, -1, 1]) (init toy [A, B1, A2B] [-2, -1, 1] none [] none)) = .ok v ∧
    |v - 1 / 3| ≤ 1 / (2 * 10 ^ 12) := by
  obtain ⟨v, h, -, -, hv, -⟩ := (C08_coordinate_partial toy toy_lawful (init toy [A, B1, A2B] [-2, -1, 1] none [] none) A B1
    (by decide +kernel) (by decide +kernel) (by decide +kernel) (by decide +kernel)).2 (by decide +kernel)
  refine ⟨v, h, ?_⟩
  rwa [show atomsConsumed toy (init toy [A, B1, A2B] [-2, -1, 1] none [] none).comps
    (init toy [A, B1, A2B] [-2, -1, 1] none [] none).coeffs A = 2 by decide +kernel,
    show atomsConsumed toy (init toy [A, B1, A2B] [-2, -1, 1] none [] none).comps
    (init toy [A, B1, A2B] [-2, -1, 1] none [] none).coeffs B1 = 1 by decide +kernel, show (1 : ℚ) / (2 + 1) = 1 / 3 by norm_num] at hv

/-- The coordinate does not change when all coefficients are multiplied by the same positive number (both versions flagged
balanced). -/
theorem C08_scale_invariant (X : Chem κ ε) (comps : List κ) (coeffs : List ℚ) (data : List (String × ℚ)) (lne : Option ℕ)
    (c1 c2 : κ) (s : ℚ) (hs : 0 < s) :
    let r := init X comps coeffs (some true) data lne
    let r' := init X comps (coeffs.map fun c => c * s) (some true) data lne
    coordinate c1 c2 (reactantAtomicFractions X X.natoms (numAtoms X (elements X comps) r'.comps r'.coeffs) r')
      = coordinate c1 c2 (reactantAtomicFractions X X.natoms (numAtoms X (elements X comps) r.comps r.coeffs) r) := by
  intro r r'
  congr 1
  simp only [reactantAtomicFractions, r, r', init]
  rw [numAtoms_scale _ _ _ _ _ hs, reactantCoeffs_scale _ _ _ hs, List.map_map]
  congr 3
  apply List.map_congr_left
  intro p _
  simp only [Function.comp, Prod.mk.injEq, true_and]
  rw [← neg_mul, mul_right_comm, mul_div_mul_right _ _ hs.ne']

example : coordinate A B1 (reactantAtomicFractions toy toy.natoms (numAtoms toy (elements toy [A, B1, A2B]) [A, B1, A2B] [-2, -1, 1])
    (init toy [A, B1, A2B] [-2, -1, 1] none [] (some 0))) = .ok (333333333333 / 1000000000000) := by decide +kernel
example : (init toy [A, B1, A2B] [-2, -1, 1] none [] (some 0)).balanced = true ∧ [A, B1, A2B].Nodup ∧
    (∀ c ∈ [A, B1, A2B], toy.red c = c) ∧ numAtoms toy (elements toy [A, B1, A2B]) [A, B1, A2B] [-2, -1, 1] ≠ 0 := by
  decide +kernel

/-- **C08 violated at the ends.** B1 + 1e-13 A → 1e-13 AB + (1 - 1e-13)/2 B2 conserves both elements and consumes both phases, but its
coordinate is 0, as if no A took part; seen from the other side it is 1. -/
theorem C08_trace_violated :
    let r := init toy [B1, A, AB, B2] [-1, -1 / 10 ^ 13, 1 / 10 ^ 13, (1 - 1 / 10 ^ 13) / 2] none [] (some 0)
    let f := reactantAtomicFractions toy toy.natoms (numAtoms toy (elements toy r.comps) r.comps r.coeffs) r
    Conserved toy r.comps r.coeffs ∧ r.balanced = true ∧ 0 < atomsConsumed toy r.comps r.coeffs A ∧ 0 < atomsConsumed toy r.comps r.coeffs B1 ∧
      coordinate B1 A f = .ok 0 ∧ coordinate A B1 f = .ok 1 := by
  refine ⟨?_, by decide +kernel, by decide +kernel, by decide +kernel, by decide +kernel, by decide +kernel⟩
  unfold Conserved
  decide +kernel

end Verif.Props.Reaction
