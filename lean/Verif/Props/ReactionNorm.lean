import Verif.Props.Reaction

/-! Properties C08 (interface coordinate), C14 (normalization), C15 (fractions). -/

set_option linter.unusedSectionVars false

namespace Verif.Props.Reaction
open Verif.Py Verif.Model Verif.Model.Reaction Verif.Spec.Reaction Verif.Lemmas.Dict Verif.Lemmas.Reaction

variable {κ ε : Type} [DecidableEq κ] [DecidableEq ε]

/-! ### C14 -/

theorem findIdx_coeff (comps : List κ) (coeffs : List ℚ) (comp : κ) (hn : comps.Nodup)
    (hl : comps.length = coeffs.length) (hm : comp ∈ comps) :
    ∃ i, comps.findIdx? (fun c => c = comp) = some i ∧ coeffs[i]? = some (coeffOf comps coeffs comp) := by
  induction comps generalizing coeffs with
  | nil => simp at hm
  | cons c cs ih =>
    cases coeffs with
    | nil => simp at hl
    | cons v vs =>
      simp only [List.nodup_cons] at hn
      by_cases h : c = comp
      · subst h
        refine ⟨0, by simp [List.findIdx?_cons], ?_⟩
        have : (cs.zip vs).filter (fun p => p.1 = c) = [] := by
          rw [List.filter_eq_nil_iff]
          intro p hp
          have := (List.of_mem_zip (a := p.1) (b := p.2) hp).1
          simp only [decide_eq_true_eq]
          intro h'; exact hn.1 (h' ▸ this)
        simp [coeffOf, this]
      · have hm' : comp ∈ cs := by
          rcases List.mem_cons.mp hm with h' | h'
          · exact absurd h'.symm h
          · exact h'
        obtain ⟨i, h1, h2⟩ := ih vs hn.2 (by simpa using hl) hm'
        refine ⟨i + 1, by simp [List.findIdx?_cons, h, h1], ?_⟩
        simp only [List.getElem?_cons_succ, h2, coeffOf, List.zip_cons_cons]
        rw [List.filter_cons_of_neg (by simpa using h)]

omit [DecidableEq ε] in
theorem coeffOf_scale (comps : List κ) (coeffs : List ℚ) (s : ℚ) (c : κ) :
    coeffOf comps (coeffs.map fun x => x * s) c = coeffOf comps coeffs c * s := by
  unfold coeffOf
  rw [zip_map_right, List.filter_map, List.map_map, ← List.sum_map_mul_right]
  rfl

theorem scaleTo_ok (comps : List κ) (coeffs : List ℚ) (comp : κ) (factor : ℚ) (hn : comps.Nodup)
    (hl : comps.length = coeffs.length) (hm : comp ∈ comps) (hc : coeffOf comps coeffs comp ≠ 0) :
    scaleTo comps coeffs comp factor = .ok |1 / coeffOf comps coeffs comp * factor| := by
  obtain ⟨i, h1, h2⟩ := findIdx_coeff comps coeffs comp hn hl hm
  simp [scaleTo, h1, h2, hc]

/-- `normalize_to` on a basic reaction: all coefficients are multiplied by one positive number, the chosen phase ends up
with magnitude `factor`, both sides keep their phases, and an exactly conserving reaction is still flagged balanced.
(Partial: the flag of a reaction that is balanced only up to the tolerance can change, see the counterexample.) -/
theorem C14_normalize_to_partial (X : Chem κ ε) (hX : X.Lawful) (r : Rxn κ) (comp : κ) (factor : ℚ) (hf : 0 < factor)
    (hn : r.comps.Nodup) (hl : r.comps.length = r.coeffs.length) (hm : comp ∈ r.comps)
    (hc : coeffOf r.comps r.coeffs comp ≠ 0) :
    ∃ r' s, normalizeTo X r comp factor = .ok r' ∧ 0 < s ∧ r'.comps = r.comps ∧
      r'.coeffs = r.coeffs.map (fun c => c * s) ∧ |coeffOf r'.comps r'.coeffs comp| = factor ∧
      reactants r' = reactants r ∧ products r' = products r ∧
      (Conserved X r.comps r.coeffs → r'.balanced = true ∧ Conserved X r'.comps r'.coeffs) := by
  have hs : 0 < |1 / coeffOf r.comps r.coeffs comp * factor| :=
    abs_pos.mpr (mul_ne_zero (one_div_ne_zero hc) hf.ne')
  refine ⟨init X r.comps (r.coeffs.map fun c => c * |1 / coeffOf r.comps r.coeffs comp * factor|) none [] (some 0),
    |1 / coeffOf r.comps r.coeffs comp * factor|, ?_, hs, rfl, rfl, ?_, ?_, ?_, ?_⟩
  · simp only [normalizeTo]
    rw [scaleTo_ok _ _ _ _ hn hl hm hc]; rfl
  · simp only [init]
    rw [coeffOf_scale, abs_mul, abs_abs, abs_mul, abs_div, abs_one, abs_of_pos hf]
    have := abs_ne_zero.mpr hc
    field_simp
  · simp only [reactants, init]
    rw [reactantCoeffs_scale _ _ _ hs, List.map_map]; rfl
  · simp only [products, init]
    rw [productCoeffs_scale _ _ _ hs, List.map_map]; rfl
  · intro h
    refine ⟨isBalanced_scale X hX _ _ _ hs (sidesNodup_of_nodup _ _ hn) h, ?_⟩
    intro e
    simp only [init]
    rw [net_scale, h e, zero_mul]

example : ∃ r' s, normalizeTo toy (init toy [A, B2, AB] [-2, -1, 2] none [] none) AB 3 = .ok r' ∧ 0 < s ∧
    r'.coeffs = [-2, -1, 2].map (fun c => c * s) ∧ |coeffOf r'.comps r'.coeffs AB| = 3 := by
  obtain ⟨r', s, h, hs, -, hc, ha, -⟩ := C14_normalize_to_partial toy toy_lawful (init toy [A, B2, AB] [-2, -1, 2] none [] none) AB 3
    (by norm_num) (by decide +kernel) (by decide +kernel) (by decide +kernel) (by decide +kernel)
  exact ⟨r', s, h, hs, hc, ha⟩

/-- Computed reactions: additionally the energy per atom, the entries, the data and the error count are unchanged. -/
theorem C14_computed_partial (X : Chem κ ε) (hX : X.Lawful) (entries : List (Entry κ)) (coeffs : List ℚ)
    (data : List (String × ℚ)) (lne : Option ℕ) (comp : κ) (factor : ℚ) (hf : 0 < factor)
    (hn : (entries.map fun e => X.red e.comp).Nodup) (hl : entries.length = coeffs.length)
    (hm : comp ∈ entries.map fun e => X.red e.comp)
    (hc : coeffOf (entries.map fun e => X.red e.comp) coeffs comp ≠ 0) :
    let r := cinit X entries coeffs data lne
    ∃ r' s, cnormalizeTo X r comp factor = .ok r' ∧ 0 < s ∧ r'.entries = entries ∧ r'.base.comps = r.base.comps ∧
      r'.base.coeffs = coeffs.map (fun c => c * s) ∧ |coeffOf r'.base.comps r'.base.coeffs comp| = factor ∧
      r'.base.data = data ∧ r'.base.lne = lne ∧ energyPerAtom X r' = energyPerAtom X r ∧
      (Conserved X r.base.comps coeffs → r'.base.balanced = true) := by
  intro r
  have hs : 0 < |1 / coeffOf (entries.map fun e => X.red e.comp) coeffs comp * factor| :=
    abs_pos.mpr (mul_ne_zero (one_div_ne_zero hc) hf.ne')
  refine ⟨cinit X entries (coeffs.map fun c => c * |1 / coeffOf (entries.map fun e => X.red e.comp) coeffs comp * factor|) data lne,
    |1 / coeffOf (entries.map fun e => X.red e.comp) coeffs comp * factor|, ?_, hs, rfl, rfl, rfl, ?_, rfl, rfl, ?_, ?_⟩
  · simp only [cnormalizeTo, r, cinit, init]
    rw [scaleTo_ok _ _ _ _ hn (by simpa using hl) hm hc]; rfl
  · simp only [cinit, init]
    rw [coeffOf_scale, abs_mul, abs_abs, abs_mul, abs_div, abs_one, abs_of_pos hf]
    have := abs_ne_zero.mpr hc
    field_simp
  · exact C17_scale_invariant X entries coeffs data lne _ hs
  · intro h
    exact isBalanced_scale X hX _ _ _ hs (sidesNodup_of_nodup _ _ hn) h

example : ∃ r' s, cnormalizeTo toy (cinit toy [⟨A2, -2⟩, ⟨B1, -2⟩, ⟨AB, -4⟩] [-2, -2, 2] [("w", 1)] none) AB 3 = .ok r' ∧ 0 < s ∧
    r'.base.coeffs = [-2, -2, 2].map (fun c => c * s) ∧ r'.base.data = [("w", 1)] := by
  obtain ⟨r', s, h, hs, -, -, hc, -, hd, -⟩ := C14_computed_partial toy toy_lawful [⟨A2, -2⟩, ⟨B1, -2⟩, ⟨AB, -4⟩] [-2, -2, 2]
    [("w", 1)] none AB 3 (by norm_num) (by decide +kernel) (by decide +kernel) (by decide +kernel) (by decide +kernel)
  exact ⟨r', s, h, hs, hc, hd⟩

omit [DecidableEq ε] in
theorem elAmount_scale (X : Chem κ ε) (comps : List κ) (coeffs : List ℚ) (s : ℚ) (hs : 0 < s) (e : ε) :
    elAmount X comps (coeffs.map fun c => c * s) e = elAmount X comps coeffs e * s := by
  unfold elAmount
  rw [zip_map_right, List.map_map, div_mul_eq_mul_div, ← List.sum_map_mul_right]
  congr 2
  apply List.map_congr_left
  intro p _
  simp only [Function.comp, abs_mul, abs_of_pos hs]
  ring

/-- `normalize_to_element` scales so that the amount of the element in the reaction is `factor`; for a conserving reaction
that amount is what the reactants supply. An element that does not take part gives no finite reaction. -/
theorem C14_normalize_to_element (X : Chem κ ε) (hX : X.Lawful) (r : Rxn κ) (e : ε) (factor : ℚ) (hf : 0 < factor) :
    (elAmount X r.comps r.coeffs e = 0 → normalizeToElement X r e factor = .error .nonFinite) ∧
    (elAmount X r.comps r.coeffs e ≠ 0 →
      ∃ r' s, normalizeToElement X r e factor = .ok r' ∧ 0 < s ∧ r'.comps = r.comps ∧
        r'.coeffs = r.coeffs.map (fun c => c * s) ∧ elAmount X r'.comps r'.coeffs e = factor) := by
  constructor
  · intro h; simp [normalizeToElement, scaleToElement, h]; rfl
  · intro h
    have hnn : 0 ≤ elAmount X r.comps r.coeffs e := by
      unfold elAmount
      apply div_nonneg _ (by norm_num)
      apply List.sum_nonneg
      intro x hx
      obtain ⟨p, _, rfl⟩ := List.mem_map.mp hx
      exact mul_nonneg (hX.nonneg _ _) (abs_nonneg _)
    have hp : 0 < elAmount X r.comps r.coeffs e := lt_of_le_of_ne hnn (Ne.symm h)
    have hs : 0 < factor / elAmount X r.comps r.coeffs e := div_pos hf hp
    refine ⟨init X r.comps (r.coeffs.map fun c => c * (factor / elAmount X r.comps r.coeffs e)) none [] (some 0), _, ?_,
      hs, rfl, rfl, ?_⟩
    · simp [normalizeToElement, scaleToElement, h]; rfl
    · simp only [init]
      rw [elAmount_scale _ _ _ _ hs]
      field_simp

example : normalizeToElement toy (init toy [A, B2, AB] [-2, -1, 2] none [] none) 2 1 = .error .nonFinite :=
  (C14_normalize_to_element toy toy_lawful _ 2 1 (by norm_num)).1 (by decide +kernel)

example : ∃ r', ∃ s : ℚ, normalizeToElement toy (init toy [A, B2, AB] [-2, -1, 2] none [] none) 1 5 = .ok r' ∧ 0 < s ∧
    elAmount toy r'.comps r'.coeffs 1 = 5 := by
  obtain ⟨r', s, h, hs, -, -, he⟩ := (C14_normalize_to_element toy toy_lawful (init toy [A, B2, AB] [-2, -1, 2] none [] none) 1 5
    (by norm_num)).2 (by decide +kernel)
  exact ⟨r', s, h, hs, he⟩

omit [DecidableEq ε] in
/-- The amount used by `normalize_to_element` is the amount of the element on the reactant side of a conserving reaction. -/
theorem C14_element_amount (X : Chem κ ε) (comps : List κ) (coeffs : List ℚ) (e : ε) (hc : net X comps coeffs e = 0) :
    elAmount X comps coeffs e = (((comps.zip coeffs).filter fun p => p.2 < 0).map fun p => -p.2 * X.amt p.1 e).sum := by
  unfold elAmount
  unfold net at hc
  have h1 := split_sum (fun c => X.amt c e) (comps.zip coeffs)
  rw [hc] at h1
  have h2 : ∀ l : List (κ × ℚ), (l.map fun p => X.amt p.1 e * |p.2|).sum
      = ((l.filter fun p => 0 < p.2).map fun p => p.2 * X.amt p.1 e).sum - ((l.filter fun p => p.2 < 0).map fun p => p.2 * X.amt p.1 e).sum := by
    intro l
    induction l with
    | nil => simp
    | cons p l ih =>
      rcases lt_trichotomy p.2 0 with h | h | h
      · have h' : ¬ 0 < p.2 := not_lt.mpr h.le
        simp only [List.filter_cons, h, h', decide_true, decide_false, if_true, Bool.false_eq_true, if_false, List.map_cons,
          List.sum_cons, ih, abs_of_neg h]
        ring
      · simp [h, ih]
      · have h' : ¬ p.2 < 0 := not_lt.mpr h.le
        simp only [List.filter_cons, h, h', decide_true, decide_false, if_true, Bool.false_eq_true, if_false, List.map_cons,
          List.sum_cons, ih, abs_of_pos h]
        ring
  have h3 : ∀ l : List (κ × ℚ), (l.map fun p => -p.2 * X.amt p.1 e).sum = -(l.map fun p => p.2 * X.amt p.1 e).sum := by
    intro l
    induction l with
    | nil => simp
    | cons p l ih => simp only [List.map_cons, List.sum_cons, ih]; ring
  rw [h2, h3]
  linarith

example : elAmount toy [A, B2, AB] [-2, -1, 2] 1 = 2 :=
  (C14_element_amount toy [A, B2, AB] [-2, -1, 2] 1 (by decide +kernel)).trans (by decide +kernel)

/-- A phase that is not listed raises `ValueError`. -/
theorem C14_missing_phase (X : Chem κ ε) (r : Rxn κ) (comp : κ) (factor : ℚ) (h : comp ∉ r.comps) :
    normalizeTo X r comp factor = .error .valueError := by
  have : r.comps.findIdx? (fun c => decide (c = comp)) = none := by
    rw [List.findIdx?_eq_none_iff]
    intro x hx
    simp only [decide_eq_false_iff_not]
    rintro rfl; exact h hx
  simp [normalizeTo, scaleTo, this]
  rfl

example : normalizeTo toy (init toy [A, B2, AB] [-2, -1, 2] none [] none) C1 1 = .error .valueError :=
  C14_missing_phase toy _ C1 1 (by decide +kernel)

/-- The balanced flag is not scale invariant: a reaction off by `8e-7` is balanced, but after normalising to ten formula units
it is not. -/
theorem C14_tolerance_counterexample :
    let r := init toy [A, A2] [-1, 1/2 + 4/10000000] none [] (some 0)
    r.balanced = true ∧ (normalizeTo toy r A 10).map Rxn.balanced = .ok false := by
  decide +kernel

/-- On an open reaction `normalize_to` returns a closed reaction: normalising `2 A + B2 -> 2 AB` (element B open, mu = -3)
changes the energy per atom although the coefficients are unchanged. -/
theorem C14_open_counterexample :
    let r := oinit toy [⟨A, -1⟩, ⟨B2, -4⟩, ⟨AB, -5⟩] [-1, -1, 1] [(1, -3)] [] (some 0)
    oenergyPerAtom toy r = .ok 1 ∧ (onormalizeTo toy r AB 1).map (fun r' => energyPerAtom toy r') = .ok (.ok (-1)) := by
  decide +kernel

example : [A, B2, AB].Nodup ∧ coeffOf [A, B2, AB] [-2, -1, 2] AB ≠ 0 := by decide +kernel
example : normalizeTo toy (init toy [A, B2, AB] [-2, -1, 2] none [] (some 0)) AB 1
    = .ok (init toy [A, B2, AB] [-1, -1/2, 1] none [] (some 0)) := by decide +kernel
example : elAmount toy [A, B2, AB] [-2, -1, 2] 1 = 2 := by decide +kernel

end Verif.Props.Reaction
