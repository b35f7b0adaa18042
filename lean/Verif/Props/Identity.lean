import Verif.Props.Reaction
import Mathlib.Tactic.Linarith
import Mathlib.Tactic.Ring

/-! Property C100: identity reactions (src/rxn_network/reactions/basic.py:341-351). -/

set_option linter.unusedSectionVars false
set_option linter.unusedSimpArgs false

namespace Verif.Props.Identity
open Verif.Py Verif.Model Verif.Model.Reaction Verif.Spec.Reaction Verif.Lemmas.Dict Verif.Lemmas.Reaction Verif.Props.Reaction

variable {κ ε : Type} [DecidableEq κ] [DecidableEq ε]

/-! helpers -/

theorem mapM_some_of {α β : Type} (f : α → Option β) (l : List α) (h : ∀ a ∈ l, ∃ b, f a = some b) :
    ∃ bs, l.mapM f = some bs ∧ ∀ b, b ∈ bs ↔ ∃ a ∈ l, f a = some b := by
  induction l with
  | nil => exact ⟨[], rfl, by simp⟩
  | cons a l ih =>
    obtain ⟨b, hb⟩ := h a (by simp)
    obtain ⟨bs, h1, h2⟩ := ih fun x hx => h x (by simp [hx])
    refine ⟨b :: bs, by simp [List.mapM_cons, hb, h1], fun c => ?_⟩
    simp only [List.mem_cons, h2]
    constructor
    · rintro (rfl | ⟨a', ha', hf⟩)
      · exact ⟨a, Or.inl rfl, hb⟩
      · exact ⟨a', Or.inr ha', hf⟩
    · rintro ⟨a', rfl | ha', hf⟩
      · left; rw [hb] at hf; exact (Option.some.inj hf).symm
      · exact Or.inr ⟨a', ha', hf⟩

theorem filter_key (d : List (κ × ℚ)) (hd : (d.map Prod.fst).Nodup) (c : κ) (v : ℚ) (h : (c, v) ∈ d) :
    d.filter (fun p => p.1 = c) = [(c, v)] := by
  induction d with
  | nil => simp at h
  | cons p d ih =>
    rw [List.map_cons, List.nodup_cons] at hd
    rcases List.mem_cons.mp h with h | h
    · subst h
      rw [List.filter_cons_of_pos (by simp), List.cons.injEq]
      refine ⟨rfl, ?_⟩
      rw [List.filter_eq_nil_iff]
      intro q hq hqc
      exact hd.1 (List.mem_map.mpr ⟨q, hq, by simpa using hqc⟩)
    · rw [List.filter_cons_of_neg]
      · exact ih hd.2 h
      · intro hc
        exact hd.1 (List.mem_map.mpr ⟨(c, v), h, by simpa using (of_decide_eq_true hc).symm⟩)

theorem consumed_eq (comps : List κ) (coeffs : List ℚ) (c : κ) :
    consumed comps coeffs c = (((neg comps coeffs).filter fun p => p.1 = c).map fun p => -p.2).sum := by
  unfold consumed neg
  rw [List.filter_filter]
  congr 2
  apply List.filter_congr
  intro p _
  simp

theorem produced_eq (comps : List κ) (coeffs : List ℚ) (c : κ) :
    produced comps coeffs c = (((pos comps coeffs).filter fun p => p.1 = c).map fun p => p.2).sum := by
  unfold produced pos
  rw [List.filter_filter]
  congr 2
  apply List.filter_congr
  intro p _
  simp

theorem consumed_of_mem (comps : List κ) (coeffs : List ℚ) (h : SidesNodup comps coeffs) (c : κ) (v : ℚ)
    (hm : (c, v) ∈ neg comps coeffs) : consumed comps coeffs c = -v := by
  rw [consumed_eq, filter_key _ h.2 c v hm]; simp

theorem produced_of_mem (comps : List κ) (coeffs : List ℚ) (h : SidesNodup comps coeffs) (c : κ) (v : ℚ)
    (hm : (c, v) ∈ pos comps coeffs) : produced comps coeffs c = v := by
  rw [produced_eq, filter_key _ h.1 c v hm]; simp

theorem consumed_pos_iff (comps : List κ) (coeffs : List ℚ) (h : SidesNodup comps coeffs) (c : κ) :
    0 < consumed comps coeffs c ↔ c ∈ (neg comps coeffs).map Prod.fst := by
  constructor
  · intro hc
    by_contra hn
    have : (neg comps coeffs).filter (fun p => p.1 = c) = [] := by
      rw [List.filter_eq_nil_iff]
      intro p hp hpc
      exact hn (List.mem_map.mpr ⟨p, hp, by simpa using hpc⟩)
    rw [consumed_eq, this] at hc
    simp at hc
  · intro hc
    obtain ⟨⟨k, v⟩, hp, rfl⟩ := List.mem_map.mp hc
    rw [consumed_of_mem _ _ h _ _ hp]
    have := (List.mem_filter.mp hp).2
    simp only [decide_eq_true_eq] at this
    linarith

theorem produced_pos_iff (comps : List κ) (coeffs : List ℚ) (h : SidesNodup comps coeffs) (c : κ) :
    0 < produced comps coeffs c ↔ c ∈ (pos comps coeffs).map Prod.fst := by
  constructor
  · intro hc
    by_contra hn
    have : (pos comps coeffs).filter (fun p => p.1 = c) = [] := by
      rw [List.filter_eq_nil_iff]
      intro p hp hpc
      exact hn (List.mem_map.mpr ⟨p, hp, by simpa using hpc⟩)
    rw [produced_eq, this] at hc
    simp at hc
  · intro hc
    obtain ⟨⟨k, v⟩, hp, rfl⟩ := List.mem_map.mp hc
    rw [produced_of_mem _ _ h _ _ hp]
    simpa using (List.mem_filter.mp hp).2

/-- weighted sums only see the net coefficient of each phase -/
theorem sum_by_key (f : κ → ℚ) (l : List (κ × ℚ)) (S : Finset κ) (hS : ∀ p ∈ l, p.1 ∈ S) :
    (l.map fun p => p.2 * f p.1).sum = ∑ c ∈ S, ((l.filter fun p => p.1 = c).map Prod.snd).sum * f c := by
  induction l with
  | nil => simp
  | cons p l ih =>
    rw [List.map_cons, List.sum_cons, ih fun q hq => hS q (by simp [hq])]
    have : ∀ c, (((p :: l).filter fun q => q.1 = c).map Prod.snd).sum * f c
        = (if p.1 = c then p.2 * f c else 0) + ((l.filter fun q => q.1 = c).map Prod.snd).sum * f c := by
      intro c
      by_cases hc : p.1 = c
      · simp [List.filter_cons, hc]; ring
      · simp [List.filter_cons, hc]
    rw [Finset.sum_congr rfl fun c _ => this c, Finset.sum_add_distrib, Finset.sum_ite_eq, if_pos (hS p (by simp))]

/-! ### C100 -/

/-- The test never fails, and a phase on one side only makes it `False`: for all coefficients, repeated phases included. -/
theorem C100_total (r : Rxn κ) : ∃ b, isIdentity r = some b ∧
    (b = true → ∀ c, c ∈ reactants r ↔ c ∈ products r) ∧
    (r.balanced = false → (b = true ↔ ∀ c, c ∈ reactants r ↔ c ∈ products r)) := by
  unfold isIdentity
  by_cases hs : (reactants r).toFinset ≠ (products r).toFinset
  · rw [if_pos hs]
    refine ⟨false, rfl, by simp, fun _ => ⟨by simp, fun h => ?_⟩⟩
    exact absurd (by ext c; simpa using h c) hs
  · rw [if_neg hs]
    have hs' : ∀ c, c ∈ reactants r ↔ c ∈ products r := by
      intro c
      have := congrArg (fun s => c ∈ s) (not_not.mp hs)
      simpa using this
    by_cases hb : r.balanced = false
    · rw [if_pos hb]; exact ⟨true, rfl, fun _ => hs', fun _ => ⟨fun _ => hs', fun _ => rfl⟩⟩
    · rw [if_neg hb]
      obtain ⟨bs, h1, -⟩ := mapM_some_of (fun p : κ × ℚ => (dictGet (productCoeffs r.comps r.coeffs) p.1).map fun v => isclose (p.2 * -1) v)
        (reactantCoeffs r.comps r.coeffs) (by
          rintro ⟨c, v⟩ hp
          have hc : c ∈ products r := (hs' c).mp (List.mem_map.mpr ⟨_, hp, rfl⟩)
          cases hd : dictGet (productCoeffs r.comps r.coeffs) c with
          | none => exact absurd hc ((dictGet_eq_none _ _).mp hd)
          | some w => exact ⟨isclose (v * -1) w, by simp [hd]⟩)
      refine ⟨bs.all id, by rw [h1]; rfl, fun _ => hs', fun h => absurd h hb⟩

example : isIdentity (⟨[A, A], [-1, 1], true, [], some 0⟩ : Rxn TComp) = some true := by decide +kernel
example : isIdentity (⟨[A, B2, AB], [-2, -1, 2], true, [], some 0⟩ : Rxn TComp) = some false := by decide +kernel
example : isIdentity (⟨[A, A], [-1, 2], false, [], some 0⟩ : Rxn TComp) = some true := by decide +kernel

/-- What `True` means for a balanced reaction: exactly that the same phases are consumed and produced, in amounts that
agree to the tolerance of `numpy.isclose` (relative to the amount produced). -/
theorem C100_amounts (r : Rxn κ) (h : SidesNodup r.comps r.coeffs) (hb : r.balanced = true) :
    isIdentity r = some true ↔ ∀ c, (0 < consumed r.comps r.coeffs c ↔ 0 < produced r.comps r.coeffs c) ∧
      |consumed r.comps r.coeffs c - produced r.comps r.coeffs c|
        ≤ 1 / 100000000 + 1 / 100000 * produced r.comps r.coeffs c := by
  have hR : ∀ c, c ∈ reactants r ↔ 0 < consumed r.comps r.coeffs c := by
    intro c; rw [consumed_pos_iff _ _ h]; unfold reactants; rw [reactantCoeffs_eq _ _ h]
  have hP : ∀ c, c ∈ products r ↔ 0 < produced r.comps r.coeffs c := by
    intro c; rw [produced_pos_iff _ _ h]; unfold products; rw [productCoeffs_eq _ _ h]
  have hC0 : ∀ c, ¬ 0 < consumed r.comps r.coeffs c → consumed r.comps r.coeffs c = 0 := by
    intro c hc
    have : 0 ≤ consumed r.comps r.coeffs c := by
      rw [consumed_eq]
      apply List.sum_nonneg
      intro x hx
      obtain ⟨p, hp, rfl⟩ := List.mem_map.mp hx
      have := (List.mem_filter.mp (List.mem_filter.mp hp).1).2
      simp only [decide_eq_true_eq] at this
      linarith
    linarith
  have hP0 : ∀ c, ¬ 0 < produced r.comps r.coeffs c → produced r.comps r.coeffs c = 0 := by
    intro c hc
    have : 0 ≤ produced r.comps r.coeffs c := by
      rw [produced_eq]
      apply List.sum_nonneg
      intro x hx
      obtain ⟨p, hp, rfl⟩ := List.mem_map.mp hx
      have := (List.mem_filter.mp (List.mem_filter.mp hp).1).2
      simp only [decide_eq_true_eq] at this
      linarith
    linarith
  have key : ∀ (hs' : ∀ c, c ∈ reactants r ↔ c ∈ products r), isIdentity r = some true ↔
      ∀ c v, (c, v) ∈ neg r.comps r.coeffs → ∀ w, (c, w) ∈ pos r.comps r.coeffs → isclose (v * -1) w = true := by
    intro hs'
    have hs : (reactants r).toFinset = (products r).toFinset := by ext c; simpa using hs' c
    unfold isIdentity
    rw [if_neg (not_not.mpr hs), if_neg (by simp [hb])]
    obtain ⟨bs, h1, h2⟩ := mapM_some_of (fun p : κ × ℚ => (dictGet (productCoeffs r.comps r.coeffs) p.1).map fun v => isclose (p.2 * -1) v)
        (reactantCoeffs r.comps r.coeffs) (by
          rintro ⟨c, v⟩ hp
          have hc : c ∈ products r := (hs' c).mp (List.mem_map.mpr ⟨_, hp, rfl⟩)
          cases hd : dictGet (productCoeffs r.comps r.coeffs) c with
          | none => exact absurd hc ((dictGet_eq_none _ _).mp hd)
          | some w => exact ⟨isclose (v * -1) w, by simp [hd]⟩)
    rw [h1]
    simp only [Option.map_some, Option.some.injEq, List.all_eq_true, id]
    rw [reactantCoeffs_eq _ _ h, productCoeffs_eq _ _ h] at h2
    constructor
    · intro hall c v hv w hw
      exact hall _ ((h2 _).mpr ⟨(c, v), hv, by simp [dictGet_eq_some_of_mem _ h.1 c w hw]⟩)
    · intro hall b hbm
      obtain ⟨⟨c, v⟩, hv, hf⟩ := (h2 b).mp hbm
      cases hd : dictGet (pos r.comps r.coeffs) c with
      | none => simp [hd] at hf
      | some w =>
        simp only [hd, Option.map_some, Option.some.injEq] at hf
        rw [← hf]
        exact hall c v hv w (mem_of_dictGet _ _ _ hd)
  constructor
  · intro hid
    obtain ⟨b, hb1, hb2, -⟩ := C100_total r
    have hbt : b = true := by rw [hid] at hb1; exact (Option.some.inj hb1).symm
    have hs' := hb2 hbt
    have hk := (key hs').mp hid
    intro c
    refine ⟨by rw [← hR, ← hP]; exact hs' c, ?_⟩
    by_cases hc : 0 < consumed r.comps r.coeffs c
    · obtain ⟨⟨k, v⟩, hv, rfl⟩ := List.mem_map.mp ((consumed_pos_iff _ _ h c).mp hc)
      have hp := (hP k).mp ((hs' k).mp ((hR k).mpr hc))
      obtain ⟨⟨k', w⟩, hw, hk'⟩ := List.mem_map.mp ((produced_pos_iff _ _ h k).mp hp)
      simp only at hk'
      subst hk'
      have hcl := of_decide_eq_true (hk k' v hv w hw)
      show |consumed r.comps r.coeffs k' - produced r.comps r.coeffs k'| ≤ _ + _ * produced r.comps r.coeffs k'
      rw [consumed_of_mem _ _ h _ _ hv, produced_of_mem _ _ h _ _ hw]
      have hw0 : (0 : ℚ) < w := by simpa using (List.mem_filter.mp hw).2
      rw [abs_of_pos hw0] at hcl
      rwa [show -v - w = v * -1 - w by ring]
    · have hp : ¬ 0 < produced r.comps r.coeffs c := by rw [← hP, ← hs', hR]; exact hc
      rw [hC0 c hc, hP0 c hp]; norm_num
  · intro hall
    have hs' : ∀ c, c ∈ reactants r ↔ c ∈ products r := fun c => by rw [hR, hP]; exact (hall c).1
    rw [key hs']
    intro c v hv w hw
    have h1 := (hall c).2
    rw [consumed_of_mem _ _ h _ _ hv, produced_of_mem _ _ h _ _ hw] at h1
    have hw0 : (0 : ℚ) < w := by simpa using (List.mem_filter.mp hw).2
    unfold isclose
    rw [decide_eq_true_eq, abs_of_pos hw0, show v * -1 - w = -v - w by ring]
    exact h1

example : SidesNodup ([A, B2, AB, A] : List TComp) [-2, -1, 2, 1] := by unfold SidesNodup; decide +kernel
example : isIdentity (⟨[A, B2, AB, A], [-2, -1, 2, 1], true, [], some 0⟩ : Rxn TComp) = some false := by decide +kernel

/-- A reaction that returns exactly what it consumes has zero energy, for all entry energies. -/
theorem C100_energy (ce : List (κ × ℚ)) (comps : List κ) (coeffs : List ℚ)
    (h : ∀ c, consumed comps coeffs c = produced comps coeffs c) (v : ℚ) (hv : sumEnergies ce comps coeffs = .ok v) : v = 0 := by
  have hm : ∀ l : List (ℚ × κ), ∀ t, (l.mapM fun p => (dictGet ce p.2).map fun v => p.1 * v) = some t →
      t.sum = (l.map fun p => p.1 * (dictGet ce p.2).getD 0).sum := by
    intro l
    induction l with
    | nil => intro t ht; simp at ht; subst ht; rfl
    | cons p l ih =>
      intro t ht
      rw [List.mapM_cons] at ht
      cases hd : dictGet ce p.2 with
      | none => simp [hd] at ht
      | some w =>
        cases hl : l.mapM fun p => (dictGet ce p.2).map fun v => p.1 * v with
        | none => simp [hd, hl] at ht
        | some t' =>
          simp [hd, hl] at ht
          subst ht
          simp [hd, ih t' hl]
  unfold sumEnergies at hv
  cases hl : (coeffs.zip comps).mapM fun p => (dictGet ce p.2).map fun v => p.1 * v with
  | none => simp [hl] at hv
  | some t =>
    simp only [hl, Except.ok.injEq] at hv
    rw [← hv, hm _ _ hl]
    have hz : (coeffs.zip comps).map (fun p => p.1 * (dictGet ce p.2).getD 0)
        = (comps.zip coeffs).map fun p => p.2 * (dictGet ce p.1).getD 0 := by
      rw [← List.zip_swap comps coeffs, List.map_map]; rfl
    rw [hz, sum_by_key (fun c => (dictGet ce c).getD 0) _ ((comps.zip coeffs).map Prod.fst).toFinset
      (fun p hp => List.mem_toFinset.mpr (List.mem_map.mpr ⟨p, hp, rfl⟩))]
    apply Finset.sum_eq_zero
    intro c _
    have : (((comps.zip coeffs).filter fun p => p.1 = c).map Prod.snd).sum = produced comps coeffs c - consumed comps coeffs c := by
      unfold produced consumed
      generalize comps.zip coeffs = l
      induction l with
      | nil => simp
      | cons p l ih =>
        by_cases hc : p.1 = c
        · rcases lt_trichotomy p.2 0 with h0 | h0 | h0
          · simp [List.filter_cons, hc, h0, not_lt.mpr h0.le] at ih ⊢; linarith
          · simp [List.filter_cons, hc, h0] at ih ⊢; linarith
          · simp [List.filter_cons, hc, h0, not_lt.mpr h0.le] at ih ⊢; linarith
        · simp [List.filter_cons, hc] at ih ⊢; linarith
    rw [this, h c]; simp

example : ∀ c, consumed [A, AB, AB, A] [-1, 2, -2, 1] c = produced [A, AB, AB, A] [-1, 2, -2, 1] c := by
  intro c
  by_cases h1 : A = c <;> by_cases h2 : AB = c <;> simp [consumed, produced, List.filter_cons, h1, h2]
  norm_num

/-- Shrinking an identity keeps it an identity (and hence enlarging a non-identity keeps it one), and for unbalanced
reactions the scale never matters. Full invariance fails, see `C100_scale_violated`. -/
theorem C100_scale_partial (r : Rxn κ) (h : SidesNodup r.comps r.coeffs) (s : ℚ) (hs : 0 < s) :
    (s ≤ 1 → isIdentity r = some true → isIdentity { r with coeffs := r.coeffs.map fun c => c * s } = some true) ∧
    (r.balanced = false → isIdentity { r with coeffs := r.coeffs.map fun c => c * s } = isIdentity r) := by
  have hc : ∀ c, consumed r.comps (r.coeffs.map fun c => c * s) c = consumed r.comps r.coeffs c * s := by
    intro c
    unfold consumed
    rw [zip_map_right, List.filter_map, List.map_map, ← List.sum_map_mul_right]
    have : (fun p : κ × ℚ => decide (p.1 = c ∧ p.2 < 0)) ∘ (fun p : κ × ℚ => (p.1, p.2 * s)) = fun p => decide (p.1 = c ∧ p.2 < 0) := by
      funext p
      simp [Function.comp, mul_neg_iff, hs, not_lt.mpr hs.le]
    rw [this]
    congr 1
    apply List.map_congr_left
    intro p _
    simp
  have hp : ∀ c, produced r.comps (r.coeffs.map fun c => c * s) c = produced r.comps r.coeffs c * s := by
    intro c
    unfold produced
    rw [zip_map_right, List.filter_map, List.map_map, ← List.sum_map_mul_right]
    have : (fun p : κ × ℚ => decide (p.1 = c ∧ 0 < p.2)) ∘ (fun p : κ × ℚ => (p.1, p.2 * s)) = fun p => decide (p.1 = c ∧ 0 < p.2) := by
      funext p
      simp [Function.comp, mul_pos_iff, hs, not_lt.mpr hs.le]
    rw [this]
    rfl
  have hR : reactants { r with coeffs := r.coeffs.map fun c => c * s } = reactants r := by
    unfold reactants
    simp only [reactantCoeffs_scale _ _ s hs, List.map_map]
    rfl
  have hP : products { r with coeffs := r.coeffs.map fun c => c * s } = products r := by
    unfold products
    simp only [productCoeffs_scale _ _ s hs, List.map_map]
    rfl
  constructor
  · intro hs1 hid
    rcases Bool.eq_false_or_eq_true r.balanced with hb | hb
    · rw [C100_amounts _ h hb] at hid
      refine (C100_amounts ({ r with coeffs := r.coeffs.map fun c => c * s } : Rxn κ) (sidesNodup_scale _ _ s hs h) hb).mpr ?_
      intro c
      obtain ⟨h1, h2⟩ := hid c
      show (0 < consumed r.comps (r.coeffs.map fun c => c * s) c ↔ 0 < produced r.comps (r.coeffs.map fun c => c * s) c) ∧
        |consumed r.comps (r.coeffs.map fun c => c * s) c - produced r.comps (r.coeffs.map fun c => c * s) c|
          ≤ 1 / 100000000 + 1 / 100000 * produced r.comps (r.coeffs.map fun c => c * s) c
      rw [hc, hp, mul_pos_iff_of_pos_right hs, mul_pos_iff_of_pos_right hs, ← sub_mul, abs_mul, abs_of_pos hs]
      refine ⟨h1, ?_⟩
      nlinarith
    · unfold isIdentity at hid ⊢
      rw [hR, hP]
      split at hid
      · simp at hid
      · rename_i hn; rw [if_neg hn, if_pos (by simpa using hb)]
  · intro hb
    unfold isIdentity
    rw [hR, hP]
    split
    · rfl
    · rfl

example := (C100_scale_partial (⟨[A, AB, A], [-1, 0, 1], true, [], some 0⟩ : Rxn TComp) (by unfold SidesNodup; decide +kernel) (1 / 3) (by norm_num)).1
  (by norm_num) (by decide +kernel)

/-- Rescaling changes the answer: `0.001 A -> 0.001000019 A` is an identity, ten times as much of it is not (both are
balanced within the tolerance). -/
theorem C100_scale_violated : ∃ r : Rxn TComp, r.balanced = isBalanced toy r.comps r.coeffs ∧ r.balanced = true ∧
    isIdentity r = some true ∧
    isBalanced toy r.comps (r.coeffs.map fun c => c * 10) = true ∧
    isIdentity { r with coeffs := r.coeffs.map fun c => c * 10 } = some false :=
  ⟨⟨[A, A], [-1 / 1000, 1 / 1000 + 19 / 1000000000], true, [], some 0⟩, by decide +kernel⟩

/-- Reversing changes the answer: `numpy.isclose` is relative to its second argument only. -/
theorem C100_reverse_violated : ∃ r : Rxn TComp, r.balanced = isBalanced toy r.comps r.coeffs ∧ r.balanced = true ∧
    isIdentity r = some false ∧ isIdentity (reverse toy r) = some true :=
  ⟨⟨[A, A], [-(1 / 20 + 510002 / 1000000000000), 1 / 20], true, [], some 0⟩, by decide +kernel⟩

/-- Reversal never matters for unbalanced reactions, and never for exact identities. -/
theorem C100_reverse_partial (X : Chem κ ε) (r : Rxn κ) (h : r.balanced = false) :
    isIdentity (reverse X r) = isIdentity r := by
  unfold isIdentity
  have h1 : reactants (reverse X r) = products r := by
    unfold reactants products reverse init
    simp only [reactantCoeffs_reverse, List.map_map]
    rfl
  have h2 : products (reverse X r) = reactants r := by
    unfold reactants products reverse init
    simp only [productCoeffs_reverse, List.map_map]
    rfl
  have h3 : (reverse X r).balanced = false := h
  rw [h1, h2, if_pos h, if_pos h3]
  by_cases hs : (reactants r).toFinset = (products r).toFinset
  · rw [if_neg (not_not.mpr hs.symm), if_neg (not_not.mpr hs)]
  · rw [if_pos (Ne.symm hs), if_pos hs]

example := C100_reverse_partial toy (⟨[A, A], [-1, 2], false, [], some 0⟩ : Rxn TComp) rfl

end Verif.Props.Identity
