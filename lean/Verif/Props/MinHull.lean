import Verif.Props.GroundState
import Verif.Props.Minimize
import Verif.Props.Identity

/-! Property C140: for a pair of phases, the minimization enumerator and the hull of the exhaustive enumeration agree. -/

set_option linter.unusedSectionVars false

namespace Verif.Props.MinHull
open Verif.Py Verif.Model Verif.Model.Enum Verif.Model.Reaction Verif.Model.Minimize Verif.Spec.Reaction Verif.Lemmas Verif.Lemmas.Exc
  Verif.Props.Enum Verif.Props.EnumGroup Verif.Props.BalanceLinear Verif.Props.EnumComplete Verif.Props.EnumExact Verif.Lemmas.Conformal
  Verif.Props.GroundState
open Verif.Props.Balance (SolvesConsistent compMatrix)
open Verif.Model.Hull (Built)
open Verif.Lemmas.Reaction (sidesNodup_of_nodup reactantCoeffs_eq productCoeffs_eq)
open Verif.Props.HullConvex (LowerCorner)

variable {κ : Type} [DecidableEq κ]

/-! ### Specification -/

/-- The phases made of elements of `A` and `B` only. -/
def system (X : Chem κ Sym) (entries : List (Entry κ)) (A B : Entry κ) : List (Entry κ) :=
  entries.filter fun z => decide (∀ s ∈ X.elems z.comp, s ∈ X.elems A.comp ∨ s ∈ X.elems B.comp)

/-- `e` is the lowest energy that a mixture with the share `x` of `B` can reach, and the ground state has a corner there: separating the
mixture into two others, one with less and one with more of `B`, always costs energy. -/
def Bend (X : Chem κ Sym) (phases : List (Entry κ)) (A B : Entry κ) (x e : ℚ) : Prop :=
  IsLeast {e | Mixes X phases A B x e} e ∧
  ∀ a b f g, Mixes X phases A B a f → Mixes X phases A B b g → a < x → x < b → e * (b - a) < f * (b - x) + g * (x - a)

/-- What pymatgen promises about the reaction of a kink at the share `x`: the mixture has a corner of the ground state there; the reactants
are the phases mixed, the products the phases of a ground state whose phases cannot be turned into each other (the corners of one facet
of the phase diagram). -/
def Kink (X : Chem κ Sym) (phases : List (Entry κ)) (A B : Entry κ) (x e : ℚ) (k : Rxn κ) : Prop :=
  Bend X phases A B x e ∧ ∃ q : Entry κ → ℚ, (∀ z, 0 ≤ q z) ∧ (∀ z, z ∉ phases → q z = 0) ∧
    (∀ s, (phases.map fun z => q z * share X z s).sum = (1 - x) * share X A s + x * share X B s) ∧
    e = (phases.map fun z => q z * perAtomOf X z).sum - ((1 - x) * perAtomOf X A + x * perAtomOf X B) ∧
    (∀ q' : Entry κ → ℚ, (∀ z, q z = 0 → q' z = 0) →
      (∀ s, (phases.map fun z => q' z * share X z s).sum = (phases.map fun z => q z * share X z s).sum) → q' = q) ∧
    ((reactants k).map X.red).Perm (((if x < 1 then [A] else []) ++ if 0 < x then [B] else []).map fun z => X.red z.comp) ∧
    ((products k).map X.red).Perm ((phases.filter fun z => decide (0 < q z)).map fun z => X.red z.comp)

/-- `ks` are kinks, and every corner of the ground state is among them. -/
def Lists (X : Chem κ Sym) (phases : List (Entry κ)) (A B : Entry κ) (ks : List (Rxn κ)) : Prop :=
  (∀ k ∈ ks, ∃ x e, Kink X phases A B x e k) ∧ ∀ x e, Bend X phases A B x e → ∃ k ∈ ks, Kink X phases A B x e k

/-- Nothing happens: `A` or `B` alone, unchanged in energy. -/
def Idle (x e : ℚ) : Prop := (x = 0 ∨ x = 1) ∧ e = 0

/-! ### Helper lemmas: corners are rigid -/

section
variable {X : Chem κ Sym} {phases : List (Entry κ)} {A B : Entry κ}

theorem small (E : Finset (Entry κ)) (k d : Entry κ → ℚ) (hk : ∀ z, 0 ≤ k z) (hd : ∀ z, k z = 0 → d z = 0) :
    ∃ t : ℚ, 0 < t ∧ ∀ z ∈ E, t * |d z| ≤ k z := by
  induction E using Finset.induction with
  | empty => exact ⟨1, one_pos, by simp⟩
  | insert a E ha ih =>
    obtain ⟨t, ht, h⟩ := ih
    have hlt : ∃ t' : ℚ, 0 < t' ∧ t' * |d a| ≤ k a := by
      rcases (hk a).eq_or_lt with h0 | h0
      · exact ⟨1, one_pos, by rw [hd a h0.symm, abs_zero, mul_zero]; exact hk a⟩
      · refine ⟨k a / (|d a| + 1), div_pos h0 (by positivity), ?_⟩
        rw [div_mul_eq_mul_div, div_le_iff₀ (by positivity)]
        nlinarith [abs_nonneg (d a)]
    obtain ⟨t', ht', h'⟩ := hlt
    refine ⟨min t t', lt_min ht ht', fun z hz => ?_⟩
    rcases Finset.mem_insert.mp hz with rfl | hz
    · exact (mul_le_mul_of_nonneg_right (min_le_right _ _) (abs_nonneg _)).trans h'
    · exact (mul_le_mul_of_nonneg_right (min_le_left _ _) (abs_nonneg _)).trans (h z hz)

/-- Mixing a little more. -/
theorem shifted (hX : X.Lawful) (hsym : Symbols fun e : Entry κ => X.elems e.comp) (hnd : phases.Nodup) (x e : ℚ) (k : Entry κ → ℚ)
    (hk : ∀ s, ∑ z ∈ phases.toFinset, k z * w X z s = (1 - x) / m X A * w X A s + x / m X B * w X B s)
    (he : e = ∑ z ∈ phases.toFinset, k z * en X z - ((1 - x) / m X A * en X A + x / m X B * en X B))
    (d : Entry κ → ℚ) (α β : ℚ) (hd : ∀ s, ∑ z ∈ phases.toFinset, d z * w X z s = α * w X A s + β * w X B s) (τ : ℚ)
    (h1 : ∀ z, 0 ≤ k z + τ * d z) (h2 : 0 ≤ (1 - x) + τ * (α * m X A)) (h3 : 0 ≤ x + τ * (β * m X B)) (hN : 0 < 1 + τ * (α * m X A + β * m X B)) :
    Mixes X phases A B ((x + τ * (β * m X B)) / (1 + τ * (α * m X A + β * m X B)))
      ((e + τ * (∑ z ∈ phases.toFinset, d z * en X z - (α * en X A + β * en X B))) / (1 + τ * (α * m X A + β * m X B))) := by
  have hm := m_pos X hX hsym
  have mA := (hm A).ne'
  have mB := (hm B).ne'
  rw [mixes_iff hX hsym hnd]
  set N := 1 + τ * (α * m X A + β * m X B) with hNd
  have e1 : 1 - (x + τ * (β * m X B)) / N = ((1 - x) + τ * (α * m X A)) / N := by
    rw [eq_div_iff hN.ne', sub_mul, div_mul_cancel₀ _ hN.ne', hNd]; ring
  have hsum : ∀ f : Entry κ → ℚ, ∑ z ∈ phases.toFinset, (k z + τ * d z) / N * f z
      = (∑ z ∈ phases.toFinset, k z * f z + τ * ∑ z ∈ phases.toFinset, d z * f z) / N := by
    intro f
    rw [Finset.mul_sum, ← Finset.sum_add_distrib, Finset.sum_div]
    exact Finset.sum_congr rfl fun z _ => by ring
  refine ⟨div_nonneg h3 hN.le, ?_, fun z => (k z + τ * d z) / N, fun z => div_nonneg (h1 z) hN.le, fun s => ?_, ?_⟩
  · rw [div_le_one hN]; rw [hNd]; linarith
  · rw [hsum fun z => w X z s, hk s, hd s, e1]
    have := hN.ne'
    clear_value N
    field_simp
    ring
  · rw [hsum fun z => en X z, e1, he]
    have := hN.ne'
    clear_value N
    field_simp
    ring

/-- At a corner of the ground state inside, the phases of the ground state cannot make a mixture of `A` and `B` in another ratio. -/
theorem rigid (hX : X.Lawful) (hsym : Symbols fun e : Entry κ => X.elems e.comp) (hnd : phases.Nodup) (x e : ℚ) (h0 : 0 < x) (h1 : x < 1)
    (hb : Bend X phases A B x e) (k : Entry κ → ℚ) (hk0 : ∀ z, 0 ≤ k z) (hkE : ∀ z, z ∉ phases → k z = 0)
    (hk : ∀ s, ∑ z ∈ phases.toFinset, k z * w X z s = (1 - x) / m X A * w X A s + x / m X B * w X B s)
    (he : e = ∑ z ∈ phases.toFinset, k z * en X z - ((1 - x) / m X A * en X A + x / m X B * en X B))
    (d : Entry κ → ℚ) (hdk : ∀ z, k z = 0 → d z = 0) (α β : ℚ)
    (hd : ∀ s, ∑ z ∈ phases.toFinset, d z * w X z s = α * w X A s + β * w X B s) : β * m X B * (1 - x) = α * m X A * x := by
  obtain ⟨t, ht, htk⟩ := small phases.toFinset k d hk0 hdk
  set a := α * m X A with ha
  set b := β * m X B with hbd
  set D := ∑ z ∈ phases.toFinset, d z * en X z - (α * en X A + β * en X B) with hD
  obtain ⟨t', ht', l1, l2, l3⟩ : ∃ t' : ℚ, 0 < t' ∧ t' ≤ t ∧ t' * |a| ≤ (1 - x) / 2 ∧ t' * |b| ≤ x / 2 := by
    refine ⟨min t (min ((1 - x) / 2 / (|a| + 1)) (x / 2 / (|b| + 1))), ?_, min_le_left _ _, ?_, ?_⟩
    · exact lt_min ht (lt_min (div_pos (by linarith) (by positivity)) (div_pos (by linarith) (by positivity)))
    · refine (mul_le_mul_of_nonneg_right ((min_le_right _ _).trans (min_le_left _ _)) (abs_nonneg _)).trans ?_
      rw [div_mul_eq_mul_div, div_le_iff₀ (by positivity)]
      nlinarith [abs_nonneg a]
    · refine (mul_le_mul_of_nonneg_right ((min_le_right _ _).trans (min_le_right _ _)) (abs_nonneg _)).trans ?_
      rw [div_mul_eq_mul_div, div_le_iff₀ (by positivity)]
      nlinarith [abs_nonneg b]
  have key : ∀ τ : ℚ, |τ| = t' → 0 < 1 + τ * (a + b) ∧ Mixes X phases A B ((x + τ * b) / (1 + τ * (a + b))) ((e + τ * D) / (1 + τ * (a + b))) := by
    intro τ hτ
    have ba : |τ * a| ≤ (1 - x) / 2 := by rw [abs_mul, hτ]; exact l2
    have bb : |τ * b| ≤ x / 2 := by rw [abs_mul, hτ]; exact l3
    obtain ⟨ba1, ba2⟩ := abs_le.mp ba
    obtain ⟨bb1, bb2⟩ := abs_le.mp bb
    have hN : 0 < 1 + τ * (a + b) := by rw [mul_add]; linarith
    refine ⟨hN, shifted hX hsym hnd x e k hk he d α β hd τ (fun z => ?_) (by linarith) (by linarith) hN⟩
    by_cases hz : z ∈ phases
    · have h3 : |τ * d z| ≤ k z := by
        rw [abs_mul, hτ]
        exact (mul_le_mul_of_nonneg_right l1 (abs_nonneg _)).trans (htk z (List.mem_toFinset.mpr hz))
      have := (abs_le.mp h3).1
      linarith
    · rw [hkE z hz, hdk z (hkE z hz), mul_zero, add_zero]
  obtain ⟨n1, m1⟩ := key t' (abs_of_pos ht')
  obtain ⟨n2, m2⟩ := key (-t') (by rw [abs_neg, abs_of_pos ht'])
  by_contra hne
  have g1 : (x + t' * b) / (1 + t' * (a + b)) - x = t' * (b * (1 - x) - a * x) / (1 + t' * (a + b)) := by
    rw [eq_div_iff n1.ne', sub_mul, div_mul_cancel₀ _ n1.ne']; ring
  have g2 : x - (x + -t' * b) / (1 + -t' * (a + b)) = t' * (b * (1 - x) - a * x) / (1 + -t' * (a + b)) := by
    rw [eq_div_iff n2.ne', sub_mul, div_mul_cancel₀ _ n2.ne']; ring
  set γ := b * (1 - x) - a * x with hγ
  set N1 := 1 + t' * (a + b) with hN1
  set N2 := 1 + -t' * (a + b) with hN2
  have hs : N1 + N2 = 2 := by rw [hN1, hN2]; ring
  have hlin : ∀ c : ℚ, e * (t' * γ / N1 * c + t' * γ / N2 * c) = (e + -t' * D) / N2 * (t' * γ / N1 * c) + (e + t' * D) / N1 * (t' * γ / N2 * c) := by
    intro c
    have i1 := n1.ne'
    have i2 := n2.ne'
    have : N2 = 2 - N1 := by linarith
    clear_value N1 N2
    field_simp
    rw [this]
    ring
  rcases lt_trichotomy γ 0 with h | h | h
  · have c1 : (x + t' * b) / N1 < x := by
      have : t' * γ / N1 < 0 := div_neg_of_neg_of_pos (mul_neg_of_pos_of_neg ht' h) n1
      linarith
    have c2 : x < (x + -t' * b) / N2 := by
      have : t' * γ / N2 < 0 := div_neg_of_neg_of_pos (mul_neg_of_pos_of_neg ht' h) n2
      linarith
    have := hb.2 _ _ _ _ m1 m2 c1 c2
    have e1 : (x + -t' * b) / N2 - (x + t' * b) / N1 = t' * γ / N1 * (-1) + t' * γ / N2 * (-1) := by linarith
    have e2 : (x + -t' * b) / N2 - x = t' * γ / N2 * (-1) := by linarith
    have e3 : x - (x + t' * b) / N1 = t' * γ / N1 * (-1) := by linarith
    rw [e1, e2, e3, hlin (-1)] at this
    linarith
  · exact hne (by linarith)
  · have c1 : x < (x + t' * b) / N1 := by
      have : 0 < t' * γ / N1 := div_pos (mul_pos ht' h) n1
      linarith
    have c2 : (x + -t' * b) / N2 < x := by
      have : 0 < t' * γ / N2 := div_pos (mul_pos ht' h) n2
      linarith
    have := hb.2 _ _ _ _ m2 m1 c2 c1
    have e1 : (x + t' * b) / N1 - (x + -t' * b) / N2 = t' * γ / N1 * 1 + t' * γ / N2 * 1 := by linarith
    have e2 : (x + t' * b) / N1 - x = t' * γ / N1 * 1 := by linarith
    have e3 : x - (x + -t' * b) / N2 = t' * γ / N2 * 1 := by linarith
    rw [e1, e2, e3, hlin 1] at this
    linarith

/-- The change that a mixture makes. -/
def change (X : Chem κ Sym) (A B : Entry κ) (x : ℚ) (k : Entry κ → ℚ) (z : Entry κ) : ℚ :=
  k z - (if z = A then (1 - x) / m X A else 0) - if z = B then x / m X B else 0

theorem change_sum (hA : A ∈ phases) (hB : B ∈ phases) (x : ℚ) (k f : Entry κ → ℚ) :
    ∑ z ∈ phases.toFinset, change X A B x k z * f z = ∑ z ∈ phases.toFinset, k z * f z - ((1 - x) / m X A * f A + x / m X B * f B) := by
  have e1 : ∀ z ∈ phases.toFinset, change X A B x k z * f z
      = k z * f z - (if z = A then (1 - x) / m X A * f z else 0) - (if z = B then x / m X B * f z else 0) := by
    intro z hz
    unfold change
    split_ifs <;> ring
  rw [Finset.sum_congr rfl e1, Finset.sum_sub_distrib, Finset.sum_sub_distrib, Finset.sum_ite_eq', Finset.sum_ite_eq',
    if_pos (List.mem_toFinset.mpr hA), if_pos (List.mem_toFinset.mpr hB)]
  ring

theorem elementary (hX : X.Lawful) (hsym : Symbols fun e : Entry κ => X.elems e.comp) (hnd : phases.Nodup) (hA : A ∈ phases) (hB : B ∈ phases)
    (hAB : A ≠ B) (x e : ℚ) (hb : Bend X phases A B x e) (hi : ¬ Idle x e) (k : Entry κ → ℚ) (hk0 : ∀ z, 0 ≤ k z) (hkE : ∀ z, z ∉ phases → k z = 0)
    (hk : ∀ s, ∑ z ∈ phases.toFinset, k z * w X z s = (1 - x) / m X A * w X A s + x / m X B * w X B s)
    (he : e = ∑ z ∈ phases.toFinset, k z * en X z - ((1 - x) / m X A * en X A + x / m X B * en X B))
    (hs : ∀ k' : Entry κ → ℚ, (∀ z, k z = 0 → k' z = 0) →
      (∀ s, ∑ z ∈ phases.toFinset, k' z * w X z s = ∑ z ∈ phases.toFinset, k z * w X z s) → k' = k) :
    (x < 1 → k A = 0) ∧ (0 < x → k B = 0) ∧ Elementary phases.toFinset (w X) (change X A B x k) := by
  have hm := m_pos X hX hsym
  obtain ⟨hx0, hx1, -⟩ := hb.1.1
  have one : ∀ (C : Entry κ) (c : ℚ) (f : Entry κ → ℚ), C ∈ phases → ∑ z ∈ phases.toFinset, (if z = C then c else 0) * f z = c * f C := by
    intro C c f hC
    simp only [ite_mul, zero_mul]
    rw [Finset.sum_ite_eq', if_pos (List.mem_toFinset.mpr hC)]
  have hkA : x < 1 → k A = 0 := by
    intro hlt
    rcases hx0.eq_or_lt with h0 | h0
    · subst h0
      by_contra hc
      have := hs (fun z => if z = A then 1 / m X A else 0) (fun z hz => if_neg (by rintro rfl; exact hc hz)) (fun s => by
        rw [one A _ _ hA, hk s]; ring)
      refine hi ⟨.inl rfl, ?_⟩
      rw [he, ← this, one A _ _ hA]; ring
    · have := rigid hX hsym hnd x e h0 hlt hb k hk0 hkE hk he (fun z => if z = A then k A else 0)
        (fun z hz => by split_ifs with h; exacts [h ▸ hz, rfl]) (k A) 0 (fun s => by rw [one A _ _ hA]; ring)
      simp only [zero_mul] at this
      rcases mul_eq_zero.mp this.symm with h | h
      · exact (mul_eq_zero.mp h).resolve_right (hm A).ne'
      · exact absurd h h0.ne'
  have hkB : 0 < x → k B = 0 := by
    intro hlt
    rcases hx1.eq_or_lt with h0 | h0
    · subst h0
      by_contra hc
      have := hs (fun z => if z = B then 1 / m X B else 0) (fun z hz => if_neg (by rintro rfl; exact hc hz)) (fun s => by
        rw [one B _ _ hB, hk s]; ring)
      refine hi ⟨.inr rfl, ?_⟩
      rw [he, ← this, one B _ _ hB]; ring
    · have := rigid hX hsym hnd x e hlt h0 hb k hk0 hkE hk he (fun z => if z = B then k B else 0)
        (fun z hz => by split_ifs with h; exacts [h ▸ hz, rfl]) 0 (k B) (fun s => by rw [one B _ _ hB]; ring)
      simp only [zero_mul] at this
      rcases mul_eq_zero.mp this with h | h
      · exact (mul_eq_zero.mp h).resolve_right (hm B).ne'
      · linarith
  refine ⟨hkA, hkB, ?_⟩
  have cA : x < 1 → change X A B x k A = -((1 - x) / m X A) := by
    intro h; unfold change; rw [hkA h, if_pos rfl, if_neg hAB]; ring
  have cB : 0 < x → change X A B x k B = -(x / m X B) := by
    intro h; unfold change; rw [hkB h, if_pos rfl, if_neg (Ne.symm hAB)]; ring
  have hker : Kernel phases.toFinset (w X) (change X A B x k) := by
    refine ⟨fun z hz => ?_, fun s => ?_⟩
    · have hz' : z ∉ phases := fun h => hz (List.mem_toFinset.mpr h)
      unfold change
      rw [hkE z hz', if_neg (by rintro rfl; exact hz' hA), if_neg (by rintro rfl; exact hz' hB)]; ring
    · rw [change_sum hA hB x k fun z => w X z s, hk s]; ring
  -- a kernel vector on the support of `k` vanishes
  have hvan : ∀ y : Entry κ → ℚ, Kernel phases.toFinset (w X) y → (∀ z, k z = 0 → y z = 0) → ∀ z, y z = 0 := by
    intro y hy hyk z
    have := hs (fun z => k z + y z) (fun z hz => by rw [hz, hyk z hz, add_zero]) (fun s => by
      simp only [add_mul]
      rw [Finset.sum_add_distrib, hy.2 s, add_zero])
    have := congrFun this z
    linarith
  refine ⟨hker, ?_, fun y hy hsupp => ?_⟩
  · rcases hx1.eq_or_lt with h1 | h1
    · exact ⟨B, by rw [cB (by rw [h1]; norm_num)]; exact neg_ne_zero.mpr (div_ne_zero (by rw [h1]; norm_num) (hm B).ne')⟩
    · exact ⟨A, by rw [cA h1]; exact neg_ne_zero.mpr (div_ne_zero (by linarith) (hm A).ne')⟩
  -- off A and B the support of the change is that of `k`
  have hoff : ∀ z, k z = 0 → (z = A → x = 1) → (z = B → x = 0) → y z = 0 := by
    intro z hz h1 h2
    refine hsupp z ?_
    unfold change
    rw [hz]
    split_ifs with a b b
    · exact absurd (a.symm.trans b) hAB
    · rw [h1 a]; ring
    · rw [h2 b]; ring
    · ring
  rcases hx1.eq_or_lt with h1 | h1
  · -- only B is used
    have hxp : 0 < x := by rw [h1]; norm_num
    have hcB : change X A B x k B ≠ 0 := by rw [cB hxp]; exact neg_ne_zero.mpr (div_ne_zero hxp.ne' (hm B).ne')
    refine ⟨y B / change X A B x k B, fun z => ?_⟩
    have := hvan (fun z => y z - y B / change X A B x k B * change X A B x k z) (hy.sub hker _) (fun z hz => by
      by_cases hzB : z = B
      · rw [hzB]; field_simp; ring
      · rw [hoff z hz (fun _ => h1) (fun h => absurd h hzB)]
        unfold change
        rw [hz, if_neg hzB, h1]
        split_ifs <;> ring) z
    linarith
  · have hcA : change X A B x k A ≠ 0 := by rw [cA h1]; exact neg_ne_zero.mpr (div_ne_zero (by linarith) (hm A).ne')
    refine ⟨y A / change X A B x k A, fun z => ?_⟩
    have := hvan (fun z => y z - y A / change X A B x k A * change X A B x k z) (hy.sub hker _) (fun z hz => by
      by_cases hzA : z = A
      · rw [hzA]; field_simp; ring
      · by_cases hzB : z = B
        · rcases hx0.eq_or_lt with h0 | h0
          · rw [hoff z hz (fun h => absurd h hzA) (fun _ => h0.symm)]
            unfold change
            rw [hz, if_neg hzA, ← h0]
            split_ifs <;> ring
          · -- the ratio of A and B is fixed
            rw [hzB]
            have hr := rigid hX hsym hnd x e h0 h1 hb k hk0 hkE hk he (fun z => if z = A ∨ z = B then 0 else y z)
              (fun z hz => by
                split_ifs with h
                · rfl
                · push Not at h
                  exact hoff z hz (fun h' => absurd h' h.1) (fun h' => absurd h' h.2)) (-(y A)) (-(y B)) (fun s => by
                have h4 := hy.2 s
                have e1 : ∀ z ∈ phases.toFinset, (if z = A ∨ z = B then 0 else y z) * w X z s
                    = y z * w X z s - (if z = A then y A else 0) * w X z s - (if z = B then y B else 0) * w X z s := by
                  intro z _
                  by_cases a : z = A
                  · have b : z ≠ B := a ▸ hAB
                    rw [if_pos (.inl a), if_pos a, if_neg b, a]; ring
                  · by_cases b : z = B
                    · rw [if_pos (.inr b), if_neg a, if_pos b, b]; ring
                    · rw [if_neg (by tauto), if_neg a, if_neg b]; ring
                rw [Finset.sum_congr rfl e1, Finset.sum_sub_distrib, Finset.sum_sub_distrib, h4, one A _ _ hA, one B _ _ hB]; ring)
            rw [cA h1, cB h0]
            have i1 := (hm A).ne'
            have i2 := (hm B).ne'
            have i3 : 1 - x ≠ 0 := by linarith
            field_simp
            linarith
        · rw [hoff z hz (fun h => absurd h hzA) (fun h => absurd h hzB)]
          unfold change
          rw [hz, if_neg hzA, if_neg hzB]
          ring) z
    linarith

end

/-! ### Helper lemmas: only the phases of the chemical system matter -/

section
variable {X : Chem κ Sym} {entries : List (Entry κ)} {A B : Entry κ}

theorem mem_system (z : Entry κ) : z ∈ system X entries A B ↔ z ∈ entries ∧ ∀ s ∈ X.elems z.comp, s ∈ X.elems A.comp ∨ s ∈ X.elems B.comp := by
  unfold system
  rw [List.mem_filter, decide_eq_true_eq]

theorem share_nonneg (hX : X.Lawful) (hsym : Symbols fun e : Entry κ => X.elems e.comp) (z : Entry κ) (s : Sym) : 0 ≤ share X z s := by
  rw [share_eq X hX]
  exact div_nonneg (hX.nonneg _ _) (m_pos X hX hsym z).le

theorem share_ne (hX : X.Lawful) (hsym : Symbols fun e : Entry κ => X.elems e.comp) (z : Entry κ) (s : Sym) : share X z s ≠ 0 ↔ s ∈ X.elems z.comp := by
  rw [share_eq X hX, ← elems_red X hX, hX.mem_elems]
  unfold w
  have := (m_pos X hX hsym z).ne'
  constructor
  · exact fun h h' => h (by rw [h', zero_div])
  · exact fun h => div_ne_zero h this

/-- A mixture of `A` and `B` consists of phases of their chemical system. -/
theorem inside (hX : X.Lawful) (hsym : Symbols fun e : Entry κ => X.elems e.comp) (x : ℚ) (q : Entry κ → ℚ) (hq : ∀ z, 0 ≤ q z)
    (hs : ∀ s, (entries.map fun z => q z * share X z s).sum = (1 - x) * share X A s + x * share X B s) (z : Entry κ) (hz : z ∈ entries)
    (hqz : q z ≠ 0) : z ∈ system X entries A B := by
  refine (mem_system z).mpr ⟨hz, fun s hsz => ?_⟩
  by_contra hc
  push Not at hc
  have a0 : share X A s = 0 := by by_contra h; exact hc.1 ((share_ne hX hsym A s).mp h)
  have b0 : share X B s = 0 := by by_contra h; exact hc.2 ((share_ne hX hsym B s).mp h)
  have h1 := hs s
  rw [a0, b0, mul_zero, mul_zero, add_zero] at h1
  have h2 : ∀ y ∈ entries.map fun z => q z * share X z s, 0 ≤ y := by
    intro y hy
    obtain ⟨z', -, rfl⟩ := List.mem_map.mp hy
    exact mul_nonneg (hq z') (share_nonneg hX hsym z' s)
  have h3 := List.single_le_sum h2 _ (List.mem_map.mpr ⟨z, hz, rfl⟩)
  have h4 := mul_pos (lt_of_le_of_ne (hq z) (Ne.symm hqz)) (lt_of_le_of_ne (share_nonneg hX hsym z s) (Ne.symm ((share_ne hX hsym z s).mpr hsz)))
  linarith

theorem sum_system (q f : Entry κ → ℚ) (h : ∀ z ∈ entries, z ∉ system X entries A B → q z = 0) :
    ((system X entries A B).map fun z => q z * f z).sum = (entries.map fun z => q z * f z).sum := by
  have key : ∀ (l : List (Entry κ)) (P : Entry κ → Bool), (∀ z ∈ l, P z = false → q z = 0) → ((l.filter P).map fun z => q z * f z).sum = (l.map fun z => q z * f z).sum := by
    intro l P
    induction l with
    | nil => simp
    | cons a l ih =>
      intro h
      have ih := ih fun z hz => h z (List.mem_cons_of_mem _ hz)
      by_cases hP : P a = true
      · rw [List.filter_cons_of_pos hP, List.map_cons, List.map_cons, List.sum_cons, List.sum_cons, ih]
      · rw [List.filter_cons_of_neg hP, List.map_cons, List.sum_cons, ih, h a List.mem_cons_self (by simpa using hP), zero_mul, zero_add]
  refine key _ _ fun z hz hP => h z hz fun hm => ?_
  have := (List.mem_filter.mp hm).2
  rw [hP] at this
  cases this

theorem mixes_system (hX : X.Lawful) (hsym : Symbols fun e : Entry κ => X.elems e.comp) (x e : ℚ) :
    Mixes X (system X entries A B) A B x e ↔ Mixes X entries A B x e := by
  unfold Mixes
  refine and_congr_right fun _ => and_congr_right fun _ => ⟨?_, ?_⟩
  · rintro ⟨q, h1, h2, h3⟩
    have h0 : ∀ z ∈ entries, z ∉ system X entries A B → (fun z => if z ∈ system X entries A B then q z else 0) z = 0 := fun z _ hz => if_neg hz
    have hs := fun f => sum_system (X := X) (A := A) (B := B) (fun z => if z ∈ system X entries A B then q z else 0) f h0
    have hs' : ∀ f : Entry κ → ℚ, ((system X entries A B).map fun z => (if z ∈ system X entries A B then q z else 0) * f z)
        = (system X entries A B).map fun z => q z * f z := fun f => List.map_congr_left fun z hz => by rw [if_pos hz]
    refine ⟨fun z => if z ∈ system X entries A B then q z else 0, fun z => by dsimp only; split_ifs; exacts [h1 z, le_rfl], fun s => ?_, ?_⟩
    · rw [← hs, hs', h2 s]
    · rw [← hs, hs', h3]
  · rintro ⟨q, h1, h2, h3⟩
    have hs := fun f => sum_system (X := X) (A := A) (B := B) q f fun z hz hn => by
      by_contra hc
      exact hn (inside hX hsym x q h1 h2 z hz hc)
    exact ⟨q, h1, fun s => by rw [hs, h2 s], by rw [hs, h3]⟩

theorem bend_system (hX : X.Lawful) (hsym : Symbols fun e : Entry κ => X.elems e.comp) (x e : ℚ) :
    Bend X (system X entries A B) A B x e ↔ Bend X entries A B x e := by
  unfold Bend
  simp only [mixes_system hX hsym]

/-- In formula units. -/
theorem kink_units (hX : X.Lawful) (hsym : Symbols fun e : Entry κ => X.elems e.comp) (hnd : entries.Nodup)
    (x e : ℚ) (k : Rxn κ) (h : Kink X (system X entries A B) A B x e k) :
    Bend X entries A B x e ∧ ∃ q : Entry κ → ℚ, (∀ z, 0 ≤ q z) ∧ (∀ z, z ∉ system X entries A B → q z = 0) ∧
      (∀ s, ∑ z ∈ entries.toFinset, q z * w X z s = (1 - x) / m X A * w X A s + x / m X B * w X B s) ∧
      e = ∑ z ∈ entries.toFinset, q z * en X z - ((1 - x) / m X A * en X A + x / m X B * en X B) ∧
      (∀ k' : Entry κ → ℚ, (∀ z, q z = 0 → k' z = 0) →
        (∀ s, ∑ z ∈ entries.toFinset, k' z * w X z s = ∑ z ∈ entries.toFinset, q z * w X z s) → k' = q) ∧
      ((reactants k).map X.red).Perm (((if x < 1 then [A] else []) ++ if 0 < x then [B] else []).map fun z => X.red z.comp) ∧
      ((products k).map X.red).Perm (((system X entries A B).filter fun z => decide (0 < q z)).map fun z => X.red z.comp) := by
  have hm := m_pos X hX hsym
  obtain ⟨hb, q, h1, h2, h3, h4, h5, h6, h7⟩ := h
  have hsum : ∀ q : Entry κ → ℚ, (∀ z, z ∉ system X entries A B → q z = 0) → ∀ f g : Entry κ → ℚ, (∀ z, f z = g z / m X z) →
      ((system X entries A B).map fun z => q z * f z).sum = ∑ z ∈ entries.toFinset, q z / m X z * g z := by
    intro q hq f g hf
    rw [sum_system q f fun z _ hz => hq z hz, ← List.sum_toFinset _ hnd]
    exact Finset.sum_congr rfl fun z _ => by rw [hf z]; ring
  have hsh : ∀ s, ∀ z, share X z s = w X z s / m X z := fun s z => share_eq X hX z s
  refine ⟨(bend_system hX hsym x e).mp hb, fun z => q z / m X z, fun z => div_nonneg (h1 z) (hm z).le, fun z hz => by dsimp only; rw [h2 z hz, zero_div],
    fun s => ?_, ?_, fun k' hk' hks => ?_, h6, ?_⟩
  · rw [← hsum q h2 (fun z => share X z s) (fun z => w X z s) (hsh s), h3 s, hsh, hsh]; ring
  · rw [← hsum q h2 (perAtomOf X) (en X) (perAtom_eq X hX), h4, perAtom_eq X hX, perAtom_eq X hX]; ring
  · have hz' : ∀ z, q z = 0 → k' z * m X z = 0 := fun z hz => by rw [hk' z (by dsimp only; rw [hz, zero_div]), zero_mul]
    have := h5 (fun z => k' z * m X z) hz' fun s => by
      rw [hsum _ (fun z hz => hz' z (h2 z hz)) (fun z => share X z s) (fun z => w X z s) (hsh s),
        hsum q h2 (fun z => share X z s) (fun z => w X z s) (hsh s), ← hks s]
      exact Finset.sum_congr rfl fun z _ => by rw [mul_div_cancel_right₀ _ (hm z).ne']
    funext z
    rw [← congrFun this z, mul_div_cancel_right₀ _ (hm z).ne']
  · have : ((system X entries A B).filter fun z => decide (0 < q z / m X z)) = (system X entries A B).filter fun z => decide (0 < q z) :=
      List.filter_congr fun z _ => by rw [decide_eq_decide]; exact div_pos_iff_of_pos_right (hm z)
    rw [this]
    exact h7

end

/-! ### Helper lemmas: the computed reaction -/

section
variable {φ : Type} [DecidableEq φ] {X : Chem κ Sym} {cfg : Cfg (Entry κ)} {entries : List (Entry κ)} {n : ℤ} {A B : Entry κ} {out : List (Rx (Entry κ))}
  {gs : List (CRxn κ)} {h : Built (CRxn κ)}

theorem picked (hn : (entries.map fun e => X.red e.comp).Nodup) (side : List κ) (es want : List (Entry κ)) (hes : ∀ z ∈ es, z ∈ entries)
    (hw : ∀ z ∈ want, z ∈ entries) (hwn : want.Nodup) (h1 : (es.map fun e => X.red e.comp) = side.map X.red)
    (h2 : (side.map X.red).Perm (want.map fun e => X.red e.comp)) : es.Perm want := by
  have hinj : ∀ y ∈ entries, ∀ z ∈ entries, X.red y.comp = X.red z.comp → y = z := fun y hy z hz h => List.inj_on_of_nodup_map hn hy hz h
  rw [← h1] at h2
  have hnd : (want.map fun e => X.red e.comp).Nodup := hwn.map_on fun y hy z hz h => hinj y (hw y hy) z (hw z hz) h
  have hen : es.Nodup := List.Nodup.of_map _ (h2.nodup_iff.mpr hnd)
  refine (List.perm_ext_iff_of_nodup hen hwn).mpr fun z => ⟨fun hz => ?_, fun hz => ?_⟩
  · obtain ⟨y, hy, he⟩ := List.mem_map.mp (h2.mem_iff.mp (List.mem_map.mpr ⟨z, hz, rfl⟩))
    rw [← hinj y (hw y hy) z (hes z hz) he]
    exact hy
  · obtain ⟨y, hy, he⟩ := List.mem_map.mp (h2.mem_iff.mpr (List.mem_map.mpr ⟨z, hz, rfl⟩))
    rw [← hinj y (hes y hy) z (hw z hz) he]
    exact hy

theorem coeffOf_map (es : List (Entry κ)) (hn : es.Nodup) (u : Entry κ → ℚ) (z : Entry κ) (hz : z ∈ es) : coeffOf es (es.map u) z = u z := by
  refine coeffOf_mem es (es.map u) hn (z, u z) ?_
  obtain ⟨i, hi, rfl⟩ := List.mem_iff_getElem.mp hz
  exact List.mem_iff_getElem.mpr ⟨i, by simpa using hi, by simp⟩

theorem net_map (es : List (Entry κ)) (c : List ℚ) (E : Finset (Entry κ)) (hE : ∀ z ∈ es, z ∈ E) (s : Sym) :
    net X (es.map fun e => X.red e.comp) c s = ∑ z ∈ E, coeffOf es c z * w X z s := by
  unfold net
  rw [List.zip_map_left, List.map_map]
  exact zip_sum E (fun z => w X z s) (es.zip c) fun p hp => hE _ (List.of_mem_zip (a := p.1) (b := p.2) hp).1

/-- The reaction computed from the phases of an elementary change has the amounts of the change. -/
theorem computed (hX : X.Lawful) (form : κ → φ) (hform : ∀ a b, form a = form b ↔ X.red a = X.red b) (epa : Entry κ → ℚ)
    (solve : List (Entry κ) → List (Entry κ) → List ℕ → List ℚ)
    (hsolve : ∀ rs ps, SolvesConsistent X (rs.map fun e => X.red e.comp) (ps.map fun e => X.red e.comp) (solve rs ps))
    (hn : (entries.map fun e => X.red e.comp).Nodup) (sub : List (Entry κ)) (hsub : ∀ z ∈ sub, z ∈ entries) (u : Entry κ → ℚ)
    (hu : Elementary entries.toFinset (w X) u) (rw' pw : List (Entry κ)) (hrn : rw'.Nodup) (hpn : pw.Nodup)
    (hr : ∀ z, z ∈ rw' ↔ u z < 0) (hp : ∀ z, z ∈ pw ↔ 0 < u z) (hrs : ∀ z ∈ rw', z ∈ sub) (hps : ∀ z ∈ pw, z ∈ sub) (k : Rxn κ)
    (h1 : ((reactants k).map X.red).Perm (rw'.map fun e => X.red e.comp)) (h2 : ((products k).map X.red).Perm (pw.map fun e => X.red e.comp))
    (pots : List (Sym × ℚ)) :
    ∃ r, getComputedRxn X form epa (fun rs ps => (compMatrix X ((rs.map fun e => X.red e.comp) ++ ps.map fun e => X.red e.comp)).rank)
      solve sub k pots = .ok (r, pots) ∧ r.base.lne = some 0 ∧ (viewOf r).nc = some 1 ∧ Genuine X entries r ∧
      ∃ s : ℚ, 0 < s ∧ ∀ z, amount r z = s * u z := by
  obtain ⟨c1, c2, -⟩ := Verif.Props.Minimize.C91_entries_partial X form epa
    (fun rs ps => (compMatrix X ((rs.map fun e => X.red e.comp) ++ ps.map fun e => X.red e.comp)).rank) solve sub k pots
  have hfind : ∀ side : List κ, ∀ want : List (Entry κ), (side.map X.red).Perm (want.map fun e => X.red e.comp) → (∀ z ∈ want, z ∈ sub) →
      ∀ c ∈ side, ∃ x ∈ sub, form x.comp = form c := by
    intro side want hp hw c hc
    obtain ⟨z, hz, he⟩ := List.mem_map.mp (hp.mem_iff.mp (List.mem_map.mpr ⟨c, hc, rfl⟩))
    exact ⟨z, hw z hz, (hform _ _).mpr he⟩
  obtain ⟨⟨r, p⟩, hok⟩ := c2.mpr fun c hc => (List.mem_append.mp hc).elim (hfind _ _ h1 hrs c) (hfind _ _ h2 hps c)
  obtain ⟨rfl, rs, ps, hes, g1, g2⟩ := c1 r p hok
  have hmap : ∀ (side : List κ) es, side.Forall₂ (fun c e => Verif.Props.EntrySet.Ground (fun e : Entry κ => form e.comp) epa sub (form c) e) es →
      (es.map fun e => X.red e.comp) = side.map X.red ∧ ∀ z ∈ es, z ∈ sub := by
    intro side es hf
    induction hf with
    | nil => exact ⟨rfl, by simp⟩
    | cons h1 _ ih =>
      refine ⟨by rw [List.map_cons, List.map_cons, ih.1, (hform _ _).mp h1.2.1], fun z hz => ?_⟩
      rcases List.mem_cons.mp hz with rfl | hz
      · exact h1.1
      · exact ih.2 z hz
  obtain ⟨m1, s1⟩ := hmap _ _ g1
  obtain ⟨m2, s2⟩ := hmap _ _ g2
  have pr := picked hn _ rs rw' (fun z hz => hsub z (s1 z hz)) (fun z hz => hsub z (hrs z hz)) hrn m1 h1
  have pp := picked hn _ ps pw (fun z hz => hsub z (s2 z hz)) (fun z hz => hsub z (hps z hz)) hpn m2 h2
  have mr : ∀ z, z ∈ rs ↔ u z < 0 := fun z => (pr.mem_iff).trans (hr z)
  have mp : ∀ z, z ∈ ps ↔ 0 < u z := fun z => (pp.mem_iff).trans (hp z)
  have nes : (rs ++ ps).Nodup := by
    refine List.nodup_append'.mpr ⟨pr.nodup_iff.mpr hrn, pp.nodup_iff.mpr hpn, fun z a b => ?_⟩
    have := (mr z).mp a
    have := (mp z).mp b
    linarith
  have mes : ∀ z, z ∈ rs ++ ps ↔ u z ≠ 0 := fun z => by
    rw [List.mem_append, mr, mp]
    exact ⟨fun h => h.elim (fun h => h.ne) fun h => h.ne', fun h => lt_or_gt_of_ne h⟩
  have hE : ∀ z ∈ rs ++ ps, z ∈ entries.toFinset := fun z hz => by
    rcases List.mem_append.mp hz with hz | hz
    · exact List.mem_toFinset.mpr (hsub z (s1 z hz))
    · exact List.mem_toFinset.mpr (hsub z (s2 z hz))
  have lr : (reactants k).length = rs.length := by
    have := congrArg List.length m1
    simpa using this.symm
  have lp : (products k).length = ps.length := by
    have := congrArg List.length m2
    simpa using this.symm
  have mapred : (reactants k ++ products k).map X.red = (rs ++ ps).map fun e => X.red e.comp := by
    rw [List.map_append, List.map_append, m1, m2]
  have ext : ∀ c : List ℚ, c.length = (rs ++ ps).length → ∀ f : Entry κ → ℚ, (∀ z ∈ rs ++ ps, coeffOf (rs ++ ps) c z = f z) → c = (rs ++ ps).map f := by
    intro c hl f hf
    refine List.ext_getElem (by simp [hl]) fun i hi1 hi2 => ?_
    rw [List.getElem_map]
    have hi : i < (rs ++ ps).length := hl ▸ hi1
    rw [← hf _ (List.getElem_mem hi)]
    exact (coeffOf_mem _ c nes ((rs ++ ps)[i], c[i]) (List.mem_iff_getElem.mpr ⟨i, by simp [← hl, hi1], by simp⟩)).symm
  have amt : ∀ z, coeffOf (rs ++ ps) ((rs ++ ps).map u) z = u z := fun z => by
    by_cases hz : z ∈ rs ++ ps
    · exact coeffOf_map _ nes u z hz
    · rw [coeffOf_absent _ _ _ hz]
      by_contra hc
      exact hz ((mes z).mpr (Ne.symm hc))
  have huniq : ∀ c : List ℚ, c.length = (rs ++ ps).length → Conserved X ((rs ++ ps).map fun e => X.red e.comp) c →
      ∃ t : ℚ, c = ((rs ++ ps).map u).map fun c => c * t := by
    intro c hl hc
    obtain ⟨t, ht⟩ := hu.unique (coeffOf (rs ++ ps) c) ⟨fun z hz => coeffOf_absent _ _ _ fun h => hz (hE z h), fun s => by
      rw [← net_map _ _ _ hE s]
      exact hc s⟩ (fun z hz => coeffOf_absent _ _ _ fun h => (mes z).mp h hz)
    refine ⟨t, ?_⟩
    rw [ext c hl (fun z => t * u z) fun z _ => ht z, List.map_map]
    exact List.map_congr_left fun z _ => by simp only [Function.comp]; ring
  obtain ⟨e1, e2, s, hs, e3⟩ := Verif.Props.Minimize.C91_stoichiometry X hX form (fun a b => (hform a b).mp) epa solve hsolve sub k p ((rs ++ ps).map u)
    (by
      obtain ⟨z, hz⟩ := hu.nonzero
      have := (mes z).mpr hz
      intro h
      have h := congrArg List.length h
      rw [List.length_append, lr, lp, ← List.length_append] at h
      rw [List.length_eq_zero_iff.mp h] at this
      cases this)
    (by rw [List.length_map, List.length_append, lr, lp])
    (by
      intro s
      rw [mapred, net_map _ _ _ hE, ← hu.kernel.2 s]
      exact Finset.sum_congr rfl fun z _ => by rw [amt])
    (by
      rw [lr, List.map_append, List.take_left' (by simp)]
      intro c hc
      obtain ⟨z, hz, rfl⟩ := List.mem_map.mp hc
      exact (mr z).mp hz)
    (by
      rw [lr, List.map_append, List.drop_left' (by simp)]
      intro c hc
      obtain ⟨z, hz, rfl⟩ := List.mem_map.mp hc
      exact (mp z).mp hz)
    (by
      intro c hl hc
      rw [lr, lp, ← List.length_append] at hl
      rw [mapred] at hc
      exact huniq c hl hc) r p hok
  have hcoef : r.base.coeffs = (rs ++ ps).map fun z => u z * s := by rw [e3, List.map_map]; rfl
  have ham : ∀ z, amount r z = s * u z := by
    intro z
    unfold amount
    rw [hes, hcoef]
    by_cases hz : z ∈ rs ++ ps
    · rw [coeffOf_map _ nes _ z hz]; ring
    · rw [coeffOf_absent _ _ _ hz]
      have : u z = 0 := by by_contra hc; exact hz ((mes z).mpr hc)
      rw [this, mul_zero]
  refine ⟨r, hok, e2, ?_, ⟨⟨?_, by rw [hes, hcoef, List.length_map]⟩, hes ▸ nes, fun z hz => List.mem_toFinset.mp (hE z (hes ▸ hz)), fun s' => ?_⟩, s, hs, ham⟩
  · unfold getComputedRxn at hok
    obtain ⟨rs', -, hok⟩ := (bind_ok _ _ _).mp hok
    obtain ⟨ps', -, hok⟩ := (bind_ok _ _ _).mp hok
    have hr := (Prod.mk.inj (Except.ok.inj hok)).1
    have hes' : rs' ++ ps' = rs ++ ps := by rw [← hes, ← hr]; rfl
    have hrk := Verif.Props.Balance.rank_ge X hX ((rs ++ ps).map fun e => X.red e.comp) ((rs ++ ps).map u)
      (by rw [List.length_map]; exact huniq)
    rw [← hes', List.map_append] at hrk
    rw [← hr]
    show dictGet (dictSet [] "num_constraints" ((numConstraints _ _ : ℕ) : ℚ)) "num_constraints" = some 1
    unfold numConstraints
    dsimp only
    rw [if_neg (by omega)]
    rfl
  · unfold getComputedRxn at hok
    obtain ⟨rs', -, hok⟩ := (bind_ok _ _ _).mp hok
    obtain ⟨ps', -, hok⟩ := (bind_ok _ _ _).mp hok
    have := (Prod.mk.inj (Except.ok.inj hok)).1
    rw [← this]
    rfl
  · rw [hes, net_map _ _ _ hE]
    have e4 : ∀ z ∈ entries.toFinset, coeffOf (rs ++ ps) r.base.coeffs z * w X z s' = s * (u z * w X z s') := fun z _ => by
      have := ham z
      unfold amount at this
      rw [hes] at this
      rw [this]; ring
    rw [Finset.sum_congr rfl e4, ← Finset.mul_sum, hu.kernel.2 s', mul_zero]

/-- A reaction that consumes something passes the tests on the reaction itself. -/
theorem clean_view (hX : X.Lawful) (hn : (entries.map fun e => X.red e.comp).Nodup) (r : CRxn κ) (hG : Genuine X entries r) (z : Entry κ)
    (hz : amount r z < 0) : (viewOf r).isIdentity = false ∧ (viewOf r).balanced = true := by
  have hgn : (r.entries.map fun e => X.red e.comp).Nodup :=
    hG.nodup.map_on fun y hy z hz h => List.inj_on_of_nodup_map hn (hG.mem y hy) (hG.mem z hz) h
  have hcomps : r.base.comps = r.entries.map fun e => X.red e.comp := by
    have := congrArg (fun r : CRxn κ => r.base.comps) hG.whole.1
    simpa [cinit, Verif.Model.Reaction.init] using this
  constructor
  · obtain ⟨b, h1, h2, -⟩ := Verif.Props.Identity.C100_total r.base
    show (isIdentity r.base).getD true = false
    rw [h1]
    by_contra hc
    have hb : b = true := by simpa using hc
    have hs := sidesNodup_of_nodup r.base.comps r.base.coeffs (hcomps ▸ hgn)
    obtain ⟨⟨y, v⟩, hy, rfl⟩ := List.mem_map.mp ((mem_reactants hG z).mpr hz)
    obtain ⟨hy1, hy2⟩ := List.mem_filter.mp hy
    have hmem : X.red y.comp ∈ reactants r.base := by
      unfold reactants
      rw [reactantCoeffs_eq _ _ hs, hcomps]
      refine List.mem_map.mpr ⟨(X.red y.comp, v), List.mem_filter.mpr ⟨?_, by simpa using hy2⟩, rfl⟩
      rw [List.zip_map_left]
      exact List.mem_map.mpr ⟨(y, v), hy1, rfl⟩
    have := (h2 hb _).mp hmem
    unfold products at this
    rw [productCoeffs_eq _ _ hs, hcomps] at this
    obtain ⟨⟨c, v'⟩, hc1, hc2⟩ := List.mem_map.mp this
    obtain ⟨hc3, hc4⟩ := List.mem_filter.mp hc1
    rw [List.zip_map_left] at hc3
    obtain ⟨⟨y', v''⟩, hy', he⟩ := List.mem_map.mp hc3
    have he := Prod.mk.inj he
    have hyy : y' = y := List.inj_on_of_nodup_map hn (hG.mem y' (List.of_mem_zip hy').1) (hG.mem y (List.of_mem_zip hy1).1) (he.1.trans hc2)
    have e1 := coeffOf_mem _ _ hG.nodup _ hy1
    have e2 := coeffOf_mem _ _ hG.nodup _ hy'
    rw [hyy] at e2
    have e3 : v = v'' := e1.symm.trans e2
    have hv : v < 0 := by simpa using hy2
    have hv' : 0 < v' := by simpa using hc4
    have := he.2
    simp only [id] at this
    linarith
  · show r.base.balanced = true
    rw [hG.whole.1, Verif.Props.Reaction.C09_computed X hX _ _ _ _ hgn]
    intro e
    rw [hG.conserved e]
    norm_num

/-! ### Helper lemmas: corners of the hull -/

theorem exact_mix (S : Setup X cfg entries n A B out gs h) (hex : Off X A B gs 0) (p : ℚ × ℚ) (hp : p ∈ h.coords) : Mixes X entries A B p.1 p.2 := by
  obtain ⟨x, h1, h2⟩ := S.near hex le_rfl p hp
  have : x = p.1 := by have := abs_nonpos_iff.mp h1; linarith
  exact this ▸ h2

theorem exact_lower (S : Setup X cfg entries n A B out gs h) (hO : OneEach X entries) (hA : Admits cfg A B) (hR : Roomy X A B n)
    (hex : Off X A B gs 0) (x e : ℚ) (hx : Mixes X entries A B x e) (s t : ℚ) (hst : ∀ q ∈ h.coords, s * q.1 + t ≤ q.2) : s * x + t ≤ e := by
  obtain ⟨x', h1, -, -, h2⟩ := S.lower hO hA hR hex le_rfl x e hx
  have : x' = x := by have := abs_nonpos_iff.mp h1; linarith
  exact this ▸ h2 s t hst

/-- A line through a corner can be turned a little. -/
theorem turn (pts : List (ℚ × ℚ)) (p : ℚ × ℚ) (s : ℚ) (hs : ∀ q ∈ pts, q ≠ p → p.2 + s * (q.1 - p.1) < q.2) :
    ∃ δ : ℚ, 0 < δ ∧ ∀ q ∈ pts, ∀ s', |s' - s| ≤ δ → p.2 + s' * (q.1 - p.1) ≤ q.2 := by
  induction pts with
  | nil => exact ⟨1, one_pos, by simp⟩
  | cons a l ih =>
    obtain ⟨δ, hδ, hl⟩ := ih fun q hq => hs q (List.mem_cons_of_mem _ hq)
    have ha : ∃ δ' : ℚ, 0 < δ' ∧ ∀ s', |s' - s| ≤ δ' → p.2 + s' * (a.1 - p.1) ≤ a.2 := by
      by_cases hap : a = p
      · exact ⟨1, one_pos, fun s' _ => by rw [hap]; simp⟩
      · have hlt := hs a List.mem_cons_self hap
        refine ⟨(a.2 - p.2 - s * (a.1 - p.1)) / (|a.1 - p.1| + 1), div_pos (by linarith) (by positivity), fun s' hs' => ?_⟩
        have h1 : (s' - s) * (a.1 - p.1) ≤ a.2 - p.2 - s * (a.1 - p.1) := by
          refine (le_abs_self _).trans ?_
          rw [abs_mul]
          refine (mul_le_mul_of_nonneg_right hs' (abs_nonneg _)).trans ?_
          rw [div_mul_eq_mul_div, div_le_iff₀ (by positivity)]
          nlinarith [abs_nonneg (a.1 - p.1)]
        linarith
    obtain ⟨δ', hδ', ha⟩ := ha
    refine ⟨min δ δ', lt_min hδ hδ', fun q hq s' hs' => ?_⟩
    rcases List.mem_cons.mp hq with rfl | hq
    · exact ha s' (hs'.trans (min_le_right _ _))
    · exact hl q hq s' (hs'.trans (min_le_left _ _))

/-- Slopes to the points on the left are below slopes to those on the right: there is a line in between. -/
theorem between_slopes (pts : List (ℚ × ℚ)) (x e : ℚ)
    (hc : ∀ a ∈ pts, ∀ b ∈ pts, a.1 < x → x < b.1 → e * (b.1 - a.1) < a.2 * (b.1 - x) + b.2 * (x - a.1)) :
    ∃ s δ : ℚ, 0 < δ ∧ ∀ q ∈ pts, q.1 ≠ x → e + s * (q.1 - x) + δ ≤ q.2 := by
  have key : ∃ s : ℚ, ∀ q ∈ pts, q.1 ≠ x → e + s * (q.1 - x) < q.2 := by
    set L := (pts.filter fun q => decide (q.1 < x)).toFinset with hL
    set R := (pts.filter fun q => decide (x < q.1)).toFinset with hR
    have mL : ∀ q, q ∈ L ↔ q ∈ pts ∧ q.1 < x := fun q => by rw [hL, List.mem_toFinset, List.mem_filter, decide_eq_true_eq]
    have mR : ∀ q, q ∈ R ↔ q ∈ pts ∧ x < q.1 := fun q => by rw [hR, List.mem_toFinset, List.mem_filter, decide_eq_true_eq]
    have goal : (∃ s : ℚ, (∀ q ∈ L, (e - q.2) / (x - q.1) < s) ∧ ∀ q ∈ R, s < (q.2 - e) / (q.1 - x)) → ∃ s : ℚ, ∀ q ∈ pts, q.1 ≠ x → e + s * (q.1 - x) < q.2 := by
      rintro ⟨s, h1, h2⟩
      refine ⟨s, fun q hq hne => ?_⟩
      rcases lt_or_gt_of_ne hne with h | h
      · have := h1 q ((mL q).mpr ⟨hq, h⟩)
        rw [div_lt_iff₀ (by linarith)] at this
        linarith
      · have := h2 q ((mR q).mpr ⟨hq, h⟩)
        rw [lt_div_iff₀ (by linarith)] at this
        linarith
    apply goal
    rcases L.eq_empty_or_nonempty with hLe | hLe
    · rcases R.eq_empty_or_nonempty with hRe | hRe
      · exact ⟨0, by simp [hLe], by simp [hRe]⟩
      · obtain ⟨r, hr, hmin⟩ := R.exists_min_image (fun q => (q.2 - e) / (q.1 - x)) hRe
        exact ⟨(r.2 - e) / (r.1 - x) - 1, by simp [hLe], fun q hq => by have := hmin q hq; linarith⟩
    · obtain ⟨l, hl, hmax⟩ := L.exists_max_image (fun q => (e - q.2) / (x - q.1)) hLe
      rcases R.eq_empty_or_nonempty with hRe | hRe
      · exact ⟨(e - l.2) / (x - l.1) + 1, fun q hq => by have := hmax q hq; linarith, by simp [hRe]⟩
      · obtain ⟨r, hr, hmin⟩ := R.exists_min_image (fun q => (q.2 - e) / (q.1 - x)) hRe
        have hl' := (mL l).mp hl
        have hr' := (mR r).mp hr
        have hlt : (e - l.2) / (x - l.1) < (r.2 - e) / (r.1 - x) := by
          rw [div_lt_div_iff₀ (by linarith) (by linarith)]
          have := hc l hl'.1 r hr'.1 hl'.2 hr'.2
          linarith
        exact ⟨((e - l.2) / (x - l.1) + (r.2 - e) / (r.1 - x)) / 2, fun q hq => by have := hmax q hq; linarith, fun q hq => by have := hmin q hq; linarith⟩
  obtain ⟨s, hs⟩ := key
  refine ⟨s, ?_⟩
  clear hc
  induction pts with
  | nil => exact ⟨1, one_pos, by simp⟩
  | cons a l ih =>
    obtain ⟨δ, hδ, hl⟩ := ih fun q hq => hs q (List.mem_cons_of_mem _ hq)
    by_cases hax : a.1 = x
    · exact ⟨δ, hδ, fun q hq hne => by
        rcases List.mem_cons.mp hq with rfl | hq
        · exact absurd hax hne
        · exact hl q hq hne⟩
    · have := hs a List.mem_cons_self hax
      refine ⟨min δ (a.2 - (e + s * (a.1 - x))), lt_min hδ (by linarith), fun q hq hne => ?_⟩
      rcases List.mem_cons.mp hq with rfl | hq
      · have := min_le_right δ (q.2 - (e + s * (q.1 - x)))
        linarith
      · have h1 := hl q hq hne
        have := min_le_left δ (a.2 - (e + s * (a.1 - x)))
        linarith

/-! ### C140 -/

/-- **C140, corners.** If rounding does not change the coordinates, the lower corners of the hull of the exhaustive enumeration are exactly
the corners of the ground state of the mixtures of `A` and `B`. -/
theorem C140_corners (S : Setup X cfg entries n A B out gs h) (hO : OneEach X entries) (hA : Admits cfg A B) (hR : Roomy X A B n)
    (hex : Off X A B gs 0) (x e : ℚ) : LowerCorner h.coords (x, e) ↔ Bend X entries A B x e := by
  constructor
  · rintro ⟨hp, s, hs⟩
    have hmix := exact_mix S hex _ hp
    obtain ⟨δ, hδ, ht⟩ := turn h.coords (x, e) s hs
    have hline : ∀ s', |s' - s| ≤ δ → ∀ y f, Mixes X entries A B y f → e + s' * (y - x) ≤ f := by
      intro s' hs' y f hm
      have := exact_lower S hO hA hR hex y f hm s' (e - s' * x) fun q hq => by
        have := ht q hq s' hs'
        simp only at this
        linarith
      linarith
    refine ⟨⟨hmix, fun f hf => ?_⟩, fun a b f g hf hg hax hxb => ?_⟩
    · have := hline s (by simp [hδ.le]) x f hf
      linarith
    · have h1 := hline s (by simp [hδ.le]) a f hf
      have h2 := hline (s + δ) (by simp [abs_of_pos hδ]) b g hg
      have h3 := mul_le_mul_of_nonneg_right h1 (sub_pos.mpr hxb).le
      have h4 := mul_le_mul_of_nonneg_right h2 (sub_pos.mpr hax).le
      have h5 := mul_pos (mul_pos hδ (sub_pos.mpr hxb)) (sub_pos.mpr hax)
      nlinarith
  · rintro ⟨⟨hmix, hleast⟩, hchord⟩
    obtain ⟨s, δ, hδ, hs⟩ := between_slopes h.coords x e fun a ha b hb h1 h2 => hchord _ _ _ _ (exact_mix S hex a ha) (exact_mix S hex b hb) h1 h2
    have hx : ∀ q ∈ h.coords, q.1 = x → e ≤ q.2 := fun q hq hqx => hleast (by
      have := exact_mix S hex q hq
      rw [hqx] at this
      exact this)
    have hmem : (x, e) ∈ h.coords := by
      by_contra hc
      -- otherwise the line can be raised
      have hraise : ∃ ε : ℚ, 0 < ε ∧ ∀ q ∈ h.coords, e + ε + s * (q.1 - x) ≤ q.2 := by
        have : ∀ l : List (ℚ × ℚ), (∀ q ∈ l, q ∈ h.coords) → ∃ ε : ℚ, 0 < ε ∧ ∀ q ∈ l, e + ε + s * (q.1 - x) ≤ q.2 := by
          intro l
          induction l with
          | nil => exact fun _ => ⟨1, one_pos, by simp⟩
          | cons a l ih =>
            intro hl
            obtain ⟨ε, hε, h1⟩ := ih fun q hq => hl q (List.mem_cons_of_mem _ hq)
            have ha := hl a List.mem_cons_self
            have hlt : e + s * (a.1 - x) < a.2 := by
              by_cases hax : a.1 = x
              · have h2 := hx a ha hax
                have h3 : e ≠ a.2 := fun h => hc (by rw [h, ← hax]; exact ha)
                rw [hax, sub_self, mul_zero, add_zero]
                exact lt_of_le_of_ne h2 h3
              · have := hs a ha hax
                linarith
            refine ⟨min ε (a.2 - (e + s * (a.1 - x))), lt_min hε (by linarith), fun q hq => ?_⟩
            rcases List.mem_cons.mp hq with rfl | hq
            · have := min_le_right ε (q.2 - (e + s * (q.1 - x)))
              linarith
            · have h2 := h1 q hq
              have := min_le_left ε (a.2 - (e + s * (a.1 - x)))
              linarith
        exact this _ fun q hq => hq
      obtain ⟨ε, hε, hq⟩ := hraise
      have := exact_lower S hO hA hR hex x e hmix s (e + ε - s * x) fun q hq' => by have := hq q hq'; linarith
      linarith
    refine ⟨hmem, s, fun q hq hne => ?_⟩
    show e + s * (q.1 - x) < q.2
    by_cases hqx : q.1 = x
    · rw [hqx, sub_self, mul_zero, add_zero]
      exact lt_of_le_of_ne (hx q hq hqx) fun h => hne (Prod.ext hqx h.symm)
    · have := hs q hq hqx
      linarith

/-- **C140, soundness.** The reaction that the minimization enumerator computes from a kink is balanced without errors, and the exhaustive
enumeration returns the same reaction: the same phases on each side in the same proportions. Its point of the hull is the kink: the energy
is that of the ground state, the coordinate is rounded to 12 digits. -/
theorem C140_sound_partial (S : Setup X cfg entries n A B out gs h) (hO : OneEach X entries) (hA : Admits cfg A B) (hR : Roomy X A B n)
    (form : κ → φ) (hform : ∀ a b, form a = form b ↔ X.red a = X.red b) (epa : Entry κ → ℚ)
    (solve : List (Entry κ) → List (Entry κ) → List ℕ → List ℚ)
    (hsolve : ∀ rs ps, SolvesConsistent X (rs.map fun e => X.red e.comp) (ps.map fun e => X.red e.comp) (solve rs ps))
    (sub : List (Entry κ)) (hsub : ∀ z, z ∈ sub ↔ z ∈ system X entries A B) (pots : List (Sym × ℚ))
    (x e : ℚ) (k : Rxn κ) (hk : Kink X (system X entries A B) A B x e k) (hi : ¬ Idle x e) :
    ∃ r, getComputedRxn X form epa (fun rs ps => (compMatrix X ((rs.map fun e => X.red e.comp) ++ ps.map fun e => X.red e.comp)).rank)
      solve sub k pots = .ok (r, pots) ∧ (viewOf r).isIdentity = false ∧ (viewOf r).balanced = true ∧ (viewOf r).lne = some 0 ∧
      (viewOf r).nc = some 1 ∧ Genuine X entries r ∧
      (∃ c, coordOf X A B r = .ok c ∧ |c - x| ≤ 1 / (2 * 10 ^ 12) ∧ energyPerAtom X r = .ok e ∧ (c, e) ∈ h.coords) ∧
      ∃ g ∈ gs, sides (viewOf r) = sides (viewOf g) ∧ (∃ t : ℚ, 0 < t ∧ ∀ z, amount r z = t * amount g z) ∧
        coordOf X A B g = coordOf X A B r ∧ taken X g B / (taken X g A + taken X g B) = x := by
  have hnd : entries.Nodup := List.Nodup.of_map _ S.distinct
  have hm := m_pos X S.lawful S.symbols
  obtain ⟨hb, q, q0, qE, qs, qe, qu, hre, hpr⟩ := kink_units S.lawful S.symbols hnd x e k hk
  obtain ⟨hx0, hx1, -⟩ := hb.1.1
  have hsys : ∀ z, z ∈ system X entries A B → z ∈ entries := fun z hz => ((mem_system z).mp hz).1
  obtain ⟨kA, kB, hel⟩ := elementary S.lawful S.symbols hnd S.inA S.inB S.differ x e hb hi q q0 (fun z hz => qE z fun h => hz (hsys z h)) qs qe qu
  set u := change X A B x q with hu
  have uA : x < 1 → u A = -((1 - x) / m X A) := by
    intro h; rw [hu]; unfold change; rw [kA h, if_pos rfl, if_neg S.differ]; ring
  have uB : 0 < x → u B = -(x / m X B) := by
    intro h; rw [hu]; unfold change; rw [kB h, if_pos rfl, if_neg (Ne.symm S.differ)]; ring
  have uO : ∀ z, (z = A → x = 1) → (z = B → x = 0) → u z = q z := by
    intro z h1 h2
    rw [hu]
    unfold change
    split_ifs with a b b
    · exact absurd (a.symm.trans b) S.differ
    · rw [h1 a]; ring
    · rw [h2 b]; ring
    · ring
  have hneg : ∀ z, u z < 0 ↔ (z = A ∧ x < 1) ∨ (z = B ∧ 0 < x) := by
    intro z
    constructor
    · intro hz
      by_contra hc
      push Not at hc
      have := uO z (fun h => le_antisymm hx1 (hc.1 h)) (fun h => le_antisymm (hc.2 h) hx0)
      have := q0 z
      linarith
    · rintro (⟨rfl, h⟩ | ⟨rfl, h⟩)
      · rw [uA h]; exact neg_lt_zero.mpr (div_pos (by linarith) (hm _))
      · rw [uB h]; exact neg_lt_zero.mpr (div_pos h (hm _))
  have hpos : ∀ z, 0 < u z ↔ 0 < q z := by
    intro z
    by_cases hz : u z < 0
    · rcases (hneg z).mp hz with ⟨rfl, h⟩ | ⟨rfl, h⟩
      · rw [kA h]; exact ⟨fun h' => by linarith, fun h' => absurd h' (lt_irrefl _)⟩
      · rw [kB h]; exact ⟨fun h' => by linarith, fun h' => absurd h' (lt_irrefl _)⟩
    · have hz' := fun h => hz ((hneg z).mpr h)
      rw [uO z (fun h => le_antisymm hx1 (not_lt.mp fun h' => hz' (.inl ⟨h, h'⟩))) (fun h => le_antisymm (not_lt.mp fun h' => hz' (.inr ⟨h, h'⟩)) hx0)]
  have hmA : A ∈ system X entries A B := (mem_system A).mpr ⟨S.inA, fun s hs => .inl hs⟩
  have hmB : B ∈ system X entries A B := (mem_system B).mpr ⟨S.inB, fun s hs => .inr hs⟩
  have hrmem : ∀ z, z ∈ ((if x < 1 then [A] else []) ++ if 0 < x then [B] else []) ↔ (z = A ∧ x < 1) ∨ (z = B ∧ 0 < x) := by
    intro z
    by_cases h1 : x < 1 <;> by_cases h2 : 0 < x <;> simp [h1, h2]
  obtain ⟨r, hok, hl, hnc, hG, s, hs, ham⟩ := computed S.lawful form hform epa solve hsolve S.distinct sub (fun z hz => hsys z ((hsub z).mp hz)) u hel
    ((if x < 1 then [A] else []) ++ if 0 < x then [B] else []) ((system X entries A B).filter fun z => decide (0 < q z))
    (by by_cases h1 : x < 1 <;> by_cases h2 : 0 < x <;> simp [h1, h2, S.differ]) ((hnd.filter _).filter _) (fun z => by rw [hrmem, hneg])
    (fun z => by
      rw [List.mem_filter, decide_eq_true_eq, hpos]
      exact ⟨fun h => h.2, fun h => ⟨by by_contra hc; rw [qE z hc] at h; exact lt_irrefl _ h, h⟩⟩)
    (fun z hz => by
      rw [hsub]
      rcases (hrmem z).mp hz with ⟨rfl, -⟩ | ⟨rfl, -⟩
      · exact hmA
      · exact hmB)
    (fun z hz => (hsub z).mpr (List.mem_filter.mp hz).1) k hre hpr pots
  obtain ⟨g, hg, t, ht, hgu⟩ := S.step hO hA hR u hel fun z hz => ((hneg z).mp hz).imp And.left And.left
  have hGg := S.between.2 g hg
  have hgr : ∀ z, amount r z = s / t * amount g z := fun z => by rw [ham z, hgu z]; field_simp
  have hpos' : 0 < s / t := div_pos hs ht
  -- what the hull reads off
  have nA : neg u A * m X A = 1 - x := by
    unfold neg
    rcases hx1.eq_or_lt with h1 | h1
    · have : 0 ≤ u A := not_lt.mp fun h => by rcases (hneg A).mp h with h | h; exacts [by linarith [h.2], S.differ h.1]
      rw [max_eq_left (by linarith), h1]; ring
    · rw [uA h1, neg_neg, max_eq_right (div_nonneg (by linarith) (hm A).le), div_mul_cancel₀ _ (hm A).ne']
  have nB : neg u B * m X B = x := by
    unfold neg
    rcases hx0.eq_or_lt with h1 | h1
    · have : 0 ≤ u B := not_lt.mp fun h => by rcases (hneg B).mp h with h | h; exacts [S.differ h.1.symm, by linarith [h.2]]
      rw [max_eq_left (by linarith), ← h1]; ring
    · rw [uB h1, neg_neg, max_eq_right (div_nonneg h1.le (hm B).le), div_mul_cancel₀ _ (hm B).ne']
  have ue : ∑ z ∈ entries.toFinset, u z * en X z = e := by
    rw [hu, change_sum S.inA S.inB x q (en X), qe]
  have read : ∀ (g : CRxn κ) (τ : ℚ), 0 < τ → Genuine X entries g → (∀ z, amount g z = τ * u z) →
      energyPerAtom X g = .ok e ∧ ∃ c, coordOf X A B g = .ok c ∧ |c - x| ≤ 1 / (2 * 10 ^ 12) ∧ c = roundDigits 12 x := by
    intro g τ hτ hG hgu
    have hneg' : ∀ z, neg (amount g) z = τ * neg u z := by
      intro z
      unfold neg
      rw [hgu z, ← mul_neg, mul_max_of_nonneg _ _ hτ.le, mul_zero]
    obtain ⟨h1, h2⟩ := readings X S.lawful entries S.distinct A B S.inA S.inB S.differ g hG fun z hz => by
      rw [hgu z] at hz
      have : u z < 0 := by
        by_contra hc
        have := mul_nonneg hτ.le (not_lt.mp hc)
        linarith
      exact ((hneg z).mp this).imp And.left And.left
    have eA : neg (amount g) A * m X A = τ * (1 - x) := by rw [hneg', mul_assoc, nA]
    have eB : neg (amount g) B * m X B = τ * x := by rw [hneg', mul_assoc, nB]
    have eN : τ * (1 - x) + τ * x = τ := by ring
    rw [eA, eB, eN] at h1 h2
    have eD : τ * x / τ = x := by field_simp
    rw [eD] at h2
    refine ⟨?_, ?_⟩
    · rw [h1]
      have : ∑ z ∈ entries.toFinset, amount g z * en X z = τ * e := by
        rw [← ue, Finset.mul_sum]
        exact Finset.sum_congr rfl fun z _ => by rw [hgu z]; ring
      rw [this]
      unfold perAtom
      simp only
      rw [if_neg hτ.ne']
      congr 1
      field_simp
    · obtain ⟨c, c1, -, -, c2, c3⟩ := h2 hτ.ne'
      exact ⟨c, c1, c2, c3⟩
  obtain ⟨r1, c, r2, r3, r4⟩ := read r s hs hG ham
  obtain ⟨g1, c', g2, -, g4⟩ := read g t ht hGg hgu
  obtain ⟨p, hp, p1, p2⟩ := S.coords.1 g hg
  obtain ⟨z0, hz0⟩ : ∃ z, amount r z < 0 := by
    rcases hx1.eq_or_lt with h1 | h1
    · exact ⟨B, by rw [ham B]; exact mul_neg_of_pos_of_neg hs ((hneg B).mpr (.inr ⟨rfl, by linarith⟩))⟩
    · exact ⟨A, by rw [ham A]; exact mul_neg_of_pos_of_neg hs ((hneg A).mpr (.inl ⟨rfl, h1⟩))⟩
  obtain ⟨v1, v2⟩ := clean_view S.lawful S.distinct r hG z0 hz0
  refine ⟨r, hok, v1, v2, hl, hnc, hG, ⟨c, r2, r3, r1, ?_⟩, g, hg, ?_, ⟨s / t, hpos', hgr⟩, by rw [g2, r2, r4, g4], ?_⟩
  · rw [g1] at p2
    rw [g2] at p1
    have e1 : p = (c, e) := Prod.ext (by rw [← Except.ok.inj p1, r4, g4]) (Except.ok.inj p2).symm
    exact e1 ▸ hp
  · unfold sides
    refine Prod.ext ?_ ?_
    · ext z
      simp only [List.mem_toFinset]
      rw [mem_reactants hG, mem_reactants hGg, hgr z]
      exact ⟨fun h => by by_contra hc; have := mul_nonneg hpos'.le (not_lt.mp hc); linarith, fun h => mul_neg_of_pos_of_neg hpos' h⟩
    · ext z
      simp only [List.mem_toFinset]
      rw [mem_products hG, mem_products hGg, hgr z]
      exact ⟨fun h => pos_of_mul_pos_right h hpos'.le, fun h => mul_pos hpos' h⟩
  · have hneg' : ∀ z, neg (amount g) z = t * neg u z := by
      intro z
      unfold neg
      rw [hgu z, ← mul_neg, mul_max_of_nonneg _ _ ht.le, mul_zero]
    rw [taken_eq hGg, taken_eq hGg, hneg', hneg', mul_assoc, mul_assoc, nA, nB, ← mul_add]
    have : 1 - x + x = 1 := by ring
    rw [this, mul_one]
    field_simp

/-- **C140, agreement for a pair.** Take what pymatgen returns for the pair to be kinks, and every corner of the ground state to be among
them; suppose that rounding does not change the coordinates of the hull. Then the calculation for the pair succeeds, one reaction for
each kink. Each (but for the idle ones) is a lower corner of the hull of the exhaustive enumeration, which returned the same reaction; and
each lower corner of that hull is the point of one of them. -/
theorem C140_pair_partial {π γ : Type} (S : Setup X cfg entries n A B out gs h) (hO : OneEach X entries) (hA : Admits cfg A B) (hR : Roomy X A B n)
    (hex : Off X A B gs 0) (form : κ → φ) (hform : ∀ a b, form a = form b ↔ X.red a = X.red b) (epa : Entry κ → ℚ)
    (solve : List (Entry κ) → List (Entry κ) → List ℕ → List ℚ)
    (hsolve : ∀ rs ps, SolvesConsistent X (rs.map fun e => X.red e.comp) (ps.map fun e => X.red e.comp) (solve rs ps))
    (t : Tag (Entry κ) π γ) (hsub : ∀ z, z ∈ t.entries ↔ z ∈ system X entries A B)
    (kinks : κ → κ → Option π → Option γ → Except Err (List (Rxn κ))) (potsOf : γ → List (Sym × ℚ)) (ks : List (Rxn κ)) (a b : κ)
    (hks : kinks a b t.pd t.grand = .ok ks) (hk : Lists X (system X entries A B) A B ks) :
    ∃ res, reactInterface X form epa (fun rs ps => (compMatrix X ((rs.map fun e => X.red e.comp) ++ ps.map fun e => X.red e.comp)).rank)
        solve kinks potsOf a b t = .ok res ∧
      ks.Forall₂ (fun k p => ∀ x e, Kink X (system X entries A B) A B x e k → ¬ Idle x e →
        ((viewOf p.1).isIdentity = false ∧ (viewOf p.1).balanced = true ∧ (viewOf p.1).lne = some 0 ∧ (viewOf p.1).nc = some 1) ∧
        Genuine X entries p.1 ∧ coordOf X A B p.1 = .ok x ∧ energyPerAtom X p.1 = .ok e ∧ LowerCorner h.coords (x, e) ∧
        ∃ g ∈ gs, sides (viewOf p.1) = sides (viewOf g) ∧ ∃ t : ℚ, 0 < t ∧ ∀ z, amount p.1 z = t * amount g z) res ∧
      ∀ x e, LowerCorner h.coords (x, e) → ¬ Idle x e → ∃ p ∈ res, coordOf X A B p.1 = .ok x ∧ energyPerAtom X p.1 = .ok e := by
  obtain ⟨hk, hall⟩ := hk
  set rank := fun rs ps : List (Entry κ) => (compMatrix X ((rs.map fun e => X.red e.comp) ++ ps.map fun e => X.red e.comp)).rank with hrank
  set pots := (t.grand.map potsOf).getD [] with hpots
  have hmA : A ∈ system X entries A B := (mem_system A).mpr ⟨S.inA, fun s hs => .inl hs⟩
  have hmB : B ∈ system X entries A B := (mem_system B).mpr ⟨S.inB, fun s hs => .inr hs⟩
  have hok : ∀ k ∈ ks, ∃ r, getComputedRxn X form epa rank solve t.entries k pots = .ok r := by
    intro k hkk
    obtain ⟨x, e, -, q, -, -, -, -, -, hre, hpr⟩ := hk k hkk
    rw [(Verif.Props.Minimize.C91_entries_partial X form epa rank solve t.entries k pots).2.1]
    intro c hc
    rcases List.mem_append.mp hc with hc | hc
    · obtain ⟨z, hz, he⟩ := List.mem_map.mp (hre.mem_iff.mp (List.mem_map.mpr ⟨c, hc, rfl⟩))
      refine ⟨z, (hsub z).mpr ?_, (hform _ _).mpr he⟩
      rcases List.mem_append.mp hz with hz | hz
      · split_ifs at hz with h1
        · rw [List.mem_singleton.mp hz]; exact hmA
        · cases hz
      · split_ifs at hz with h1
        · rw [List.mem_singleton.mp hz]; exact hmB
        · cases hz
    · obtain ⟨z, hz, he⟩ := List.mem_map.mp (hpr.mem_iff.mp (List.mem_map.mpr ⟨c, hc, rfl⟩))
      exact ⟨z, (hsub z).mpr (List.mem_filter.mp hz).1, (hform _ _).mpr he⟩
  obtain ⟨res, hres⟩ : ∃ res, ks.mapM (fun r => getComputedRxn X form epa rank solve t.entries r pots) = .ok res := by
    clear hall hk hks
    induction ks with
    | nil => exact ⟨[], rfl⟩
    | cons k l ih =>
      obtain ⟨r, hr⟩ := hok k List.mem_cons_self
      obtain ⟨rs, hrs⟩ := ih fun k hk => hok k (List.mem_cons_of_mem _ hk)
      exact ⟨r :: rs, by rw [List.mapM_cons]; exact (bind_ok _ _ _).mpr ⟨r, hr, (bind_ok _ _ _).mpr ⟨rs, hrs, rfl⟩⟩⟩
  have hF := (mapM_ok _ _ _).mp hres
  have hgood : ∀ k p, getComputedRxn X form epa rank solve t.entries k pots = .ok p → ∀ x e, Kink X (system X entries A B) A B x e k → ¬ Idle x e →
        ((viewOf p.1).isIdentity = false ∧ (viewOf p.1).balanced = true ∧ (viewOf p.1).lne = some 0 ∧ (viewOf p.1).nc = some 1) ∧
        Genuine X entries p.1 ∧ coordOf X A B p.1 = .ok x ∧ energyPerAtom X p.1 = .ok e ∧ LowerCorner h.coords (x, e) ∧
        ∃ g ∈ gs, sides (viewOf p.1) = sides (viewOf g) ∧ ∃ t : ℚ, 0 < t ∧ ∀ z, amount p.1 z = t * amount g z := by
    intro k p hp x e hkk hi
    obtain ⟨r, h1, v1, v2, v3, v4, h3, ⟨c, c1, -, c2, -⟩, g, hg, g1, g2, g3, g4⟩ := C140_sound_partial S hO hA hR form hform epa solve hsolve t.entries hsub pots x e k hkk hi
    rw [← hrank, hp] at h1
    have h1 := Except.ok.inj h1
    have hcx : c = x := by
      have := hex g hg c (g3.trans c1)
      rw [g4] at this
      have := abs_nonpos_iff.mp this
      linarith
    rw [h1]
    exact ⟨⟨v1, v2, v3, v4⟩, h3, hcx ▸ c1, c2, (C140_corners S hO hA hR hex x e).mpr ((bend_system S.lawful S.symbols x e).mp hkk.1), g, hg, g1, g2⟩
  refine ⟨res, ?_, hF.imp fun k p hp => hgood k p hp, ?_⟩
  · unfold reactInterface
    rw [hks]
    exact hres
  · intro x e hc hi
    obtain ⟨k, hkk, hkk'⟩ := hall x e ((bend_system S.lawful S.symbols x e).mpr ((C140_corners S hO hA hR hex x e).mp hc))
    obtain ⟨p, hp, hp'⟩ := Verif.Props.Minimize.forall2_left hF k hkk
    obtain ⟨-, -, h1, h2, -⟩ := hgood k p hp' x e hkk' hi
    exact ⟨p, hp, h1, h2⟩

/-- **C140, agreement of the two enumerators.** Run the minimization enumerator on the same entries with the same settings, at least two
phases per side, any order of the reactants of a pair and any schedule. Then every lower corner of the hull of the exhaustive enumeration
(but for the idle ends) is the point of a reaction that the minimization enumerator returned too: the same phases on each side in the same
proportions. -/
theorem C140_run_partial {π γ : Type} [Inhabited (Tag (Entry κ) π γ)] (S : Setup X cfg entries n A B out gs h) (hO : OneEach X entries) (hA : Admits cfg A B)
    (hR : Roomy X A B n) (hex : Off X A B gs 0) (form : κ → φ) (hform : ∀ a b, form a = form b ↔ X.red a = X.red b) (epa : Entry κ → ℚ)
    (solve : List (Entry κ) → List (Entry κ) → List ℕ → List ℚ)
    (hsolve : ∀ rs ps, SolvesConsistent X (rs.map fun e => X.red e.comp) (ps.map fun e => X.red e.comp) (solve rs ps))
    (n' : ℤ) (hn' : 2 ≤ n') (buildPd buildGrand : Bool) (mkPd : List (Entry κ) → Except Err π) (mkGrand : List (Entry κ) → Except Err γ)
    (kinks : κ → κ → Option π → Option γ → Except Err (List (Rxn κ))) (potsOf : γ → List (Sym × ℚ))
    (hk : ∀ t : Tag (Entry κ) π γ, (∀ z, z ∈ t.entries ↔ z ∈ system X entries A B) → (buildPd = true → ∃ p, mkPd t.entries = .ok p ∧ t.pd = some p) →
      ∀ ks, kinks A.comp B.comp t.pd t.grand = .ok ks ∨ kinks B.comp A.comp t.pd t.grand = .ok ks → Lists X (system X entries A B) A B ks)
    (order : List (Entry κ) → List (Entry κ)) (horder : ∀ l, (order l).Perm l) (cpus : ℕ) (hcpu : 0 < cpus)
    (waitPd : ℕ → List (List (Option (List Char))) → List (List (Option (List Char))) × List (List (Option (List Char))))
    (hwp : Verif.Props.Utils.WaitSpec waitPd) (chunkSize maxJobs : ℕ) (hcs : 0 < chunkSize) (hmj : 0 < maxJobs)
    (wait : ℕ → List (Chunk (List (Entry κ) × List (Entry κ)) (Tag (Entry κ) π γ)) →
      List (Chunk (List (Entry κ) × List (Entry κ)) (Tag (Entry κ) π γ)) × List (Chunk (List (Entry κ) × List (Entry κ)) (Tag (Entry κ) π γ)))
    (hw : Verif.Props.Utils.WaitSpec wait) (outM : List (Rx (Entry κ)))
    (hrun : enumerateMin (fun e => X.elems e.comp) cfg entries n' (pdItem (fun e => X.elems e.comp) entries buildPd buildGrand mkPd mkGrand) cpus
      waitPd chunkSize maxJobs (fun r p t => viewAll (reactGibbs X form epa
        (fun rs ps => (compMatrix X ((rs.map fun e => X.red e.comp) ++ ps.map fun e => X.red e.comp)).rank) solve kinks potsOf order r p t)) wait = .ok outM)
    (x e : ℚ) (hc : LowerCorner h.coords (x, e)) (hi : ¬ Idle x e) :
    ∃ r : CRxn κ, viewOf r ∈ outM ∧ Genuine X entries r ∧ coordOf X A B r = .ok x ∧ energyPerAtom X r = .ok e ∧
      ∃ g ∈ gs, sides (viewOf r) = sides (viewOf g) ∧ ∃ t : ℚ, 0 < t ∧ ∀ z, amount r z = t * amount g z := by
  have hnd : entries.Nodup := List.Nodup.of_map _ S.distinct
  have hopen : cfg.openEntries = [] := S.plain.closed
  set elems : Entry κ → List Sym := fun e => X.elems e.comp with helems
  set rank := fun rs ps : List (Entry κ) => (compMatrix X ((rs.map fun e => X.red e.comp) ++ ps.map fun e => X.red e.comp)).rank with hrank
  have good : Verif.Props.Minimize.Good elems cfg entries := ⟨hnd, fun e _ => S.symbols.ne e, fun e _ => S.symbols.dash e⟩
  -- the pair is a candidate
  set c := entries.filter fun z => decide (z = A ∨ z = B) with hcd
  have hcp : c.Perm [A, B] := by
    rw [List.perm_ext_iff_of_nodup (hnd.filter _) (by simp [S.differ])]
    intro z
    rw [List.mem_filter, decide_eq_true_eq, List.mem_cons, List.mem_singleton]
    refine ⟨fun h => h.2, fun h => ⟨?_, h⟩⟩
    rcases h with rfl | rfl
    · exact S.inA
    · exact S.inB
  have hc2 := Verif.Props.Minimize.perm_pair hcp
  have hcmem : ∀ z, z ∈ c ↔ z = A ∨ z = B := fun z => by rw [hcp.mem_iff]; simp
  have hcne : c ≠ [] := List.ne_nil_of_mem ((hcmem A).mpr (.inl rfl))
  have hsub : c.Sublist (entries.filter fun e => e ∉ cfg.openEntries) := by
    rw [hopen]
    simp only [List.not_mem_nil, not_false_eq_true, decide_true, List.filter_true]
    exact List.filter_sublist
  have hE : ∀ s, s ∈ Verif.Props.Minimize.sysElems elems cfg c ↔ s ∈ X.elems A.comp ∨ s ∈ X.elems B.comp := by
    intro s
    unfold Verif.Props.Minimize.sysElems
    rw [hopen, List.flatMap_nil, List.append_nil, List.mem_flatMap]
    constructor
    · rintro ⟨z, hz, hs⟩
      rcases (hcmem z).mp hz with rfl | rfl
      · exact .inl hs
      · exact .inr hs
    · rintro (hs | hs)
      · exact ⟨A, (hcmem A).mpr (.inl rfl), hs⟩
      · exact ⟨B, (hcmem B).mpr (.inr rfl), hs⟩
  have hlen : (Verif.Props.Minimize.sysElems elems cfg c).dedup.length = (X.elems A.comp ++ X.elems B.comp).dedup.length :=
    ((List.perm_ext_iff_of_nodup (List.nodup_dedup _) (List.nodup_dedup _)).mpr fun s => by
      rw [List.mem_dedup, hE, List.mem_dedup, List.mem_append]).length_eq
  have hprec : cfg.precursors ≠ [] → A ∈ cfg.precursors ∧ B ∈ cfg.precursors := fun h => hA.precursors.resolve_left h
  have hcand : Verif.Props.Minimize.Cand elems cfg entries n' c := by
    refine ⟨hsub, hcne, by rw [hcp.length_eq]; exact_mod_cast hn', fun h => absurd hA.system h, ⟨by rw [hlen]; have := hR.nine; omega, ?_⟩, ?_,
      fun h => absurd hA.targets h⟩
    · rw [hlen]
      intro h1
      obtain ⟨s, hs⟩ := List.length_eq_one_iff.mp h1
      have hs' : ∀ e ∈ X.elems A.comp ++ X.elems B.comp, e = s := fun e he => by
        have : e ∈ (X.elems A.comp ++ X.elems B.comp).dedup := List.mem_dedup.mpr he
        rw [hs] at this
        exact List.mem_singleton.mp this
      exact S.differ (hO A S.inA B S.inB s (fun e he => hs' e (List.mem_append_left _ he)) fun e he => hs' e (List.mem_append_right _ he))
    · intro hne
      obtain ⟨pA, pB⟩ := hprec hne
      have hf : ∀ a, a ∈ Verif.Props.Minimize.sysElems elems cfg c → ∃ e ∈ cfg.precursors ++ cfg.openEntries, a ∈ elems e := by
        intro a ha
        rcases (hE a).mp ha with ha | ha
        · exact ⟨A, List.mem_append_left _ pA, ha⟩
        · exact ⟨B, List.mem_append_left _ pB, ha⟩
      refine ⟨fun _ => hf, fun _ => ?_⟩
      obtain ⟨s, hs⟩ := List.exists_mem_of_ne_nil _ (S.symbols.ne A)
      exact ⟨s, (hE s).mpr (.inl hs), hf s ((hE s).mpr (.inl hs))⟩
  -- what the pair gives on its own is returned
  obtain ⟨cands, -, hmem, hr1, -, -⟩ := Verif.Props.Minimize.C90_run_partial elems cfg entries n' good
    (pdItem elems entries buildPd buildGrand mkPd mkGrand) cpus hcpu waitPd hwp chunkSize maxJobs hcs hmj
    (fun r p t => viewAll (reactGibbs X form epa rank solve kinks potsOf order r p t)) wait hw
  obtain ⟨rs, hf, hperm⟩ := hr1 outM hrun
  obtain ⟨rc, hrc, halone⟩ := Verif.Props.Minimize.forall2_left hf c ((hmem c).mpr hcand)
  have hout : ∀ v ∈ rc, v ∈ outM := fun v hv => hperm.mem_iff.mpr (List.mem_flatten.mpr ⟨rc, hrc, hv⟩)
  obtain ⟨t, ht, hpair⟩ := (bind_ok _ _ _).mp halone
  obtain ⟨sub, hs1, -, hs3⟩ := Verif.Props.Minimize.C90_entries elems cfg entries good (by rw [hopen]; simp) buildPd buildGrand mkPd mkGrand c hsub hcne
  obtain ⟨t1, t2, -⟩ := (hs3 t).mp ht
  have hsys : ∀ z, z ∈ t.entries ↔ z ∈ system X entries A B := by
    intro z
    rw [t1, hs1, mem_system]
    simp only [hE]
    exact Iff.rfl
  have hearly : earlyOk cfg c [] = true := by
    have hin : inter c [] = ([] : List (Entry κ)) := by unfold inter; simp
    have hpre : ¬ (cfg.precursors ≠ [] ∧ inter cfg.precursors (union c []) = []) := by
      rintro ⟨hne, h0⟩
      have : A ∈ inter cfg.precursors (union c []) := mem_inter.mpr ⟨(hprec hne).1, mem_union.mpr (.inl ((hcmem A).mpr (.inl rfl)))⟩
      rw [h0] at this
      cases this
    have hpf : precFunc cfg c = true := by
      unfold precFunc
      split_ifs with h0
      · rfl
      · rw [setFunc_iff]
        have hm : ∀ a ∈ c, a ∈ union cfg.precursors cfg.openEntries := by
          intro a ha
          rcases (hcmem a).mp ha with rfl | rfl
          · exact mem_union.mpr (.inl (hprec h0).1)
          · exact mem_union.mpr (.inl (hprec h0).2)
        exact ⟨fun _ => hm, fun _ => ⟨A, (hcmem A).mpr (.inl rfl), hm A ((hcmem A).mpr (.inl rfl))⟩⟩
    unfold earlyOk
    rw [if_neg (by rintro (h1 | h1 | h1); exacts [h1 hin, hpre h1, h1.1 rfl]), if_neg (by rw [hpf]; simp), if_neg (by simp)]
  unfold reactPair at hpair
  rw [if_pos hearly] at hpair
  obtain ⟨l, hl, hacc⟩ := (bind_ok _ _ _).mp hpair
  have hmemacc := acceptAll_mem cfg l rc hacc
  -- the reactions of the pair
  have hint : ∃ a b, (a = A.comp ∧ b = B.comp ∨ a = B.comp ∧ b = A.comp) ∧
      reactGibbs X form epa rank solve kinks potsOf order c [] t = reactInterface X form epa rank solve kinks potsOf a b t := by
    rcases hc2 with h2 | h2 <;> rw [h2]
    · rcases (Verif.Props.Minimize.C91_pairs X form epa rank solve kinks potsOf order horder [] t A B).2.1 with h3 | h3
      · exact ⟨_, _, .inl ⟨rfl, rfl⟩, h3⟩
      · exact ⟨_, _, .inr ⟨rfl, rfl⟩, h3⟩
    · rcases (Verif.Props.Minimize.C91_pairs X form epa rank solve kinks potsOf order horder [] t B A).2.1 with h3 | h3
      · exact ⟨_, _, .inr ⟨rfl, rfl⟩, h3⟩
      · exact ⟨_, _, .inl ⟨rfl, rfl⟩, h3⟩
  obtain ⟨a, b, hab, hgi⟩ := hint
  simp only [hgi] at hl
  obtain ⟨res', hres', hlv⟩ : ∃ res', reactInterface X form epa rank solve kinks potsOf a b t = .ok res' ∧ l = res'.map fun p => viewOf p.1 := by
    revert hl
    cases reactInterface X form epa rank solve kinks potsOf a b t with
    | error e => intro hl; cases hl
    | ok v => intro hl; exact ⟨v, rfl, (Except.ok.inj hl).symm⟩
  obtain ⟨ks, hks, -⟩ := (bind_ok _ _ _).mp hres'
  have hlist : Lists X (system X entries A B) A B ks := hk t hsys (fun hb => t1 ▸ t2 hb) ks (by
    rcases hab with ⟨rfl, rfl⟩ | ⟨rfl, rfl⟩
    · exact .inl hks
    · exact .inr hks)
  obtain ⟨res, hres, hF, -⟩ := C140_pair_partial S hO hA hR hex form hform epa solve hsolve t hsys kinks potsOf ks a b hks hlist
  have : res' = res := Except.ok.inj (hres'.symm.trans hres)
  subst this
  obtain ⟨k, hkk, hkk'⟩ := hlist.2 x e ((bend_system S.lawful S.symbols x e).mpr ((C140_corners S hO hA hR hex x e).mp hc))
  obtain ⟨p, hp, hp'⟩ := Verif.Props.Minimize.forall2_left hF k hkk
  obtain ⟨⟨v1, v2, v3, v4⟩, hG, h1, h2, -, g, hg, g1, g2⟩ := hp' x e hkk' hi
  refine ⟨p.1, hout _ ((hmemacc _).mpr ⟨by rw [hlv]; exact List.mem_map.mpr ⟨p, hp, rfl⟩, (accept_iff cfg _).mpr ?_⟩), hG, h1, h2, g, hg, g1, g2⟩
  obtain ⟨b1, b2⟩ := between_pos S.lawful S.symbols S.plain S.distinct S.sharp S.run S.between g hg
  have hre : ∀ z, z ∈ (viewOf p.1).reactants ↔ amount g z < 0 := by
    intro z
    have h3 : (viewOf p.1).reactants.toFinset = (viewOf g).reactants.toFinset := congrArg Prod.fst g1
    rw [← mem_reactants (S.between.2 g hg), ← List.mem_toFinset, h3, List.mem_toFinset]
  obtain ⟨z0, hz0⟩ : ∃ z, amount g z < 0 := by
    by_contra hno
    push Not at hno
    have h0 : ∀ z, neg (amount g) z = 0 := fun z => max_eq_left (by have := hno z; linarith)
    rw [h0, h0] at b2
    simp at b2
  refine ⟨v1, fun _ => v2, fun _ => v3, ⟨1, v4, by rw [S.plain.constraints]; norm_num⟩, fun hne _ z hz => ?_, fun hne _ => ?_,
    fun h => absurd hA.targets h, fun h => absurd hA.targets h⟩
  · rcases b1 z ((hre z).mp hz) with rfl | rfl
    · exact .inl (hprec hne).1
    · exact .inl (hprec hne).2
  · refine ⟨z0, (hre z0).mpr hz0, ?_, by rw [hopen]; simp⟩
    rcases b1 z0 hz0 with rfl | rfl
    · exact (hprec hne).1
    · exact (hprec hne).2

end

/-! ### Example: A + B → AB -/

/-- What pymatgen lists for A and B: A alone, half of each, B alone. -/
def exKinks : List (Rxn (Fin 4)) := [⟨[0, 0], [-1, 1], true, [], some 0⟩, ⟨[0, 1, 2], [-1, -1, 1], true, [], some 0⟩, ⟨[1, 1], [-1, 1], true, [], some 0⟩]

/-- And nothing for other pairs. -/
def exKinksOf (a b : Fin 4) (_ : Option Unit) (_ : Option Unit) : Except Err (List (Rxn (Fin 4))) :=
  .ok (if (a = 0 ∧ b = 1) ∨ (a = 1 ∧ b = 0) then exKinks else [])

theorem exSystem : system exChem exThree eA eB = exThree := by decide +kernel

theorem exShare (s : Sym) : share exChem eAB s = (1 - 1 / 2) * share exChem eA s + 1 / 2 * share exChem eB s := by
  have n1 : exChem.natoms eA.comp = 1 := by decide +kernel
  have n2 : exChem.natoms eB.comp = 1 := by decide +kernel
  have n3 : exChem.natoms eAB.comp = 2 := by decide +kernel
  unfold share
  rw [n1, n2, n3]
  show (if s = ['A'] then (1 : ℚ) else if s = ['B'] then 1 else 0) / 2 = (1 - 1 / 2) * ((if s = ['A'] then (1 : ℚ) else if s = ['B'] then 0 else 0) / 1)
    + 1 / 2 * ((if s = ['A'] then (0 : ℚ) else if s = ['B'] then 1 else 0) / 1)
  split_ifs <;> norm_num

/-- A single phase is a kink when it has the composition of the mixture. -/
theorem exSingle (x e : ℚ) (hb : Bend exChem (system exChem exThree eA eB) eA eB x e) (y : Entry (Fin 4)) (hy : y ∈ exThree) (k : Rxn (Fin 4))
    (hs : ∀ s, share exChem y s = (1 - x) * share exChem eA s + x * share exChem eB s)
    (he : e = perAtomOf exChem y - ((1 - x) * perAtomOf exChem eA + x * perAtomOf exChem eB))
    (hr : ((reactants k).map exChem.red).Perm (((if x < 1 then [eA] else []) ++ if 0 < x then [eB] else []).map fun z => exChem.red z.comp))
    (hp : (products k).map exChem.red = [exChem.red y.comp]) : Kink exChem (system exChem exThree eA eB) eA eB x e k := by
  have hsum : ∀ q f : Entry (Fin 4) → ℚ, (∀ z, z ≠ y → q z = 0) → (exThree.map fun z => q z * f z).sum = q y * f y := by
    intro q f hq
    have hnd : exThree.Nodup := by decide +kernel
    rw [← List.sum_toFinset _ hnd, Finset.sum_eq_single y (fun z _ hz => by rw [hq z hz, zero_mul]) fun h => absurd (List.mem_toFinset.mpr hy) h]
  have h1 : ∀ z, z ≠ y → (if z = y then (1 : ℚ) else 0) = 0 := fun z hz => if_neg hz
  refine ⟨hb, fun z => if z = y then 1 else 0, fun z => by dsimp only; split_ifs <;> norm_num, fun z hz => ?_, fun s => ?_, ?_, fun q' hq' hsame => ?_, hr, ?_⟩
  · rw [exSystem] at hz
    exact if_neg fun h : z = y => hz (by rw [h]; exact hy)
  · rw [exSystem, hsum _ _ h1, if_pos rfl, one_mul, hs]
  · rw [exSystem, hsum _ _ h1, if_pos rfl, one_mul, he]
  · have h2 : ∀ z, z ≠ y → q' z = 0 := fun z hz => hq' z (if_neg hz)
    obtain ⟨s, hs⟩ := List.exists_mem_of_ne_nil _ (exSymbols.ne y)
    have hne := (share_ne exLawful exSymbols y s).mpr hs
    have := hsame s
    rw [exSystem, hsum _ _ h2, hsum _ _ h1, if_pos rfl] at this
    have h3 := mul_right_cancel₀ hne this
    funext z
    by_cases hz : z = y
    · rw [hz, if_pos rfl]; exact h3
    · rw [if_neg hz]; exact h2 z hz
  · rw [exSystem, hp]
    have : (exThree.filter fun z => decide (0 < if z = y then (1 : ℚ) else 0)) = [y] := by
      have h2 : (exThree.filter fun z => decide (0 < if z = y then (1 : ℚ) else 0)) = exThree.filter fun z => decide (z = y) :=
        List.filter_congr fun z _ => by by_cases h : z = y <;> simp [h]
      have h3 : ∀ y ∈ exThree, exThree.filter (fun z => decide (z = y)) = [y] := by decide +kernel
      rw [h2, h3 y hy]
    rw [this]
    exact List.Perm.refl _

theorem exLists : Lists exChem (system exChem exThree eA eB) eA eB exKinks := by
  obtain ⟨out, gs, h, S, hO, hc⟩ := exSetup
  have hB : ∀ x e, Bend exChem (system exChem exThree eA eB) eA eB x e ↔ LowerCorner [(0, 0), (1 / 2, -1 / 2), (1, 0)] (x, e) := by
    intro x e
    rw [bend_system exLawful exSymbols, ← C140_corners S exOne exAdmits exRoomy hO, hc]
  have c0 : LowerCorner [((0 : ℚ), (0 : ℚ)), (1 / 2, -1 / 2), (1, 0)] (0, 0) := ⟨by decide +kernel, -2, by decide +kernel⟩
  have c1 : LowerCorner [((0 : ℚ), (0 : ℚ)), (1 / 2, -1 / 2), (1, 0)] (1 / 2, -1 / 2) := ⟨by decide +kernel, 0, by decide +kernel⟩
  have c2 : LowerCorner [((0 : ℚ), (0 : ℚ)), (1 / 2, -1 / 2), (1, 0)] (1, 0) := ⟨by decide +kernel, 2, by decide +kernel⟩
  have k0 := exSingle 0 0 ((hB _ _).mpr c0) eA (by decide +kernel) ⟨[0, 0], [-1, 1], true, [], some 0⟩ (fun s => by ring) (by ring) (by decide +kernel) (by decide +kernel)
  have k1 := exSingle (1 / 2) (-1 / 2) ((hB _ _).mpr c1) eAB (by decide +kernel) ⟨[0, 1, 2], [-1, -1, 1], true, [], some 0⟩ exShare (by decide +kernel)
    (by decide +kernel) (by decide +kernel)
  have k2 := exSingle 1 0 ((hB _ _).mpr c2) eB (by decide +kernel) ⟨[1, 1], [-1, 1], true, [], some 0⟩ (fun s => by ring) (by ring) (by decide +kernel) (by decide +kernel)
  constructor
  · intro k hk
    simp only [exKinks, List.mem_cons, List.not_mem_nil, or_false] at hk
    rcases hk with rfl | rfl | rfl
    exacts [⟨_, _, k0⟩, ⟨_, _, k1⟩, ⟨_, _, k2⟩]
  · intro x e hb
    have := ((hB x e).mp hb).1
    simp only [List.mem_cons, List.not_mem_nil, or_false, Prod.mk.injEq] at this
    rcases this with ⟨rfl, rfl⟩ | ⟨rfl, rfl⟩ | ⟨rfl, rfl⟩
    exacts [⟨_, by simp [exKinks], k0⟩, ⟨_, by simp [exKinks], k1⟩, ⟨_, by simp [exKinks], k2⟩]

/-- A run of the minimization enumerator on the three phases returns A + B → AB, as the exhaustive enumeration does. -/
example : ∃ out gs h solve outM, Setup exChem exAll exThree 2 eA eB out gs h ∧
    enumerateMin (fun e => exChem.elems e.comp) exAll exThree 2
      (pdItem (fun e => exChem.elems e.comp) exThree true false (fun _ => .ok ()) (fun _ => .ok ())) 2 Verif.Props.Minimize.exWait 1 10
      (fun r p t => viewAll (reactGibbs exChem exChem.red (perAtomOf exChem)
        (fun rs ps => (compMatrix exChem ((rs.map fun e => exChem.red e.comp) ++ ps.map fun e => exChem.red e.comp)).rank) solve exKinksOf
        (fun _ : Unit => []) id r p t)) Verif.Props.Minimize.exWait = .ok outM ∧
    LowerCorner h.coords (1 / 2, -1 / 2) ∧ ¬ Idle (1 / 2) (-1 / 2) ∧
    ∃ r : CRxn (Fin 4), viewOf r ∈ outM ∧ coordOf exChem eA eB r = .ok (1 / 2) ∧ energyPerAtom exChem r = .ok (-1 / 2) := by
  obtain ⟨out, gs, h, S, hO, hc⟩ := exSetup
  obtain ⟨pinv, hp⟩ := exact_exists
  have hsolve : ∀ rs ps : List (Entry (Fin 4)), SolvesConsistent exChem (rs.map fun e => exChem.red e.comp) (ps.map fun e => exChem.red e.comp)
      (solveFor exChem pinv rs ps) := fun rs ps => solves exChem exLawful _ _ _ (by
        rw [List.length_append, List.length_map, List.length_map]; exact hp.solves _)
  have good : Verif.Props.Minimize.Good (fun e : Entry (Fin 4) => exChem.elems e.comp) exAll exThree :=
    ⟨by decide +kernel, fun e _ => exSymbols.ne e, fun e _ => exSymbols.dash e⟩
  have hlists : ∀ t : Tag (Entry (Fin 4)) Unit Unit, ∀ ks, exKinksOf eA.comp eB.comp t.pd t.grand = .ok ks ∨ exKinksOf eB.comp eA.comp t.pd t.grand = .ok ks →
      Lists exChem (system exChem exThree eA eB) eA eB ks := by
    intro t ks hks
    have h0 : exKinksOf eA.comp eB.comp t.pd t.grand = .ok exKinks := rfl
    have h1 : exKinksOf eB.comp eA.comp t.pd t.grand = .ok exKinks := rfl
    rw [h0, h1] at hks
    rcases hks with h | h <;> exact (Except.ok.inj h) ▸ exLists
  let _ : Inhabited (Tag (Entry (Fin 4)) Unit Unit) := ⟨⟨[], none, none⟩⟩
  obtain ⟨cands, -, hmem, -, hr2, -⟩ := Verif.Props.Minimize.C90_run_partial (fun e : Entry (Fin 4) => exChem.elems e.comp) exAll exThree 2 good
    (pdItem (fun e => exChem.elems e.comp) exThree true false (fun _ => .ok ()) (fun _ => .ok ())) 2 (by norm_num) Verif.Props.Minimize.exWait
    Verif.Props.Minimize.exWait_spec 1 10 (by norm_num) (by norm_num)
    (fun r p t => viewAll (reactGibbs exChem exChem.red (perAtomOf exChem)
        (fun rs ps => (compMatrix exChem ((rs.map fun e => exChem.red e.comp) ++ ps.map fun e => exChem.red e.comp)).rank) (solveFor exChem pinv) exKinksOf
        (fun _ : Unit => []) id r p t)) Verif.Props.Minimize.exWait Verif.Props.Minimize.exWait_spec
  have hone : ∀ c ∈ cands, ∃ r, Verif.Props.Minimize.alone (fun e : Entry (Fin 4) => exChem.elems e.comp) exAll
      (pdItem (fun e => exChem.elems e.comp) exThree true false (fun _ => .ok ()) (fun _ => .ok ()))
      (fun r p t => viewAll (reactGibbs exChem exChem.red (perAtomOf exChem)
        (fun rs ps => (compMatrix exChem ((rs.map fun e => exChem.red e.comp) ++ ps.map fun e => exChem.red e.comp)).rank) (solveFor exChem pinv) exKinksOf
        (fun _ : Unit => []) id r p t)) c = .ok r := by
    intro c hcc
    obtain ⟨c1, c2, c3, -⟩ := (hmem c).mp hcc
    obtain ⟨sub, s1, -, s3⟩ := Verif.Props.Minimize.C90_entries (fun e : Entry (Fin 4) => exChem.elems e.comp) exAll exThree good (by simp [exAll]) true false
      (fun _ => .ok ()) (fun _ => .ok ()) c c1 c2
    have ht := (s3 ⟨sub, some (), none⟩).mpr ⟨rfl, fun _ => ⟨(), rfl, rfl⟩, by simp, by simp, fun _ => rfl⟩
    -- the calculation of a candidate succeeds
    have hint : ∃ res, reactGibbs exChem exChem.red (perAtomOf exChem)
        (fun rs ps => (compMatrix exChem ((rs.map fun e => exChem.red e.comp) ++ ps.map fun e => exChem.red e.comp)).rank) (solveFor exChem pinv) exKinksOf
        (fun _ : Unit => []) id c [] ⟨sub, some (), none⟩ = .ok res := by
      have hcase : c = [eA, eB] ∨ ∃ p, firstTwo c = .ok p ∧ ¬ ((p.1.comp = 0 ∧ p.2.comp = 1) ∨ (p.1.comp = 1 ∧ p.2.comp = 0)) := by
        have hall : ∀ c ∈ exThree.sublists, c ≠ [] → c.length ≤ 2 → c = [eA, eB] ∨
            ∃ p ∈ c.product c, firstTwo c = .ok p ∧ ¬ ((p.1.comp = 0 ∧ p.2.comp = 1) ∨ (p.1.comp = 1 ∧ p.2.comp = 0)) := by decide +kernel
        rcases hall c (List.mem_sublists.mpr (by simpa [exAll] using c1)) c2 (by exact_mod_cast c3) with h | ⟨p, -, h⟩
        · exact .inl h
        · exact .inr ⟨p, h⟩
      rcases hcase with rfl | ⟨p, h1, h2⟩
      · obtain ⟨res, hres, -⟩ := C140_pair_partial S exOne exAdmits exRoomy hO exChem.red (fun a b => Iff.rfl) (perAtomOf exChem) (solveFor exChem pinv) hsolve
          ⟨sub, some (), none⟩ (by
            intro z
            rw [exSystem]
            show z ∈ sub ↔ _
            rw [s1]
            refine ⟨fun h => h.1, fun h => ⟨h, ?_⟩⟩
            revert z
            decide +kernel) exKinksOf (fun _ : Unit => []) exKinks 0 1 rfl exLists
        exact ⟨res, hres⟩
      · refine ⟨[], (bind_ok _ _ _).mpr ⟨p, h1, (bind_ok _ _ _).mpr ⟨[], ?_, rfl⟩⟩⟩
        unfold exKinksOf
        rw [if_neg h2]
    obtain ⟨res, hres⟩ := hint
    have hnc : ∀ v ∈ res.map fun p => viewOf p.1, ∃ k, v.nc = some k := by
      intro v hv
      obtain ⟨p, hp, rfl⟩ := List.mem_map.mp hv
      obtain ⟨ab, -, hm⟩ := (bind_ok _ _ _).mp hres
      obtain ⟨rxns, -, hm⟩ := (bind_ok _ _ _).mp hm
      obtain ⟨rx, -, hrx⟩ := mapM_mem _ _ _ hm p hp
      obtain ⟨rs, -, hrx⟩ := (bind_ok _ _ _).mp hrx
      obtain ⟨ps, -, hrx⟩ := (bind_ok _ _ _).mp hrx
      rw [← Except.ok.inj hrx]
      exact ⟨_, rfl⟩
    obtain ⟨v, hv⟩ := acceptAll_total exAll _ hnc
    by_cases he : earlyOk exAll c [] = true
    · refine ⟨v, (bind_ok _ _ _).mpr ⟨_, ht, ?_⟩⟩
      unfold reactPair
      rw [if_pos he]
      exact (bind_ok _ _ _).mpr ⟨_, by simp only [hres]; rfl, hv⟩
    · refine ⟨[], (bind_ok _ _ _).mpr ⟨_, ht, ?_⟩⟩
      unfold reactPair
      rw [if_neg he]
  obtain ⟨rs, hrs⟩ : ∃ rs, List.Forall₂ (fun c r => Verif.Props.Minimize.alone (fun e : Entry (Fin 4) => exChem.elems e.comp) exAll
      (pdItem (fun e => exChem.elems e.comp) exThree true false (fun _ => .ok ()) (fun _ => .ok ()))
      (fun r p t => viewAll (reactGibbs exChem exChem.red (perAtomOf exChem)
        (fun rs ps => (compMatrix exChem ((rs.map fun e => exChem.red e.comp) ++ ps.map fun e => exChem.red e.comp)).rank) (solveFor exChem pinv) exKinksOf
        (fun _ : Unit => []) id r p t)) c = .ok r) cands rs := by
    clear hmem hr2
    induction cands with
    | nil => exact ⟨[], .nil⟩
    | cons c l ih =>
      obtain ⟨r, hr⟩ := hone c List.mem_cons_self
      obtain ⟨rs, hrs⟩ := ih fun c hc => hone c (List.mem_cons_of_mem _ hc)
      exact ⟨r :: rs, .cons hr hrs⟩
  obtain ⟨outM, hM, -⟩ := hr2 rs hrs
  have hcorner : LowerCorner h.coords (1 / 2, -1 / 2) := by rw [hc]; exact ⟨by decide +kernel, 0, by decide +kernel⟩
  have hidle : ¬ Idle (1 / 2) (-1 / 2) := by unfold Idle; norm_num
  obtain ⟨r, r1, -, r2, r3, -⟩ := C140_run_partial S exOne exAdmits exRoomy hO exChem.red (fun a b => Iff.rfl) (perAtomOf exChem) (solveFor exChem pinv) hsolve
    2 (by norm_num) true false (fun _ => .ok ()) (fun _ => .ok ()) exKinksOf (fun _ : Unit => []) (fun t _ _ => hlists t) id (fun l => List.Perm.refl _) 2 (by norm_num)
    Verif.Props.Minimize.exWait Verif.Props.Minimize.exWait_spec 1 10 (by norm_num) (by norm_num) Verif.Props.Minimize.exWait Verif.Props.Minimize.exWait_spec outM hM
    (1 / 2) (-1 / 2) hcorner hidle
  exact ⟨out, gs, h, solveFor exChem pinv, outM, S, hM, hcorner, hidle, r, r1, r2, r3⟩

end Verif.Props.MinHull
