import Mathlib.Analysis.LocallyConvex.Separation
import Mathlib.Analysis.Convex.StdSimplex
import Mathlib.Analysis.Normed.Module.Convex
import Mathlib.Tactic.Linarith
import Mathlib.Tactic.FieldSimp
import Mathlib.Tactic.Ring

/-! A point strictly below all mixtures of finitely many points has a supporting hyperplane that touches no other point. -/

set_option linter.unusedSectionVars false

namespace Verif.Lemmas.Support

variable {ι κ : Type} [Fintype ι] [Fintype κ] [DecidableEq κ]

/-- The mixture of the points `(x i, E i)` with the given weights. -/
noncomputable def mix (x : ι → κ → ℝ) (E : ι → ℝ) (w : ι → ℝ) : (κ → ℝ) × ℝ := ∑ i, w i • (x i, E i)

theorem mix_fst (x : ι → κ → ℝ) (E : ι → ℝ) (w : ι → ℝ) (k : κ) : (mix x E w).1 k = ∑ i, w i * x i k := by
  unfold mix
  rw [Prod.fst_sum, Finset.sum_apply]
  simp

theorem mix_snd (x : ι → κ → ℝ) (E : ι → ℝ) (w : ι → ℝ) : (mix x E w).2 = ∑ i, w i * E i := by
  unfold mix
  rw [Prod.snd_sum]
  simp

theorem supporting (x : ι → κ → ℝ) (E : ι → ℝ) (x0 : κ → ℝ) (E0 : ℝ) (hsum : ∀ i, ∑ k, x i k = 1) (hsum0 : ∑ k, x0 k = 1)
    (hst : ∀ w : ι → ℝ, (∀ i, 0 ≤ w i) → ∑ i, w i = 1 → (∀ k, ∑ i, w i * x i k = x0 k) → E0 < ∑ i, w i * E i) :
    ∃ μ : κ → ℝ, ∑ k, x0 k * μ k = E0 ∧ ∀ i, ∑ k, x i k * μ k < E i := by
  classical
  let K : Set ((κ → ℝ) × ℝ) := mix x E '' stdSimplex ℝ ι
  let L : Set ((κ → ℝ) × ℝ) := {p | p.1 = x0 ∧ p.2 ≤ E0}
  have hKc : IsCompact K := (isCompact_stdSimplex ℝ ι).image (by unfold mix; fun_prop)
  have hKv : Convex ℝ K := by
    rintro _ ⟨w, hw, rfl⟩ _ ⟨w', hw', rfl⟩ a b ha hb hab
    refine ⟨a • w + b • w', convex_stdSimplex ℝ ι hw hw' ha hb hab, ?_⟩
    unfold mix
    simp only [Pi.add_apply, Pi.smul_apply, smul_eq_mul, add_smul, Finset.sum_add_distrib, Finset.smul_sum, mul_smul]
  have hLc : IsClosed L := by
    have h1 : IsClosed {p : (κ → ℝ) × ℝ | p.1 = x0} := isClosed_eq continuous_fst continuous_const
    have h2 : IsClosed {p : (κ → ℝ) × ℝ | p.2 ≤ E0} := isClosed_le continuous_snd continuous_const
    exact h1.inter h2
  have hLv : Convex ℝ L := by
    rintro p ⟨hp1, hp2⟩ q ⟨hq1, hq2⟩ a b ha hb hab
    refine ⟨?_, ?_⟩
    · change a • p.1 + b • q.1 = x0
      rw [hp1, hq1, ← add_smul, hab, one_smul]
    · change a * p.2 + b * q.2 ≤ E0
      have h1 := mul_le_mul_of_nonneg_left hp2 ha
      have h2 := mul_le_mul_of_nonneg_left hq2 hb
      have : a * E0 + b * E0 = E0 := by rw [← add_mul, hab, one_mul]
      linarith
  have hdis : Disjoint K L := by
    rw [Set.disjoint_left]
    rintro _ ⟨w, hw, rfl⟩ ⟨h1, h2⟩
    have := hst w hw.1 hw.2 (fun k => by rw [← mix_fst x E w k, h1])
    rw [mix_snd] at h2
    linarith
  obtain ⟨f, u, v, hfK, huv, hfL⟩ := geometric_hahn_banach_compact_closed hKv hKc hLv hLc hdis
  let g : κ → ℝ := fun k => f (Pi.single k 1, 0)
  let h : ℝ := f (0, 1)
  have hf : ∀ (y : κ → ℝ) (e : ℝ), f (y, e) = ∑ k, y k * g k + e * h := by
    intro y e
    have hy : ((y, e) : (κ → ℝ) × ℝ) = ∑ k, y k • ((Pi.single k 1, 0) : (κ → ℝ) × ℝ) + e • ((0, 1) : (κ → ℝ) × ℝ) := by
      refine Prod.ext ?_ ?_
      · funext j
        simp [Prod.fst_sum, Finset.sum_apply, Pi.single_apply]
      · simp [Prod.snd_sum]
    rw [hy, map_add, map_sum]
    simp only [map_smul, smul_eq_mul, g, h]
  have hP : ∀ i, f (x i, E i) < u := by
    intro i
    apply hfK
    refine ⟨Pi.single i 1, single_mem_stdSimplex ℝ i, ?_⟩
    unfold mix
    simp [Pi.single_apply, ite_smul]
  have hR : ∀ s : ℝ, 0 ≤ s → v < f (x0, E0 - s) := fun s hs => hfL _ ⟨rfl, by simpa using hs⟩
  have hgx : ∀ (y : κ → ℝ) (a b : ℝ), ∑ k, y k = 1 → ∑ k, y k * (a * g k + b) = a * ∑ k, y k * g k + b := by
    intro y a b hy
    have : ∀ k, y k * (a * g k + b) = a * (y k * g k) + b * y k := fun k => by ring
    simp only [this, Finset.sum_add_distrib, ← Finset.mul_sum, hy, mul_one]
  have hh : h ≤ 0 := by
    by_contra hc
    push Not at hc
    have h0 := hR 0 le_rfl
    have := hR ((f (x0, E0) - v) / h) (by rw [sub_zero] at h0; exact div_nonneg (by linarith) hc.le)
    rw [hf] at this
    rw [hf, sub_zero] at h0
    rw [sub_mul, div_mul_cancel₀ _ hc.ne', hf] at this
    linarith
  have h0 := hR 0 le_rfl
  rw [sub_zero, hf] at h0
  rcases hh.lt_or_eq with hneg | hz
  · have hne : h ≠ 0 := hneg.ne
    clear_value h g
    refine ⟨fun k => -(1 / h) * g k + f (x0, E0) / h, ?_, ?_⟩
    · rw [hgx _ _ _ hsum0, hf]
      field_simp
      ring
    · intro i
      rw [hgx _ _ _ (hsum i), hf]
      have := hP i
      rw [hf] at this
      have h3 : -(1 / h) * ∑ k, x i k * g k + (∑ k, x0 k * g k + E0 * h) / h
          = E i + ((∑ k, x0 k * g k + E0 * h) - (∑ k, x i k * g k + E i * h)) / h := by
        field_simp
        ring
      rw [h3]
      have : ((∑ k, x0 k * g k + E0 * h) - (∑ k, x i k * g k + E i * h)) / h < 0 := div_neg_of_pos_of_neg (by linarith) hneg
      linarith
  · have hd : 0 < v - u := by linarith
    let M : ℝ := (|E0| + ∑ i, |E i| + 1) / (v - u)
    have hM : 0 < M := by
      refine div_pos ?_ hd
      have := Finset.sum_nonneg (fun i (_ : i ∈ Finset.univ) => abs_nonneg (E i))
      have := abs_nonneg E0
      linarith
    refine ⟨fun k => M * g k + (E0 - M * ∑ k, x0 k * g k), ?_, ?_⟩
    · rw [hgx _ _ _ hsum0]
      ring
    · intro i
      rw [hgx _ _ _ (hsum i)]
      have hi := hP i
      rw [hf, hz, mul_zero, add_zero] at hi
      rw [hz, mul_zero, add_zero] at h0
      have h1 : M * (v - u) ≤ M * (∑ k, x0 k * g k - ∑ k, x i k * g k) := mul_le_mul_of_nonneg_left (by linarith) hM.le
      have h2 : M * (v - u) = |E0| + ∑ i, |E i| + 1 := div_mul_cancel₀ _ hd.ne'
      have h3 : |E i| ≤ ∑ i, |E i| := Finset.single_le_sum (fun i _ => abs_nonneg (E i)) (Finset.mem_univ i)
      have h4 := neg_abs_le (E i)
      have h5 := le_abs_self E0
      rw [mul_sub] at h1
      linarith

end Verif.Lemmas.Support
