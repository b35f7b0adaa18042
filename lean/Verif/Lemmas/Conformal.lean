import Mathlib.LinearAlgebra.Dimension.Constructions
import Mathlib.LinearAlgebra.FiniteDimensional.Basic
import Mathlib.Algebra.Order.Field.Rat
import Mathlib.Tactic.Linarith
import Mathlib.Tactic.Ring
import Mathlib.Tactic.FieldSimp

/-!
Vectors of a kernel are sums of support-minimal vectors of the same signs. Used for reactions: every way to turn phases into phases is a sum of
reactions that can be balanced in one way only.
-/

namespace Verif.Lemmas.Conformal

set_option linter.unusedSectionVars false

variable {ι σ : Type} [DecidableEq ι]

/-- `v` vanishes outside `E` and has zero sum of the vectors `w`. -/
def Kernel (E : Finset ι) (w : ι → σ → ℚ) (v : ι → ℚ) : Prop := (∀ i, i ∉ E → v i = 0) ∧ ∀ s, ∑ i ∈ E, v i * w i s = 0

/-- All vectors of the kernel on the support of `u` are multiples of `u`. -/
structure Elementary (E : Finset ι) (w : ι → σ → ℚ) (u : ι → ℚ) : Prop where
  kernel : Kernel E w u
  nonzero : ∃ i, u i ≠ 0
  unique : ∀ z, Kernel E w z → (∀ i, u i = 0 → z i = 0) → ∃ t, ∀ i, z i = t * u i

/-- `u` has the signs of `v` where it is not zero. -/
def Follows (u v : ι → ℚ) : Prop := ∀ i, u i ≠ 0 → 0 < u i * v i

theorem Follows.trans {u v x : ι → ℚ} (h : Follows u v) (h' : Follows v x) : Follows u x := by
  intro i hi
  have h1 := h i hi
  have hv : v i ≠ 0 := by rintro h0; rw [h0, mul_zero] at h1; exact lt_irrefl _ h1
  have h2 := h' i hv
  have h3 : 0 < (u i * x i) * (v i * v i) := by
    have := mul_pos h1 h2
    linarith [this, show (u i * v i) * (v i * x i) = (u i * x i) * (v i * v i) by ring]
  exact pos_of_mul_pos_left h3 (mul_self_nonneg _)

theorem Follows.refl (v : ι → ℚ) : Follows v v := fun _ hi => lt_of_le_of_ne (mul_self_nonneg _) (Ne.symm (mul_self_ne_zero.mpr hi))

theorem Kernel.sub {E : Finset ι} {w : ι → σ → ℚ} {v z : ι → ℚ} (hv : Kernel E w v) (hz : Kernel E w z) (t : ℚ) :
    Kernel E w fun i => v i - t * z i := by
  refine ⟨fun i hi => by simp only [hv.1 i hi, hz.1 i hi]; ring, fun s => ?_⟩
  have : ∀ i ∈ E, (v i - t * z i) * w i s = v i * w i s - t * (z i * w i s) := fun i _ => by ring
  rw [Finset.sum_congr rfl this, Finset.sum_sub_distrib, ← Finset.mul_sum, hv.2, hz.2]
  ring

theorem Kernel.smul {E : Finset ι} {w : ι → σ → ℚ} {z : ι → ℚ} (hz : Kernel E w z) (t : ℚ) : Kernel E w fun i => t * z i := by
  refine ⟨fun i hi => by simp only [hz.1 i hi]; ring, fun s => ?_⟩
  have : ∀ i ∈ E, (t * z i) * w i s = t * (z i * w i s) := fun i _ => by ring
  rw [Finset.sum_congr rfl this, ← Finset.mul_sum, hz.2, mul_zero]

theorem Elementary.smul {E : Finset ι} {w : ι → σ → ℚ} {u : ι → ℚ} (hu : Elementary E w u) {t : ℚ} (ht : t ≠ 0) :
    Elementary E w fun i => t * u i := by
  refine ⟨hu.kernel.smul t, ?_, fun z hz h => ?_⟩
  · obtain ⟨i, hi⟩ := hu.nonzero
    exact ⟨i, mul_ne_zero ht hi⟩
  · obtain ⟨c, hc⟩ := hu.unique z hz fun i hi => h i (by rw [hi, mul_zero])
    refine ⟨c / t, fun i => ?_⟩
    rw [hc i]
    field_simp

/-- Number of entries that are not zero. -/
def size (E : Finset ι) (v : ι → ℚ) : ℕ := (E.filter fun i => v i ≠ 0).card

/-- Subtracting a suitable multiple of `z` from `v` keeps the signs of `v` and makes one more entry zero. -/
theorem cut {E : Finset ι} {v z : ι → ℚ} (hz : ∀ i, v i = 0 → z i = 0) (hE : ∀ i, i ∉ E → v i = 0) (hp : ∃ i, 0 < z i * v i) :
    ∃ t : ℚ, 0 < t ∧ Follows (fun i => v i - t * z i) v ∧ size E (fun i => v i - t * z i) < size E v := by
  set P := E.filter fun i => 0 < z i * v i with hP
  have hne : P.Nonempty := by
    obtain ⟨i, hi⟩ := hp
    refine ⟨i, Finset.mem_filter.mpr ⟨?_, hi⟩⟩
    by_contra hc
    rw [hE i hc, mul_zero] at hi
    exact lt_irrefl _ hi
  obtain ⟨j, hj, hmin⟩ := P.exists_min_image (fun i => v i / z i) hne
  have hjz := (Finset.mem_filter.mp hj).2
  have hzj : z j ≠ 0 := by rintro h0; rw [h0, zero_mul] at hjz; exact lt_irrefl _ hjz
  have hvj : v j ≠ 0 := by rintro h0; rw [h0, mul_zero] at hjz; exact lt_irrefl _ hjz
  have ht : 0 < v j / z j := by
    have : v j / z j = (z j * v j) / (z j * z j) := by field_simp
    rw [this]
    exact div_pos hjz (lt_of_le_of_ne (mul_self_nonneg _) (Ne.symm (mul_self_ne_zero.mpr hzj)))
  refine ⟨v j / z j, ht, ?_, ?_⟩
  · intro i hi
    simp only at hi ⊢
    have hvi : v i ≠ 0 := by
      intro h0
      rw [h0, hz i h0] at hi
      simp at hi
    have hvv : 0 < v i * v i := lt_of_le_of_ne (mul_self_nonneg _) (Ne.symm (mul_self_ne_zero.mpr hvi))
    have e : (v i - v j / z j * z i) * v i = v i * v i - v j / z j * (z i * v i) := by ring
    by_cases hs : 0 < z i * v i
    · have hiE : i ∈ E := by by_contra hc; exact hvi (hE i hc)
      have hm := hmin i (Finset.mem_filter.mpr ⟨hiE, hs⟩)
      have hzi : z i ≠ 0 := by rintro h0; rw [h0, zero_mul] at hs; exact lt_irrefl _ hs
      have e2 : v i * v i = v i / z i * (z i * v i) := by field_simp
      have h1 : v j / z j * (z i * v i) ≤ v i / z i * (z i * v i) := mul_le_mul_of_nonneg_right hm hs.le
      refine lt_of_le_of_ne (by rw [e, e2]; linarith) (Ne.symm (mul_ne_zero hi hvi))
    · have := mul_nonpos_of_nonneg_of_nonpos ht.le (not_lt.mp hs)
      rw [e]
      linarith
  · refine Finset.card_lt_card ⟨fun i hi => ?_, fun hsub => ?_⟩
    · obtain ⟨hiE, hi⟩ := Finset.mem_filter.mp hi
      refine Finset.mem_filter.mpr ⟨hiE, fun h0 => hi ?_⟩
      simp only [h0, hz i h0]
      ring
    · have := hsub (Finset.mem_filter.mpr ⟨(Finset.mem_filter.mp hj).1, hvj⟩)
      refine (Finset.mem_filter.mp this).2 ?_
      field_simp
      ring

theorem exists_elementary {E : Finset ι} {w : ι → σ → ℚ} : ∀ (n : ℕ) (v : ι → ℚ), size E v ≤ n → Kernel E w v → (∃ i, v i ≠ 0) →
    ∃ u, Elementary E w u ∧ Follows u v := by
  intro n
  induction n with
  | zero =>
    rintro v hn hv ⟨i, hi⟩
    exfalso
    have : i ∈ E.filter fun i => v i ≠ 0 := Finset.mem_filter.mpr ⟨by by_contra hc; exact hi (hv.1 i hc), hi⟩
    have := Finset.card_pos.mpr ⟨i, this⟩
    unfold size at hn
    omega
  | succ n ih =>
    rintro v hn hv ⟨i, hi⟩
    by_cases he : Elementary E w v
    · exact ⟨v, he, Follows.refl v⟩
    · have : ∃ z, Kernel E w z ∧ (∀ i, v i = 0 → z i = 0) ∧ ¬ ∃ t, ∀ i, z i = t * v i := by
        by_contra hc
        push Not at hc
        exact he ⟨hv, ⟨i, hi⟩, fun z hz h => hc z hz h⟩
      obtain ⟨z, hz, hs, hno⟩ := this
      have hz' := hz.sub hv (z i / v i)
      set z' : ι → ℚ := fun k => z k - z i / v i * v k with hz'd
      have hzi : z' i = 0 := by simp only [hz'd]; field_simp; ring
      have hs' : ∀ k, v k = 0 → z' k = 0 := fun k hk => by simp only [hz'd]; rw [hs k hk, hk]; ring
      have hne : ∃ k, z' k ≠ 0 := by
        by_contra hc
        push Not at hc
        exact hno ⟨z i / v i, fun k => sub_eq_zero.mp (hc k)⟩
      obtain ⟨k, hk⟩ := hne
      have hvk : v k ≠ 0 := fun h => hk (hs' k h)
      have hcut : ∃ y, Kernel E w y ∧ (∀ k, v k = 0 → y k = 0) ∧ y i = 0 ∧ 0 < y k * v k := by
        rcases lt_or_gt_of_ne (mul_ne_zero hk hvk) with h | h
        · exact ⟨fun k => -1 * z' k, hz'.smul (-1), fun k hk => by simp only [hs' k hk]; ring, by simp only [hzi]; ring, by simp only; linarith⟩
        · exact ⟨z', hz', hs', hzi, h⟩
      obtain ⟨y, hy, hys, hyi, hyk⟩ := hcut
      obtain ⟨t, ht, hf, hlt⟩ := cut hys hv.1 ⟨k, hyk⟩
      obtain ⟨u, hu, huf⟩ := ih _ (by omega) (hv.sub hy t) ⟨i, by simp only [hyi, mul_zero, sub_zero]; exact hi⟩
      exact ⟨u, hu, huf.trans hf⟩

/-- **Conformal decomposition.** -/
theorem decompose {E : Finset ι} {w : ι → σ → ℚ} : ∀ (n : ℕ) (v : ι → ℚ), size E v ≤ n → Kernel E w v →
    ∃ L : List (ι → ℚ), (∀ u ∈ L, Elementary E w u ∧ Follows u v) ∧ ∀ i, (L.map fun u => u i).sum = v i := by
  intro n
  induction n with
  | zero =>
    intro v hn hv
    refine ⟨[], by simp, fun i => ?_⟩
    by_contra hi
    have hi : v i ≠ 0 := fun h => hi (by rw [h]; rfl)
    have : i ∈ E.filter fun i => v i ≠ 0 := Finset.mem_filter.mpr ⟨by by_contra hc; exact hi (hv.1 i hc), hi⟩
    have := Finset.card_pos.mpr ⟨i, this⟩
    unfold size at hn
    omega
  | succ n ih =>
    intro v hn hv
    by_cases h0 : ∃ i, v i ≠ 0
    · obtain ⟨u, hu, huf⟩ := exists_elementary (n + 1) v hn hv h0
      obtain ⟨j, hj⟩ := hu.nonzero
      have hs : ∀ i, v i = 0 → u i = 0 := by
        intro i hi
        by_contra hc
        have := huf i hc
        rw [hi, mul_zero] at this
        exact lt_irrefl _ this
      obtain ⟨t, ht, hf, hlt⟩ := cut hs hv.1 ⟨j, huf j hj⟩
      obtain ⟨L, h1, h2⟩ := ih _ (by omega) (hv.sub hu.kernel t)
      refine ⟨(fun i => t * u i) :: L, ?_, fun i => ?_⟩
      · intro y hy
        rcases List.mem_cons.mp hy with rfl | hy
        · refine ⟨hu.smul ht.ne', fun i hi => ?_⟩
          have := huf i (right_ne_zero_of_mul hi)
          have := mul_pos ht this
          linarith [this, show t * (u i * v i) = t * u i * v i by ring]
        · exact ⟨(h1 y hy).1, (h1 y hy).2.trans hf⟩
      · rw [List.map_cons, List.sum_cons, h2 i]
        ring
    · push Not at h0
      exact ⟨[], by simp, fun i => (h0 i).symm⟩

/-- The support of an elementary vector has at most one more entry than there are coordinates. -/
theorem Elementary.size_le {E : Finset ι} {w : ι → σ → ℚ} {u : ι → ℚ} (hu : Elementary E w u) (S : Finset σ)
    (hS : ∀ i, u i ≠ 0 → ∀ s, s ∉ S → w i s = 0) : size E u ≤ S.card + 1 := by
  obtain ⟨j, hj⟩ := hu.nonzero
  have hjE : j ∈ E := by by_contra hc; exact hj (hu.kernel.1 j hc)
  by_contra hlt
  push Not at hlt
  set T := (E.filter fun i => u i ≠ 0).erase j with hT
  have hTc : S.card < T.card := by
    rw [hT, Finset.card_erase_of_mem (Finset.mem_filter.mpr ⟨hjE, hj⟩)]
    unfold size at hlt
    omega
  have hdep : ¬ LinearIndependent ℚ (fun i : T => fun s : S => w i s) := by
    intro hli
    have := hli.fintype_card_le_finrank
    rw [Module.finrank_fintype_fun_eq_card, Fintype.card_coe, Fintype.card_coe] at this
    omega
  obtain ⟨g, hg, ⟨k, hk⟩⟩ := Fintype.not_linearIndependent_iff.mp hdep
  set z : ι → ℚ := fun i => if h : i ∈ T then g ⟨i, h⟩ else 0 with hz
  have hzT : ∀ i, i ∉ T → z i = 0 := fun i hi => by simp only [hz]; rw [dif_neg hi]
  have hTE : T ⊆ E := fun i hi => (Finset.mem_filter.mp (Finset.mem_of_mem_erase hi)).1
  have hTu : ∀ i ∈ T, u i ≠ 0 := fun i hi => (Finset.mem_filter.mp (Finset.mem_of_mem_erase hi)).2
  have hker : Kernel E w z := by
    refine ⟨fun i hi => hzT i fun h => hi (hTE h), fun s => ?_⟩
    rw [← Finset.sum_subset hTE fun i _ hi => by rw [hzT i hi, zero_mul]]
    by_cases hs : s ∈ S
    · have := congrFun hg ⟨s, hs⟩
      simp only [Finset.sum_apply, Pi.smul_apply, smul_eq_mul, Pi.zero_apply] at this
      rw [← Finset.sum_attach, ← this]
      refine Finset.sum_congr rfl fun i _ => ?_
      simp only [hz]
      rw [dif_pos i.2]
    · exact Finset.sum_eq_zero fun i hi => by rw [hS i (hTu i hi) s hs, mul_zero]
  obtain ⟨t, ht⟩ := hu.unique z hker fun i hi => hzT i fun h => hTu i h hi
  have hzj : z j = 0 := hzT j (Finset.notMem_erase _ _)
  rw [ht j] at hzj
  have ht0 : t = 0 := (mul_eq_zero.mp hzj).resolve_right hj
  have hzk := ht k
  rw [ht0, zero_mul] at hzk
  simp only [hz] at hzk
  rw [dif_pos k.2] at hzk
  exact hk hzk

end Verif.Lemmas.Conformal
