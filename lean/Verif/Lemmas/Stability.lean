import Verif.Spec.Stability
import Mathlib.Algebra.BigOperators.Field
import Mathlib.Algebra.Order.BigOperators.Ring.Finset
import Mathlib.Tactic.Linarith
import Mathlib.Tactic.FieldSimp
import Mathlib.Tactic.Ring
import Mathlib.Tactic.Push
import Mathlib.Data.Finset.Max
import Mathlib.Data.Set.Finite.Basic
import Mathlib.Data.Finset.Powerset

/-! Facts about mixtures of phases: removing phases that are not needed, restricting to a chemical system, existence of the hull. -/

namespace Verif.Lemmas.Stability
open Verif.Spec.Stability

set_option linter.unusedSectionVars false

variable {η ε : Type} [DecidableEq η] {amt : η → ε → ℚ} {E : η → ℚ}

/-- A mixture of nothing contains nothing. -/
theorem zero_of (hm : Matter amt) (S : Finset η) (w : η → ℚ) (hw : ∀ e ∈ S, 0 ≤ w e) (h : ∀ x, ∑ e ∈ S, w e * amt e x ≤ 0) :
    ∀ e ∈ S, w e = 0 := by
  intro e he
  obtain ⟨x, hx⟩ := hm.some e
  have h0 : ∀ i ∈ S, 0 ≤ w i * amt i x := fun i hi => mul_nonneg (hw i hi) (hm.nonneg i x)
  have h1 : w e * amt e x ≤ 0 := le_trans (Finset.single_le_sum h0 he) (h x)
  by_contra hne
  exact absurd (mul_pos (lt_of_le_of_ne (hw e he) (Ne.symm hne)) hx) (not_lt.mpr h1)

/-- Adding phases adds mixtures. -/
theorem energies_mono {S T : Finset η} (h : T ⊆ S) (c : ε → ℚ) : energies amt E T c ⊆ energies amt E S c := by
  rintro v ⟨w, h1, h2, h3⟩
  refine ⟨fun e => if e ∈ T then w e else 0, fun e _ => ?_, fun x => ?_, ?_⟩
  · dsimp only; split_ifs with he
    · exact h1 e he
    · exact le_refl _
  · rw [← h2 x, ← Finset.sum_subset h (fun e _ he => by simp [he])]
    exact Finset.sum_congr rfl fun e he => by simp [he]
  · rw [← h3, ← Finset.sum_subset h (fun e _ he => by simp [he])]
    exact Finset.sum_congr rfl fun e he => by simp [he]

/-- A phase that can be replaced by the others at no extra energy is not needed. -/
theorem drop {S : Finset η} {u : η} (hu : u ∈ S) (hr : ∃ v ∈ energies amt E (S.erase u) (amt u), v ≤ E u) (c : ε → ℚ) (v : ℚ)
    (hv : v ∈ energies amt E S c) : ∃ v' ∈ energies amt E (S.erase u) c, v' ≤ v := by
  obtain ⟨vu, ⟨w, w1, w2, w3⟩, hle⟩ := hr
  obtain ⟨z, z1, z2, z3⟩ := hv
  refine ⟨∑ e ∈ S.erase u, (z e + z u * w e) * E e, ⟨fun e => z e + z u * w e, fun e he => ?_, fun x => ?_, rfl⟩, ?_⟩
  · exact add_nonneg (z1 e (Finset.mem_of_mem_erase he)) (mul_nonneg (z1 u hu) (w1 e he))
  · rw [← z2 x, ← Finset.add_sum_erase S _ hu, ← w2 x, Finset.mul_sum, ← Finset.sum_add_distrib]
    exact Finset.sum_congr rfl fun e _ => by ring
  · have : ∑ e ∈ S.erase u, (z e + z u * w e) * E e = (∑ e ∈ S.erase u, z e * E e) + z u * vu := by
      rw [← w3, Finset.mul_sum, ← Finset.sum_add_distrib]
      exact Finset.sum_congr rfl fun e _ => by ring
    rw [this, ← z3, ← Finset.add_sum_erase S (fun e => z e * E e) hu]
    have := mul_le_mul_of_nonneg_left hle (z1 u hu)
    linarith

/-- A phase above the hull can be replaced by the others. -/
theorem replace (hm : Matter amt) {S : Finset η} {u : η} (hu : u ∈ S) (h : ∃ v ∈ energies amt E S (amt u), v < E u) :
    ∃ v ∈ energies amt E (S.erase u) (amt u), v < E u := by
  obtain ⟨v, ⟨w, w1, w2, w3⟩, hlt⟩ := h
  have c2 : ∀ x, ∑ e ∈ S.erase u, w e * amt e x = (1 - w u) * amt u x := fun x => by
    have := w2 x; rw [← Finset.add_sum_erase S _ hu] at this; linarith
  have c3 : ∑ e ∈ S.erase u, w e * E e = v - w u * E u := by
    rw [← w3, ← Finset.add_sum_erase S (fun e => w e * E e) hu]; ring
  have ha : w u < 1 := by
    by_contra hn
    push Not at hn
    have h0 := zero_of hm (S.erase u) w (fun e he => w1 e (Finset.mem_of_mem_erase he))
      fun x => by rw [c2 x]; exact mul_nonpos_of_nonpos_of_nonneg (by linarith) (hm.nonneg u x)
    have hz : ∀ f : η → ℚ, ∑ e ∈ S.erase u, w e * f e = 0 := fun f => Finset.sum_eq_zero fun e he => by rw [h0 e he, zero_mul]
    obtain ⟨x, hx⟩ := hm.some u
    have e1 := c2 x
    rw [hz fun e => amt e x] at e1
    have e2 : w u = 1 := by
      rcases mul_eq_zero.mp e1.symm with h | h
      · linarith
      · exact absurd h hx.ne'
    have e3 := c3
    rw [hz E, e2] at e3
    linarith
  have hp : 0 < 1 - w u := by linarith
  refine ⟨∑ e ∈ S.erase u, w e / (1 - w u) * E e, ⟨fun e => w e / (1 - w u), fun e he => ?_, fun x => ?_, rfl⟩, ?_⟩
  · exact div_nonneg (w1 e (Finset.mem_of_mem_erase he)) hp.le
  · have : ∑ e ∈ S.erase u, w e / (1 - w u) * amt e x = (∑ e ∈ S.erase u, w e * amt e x) / (1 - w u) := by
      rw [Finset.sum_div]; exact Finset.sum_congr rfl fun e _ => by ring
    rw [this, c2 x]; field_simp
  · have : ∑ e ∈ S.erase u, w e / (1 - w u) * E e = (∑ e ∈ S.erase u, w e * E e) / (1 - w u) := by
      rw [Finset.sum_div]; exact Finset.sum_congr rfl fun e _ => by ring
    rw [this, c3, div_lt_iff₀ hp]; linarith

/-- Why a phase may be left out: it is above the hull, or a kept phase of the same composition is at least as low. -/
def Spare (amt : η → ε → ℚ) (E : η → ℚ) (S T : Finset η) (u : η) : Prop :=
  (∃ v ∈ energies amt E S (amt u), v < E u) ∨ ∃ t ∈ T, ∃ k : ℚ, 0 ≤ k ∧ (∀ x, amt u x = k * amt t x) ∧ k * E t ≤ E u

theorem single (S : Finset η) (t : η) (ht : t ∈ S) (k : ℚ) (hk : 0 ≤ k) (c : ε → ℚ) (hc : ∀ x, c x = k * amt t x) :
    k * E t ∈ energies amt E S c := by
  refine ⟨fun e => if e = t then k else 0, fun e _ => ?_, fun x => ?_, ?_⟩
  · dsimp only; split_ifs
    · exact hk
    · exact le_refl _
  · rw [Finset.sum_eq_single t]
    · dsimp only; rw [if_pos rfl, hc x]
    · intro b _ hb; dsimp only; rw [if_neg hb, zero_mul]
    · intro h; exact absurd ht h
  · rw [Finset.sum_eq_single t]
    · dsimp only; rw [if_pos rfl]
    · intro b _ hb; dsimp only; rw [if_neg hb, zero_mul]
    · intro h; exact absurd ht h

/-- **Leaving out spare phases does not move the hull.** -/
theorem keep (hm : Matter amt) (T : Finset η) : ∀ (n : ℕ) (S : Finset η), (S \ T).card = n → T ⊆ S →
    (∀ u ∈ S, u ∉ T → Spare amt E S T u) → ∀ c : ε → ℚ, ∀ v ∈ energies amt E S c, ∃ v' ∈ energies amt E T c, v' ≤ v := by
  intro n
  induction n with
  | zero =>
    intro S hc hTS _ c v hv
    have : S ⊆ T := Finset.sdiff_eq_empty_iff_subset.mp (Finset.card_eq_zero.mp hc)
    rw [← Finset.Subset.antisymm this hTS]
    exact ⟨v, hv, le_refl _⟩
  | succ n ih =>
    intro S hc hTS hs c v hv
    obtain ⟨u, hu⟩ : (S \ T).Nonempty := Finset.card_pos.mp (by omega)
    obtain ⟨huS, huT⟩ := Finset.mem_sdiff.mp hu
    have hsub : T ⊆ S.erase u := fun t ht => Finset.mem_erase.mpr ⟨fun h => huT (h ▸ ht), hTS ht⟩
    have hr : ∃ v ∈ energies amt E (S.erase u) (amt u), v ≤ E u := by
      rcases hs u huS huT with h | ⟨t, ht, k, hk, hk1, hk2⟩
      · obtain ⟨v, h1, h2⟩ := replace hm huS h
        exact ⟨v, h1, h2.le⟩
      · exact ⟨k * E t, single _ t (hsub ht) k hk _ hk1, hk2⟩
    obtain ⟨v1, h1, h1'⟩ := drop huS hr c v hv
    have hcard : ((S.erase u) \ T).card = n := by
      rw [Finset.erase_sdiff_comm, Finset.card_erase_of_mem hu, hc]; rfl
    obtain ⟨v2, h2, h2'⟩ := ih (S.erase u) hcard hsub (fun y hy hyT => by
      rcases hs y (Finset.mem_of_mem_erase hy) hyT with ⟨vy, hvy, hlt⟩ | h
      · obtain ⟨v', h', hle⟩ := drop huS hr _ vy hvy
        exact Or.inl ⟨v', h', lt_of_le_of_lt hle hlt⟩
      · exact Or.inr h) c v1 h1
    exact ⟨v2, h2, h2'.trans h1'⟩

/-- The lowest energy is the same if each mixture of one set can be matched by the other. -/
theorem least_iff {A B : Set ℚ} (hAB : B ⊆ A) (h : ∀ v ∈ A, ∃ v' ∈ B, v' ≤ v) (m : ℚ) : IsLeast A m ↔ IsLeast B m := by
  constructor
  · rintro ⟨h1, h2⟩
    obtain ⟨v, hv, hle⟩ := h m h1
    have := le_antisymm hle (h2 (hAB hv))
    exact ⟨this ▸ hv, fun b hb => h2 (hAB hb)⟩
  · rintro ⟨h1, h2⟩
    refine ⟨hAB h1, fun a ha => ?_⟩
    obtain ⟨v, hv, hle⟩ := h a ha
    exact (h2 hv).trans hle

/-- Only phases inside a chemical system take part in mixtures of that system. -/
theorem restrict (hm : Matter amt) {S T : Finset η} (hTS : T ⊆ S) (c : ε → ℚ) (hout : ∀ e ∈ S, e ∉ T → ∃ x, 0 < amt e x ∧ c x = 0) :
    energies amt E S c = energies amt E T c := by
  apply Set.Subset.antisymm
  · rintro v ⟨w, w1, w2, w3⟩
    have h0 : ∀ e ∈ S, e ∉ T → w e = 0 := fun e he heT => by
      obtain ⟨x, hx, hc⟩ := hout e he heT
      have h0 : ∀ i ∈ S, 0 ≤ w i * amt i x := fun i hi => mul_nonneg (w1 i hi) (hm.nonneg i x)
      have h1 : w e * amt e x ≤ 0 := le_trans (Finset.single_le_sum h0 he) (by rw [w2 x, hc])
      by_contra hne
      exact absurd (mul_pos (lt_of_le_of_ne (w1 e he) (Ne.symm hne)) hx) (not_lt.mpr h1)
    refine ⟨w, fun e he => w1 e (hTS he), fun x => ?_, ?_⟩
    · rw [← w2 x]; exact Finset.sum_subset hTS fun e he heT => by rw [h0 e he heT, zero_mul]
    · rw [← w3]; exact Finset.sum_subset hTS fun e he heT => by rw [h0 e he heT, zero_mul]
  · exact energies_mono hTS c

/-! ### Existence of the hull -/

/-- Weights with no dependency among the phases used are determined by the phases used. -/
def Indep (amt : η → ε → ℚ) (R : Finset η) : Prop :=
  ∀ d : η → ℚ, (∀ x, ∑ e ∈ R, d e * amt e x = 0) → ∀ e ∈ R, d e = 0

/-- Every mixture can be replaced by one of independent phases at no extra energy. -/
theorem reduce (hm : Matter amt) (c : ε → ℚ) : ∀ (n : ℕ) (S : Finset η), S.card = n → ∀ v ∈ energies amt E S c,
    ∃ R ⊆ S, Indep amt R ∧ ∃ v' ∈ energies amt E R c, v' ≤ v := by
  intro n
  induction n with
  | zero =>
    intro S hS v hv
    exact ⟨S, Finset.Subset.refl _, fun d _ e he => by rw [Finset.card_eq_zero.mp hS] at he; exact absurd he (Finset.notMem_empty e), v, hv, le_refl _⟩
  | succ n ih =>
    intro S hS v hv
    by_cases hi : Indep amt S
    · exact ⟨S, Finset.Subset.refl _, hi, v, hv, le_refl _⟩
    · unfold Indep at hi
      push Not at hi
      obtain ⟨d0, hd0, e0, he0, hne0⟩ := hi
      -- choose the direction so that the energy does not increase
      obtain ⟨d, hd, ⟨e1, he1, hne1⟩, hE⟩ : ∃ d : η → ℚ, (∀ x, ∑ e ∈ S, d e * amt e x = 0) ∧ (∃ e ∈ S, d e ≠ 0) ∧ ∑ e ∈ S, d e * E e ≤ 0 := by
        rcases le_total (∑ e ∈ S, d0 e * E e) 0 with h | h
        · exact ⟨d0, hd0, ⟨e0, he0, hne0⟩, h⟩
        · refine ⟨fun e => - d0 e, fun x => ?_, ⟨e0, he0, neg_ne_zero.mpr hne0⟩, ?_⟩
          · simp only [neg_mul, Finset.sum_neg_distrib, hd0 x, neg_zero]
          · simp only [neg_mul, Finset.sum_neg_distrib]; linarith
      obtain ⟨w, w1, w2, w3⟩ := hv
      have hneg : (S.filter fun e => d e < 0).Nonempty := by
        by_contra hno
        rw [Finset.not_nonempty_iff_eq_empty, Finset.filter_eq_empty_iff] at hno
        exact hne1 (zero_of hm S d (fun e he => not_lt.mp (hno he)) (fun x => (hd x).le) e1 he1)
      obtain ⟨u, hu, hmin⟩ := Finset.exists_min_image (S.filter fun e => d e < 0) (fun e => w e / (- d e)) hneg
      obtain ⟨huS, hud⟩ := Finset.mem_filter.mp hu
      have ht : 0 ≤ w u / (- d u) := div_nonneg (w1 u huS) (by linarith)
      set t := w u / (- d u) with ht'
      have hz : w u + t * d u = 0 := by
        have hne : d u ≠ 0 := hud.ne
        rw [ht', div_neg, neg_mul, div_mul_cancel₀ _ hne]; ring
      have hin : ∑ e ∈ S.erase u, (w e + t * d e) * E e ∈ energies amt E (S.erase u) c := by
        refine ⟨fun e => w e + t * d e, fun e he => ?_, fun x => ?_, rfl⟩
        · have heS := Finset.mem_of_mem_erase he
          rcases lt_or_ge (d e) 0 with hlt | hge
          · have h1 := hmin e (Finset.mem_filter.mpr ⟨heS, hlt⟩)
            rw [le_div_iff₀ (by linarith)] at h1
            dsimp only; linarith
          · exact add_nonneg (w1 e heS) (mul_nonneg ht hge)
        · have h1 : ∑ e ∈ S, (w e + t * d e) * amt e x = c x := by
            have : ∑ e ∈ S, (w e + t * d e) * amt e x = (∑ e ∈ S, w e * amt e x) + t * ∑ e ∈ S, d e * amt e x := by
              rw [Finset.mul_sum, ← Finset.sum_add_distrib]; exact Finset.sum_congr rfl fun e _ => by ring
            rw [this, w2 x, hd x]; ring
          rw [← Finset.add_sum_erase S _ huS, hz, zero_mul, zero_add] at h1
          exact h1
      have hle : ∑ e ∈ S.erase u, (w e + t * d e) * E e ≤ v := by
        have h1 : ∑ e ∈ S, (w e + t * d e) * E e = v + t * ∑ e ∈ S, d e * E e := by
          rw [Finset.mul_sum, ← w3, ← Finset.sum_add_distrib]; exact Finset.sum_congr rfl fun e _ => by ring
        rw [← Finset.add_sum_erase S _ huS, hz, zero_mul, zero_add] at h1
        rw [h1]
        have := mul_nonpos_of_nonneg_of_nonpos ht hE
        linarith
      obtain ⟨R, hR, hRi, v', hv', hle'⟩ := ih (S.erase u) (by rw [Finset.card_erase_of_mem huS, hS]; rfl) _ hin
      exact ⟨R, hR.trans (Finset.erase_subset _ _), hRi, v', hv', hle'.trans hle⟩

theorem indep_unique (c : ε → ℚ) (R : Finset η) (hR : Indep amt R) (v v' : ℚ) (hv : v ∈ energies amt E R c) (hv' : v' ∈ energies amt E R c) :
    v = v' := by
  obtain ⟨w, -, w2, rfl⟩ := hv
  obtain ⟨z, -, z2, rfl⟩ := hv'
  have := hR (fun e => w e - z e) fun x => by
    simp only [sub_mul, Finset.sum_sub_distrib, w2 x, z2 x, sub_self]
  exact Finset.sum_congr rfl fun e he => by rw [sub_eq_zero.mp (this e he)]

/-- **The hull exists**: if there is a mixture at all, there is one of lowest energy. -/
theorem exists_least (hm : Matter amt) (S : Finset η) (c : ε → ℚ) (hne : (energies amt E S c).Nonempty) :
    ∃ m, IsLeast (energies amt E S c) m := by
  classical
  let P := S.powerset.filter fun R => Indep amt R ∧ (energies amt E R c).Nonempty
  have hPne : P.Nonempty := by
    obtain ⟨v, hv⟩ := hne
    obtain ⟨R, hR, hi, v', hv', -⟩ := reduce hm c S.card S rfl v hv
    exact ⟨R, Finset.mem_filter.mpr ⟨Finset.mem_powerset.mpr hR, hi, v', hv'⟩⟩
  let f : Finset η → ℚ := fun R => if h : (energies amt E R c).Nonempty then h.some else 0
  have hf : ∀ R ∈ P, f R ∈ energies amt E R c := fun R hR => by
    have h := (Finset.mem_filter.mp hR).2.2
    simp only [f, dif_pos h]; exact h.some_mem
  obtain ⟨R0, hR0, hmin⟩ := Finset.exists_min_image P f hPne
  refine ⟨f R0, energies_mono (Finset.mem_powerset.mp (Finset.mem_filter.mp hR0).1) c (hf R0 hR0), fun v hv => ?_⟩
  obtain ⟨R, hR, hi, v', hv', hle⟩ := reduce hm c S.card S rfl v hv
  have hRP : R ∈ P := Finset.mem_filter.mpr ⟨Finset.mem_powerset.mpr hR, hi, v', hv'⟩
  rw [indep_unique c R hi v' (f R) hv' (hf R hRP)] at hle
  exact (hmin R hRP).trans hle

/-- Every phase of a set has a distance from the hull, and only one; it is not negative. -/
theorem exists_above (hm : Matter amt) (S : Finset η) (n : ℚ) (hn : 0 < n) (e : η) (he : e ∈ S) : ∃ d, Above amt E S n e d := by
  obtain ⟨m, h⟩ := exists_least (E := E) hm S (amt e) ⟨1 * E e, single S e he 1 zero_le_one _ fun x => (one_mul _).symm⟩
  refine ⟨(E e - m) / n, ?_⟩
  unfold Above
  have : E e - (E e - m) / n * n = m := by field_simp; ring
  rw [this]; exact h

theorem above_nonneg {S : Finset η} {n : ℚ} (hn : 0 < n) {e : η} (he : e ∈ S) {d : ℚ} (h : Above amt E S n e d) : 0 ≤ d := by
  have h1 := h.2 (single S e he 1 zero_le_one _ fun x => (one_mul _).symm)
  have h2 : d * n ≥ 0 := by linarith
  exact nonneg_of_mul_nonneg_left h2 hn

theorem above_unique {S : Finset η} {n : ℚ} (hn : 0 < n) {e : η} {d d' : ℚ} (h : Above amt E S n e d) (h' : Above amt E S n e d') : d = d' := by
  have := h.unique h'
  exact mul_right_cancel₀ hn.ne' (by linarith)

end Verif.Lemmas.Stability
