import Mathlib.Algebra.BigOperators.Ring.Finset
import Mathlib.Algebra.BigOperators.Group.List.Lemmas
import Mathlib.Algebra.Order.BigOperators.Group.List
import Mathlib.Algebra.Order.Archimedean.Basic
import Mathlib.Data.Rat.Floor
import Mathlib.Tactic.FieldSimp
import Mathlib.Tactic.Linarith
import Mathlib.Tactic.NormNum
import Mathlib.Tactic.Positivity
import Mathlib.Tactic.Push
import Mathlib.Tactic.Ring
import Verif.Spec.Carry
import Verif.Spec.Pathway

/-! Carrying out reactions in portions: what is possible from given amounts. -/

set_option linter.unusedSectionVars false

namespace Verif.Lemmas.Carry
open Verif.Spec.Carry Verif.Spec.Pathway

variable {κ ρ : Type} [DecidableEq κ] [DecidableEq ρ]

theorem left_eq (ν : ρ → κ → ℚ) : ∀ (s : List (ρ × ℚ)) (m : κ → ℚ) (x : κ), left ν m s x = m x + (s.map fun p => p.2 * ν p.1 x).sum
  | [], m, x => by simp [left]
  | p :: s, m, x => by
    have := left_eq ν s (after ν m p) x
    unfold left at this ⊢
    rw [List.foldl_cons, this]
    simp only [after, List.map_cons, List.sum_cons]
    ring

theorem left_append (ν : ρ → κ → ℚ) (m : κ → ℚ) (s t : List (ρ × ℚ)) : left ν m (s ++ t) = left ν (left ν m s) t := by
  unfold left
  rw [List.foldl_append]

theorem carried_append (ν : ρ → κ → ℚ) : ∀ (s t : List (ρ × ℚ)) (m : κ → ℚ),
    CarriedOut ν m (s ++ t) ↔ CarriedOut ν m s ∧ CarriedOut ν (left ν m s) t
  | [], t, m => by simp [CarriedOut, left]
  | p :: s, t, m => by
    simp only [List.cons_append, CarriedOut, carried_append ν s t, left, List.foldl_cons, and_assoc]

theorem carried_nonneg (ν : ρ → κ → ℚ) : ∀ (s : List (ρ × ℚ)) (m : κ → ℚ), (∀ x, 0 ≤ m x) → CarriedOut ν m s → ∀ x, 0 ≤ left ν m s x
  | [], m, hm, _, x => hm x
  | p :: s, m, hm, h, x => by
    unfold left
    rw [List.foldl_cons]
    refine carried_nonneg ν s (after ν m p) (fun y => ?_) h.2.2 x
    have := h.2.1 y
    unfold after
    linarith

theorem times_nil (r : ρ) : times ([] : List (ρ × ℚ)) r = 0 := rfl

theorem times_cons (p : ρ × ℚ) (s : List (ρ × ℚ)) (r : ρ) : times (p :: s) r = (if p.1 = r then p.2 else 0) + times s r := by
  unfold times
  rw [List.filter_cons]
  by_cases h : p.1 = r <;> simp [h]

theorem times_append (s t : List (ρ × ℚ)) (r : ρ) : times (s ++ t) r = times s r + times t r := by
  unfold times
  rw [List.filter_append, List.map_append, List.sum_append]

theorem times_nonneg (s : List (ρ × ℚ)) (h : ∀ p ∈ s, (0 : ℚ) ≤ p.2) (r : ρ) : 0 ≤ times s r := by
  unfold times
  apply List.sum_nonneg
  intro y hy
  obtain ⟨p, hp, rfl⟩ := List.mem_map.mp hy
  exact h p (List.mem_filter.mp hp).1

theorem times_not_mem (s : List (ρ × ℚ)) (r : ρ) (h : r ∉ s.map Prod.fst) : times s r = 0 := by
  induction s with
  | nil => rfl
  | cons p s ih =>
    rw [List.map_cons, List.mem_cons, not_or] at h
    rw [times_cons, ih h.2, if_neg (fun hc => h.1 hc.symm), add_zero]

theorem carried_pos (ν : ρ → κ → ℚ) : ∀ (s : List (ρ × ℚ)) (m : κ → ℚ), CarriedOut ν m s → ∀ p ∈ s, (0 : ℚ) ≤ p.2
  | [], _, _, p, hp => by simp at hp
  | q :: s, m, h, p, hp => by
    rcases List.mem_cons.mp hp with rfl | hp
    · exact h.1
    · exact carried_pos ν s _ h.2.2 p hp

/-- The total effect of portions, grouped by reaction. -/
theorem sum_times (ν : ρ → κ → ℚ) (x : κ) (S : Finset ρ) : ∀ s : List (ρ × ℚ), (∀ p ∈ s, p.1 ∈ S) →
    (s.map fun p => p.2 * ν p.1 x).sum = ∑ r ∈ S, times s r * ν r x
  | [], _ => by simp [times_nil]
  | p :: s, h => by
    rw [List.map_cons, List.sum_cons, sum_times ν x S s fun q hq => h q (List.mem_cons_of_mem _ hq)]
    have : ∑ r ∈ S, times (p :: s) r * ν r x = ∑ r ∈ S, (if p.1 = r then p.2 * ν r x else 0) + ∑ r ∈ S, times s r * ν r x := by
      rw [← Finset.sum_add_distrib]
      apply Finset.sum_congr rfl
      intro r _
      rw [times_cons]
      split_ifs <;> ring
    rw [this, Finset.sum_ite_eq, if_pos (h p List.mem_cons_self)]

/-! ### One small start -/

/-- A number small enough for finitely many bounds. -/
theorem small (S : Finset κ) (a b : κ → ℚ) (hb : ∀ e ∈ S, 0 < b e) (c : ℚ) (hc : 0 < c) :
    ∃ x : ℚ, 0 < x ∧ x ≤ c ∧ ∀ e ∈ S, x * a e ≤ b e := by
  induction S using Finset.induction_on with
  | empty => exact ⟨c, hc, le_refl _, by simp⟩
  | @insert e S _ ih =>
    obtain ⟨x, hx, hxc, hS⟩ := ih fun e he => hb e (Finset.mem_insert_of_mem he)
    have hbe := hb e (Finset.mem_insert_self _ _)
    have hd : 0 < |a e| + 1 := by positivity
    refine ⟨min x (b e / (|a e| + 1)), lt_min hx (by positivity), le_trans (min_le_left _ _) hxc, ?_⟩
    intro e' he'
    have hmin : 0 < min x (b e / (|a e| + 1)) := lt_min hx (by positivity)
    rcases Finset.mem_insert.mp he' with rfl | h
    · have h1 : min x (b e' / (|a e'| + 1)) ≤ b e' / (|a e'| + 1) := min_le_right _ _
      have h2 : min x (b e' / (|a e'| + 1)) * (|a e'| + 1) ≤ b e' := (le_div_iff₀ hd).mp h1
      have h3 := le_abs_self (a e')
      nlinarith
    · have h1 := hS e' h
      have h2 : min x (b e / (|a e| + 1)) ≤ x := min_le_left _ _
      have hbp := hb e' (Finset.mem_insert_of_mem h)
      by_cases hae : 0 ≤ a e'
      · nlinarith
      · push Not at hae
        nlinarith

/-- From amounts that are positive on `A`, reactions that can be carried out in this order can each be started a little, leaving everything
available or made positive. -/
theorem start (ν : ρ → κ → ℚ) (R P : ρ → Finset κ) (hR : ∀ r x, x ∈ R r ↔ ν r x < 0) (hP : ∀ r x, x ∈ P r ↔ 0 < ν r x) :
    ∀ (l : List ρ) (A : Finset κ) (m : κ → ℚ) (w : ρ → ℚ), l.Nodup → Exec R P A l → (∀ x, 0 ≤ m x) → (∀ x ∈ A, 0 < m x) → (∀ r ∈ l, 0 < w r) →
      ∃ s : List (ρ × ℚ), s.map Prod.fst = l ∧ CarriedOut ν m s ∧ (∀ r ∈ l, 0 < times s r ∧ times s r ≤ w r) ∧ (∀ x, 0 ≤ left ν m s x) ∧
        (∀ x ∈ A, 0 < left ν m s x) ∧ ∀ r ∈ l, ∀ x, (x ∈ R r ∨ x ∈ P r) → 0 < left ν m s x
  | [], A, m, w, _, _, h0, hA, _ => ⟨[], rfl, trivial, by simp, h0, hA, by simp⟩
  | r :: l, A, m, w, hn, he, h0, hA, hw => by
    obtain ⟨hsub, he'⟩ := he
    rw [List.nodup_cons] at hn
    obtain ⟨y, hy, hyw, hyA⟩ := small A (fun x => -ν r x) (fun x => m x / 2) (fun x hx => by have := hA x hx; positivity) (w r)
      (hw r List.mem_cons_self)
    have hstep : ∀ x, y * -ν r x ≤ m x := by
      intro x
      by_cases hx : x ∈ A
      · have h1 := hyA x hx
        have h2 := hA x hx
        linarith
      · have h1 : ¬ ν r x < 0 := fun h => hx (hsub ((hR r x).mpr h))
        push Not at h1
        have := h0 x
        nlinarith
    have h0' : ∀ x, 0 ≤ after ν m (r, y) x := by
      intro x
      have := hstep x
      unfold after
      simp only
      linarith
    have hA' : ∀ x ∈ A ∪ P r, 0 < after ν m (r, y) x := by
      intro x hx
      by_cases hxA : x ∈ A
      · have h1 := hyA x hxA
        have h2 := hA x hxA
        unfold after
        simp only
        linarith
      · have hxP : x ∈ P r := (Finset.mem_union.mp hx).resolve_left hxA
        rw [hP] at hxP
        have h1 := h0 x
        have : 0 < y * ν r x := mul_pos hy hxP
        unfold after
        simp only
        linarith
    obtain ⟨s, hs1, hs2, hs3, hs4, hs5, hs6⟩ := start ν R P hR hP l (A ∪ P r) (after ν m (r, y)) w hn.2 he' h0' hA'
      fun q hq => hw q (List.mem_cons_of_mem _ hq)
    have hleft : left ν m ((r, y) :: s) = left ν (after ν m (r, y)) s := rfl
    refine ⟨(r, y) :: s, by rw [List.map_cons, hs1], ⟨hy.le, hstep, hs2⟩, ?_, ?_, ?_, ?_⟩
    · intro q hq
      rcases List.mem_cons.mp hq with rfl | hq
      · rw [times_cons, if_pos rfl, times_not_mem s q (by rw [hs1]; exact hn.1), add_zero]
        exact ⟨hy, hyw⟩
      · rw [times_cons, if_neg (by rintro rfl; exact hn.1 hq), zero_add]
        exact hs3 q hq
    · rw [hleft]; exact hs4
    · rw [hleft]; exact fun x hx => hs5 x (Finset.mem_union_left _ hx)
    · rw [hleft]
      intro q hq x hx
      rcases List.mem_cons.mp hq with rfl | hq
      · rcases hx with hx | hx
        · exact hs5 x (Finset.mem_union_left _ (hsub hx))
        · exact hs5 x (Finset.mem_union_right _ hx)
      · exact hs6 q hq x hx

/-! ### Many small rounds -/

/-- One round: every reaction once, in a small portion. -/
theorem round (ν : ρ → κ → ℚ) : ∀ (l : List ρ) (w : ρ → ℚ) (m : κ → ℚ), (∀ r ∈ l, 0 ≤ w r) →
    (∀ x, (l.map fun r => w r * max 0 (-ν r x)).sum ≤ m x) → CarriedOut ν m (l.map fun r => (r, w r))
  | [], _, _, _, _ => trivial
  | r :: l, w, m, hw, h => by
    have hw0 := hw r List.mem_cons_self
    have hnn : ∀ x, 0 ≤ (l.map fun r => w r * max 0 (-ν r x)).sum := by
      intro x
      apply List.sum_nonneg
      intro y hy
      obtain ⟨q, hq, rfl⟩ := List.mem_map.mp hy
      exact mul_nonneg (hw q (List.mem_cons_of_mem _ hq)) (le_max_left _ _)
    have hmax : ∀ x, w r * -ν r x ≤ w r * max 0 (-ν r x) := fun x => mul_le_mul_of_nonneg_left (le_max_right _ _) hw0
    refine ⟨hw0, fun x => ?_, round ν l w _ (fun q hq => hw q (List.mem_cons_of_mem _ hq)) fun x => ?_⟩
    · have h1 := h x
      rw [List.map_cons, List.sum_cons] at h1
      have := hnn x
      have := hmax x
      simp only
      linarith
    · have h1 := h x
      rw [List.map_cons, List.sum_cons] at h1
      have := hmax x
      unfold after
      simp only
      linarith

/-- The round repeated `j` times. -/
def rounds (l : List ρ) (w : ρ → ℚ) : ℕ → List (ρ × ℚ)
  | 0 => []
  | j + 1 => rounds l w j ++ l.map fun r => (r, w r)

theorem left_rounds (ν : ρ → κ → ℚ) (l : List ρ) (w : ρ → ℚ) (m : κ → ℚ) (x : κ) : ∀ j,
    left ν m (rounds l w j) x = m x + j * (l.map fun r => w r * ν r x).sum
  | 0 => by simp [rounds, left]
  | j + 1 => by
    rw [rounds, left_append, left_eq, left_rounds ν l w m x j, List.map_map]
    push_cast
    simp only [Function.comp_def]
    ring

theorem times_map (l : List ρ) (hl : l.Nodup) (w : ρ → ℚ) (r : ρ) : times (l.map fun r => (r, w r)) r = if r ∈ l then w r else 0 := by
  induction l with
  | nil => simp [times_nil]
  | cons a l ih =>
    rw [List.nodup_cons] at hl
    rw [List.map_cons, times_cons, ih hl.2]
    by_cases h : a = r
    · subst h
      simp [hl.1]
    · have h' : ¬ r = a := fun hc => h hc.symm
      simp [h, h']

theorem times_rounds (l : List ρ) (hl : l.Nodup) (w : ρ → ℚ) (r : ρ) : ∀ j, times (rounds l w j) r = if r ∈ l then j * w r else 0
  | 0 => by simp [rounds, times_nil]
  | j + 1 => by
    rw [rounds, times_append, times_rounds l hl w r j, times_map l hl w r]
    split_ifs
    · push_cast; ring
    · ring

theorem sum_mul (l : List ρ) (f : ρ → ℚ) (h : ℚ) : (l.map fun r => h * f r).sum = h * (l.map f).sum := by
  induction l with
  | nil => simp
  | cons a l ih => rw [List.map_cons, List.map_cons, List.sum_cons, List.sum_cons, ih]; ring

/-- Between two states that have something of every phase used, reactions can be carried out in many small rounds. -/
theorem middle (ν : ρ → κ → ℚ) (R : ρ → Finset κ) (hR : ∀ r x, x ∈ R r ↔ ν r x < 0) (l : List ρ) (hl : l.Nodup) (w : ρ → ℚ) (hw : ∀ r ∈ l, 0 ≤ w r)
    (m : κ → ℚ) (h0 : ∀ x, 0 ≤ m x) (h1 : ∀ x, 0 ≤ m x + (l.map fun r => w r * ν r x).sum)
    (p0 : ∀ r ∈ l, ∀ x ∈ R r, 0 < m x) (p1 : ∀ r ∈ l, ∀ x ∈ R r, 0 < m x + (l.map fun r => w r * ν r x).sum) :
    ∃ s : List (ρ × ℚ), CarriedOut ν m s ∧ (∀ r, times s r = if r ∈ l then w r else 0) ∧ ∀ x, left ν m s x = m x + (l.map fun r => w r * ν r x).sum := by
  set e : κ → ℚ := fun x => m x + (l.map fun r => w r * ν r x).sum with he
  set K : κ → ℚ := fun x => (l.map fun r => w r * max 0 (-ν r x)).sum with hK
  obtain ⟨h, hh, _, hS⟩ := small (l.toFinset.biUnion R) K (fun x => min (m x) (e x)) (by
    intro x hx
    obtain ⟨r, hr, hx⟩ := Finset.mem_biUnion.mp hx
    exact lt_min (p0 r (List.mem_toFinset.mp hr) x hx) (p1 r (List.mem_toFinset.mp hr) x hx)) 1 one_pos
  have hKnn : ∀ x, 0 ≤ K x := by
    intro x
    rw [hK]
    apply List.sum_nonneg
    intro y hy
    obtain ⟨q, hq, rfl⟩ := List.mem_map.mp hy
    exact mul_nonneg (hw q hq) (le_max_left _ _)
  obtain ⟨N, hN⟩ := exists_nat_gt (1 / h)
  have hNpos : (0 : ℚ) < N := lt_trans (by positivity) hN
  have hNh : 1 / (N : ℚ) ≤ h := by
    rw [div_le_iff₀ hNpos]
    rw [div_lt_iff₀ hh] at hN
    linarith
  have hbound : ∀ x, 1 / (N : ℚ) * K x ≤ min (m x) (e x) := by
    intro x
    by_cases hx : x ∈ l.toFinset.biUnion R
    · exact le_trans (mul_le_mul_of_nonneg_right hNh (hKnn x)) (hS x hx)
    · have : K x = 0 := by
        rw [hK]
        apply List.sum_eq_zero
        intro y hy
        obtain ⟨q, hq, rfl⟩ := List.mem_map.mp hy
        have hnx : ¬ ν q x < 0 := fun hc => hx (Finset.mem_biUnion.mpr ⟨q, List.mem_toFinset.mpr hq, (hR q x).mpr hc⟩)
        rw [max_eq_left (by linarith), mul_zero]
      rw [this, mul_zero]
      exact le_min (h0 x) (h1 x)
  set u : ρ → ℚ := fun r => 1 / (N : ℚ) * w r with hu
  have hsum : ∀ x, (l.map fun r => u r * ν r x).sum = 1 / (N : ℚ) * (l.map fun r => w r * ν r x).sum := by
    intro x
    rw [← sum_mul]
    congr 1
    apply List.map_congr_left
    intro r _
    rw [hu]
    ring
  have hcar : ∀ j, j ≤ N → CarriedOut ν m (rounds l u j) := by
    intro j
    induction j with
    | zero => exact fun _ => trivial
    | succ j ih =>
      intro hj
      rw [rounds, carried_append]
      refine ⟨ih (by omega), round ν l u _ (fun r hr => mul_nonneg (by positivity) (hw r hr)) fun x => ?_⟩
      rw [left_rounds, hsum]
      have h2 : (l.map fun r => u r * max 0 (-ν r x)).sum = 1 / (N : ℚ) * K x := by
        rw [hK, ← sum_mul]
        congr 1
        apply List.map_congr_left
        intro r _
        rw [hu]
        ring
      rw [h2]
      refine le_trans (hbound x) ?_
      set t : ℚ := (j : ℚ) / N with ht
      have ht0 : 0 ≤ t := by positivity
      have ht1 : t ≤ 1 := by
        rw [ht, div_le_one hNpos]
        exact_mod_cast (by omega : j ≤ N)
      have hconv : m x + j * (1 / (N : ℚ) * (l.map fun r => w r * ν r x).sum) = (1 - t) * m x + t * e x := by
        rw [he, ht]
        simp only
        field_simp
        ring
      rw [hconv]
      have a1 := min_le_left (m x) (e x)
      have a2 := min_le_right (m x) (e x)
      nlinarith
  refine ⟨rounds l u N, hcar N (le_refl _), fun r => ?_, fun x => ?_⟩
  · rw [times_rounds l hl]
    split_ifs
    · rw [hu]
      simp only
      field_simp
    · rfl
  · rw [left_rounds, hsum]
    field_simp

/-! ### Putting them together -/

theorem left_times (ν : ρ → κ → ℚ) (m : κ → ℚ) (l : List ρ) (hl : l.Nodup) (s : List (ρ × ℚ)) (h : ∀ p ∈ s, p.1 ∈ l) (x : κ) :
    left ν m s x = m x + (l.map fun r => times s r * ν r x).sum := by
  rw [left_eq, sum_times ν x l.toFinset s (fun p hp => List.mem_toFinset.mpr (h p hp)), List.sum_toFinset _ hl]

theorem sum_add (l : List ρ) (f g : ρ → ℚ) : (l.map fun r => f r + g r).sum = (l.map f).sum + (l.map g).sum := by
  induction l with
  | nil => simp
  | cons a l ih => simp only [List.map_cons, List.sum_cons, ih]; ring

/-- Reactions that can be started one after the other can be carried out up to an arbitrarily small rest. -/
theorem almost (ν : ρ → κ → ℚ) (R P : ρ → Finset κ) (hR : ∀ r x, x ∈ R r ↔ ν r x < 0) (hP : ∀ r x, x ∈ P r ↔ 0 < ν r x)
    (l : List ρ) (hl : l.Nodup) (A : Finset κ) (he : Exec R P A l) (m : κ → ℚ) (h0 : ∀ x, 0 ≤ m x) (hA : ∀ x ∈ A, 0 < m x)
    (w : ρ → ℚ) (hw : ∀ r ∈ l, 0 < w r) (hf : ∀ x, 0 ≤ m x + (l.map fun r => w r * ν r x).sum) (ε : ℚ) (hε : 0 < ε) (hε1 : ε ≤ 1) :
    ∃ s : List (ρ × ℚ), CarriedOut ν m s ∧ (∀ r ∈ l, (1 - ε) * w r ≤ times s r ∧ times s r ≤ w r) ∧ ∀ r ∉ l, times s r = 0 := by
  obtain ⟨s, hs1, hs2, hs3, hs4, _, hs6⟩ := start ν R P hR hP l A m w hl he h0 hA hw
  have hmem : ∀ p ∈ s, p.1 ∈ l := fun p hp => by rw [← hs1]; exact List.mem_map.mpr ⟨p, hp, rfl⟩
  set m1 := left ν m s with hm1
  set v : ρ → ℚ := fun r => (1 - ε) * (w r - times s r) with hv
  have hend : ∀ x, m1 x + (l.map fun r => v r * ν r x).sum = ε * m1 x + (1 - ε) * (m x + (l.map fun r => w r * ν r x).sum) := by
    intro x
    have e1 : (l.map fun r => v r * ν r x).sum = (1 - ε) * ((l.map fun r => w r * ν r x).sum - (l.map fun r => times s r * ν r x).sum) := by
      have : (l.map fun r => v r * ν r x).sum = (l.map fun r => (1 - ε) * (w r * ν r x) + -(1 - ε) * (times s r * ν r x)).sum := by
        congr 1
        apply List.map_congr_left
        intro r _
        rw [hv]
        ring
      rw [this, sum_add, sum_mul, sum_mul]
      ring
    have e2 := left_times ν m l hl s hmem x
    rw [e1]
    rw [← hm1] at e2
    rw [e2]
    ring
  obtain ⟨t, ht1, ht2, _⟩ := middle ν R hR l hl v (fun r hr => mul_nonneg (by linarith) (by linarith [(hs3 r hr).2])) m1 hs4
    (fun x => by
      rw [hend]
      have := hf x
      have := hs4 x
      have : 0 ≤ 1 - ε := by linarith
      positivity)
    (fun r hr x hx => hs6 r hr x (.inl hx))
    (fun r hr x hx => by
      rw [hend]
      have h1 := hs6 r hr x (.inl hx)
      have h2 := hf x
      have h3 : 0 ≤ 1 - ε := by linarith
      have h4 : 0 < ε * m1 x := mul_pos hε h1
      have h5 := mul_nonneg h3 h2
      linarith)
  refine ⟨s ++ t, (carried_append ν s t m).mpr ⟨hs2, ht1⟩, fun r hr => ?_, fun r hr => ?_⟩
  · rw [times_append, ht2, if_pos hr, hv]
    obtain ⟨a1, a2⟩ := hs3 r hr
    simp only
    constructor <;> nlinarith
  · rw [times_append, ht2, if_neg hr, times_not_mem s r (by rw [hs1]; exact hr), add_zero]

/-- Portions undone in the opposite order. -/
theorem undo (ν : ρ → κ → ℚ) : ∀ (s : List (ρ × ℚ)) (m : κ → ℚ), (∀ x, 0 ≤ m x) → CarriedOut ν m s →
    CarriedOut (fun r x => -ν r x) (left ν m s) s.reverse ∧ left (fun r x => -ν r x) (left ν m s) s.reverse = m
  | [], m, _, _ => ⟨trivial, rfl⟩
  | p :: s, m, h0, h => by
    obtain ⟨h1, h2, h3⟩ := h
    have h0' : ∀ x, 0 ≤ after ν m p x := by
      intro x
      have := h2 x
      unfold after
      linarith
    obtain ⟨a1, a2⟩ := undo ν s (after ν m p) h0' h3
    have hl : left ν m (p :: s) = left ν (after ν m p) s := rfl
    rw [hl, List.reverse_cons, carried_append, left_append, a2]
    refine ⟨⟨a1, h1, fun x => ?_, trivial⟩, ?_⟩
    · have := h0 x
      unfold after
      simp only
      linarith
    · funext x
      unfold left after
      simp

theorem times_reverse (s : List (ρ × ℚ)) (r : ρ) : times s.reverse r = times s r := by
  unfold times
  rw [List.filter_reverse, List.map_reverse, List.sum_reverse]

/-- Reactions that can be started one after the other, and undone one after the other from the end, can be carried out completely. -/
theorem complete (ν : ρ → κ → ℚ) (R P : ρ → Finset κ) (hR : ∀ r x, x ∈ R r ↔ ν r x < 0) (hP : ∀ r x, x ∈ P r ↔ 0 < ν r x)
    (l l' : List ρ) (hl : l.Nodup) (hl' : l'.Nodup) (hll : ∀ r, r ∈ l ↔ r ∈ l') (A B : Finset κ) (he : Exec R P A l) (he' : Exec P R B l')
    (m : κ → ℚ) (h0 : ∀ x, 0 ≤ m x) (hA : ∀ x ∈ A, 0 < m x)
    (w : ρ → ℚ) (hw : ∀ r ∈ l, 0 < w r) (hf : ∀ x, 0 ≤ m x + (l.map fun r => w r * ν r x).sum)
    (hB : ∀ x ∈ B, 0 < m x + (l.map fun r => w r * ν r x).sum) :
    ∃ s : List (ρ × ℚ), CarriedOut ν m s ∧ ∀ r, times s r = if r ∈ l then w r else 0 := by
  obtain ⟨s, hs1, hs2, hs3, hs4, _, hs6⟩ := start ν R P hR hP l A m (fun r => w r / 3) hl he h0 hA fun r hr => by have := hw r hr; positivity
  set f : κ → ℚ := fun x => m x + (l.map fun r => w r * ν r x).sum with hfd
  obtain ⟨t, ht1, ht2, ht3, ht4, _, ht6⟩ := start (fun r x => -ν r x) P R (fun r x => by rw [hP]; simp) (fun r x => by rw [hR]; simp)
    l' B f (fun r => w r / 3) hl' he' hf hB fun r hr => by have := hw r ((hll r).mpr hr); positivity
  have hsm : ∀ p ∈ s, p.1 ∈ l := fun p hp => by rw [← hs1]; exact List.mem_map.mpr ⟨p, hp, rfl⟩
  have htm : ∀ p ∈ t, p.1 ∈ l := fun p hp => by rw [hll, ← ht1]; exact List.mem_map.mpr ⟨p, hp, rfl⟩
  set m1 := left ν m s with hm1
  set m2 := left (fun r x => -ν r x) f t with hm2
  set v : ρ → ℚ := fun r => w r - times s r - times t r with hv
  have hend : ∀ x, m1 x + (l.map fun r => v r * ν r x).sum = m2 x := by
    intro x
    have e1 : (l.map fun r => v r * ν r x).sum
        = (l.map fun r => w r * ν r x).sum - (l.map fun r => times s r * ν r x).sum - (l.map fun r => times t r * ν r x).sum := by
      have : (l.map fun r => v r * ν r x).sum
          = (l.map fun r => (w r * ν r x + -1 * (times s r * ν r x)) + -1 * (times t r * ν r x)).sum := by
        congr 1
        apply List.map_congr_left
        intro r _
        rw [hv]
        ring
      rw [this, sum_add, sum_add, sum_mul, sum_mul]
      ring
    have e2 := left_times ν m l hl s hsm x
    have e3 := left_times (fun r x => -ν r x) f l hl t htm x
    have e4 : (l.map fun r => times t r * -ν r x).sum = -(l.map fun r => times t r * ν r x).sum := by
      have : (l.map fun r => times t r * -ν r x).sum = (l.map fun r => -1 * (times t r * ν r x)).sum := by
        congr 1
        apply List.map_congr_left
        intro r _
        ring
      rw [this, sum_mul]
      ring
    rw [e4, ← hm2] at e3
    rw [← hm1] at e2
    rw [e1, e2, e3, hfd]
    ring
  obtain ⟨q, hq1, hq2, hq3⟩ := middle ν R hR l hl v (fun r hr => by
      have h1 := (hs3 r hr).2
      have h2 := (ht3 r ((hll r).mp hr)).2
      have h3 := hw r hr
      rw [hv]
      simp only
      linarith) m1 hs4
    (fun x => by rw [hend]; exact ht4 x)
    (fun r hr x hx => hs6 r hr x (.inl hx))
    (fun r hr x hx => by rw [hend]; exact ht6 r ((hll r).mp hr) x (.inr hx))
  have hqm : left ν m1 q = m2 := by
    funext x
    rw [hq3, hend]
  obtain ⟨u1, _⟩ := undo (fun r x => -ν r x) t f hf ht2
  simp only [neg_neg] at u1
  refine ⟨s ++ (q ++ t.reverse), ?_, fun r => ?_⟩
  · rw [carried_append, carried_append, ← hm1, hqm]
    exact ⟨hs2, hq1, u1⟩
  · rw [times_append, times_append, times_reverse, hq2]
    by_cases hr : r ∈ l
    · rw [if_pos hr, if_pos hr, hv]
      ring
    · rw [if_neg hr, if_neg hr, times_not_mem s r (by rw [hs1]; exact hr), times_not_mem t r (by rw [ht1, ← hll]; exact hr)]
      ring

theorem exec_erase (R P : ρ → Finset κ) (r : ρ) : ∀ (l : List ρ) (A : Finset κ), P r ⊆ A → Exec R P A l → Exec R P A (l.filter fun q => decide (q ≠ r))
  | [], _, _, _ => trivial
  | a :: l, A, hA, h => by
    rw [List.filter_cons]
    by_cases ha : a = r
    · rw [if_neg (by simp [ha])]
      apply exec_erase R P r l A hA
      have := h.2
      rwa [Finset.union_eq_left.mpr (by rw [ha]; exact hA)] at this
    · rw [if_pos (by simp [ha])]
      exact ⟨h.1, exec_erase R P r l _ (hA.trans Finset.subset_union_left) h.2⟩

/-- The reactions that were carried out, in the order in which they began. -/
theorem began (ν : ρ → κ → ℚ) (R P : ρ → Finset κ) (hR : ∀ r x, x ∈ R r ↔ ν r x < 0) (hP : ∀ r x, x ∈ P r ↔ 0 < ν r x) :
    ∀ (s : List (ρ × ℚ)) (m : κ → ℚ) (A : Finset κ), (∀ x, 0 < m x → x ∈ A) → CarriedOut ν m s →
      ∃ l : List ρ, l.Nodup ∧ (∀ r, r ∈ l ↔ ∃ p ∈ s, p.1 = r ∧ 0 < p.2) ∧ Exec R P A l
  | [], _, _, _, _ => ⟨[], List.nodup_nil, by simp, trivial⟩
  | p :: s, m, A, hA, h => by
    obtain ⟨h1, h2, h3⟩ := h
    rcases eq_or_lt_of_le h1 with h0 | hpos
    · have hsame : after ν m p = m := by
        funext x
        unfold after
        rw [← h0]
        ring
      rw [hsame] at h3
      obtain ⟨l, a1, a2, a3⟩ := began ν R P hR hP s m A hA h3
      refine ⟨l, a1, fun r => ?_, a3⟩
      rw [a2]
      constructor
      · rintro ⟨q, hq, hqr⟩
        exact ⟨q, List.mem_cons_of_mem _ hq, hqr⟩
      · rintro ⟨q, hq, hqr, hq0⟩
        rcases List.mem_cons.mp hq with rfl | hq
        · linarith
        · exact ⟨q, hq, hqr, hq0⟩
    · obtain ⟨l, a1, a2, a3⟩ := began ν R P hR hP s (after ν m p) (A ∪ P p.1) (by
        intro x hx
        by_contra hc
        rw [Finset.mem_union, not_or, hP] at hc
        have hm : ¬ 0 < m x := fun h => hc.1 (hA x h)
        have := hc.2
        unfold after at hx
        nlinarith) h3
      refine ⟨p.1 :: l.filter fun q => decide (q ≠ p.1), List.nodup_cons.mpr ⟨by simp, a1.filter _⟩, fun r => ?_, ?_, ?_⟩
      · rw [List.mem_cons, List.mem_filter, a2]
        constructor
        · rintro (rfl | ⟨⟨q, hq, hqr⟩, _⟩)
          · exact ⟨p, List.mem_cons_self, rfl, hpos⟩
          · exact ⟨q, List.mem_cons_of_mem _ hq, hqr⟩
        · rintro ⟨q, hq, hqr, hq0⟩
          rcases List.mem_cons.mp hq with rfl | hq
          · exact .inl hqr.symm
          · by_cases hrp : r = p.1
            · exact .inl hrp
            · exact .inr ⟨⟨q, hq, hqr, hq0⟩, by simp [hrp]⟩
      · intro x hx
        apply hA
        have h4 := h2 x
        have h5 := (hR p.1 x).mp hx
        nlinarith
      · exact exec_erase R P p.1 l _ Finset.subset_union_right a3

theorem times_pos_iff (s : List (ρ × ℚ)) (h : ∀ p ∈ s, (0 : ℚ) ≤ p.2) (r : ρ) : 0 < times s r ↔ ∃ p ∈ s, p.1 = r ∧ 0 < p.2 := by
  induction s with
  | nil => simp [times_nil]
  | cons p s ih =>
    have ih' := ih fun q hq => h q (List.mem_cons_of_mem _ hq)
    have hp := h p List.mem_cons_self
    have hs := times_nonneg s (fun q hq => h q (List.mem_cons_of_mem _ hq)) r
    rw [times_cons]
    constructor
    · intro hlt
      by_cases hc : p.1 = r ∧ 0 < p.2
      · exact ⟨p, List.mem_cons_self, hc⟩
      · have : (if p.1 = r then p.2 else 0) ≤ 0 := by
          split_ifs with h1
          · by_contra hn
            exact hc ⟨h1, not_le.mp hn⟩
          · exact le_refl _
        obtain ⟨q, hq, hqr⟩ := ih'.mp (by linarith)
        exact ⟨q, List.mem_cons_of_mem _ hq, hqr⟩
    · rintro ⟨q, hq, hqr, hq0⟩
      rcases List.mem_cons.mp hq with rfl | hq
      · rw [if_pos hqr]
        linarith
      · have := ih'.mpr ⟨q, hq, hqr, hq0⟩
        split_ifs <;> linarith

/-- Whatever is carried out with the phases `A` at hand can be carried out step by step. -/
theorem executable (ν : ρ → κ → ℚ) (R P : ρ → Finset κ) (hR : ∀ r x, x ∈ R r ↔ ν r x < 0) (hP : ∀ r x, x ∈ P r ↔ 0 < ν r x)
    (rs : List ρ) (A : Finset κ) (m : κ → ℚ) (hA : ∀ x, 0 < m x → x ∈ A) (s : List (ρ × ℚ)) (hs : CarriedOut ν m s)
    (ht : ∀ r, 0 < times s r ↔ r ∈ rs) : Executable R P A rs := by
  obtain ⟨l, a1, a2, a3⟩ := began ν R P hR hP s m A hA hs
  refine ⟨l, a1, fun r => ?_, a3⟩
  rw [a2, ← ht, times_pos_iff s (carried_pos ν s m hs)]

end Verif.Lemmas.Carry
