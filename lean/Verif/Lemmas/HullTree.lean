import Verif.Lemmas.HullCount

namespace Verif.Lemmas.Hull
open Verif.Py Verif.Model.Hull Verif.Spec.Hull Finset

variable (alt : ℕ → ℕ → ℕ → ℚ)

theorem sum_trees_succ {M : Type*} [AddCommMonoid M] (n : ℕ) (F : BinaryTree Unit → M) :
    ∑ t ∈ BinaryTree.treesOfNumNodesEq (n + 1), F t
      = ∑ ij ∈ antidiagonal n, ∑ l ∈ BinaryTree.treesOfNumNodesEq ij.1,
          ∑ r ∈ BinaryTree.treesOfNumNodesEq ij.2, F (.node () l r) := by
  rw [BinaryTree.treesOfNumNodesEq_succ, sum_biUnion]
  · apply sum_congr rfl
    rintro ⟨i, j⟩ _
    rw [sum_map, sum_product]
    rfl
  · simp_rw [Set.PairwiseDisjoint, Set.Pairwise, disjoint_left]
    aesop

theorem total_zero (p : ℕ) : totalTreeEnergy alt p 0 = 0 := by
  simp [totalTreeEnergy, treeEnergy]

theorem total_succ (p n : ℕ) :
    totalTreeEnergy alt p (n + 1) = ∑ ij ∈ antidiagonal n,
      ((catalan ij.1 * catalan ij.2 : ℚ) * alt p (p + ij.1 + 1) (p + n + 2)
        + catalan ij.2 * totalTreeEnergy alt p ij.1
        + catalan ij.1 * totalTreeEnergy alt (p + ij.1 + 1) ij.2) := by
  unfold totalTreeEnergy
  rw [sum_trees_succ]
  apply sum_congr rfl
  rintro ⟨i, j⟩ hij
  rw [mem_antidiagonal] at hij
  simp only at hij
  have h1 : ∀ l ∈ BinaryTree.treesOfNumNodesEq i, ∀ r ∈ BinaryTree.treesOfNumNodesEq j,
      treeEnergy alt p (.node () l r) =
        alt p (p + i + 1) (p + n + 2) + treeEnergy alt p l + treeEnergy alt (p + i + 1) r := by
    intro l hl r hr
    rw [BinaryTree.mem_treesOfNumNodesEq] at hl hr
    simp only [treeEnergy, hl, hr]
    rw [show p + i + j + 2 = p + n + 2 by omega]
  rw [sum_congr rfl (fun l hl => sum_congr rfl (fun r hr => h1 l hl r hr))]
  simp only [sum_add_distrib, sum_const, BinaryTree.treesOfNumNodesEq_card_eq_catalan, nsmul_eq_mul,
    mul_sum]
  ring

/-- multiplicity of the interval (q, s) in all trees over (p, p+n+1) -/
def mult (p n q s : ℕ) : ℚ :=
  if p ≤ q ∧ q + 2 ≤ s ∧ s ≤ p + n + 1 then (catalan (n + q + 1 - s) : ℚ) else 0

/-- contribution of the interval (q, s) as a subinterval. -/
def contrib (q s : ℕ) : ℚ :=
  ∑ a ∈ range (s - q - 1), (catalan a * catalan (s - q - 2 - a) : ℚ) * alt q (q + a + 1) s

theorem antidiag_root (p n : ℕ) :
    ∑ ij ∈ antidiagonal n, (catalan ij.1 * catalan ij.2 : ℚ) * alt p (p + ij.1 + 1) (p + n + 2)
      = contrib alt p (p + n + 2) := by
  rw [Finset.Nat.sum_antidiagonal_eq_sum_range_succ_mk]
  unfold contrib
  rw [show p + n + 2 - p - 1 = n + 1 by omega]
  apply sum_congr rfl
  intro a ha
  rw [show p + n + 2 - p - 2 - a = n - a by omega]

theorem mult_rec (p n q s : ℕ) :
    mult p (n + 1) q s = (if q = p ∧ s = p + n + 2 then 1 else 0) +
      ∑ ij ∈ antidiagonal n, (catalan ij.2 * mult p ij.1 q s + catalan ij.1 * mult (p + ij.1 + 1) ij.2 q s) := by
  by_cases hin : p ≤ q ∧ q + 2 ≤ s ∧ s ≤ p + (n + 1) + 1
  swap
  · have h0 : mult p (n + 1) q s = 0 := by simp only [mult, hin, if_false]
    have h1 : ¬ (q = p ∧ s = p + n + 2) := by omega
    rw [h0, if_neg h1, zero_add, eq_comm]
    apply sum_eq_zero
    rintro ⟨i, j⟩ hij
    rw [mem_antidiagonal] at hij
    simp only at hij
    simp only [mult]
    rw [if_neg (by omega), if_neg (by omega)]
    simp
  · obtain ⟨hpq, hqs, hs⟩ := hin
    obtain ⟨a, rfl⟩ := Nat.exists_eq_add_of_le hpq     -- left slack a
    obtain ⟨u, hu⟩ := Nat.exists_eq_add_of_le hs        -- right slack u
    -- m = a + u slack total
    have hm : n + 1 + (p + a) + 1 - s = a + u := by omega
    have hL : mult p (n + 1) (p + a) s = catalan (a + u) := by
      simp only [mult]; rw [if_pos (by omega), hm]
    rw [hL]
    rw [Finset.Nat.sum_antidiagonal_eq_sum_range_succ_mk]
    rw [sum_add_distrib]
    -- second sum
    have hsec : ∑ i ∈ range (n + 1), (catalan i : ℚ) * mult (p + i + 1) (n - i) (p + a) s
        = ∑ i ∈ range a, (catalan i : ℚ) * catalan (a + u - 1 - i) := by
      rw [← sum_subset (s₁ := range a)]
      · apply sum_congr rfl
        intro i hi
        rw [mem_range] at hi
        simp only [mult]
        rw [if_pos (by omega), show n - i + (p + a) + 1 - s = a + u - 1 - i by omega]
      · intro i hi; rw [mem_range] at *; omega
      · intro i _ hi
        rw [mem_range] at hi
        simp only [mult]
        rw [if_neg (by omega)]; simp
    have hfst : ∑ i ∈ range (n + 1), (catalan (n - i) : ℚ) * mult p i (p + a) s
        = ∑ i ∈ range u, (catalan i : ℚ) * catalan (a + u - 1 - i) := by
      rw [← sum_range_reflect]
      rw [← sum_subset (s₁ := range u)]
      · apply sum_congr rfl
        intro i hi
        rw [mem_range] at hi
        simp only [mult]
        rw [if_pos (by omega), show n - (n + 1 - 1 - i) = i by omega,
          show n + 1 - 1 - i + (p + a) + 1 - s = a + u - 1 - i by omega]
      · intro i hi; rw [mem_range] at *; omega
      · intro i hi' hi
        rw [mem_range] at hi hi'
        simp only [mult]
        rw [if_neg (by omega)]; simp
    rw [hsec, hfst]
    rcases Nat.eq_zero_or_pos (a + u) with h0 | h0
    · have ha : a = 0 := by omega
      have hu0 : u = 0 := by omega
      subst ha; subst hu0
      rw [if_pos (by omega)]; simp
    · rw [if_neg (by omega), zero_add]
      obtain ⟨m, hm'⟩ : ∃ m, a + u = m + 1 := ⟨a + u - 1, by omega⟩
      have hr : ∑ i ∈ range a, (catalan i : ℚ) * catalan (a + u - 1 - i)
          = ∑ i ∈ Ico u (a + u), (catalan i : ℚ) * catalan (a + u - 1 - i) := by
        rw [Finset.sum_Ico_eq_sum_range, show a + u - u = a by omega, ← sum_range_reflect]
        apply sum_congr rfl
        intro i hi
        rw [mem_range] at hi
        rw [show a + u - 1 - (a - 1 - i) = u + i by omega, show a + u - 1 - (u + i) = a - 1 - i by omega]
        ring
      rw [hr, range_eq_Ico, Finset.sum_Ico_consecutive _ (by omega) (by omega), hm', catalan_rec m,
        range_eq_Ico]
      push_cast
      rfl

theorem mult_zero (p q s : ℕ) : mult p 0 q s = 0 := by
  simp only [mult]; rw [if_neg (by omega)]

theorem total_eq_mult (L p n : ℕ) (hL : p + n + 2 ≤ L) :
    totalTreeEnergy alt p n = ∑ q ∈ range L, ∑ s ∈ range L, mult p n q s * contrib alt q s := by
  induction n using Nat.strong_induction_on generalizing p with
  | _ n ih =>
    rcases n with _ | n
    · simp [total_zero, mult_zero]
    · rw [total_succ]
      simp only [sum_add_distrib]
      rw [antidiag_root]
      have e1 : ∑ ij ∈ antidiagonal n, (catalan ij.2 : ℚ) * totalTreeEnergy alt p ij.1
          = ∑ q ∈ range L, ∑ s ∈ range L, ∑ ij ∈ antidiagonal n, (catalan ij.2 * mult p ij.1 q s) * contrib alt q s := by
        rw [sum_congr rfl (fun q _ => sum_comm), sum_comm]
        apply sum_congr rfl
        rintro ⟨i, j⟩ hij
        rw [mem_antidiagonal] at hij
        simp only at hij
        rw [ih i (by omega) p (by omega), mul_sum]
        apply sum_congr rfl; intro q _
        rw [mul_sum]
        apply sum_congr rfl; intro s _
        ring
      have e2 : ∑ ij ∈ antidiagonal n, (catalan ij.1 : ℚ) * totalTreeEnergy alt (p + ij.1 + 1) ij.2
          = ∑ q ∈ range L, ∑ s ∈ range L, ∑ ij ∈ antidiagonal n,
              (catalan ij.1 * mult (p + ij.1 + 1) ij.2 q s) * contrib alt q s := by
        rw [sum_congr rfl (fun q _ => sum_comm), sum_comm]
        apply sum_congr rfl
        rintro ⟨i, j⟩ hij
        rw [mem_antidiagonal] at hij
        simp only at hij
        rw [ih j (by omega) (p + i + 1) (by omega), mul_sum]
        apply sum_congr rfl; intro q _
        rw [mul_sum]
        apply sum_congr rfl; intro s _
        ring
      rw [e1, e2]
      have e3 : contrib alt p (p + n + 2)
          = ∑ q ∈ range L, ∑ s ∈ range L, (if q = p ∧ s = p + n + 2 then 1 else 0) * contrib alt q s := by
        rw [sum_eq_single_of_mem p (mem_range.mpr (by omega)),
          sum_eq_single_of_mem (p + n + 2) (mem_range.mpr (by omega))]
        · simp
        · intro s _ hs; simp [hs]
        · intro q _ hq; simp [hq]
      rw [e3, ← sum_add_distrib, ← sum_add_distrib]
      apply sum_congr rfl; intro q _
      rw [← sum_add_distrib, ← sum_add_distrib]
      apply sum_congr rfl; intro s _
      rw [mult_rec, sum_add_distrib, add_mul, add_mul, sum_mul, sum_mul, add_assoc]

/-- Sum over triples form. -/
theorem total_eq_triples (n : ℕ) :
    totalTreeEnergy alt 0 n = ∑ i ∈ Ico 0 (n + 2), ∑ j ∈ Ico (i + 1) (n + 2), ∑ k ∈ Ico (j + 1) (n + 2),
      (catalan (j - i - 1) * catalan (k - j - 1) * catalan (n + i + 1 - k) : ℚ) * alt i j k := by
  rw [total_eq_mult alt (n + 2) 0 n (by omega), range_eq_Ico]
  apply sum_congr rfl
  intro i hi
  rw [mem_Ico] at hi
  have step : ∀ s ∈ Ico 0 (n + 2), mult 0 n i s * contrib alt i s
      = ∑ j ∈ Ico (i + 1) (n + 2), if j < s then
        (catalan (j - i - 1) * catalan (s - j - 1) * catalan (n + i + 1 - s) : ℚ) * alt i j s else 0 := by
    intro s hs
    rw [mem_Ico] at hs
    by_cases h : i + 2 ≤ s
    · simp only [mult]
      rw [if_pos (by omega), contrib, mul_sum, ← sum_filter]
      have hf : (Ico (i + 1) (n + 2)).filter (fun j => j < s) = Ico (i + 1) s := by
        ext j; simp only [mem_filter, mem_Ico]; omega
      rw [hf, Finset.sum_Ico_eq_sum_range, show s - (i + 1) = s - i - 1 by omega]
      apply sum_congr rfl
      intro a ha
      rw [mem_range] at ha
      rw [show i + 1 + a - i - 1 = a by omega, show s - (i + 1 + a) - 1 = s - i - 2 - a by omega,
        show i + 1 + a = i + a + 1 by omega]
      ring
    · simp only [mult]
      rw [if_neg (by omega), zero_mul, eq_comm]
      apply sum_eq_zero
      intro j hj
      rw [mem_Ico] at hj
      rw [if_neg (by omega)]
  rw [sum_congr rfl step, sum_comm]
  apply sum_congr rfl
  intro j hj
  rw [mem_Ico] at hj
  rw [← sum_filter]
  have hf : (Ico 0 (n + 2)).filter (fun s => j < s) = Ico (j + 1) (n + 2) := by
    ext s; simp only [mem_filter, mem_Ico]; omega
  rw [hf]

end Verif.Lemmas.Hull
