import Verif.Lemmas.Parser
import Mathlib.Data.List.TakeWhile
import Mathlib.Algebra.Order.Field.Power
import Mathlib.Data.Int.Log

/-!
Decimal notation: reading back what the `.4g` format writes.
-/

namespace Verif.Lemmas.Parser

open Verif.Model.Parser Verif.Spec.Parser Verif.Py

theorem digit_ok (d : ℕ) (h : d < 10) : isD (digitC d) = true ∧ digitVal (digitC d) = d ∧ (digitC d = '0' ↔ d = 0) := by
  interval_cases d <;> decide

theorem showNat_spec (n : ℕ) : (∀ c ∈ showNat n, isD c = true) ∧ showNat n ≠ [] ∧ natVal (showNat n) = n := by
  unfold showNat
  split_ifs with h
  · subst h
    decide
  · have hd : ∀ d ∈ Nat.digits 10 n, d < 10 := fun d hd => Nat.digits_lt_base (by norm_num) hd
    refine ⟨?_, ?_, ?_⟩
    · intro c hc
      obtain ⟨d, hd', rfl⟩ := List.mem_map.1 hc
      exact (digit_ok d (hd d (List.mem_reverse.1 hd'))).1
    · simp [Nat.digits_ne_nil_iff_ne_zero.2 h]
    · unfold natVal
      rw [← List.map_reverse, List.reverse_reverse, List.map_map]
      have : (Nat.digits 10 n).map (digitVal ∘ digitC) = (Nat.digits 10 n).map id := by
        apply List.map_congr_left
        intro d hd'
        exact (digit_ok d (hd d hd')).2.1
      rw [this, List.map_id]
      exact Nat.ofDigits_digits 10 n

theorem pad_spec (p n : ℕ) (h : n < 10 ^ p) : (∀ c ∈ pad p n, isD c = true) ∧ fracVal (pad p n) = n / 10 ^ p := by
  induction p generalizing n with
  | zero =>
    have : n = 0 := by simpa using h
    subst this
    simp [pad, fracVal]
  | succ p ih =>
    have hpos : 0 < 10 ^ p := by positivity
    have hd : n / 10 ^ p < 10 := by
      rw [Nat.div_lt_iff_lt_mul hpos]
      rw [pow_succ] at h
      linarith
    obtain ⟨h1, h2⟩ := ih (n % 10 ^ p) (Nat.mod_lt _ hpos)
    obtain ⟨g1, g2, -⟩ := digit_ok _ hd
    constructor
    · intro c hc
      rcases List.mem_cons.1 hc with rfl | hc
      · exact g1
      · exact h1 c hc
    · rw [pad, fracVal, h2, g2]
      have hq : (n : ℚ) = 10 ^ p * ((n / 10 ^ p : ℕ) : ℚ) + ((n % 10 ^ p : ℕ) : ℚ) := by
        exact_mod_cast (Nat.div_add_mod n (10 ^ p)).symm
      rw [hq, pow_succ]
      field_simp

theorem stripZ_spec (s : List Char) : (∀ c ∈ stripZ s, c ∈ s) ∧ fracVal (stripZ s) = fracVal s := by
  induction s with
  | nil => simp [stripZ]
  | cons c s ih =>
    obtain ⟨h1, h2⟩ := ih
    unfold stripZ
    rcases hs : stripZ s with _ | ⟨t, ts⟩
    · rw [hs] at h2
      simp only
      split_ifs with hc
      · subst hc
        refine ⟨by simp, ?_⟩
        rw [fracVal, fracVal, ← h2, fracVal]
        have : digitVal '0' = 0 := by decide
        rw [this]
        simp
      · refine ⟨by simp, ?_⟩
        rw [fracVal, h2, fracVal]
    · rw [hs] at h1 h2
      simp only
      refine ⟨?_, ?_⟩
      · intro x hx
        rcases List.mem_cons.1 hx with rfl | hx
        · simp
        · simp [h1 x hx]
      · rw [fracVal, h2, fracVal]

theorem dd_of_d (c : Char) (h : isD c = true) : isDD c = true := by unfold isDD; rw [h]; rfl

/-- Fixed notation is digits and points, starts with a digit, and reads back as the number. -/
theorem fixed_spec (n p : ℕ) :
    (∃ c w, fixed n p = c :: w) ∧ (∀ c ∈ fixed n p, isDD c = true) ∧ decimal (fixed n p) = some ((n : ℚ) / 10 ^ p) := by
  obtain ⟨i1, i2, i3⟩ := showNat_spec (n / 10 ^ p)
  obtain ⟨f1, f2⟩ := pad_spec p (n % 10 ^ p) (Nat.mod_lt _ (by positivity))
  obtain ⟨s1, s2⟩ := stripZ_spec (pad p (n % 10 ^ p))
  have hq : (n : ℚ) = 10 ^ p * ((n / 10 ^ p : ℕ) : ℚ) + ((n % 10 ^ p : ℕ) : ℚ) := by
    exact_mod_cast (Nat.div_add_mod n (10 ^ p)).symm
  have h10 : (10 : ℚ) ^ p ≠ 0 := by positivity
  have hval : (n : ℚ) / 10 ^ p = ((n / 10 ^ p : ℕ) : ℚ) + fracVal (stripZ (pad p (n % 10 ^ p))) := by
    rw [s2, f2]
    conv_lhs => rw [hq]
    field_simp
  unfold fixed
  rcases hs : stripZ (pad p (n % 10 ^ p)) with _ | ⟨t, ts⟩
  · rw [hs] at hval
    simp only [List.append_nil]
    refine ⟨?_, fun c hc => dd_of_d c (i1 c hc), ?_⟩
    · rcases hsn : showNat (n / 10 ^ p) with _ | ⟨c, w⟩
      · exact absurd hsn i2
      · exact ⟨c, w, rfl⟩
    · unfold decimal
      have e1 : (showNat (n / 10 ^ p)).dropWhile isD = [] := by
        rw [List.dropWhile_eq_nil_iff]
        exact i1
      have e2 : (showNat (n / 10 ^ p)).takeWhile isD = showNat (n / 10 ^ p) := by
        rw [List.takeWhile_eq_self_iff]
        exact i1
      rw [e1, e2]
      simp only
      rw [if_neg i2, i3, hval, fracVal, add_zero]
  · rw [hs] at hval s1
    simp only
    have hts : ∀ c ∈ t :: ts, isD c = true := fun c hc => f1 c (s1 c hc)
    have hdot : isD '.' = false := by decide
    refine ⟨?_, ?_, ?_⟩
    · rcases hsn : showNat (n / 10 ^ p) with _ | ⟨c, w⟩
      · exact absurd hsn i2
      · exact ⟨c, _, rfl⟩
    · intro c hc
      rcases List.mem_append.1 hc with hc | hc
      · exact dd_of_d c (i1 c hc)
      · rcases List.mem_cons.1 hc with rfl | hc
        · decide
        · exact dd_of_d c (hts c hc)
    · unfold decimal
      have e1 : (showNat (n / 10 ^ p) ++ '.' :: t :: ts).dropWhile isD = '.' :: t :: ts := by
        rw [List.dropWhile_append_of_pos i1]
        simp [hdot]
      have e2 : (showNat (n / 10 ^ p) ++ '.' :: t :: ts).takeWhile isD = showNat (n / 10 ^ p) := by
        rw [List.takeWhile_append_of_pos i1]
        simp [hdot]
      rw [e1, e2]
      simp only
      rw [if_pos, i3, hval]
      refine ⟨by trivial, ?_, ?_⟩
      · rw [List.all_eq_true]
        exact hts
      · rintro ⟨h, -⟩
        exact i2 h

theorem notE_of_dd (c : Char) (h : isDD c = true) : notE c = true := by
  unfold isDD isD at h
  rw [Bool.or_eq_true, decide_eq_true_iff, decide_eq_true_iff] at h
  have hn : 46 ≤ c.toNat ∧ c.toNat ≤ 57 := by
    rcases h with h | h
    · omega
    · subst h; decide
  unfold notE
  rw [decide_eq_true_iff]
  constructor
  · apply char_ne
    have : 'e'.toNat = 101 := rfl
    omega
  · apply char_ne
    have : 'E'.toNat = 69 := rfl
    omega

theorem floatOf_fixed (n p : ℕ) : floatOf (fixed n p) = .ok ((n : ℚ) / 10 ^ p) := by
  obtain ⟨-, h2, h3⟩ := fixed_spec n p
  unfold floatOf
  have : (fixed n p).dropWhile notE = [] := by
    rw [List.dropWhile_eq_nil_iff]
    exact fun c hc => notE_of_dd c (h2 c hc)
  rw [this]
  simp only
  rw [h3]

theorem natVal_zero (s : List Char) : natVal ('0' :: s) = natVal s := by
  unfold natVal
  rw [List.reverse_cons, List.map_append, Nat.ofDigits_append]
  have : digitVal '0' = 0 := by decide
  simp [this]

/-- The digits of the exponent. -/
def expDigits (k : ℕ) : List Char := if k < 10 then '0' :: showNat k else showNat k

theorem expDigits_spec (k : ℕ) : (∀ c ∈ expDigits k, isD c = true) ∧ expDigits k ≠ [] ∧ natVal (expDigits k) = k := by
  obtain ⟨h1, h2, h3⟩ := showNat_spec k
  unfold expDigits
  split_ifs
  · refine ⟨?_, by simp, by rw [natVal_zero, h3]⟩
    intro c hc
    rcases List.mem_cons.1 hc with rfl | hc
    · decide
    · exact h1 c hc
  · exact ⟨h1, h2, h3⟩

theorem showExp_neg (e : ℤ) (h : e < 0) : showExp e = 'e' :: '-' :: expDigits e.natAbs := by
  unfold showExp expDigits
  rw [if_pos h]

theorem showExp_pos (e : ℤ) (h : 0 ≤ e) : showExp e = 'e' :: '+' :: expDigits e.natAbs := by
  unfold showExp expDigits
  rw [if_neg (not_lt.2 h)]

theorem floatOf_sci (n p : ℕ) (e : ℤ) (h : e < 0) : floatOf (fixed n p ++ showExp e) = .ok ((n : ℚ) / 10 ^ p * 10 ^ e) := by
  obtain ⟨-, h2, h3⟩ := fixed_spec n p
  obtain ⟨d1, d2, d3⟩ := expDigits_spec e.natAbs
  rw [showExp_neg e h]
  have hall : ∀ c ∈ fixed n p, notE c = true := fun c hc => notE_of_dd c (h2 c hc)
  have he : notE 'e' = false := by decide
  unfold floatOf
  have e1 : (fixed n p ++ 'e' :: '-' :: expDigits e.natAbs).dropWhile notE = 'e' :: '-' :: expDigits e.natAbs := by
    rw [List.dropWhile_append_of_pos hall]
    simp [he]
  have e2 : (fixed n p ++ 'e' :: '-' :: expDigits e.natAbs).takeWhile notE = fixed n p := by
    rw [List.takeWhile_append_of_pos hall]
    simp [he]
  rw [e1, e2]
  simp only
  have hx : exponent ('-' :: expDigits e.natAbs) = some e := by
    simp only [exponent]
    rw [if_pos trivial, if_pos, d3]
    · congr 1
      omega
    · refine ⟨d2, ?_⟩
      rw [List.all_eq_true]
      exact d1
  rw [h3, hx]

theorem round_int (n : ℤ) : roundHalfEven (n : ℚ) = n := by
  unfold roundHalfEven
  rw [Int.floor_intCast, if_pos (by norm_num)]

/-- Four significant digits are kept exactly. -/
theorem sig4_exact (v : ℚ) (h : FourDigits v) :
    v = (sig4 v).1 * 10 ^ ((sig4 v).2 - 3) ∧ 1000 ≤ (sig4 v).1 ∧ (sig4 v).1 ≤ 9999 := by
  obtain ⟨m, k, hm1, hm2, hv⟩ := h
  have hvpos : 0 < v := by
    rw [hv]
    have : (0 : ℚ) < m := by exact_mod_cast hm1
    positivity
  have hlo := Int.zpow_log_le_self (b := 10) (by norm_num) hvpos
  have hhi := Int.lt_zpow_succ_log_self (b := 10) (by norm_num) v
  set e := Int.log 10 v with he
  push_cast at hlo hhi
  have hek : e ≤ k + 3 := by
    by_contra hc
    push Not at hc
    have h1 : (10 : ℚ) ^ (k + 4) ≤ 10 ^ e := zpow_le_zpow_right₀ (by norm_num) (by omega)
    have h2 : v ≤ 9999 * 10 ^ k := by
      rw [hv]
      have : (m : ℚ) ≤ 9999 := by exact_mod_cast hm2
      have hk : (0 : ℚ) < 10 ^ k := by positivity
      nlinarith
    have h3 : (10 : ℚ) ^ (k + 4) = 10 ^ k * 10000 := by
      rw [zpow_add₀ (by norm_num)]
      norm_num
    have hk : (0 : ℚ) < 10 ^ k := by positivity
    rw [h3] at h1
    nlinarith
  obtain ⟨j, hj⟩ : ∃ j : ℕ, k - (e - 3) = j := ⟨(k - (e - 3)).toNat, by omega⟩
  have hdiv : v / 10 ^ (e - 3) = ((m * 10 ^ j : ℕ) : ℚ) := by
    rw [hv, mul_div_assoc, ← zpow_sub₀ (by norm_num), hj]
    push_cast
    rw [zpow_natCast]
  have h10 : (0 : ℚ) < 10 ^ (e - 3) := by positivity
  have hN : v = ((m * 10 ^ j : ℕ) : ℚ) * 10 ^ (e - 3) := by
    rw [← hdiv]
    field_simp
  have hlow : 1000 ≤ m * 10 ^ j := by
    have h1 : (1000 : ℚ) * 10 ^ (e - 3) ≤ v := by
      have : (10 : ℚ) ^ e = 1000 * 10 ^ (e - 3) := by
        rw [show e = 3 + (e - 3) by ring, zpow_add₀ (by norm_num)]
        norm_num
      linarith
    rw [hN] at h1
    have := le_of_mul_le_mul_right h1 h10
    exact_mod_cast this
  have hup : m * 10 ^ j < 10000 := by
    have h1 : v < 10000 * 10 ^ (e - 3) := by
      have : (10 : ℚ) ^ (e + 1) = 10000 * 10 ^ (e - 3) := by
        rw [show e + 1 = 4 + (e - 3) by ring, zpow_add₀ (by norm_num)]
        norm_num
      linarith
    rw [hN] at h1
    have := lt_of_mul_lt_mul_right h1 h10.le
    exact_mod_cast this
  have hr : (roundHalfEven (v / 10 ^ (e - 3))).toNat = m * 10 ^ j := by
    rw [hdiv]
    have : (((m * 10 ^ j : ℕ) : ℚ)) = (((m * 10 ^ j : ℕ) : ℤ) : ℚ) := by push_cast; ring
    rw [this, round_int]
    exact Int.toNat_natCast _
  have hs : sig4 v = (m * 10 ^ j, e) := by
    unfold sig4
    simp only
    rw [← he, hr, if_neg (by omega)]
  rw [hs]
  exact ⟨hN, hlow, by omega⟩

/-- Reading back a printed coefficient below 10000 with at most four significant digits. -/
theorem fmt4g_spec (v : ℚ) (h : FourDigits v) (hlt : v < 10000) : Num (fmt4g v) ∧ floatOf (fmt4g v) = .ok v := by
  obtain ⟨hv, h1, h2⟩ := sig4_exact v h
  generalize hM : (sig4 v).1 = m at *
  generalize hE : (sig4 v).2 = e at *
  have he : e < 4 := by
    by_contra hc
    push Not at hc
    have h3 : (10 : ℚ) ≤ 10 ^ (e - 3) := by
      calc (10 : ℚ) = 10 ^ (1 : ℤ) := by norm_num
        _ ≤ 10 ^ (e - 3) := zpow_le_zpow_right₀ (by norm_num) (by omega)
    have h4 : (1000 : ℚ) ≤ m := by exact_mod_cast h1
    nlinarith
  unfold fmt4g
  rw [hE, hM]
  split_ifs with hc
  · obtain ⟨⟨c, w, hw⟩, hdd, -⟩ := fixed_spec m (3 - e).toNat
    constructor
    · rw [hw] at hdd ⊢
      exact Num.plain w c hdd
    · rw [floatOf_fixed, hv]
      congr 1
      have h3 : e - 3 = -(((3 - e).toNat : ℕ) : ℤ) := by omega
      rw [h3, zpow_neg, zpow_natCast, div_eq_mul_inv]
  · have hneg : e < 0 := by
      by_contra h0
      exact hc ⟨by omega, he⟩
    obtain ⟨⟨c, w, hw⟩, hdd, -⟩ := fixed_spec m 3
    obtain ⟨d1, d2, -⟩ := expDigits_spec e.natAbs
    constructor
    · rw [showExp_neg e hneg]
      rw [hw] at hdd ⊢
      exact Num.sci w c hdd _ d2 d1
    · rw [floatOf_sci _ _ _ hneg, hv]
      congr 1
      rw [zpow_sub₀ (by norm_num)]
      norm_num
      ring

end Verif.Lemmas.Parser
