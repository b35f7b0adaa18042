import Verif.Lemmas.Decimal
import Verif.Lemmas.Dict
import Verif.Lemmas.Except
import Mathlib.Data.List.Perm.Basic

/-!
# Property theorems: printing and parsing reactions (C64)
-/

namespace Verif.Props.Parser

open Verif.Model.Parser Verif.Spec.Parser Verif.Lemmas.Parser Verif.Py Verif.Lemmas

/-- The printed coefficient: nothing for one. -/
def num (v : ℚ) : List Char := if v = 1 then [] else fmt4g v

theorem near_one (v : ℚ) (h : FourDigits v) (hn : |v - 1| < tol) : v = 1 := by
  obtain ⟨m, k, h1, h2, hv⟩ := h
  have hm1 : (1 : ℚ) ≤ m := by exact_mod_cast h1
  have hm2 : (m : ℚ) ≤ 9999 := by exact_mod_cast h2
  unfold tol at hn
  obtain ⟨ha, hb⟩ := abs_lt.1 hn
  by_cases hk : k ≤ -5
  · have : (10 : ℚ) ^ k ≤ 1 / 100000 := by
      calc (10 : ℚ) ^ k ≤ 10 ^ (-5 : ℤ) := zpow_le_zpow_right₀ (by norm_num) hk
        _ = 1 / 100000 := by norm_num
    have hpos : (0 : ℚ) < 10 ^ k := by positivity
    nlinarith
  · by_cases hk1 : 1 ≤ k
    · have : (10 : ℚ) ≤ 10 ^ k := by
        calc (10 : ℚ) = 10 ^ (1 : ℤ) := by norm_num
          _ ≤ 10 ^ k := zpow_le_zpow_right₀ (by norm_num) hk1
      nlinarith
    · push Not at hk hk1
      obtain ⟨N, hN⟩ : ∃ N : ℤ, v = N / 10000 := by
        refine ⟨m * 10 ^ (k + 4).toNat, ?_⟩
        have hk4 : k = ((k + 4).toNat : ℤ) - 4 := by omega
        rw [hv]
        conv_lhs => rw [hk4]
        rw [zpow_sub₀ (by norm_num), zpow_natCast]
        push_cast
        ring
      rw [hN] at ha hb ⊢
      have h3 : (9999 : ℚ) < N := by linarith
      have h4 : (N : ℚ) < 10001 := by linarith
      have h5 : (9999 : ℤ) < N := by exact_mod_cast h3
      have h6 : N < (10001 : ℤ) := by exact_mod_cast h4
      have : N = 10000 := by omega
      rw [this]
      norm_num

theorem num_spec (v : ℚ) (h : FourDigits v) (hlt : v < 10000) : (num v = [] ∨ Num (num v)) ∧ amountOf (num v) = .ok v := by
  unfold num
  split_ifs with h1
  · subst h1
    exact ⟨.inl rfl, by unfold amountOf; rw [if_pos rfl]⟩
  · obtain ⟨g1, g2⟩ := fmt4g_spec v h hlt
    refine ⟨.inr g1, ?_⟩
    unfold amountOf
    rw [if_neg, g2]
    intro h0
    rw [h0] at g1
    cases g1

/-- The coefficients the theorem covers: at most four significant digits, not negligible, below 10000. -/
def Amount (a : ℚ) : Prop := FourDigits |a| ∧ tol < |a| ∧ |a| < 10000

theorem num_term (v : ℚ) (h : FourDigits v) (hlt : v < 10000) (h1 : v ≠ 1) (f : List Char) : term (num v) f = fmt4g v ++ ' ' :: f := by
  have hne : num v = fmt4g v := by unfold num; rw [if_neg h1]
  unfold term
  rw [hne, if_neg]
  intro h0
  have := (fmt4g_spec v h hlt).1
  rw [h0] at this
  cases this

theorem reactantPiece_eq (t : ℚ × List Char) (h : Amount t.1) :
    reactantPiece t = if t.1 < 0 then some (term (num |t.1|) t.2) else none := by
  obtain ⟨h4, h5, h6⟩ := h
  have htol : (0 : ℚ) < tol := by unfold tol; norm_num
  have htol1 : tol < 1 := by unfold tol; norm_num
  unfold reactantPiece
  by_cases hneg : t.1 < 0
  · rw [if_pos hneg]
    have habs : |t.1| = -t.1 := abs_of_neg hneg
    rw [habs] at h4 h5 h6 ⊢
    split_ifs with ha hb hc
    · have : -t.1 = 1 := near_one _ h4 (by rw [show -t.1 - 1 = -(t.1 + 1) by ring, abs_neg]; exact ha)
      rw [this]
      simp [num, term]
    · exfalso
      obtain ⟨hb1, -⟩ := abs_lt.1 hb
      linarith
    · rw [num_term _ h4 h6]
      intro h1
      apply ha
      rw [show t.1 + 1 = 0 by linarith, abs_zero]
      exact htol
    · exfalso
      apply hc
      linarith
  · rw [if_neg hneg]
    push Not at hneg
    split_ifs with ha hb hc
    · exfalso
      obtain ⟨-, ha2⟩ := abs_lt.1 ha
      linarith
    · rfl
    · exfalso
      linarith
    · rfl

theorem productPiece_eq (t : ℚ × List Char) (h : Amount t.1) :
    productPiece t = if 0 < t.1 then some (term (num |t.1|) t.2) else none := by
  obtain ⟨h4, h5, h6⟩ := h
  have htol : (0 : ℚ) < tol := by unfold tol; norm_num
  have htol1 : tol < 1 := by unfold tol; norm_num
  unfold productPiece
  by_cases hpos : 0 < t.1
  · rw [if_pos hpos]
    have habs : |t.1| = t.1 := abs_of_pos hpos
    rw [habs] at h4 h5 h6 ⊢
    split_ifs with ha hb hc
    · exfalso
      obtain ⟨-, ha2⟩ := abs_lt.1 ha
      linarith
    · have : t.1 = 1 := near_one _ h4 hb
      rw [this]
      simp [num, term]
    · exfalso
      linarith
    · rw [num_term _ h4 h6]
      intro h1
      apply hb
      rw [h1, sub_self, abs_zero]
      exact htol
  · rw [if_neg hpos]
    push Not at hpos
    split_ifs with ha hb hc hd
    · rfl
    · exfalso
      obtain ⟨hb1, -⟩ := abs_lt.1 hb
      linarith
    · rfl
    · exfalso
      linarith
    · rfl

theorem filterMap_ite {α β : Type} (l : List α) (f : α → Option β) (p : α → Prop) [DecidablePred p] (g : α → β)
    (h : ∀ a ∈ l, f a = if p a then some (g a) else none) : l.filterMap f = (l.filter fun a => p a).map g := by
  induction l with
  | nil => rfl
  | cons a l ih =>
    have ih := ih fun b hb => h b (by simp [hb])
    rw [List.filterMap_cons, h a (by simp), ih]
    by_cases hp : p a
    · simp [hp]
    · simp [hp]

/-! The arrow sign does not occur in the terms. -/

theorem formula_no_gt (f : List Char) (h : Formula f) : '>' ∉ f := by
  obtain ⟨c, s, rfl, hc, hs, -⟩ := h
  intro hm
  rcases List.mem_cons.1 hm with rfl | hm
  · exact absurd hc (by decide)
  · rcases hs _ hm with h | h
    · exact absurd h (by decide)
    · exact absurd h (by decide)

theorem num_no_gt (n : List Char) (h : n = [] ∨ Num n) : '>' ∉ n := by
  rcases h with rfl | h
  · simp
  · cases h with
    | plain w c h => exact fun hm => absurd (h _ hm) (by decide)
    | sci w c h ds hne hd =>
      intro hm
      rcases List.mem_append.1 hm with hm | hm
      · exact absurd (h _ hm) (by decide)
      · rcases List.mem_cons.1 hm with h0 | hm
        · exact absurd h0 (by decide)
        · rcases List.mem_cons.1 hm with h0 | hm
          · exact absurd h0 (by decide)
          · exact absurd (hd _ hm) (by decide)

theorem term_no_gt (n f : List Char) (hn : n = [] ∨ Num n) (hf : Formula f) : '>' ∉ term n f := by
  unfold term
  split_ifs
  · exact formula_no_gt f hf
  · intro hm
    rcases List.mem_append.1 hm with hm | hm
    · exact num_no_gt n hn hm
    · rcases List.mem_cons.1 hm with h0 | hm
      · exact absurd h0 (by decide)
      · exact formula_no_gt f hf hm

theorem join_no_gt (l : List (List Char)) (h : ∀ s ∈ l, '>' ∉ s) : '>' ∉ joinPlus l := by
  induction l with
  | nil => simp [joinPlus]
  | cons s l ih =>
    have ih := ih fun x hx => h x (by simp [hx])
    rcases l with _ | ⟨t, l⟩
    · exact h s (by simp)
    · intro hm
      rw [joinPlus] at hm
      rcases List.mem_append.1 hm with hm | hm
      · exact h s (by simp) hm
      · have h1 : '>' ≠ ' ' := by decide
        have h2 : '>' ≠ '+' := by decide
        simp only [List.mem_cons, h1, h2, false_or] at hm
        exact ih hm

/-! ### One side -/

section
variable {κ : Type} [DecidableEq κ]

theorem getCompAmt_side (comp : List Char → Except Err κ) (key : List Char → κ) (l : List (ℚ × List Char))
    (h : ∀ t ∈ l, Formula t.2 ∧ comp t.2 = .ok (key t.2) ∧ Amount t.1)
    (hnd : (l.map fun t => key t.2).Nodup) (s : List Char)
    (hs : find s = l.map fun t => (num |t.1|, t.2)) :
    getCompAmt comp s = .ok (l.map fun t => (key t.2, |t.1|)) := by
  unfold getCompAmt
  have hf : findAll (s.length + 1) s = l.map fun t => (num |t.1|, t.2) := hs
  rw [hf, Exc.mapM_map]
  have : l.mapM (fun t => item comp (num |t.1|, t.2)) = .ok (l.map fun t => (key t.2, |t.1|)) := by
    apply Exc.mapM_eq_map
    intro t ht
    obtain ⟨h1, h2, h3⟩ := h t ht
    unfold item
    simp only
    rw [h2, (num_spec _ h3.1 h3.2.2).2]
  rw [this]
  simp only
  rw [Dict.dictOf_eq_self]
  rw [List.map_map]
  exact hnd

/-- **C64 (partial).** Printing and parsing: for a reaction with at least one reactant and one product, whose coefficients have
at most four significant digits and lie (in absolute value) above the tolerance and below 10000, parsing the printed string gives
the reactants in order followed by the products in order, every coefficient exact. Missing: coefficients of 10000 and more, for
which the claim is false (`C64_large_violated`). -/
theorem C64_round_trip_partial (comp : List Char → Except Err κ) (key : List Char → κ) (ts : List (ℚ × List Char))
    (h : ∀ t ∈ ts, Formula t.2 ∧ comp t.2 = .ok (key t.2) ∧ FourDigits |t.1| ∧ tol < |t.1| ∧ |t.1| < 10000)
    (hr : ((ts.filter fun t => t.1 < 0).map fun t => key t.2).Nodup)
    (hp : ((ts.filter fun t => 0 < t.1).map fun t => key t.2).Nodup)
    (er : ∃ t ∈ ts, t.1 < 0) (ep : ∃ t ∈ ts, 0 < t.1) :
    fromString comp (strFromFormulas ts) =
      .ok (((ts.filter fun t => t.1 < 0) ++ (ts.filter fun t => 0 < t.1)).map fun t => (key t.2, t.1)) := by
  have hA : ∀ t ∈ ts, Amount t.1 := fun t ht => (h t ht).2.2
  set R := ts.filter fun t => t.1 < 0 with hR
  set P := ts.filter fun t => 0 < t.1 with hP
  have hRm : ∀ t ∈ R, t ∈ ts ∧ t.1 < 0 := fun t ht => by simpa [hR] using ht
  have hPm : ∀ t ∈ P, t ∈ ts ∧ 0 < t.1 := fun t ht => by simpa [hP] using ht
  have e1 : ts.filterMap reactantPiece = (R.map fun t => (num |t.1|, t.2)).map fun t => term t.1 t.2 := by
    rw [filterMap_ite ts reactantPiece (fun t => t.1 < 0) (fun t => term (num |t.1|) t.2) fun t ht => reactantPiece_eq t (hA t ht),
      List.map_map]
    rfl
  have e2 : ts.filterMap productPiece = (P.map fun t => (num |t.1|, t.2)).map fun t => term t.1 t.2 := by
    rw [filterMap_ite ts productPiece (fun t => 0 < t.1) (fun t => term (num |t.1|) t.2) fun t ht => productPiece_eq t (hA t ht),
      List.map_map]
    rfl
  have hok : ∀ l : List (ℚ × List Char), (∀ t ∈ l, t ∈ ts) →
      ∀ u ∈ (l.map fun t => (num |t.1|, t.2)), (u.1 = [] ∨ Num u.1) ∧ Formula u.2 := by
    intro l hl u hu
    obtain ⟨t, ht, rfl⟩ := List.mem_map.1 hu
    obtain ⟨h1, -, h3, -, h5⟩ := h t (hl t ht)
    exact ⟨(num_spec _ h3 h5).1, h1⟩
  have okR := hok R fun t ht => (hRm t ht).1
  have okP := hok P fun t ht => (hPm t ht).1
  have ngt : ∀ l : List (List Char × List Char), (∀ u ∈ l, (u.1 = [] ∨ Num u.1) ∧ Formula u.2) →
      '>' ∉ joinPlus (l.map fun t => term t.1 t.2) := by
    intro l hl
    apply join_no_gt
    intro s hs
    obtain ⟨u, hu, rfl⟩ := List.mem_map.1 hs
    exact term_no_gt _ _ (hl u hu).1 (hl u hu).2
  set a := joinPlus ((R.map fun t => (num |t.1|, t.2)).map fun t => term t.1 t.2) with ha
  set b := joinPlus ((P.map fun t => (num |t.1|, t.2)).map fun t => term t.1 t.2) with hb
  have hstr : strFromFormulas ts = (a ++ [' ']) ++ '-' :: '>' :: (' ' :: b) := by
    unfold strFromFormulas
    rw [e1, e2]
    simp [ha, hb]
  have hsplit : splitArrow (strFromFormulas ts) = [a ++ [' '], ' ' :: b] := by
    rw [hstr]
    apply splitArrow_arrow
    · intro hm
      rcases List.mem_append.1 hm with hm | hm
      · exact ngt _ okR hm
      · exact absurd hm (by decide)
    · intro hm
      rcases List.mem_cons.1 hm with h0 | hm
      · exact absurd h0 (by decide)
      · exact ngt _ okP hm
  have gR : getCompAmt comp (a ++ [' ']) = .ok (R.map fun t => (key t.2, |t.1|)) :=
    getCompAmt_side comp key R (fun t ht => let x := h t (hRm t ht).1; ⟨x.1, x.2.1, x.2.2⟩) hr _ (find_join _ okR [' '] (.inr rfl)).1
  have gP : getCompAmt comp (' ' :: b) = .ok (P.map fun t => (key t.2, |t.1|)) := by
    apply getCompAmt_side comp key P (fun t ht => let x := h t (hPm t ht).1; ⟨x.1, x.2.1, x.2.2⟩) hp
    have := (find_join _ okP [] (.inl rfl)).2
    rwa [List.append_nil] at this
  unfold fromString
  rw [hsplit]
  simp only
  rw [gR]
  simp only
  rw [gP]
  simp only
  unfold fromCoeffDicts
  rw [if_neg]
  · congr 1
    rw [List.map_append, List.map_map]
    congr 1
    · apply List.map_congr_left
      intro t ht
      simp [abs_of_neg (hRm t ht).2]
    · apply List.map_congr_left
      intro t ht
      rw [abs_of_pos (hPm t ht).2]
  · rintro (h0 | h0)
    · obtain ⟨t, ht, hlt⟩ := er
      have : t ∈ R := by simp [hR, ht, hlt]
      rw [List.map_eq_nil_iff.1 h0] at this
      cases this
    · obtain ⟨t, ht, hlt⟩ := ep
      have : t ∈ P := by simp [hP, ht, hlt]
      rw [List.map_eq_nil_iff.1 h0] at this
      cases this

theorem perm_sides (ts : List (ℚ × List Char)) (h : ∀ t ∈ ts, t.1 ≠ 0) :
    ((ts.filter fun t => t.1 < 0) ++ (ts.filter fun t => 0 < t.1)).Perm ts := by
  have : (ts.filter fun t => 0 < t.1) = ts.filter fun t => !(decide (t.1 < 0)) := by
    apply List.filter_congr
    intro t ht
    rcases lt_trichotomy t.1 0 with h0 | h0 | h0
    · simp [h0, h0.le]
    · exact absurd h0 (h t ht)
    · simp [h0, h0.le]
  rw [this]
  exact List.filter_append_perm _ _

/-- **C64 (partial), on reactions.** `from_string(str(rxn))`: when the composition parser inverts the reduced formula
(`comp f = ok (base c)` where `base c` is the reduced composition), the parsed reaction has exactly the reduced compositions with
the rescaled coefficients, in some order. -/
theorem C64_str_partial (comp : List Char → Except Err κ) (red : κ → List Char × ℚ) (base : κ → κ) (key : List Char → κ) (ts : List (κ × ℚ))
    (hkey : ∀ t ∈ ts, comp (red t.1).1 = .ok (key (red t.1).1) ∧ key (red t.1).1 = base t.1)
    (h : ∀ t ∈ ts, Formula (red t.1).1 ∧ FourDigits |t.2 * (red t.1).2| ∧ tol < |t.2 * (red t.1).2| ∧ |t.2 * (red t.1).2| < 10000)
    (hnd : (ts.map fun t => base t.1).Nodup)
    (er : ∃ t ∈ ts, t.2 * (red t.1).2 < 0) (ep : ∃ t ∈ ts, 0 < t.2 * (red t.1).2) :
    ∃ out, fromString comp (strFromComp red ts) = .ok out ∧ out.Perm (ts.map fun t => (base t.1, t.2 * (red t.1).2)) := by
  set us : List (ℚ × List Char) := ts.map fun t => (t.2 * (red t.1).2, (red t.1).1) with hus
  have hmem : ∀ u ∈ us, ∃ t ∈ ts, u = (t.2 * (red t.1).2, (red t.1).1) := by
    intro u hu
    obtain ⟨t, ht, rfl⟩ := List.mem_map.1 hu
    exact ⟨t, ht, rfl⟩
  have hks : us.map (fun u => key u.2) = ts.map fun t => base t.1 := by
    rw [hus, List.map_map]
    apply List.map_congr_left
    intro t ht
    exact (hkey t ht).2
  have hnd' : (us.map fun u => key u.2).Nodup := hks ▸ hnd
  have hsub : ∀ p : ℚ × List Char → Bool, ((us.filter p).map fun u => key u.2).Nodup := fun p =>
    List.Nodup.sublist (List.Sublist.map _ List.filter_sublist) hnd'
  have main := C64_round_trip_partial comp key us
    (by
      intro u hu
      obtain ⟨t, ht, rfl⟩ := hmem u hu
      exact ⟨(h t ht).1, (hkey t ht).1, (h t ht).2⟩)
    (hsub _) (hsub _)
    (by obtain ⟨t, ht, hlt⟩ := er; exact ⟨_, List.mem_map.2 ⟨t, ht, rfl⟩, hlt⟩)
    (by obtain ⟨t, ht, hlt⟩ := ep; exact ⟨_, List.mem_map.2 ⟨t, ht, rfl⟩, hlt⟩)
  refine ⟨_, main, ?_⟩
  have hne : ∀ u ∈ us, u.1 ≠ 0 := by
    intro u hu h0
    obtain ⟨t, ht, rfl⟩ := hmem u hu
    have := (h t ht).2.2.1
    simp only at h0
    rw [h0, abs_zero] at this
    unfold tol at this
    norm_num at this
  have := (perm_sides us hne).map fun t => (key t.2, t.1)
  refine this.trans ?_
  have heq : us.map (fun t => (key t.2, t.1)) = ts.map fun t => (base t.1, t.2 * (red t.1).2) := by
    rw [hus, List.map_map]
    apply List.map_congr_left
    intro t ht
    simp [(hkey t ht).2]
  rw [heq]

/-- **C64 (errors).** A string that does not have exactly one arrow is refused. -/
theorem C64_arrow (comp : List Char → Except Err κ) (s : List Char) (h : (splitArrow s).length ≠ 2) :
    fromString comp s = .error .valueError := by
  unfold fromString
  match hs : splitArrow s with
  | [] => rfl
  | [_] => rfl
  | [_, _] => rw [hs] at h; exact absurd rfl h
  | _ :: _ :: _ :: _ => rfl

/-- **C64 (errors).** A reaction printed without reactants or without products cannot be parsed back. -/
theorem C64_empty_side (comp : List Char → Except Err κ) (a b : List Char) (r p : List (κ × ℚ)) (s : List Char)
    (hs : splitArrow s = [a, b]) (ha : getCompAmt comp a = .ok r) (hb : getCompAmt comp b = .ok p) (h : r = [] ∨ p = []) :
    fromString comp s = .error .valueError := by
  unfold fromString
  rw [hs]
  simp only
  rw [ha]
  simp only
  rw [hb]
  simp only
  unfold fromCoeffDicts
  rw [if_pos h]

end

/-! ### Violations and concrete cases -/

/-- The parser for formulas used in the examples: the text itself. -/
def asText (f : List Char) : Except Err (List Char) := .ok f

/-- **C64 violated for large coefficients.** `10000` is printed as `1e+04`; the pattern has no `+` in the exponent, so the number
is read as `04`. -/
theorem C64_large_violated :
    fromString asText (strFromFormulas [(-10000, ['F', 'e']), (5000, ['F', 'e', '2'])]) =
      .ok [(['F', 'e'], -4), (['F', 'e', '2'], 5000)] := by decide +kernel

/-- **C64 violated for unreduced compositions.** The parsed reaction has other coefficients than the printed one (`Fe4O6` with
coefficient −1 comes back as `Fe2O3` with coefficient −2). -/
theorem C64_unreduced :
    fromString asText (strFromComp (fun c : List Char => if c = ['F', 'e', '4', 'O', '6'] then (['F', 'e', '2', 'O', '3'], 2) else (c, 1))
      [(['F', 'e', '4', 'O', '6'], -1), (['F', 'e', 'O'], 4)]) =
      .ok [(['F', 'e', '2', 'O', '3'], -2), (['F', 'e', 'O'], 4)] := by decide +kernel

/-- **C64, no reactants.** -/
theorem C64_no_reactants : fromString asText (strFromFormulas [(2, ['F', 'e'])]) = .error .valueError := by decide +kernel

/-- The hypotheses are met and the text is as expected. -/
example : strFromFormulas [(-1 / 2, ['L', 'i', '2', 'O']), (-1, ['F', 'e']), (3 / 800, ['E', 'u', 'O'])] =
    "0.5 Li2O + Fe -> 0.00375 EuO".toList := by decide +kernel

example : fromString asText (strFromFormulas [(-1 / 2, ['L', 'i', '2', 'O']), (3 / 100000, ['E', 'u', 'O']), (-1, ['F', 'e'])]) =
    .ok [(['L', 'i', '2', 'O'], -1 / 2), (['F', 'e'], -1), (['E', 'u', 'O'], 3 / 100000)] := by
  have hf1 : Formula ['L', 'i', '2', 'O'] := ⟨'L', _, rfl, by decide, by decide, fun h => absurd h (by decide)⟩
  have hf2 : Formula ['E', 'u', 'O'] := ⟨'E', _, rfl, by decide, by decide, fun _ => ⟨'u', _, rfl, by decide⟩⟩
  have hf3 : Formula ['F', 'e'] := ⟨'F', _, rfl, by decide, by decide, fun h => absurd h (by decide)⟩
  have key := C64_round_trip_partial asText id [(-1 / 2, ['L', 'i', '2', 'O']), (3 / 100000, ['E', 'u', 'O']), (-1, ['F', 'e'])]
    (by
      intro t ht
      simp only [List.mem_cons, List.not_mem_nil, or_false] at ht
      rcases ht with rfl | rfl | rfl
      · exact ⟨hf1, rfl, ⟨5, -1, by norm_num, by norm_num, by norm_num [abs_of_nonneg, abs_of_neg]⟩, by norm_num [tol, abs_of_neg], by norm_num [abs_of_neg]⟩
      · exact ⟨hf2, rfl, ⟨3, -5, by norm_num, by norm_num, by norm_num [abs_of_pos]⟩, by norm_num [tol, abs_of_pos], by norm_num [abs_of_pos]⟩
      · exact ⟨hf3, rfl, ⟨1, 0, by norm_num, by norm_num, by norm_num⟩, by norm_num [tol], by norm_num⟩)
    (by decide +kernel) (by decide +kernel) (by decide +kernel) (by decide +kernel)
  rw [key]
  decide +kernel

example := C64_arrow asText "Fe + O2".toList (by decide +kernel)
example := C64_empty_side asText "Fe ".toList [] [(['F', 'e'], 1)] [] "Fe ->".toList (by decide +kernel) (by decide +kernel) (by decide +kernel) (.inr rfl)

end Verif.Props.Parser
