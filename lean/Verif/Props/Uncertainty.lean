import Verif.Model.Uncertainty
import Verif.Props.ReactionEnergy
import Verif.Props.ReactionFrac
import Mathlib.Data.List.Perm.Basic
import Mathlib.Algebra.Order.BigOperators.Group.List
import Mathlib.Algebra.BigOperators.Ring.List
import Mathlib.Tactic.Positivity

/-! Property C96: the uncertainty of a reaction energy. -/

set_option linter.unusedSectionVars false

namespace Verif.Props.Uncertainty
open Verif.Py Verif.Model Verif.Model.Reaction Verif.Model.Uncertainty Verif.Lemmas.Dict

variable {κ ε : Type} [DecidableEq κ] [DecidableEq ε]

/-- Specification: `e` is the first entry of lowest energy per reduced formula unit among the entries of composition `c`. -/
def Lowest (X : Chem κ ε) (es : List (UEntry κ)) (c : κ) (e : UEntry κ) : Prop :=
  ∃ l r, es = l ++ e :: r ∧ X.red e.1.comp = c ∧
    (∀ x ∈ l, X.red x.1.comp = c → e.1.energy / X.fac e.1.comp < x.1.energy / X.fac x.1.comp) ∧
    ∀ x ∈ r, X.red x.1.comp = c → e.1.energy / X.fac e.1.comp ≤ x.1.energy / X.fac x.1.comp

/-- Specification: the coefficients of a composition added up. -/
def total (comps : List κ) (coeffs : List ℚ) (c : κ) : ℚ := ((comps.zip coeffs).map fun p => if p.1 = c then p.2 else 0).sum

theorem net_eq (comps : List κ) (coeffs : List ℚ) (c : κ) : net (coeffs.zip comps) c = total comps coeffs c := by
  unfold net total
  induction comps generalizing coeffs with
  | nil => cases coeffs <;> simp
  | cons a l ih =>
    cases coeffs with
    | nil => simp
    | cons v vs =>
      simp only [List.zip_cons_cons, List.filter_cons, List.map_cons, List.sum_cons]
      rw [← ih vs]
      by_cases h : a = c <;> simp [h]

theorem calcU_nodup (X : Chem κ ε) (es : List (UEntry κ)) : ((calcU X es).map Prod.fst).Nodup := by
  unfold calcU
  induction es using List.reverseRecOn with
  | nil => simp
  | append_singleton l e ih =>
    rw [List.foldl_append]
    exact nodup_dictSet _ _ _ ih

theorem calcU_spec (X : Chem κ ε) (es : List (UEntry κ)) (c : κ) :
    (dictGet (calcU X es) c = none ∧ ∀ e ∈ es, X.red e.1.comp ≠ c) ∨
    ∃ e, Lowest X es c e ∧ dictGet (calcU X es) c = some (perUnit X e) := by
  unfold calcU
  induction es using List.reverseRecOn with
  | nil => simp [dictGet]
  | append_singleton l e ih =>
    rw [List.foldl_append, List.foldl_cons, List.foldl_nil]
    set d := l.foldl (ustep X) []
    simp only [ustep, dictGet_dictSet]
    by_cases h : X.red e.1.comp = c
    · rw [if_pos h]
      right
      subst h
      rcases ih with ⟨h1, h2⟩ | ⟨e0, ⟨a, b, hab, hr, ha, hb⟩, h2⟩
      · rw [h1]
        exact ⟨e, ⟨l, [], rfl, rfl, fun x hx hc => absurd hc (h2 x hx), by simp⟩, rfl⟩
      · rw [h2]
        simp only
        by_cases hlt : (perUnit X e).1 < (perUnit X e0).1
        · rw [if_pos hlt]
          refine ⟨e, ⟨l, [], rfl, rfl, ?_, by simp⟩, rfl⟩
          intro x hx hc
          rw [hab] at hx
          refine lt_of_lt_of_le hlt ?_
          rcases List.mem_append.mp hx with hx | hx
          · exact (ha x hx hc).le
          · rcases List.mem_cons.mp hx with rfl | hx
            · exact le_refl _
            · exact hb x hx hc
        · rw [if_neg hlt]
          refine ⟨e0, ⟨a, b ++ [e], by rw [hab]; simp, hr, ha, ?_⟩, rfl⟩
          intro x hx hc
          rcases List.mem_append.mp hx with hx | hx
          · exact hb x hx hc
          · rw [List.mem_singleton.mp hx]; exact not_lt.mp hlt
    · rw [if_neg h]
      rcases ih with ⟨h1, h2⟩ | ⟨e0, ⟨a, b, hab, hr, ha, hb⟩, h2⟩
      · left
        refine ⟨h1, ?_⟩
        intro x hx
        rcases List.mem_append.mp hx with hx | hx
        · exact h2 x hx
        · rw [List.mem_singleton.mp hx]; exact h
      · right
        refine ⟨e0, ⟨a, b ++ [e], by rw [hab]; simp, hr, ha, ?_⟩, h2⟩
        intro x hx hc
        rcases List.mem_append.mp hx with hx | hx
        · exact hb x hx hc
        · rw [List.mem_singleton.mp hx] at hc; exact absurd hc h

theorem lowest_mem {X : Chem κ ε} {es : List (UEntry κ)} {c : κ} {e : UEntry κ} (h : Lowest X es c e) : e ∈ es := by
  obtain ⟨l, r, h, _⟩ := h; rw [h]; simp

/-- There is only one such entry. -/
theorem lowest_unique (X : Chem κ ε) (es : List (UEntry κ)) (c : κ) (e e' : UEntry κ) (h : Lowest X es c e) (h' : Lowest X es c e') :
    e = e' := by
  obtain ⟨l, r, hl, hc, h1, h2⟩ := h
  obtain ⟨l', r', hl', hc', h1', h2'⟩ := h'
  rw [hl] at hl'
  rcases List.append_eq_append_iff.mp hl' with ⟨as, rfl, h3⟩ | ⟨as, rfl, h3⟩
  · cases as with
    | nil => simp at h3; exact h3.1
    | cons x as =>
      simp only [List.cons_append, List.cons.injEq] at h3
      obtain ⟨rfl, rfl⟩ := h3
      have a1 := h1' e (by simp) hc
      have a2 := h2 e' (by simp) hc'
      exact absurd a1 (not_lt.mpr a2)
  · cases as with
    | nil => simp at h3; exact h3.1.symm
    | cons x as =>
      simp only [List.cons_append, List.cons.injEq] at h3
      obtain ⟨rfl, rfl⟩ := h3
      have a1 := h1 e' (by simp) hc'
      have a2 := h2' e (by simp) hc
      exact absurd a1 (not_lt.mpr a2)

theorem calcU_perm (X : Chem κ ε) (es : List (UEntry κ)) : ((calcU X es).map Prod.fst).Perm (compsOf X es).dedup := by
  rw [List.perm_ext_iff_of_nodup (calcU_nodup X es) (List.nodup_dedup _)]
  intro c
  rw [List.mem_dedup]
  have hk : c ∈ (calcU X es).map Prod.fst ↔ dictGet (calcU X es) c ≠ none := by
    rw [ne_eq, dictGet_eq_none, not_not]
  rw [hk]
  unfold compsOf
  rw [List.mem_map]
  rcases calcU_spec X es c with ⟨h1, h2⟩ | ⟨e, he, h2⟩
  · constructor
    · intro h; exact absurd h1 h
    · rintro ⟨e, he, hc⟩; exact absurd hc (h2 e he)
  · constructor
    · intro _
      obtain ⟨l, r, hl, hc, _⟩ := id he
      exact ⟨e, lowest_mem he, hc⟩
    · intro _; rw [h2]; simp

theorem variance_cases (X : Chem κ ε) (es : List (UEntry κ)) (coeffs : List ℚ) (hz : coeffs.zip (compsOf X es) ≠ []) :
    variance X es (compsOf X es) coeffs =
      .ok ((calcU X es).map fun q => (total (compsOf X es) coeffs q.1) ^ 2 * q.2.2 ^ 2).sum := by
  unfold variance
  simp only [if_neg hz]
  rw [if_pos]
  · simp only [net_eq]
  · rw [List.all_eq_true]
    intro p hp
    have hc : p.2 ∈ compsOf X es := (List.of_mem_zip hp).2
    rcases calcU_spec X es p.2 with ⟨_, h2⟩ | ⟨e, _, h2⟩
    · obtain ⟨e, he, hh⟩ := List.mem_map.mp hc
      exact absurd hh (h2 e he)
    · rw [h2]; rfl

/-- Specification: `s` assigns to every composition of the reaction the uncertainty, per reduced formula unit, of its lowest-energy entry;
a missing uncertainty counts as zero. -/
def Sigma (X : Chem κ ε) (es : List (UEntry κ)) (s : κ → ℚ) : Prop :=
  ∀ c e, Lowest X es c e → s c = e.2.getD 0 / X.fac e.1.comp

/-- **C96, what it is.** The uncertainty of a non-empty reaction exists, is non-negative, and its square is the sum over the
compositions of (total coefficient × uncertainty of the lowest-energy entry per reduced formula unit)². -/
theorem C96_formula (X : Chem κ ε) (es : List (UEntry κ)) (coeffs : List ℚ) (hes : es ≠ []) (hco : coeffs ≠ []) (s : κ → ℚ)
    (hs : Sigma X es s) :
    ∃ u : ℝ, uncertainty X es (compsOf X es) coeffs = .ok u ∧ 0 ≤ u ∧
      u ^ 2 = ((((compsOf X es).dedup.map fun c => (total (compsOf X es) coeffs c * s c) ^ 2).sum : ℚ) : ℝ) := by
  have hz : coeffs.zip (compsOf X es) ≠ [] := by
    cases coeffs with
    | nil => exact absurd rfl hco
    | cons a l => cases es with
      | nil => exact absurd rfl hes
      | cons b m => simp [compsOf]
  have hv : ((calcU X es).map fun q => (total (compsOf X es) coeffs q.1) ^ 2 * q.2.2 ^ 2) =
      ((calcU X es).map Prod.fst).map fun c => (total (compsOf X es) coeffs c * s c) ^ 2 := by
    rw [List.map_map]
    refine List.map_congr_left fun q hq => ?_
    have hg := dictGet_eq_some_of_mem _ (calcU_nodup X es) q.1 q.2 hq
    rcases calcU_spec X es q.1 with ⟨h1, _⟩ | ⟨e, he, h2⟩
    · rw [h1] at hg; cases hg
    · rw [hg] at h2
      injection h2 with h2
      simp only [Function.comp, hs q.1 e he, h2, perUnit]
      ring
  have hsum := ((calcU_perm X es).map fun c => (total (compsOf X es) coeffs c * s c) ^ 2).sum_eq
  rw [← hsum, ← hv]
  refine ⟨_, by rw [uncertainty, variance_cases X es coeffs hz]; rfl, Real.sqrt_nonneg _, ?_⟩
  rw [Real.sq_sqrt]
  have : (0:ℚ) ≤ ((calcU X es).map fun q => (total (compsOf X es) coeffs q.1) ^ 2 * q.2.2 ^ 2).sum :=
    List.sum_nonneg (by
      intro y hy
      obtain ⟨q, _, rfl⟩ := List.mem_map.mp hy
      positivity)
  exact_mod_cast this

/-- A choice of such uncertainties exists. -/
theorem sigma_exists (X : Chem κ ε) (es : List (UEntry κ)) : ∃ s, Sigma X es s := by
  classical
  refine ⟨fun c => if h : ∃ e, Lowest X es c e then h.choose.2.getD 0 / X.fac h.choose.1.comp else 0, ?_⟩
  intro c e he
  have hx : ∃ e, Lowest X es c e := ⟨e, he⟩
  simp only [dif_pos hx]
  rw [lowest_unique X es c _ _ hx.choose_spec he]

theorem total_scale (comps : List κ) (coeffs : List ℚ) (k : ℚ) (c : κ) :
    total comps (coeffs.map fun x => x * k) c = total comps coeffs c * k := by
  unfold total
  rw [List.zip_map_right, List.map_map, ← List.sum_map_mul_right]
  congr 1
  refine List.map_congr_left fun p _ => ?_
  simp only [Function.comp, Prod.map, id]
  split_ifs <;> simp

/-- **C96, scaling.** Multiplying all coefficients by `k` multiplies the uncertainty by `|k|`; in particular reversing a reaction leaves
it unchanged. -/
theorem C96_scale (X : Chem κ ε) (es : List (UEntry κ)) (coeffs : List ℚ) (k : ℚ) :
    uncertainty X es (compsOf X es) (coeffs.map fun c => c * k) = (uncertainty X es (compsOf X es) coeffs).map (|(k:ℝ)| * ·) := by
  by_cases hz : coeffs.zip (compsOf X es) = []
  · have hz' : (coeffs.map fun c => c * k).zip (compsOf X es) = [] := by rw [List.zip_map_left, hz]; rfl
    simp [uncertainty, variance, hz, hz', Except.map]
  · have hz' : (coeffs.map fun c => c * k).zip (compsOf X es) ≠ [] := by
      rw [List.zip_map_left]; intro h; exact hz (List.map_eq_nil_iff.mp h)
    rw [uncertainty, uncertainty, variance_cases X es _ hz, variance_cases X es _ hz']
    simp only [Except.map, total_scale, Except.ok.injEq]
    rw [← Real.sqrt_sq_eq_abs, ← Real.sqrt_mul (sq_nonneg _)]
    congr 1
    have : ((calcU X es).map fun q => (total (compsOf X es) coeffs q.1 * k) ^ 2 * q.2.2 ^ 2).sum =
        k ^ 2 * ((calcU X es).map fun q => (total (compsOf X es) coeffs q.1) ^ 2 * q.2.2 ^ 2).sum := by
      rw [← List.sum_map_mul_left]
      congr 1
      exact List.map_congr_left fun q _ => by ring
    rw [this]; push_cast; ring

/-- **C96, reversing.** The reversed reaction has the same uncertainty. -/
theorem C96_reverse (X : Chem κ ε) (es : List (UEntry κ)) (coeffs : List ℚ) :
    uncertainty X es (compsOf X es) (coeffs.map fun c => -1 * c) = uncertainty X es (compsOf X es) coeffs := by
  have h := C96_scale X es coeffs (-1)
  have e : (coeffs.map fun c => c * -1) = coeffs.map fun c => -1 * c := List.map_congr_left fun c _ => by ring
  rw [e] at h
  rw [h]
  cases uncertainty X es (compsOf X es) coeffs <;> simp [Except.map]

/-- **C96, per atom.** The uncertainty per atom does not change when all coefficients are multiplied by a positive factor. -/
theorem C96_per_atom (X : Chem κ ε) (es : List (UEntry κ)) (coeffs : List ℚ) (k : ℚ) (hk : 0 < k) :
    uncertaintyPerAtom X es (compsOf X es) (coeffs.map fun c => c * k) = uncertaintyPerAtom X es (compsOf X es) coeffs := by
  unfold uncertaintyPerAtom
  rw [C96_scale, Verif.Lemmas.Reaction.numAtoms_scale _ _ _ _ _ hk]
  cases uncertainty X es (compsOf X es) coeffs with
  | error e => rfl
  | ok v =>
    simp only [Except.map]
    have hkr : (0:ℝ) < k := by exact_mod_cast hk
    generalize numAtoms X (elements X (compsOf X es)) (compsOf X es) coeffs = n
    by_cases hn : n = 0
    · simp [hn]
    · rw [if_neg (by simp [hn, hk.ne']), if_neg hn, abs_of_pos hkr]
      congr 1
      have : (n:ℝ) ≠ 0 := by exact_mod_cast hn
      push_cast
      field_simp

/-- **C96, none.** Without uncertainties (absent, nan or zero) the uncertainty is zero. -/
theorem C96_zero (X : Chem κ ε) (es : List (UEntry κ)) (coeffs : List ℚ) (hes : es ≠ []) (hco : coeffs ≠ [])
    (h : ∀ e ∈ es, e.2.getD 0 = 0) : uncertainty X es (compsOf X es) coeffs = .ok 0 := by
  obtain ⟨u, hu, _, hsq⟩ := C96_formula X es coeffs hes hco (fun _ => 0) (by
    intro c e he
    rw [h e (lowest_mem he), zero_div])
  rw [hu]
  simp only [mul_zero, ne_eq, OfNat.ofNat_ne_zero, not_false_eq_true, zero_pow, List.map_const', List.sum_replicate, smul_zero,
    Rat.cast_zero] at hsq
  rw [pow_eq_zero_iff (by norm_num)] at hsq
  rw [hsq]

/-- Two lists of entries that differ only in their uncertainties have the same lowest entries, at the same positions. -/
theorem lowest_corr (X : Chem κ ε) (es : List (Entry κ)) (a b : List (Option ℚ)) (ha : a.length = es.length) (hb : b.length = es.length)
    (c : κ) (e : UEntry κ) (h : Lowest X (es.zip a) c e) :
    ∃ v, Lowest X (es.zip b) c (e.1, v) ∧ ∃ i : ℕ, a[i]? = some e.2 ∧ b[i]? = some v := by
  obtain ⟨l, r, hl, hc, h1, h2⟩ := h
  have hi : (es.zip a)[l.length]? = some e := by rw [hl]; simp
  obtain ⟨hlen, hget⟩ := List.getElem?_eq_some_iff.mp hi
  have hla : l.length < es.length := by rw [List.length_zip, ha] at hlen; simpa using hlen
  refine ⟨b[l.length], ⟨(es.zip b).take l.length, (es.zip b).drop (l.length + 1), ?_, hc, ?_, ?_⟩, l.length, ?_, ?_⟩
  · have hlb : l.length < (es.zip b).length := by rw [List.length_zip, hb]; simpa using hla
    have hs := List.take_append_drop l.length (es.zip b)
    rw [List.drop_eq_getElem_cons hlb] at hs
    have he1 : e.1 = es[l.length] := by rw [← hget]; simp
    rw [he1]
    rw [List.getElem_zip] at hs
    exact hs.symm
  · intro x hx hxc
    have hx' : x.1 ∈ es.take l.length := by
      rw [List.zip, List.take_zipWith] at hx
      exact (List.of_mem_zip hx).1
    have : es.take l.length = l.map Prod.fst := by
      have := congrArg (List.map Prod.fst) hl
      rw [List.map_fst_zip (by omega)] at this
      rw [this]; simp
    rw [this] at hx'
    obtain ⟨y, hy, hyx⟩ := List.mem_map.mp hx'
    have := h1 y hy (by rw [hyx]; exact hxc)
    rw [hyx] at this; exact this
  · intro x hx hxc
    have hx' : x.1 ∈ es.drop (l.length + 1) := by
      rw [List.zip, List.drop_zipWith] at hx
      exact (List.of_mem_zip hx).1
    have : es.drop (l.length + 1) = r.map Prod.fst := by
      have := congrArg (List.map Prod.fst) hl
      rw [List.map_fst_zip (by omega)] at this
      rw [this]; simp [List.drop_append]
    rw [this] at hx'
    obtain ⟨y, hy, hyx⟩ := List.mem_map.mp hx'
    have := h2 y hy (by rw [hyx]; exact hxc)
    rw [hyx] at this; exact this
  · have : e.2 = a[l.length]'(by omega) := by rw [← hget]; simp
    rw [this]; simp
  · simp

/-- **C96, monotone.** If no uncertainty shrinks, the uncertainty of the reaction does not shrink. -/
theorem C96_monotone (X : Chem κ ε) (es : List (Entry κ)) (a b : List (Option ℚ)) (coeffs : List ℚ) (hes : es ≠ []) (hco : coeffs ≠ [])
    (ha : a.length = es.length) (hb : b.length = es.length) (hfac : ∀ e ∈ es, 0 < X.fac e.comp)
    (hle : ∀ (i : ℕ) (v w : Option ℚ), a[i]? = some v → b[i]? = some w → 0 ≤ v.getD 0 ∧ v.getD 0 ≤ w.getD 0) :
    ∃ u v : ℝ, uncertainty X (es.zip a) (compsOf X (es.zip a)) coeffs = .ok u ∧
      uncertainty X (es.zip b) (compsOf X (es.zip b)) coeffs = .ok v ∧ u ≤ v := by
  have hcomp : ∀ z : List (Option ℚ), z.length = es.length → compsOf X (es.zip z) = es.map fun e => X.red e.comp := by
    intro z hz
    unfold compsOf
    rw [show (fun e : UEntry κ => X.red e.1.comp) = (fun e : Entry κ => X.red e.comp) ∘ Prod.fst from rfl, ← List.map_map,
      List.map_fst_zip (by omega)]
  have hne : ∀ z : List (Option ℚ), z.length = es.length → es.zip z ≠ [] := by
    intro z hz h
    have := congrArg List.length h
    rw [List.length_zip, hz] at this
    simp at this; exact hes this
  obtain ⟨s, hs⟩ := sigma_exists X (es.zip a)
  obtain ⟨t, ht⟩ := sigma_exists X (es.zip b)
  obtain ⟨u, hu, hu0, hu2⟩ := C96_formula X (es.zip a) coeffs (hne a ha) hco s hs
  obtain ⟨v, hv, hv0, hv2⟩ := C96_formula X (es.zip b) coeffs (hne b hb) hco t ht
  refine ⟨u, v, hu, hv, ?_⟩
  rw [← sq_le_sq₀ hu0 hv0, hu2, hv2, hcomp a ha, hcomp b hb]
  rw [Rat.cast_le]
  refine List.sum_le_sum fun c hc => ?_
  rw [List.mem_dedup, ← hcomp a ha] at hc
  have hst : 0 ≤ s c ∧ s c ≤ t c := by
    rcases calcU_spec X (es.zip a) c with ⟨_, h2⟩ | ⟨e, he, _⟩
    · obtain ⟨e, he, hh⟩ := List.mem_map.mp hc
      exact absurd hh (h2 e he)
    · obtain ⟨w, hw, i, hi, hj⟩ := lowest_corr X es a b ha hb c e he
      rw [hs c e he, ht c _ hw]
      have hf := hfac e.1 (List.of_mem_zip (lowest_mem he)).1
      obtain ⟨h0, h1⟩ := hle i _ _ hi hj
      exact ⟨by positivity, by simp only; gcongr⟩
  rw [mul_pow, mul_pow]
  exact mul_le_mul_of_nonneg_left (pow_le_pow_left₀ hst.1 hst.2 2) (sq_nonneg _)

/-- **C96, empty.** A reaction without entries has no uncertainty: `AttributeError`. -/
theorem C96_empty (X : Chem κ ε) (coeffs : List ℚ) : uncertainty X [] (compsOf X []) coeffs = .error .attributeError := by
  simp [uncertainty, variance, compsOf, Except.map]

/-! ### Cases -/

open Verif.Props.Reaction

/-- Two polymorphs of AB; the lower one is the second, with uncertainty 2. -/
def exEs : List (UEntry TComp) := [((⟨A, -1⟩ : Entry _), none), (⟨B2, -4⟩, some 3), (⟨AB, -4⟩, some 7), (⟨AB, -5⟩, some 2)]

example : variance toy exEs (compsOf toy exEs) [-2, -1, 1, 1] = .ok ((-1 * (3 / 2)) ^ 2 + (2 * 2) ^ 2) := by decide +kernel

example : ∃ u : ℝ, uncertainty toy exEs (compsOf toy exEs) [-2, -1, 1, 1] = .ok u ∧ 0 ≤ u ∧ u ^ 2 =
    ((((compsOf toy exEs).dedup.map fun c => (total (compsOf toy exEs) [-2, -1, 1, 1] c *
      (sigma_exists toy exEs).choose c) ^ 2).sum : ℚ) : ℝ) :=
  C96_formula toy exEs [-2, -1, 1, 1] (by simp [exEs]) (by simp) _ (sigma_exists toy exEs).choose_spec

/-- Larger uncertainties of the phases, a larger uncertainty of the reaction. -/
example : ∃ u v : ℝ, uncertainty toy ([(⟨A, -1⟩ : Entry _), ⟨B2, -4⟩, ⟨AB, -4⟩].zip [none, some 3, some 7])
      (compsOf toy ([(⟨A, -1⟩ : Entry _), ⟨B2, -4⟩, ⟨AB, -4⟩].zip [none, some 3, some 7])) [-2, -1, 2] = .ok u ∧
    uncertainty toy ([(⟨A, -1⟩ : Entry _), ⟨B2, -4⟩, ⟨AB, -4⟩].zip [some 1, some 3, some 8])
      (compsOf toy ([(⟨A, -1⟩ : Entry _), ⟨B2, -4⟩, ⟨AB, -4⟩].zip [some 1, some 3, some 8])) [-2, -1, 2] = .ok v ∧ u ≤ v :=
  C96_monotone toy [⟨A, -1⟩, ⟨B2, -4⟩, ⟨AB, -4⟩] [none, some 3, some 7] [some 1, some 3, some 8] [-2, -1, 2] (by simp) (by simp) rfl rfl (by decide +kernel) (by
    intro i v w h1 h2
    match i with
    | 0 => cases h1; cases h2; decide +kernel
    | 1 => cases h1; cases h2; decide +kernel
    | 2 => cases h1; cases h2; decide +kernel
    | i + 3 => simp at h1)

example : uncertainty toy [((⟨A, -1⟩ : Entry _), none), (⟨AB, -4⟩, some 0)] (compsOf toy [((⟨A, -1⟩ : Entry _), none), (⟨AB, -4⟩, some 0)])
    [-1, 1] = .ok 0 := C96_zero toy _ _ (by simp) (by simp) (by decide +kernel)

example := C96_scale toy exEs [-2, -1, 1, 1] (1/2)
example := C96_per_atom toy exEs [-2, -1, 1, 1] 3 (by norm_num)

end Verif.Props.Uncertainty
