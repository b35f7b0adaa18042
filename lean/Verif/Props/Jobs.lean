import Verif.Spec.Jobs
import Verif.Lemmas.Except
import Verif.Lemmas.Dict
import Verif.Lemmas.Solver
import Verif.Props.Utils
import Verif.Spec.RxnSet
import Mathlib.Data.List.Perm.Basic
import Mathlib.Tactic.Linarith
import Mathlib.Tactic.NormNum
import Mathlib.Tactic.Push

/-!
Properties C63 (single-precursor competition), C74 (competition by chunk), C75 (chemical potential distances by chunk),
C76 (narrowing the pool), C78 (chunk size under memory limits).
-/

namespace Verif.Props.Jobs

open Verif.Py Verif.Model.Jobs Verif.Spec.Jobs Verif.Lemmas

/-! ### C63 -/

theorem npMin_spec (l : List ℚ) (m : ℚ) : npMin l = .ok m ↔ Lowest l m := by
  have key : ∀ (xs : List ℚ) (x : ℚ), Lowest (x :: xs) (xs.foldl min x) := by
    intro xs
    induction xs with
    | nil => intro x; simp [Lowest]
    | cons z xs ih =>
      intro x
      obtain ⟨h1, h2⟩ := ih (min x z)
      rw [List.foldl_cons]
      have hm := h2 (min x z) (by simp)
      constructor
      · rcases List.mem_cons.1 h1 with h1 | h1
        · rcases min_choice x z with hc | hc <;> rw [h1, hc] <;> simp
        · simp [h1]
      · intro y hy
        rcases List.mem_cons.1 hy with rfl | hy
        · exact hm.trans (min_le_left _ _)
        · rcases List.mem_cons.1 hy with rfl | hy
          · exact hm.trans (min_le_right _ _)
          · exact h2 y (by simp [hy])
  rcases l with _ | ⟨x, xs⟩
  · simp [npMin, Lowest]
  · obtain ⟨h1, h2⟩ := key xs x
    unfold npMin
    constructor
    · intro h
      rw [← Except.ok.inj h]
      exact ⟨h1, h2⟩
    · rintro ⟨h3, h4⟩
      simp only
      rw [le_antisymm (h2 _ h3) (h4 _ h1)]

theorem npMax_spec (l : List ℚ) (m : ℚ) : npMax l = .ok m ↔ m ∈ l ∧ ∀ x ∈ l, x ≤ m := by
  have key : ∀ (xs : List ℚ) (x : ℚ), xs.foldl max x ∈ x :: xs ∧ ∀ y ∈ x :: xs, y ≤ xs.foldl max x := by
    intro xs
    induction xs with
    | nil => intro x; simp
    | cons z xs ih =>
      intro x
      obtain ⟨h1, h2⟩ := ih (max x z)
      rw [List.foldl_cons]
      have hm := h2 (max x z) (by simp)
      constructor
      · rcases List.mem_cons.1 h1 with h1 | h1
        · rcases max_choice x z with hc | hc <;> rw [h1, hc] <;> simp
        · simp [h1]
      · intro y hy
        rcases List.mem_cons.1 hy with rfl | hy
        · exact (le_max_left _ _).trans hm
        · rcases List.mem_cons.1 hy with rfl | hy
          · exact (le_max_right _ _).trans hm
          · exact h2 y (by simp [hy])
  rcases l with _ | ⟨x, xs⟩
  · simp [npMax]
  · obtain ⟨h1, h2⟩ := key xs x
    unfold npMax
    constructor
    · intro h
      rw [← Except.ok.inj h]
      exact ⟨h1, h2⟩
    · rintro ⟨h3, h4⟩
      simp only
      rw [le_antisymm (h4 _ h1) (h2 _ h3)]

theorem isclose_zero (x : ℚ) : isclose x 0 = true ↔ |x| ≤ 1 / 100000000 := by
  unfold isclose
  rw [decide_eq_true_iff]
  simp

theorem lowest_unique (l : List ℚ) (m m' : ℚ) (h : Lowest l m) (h' : Lowest l m') : m = m' :=
  le_antisymm (h.2 _ h'.1) (h'.2 _ h.1)

/-- The minimum used by the code, against the minimum over the competing reactions and doing nothing. -/
theorem withIdentity_lowest (others : List ℚ) (m : ℚ) (hm : Lowest (0 :: others) m) :
    ∃ m', Lowest (withIdentity others) m' ∧ m ≤ m' ∧ m' ≤ m + 1 / 100000000 ∧
      ((∀ x ∈ others, 0 < x → 1 / 100000000 < x) → m' = m) ∧ ((∃ x ∈ others, x ≤ 0) → m' = m) := by
  unfold withIdentity
  split_ifs with h
  · rw [List.any_eq_true] at h
    obtain ⟨x, hx, hx0⟩ := h
    rw [isclose_zero] at hx0
    obtain ⟨m', hm'⟩ : ∃ m', npMin others = .ok m' := by
      rcases others with _ | ⟨y, ys⟩
      · simp at hx
      · exact ⟨_, rfl⟩
    rw [npMin_spec] at hm'
    have hle : m ≤ m' := hm.2 _ (by simp [hm'.1])
    have habs := abs_le.1 hx0
    have hmx := hm'.2 x hx
    have hm0 : m ≤ 0 := hm.2 0 (by simp)
    refine ⟨m', hm', hle, ?_, ?_, ?_⟩
    · rcases List.mem_cons.1 hm.1 with h0 | h0
      · rw [h0]; linarith
      · have := hm'.2 m h0; linarith
    · intro hall
      rcases List.mem_cons.1 hm.1 with h0 | h0
      · have hx' : x ≤ 0 := by
          by_contra hc
          have := hall x hx (not_le.1 hc)
          linarith
        have : x = 0 ∨ x < 0 := hx'.eq_or_lt
        apply le_antisymm _ hle
        rw [h0]
        linarith
      · exact le_antisymm (hm'.2 m h0) hle
    · rintro ⟨y, hy, hy0⟩
      have hmy := hm'.2 y hy
      rcases List.mem_cons.1 hm.1 with h0 | h0
      · apply le_antisymm _ hle
        rw [h0]; linarith
      · exact le_antisymm (hm'.2 m h0) hle
  · refine ⟨m, ⟨?_, ?_⟩, le_refl _, by norm_num, fun _ => rfl, fun _ => rfl⟩
    · have := hm.1
      simp only [List.mem_cons, List.mem_append, List.not_mem_nil, or_false] at this ⊢
      tauto
    · intro x hx
      apply hm.2
      simp only [List.mem_cons, List.mem_append, List.not_mem_nil, or_false] at hx ⊢
      tauto

theorem secondary_eq (energy : ℚ) (es : List ℚ) (m : ℚ) (hm : Lowest es m) :
    secondaryOf (positiveDiffs energy es) = .ok (max (energy - m) 0) := by
  unfold secondaryOf
  have hmem : ∀ d, d ∈ positiveDiffs energy es ↔ (∃ x ∈ es, energy - x = d) ∧ 0 < d := by
    intro d
    simp [positiveDiffs]
  by_cases hpos : 0 < energy - m
  · have hin : energy - m ∈ positiveDiffs energy es := (hmem _).2 ⟨⟨m, hm.1, rfl⟩, hpos⟩
    rw [if_pos]
    · rw [npMax_spec, max_eq_left hpos.le]
      refine ⟨hin, ?_⟩
      intro d hd
      obtain ⟨⟨x, hx, rfl⟩, -⟩ := (hmem d).1 hd
      have := hm.2 x hx
      linarith
    · rw [List.any_eq_true]
      exact ⟨_, hin, by rw [decide_eq_true_iff]; exact ne_of_gt hpos⟩
  · rw [if_neg, max_eq_right (not_lt.1 hpos)]
    rw [List.any_eq_true]
    rintro ⟨d, hd, -⟩
    obtain ⟨⟨x, hx, rfl⟩, h0⟩ := (hmem d).1 hd
    have := hm.2 x hx
    linarith

theorem exists_lowest (others : List ℚ) : ∃ m, Lowest (0 :: others) m :=
  ⟨_, (npMin_spec _ _).1 rfl⟩

/-- C63: a score is always returned; before rounding to four decimals the primary competition is the energy minus the lowest
energy among the competing reactions and doing nothing, up to the tolerance `1e-8` with which the code decides whether an
identity reaction is already present, and the secondary competition is its positive part. The tolerance only matters if all
competing energies are positive and one of them is at most `1e-8`. -/
theorem C63_scores (energy : ℚ) (others : List ℚ) (m : ℚ) (hm : Lowest (0 :: others) m) :
    ∃ p, singleScores energy others = .ok (roundDigits 4 p, roundDigits 4 (max p 0)) ∧
      |p - (energy - m)| ≤ 1 / 100000000 ∧
      ((∀ x ∈ others, 0 < x → 1 / 100000000 < x) ∨ (∃ x ∈ others, x ≤ 0) → p = energy - m) := by
  obtain ⟨m', h1, h2, h3, h4, h5⟩ := withIdentity_lowest others m hm
  refine ⟨energy - m', ?_, ?_, ?_⟩
  · unfold singleScores
    rw [(npMin_spec _ _).2 h1]
    simp only
    rw [secondary_eq energy _ m' h1]
  · rw [abs_le]
    constructor <;> linarith
  · rintro (h | h)
    · rw [h4 h]
    · rw [h5 h]

/-- The tolerance is visible: with one competing reaction at 5·10⁻⁹ eV/atom "doing nothing" is not considered, which changes
the unrounded minimum. -/
theorem C63_tolerance_visible : withIdentity [5 / 1000000000] = [5 / 1000000000] ∧
    Lowest (0 :: [5 / 1000000000]) 0 ∧ npMin (withIdentity [5 / 1000000000]) = .ok (5 / 1000000000) := by
  refine ⟨by decide +kernel, ⟨by simp, ?_⟩, by decide +kernel⟩
  intro x hx
  simp only [List.mem_cons, List.not_mem_nil, or_false] at hx
  rcases hx with rfl | rfl <;> norm_num

/-- C63: the scores do not depend on the order (or repetition) of the competing reactions. -/
theorem C63_order_independent (energy : ℚ) (others others' : List ℚ) (h : ∀ x, x ∈ others ↔ x ∈ others') :
    singleScores energy others = singleScores energy others' := by
  have hw : ∀ x, x ∈ withIdentity others ↔ x ∈ withIdentity others' := by
    intro x
    have hany : (others.any fun x => isclose x 0) = others'.any fun x => isclose x 0 := by
      rw [Bool.eq_iff_iff, List.any_eq_true, List.any_eq_true]
      simp only [h]
    unfold withIdentity
    rw [hany]
    split_ifs
    · exact h x
    · simp [h x]
  obtain ⟨m, hm⟩ := exists_lowest others
  obtain ⟨m', h1, -⟩ := withIdentity_lowest others m hm
  have h1' : Lowest (withIdentity others') m' := ⟨(hw _).1 h1.1, fun x hx => h1.2 x ((hw x).2 hx)⟩
  unfold singleScores
  rw [(npMin_spec _ _).2 h1, (npMin_spec _ _).2 h1']
  simp only
  rw [secondary_eq energy _ m' h1, secondary_eq energy _ m' h1']

theorem roundHalfEven_sign (y : ℚ) : (0 ≤ y → 0 ≤ roundHalfEven y) ∧ (y ≤ 0 → roundHalfEven y ≤ 0) := by
  have h1 : roundHalfEven y = ⌊y⌋ ∨ (roundHalfEven y = ⌊y⌋ + 1 ∧ (⌊y⌋ : ℚ) < y) := by
    unfold roundHalfEven
    split_ifs with a b c
    · exact .inl rfl
    · exact .inr ⟨rfl, by linarith⟩
    · exact .inl rfl
    · refine .inr ⟨rfl, ?_⟩
      push Not at a
      linarith
  constructor
  · intro h
    have := Int.floor_nonneg.2 h
    rcases h1 with h1 | ⟨h1, -⟩ <;> omega
  · intro h
    rcases h1 with h1 | ⟨h1, h2⟩
    · rw [h1]
      exact_mod_cast (Int.floor_le y).trans h
    · rw [h1]
      have : ((⌊y⌋ : ℤ) : ℚ) < ((0 : ℤ) : ℚ) := by push_cast; linarith
      have := Int.cast_lt.1 this
      omega

theorem round_max (n : ℕ) (p : ℚ) : roundDigits n (max p 0) = max (roundDigits n p) 0 := by
  have h10 : (0 : ℚ) < 10 ^ n := by positivity
  have h0 : roundDigits n 0 = 0 := by
    unfold roundDigits
    have hr : roundHalfEven 0 = 0 := le_antisymm ((roundHalfEven_sign 0).2 le_rfl) ((roundHalfEven_sign 0).1 le_rfl)
    rw [zero_mul, hr]
    simp
  rcases le_total 0 p with h | h
  · rw [max_eq_left h, max_eq_left]
    unfold roundDigits
    have := (roundHalfEven_sign (p * 10 ^ n)).1 (by positivity)
    have : (0 : ℚ) ≤ roundHalfEven (p * 10 ^ n) := by exact_mod_cast this
    positivity
  · rw [max_eq_right h, h0, max_eq_right]
    unfold roundDigits
    have := (roundHalfEven_sign (p * 10 ^ n)).2 (mul_nonpos_of_nonpos_of_nonneg h h10.le)
    have h2 : (roundHalfEven (p * 10 ^ n) : ℚ) ≤ 0 := by exact_mod_cast this
    exact div_nonpos_of_nonpos_of_nonneg h2 h10.le

/-- C63: the stored secondary competition is the positive part of the stored primary competition. -/
theorem C63_secondary_is_positive_part (energy : ℚ) (others : List ℚ) (p s : ℚ) (h : singleScores energy others = .ok (p, s)) :
    s = max p 0 := by
  obtain ⟨m, hm⟩ := exists_lowest others
  obtain ⟨q, hq, -, -⟩ := C63_scores energy others m hm
  rw [hq] at h
  cases h
  exact round_max 4 q

/-- C63 for the decorated reaction: the two scores are stored under their names, everything else stays; reactions equal to
the decorated one are not counted as competing with it. -/
theorem C63_decorated {φ : Type} (rxn : JRxn φ) (competing : List (JRxn φ)) (d : List (String × ℚ)) (hd : rxn.data = some d) :
    ∃ p s d', singleScores rxn.energy ((competing.filter fun r => decide (r.key ≠ rxn.key)).map JRxn.energy) = .ok (p, s) ∧
      decorateSingle rxn competing = .ok { rxn with data := some d' } ∧ dictGet d' "primary_competition" = some p ∧
      dictGet d' "secondary_competition" = some s ∧
      ∀ q, q ≠ "primary_competition" → q ≠ "secondary_competition" → dictGet d' q = dictGet d q := by
  obtain ⟨m, hm⟩ := exists_lowest ((competing.filter fun r => decide (r.key ≠ rxn.key)).map JRxn.energy)
  obtain ⟨q, hq, -, -⟩ := C63_scores rxn.energy _ m hm
  refine ⟨roundDigits 4 q, roundDigits 4 (max q 0),
    dictSet (dictSet d "primary_competition" (roundDigits 4 q)) "secondary_competition" (roundDigits 4 (max q 0)),
    hq, ?_, ?_, ?_, ?_⟩
  · unfold decorateSingle
    rw [hq]
    simp only [hd]
  · rw [Dict.dictGet_dictSet, if_neg (by decide), Dict.dictGet_dictSet, if_pos rfl]
  · rw [Dict.dictGet_dictSet, if_pos rfl]
  · intro x hx1 hx2
    rw [Dict.dictGet_dictSet, if_neg (Ne.symm hx2), Dict.dictGet_dictSet, if_neg (Ne.symm hx1)]

example : singleScores (-1) [-2, 3, -3 / 2] = .ok (1, 1) := by decide +kernel
example : singleScores (-1) [2, 3] = .ok (-1, 0) := by decide +kernel
example : singleScores (-1) [] = .ok (-1, 0) := by decide +kernel
theorem exLowest : Lowest (0 :: [-2, 3, -3 / 2]) (-2) := by
  refine ⟨by simp, ?_⟩
  intro x hx
  simp only [List.mem_cons, List.not_mem_nil, or_false] at hx
  rcases hx with rfl | rfl | rfl | rfl <;> norm_num

/-- A reaction without a data dictionary cannot be decorated in this branch (the calculators of the other branch create one). -/
theorem C63_no_data {φ : Type} (rxn : JRxn φ) (competing : List (JRxn φ)) (hd : rxn.data = none) :
    decorateSingle rxn competing = .error .typeError := by
  obtain ⟨m, hm⟩ := exists_lowest ((competing.filter fun r => decide (r.key ≠ rxn.key)).map JRxn.energy)
  obtain ⟨q, hq, -, -⟩ := C63_scores rxn.energy _ m hm
  unfold decorateSingle
  rw [hq]
  simp only [hd]

/-! ### C74 -/

theorem mapM_perm {α β : Type} (f : α → Except Err β) (l m : List α) (h : l.Perm m) (r : List β) (hr : l.mapM f = .ok r) :
    ∃ r', m.mapM f = .ok r' ∧ r.Perm r' := by
  rw [Exc.mapM_ok] at hr
  obtain ⟨r', h1, h2⟩ := List.perm_comp_forall₂ h.symm hr
  exact ⟨r', by rw [Exc.mapM_ok]; exact h1, h2.symm⟩

/-- Whatever the schedule, the collected results are those of the tasks. -/
theorem collect_perm {ι β : Type} (wait : ℕ → List ι → List ι × List ι) (hw : Verif.Props.Utils.WaitSpec wait)
    (task : ι → Except Err β) (refs : List ι) (out : List β) (h : Verif.Model.Solver.collect wait task refs = .ok out) :
    ∃ out', refs.mapM task = .ok out' ∧ out.Perm out' := by
  obtain ⟨o, err, consumed, rest, h1, h2, h3, h4, -⟩ := Verif.Props.Utils.C32_failure task wait hw refs 0
  unfold Verif.Model.Solver.collect at h
  rw [h1] at h
  rcases err with _ | e
  · simp only [Except.ok.injEq] at h
    subst h
    rw [h4 rfl, List.append_nil] at h2
    apply mapM_perm task consumed refs h2 o
    rw [Exc.mapM_ok]
    clear h1 h2
    induction consumed generalizing o with
    | nil =>
      rcases o with _ | ⟨b, o⟩
      · exact List.Forall₂.nil
      · simp at h3
    | cons a l ih =>
      rcases o with _ | ⟨b, o⟩
      · simp at h3
      · simp only [List.map_cons, List.cons.injEq] at h3
        exact List.Forall₂.cons h3.1 (ih o h3.2)
  · simp at h

theorem mapM_flat {α β : Type} (f : α → Except Err β) (ls : List (List α)) (out : List (List β))
    (h : ls.mapM (fun l => l.mapM f) = .ok out) : ls.flatten.mapM f = .ok out.flatten := by
  induction ls generalizing out with
  | nil => rw [Exc.mapM_nil] at h; cases h; rfl
  | cons l ls ih =>
    rw [Exc.mapM_cons] at h
    rcases hl : l.mapM f with e | r
    · rw [hl] at h; cases h
    · rw [hl] at h
      simp only at h
      rcases hls : ls.mapM (fun l => l.mapM f) with e | rs
      · rw [hls] at h; cases h
      · rw [hls] at h
        cases h
        exact Exc.mapM_append f l ls.flatten r rs.flatten hl (ih rs hls)

theorem chunks_flat {α : Type} (xs : List α) (n : ℕ) (hn : 0 < n) :
    ((Verif.Model.Utils.grouper (xs.map some) n none).map fun c => c.filterMap id).flatten = xs := by
  obtain ⟨m, -, h2, -⟩ := Verif.Props.Utils.C31_grouper (xs.map some) n hn none
  rw [← List.filterMap_flatten, h2, List.filterMap_append, List.filterMap_map]
  have : (List.replicate m (none : Option α)).filterMap id = [] := by
    rw [List.filterMap_eq_nil_iff]
    intro a ha
    rw [(List.mem_replicate.1 ha).2]
    rfl
  rw [this]
  simp

/-- C74: whatever the chunk size and the order in which chunks finish, exactly the given reactions are decorated, once each,
and each with the scores it would get on its own. -/
theorem C74_chunk_independent {φ : Type} [DecidableEq φ] (c : CompCfg φ)
    (wait : ℕ → List (List (Option (JRxn φ))) → List (List (Option (JRxn φ))) × List (List (Option (JRxn φ))))
    (hw : Verif.Props.Utils.WaitSpec wait) (n : ℕ) (hn : 0 < n) (rxns out : List (JRxn φ))
    (h : competeAll c wait n rxns = .ok out) :
    ∃ res, List.Forall₂ (fun r r' => competeOne c r = .ok r') rxns res ∧ out.Perm res := by
  unfold competeAll at h
  rcases hc : Verif.Model.Solver.collect wait (competeChunk c) (Verif.Model.Utils.grouper (rxns.map some) n none) with e | o
  · rw [hc] at h; cases h
  · rw [hc] at h
    cases h
    obtain ⟨o', h1, h2⟩ := collect_perm wait hw _ _ o hc
    have h1' : ((Verif.Model.Utils.grouper (rxns.map some) n none).map fun c => c.filterMap id).mapM
        (fun l => l.mapM (competeOne c)) = .ok o' := by
      rw [Exc.mapM_map]
      exact h1
    have h3 := mapM_flat (competeOne c) _ _ h1'
    rw [chunks_flat rxns n hn] at h3
    exact ⟨o'.flatten, (Exc.mapM_ok _ _ _).1 h3, h2.flatten⟩

/-- C74: the computation fails only if some reaction's own computation fails, and then it does fail. -/
theorem C74_total {φ : Type} [DecidableEq φ] (c : CompCfg φ)
    (wait : ℕ → List (List (Option (JRxn φ))) → List (List (Option (JRxn φ))) × List (List (Option (JRxn φ))))
    (hw : Verif.Props.Utils.WaitSpec wait) (n : ℕ) (hn : 0 < n) (rxns : List (JRxn φ)) :
    (∃ out, competeAll c wait n rxns = .ok out) ↔ ∀ r ∈ rxns, ∃ r', competeOne c r = .ok r' := by
  constructor
  · rintro ⟨out, h⟩ r hr
    obtain ⟨res, hf, -⟩ := C74_chunk_independent c wait hw n hn rxns out h
    obtain ⟨i, hi, rfl⟩ := List.mem_iff_getElem.1 hr
    exact ⟨_, List.Forall₂.get hf hi (by rw [← hf.length_eq]; exact hi)⟩
  · intro h
    have : ∀ g ∈ Verif.Model.Utils.grouper (rxns.map some) n none, ∃ b, competeChunk c g = .ok b := by
      intro g hg
      unfold competeChunk
      rcases hm : (g.filterMap id).mapM (competeOne c) with e | b
      · obtain ⟨a, ha, he⟩ := Exc.mapM_error _ _ _ hm
        rw [List.mem_filterMap] at ha
        obtain ⟨x, hx, hxa⟩ := ha
        have hxa' : x = some a := hxa
        subst hxa'
        have : a ∈ rxns := (Verif.Lemmas.Solver.grouper_mem rxns n hn a).1 ⟨g, hg, hx⟩
        obtain ⟨r', hr'⟩ := h a this
        rw [hr'] at he
        cases he
      · exact ⟨b, rfl⟩
    obtain ⟨o, ho⟩ := Verif.Lemmas.Solver.collect_total wait hw (competeChunk c) _ this
    exact ⟨o.flatten, by unfold competeAll; rw [ho]⟩

/-- C74, what is and is not accepted: without an open species three or more precursors are rejected; a three-precursor
reaction consuming the open species is scored with exactly its two other precursors. -/
theorem C74_precursors_partial {φ : Type} [DecidableEq φ] (c : CompCfg φ) (ho : Verif.Spec.RxnSet.SetOrder c.setOrder)
    (rxn : JRxn φ) :
    (c.openF = none → 3 ≤ rxn.reactants.length → precursorsOf c rxn = .error .valueError) ∧
    (rxn.reactants.length ≤ 2 → precursorsOf c rxn = .ok rxn.reactants) ∧
    (∀ o, c.openF = some o → rxn.reactants.length = 3 → rxn.reactants.Nodup → o ∈ rxn.reactants →
      ∃ a b, precursorsOf c rxn = .ok [a, b] ∧ a ≠ b ∧ rxn.reactants.Perm [o, a, b]) := by
  refine ⟨?_, ?_, ?_⟩
  · intro h1 h2
    unfold precursorsOf
    rw [if_pos h2, h1]
  · intro h
    unfold precursorsOf
    rw [if_neg (by omega)]
  · intro o h1 h2 h3 h4
    obtain ⟨hnd, hmem⟩ := ho (rxn.reactants.filter fun f => decide (f ≠ o))
    have hperm : (c.setOrder (rxn.reactants.filter fun f => decide (f ≠ o))).Perm (rxn.reactants.filter fun f => decide (f ≠ o)) :=
      (List.perm_ext_iff_of_nodup hnd (h3.filter _)).2 hmem
    have hp2 : rxn.reactants.Perm (o :: c.setOrder (rxn.reactants.filter fun f => decide (f ≠ o))) := by
      rw [List.perm_ext_iff_of_nodup h3]
      · intro x
        rw [List.mem_cons, hmem, List.mem_filter, decide_eq_true_iff]
        by_cases hx : x = o
        · subst hx; simp [h4]
        · simp [hx]
      · rw [List.nodup_cons]
        refine ⟨?_, hnd⟩
        rw [hmem, List.mem_filter]
        simp
    have hlen := hp2.length_eq
    rcases hs : c.setOrder (rxn.reactants.filter fun f => decide (f ≠ o)) with _ | ⟨a, _ | ⟨b, _ | ⟨x, l⟩⟩⟩
    · rw [hs, h2] at hlen; simp at hlen
    · rw [hs, h2] at hlen; simp at hlen
    · rw [hs] at hp2 hnd
      refine ⟨a, b, ?_, ?_, hp2⟩
      · unfold precursorsOf
        rw [if_pos (by omega), h1]
        simp only
        rw [hs]
      · rintro rfl
        simp at hnd
    · rw [hs, h2] at hlen; simp at hlen

/-- A configuration for the counterexample: formulas are numbers, the open species is 9, the hull branch just records the two
precursors it was given in the energy. -/
def sampleCfg : CompCfg ℕ :=
  ⟨fun a b _ r => .ok { r with energy := 10 * a + b }, fun _ => .ok [], some 9, fun l => l.dedup⟩

/-- C74 is violated when an open species is given: a reaction with three precursors, none of them the open species, is not
rejected; its third precursor is silently ignored. -/
theorem C74_third_precursor_violated :
    competeOne sampleCfg ⟨0, [1, 2, 3], [4], -1, some [], [1]⟩ = .ok ⟨0, [1, 2, 3], [4], 12, some [], [1]⟩ := by
  decide +kernel

example : precursorsOf sampleCfg ⟨0, [1, 9, 3], [4], -1, some [], [1]⟩ = .ok [1, 3] := by decide +kernel
example : precursorsOf { sampleCfg with openF := none } ⟨0, [1, 9, 3], [4], -1, some [], [1]⟩ = .error .valueError := by decide +kernel
example : (competeAll sampleCfg Verif.Props.Utils.lifo 2
    [⟨0, [1, 2], [4], -1, some [], [1]⟩, ⟨1, [1, 3], [4], -1, some [], [1]⟩, ⟨2, [5, 6], [4], -1, some [], [1]⟩]).map
      (·.map fun r => (r.key, r.energy)) = .ok [(2, 56), (0, 12), (1, 13)] := by decide +kernel

/-! ### C75 -/

theorem chempotLoop_spec {φ : Type} (build : Build φ) (sys : List ℕ → Prop) (l : List (JRxn φ))
    (cache : List (List ℕ × (JRxn φ → Except Err (JRxn φ)))) (out : List (JRxn φ))
    (hc : ∀ c ∈ cache, sys c.1 ∧ build c.1 = .ok c.2) (hl : ∀ r ∈ l, sys r.elems) (h : chempotLoop build cache l = .ok out) :
    List.Forall₂ (fun r r' => ∃ s f, sys s ∧ (∀ e ∈ r.elems, e ∈ s) ∧ build s = .ok f ∧ f r = .ok r') l out := by
  induction l generalizing cache out with
  | nil =>
    unfold chempotLoop at h
    cases h
    exact List.Forall₂.nil
  | cons r l ih =>
    unfold chempotLoop at h
    rcases hf : cache.find? (fun c => r.elems.all fun e => decide (e ∈ c.1)) with _ | c
    · rw [hf] at h
      simp only at h
      rcases hb : build r.elems with e | f
      · rw [hb] at h; cases h
      · rw [hb] at h
        simp only at h
        rcases hr : f r with e | r'
        · rw [hr] at h; cases h
        · rw [hr] at h
          simp only at h
          rcases hrec : chempotLoop build (cache ++ [(r.elems, f)]) l with e | rs
          · rw [hrec] at h; cases h
          · rw [hrec] at h
            cases h
            refine List.Forall₂.cons ⟨r.elems, f, hl r (by simp), fun _ he => he, hb, hr⟩ (ih _ rs ?_ ?_ hrec)
            · intro c hc'
              rcases List.mem_append.1 hc' with hc' | hc'
              · exact hc c hc'
              · rw [List.mem_singleton.1 hc']
                exact ⟨hl r (by simp), hb⟩
            · intro x hx; exact hl x (by simp [hx])
    · rw [hf] at h
      simp only at h
      have hin := List.mem_of_find?_eq_some hf
      have hsup := List.find?_some hf
      rcases hr : c.2 r with e | r'
      · rw [hr] at h; cases h
      · rw [hr] at h
        simp only at h
        rcases hrec : chempotLoop build cache l with e | rs
        · rw [hrec] at h; cases h
        · rw [hrec] at h
          cases h
          refine List.Forall₂.cons ⟨c.1, c.2, (hc c hin).1, ?_, (hc c hin).2, hr⟩ (ih _ rs hc ?_ hrec)
          · intro e he
            simpa using List.all_eq_true.1 hsup e he
          · intro x hx; exact hl x (by simp [hx])

/-- C75: in every chunk, each reaction is decorated exactly once, by the calculator of a chemical system that is the system of
some reaction of the same chunk and contains all the elements of the reaction. -/
theorem C75_covering {φ : Type} (build : Build φ) (chunk : List (Option (JRxn φ))) (out : List (JRxn φ))
    (h : chempotChunk build chunk = .ok out) :
    ∃ l : List (JRxn φ), l.Perm (chunk.filterMap id) ∧
      List.Forall₂ (fun r r' => ∃ q f, some q ∈ chunk ∧ (∀ e ∈ r.elems, e ∈ q.elems) ∧ build q.elems = .ok f ∧ f r = .ok r') l out := by
  have hp : (sortBySize (chunk.filterMap id)).Perm (chunk.filterMap id) := List.perm_insertionSort _ _
  refine ⟨_, hp, ?_⟩
  have := chempotLoop_spec build (fun s => ∃ q, some q ∈ chunk ∧ q.elems = s) _ [] out (by simp) ?_ h
  · refine this.imp ?_
    rintro r r' ⟨s, f, ⟨q, hq, rfl⟩, h1, h2, h3⟩
    exact ⟨q, f, hq, h1, h2, h3⟩
  · intro r hr
    have := hp.mem_iff.1 hr
    rw [List.mem_filterMap] at this
    obtain ⟨x, hx, hxr⟩ := this
    have hxr' : x = some r := hxr
    subst hxr'
    exact ⟨r, hx, rfl⟩

/-- C75, what holds of independence from chunking: if a calculator for a larger system gives the same decoration as the
calculator for the reaction's own system, then every chunk gives each reaction its own decoration. Missing: real calculators
need not satisfy the hypothesis, see `C75_chunking_violated`. -/
theorem C75_own_system_partial {φ : Type} (build : Build φ) (own : JRxn φ → JRxn φ)
    (hown : ∀ r s f, (∀ e ∈ r.elems, e ∈ s) → build s = .ok f → ∀ r', f r = .ok r' → r' = own r)
    (chunk : List (Option (JRxn φ))) (out : List (JRxn φ)) (h : chempotChunk build chunk = .ok out) :
    out.Perm ((chunk.filterMap id).map own) := by
  obtain ⟨l, hp, hf⟩ := C75_covering build chunk out h
  have : out = l.map own := by
    clear hp h
    induction hf with
    | nil => rfl
    | cons h1 _ ih =>
      obtain ⟨q, f, -, h2, h3, h4⟩ := h1
      rw [List.map_cons, ← ih, hown _ _ f h2 h3 _ h4]
  rw [this]
  exact hp.map own

/-- The hypothesis is satisfiable: a calculator that does not look at its system. -/
example : chempotChunk (fun _ => .ok fun r => .ok { r with energy := r.key }) [some (⟨7, [1], [2], 0, none, [1]⟩ : JRxn ℕ), none] =
    .ok [⟨7, [1], [2], 7, none, [1]⟩] := by decide +kernel

/-- A calculator whose value depends on the chemical system of its diagram (here: on the number of elements). -/
def sampleBuild : Build ℕ := fun s => .ok fun r => .ok { r with energy := s.length }

/-- C75 is violated: the value of a reaction depends on which other reactions share its chunk. Reaction 0 (elements 1, 2)
gets the value of its own system when alone and that of the larger system when chunked with reaction 1. -/
theorem C75_chunking_violated :
    let a : JRxn ℕ := ⟨0, [1], [2], 0, none, [1, 2]⟩
    let b : JRxn ℕ := ⟨1, [1], [2], 0, none, [1, 2, 3]⟩
    chempotChunk sampleBuild [some a, none] = .ok [{ a with energy := 2 }] ∧
      chempotChunk sampleBuild [some a, some b] = .ok [{ b with energy := 3 }, { a with energy := 3 }] := by
  decide +kernel

/-! ### C76 -/

theorem mem_byReactants {φ : Type} [DecidableEq φ] (all : List (JRxn φ)) (fs : List φ) (r : JRxn φ) :
    r ∈ byReactants all fs ↔ r ∈ all ∧ ∀ f ∈ r.reactants, f ∈ fs := by
  simp [byReactants]

/-- C76, exactly what the job uses: of all competing reactions, those that do not consume the open species, or all of them
when some target reaction consumes it. Missing from the full claim: competing reactions consuming an open species that no
target reaction consumes. -/
theorem C76_competing_partial {φ : Type} [DecidableEq φ] (all : List (JRxn φ)) (target : φ) (openF : Option φ) (t : JRxn φ)
    (ht : t ∈ all) (htp : target ∈ t.products) (r : JRxn φ) :
    r ∈ jobCompeting all target openF t ↔ r ∈ all ∧ Competes openF t r ∧
      (∀ o ∈ r.reactants, openF = some o → ∃ t' ∈ all, target ∈ t'.products ∧ o ∈ t'.reactants) := by
  unfold jobCompeting poolOf Competes
  rw [mem_byReactants, mem_byReactants]
  have htt : t ∈ targetsOf all target := by
    unfold targetsOf
    rw [List.mem_filter]
    exact ⟨ht, by simpa using htp⟩
  simp only [List.mem_flatMap, List.mem_append, Option.mem_toList]
  have hmt : ∀ t', t' ∈ targetsOf all target ↔ t' ∈ all ∧ target ∈ t'.products := by
    intro t'
    simp [targetsOf]
  constructor
  · rintro ⟨⟨h1, h2⟩, h3⟩
    refine ⟨h1, h3, ?_⟩
    intro o ho _
    obtain ⟨t', ht', hot⟩ := h2 o ho
    obtain ⟨ha, hb⟩ := (hmt t').1 ht'
    exact ⟨t', ha, hb, hot⟩
  · rintro ⟨h1, h2, h3⟩
    refine ⟨⟨h1, ?_⟩, h2⟩
    intro f hf
    rcases h2 f hf with h | h
    · exact ⟨t, htt, h⟩
    · obtain ⟨t', ha, hb, hc⟩ := h3 f hf h
      exact ⟨t', (hmt t').2 ⟨ha, hb⟩, hc⟩

/-- In closed systems narrowing the pool is harmless. -/
theorem C76_closed {φ : Type} [DecidableEq φ] (all : List (JRxn φ)) (target : φ) (t : JRxn φ) (ht : t ∈ all)
    (htp : target ∈ t.products) (r : JRxn φ) : r ∈ jobCompeting all target none t ↔ r ∈ all ∧ Competes none t r := by
  rw [C76_competing_partial all target none t ht htp]
  constructor
  · rintro ⟨h1, h2, -⟩; exact ⟨h1, h2⟩
  · rintro ⟨h1, h2⟩; exact ⟨h1, h2, by simp⟩

/-- What the job does with a target reaction: it is scored by the decoration of the reactions of C76 (precursors and the open
species together), and by no others. -/
theorem C76_decorated {φ : Type} [DecidableEq φ] (c : CompCfg φ) (all : List (JRxn φ)) (target : φ) (t out : JRxn φ)
    (ht : t ∈ all) (htp : target ∈ t.products)
    (hget : ∀ fs, c.getBy fs = .ok (byReactants (poolOf all target) fs)) (h : competeOne c t = .ok out) :
    ∃ competing ps, precursorsOf c t = .ok ps ∧ decorateRxn c.hull t competing ps = .ok out ∧
      ∀ r, r ∈ competing ↔ r ∈ all ∧ Competes c.openF t r ∧
        (∀ o ∈ r.reactants, c.openF = some o → ∃ t' ∈ all, target ∈ t'.products ∧ o ∈ t'.reactants) := by
  simp only [competeOne, hget] at h
  rcases hp : precursorsOf c t with e | ps
  · rw [hp] at h; cases h
  · rw [hp] at h
    exact ⟨_, ps, rfl, h, fun r => C76_competing_partial all target c.openF t ht htp r⟩

/-- C76 is violated in open systems: `1 → 4` at −1 eV/atom competes with `1 + 9 → 5` at −2 eV/atom when 9 is open, but the job
does not see the competitor, and reports −1 instead of 1 for the primary competition. -/
theorem C76_open_violated :
    let t : JRxn ℕ := ⟨0, [1], [4], -1, some [], [1, 2]⟩
    let r : JRxn ℕ := ⟨1, [1, 9], [5], -2, some [], [1, 2]⟩
    Competes (some 9) t r ∧ r ∈ [t, r] ∧ jobCompeting [t, r] 4 (some 9) t = [t] ∧
      decorateSingle t [t, r] = .ok { t with data := some [("primary_competition", 1), ("secondary_competition", 1)] } ∧
      decorateSingle t (jobCompeting [t, r] 4 (some 9) t) =
        .ok { t with data := some [("primary_competition", -1), ("secondary_competition", 0)] } := by
  refine ⟨?_, by simp, by decide +kernel, by decide +kernel, by decide +kernel⟩
  intro f hf
  simp only [List.mem_cons, List.not_mem_nil, or_false] at hf
  rcases hf with rfl | rfl
  · left; simp
  · right; rfl

/-- The hypotheses of `C76_decorated` met by a system with an open species `9`: the reaction that uses it competes and is seen. -/
example :
    let all : List (JRxn ℕ) := [⟨0, [1, 9], [4], -1, some [], [1, 2]⟩, ⟨1, [1, 9], [5], -2, some [], [1, 2]⟩, ⟨2, [1], [4], -1, some [], [1, 2]⟩]
    let c : CompCfg ℕ := { sampleCfg with openF := some 9, getBy := fun fs => .ok (byReactants (poolOf all 4) fs) }
    competeOne c ⟨2, [1], [4], -1, some [], [1, 2]⟩ =
      .ok ⟨2, [1], [4], -1, some [("primary_competition", 1), ("secondary_competition", 1)], [1, 2]⟩ := by decide +kernel

example : jobCompeting ([⟨0, [1], [4], -1, some [], []⟩, ⟨1, [1], [5], -2, some [], []⟩, ⟨2, [1, 3], [5], -2, some [], []⟩] : List (JRxn ℕ))
    4 none ⟨0, [1], [4], -1, some [], []⟩ = [⟨0, [1], [4], -1, some [], []⟩, ⟨1, [1], [5], -2, some [], []⟩] := by decide +kernel

/-! ### C78 -/

/-- C78: if the memory holds at least one copy of the reactions, the chosen chunk size is positive and, when the number of
workers has to be limited, there are no more chunks than copies that fit in memory. Missing: a cluster with less memory than
one copy, see `C78_small_memory_violated`. -/
theorem C78_fits_partial {α : Type} (chunk nRxns numCpus available : ℕ) (targets : List α) (hchunk : 0 < chunk)
    (hmem : 250 * nRxns ≤ available) :
    ∃ n, chunkSizeFor chunk targets.length nRxns numCpus available = .ok n ∧ 0 < n ∧
      (available < numCpus * (250 * nRxns) →
        (Verif.Model.Utils.grouper (targets.map some) n none).length * (250 * nRxns) ≤ available) := by
  unfold chunkSizeFor
  split_ifs with h1 h2
  · exfalso
    rcases Nat.eq_zero_or_pos (250 * nRxns) with h0 | h0
    · rw [h0] at h1; simp at h1
    · have := Nat.div_pos hmem h0
      omega
  · refine ⟨_, rfl, Nat.succ_pos _, fun _ => ?_⟩
    generalize hk : available / (250 * nRxns) = k at h2
    have hk0 : 0 < k := Nat.pos_of_ne_zero h2
    obtain ⟨m, hm, hfl, hall, -⟩ := Verif.Props.Utils.C31_grouper (targets.map some) (targets.length / k + 1) (Nat.succ_pos _) none
    generalize hg : Verif.Model.Utils.grouper (targets.map some) (targets.length / k + 1) none = g at hfl hall
    have hlen : g.length * (targets.length / k + 1) = targets.length + m := by
      have := congrArg List.length hfl
      rw [List.length_append, List.length_map, List.length_replicate, List.length_flatten] at this
      rw [← this]
      have hmap : g.map List.length = List.replicate g.length (targets.length / k + 1) := by
        rw [List.eq_replicate_iff]
        refine ⟨by simp, ?_⟩
        intro b hb
        obtain ⟨c, hc, rfl⟩ := List.mem_map.1 hb
        exact hall c hc
      rw [hmap]
      simp
    have hgk : g.length ≤ k := by
      by_contra hc
      push Not at hc
      have h3 : (k + 1) * (targets.length / k + 1) ≤ g.length * (targets.length / k + 1) := Nat.mul_le_mul_right _ hc
      have h4 : targets.length < k * (targets.length / k + 1) := Nat.lt_mul_div_succ _ hk0
      rw [hlen, Nat.add_mul, Nat.one_mul] at h3
      omega
    calc g.length * (250 * nRxns) ≤ k * (250 * nRxns) := Nat.mul_le_mul_right _ hgk
      _ ≤ available := by rw [← hk]; exact Nat.div_mul_le_self _ _
  · exact ⟨chunk, rfl, hchunk, fun h => absurd h h1⟩

/-- C78 is violated: with less memory than one copy of the reactions the size computation divides by zero, for every number
of processors. -/
theorem C78_small_memory_violated (chunk nTargets nRxns numCpus available : ℕ) (hc : 0 < numCpus) (h : available < 250 * nRxns) :
    chunkSizeFor chunk nTargets nRxns numCpus available = .error .zeroDivision := by
  unfold chunkSizeFor
  rw [if_pos, if_pos (Nat.div_eq_of_lt h)]
  exact h.trans_le (Nat.le_mul_of_pos_left _ hc)

example : chunkSizeFor 100 1000 8 4 5000 = .ok 501 := by decide
example : chunkSizeFor 100 1000 8 4 1000 = .error .zeroDivision := by decide
example : chunkSizeFor 100 1000 8 4 80000 = .ok 100 := by decide

example := C63_scores (-1) [-2, 3, -3 / 2] (-2) exLowest
example := C63_order_independent (-1) [-2, 3, -2] [3, -2] (by simp [or_comm])
example := C63_secondary_is_positive_part (-1) [2, 3] (-1) 0 (by decide +kernel)
example := C63_no_data (⟨0, [1], [2], -1, none, [1]⟩ : JRxn ℕ) [⟨1, [1], [3], -2, none, [1]⟩] rfl
example := C74_total sampleCfg Verif.Props.Utils.lifo Verif.Props.Utils.lifo_spec 2 (by decide)
  [⟨0, [1, 2], [4], -1, some [], [1]⟩, ⟨1, [1, 3], [4], -1, some [], [1]⟩, ⟨2, [5, 6], [4], -1, some [], [1]⟩]
example := (C74_precursors_partial sampleCfg (fun l => ⟨List.nodup_dedup l, fun _ => List.mem_dedup⟩) ⟨0, [1, 9, 3], [4], -1, some [], [1]⟩).2.2 9 rfl rfl (by decide) (by decide)
example := C75_covering sampleBuild [some ⟨0, [1], [2], 0, none, [1, 2]⟩, some ⟨1, [1], [2], 0, none, [1, 2, 3]⟩] _ C75_chunking_violated.2
example := C76_competing_partial ([⟨0, [1], [4], -1, some [], []⟩, ⟨1, [1], [5], -2, some [], []⟩, ⟨2, [1, 3], [5], -2, some [], []⟩] : List (JRxn ℕ))
  4 (some 3) ⟨0, [1], [4], -1, some [], []⟩ (by simp) (by simp) ⟨1, [1], [5], -2, some [], []⟩
example := (C76_closed ([⟨0, [1], [4], -1, some [], []⟩, ⟨1, [1], [5], -2, some [], []⟩, ⟨2, [1, 3], [5], -2, some [], []⟩] : List (JRxn ℕ))
  4 ⟨0, [1], [4], -1, some [], []⟩ (by simp) (by simp) ⟨1, [1], [5], -2, some [], []⟩).mp (by decide +kernel)
example := C78_fits_partial 100 8 4 5000 (List.replicate 1000 ()) (by decide) (by decide)

end Verif.Props.Jobs
