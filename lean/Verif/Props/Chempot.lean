import Verif.Model.Chempot
import Verif.Lemmas.Dict
import Verif.Lemmas.Except
import Verif.Lemmas.Solver
import Verif.Props.Thermo
import Mathlib.Tactic.Linarith
import Mathlib.Tactic.NormNum

/-!
C93: points of chemical potential domains. C94: offsets.
-/

set_option linter.unusedSectionVars false

namespace Verif.Props.Chempot
open Verif.Py Verif.Model Verif.Model.Chempot Verif.Model.Thermo Verif.Lemmas.Dict

variable {η ε φ : Type} [DecidableEq η] [DecidableEq ε] [DecidableEq φ]

/-! ### C93 -/

/-- Specification: the energy per atom a phase with these atomic fractions would have at the chemical potentials `μ`. -/
def weighted (elements : List ε) (frac : η → ε → ℚ) (e : η) (μ : List ℚ) : ℚ :=
  (List.zipWith (fun el m => frac e el * m) elements μ).sum

/-- What is assumed of scipy's half-space intersection (rows `a` with last component `b` stand for `a · μ + b ≤ 0`): every reported point
satisfies all half-spaces, and those of its facet with equality. -/
def Intersects (n : ℕ) (H : List (List ℚ)) (pairs : List (List ℚ × List ℕ)) : Prop :=
  ∀ p ∈ pairs, p.1.length = n ∧ (∀ row ∈ H, dot row (p.1 ++ [1]) ≤ 0) ∧
    ∀ v ∈ p.2, ∃ row, H[v]? = some row ∧ dot row (p.1 ++ [1]) = 0

/-- What is assumed of pymatgen's selection of ground states: one reference per element, which consists of that element and is one of the
ground states. -/
structure Refs (elements : List ε) (frac : η → ε → ℚ) (mins : List η) (refs : List (ε × η)) : Prop where
  nodup : (refs.map Prod.fst).Nodup
  mem : ∀ p ∈ refs, p.2 ∈ mins ∧ p.1 ∈ elements ∧ ∀ el ∈ elements, frac p.2 el = if el = p.1 then 1 else 0

theorem dot_hyperplane (elements : List ε) (frac : η → ε → ℚ) (epa : η → ℚ) (e : η) (μ : List ℚ) (h : μ.length = elements.length) :
    dot (hyperplane elements frac epa e) (μ ++ [1]) = weighted elements frac e μ - epa e := by
  unfold dot hyperplane weighted
  rw [List.zipWith_append (by simpa using h.symm), List.sum_append, List.zipWith_map_left]
  simp [sub_eq_add_neg]

theorem weighted_unit (elements : List ε) (hn : elements.Nodup) (frac : η → ε → ℚ) (e : η) (μ : List ℚ) (h : μ.length = elements.length)
    (el : ε) (i : ℕ) (hi : elements[i]? = some el) (hf : ∀ x ∈ elements, frac e x = if x = el then 1 else 0) :
    μ[i]? = some (weighted elements frac e μ) := by
  unfold weighted
  induction elements generalizing μ i with
  | nil => simp at hi
  | cons x xs ih =>
    cases μ with
    | nil => simp at h
    | cons m μ =>
      rw [List.nodup_cons] at hn
      rw [List.zipWith_cons_cons, List.sum_cons, hf x (by simp)]
      cases i with
      | zero =>
        simp only [List.getElem?_cons_zero, Option.some.injEq] at hi ⊢
        subst hi
        have : (List.zipWith (fun el m => frac e el * m) xs μ).sum = 0 := by
          apply List.sum_eq_zero
          intro y hy
          rw [List.mem_iff_getElem?] at hy
          obtain ⟨j, hj⟩ := hy
          rw [List.getElem?_zipWith_eq_some] at hj
          obtain ⟨a, b, ha, -, rfl⟩ := hj
          have hax := List.mem_of_getElem? ha
          rw [hf a (by simp [hax]), if_neg (by rintro rfl; exact hn.1 hax), zero_mul]
        rw [if_pos rfl, this]; ring
      | succ i =>
        simp only [List.getElem?_cons_succ] at hi ⊢
        have hx : x ≠ el := by rintro rfl; exact hn.1 (List.mem_of_getElem? hi)
        rw [if_neg hx, zero_mul, zero_add]
        exact ih hn.2 μ (by simpa using h) i hi fun y hy => hf y (by simp [hy])

theorem weighted_mono (elements : List ε) (frac : η → ε → ℚ) (e : η) (h0 : ∀ el ∈ elements, 0 ≤ frac e el) (μ ν : List ℚ)
    (hl : μ.length = elements.length) (h : List.Forall₂ (· ≤ ·) μ ν) : weighted elements frac e μ ≤ weighted elements frac e ν := by
  unfold weighted
  induction h generalizing elements with
  | nil => simp
  | @cons m n μ ν hm _ ih =>
    cases elements with
    | nil => simp
    | cons x xs =>
      simp only [List.zipWith_cons_cons, List.sum_cons]
      exact add_le_add (mul_le_mul_of_nonneg_left hm (h0 x (by simp))) (ih xs (fun y hy => h0 y (by simp [hy])) (by simpa using hl))

/-- The selected half-spaces: those of the elemental references and of the entries with negative formation energy; with their entries in
the same order. -/
theorem selection (elements : List ε) (frac : η → ε → ℚ) (epa : η → ℚ) (mins : List η) (refs : List (ε × η))
    (H : List (List ℚ)) (E : List η) (h : hyperplanesAndEntries elements frac epa mins refs = .ok (H, E)) :
    ∃ vec, List.Forall₂ (fun el v => ∃ r, dictGet refs el = some r ∧ v = epa r) elements vec ∧
      H = E.map (hyperplane elements frac epa) ∧
      (∀ p ∈ refs, p.2 ∈ mins) ∧
      ∀ e, e ∈ E ↔ e ∈ mins ∧ (epa e - weighted elements frac e vec < -formTol ∨ ∃ p ∈ refs, p.2 = e) := by
  unfold hyperplanesAndEntries at h
  cases hv : elements.mapM (refEnergy epa refs) with
  | error x => simp only [hv] at h; cases h
  | ok vec =>
    simp only [hv] at h
    cases hr : refs.mapM (fun p => indexIn mins p.2) with
    | error x => rw [hr] at h; cases h
    | ok ri =>
      rw [hr] at h
      injection h with h
      injection h with h1 h2
      have hvec : List.Forall₂ (fun el v => ∃ r, dictGet refs el = some r ∧ v = epa r) elements vec := by
        have := (Verif.Lemmas.Exc.mapM_ok _ _ _).mp hv
        clear hv h1 h2
        induction this with
        | nil => exact .nil
        | cons a _ ih =>
          refine .cons ?_ ih
          unfold refEnergy at a
          split at a
          · rename_i r hr
            injection a with a
            exact ⟨r, hr, a.symm⟩
          · cases a
      have hlen : vec.length = elements.length := hvec.length_eq.symm
      have hri : ∀ p ∈ refs, p.2 ∈ mins := by
        intro p hp
        obtain ⟨i, -, hi⟩ := Verif.Lemmas.Solver.mapM_at _ _ _ hr p hp
        unfold indexIn at hi
        split at hi
        · assumption
        · cases hi
      refine ⟨vec, hvec, ?_, hri, ?_⟩
      · rw [← h1, ← h2, List.map_filterMap]
        apply List.filterMap_congr
        intro i _
        simp
      · intro e
        rw [← h2, List.filterMap_append, List.mem_append, List.mem_filterMap, List.mem_filterMap]
        constructor
        · rintro (⟨i, hi, he⟩ | ⟨i, hi, he⟩)
          · rw [List.mem_filter] at hi
            rw [List.getElem?_map, he] at hi
            simp only [Option.map_some, decide_eq_true_eq] at hi
            rw [dot_hyperplane _ _ _ _ _ hlen] at hi
            exact ⟨List.mem_of_getElem? he, Or.inl (by linarith [hi.2])⟩
          · obtain ⟨p, hp, hi⟩ := Verif.Lemmas.Exc.mapM_mem _ _ _ hr i hi
            unfold indexIn at hi
            rw [if_pos (hri p hp)] at hi
            injection hi with hi
            refine ⟨List.mem_of_getElem? he, Or.inr ⟨p, hp, ?_⟩⟩
            rw [← hi, List.getElem?_idxOf (hri p hp)] at he
            exact Option.some.inj he
        · rintro ⟨hm, h | ⟨p, hp, rfl⟩⟩
          · left
            refine ⟨mins.idxOf e, ?_, List.getElem?_idxOf hm⟩
            rw [List.mem_filter]
            refine ⟨List.mem_range.mpr (List.idxOf_lt_length_of_mem hm), ?_⟩
            rw [List.getElem?_map, List.getElem?_idxOf hm]
            simp only [Option.map_some, decide_eq_true_eq]
            rw [dot_hyperplane _ _ _ _ _ hlen]
            linarith
          · right
            obtain ⟨i, hi, hie⟩ := Verif.Lemmas.Solver.mapM_at _ _ _ hr p hp
            unfold indexIn at hie
            rw [if_pos hm] at hie
            injection hie with hie
            exact ⟨i, hi, by rw [← hie]; exact List.getElem?_idxOf hm⟩

/-- Points collected for formula `f`. -/
def collected {P : Type} (formula : η → φ) (entries : List η) (f : φ) (vps : List (ℕ × P)) : List P :=
  vps.filterMap fun vp => if (entries[vp.1]?).map formula = some f then some vp.2 else none

theorem collect_fold {P : Type} (formula : η → φ) (entries : List η) (nB : ℕ) (vps : List (ℕ × P)) (d d' : List (φ × List P))
    (hd : (d.map Prod.fst).Nodup) (h : vps.foldlM (collectStep formula entries nB) d = .ok d') :
    (d'.map Prod.fst).Nodup ∧ ∀ f, dictGet d' f = (dictGet d f).map fun l => l ++ collected formula entries f vps := by
  induction vps generalizing d with
  | nil =>
    injection h with h
    subst h
    refine ⟨hd, fun f => ?_⟩
    cases dictGet d f <;> simp [collected]
  | cons vp vps ih =>
    rw [List.foldlM_cons] at h
    unfold collectStep at h
    by_cases hb : entries.length ≤ vp.1 ∧ vp.1 < entries.length + nB
    · rw [if_pos hb] at h
      obtain ⟨h1, h2⟩ := ih d hd h
      refine ⟨h1, fun f => ?_⟩
      have : entries[vp.1]? = none := List.getElem?_eq_none hb.1
      rw [h2 f]
      simp [collected, this]
    · rw [if_neg hb] at h
      cases he : entries[vp.1]? with
      | none => rw [he] at h; cases h
      | some e =>
        rw [he] at h
        simp only at h
        cases hg : dictGet d (formula e) with
        | none => rw [hg] at h; cases h
        | some l =>
          rw [hg] at h
          obtain ⟨h1, h2⟩ := ih _ (nodup_dictSet _ _ _ hd) h
          refine ⟨h1, fun f => ?_⟩
          rw [h2 f, dictGet_dictSet]
          by_cases hf : f = formula e
          · subst hf
            rw [if_pos rfl, hg]
            simp [collected, he]
          · rw [if_neg (Ne.symm hf)]
            have : collected formula entries f (vp :: vps) = collected formula entries f vps := by
              unfold collected
              rw [List.filterMap_cons_none]
              rw [he, if_neg]
              simp only [Option.map_some, Option.some.injEq]
              exact fun h => hf h.symm
            rw [this]

theorem dictOf_empty {P : Type} (formula : η → φ) (entries : List η) (f : φ) :
    dictGet (dictOf (entries.map fun e => (formula e, ([] : List P)))) f = if f ∈ entries.map formula then some [] else none := by
  split_ifs with h
  · cases hg : dictGet (dictOf (entries.map fun e => (formula e, ([] : List P)))) f with
    | none =>
      rw [dictGet_eq_none, mem_keys_dictOf, List.map_map] at hg
      exact absurd h hg
    | some l =>
      have := mem_dictOf _ _ (mem_of_dictGet _ _ _ hg)
      rw [List.mem_map] at this
      obtain ⟨e, -, he⟩ := this
      injection he with _ he
      rw [← he]
  · rw [dictGet_eq_none, mem_keys_dictOf, List.map_map]
    exact h

/-- **C93, contents.** The domains consist of exactly the intersection points on the facets of the selected phases: nothing is lost, added
or attributed to another formula. Every formula occurs once, with at least one point. -/
theorem C93_contents (elements : List ε) (frac : η → ε → ℚ) (epa : η → ℚ) (formula : η → φ) (mins : List η) (refs : List (ε × η))
    (borders : List (List ℚ)) (hsInt : List (List ℚ) → List (List ℚ × List ℕ)) (doms : List (φ × List (List ℚ)))
    (h : cpdDomains elements frac epa formula mins refs borders hsInt = .ok doms) :
    ∃ H E, hyperplanesAndEntries elements frac epa mins refs = .ok (H, E) ∧ 2 ≤ elements.length ∧ refs.length = elements.length ∧
      (doms.map Prod.fst).Nodup ∧ (∀ d ∈ doms, d.2 ≠ []) ∧
      ∀ f p, (∃ pts, (f, pts) ∈ doms ∧ p ∈ pts) ↔
        ∃ facet v e, (p, facet) ∈ hsInt (H ++ borders) ∧ v ∈ facet ∧ E[v]? = some e ∧ formula e = f := by
  unfold cpdDomains at h
  cases hh : hyperplanesAndEntries elements frac epa mins refs with
  | error x => rw [hh] at h; cases h
  | ok he =>
    obtain ⟨H, E⟩ := he
    rw [hh] at h
    by_cases h1 : elements.length < 2
    · simp only [bind, Except.bind, if_pos h1] at h; cases h
    by_cases h2 : refs.length ≠ elements.length
    · simp only [bind, Except.bind, if_neg h1, if_pos h2] at h; cases h
    simp only [bind, Except.bind, if_neg h1, if_neg h2] at h
    push Not at h1 h2
    refine ⟨H, E, rfl, h1, h2, ?_⟩
    unfold getDomains at h
    cases hf : ((hsInt (H ++ borders)).flatMap fun p => p.2.map fun v => (v, p.1)).foldlM (collectStep formula E borders.length)
        (dictOf (E.map fun e => (formula e, []))) with
    | error x => rw [hf] at h; cases h
    | ok d =>
      rw [hf] at h
      injection h with h
      subst h
      obtain ⟨g1, g2⟩ := collect_fold formula E borders.length _ _ _ (nodup_dictOf _) hf
      refine ⟨g1.sublist (List.filter_sublist.map _), ?_, ?_⟩
      · intro x hx hx'
        have := (List.mem_filter.mp hx).2
        rw [hx'] at this
        simp at this
      · intro f p
        have key : ∀ pts, (f, pts) ∈ d → (p ∈ pts ↔ ∃ facet v e, (p, facet) ∈ hsInt (H ++ borders) ∧ v ∈ facet ∧ E[v]? = some e ∧
            formula e = f) := by
          intro pts hpts
          have := dictGet_eq_some_of_mem _ g1 _ _ hpts
          rw [g2 f, dictOf_empty] at this
          split_ifs at this with hfm
          · simp only [Option.map_some, List.nil_append, Option.some.injEq] at this
            rw [← this]
            unfold collected
            rw [List.mem_filterMap]
            constructor
            · rintro ⟨⟨v, q⟩, hvq, hq⟩
              rw [List.mem_flatMap] at hvq
              obtain ⟨⟨q', facet⟩, hp, hv⟩ := hvq
              rw [List.mem_map] at hv
              obtain ⟨v', hv', hveq⟩ := hv
              injection hveq with e1 e2
              subst e1; subst e2
              simp only at hq
              split_ifs at hq with hc
              · injection hq with hq
                subst hq
                cases hE : E[v']? with
                | none => rw [hE] at hc; simp at hc
                | some e =>
                  rw [hE] at hc
                  exact ⟨facet, v', e, hp, hv', hE, Option.some.inj hc⟩
            · rintro ⟨facet, v, e, hp, hv, hE, rfl⟩
              refine ⟨(v, p), ?_, by simp [hE]⟩
              rw [List.mem_flatMap]
              exact ⟨(p, facet), hp, List.mem_map.mpr ⟨v, hv, rfl⟩⟩
          · simp at this
        constructor
        · rintro ⟨pts, hpts, hp⟩
          exact (key pts (List.mem_filter.mp hpts).1).mp hp
        · rintro ⟨facet, v, e, hp, hv, hE, rfl⟩
          have hfm : formula e ∈ E.map formula := List.mem_map.mpr ⟨e, List.mem_of_getElem? hE, rfl⟩
          have hg := g2 (formula e)
          rw [dictOf_empty, if_pos hfm] at hg
          have hm := mem_of_dictGet _ _ _ hg
          have hpin := (key _ hm).mpr ⟨facet, v, e, hp, hv, hE, rfl⟩
          refine ⟨_, List.mem_filter.mpr ⟨hm, ?_⟩, hpin⟩
          rw [List.isEmpty_eq_false_iff.mpr (List.ne_nil_of_mem hpin)]
          rfl

/-- **C93, points.** Every point of the domain of a formula lies on the hyperplane of the ground state of that formula, which is an element
or has negative formation energy, and no entry of the diagram lies below by more than the tolerance: not the selected ones, not the ones
left out, and not the polymorphs. -/
theorem C93_points (elements : List ε) (hn : elements.Nodup) (frac : η → ε → ℚ) (epa : η → ℚ) (formula : η → φ)
    (entries mins : List η) (refs : List (ε × η)) (R : Refs elements frac mins refs)
    (h0 : ∀ e ∈ mins, ∀ el ∈ elements, 0 ≤ frac e el)
    (hmins : ∀ e ∈ entries, ∃ m ∈ mins, (∀ el ∈ elements, frac e el = frac m el) ∧ epa m ≤ epa e)
    (borders : List (List ℚ)) (hsInt : List (List ℚ) → List (List ℚ × List ℕ)) (hspec : ∀ H, Intersects elements.length H (hsInt H))
    (doms : List (φ × List (List ℚ))) (h : cpdDomains elements frac epa formula mins refs borders hsInt = .ok doms)
    (f : φ) (pts : List (List ℚ)) (hd : (f, pts) ∈ doms) (μ : List ℚ) (hμ : μ ∈ pts) :
    (∃ e ∈ mins, formula e = f ∧ weighted elements frac e μ = epa e ∧
      ((∃ el, (el, e) ∈ refs) ∨ ∃ vec, List.Forall₂ (fun el v => ∃ r, (el, r) ∈ refs ∧ v = epa r) elements vec ∧
        epa e - weighted elements frac e vec < -formTol)) ∧
    (∀ e ∈ entries, weighted elements frac e μ ≤ epa e + formTol) ∧ ∀ row ∈ borders, dot row (μ ++ [1]) ≤ 0 := by
  obtain ⟨H, E, hHE, -, -, -, -, hiff⟩ := C93_contents elements frac epa formula mins refs borders hsInt doms h
  obtain ⟨facet, v, e, hp, hv, hE, hfe⟩ := (hiff f μ).mp ⟨pts, hd, hμ⟩
  obtain ⟨vec, hvec, hHmap, hrm, hmem⟩ := selection elements frac epa mins refs H E hHE
  obtain ⟨hlen, hall, heq⟩ := hspec _ _ hp
  simp only at hlen hall heq
  have hEm := (hmem e).mp (List.mem_of_getElem? hE)
  have hsat : ∀ x ∈ E, weighted elements frac x μ ≤ epa x := by
    intro x hx
    have := hall (hyperplane elements frac epa x) (by rw [hHmap]; simp only [List.mem_append, List.mem_map]; exact Or.inl ⟨x, hx, rfl⟩)
    rw [dot_hyperplane _ _ _ _ _ hlen] at this
    linarith
  have hle : List.Forall₂ (· ≤ ·) μ vec := by
    rw [List.forall₂_iff_get]
    refine ⟨by rw [hlen, hvec.length_eq], fun i hi hi' => ?_⟩
    have hi2 : i < elements.length := hlen ▸ hi
    obtain ⟨r, hr, hvr⟩ := (List.forall₂_iff_get.mp hvec).2 i hi2 hi'
    have hrr := mem_of_dictGet _ _ _ hr
    obtain ⟨k1, k2, k3⟩ := R.mem _ hrr
    have hrE : r ∈ E := (hmem r).mpr ⟨k1, Or.inr ⟨_, hrr, rfl⟩⟩
    have hu := weighted_unit elements hn frac r μ hlen _ i (List.getElem?_eq_getElem hi2) k3
    rw [List.getElem?_eq_getElem hi] at hu
    rw [hvr]
    have := hsat r hrE
    rw [← Option.some.inj hu] at this
    exact this
  have hminsat : ∀ x ∈ mins, weighted elements frac x μ ≤ epa x + formTol := by
    intro x hx
    have htol : (0 : ℚ) ≤ formTol := by norm_num [formTol]
    by_cases hxE : x ∈ E
    · have := hsat x hxE; linarith
    · have hno : ¬ (epa x - weighted elements frac x vec < -formTol) := fun hc => hxE ((hmem x).mpr ⟨hx, Or.inl hc⟩)
      have := weighted_mono elements frac x (h0 x hx) μ vec hlen hle
      linarith
  refine ⟨⟨e, hEm.1, hfe, ?_, ?_⟩, ?_, ?_⟩
  · obtain ⟨row, hrow, hz⟩ := heq v hv
    have hvl : v < H.length := by
      rw [hHmap, List.length_map]
      exact (List.getElem?_eq_some_iff.mp hE).1
    rw [List.getElem?_append_left hvl, hHmap, List.getElem?_map, hE] at hrow
    simp only [Option.map_some, Option.some.injEq] at hrow
    rw [← hrow, dot_hyperplane _ _ _ _ _ hlen] at hz
    linarith
  · rcases hEm.2 with hc | ⟨p, hp, hpe⟩
    · refine Or.inr ⟨vec, ?_, hc⟩
      exact hvec.imp fun el v ⟨r, hr, hv⟩ => ⟨r, mem_of_dictGet _ _ _ hr, hv⟩
    · exact Or.inl ⟨p.1, by rw [← hpe]; exact hp⟩
  · intro x hx
    obtain ⟨m, hm, hfr, he⟩ := hmins x hx
    have : weighted elements frac x μ = weighted elements frac m μ := by
      unfold weighted
      congr 1
      clear * - hfr
      induction elements generalizing μ with
      | nil => rfl
      | cons a as ih =>
        cases μ with
        | nil => rfl
        | cons b μ =>
          rw [List.zipWith_cons_cons, List.zipWith_cons_cons, hfr a (by simp), ih μ (fun y hy => hfr y (List.mem_cons_of_mem _ hy))]
    rw [this]
    have := hminsat m hm
    linarith
  · intro row hrow
    exact hall row (List.mem_append.mpr (Or.inr hrow))

/-- **C93, no failure.** With one reference for each of two or more elements the diagram is always built. -/
theorem C93_built (elements : List ε) (hn : elements.Nodup) (frac : η → ε → ℚ) (epa : η → ℚ) (formula : η → φ)
    (mins : List η) (refs : List (ε × η)) (R : Refs elements frac mins refs) (h2 : 2 ≤ elements.length) (hl : refs.length = elements.length)
    (borders : List (List ℚ)) (hsInt : List (List ℚ) → List (List ℚ × List ℕ)) (hspec : ∀ H, Intersects elements.length H (hsInt H)) :
    ∃ doms, cpdDomains elements frac epa formula mins refs borders hsInt = .ok doms := by
  have hkeys : ∀ el ∈ elements, ∃ r, dictGet refs el = some r := by
    intro el hel
    cases hg : dictGet refs el with
    | some r => exact ⟨r, rfl⟩
    | none =>
      exfalso
      rw [dictGet_eq_none] at hg
      have hsub : refs.map Prod.fst ⊆ elements.erase el := by
        intro x hx
        obtain ⟨p, hp, rfl⟩ := List.mem_map.mp hx
        rw [List.Nodup.mem_erase_iff hn]
        exact ⟨fun hc => hg (hc ▸ hx), (R.mem p hp).2.1⟩
      have := (R.nodup.subperm hsub).length_le
      rw [List.length_map, List.length_erase_of_mem hel] at this
      omega
  have hvec : ∃ vec, elements.mapM (refEnergy epa refs) = .ok vec := by
    cases hv : elements.mapM (refEnergy epa refs) with
    | ok vec => exact ⟨vec, rfl⟩
    | error x =>
      obtain ⟨el, hel, he⟩ := Verif.Lemmas.Exc.mapM_error _ _ _ hv
      obtain ⟨r, hr⟩ := hkeys el hel
      unfold refEnergy at he
      rw [hr] at he
      cases he
  have hri : ∃ ri, refs.mapM (fun p => indexIn mins p.2) = .ok ri := by
    cases hv : refs.mapM (fun p => indexIn mins p.2) with
    | ok vec => exact ⟨vec, rfl⟩
    | error x =>
      obtain ⟨p, hp, he⟩ := Verif.Lemmas.Exc.mapM_error _ _ _ hv
      unfold indexIn at he
      rw [if_pos (R.mem p hp).1] at he
      cases he
  obtain ⟨vec, hvec⟩ := hvec
  obtain ⟨ri, hri⟩ := hri
  have hHE : ∃ H E, hyperplanesAndEntries elements frac epa mins refs = .ok (H, E) := by
    unfold hyperplanesAndEntries
    simp only [hvec, hri, bind, Except.bind]
    exact ⟨_, _, rfl⟩
  obtain ⟨H, E, hHE⟩ := hHE
  obtain ⟨-, -, hHmap, -, -⟩ := selection elements frac epa mins refs H E hHE
  unfold cpdDomains
  rw [hHE]
  simp only [bind, Except.bind, if_neg (not_lt.mpr h2), if_neg (not_not.mpr hl)]
  unfold getDomains
  have hfold : ∀ (vps : List (ℕ × List ℚ)) (d : List (φ × List (List ℚ))), (∀ vp ∈ vps, vp.1 < E.length + borders.length) →
      (∀ e ∈ E, formula e ∈ d.map Prod.fst) → ∃ d', vps.foldlM (collectStep formula E borders.length) d = .ok d' := by
    intro vps
    induction vps with
    | nil => intro d _ _; exact ⟨d, rfl⟩
    | cons vp vps ih =>
      intro d hv hk
      rw [List.foldlM_cons]
      unfold collectStep
      by_cases hb : E.length ≤ vp.1 ∧ vp.1 < E.length + borders.length
      · rw [if_pos hb]
        exact ih d (fun w hw => hv w (by simp [hw])) hk
      · rw [if_neg hb]
        have hlt : vp.1 < E.length := by
          have := hv vp (by simp)
          by_contra hc
          exact hb ⟨not_lt.mp hc, this⟩
        rw [List.getElem?_eq_getElem hlt]
        simp only
        cases hg : dictGet d (formula E[vp.1]) with
        | none =>
          rw [dictGet_eq_none] at hg
          exact absurd (hk _ (List.getElem_mem hlt)) hg
        | some l =>
          refine ih _ (fun w hw => hv w (by simp [hw])) fun e he => ?_
          rw [mem_keys_dictSet]
          exact Or.inr (hk e he)
  obtain ⟨d', hd'⟩ := hfold ((hsInt (H ++ borders)).flatMap fun p => p.2.map fun v => (v, p.1))
    (dictOf (E.map fun e => (formula e, []))) (by
      intro vp hvp
      rw [List.mem_flatMap] at hvp
      obtain ⟨p, hp, hv⟩ := hvp
      obtain ⟨v, hv', rfl⟩ := List.mem_map.mp hv
      obtain ⟨row, hrow, -⟩ := (hspec _ p hp).2.2 v hv'
      have := (List.getElem?_eq_some_iff.mp hrow).1
      rw [List.length_append, hHmap, List.length_map] at this
      exact this) (by
      intro e he
      rw [mem_keys_dictOf, List.map_map]
      exact List.mem_map.mpr ⟨e, he, rfl⟩)
  rw [hd']
  exact ⟨_, rfl⟩

/-! Concrete case: two elements and one compound of each kind; entries are `(fraction of the second element, energy per atom)`. -/

def exFrac (e : ℚ × ℚ) (el : Fin 2) : ℚ := if el = 0 then 1 - e.1 else e.1
def exMins : List (ℚ × ℚ) := [(0, -1), (1, -2), (1/2, -3), (1/4, 0)]
def exRefs : List (Fin 2 × (ℚ × ℚ)) := [(0, (0, -1)), (1, (1, -2))]
def exBorders : List (List ℚ) := [[-1, 0, -10], [0, -1, -10]]

/-- The corners of `μ0 ≤ -1`, `μ1 ≤ -2`, `μ0/2 + μ1/2 ≤ -3`, bounded by `-10`. -/
def exInt (H : List (List ℚ)) : List (List ℚ × List ℕ) :=
  if H = [[1/2, 1/2, 3], [1, 0, 1], [0, 1, 2]] ++ exBorders then
    [([-1, -5], [0, 1]), ([-4, -2], [0, 2]), ([-1, -10], [1, 4]), ([-10, -2], [2, 3]), ([-10, -10], [3, 4])]
  else []

example : cpdDomains [0, 1] exFrac Prod.snd (fun e => e) exMins exRefs exBorders exInt
    = .ok [((1/2, -3), [[-1, -5], [-4, -2]]), ((0, -1), [[-1, -5], [-1, -10]]), ((1, -2), [[-4, -2], [-10, -2]])] := by decide +kernel

theorem exInt_spec : ∀ H, Intersects 2 H (exInt H) := by
  intro H p hp
  unfold exInt at hp
  split_ifs at hp with h
  · subst h
    revert p
    have : ∀ p ∈ [([-1, -5], [0, 1]), ([-4, -2], [0, 2]), ([-1, -10], [1, 4]), ([-10, -2], [2, 3]), (([-10, -10] : List ℚ), [3, 4])],
        p.1.length = 2 ∧ (∀ row ∈ [[1/2, 1/2, 3], [1, 0, 1], [0, 1, 2]] ++ exBorders, dot row (p.1 ++ [1]) ≤ 0) ∧
        ∀ v ∈ p.2, ((([[1/2, 1/2, 3], [1, 0, 1], [0, 1, 2]] ++ exBorders)[v]?).map fun row => dot row (p.1 ++ [1])) = some 0 := by
      decide +kernel
    intro p hp
    obtain ⟨h1, h2, h3⟩ := this p hp
    exact ⟨h1, h2, fun v hv => by simpa [Option.map_eq_some_iff] using h3 v hv⟩
  · simp at hp

example : Refs [0, 1] exFrac exMins exRefs := ⟨by decide +kernel, by decide +kernel⟩
example : ∀ e ∈ exMins, ∀ el ∈ [0, 1], 0 ≤ exFrac e el := by decide +kernel

/-- **C93, violated.** A diagram without a reference for one of its elements fails with `KeyError` while the half-spaces are built; the
`ValueError` that would name the missing elements is never reached. -/
theorem C93_missing_violated (elements : List ε) (frac : η → ε → ℚ) (epa : η → ℚ) (formula : η → φ) (mins : List η) (refs : List (ε × η))
    (borders : List (List ℚ)) (hsInt : List (List ℚ) → List (List ℚ × List ℕ)) (el : ε) (hel : el ∈ elements)
    (hm : el ∉ refs.map Prod.fst) :
    cpdDomains elements frac epa formula mins refs borders hsInt = .error .keyError := by
  have hv : elements.mapM (refEnergy epa refs) = .error .keyError := by
    cases hv : elements.mapM (refEnergy epa refs) with
    | ok vec =>
      obtain ⟨v, -, h⟩ := Verif.Lemmas.Solver.mapM_at _ _ _ hv el hel
      unfold refEnergy at h
      rw [(dictGet_eq_none _ _).mpr hm] at h
      cases h
    | error x =>
      obtain ⟨a, -, h⟩ := Verif.Lemmas.Exc.mapM_error _ _ _ hv
      unfold refEnergy at h
      split at h
      · cases h
      · injection h with h; rw [h]
  simp only [cpdDomains, hyperplanesAndEntries, hv, bind, Except.bind]

example : cpdDomains [0, 1] exFrac Prod.snd (fun e => e) exMins [(0, (0, -1))] exBorders exInt = .error .keyError := by decide +kernel

/-! ### C94 -/

/-- The vector with the given components. -/
noncomputable def vecOf (a : List ℝ) : EuclideanSpace ℝ (Fin a.length) := WithLp.toLp 2 fun i => a[i]

theorem norm_vecOf (a : List ℝ) : ‖vecOf a‖ = Real.sqrt (a.map fun x => x ^ 2).sum := by
  rw [EuclideanSpace.norm_eq]
  congr 1
  simp only [vecOf, Real.norm_eq_abs, sq_abs]
  conv_rhs => rw [← List.ofFn_getElem (xs := a), List.map_ofFn, List.sum_ofFn]
  rfl

/-- Hyperplane of a phase with atomic fractions `a` and energy per atom `E` in chemical potential space. -/
def Plane (a : List ℝ) (E : ℝ) : Set (EuclideanSpace ℝ (Fin a.length)) := {μ | inner ℝ (vecOf a) μ = E}

theorem dist_bound (a : List ℝ) (ha : vecOf a ≠ 0) (p q : EuclideanSpace ℝ (Fin a.length)) (d : ℝ)
    (h : |d| ≤ |inner ℝ (vecOf a) p - inner ℝ (vecOf a) q|) : parallelDistance a d ≤ dist p q := by
  unfold parallelDistance
  rw [← norm_vecOf, div_le_iff₀ (norm_pos_iff.mpr ha), dist_eq_norm]
  rw [← inner_sub_right] at h
  have := abs_real_inner_le_norm (vecOf a) (p - q)
  linarith [mul_comm ‖vecOf a‖ ‖p - q‖]

/-- **C94, distance.** For an entry with energy above hull `d`, the offset is the Euclidean distance between its hyperplane and the
hyperplane it would have on the hull: no two of their points are closer, and from every point of the first the distance is attained. Nor is
any point closer at which the phase's energy is at most that of the hull, i.e. any point of the diagram. -/
theorem C94_distance (mins : List η) (inDomains : Bool) (eAbove : η → Except Err ℝ) (fr : η → List ℝ) (e : η)
    (hun : ¬ (e ∈ mins ∧ inDomains = true)) (d : ℝ) (hd : eAbove e = .ok d) (hf : ∃ x ∈ fr e, x ≠ 0) (E : ℝ) :
    ∃ off, getOffset mins inDomains eAbove fr e = .ok off ∧ 0 ≤ off ∧ (off = 0 ↔ d = 0) ∧
      (∀ p ∈ Plane (fr e) E, ∀ q ∈ Plane (fr e) (E - d), off ≤ dist p q) ∧
      (∀ p ∈ Plane (fr e) E, ∃ q ∈ Plane (fr e) (E - d), dist p q = off) ∧
      (0 ≤ d → ∀ p ∈ Plane (fr e) E, ∀ q, inner ℝ (vecOf (fr e)) q ≤ E - d → off ≤ dist p q) := by
  have ha : vecOf (fr e) ≠ 0 := by
    intro hc
    obtain ⟨x, hx, hne⟩ := hf
    obtain ⟨i, hi, rfl⟩ := List.getElem_of_mem hx
    have : (vecOf (fr e)) ⟨i, hi⟩ = (0 : EuclideanSpace ℝ (Fin (fr e).length)) ⟨i, hi⟩ := by rw [hc]
    exact hne this
  have hpos : 0 < ‖vecOf (fr e)‖ := norm_pos_iff.mpr ha
  refine ⟨parallelDistance (fr e) d, ?_, ?_, ?_, ?_, ?_, ?_⟩
  · unfold getOffset
    rw [if_neg hun, hd]
    rfl
  · unfold parallelDistance; positivity
  · unfold parallelDistance
    rw [← norm_vecOf, div_eq_zero_iff, abs_eq_zero]
    exact ⟨fun h => h.resolve_right hpos.ne', Or.inl⟩
  · intro p hp q hq
    refine dist_bound _ ha p q d ?_
    rw [show inner ℝ (vecOf (fr e)) p = E from hp, show inner ℝ (vecOf (fr e)) q = E - d from hq]
    simp
  · intro p hp
    refine ⟨p - (d / ‖vecOf (fr e)‖ ^ 2) • vecOf (fr e), ?_, ?_⟩
    · show inner ℝ (vecOf (fr e)) _ = _
      rw [inner_sub_right, inner_smul_right, show inner ℝ (vecOf (fr e)) p = E from hp, real_inner_self_eq_norm_sq]
      field_simp
    · rw [dist_eq_norm, sub_sub_cancel, norm_smul, Real.norm_eq_abs, abs_div, abs_of_pos (show 0 < ‖vecOf (fr e)‖ ^ 2 by positivity)]
      unfold parallelDistance
      rw [← norm_vecOf]
      field_simp
  · intro h0 p hp q hq
    refine dist_bound _ ha p q d ?_
    rw [show inner ℝ (vecOf (fr e)) p = E from hp, abs_of_nonneg h0, abs_of_nonneg (by linarith)]
    linarith

/-- **C94, stable phases.** A ground state with a domain of its own has offset zero. -/
theorem C94_stable (mins : List η) (eAbove : η → Except Err ℝ) (fr : η → List ℝ) (e : η) (he : e ∈ mins) :
    getOffset mins true eAbove fr e = .ok 0 := by
  unfold getOffset
  rw [if_pos ⟨he, rfl⟩]

/-- **C94, energy above hull.** With the phase diagrams into which `expand_pd` divides the entries, every entry has the energy above the
hull of a diagram that contains all entries of its own chemical system and its subsystems; `ValueError` cannot occur. -/
theorem C94_e_above_hull {β R : Type} (elems : η → List Enum.Sym) (hsym : Verif.Props.Thermo.Symbols elems) (build : List η → Except Err β)
    (query : β → η → Except Err R) (entries : List η) (pds : List (List Char × β)) (h : expandPd elems build entries = .ok pds)
    (e : η) (he : e ∈ entries) :
    ∃ (E : List η) (pd : β), build E = .ok pd ∧ eAboveHull elems query pds e = query pd e ∧ e ∈ E ∧
      ∀ x ∈ entries, (∀ s ∈ elems x, s ∈ elems e) → x ∈ E := by
  obtain ⟨h1, -, h3⟩ := Verif.Props.Thermo.C44_expand elems hsym build entries pds h
  obtain ⟨p, hp, hc⟩ := h1 e he
  have hcov : covers elems e p.1 = true := (Verif.Props.Thermo.covers_iff elems hsym e p.1).mpr hc
  cases hf : pds.find? fun p => covers elems e p.1 with
  | none =>
    rw [List.find?_eq_none] at hf
    exact absurd hcov (hf p hp)
  | some q =>
    have hq := List.find?_some hf
    obtain ⟨E, hE, hmem⟩ := h3 q (List.mem_of_find?_eq_some hf)
    have hq' := (Verif.Props.Thermo.covers_iff elems hsym e q.1).mp hq
    exact ⟨E, q.2, hE, by unfold eAboveHull; rw [hf], (hmem e).mpr ⟨he, hq'⟩,
      fun x hx hs => (hmem x).mpr ⟨hx, fun s hsx => hq' s (hs s hsx)⟩⟩

/-- **C94, foreign entries.** An entry with an element that occurs in no entry of the set has no energy above the hull: `ValueError`. -/
theorem C94_foreign {β R : Type} (elems : η → List Enum.Sym) (hsym : Verif.Props.Thermo.Symbols elems) (build : List η → Except Err β)
    (query : β → η → Except Err R) (entries : List η) (pds : List (List Char × β)) (h : expandPd elems build entries = .ok pds)
    (e : η) (s : Enum.Sym) (hs : s ∈ elems e) (hf : ∀ x ∈ entries, s ∉ elems x) : eAboveHull elems query pds e = .error .valueError := by
  have I := Verif.Props.Thermo.expand_inv elems hsym build entries pds h
  have : (pds.find? fun p => covers elems e p.1) = none := by
    rw [List.find?_eq_none]
    intro p hp hc
    have hs' := (Verif.Props.Thermo.covers_iff elems hsym e p.1).mp hc s hs
    obtain ⟨x, hx, hk, -⟩ := I.src p hp
    rw [hk] at hs'
    exact hf x ((List.perm_insertionSort (fun a b => (elems b).length ≤ (elems a).length) entries).subset hx)
      ((Verif.Props.Thermo.mem_split elems hsym x s).mp hs')
  unfold eAboveHull
  rw [this]

example : eAboveHull (fun n : ℕ => if n = 0 then ["Li".toList] else ["O".toList]) (fun (_ : List ℕ) _ => .ok (0 : ℚ)) [("Li".toList, [0])] 1
    = .error .valueError ∧ expandPd (fun n : ℕ => if n = 0 then ["Li".toList] else ["O".toList]) (fun l => .ok l) [0] = .ok [("Li".toList, [0])] := by
  constructor <;> decide +kernel

/-- A metastable phase AB 0.5 eV/atom above the hull: hypotheses of the distance theorem. -/
example : ∃ off, getOffset ([] : List ℕ) false (fun _ => .ok (1/2)) (fun _ => [1/2, 1/2]) 0 = .ok off ∧ off = (1/2) / Real.sqrt (1/2) := by
  refine ⟨_, rfl, ?_⟩
  norm_num [parallelDistance]

theorem exRefs_ok : Refs [0, 1] exFrac exMins exRefs := ⟨by decide +kernel, by decide +kernel⟩

example := C93_contents [0, 1] exFrac Prod.snd (fun e => e) exMins exRefs exBorders exInt
  [((1/2, -3), [[-1, -5], [-4, -2]]), ((0, -1), [[-1, -5], [-1, -10]]), ((1, -2), [[-4, -2], [-10, -2]])] (by decide +kernel)
example := C93_points [0, 1] (by decide) exFrac Prod.snd (fun e => e) exMins exMins exRefs exRefs_ok (by decide +kernel)
  (fun e he => ⟨e, he, fun _ _ => rfl, le_rfl⟩) exBorders exInt exInt_spec
  [((1/2, -3), [[-1, -5], [-4, -2]]), ((0, -1), [[-1, -5], [-1, -10]]), ((1, -2), [[-4, -2], [-10, -2]])] (by decide +kernel)
  (1/2, -3) [[-1, -5], [-4, -2]] (by decide +kernel) [-4, -2] (by decide +kernel)
example := C94_distance ([] : List ℕ) false (fun _ => .ok (1/2)) (fun _ => [1/2, 1/2]) 0 (by simp) (1/2) rfl ⟨1/2, by simp, by norm_num⟩ (-3)
example := C94_stable [0, 1] (fun _ : ℕ => .ok (1/2)) (fun _ => [1/2, 1/2]) 0 (by decide)
example := C94_e_above_hull Verif.Props.Thermo.exElems Verif.Props.Thermo.exElems_symbols (fun l => .ok l) (fun l e => .ok (l.length + e.val))
  [0, 1, 2, 3, 4] [("Li-O".toList, [0, 1, 2]), ("Fe-O".toList, [1, 3, 4])] (by decide +kernel) 4 (by decide)

end Verif.Props.Chempot
