import Verif.Props.Chempot
import Verif.Lemmas.Support

/-! Property C149: the phases with a domain in the chemical potential diagram are the stable ones. -/

set_option linter.unusedSectionVars false

namespace Verif.Props.StableDomains
open Verif.Py Verif.Model Verif.Model.Chempot Verif.Model.Thermo Verif.Lemmas.Dict Verif.Props.Chempot

variable {η ε φ : Type} [DecidableEq η] [DecidableEq ε] [DecidableEq φ]

/-! ### Specification -/

/-- A mixture (per atom) of phases of the list with the atomic fractions of `e`: `w i` is the share of the atoms that is in phase `i`. -/
structure Mixes (elements : List ε) (frac : η → ε → ℚ) (l : List η) (w : η → ℝ) (e : η) : Prop where
  nonneg : ∀ i ∈ l, 0 ≤ w i
  total : (l.map w).sum = 1
  balanced : ∀ el ∈ elements, (l.map fun i => w i * (frac i el : ℝ)).sum = frac e el

/-- Energy per atom of the mixture. -/
noncomputable def mixEnergy (epa : η → ℚ) (l : List η) (w : η → ℝ) : ℝ := (l.map fun i => w i * (epa i : ℝ)).sum

/-- The phase is strictly lower in energy than every mixture of the other phases with its composition. -/
def StrictlyStable (elements : List ε) (frac : η → ε → ℚ) (epa : η → ℚ) (mins : List η) (e : η) : Prop :=
  ∀ w, Mixes elements frac (mins.filter (· ≠ e)) w e → (epa e : ℝ) < mixEnergy epa (mins.filter (· ≠ e)) w

/-- Value of the half-space `row` at a real point. -/
noncomputable def dotR (row : List ℚ) (y : List ℝ) : ℝ := (List.zipWith (fun (a : ℚ) (b : ℝ) => (a : ℝ) * b) row y).sum

/-- What is assumed of Qhull in addition: a half-space that can be touched at a point that lies strictly inside of all others occurs in a facet. -/
def Complete (n : ℕ) (H : List (List ℚ)) (pairs : List (List ℚ × List ℕ)) : Prop :=
  ∀ row ∈ H, (∃ y : List ℝ, y.length = n ∧ dotR row (y ++ [1]) = 0 ∧ ∀ r ∈ H, r ≠ row → dotR r (y ++ [1]) < 0) →
    ∃ p ∈ pairs, ∃ v ∈ p.2, H[v]? = some row

/-- The point given to scipy lies inside of all half-spaces. -/
def Inside (H : List (List ℚ)) (p : List ℚ) : Prop := ∀ row ∈ H, dot row (p ++ [1]) < 0

/-! ### Domains belong to stable phases -/

theorem weighted_cast (elements : List ε) (frac : η → ε → ℚ) (e : η) (μ : List ℚ) :
    ((weighted elements frac e μ : ℚ) : ℝ) = (List.zipWith (fun el (m : ℚ) => (frac e el : ℝ) * (m : ℝ)) elements μ).sum := by
  unfold weighted
  rw [Rat.cast_list_sum, List.map_zipWith]
  simp

/-- Mixing phases mixes their values at given chemical potentials. -/
theorem mix_weighted (elements : List ε) (frac : η → ε → ℚ) (l : List η) (w : η → ℝ) (e : η) (μ : List ℚ) (h : Mixes elements frac l w e) :
    ((weighted elements frac e μ : ℚ) : ℝ) = (l.map fun i => w i * ((weighted elements frac i μ : ℚ) : ℝ)).sum := by
  simp only [weighted_cast]
  have hb := h.balanced
  clear h
  induction elements generalizing μ with
  | nil => simp
  | cons x xs ih =>
    cases μ with
    | nil => simp
    | cons m μ =>
      simp only [List.zipWith_cons_cons, List.sum_cons, mul_add]
      rw [List.sum_map_add, ← ih μ (fun el hel => hb el (List.mem_cons_of_mem _ hel)), ← hb x (by simp)]
      congr 1
      rw [← List.sum_map_mul_right]
      congr 1
      apply List.map_congr_left
      intro i _
      ring

/-- **C149, only stable phases.**  A formula with a domain is that of a ground state which no mixture of entries of the diagram with its composition beats
by more than the tolerance of 1e-11 eV/atom. -/
theorem C149_sound (elements : List ε) (hn : elements.Nodup) (frac : η → ε → ℚ) (epa : η → ℚ) (formula : η → φ)
    (entries mins : List η) (refs : List (ε × η)) (R : Refs elements frac mins refs)
    (h0 : ∀ e ∈ mins, ∀ el ∈ elements, 0 ≤ frac e el)
    (hmins : ∀ e ∈ entries, ∃ m ∈ mins, (∀ el ∈ elements, frac e el = frac m el) ∧ epa m ≤ epa e)
    (borders : List (List ℚ)) (hsInt : List (List ℚ) → List (List ℚ × List ℕ)) (hspec : ∀ H, Intersects elements.length H (hsInt H))
    (doms : List (φ × List (List ℚ))) (h : cpdDomains elements frac epa formula mins refs borders hsInt = .ok doms)
    (f : φ) (pts : List (List ℚ)) (hd : (f, pts) ∈ doms) :
    ∃ e ∈ mins, formula e = f ∧ ∀ (l : List η) (w : η → ℝ), (∀ i ∈ l, i ∈ entries) → Mixes elements frac l w e →
      (epa e : ℝ) ≤ mixEnergy epa l w + formTol := by
  obtain ⟨_, _, -, -, -, -, hne, -⟩ := C93_contents elements frac epa formula mins refs borders hsInt doms h
  obtain ⟨μ, hμ⟩ := List.exists_mem_of_ne_nil _ (hne _ hd)
  obtain ⟨⟨e, he, hf, hw, -⟩, hall, -⟩ := C93_points elements hn frac epa formula entries mins refs R h0 hmins borders hsInt hspec doms h f pts hd μ hμ
  refine ⟨e, he, hf, ?_⟩
  intro l w hl hm
  have h1 := mix_weighted elements frac l w e μ hm
  rw [hw] at h1
  rw [h1]
  unfold mixEnergy
  have h2 : (l.map fun i => w i * ((weighted elements frac i μ : ℚ) : ℝ)).sum ≤ (l.map fun i => w i * (epa i : ℝ) + w i * (formTol : ℝ)).sum := by
    apply List.sum_le_sum
    intro i hi
    rw [← mul_add]
    apply mul_le_mul_of_nonneg_left _ (hm.nonneg i hi)
    have := hall i (hl i hi)
    exact_mod_cast this
  rw [List.sum_map_add, List.sum_map_mul_right, hm.total, one_mul] at h2
  exact h2

/-! ### Stable phases have a domain -/

theorem sum_subtype (elements : List ε) (hn : elements.Nodup) (f : ε → ℝ) :
    ∑ k : {x // x ∈ elements.toFinset}, f k = (elements.map f).sum := by
  rw [← List.sum_toFinset f hn]
  exact Finset.sum_coe_sort elements.toFinset f

theorem dotR_row (elements : List ε) (a : ε → ℚ) (b : ℚ) (μ : ε → ℝ) :
    dotR (elements.map a ++ [b]) (elements.map μ ++ [1]) = (elements.map fun x => (a x : ℝ) * μ x).sum + b := by
  unfold dotR
  rw [List.zipWith_append (by simp), List.sum_append, List.zipWith_map]
  congr 1
  · congr 1
    induction elements with
    | nil => rfl
    | cons x xs ih => simp only [List.zipWith_cons_cons, List.map_cons, ih]
  · simp

theorem sum_unit (elements : List ε) (hn : elements.Nodup) (el : ε) (hel : el ∈ elements) (c : ℝ) (μ : ε → ℝ) :
    (elements.map fun x => (if x = el then c else 0) * μ x).sum = c * μ el := by
  rw [← List.sum_toFinset _ hn]
  simp [hel]

/-- A strictly stable phase can be touched at chemical potentials strictly inside of the half-spaces of all others. -/
theorem touching (elements : List ε) (hn : elements.Nodup) (frac : η → ε → ℚ) (epa : η → ℚ) (mins : List η) (hm : mins.Nodup)
    (h1 : ∀ e ∈ mins, (elements.map (frac e)).sum = 1) (e : η) (he : e ∈ mins) (hst : StrictlyStable elements frac epa mins e) :
    ∃ μ : ε → ℝ, (elements.map fun x => (frac e x : ℝ) * μ x).sum = epa e ∧
      ∀ i ∈ mins, i ≠ e → (elements.map fun x => (frac i x : ℝ) * μ x).sum < epa i := by
  have hcast : ∀ i ∈ mins, (elements.map fun x => ((frac i x : ℚ) : ℝ)).sum = 1 := by
    intro i hi
    have := h1 i hi
    have h2 : (((elements.map (frac i)).sum : ℚ) : ℝ) = 1 := by rw [this]; norm_num
    rw [Rat.cast_list_sum, List.map_map] at h2
    exact h2
  have ho : (mins.filter (· ≠ e)).Nodup := hm.filter _
  obtain ⟨μ, hμ0, hμ⟩ := Verif.Lemmas.Support.supporting
    (fun (i : {i // i ∈ (mins.filter (· ≠ e)).toFinset}) (k : {x // x ∈ elements.toFinset}) => ((frac i k : ℚ) : ℝ))
    (fun i => (epa i : ℝ)) (fun k => ((frac e k : ℚ) : ℝ)) (epa e)
    (fun i => by
      have hi : (i : η) ∈ mins := (List.mem_filter.mp (List.mem_toFinset.mp i.2)).1
      rw [sum_subtype elements hn fun x => ((frac i x : ℚ) : ℝ)]
      exact hcast i hi)
    (by
      rw [sum_subtype elements hn fun x => ((frac e x : ℚ) : ℝ)]
      exact hcast e he)
    (by
      intro w hw0 hw1 hwb
      let w' : η → ℝ := fun i => if hi : i ∈ (mins.filter (· ≠ e)).toFinset then w ⟨i, hi⟩ else 0
      have hw' : ∀ i : {i // i ∈ (mins.filter (· ≠ e)).toFinset}, w i = w' i := by
        intro i
        simp only [w', i.2, dif_pos]
      have hs : ∀ g : η → ℝ, ∑ i : {i // i ∈ (mins.filter (· ≠ e)).toFinset}, w i * g i = ((mins.filter (· ≠ e)).map fun i => w' i * g i).sum := by
        intro g
        rw [← sum_subtype (mins.filter (· ≠ e)) ho fun i => w' i * g i]
        exact Finset.sum_congr rfl fun i _ => by rw [hw' i]
      have := hst w' ⟨?_, ?_, ?_⟩
      · rw [hs fun i => (epa i : ℝ)]
        exact this
      · intro i hi
        rw [← hw' ⟨i, List.mem_toFinset.mpr hi⟩]
        exact hw0 _
      · have h2 := hs fun _ => 1
        simp only [mul_one] at h2
        rw [← h2]
        exact hw1
      · intro el hel
        rw [← hs fun i => ((frac i el : ℚ) : ℝ)]
        exact hwb ⟨el, List.mem_toFinset.mpr hel⟩)
  let μ' : ε → ℝ := fun x => if hx : x ∈ elements.toFinset then μ ⟨x, hx⟩ else 0
  have hμ' : ∀ k : {x // x ∈ elements.toFinset}, μ k = μ' k := by
    intro k
    simp only [μ', k.2, dif_pos]
  have hs : ∀ g : ε → ℝ, ∑ k : {x // x ∈ elements.toFinset}, g k * μ k = (elements.map fun x => g x * μ' x).sum := by
    intro g
    rw [← sum_subtype elements hn fun x => g x * μ' x]
    exact Finset.sum_congr rfl fun k _ => by rw [hμ' k]
  refine ⟨μ', ?_, ?_⟩
  · rw [← hs fun x => ((frac e x : ℚ) : ℝ)]
    exact hμ0
  · intro i hi hie
    rw [← hs fun x => ((frac i x : ℚ) : ℝ)]
    exact hμ ⟨i, List.mem_toFinset.mpr (List.mem_filter.mpr ⟨hi, by simpa using hie⟩)⟩

/-- The border half-spaces for the limits `(L, 0)` of every element, in pymatgen's `_get_border_hyperplanes`, called at
src/rxn_network/thermo/chempot_diagram.py:68 (default limits at lines 43 and 58-60). -/
def borderRows (elements : List ε) (L : ℚ) : List (List ℚ) :=
  elements.flatMap fun el => [elements.map (fun x => if x = el then -1 else 0) ++ [L], elements.map (fun x => if x = el then 1 else 0) ++ [0]]

theorem below_all (l : List ℝ) : ∃ q : ℚ, ∀ x ∈ l, (q : ℝ) < x := by
  induction l with
  | nil => exact ⟨0, by simp⟩
  | cons a l ih =>
    obtain ⟨q, hq⟩ := ih
    obtain ⟨r, hr⟩ := exists_rat_lt (min a q)
    refine ⟨r, ?_⟩
    intro x hx
    rcases List.mem_cons.mp hx with rfl | hx
    · exact hr.trans_le (min_le_left _ _)
    · exact (hr.trans_le (min_le_right _ _)).trans (hq x hx)

theorem dot_const (elements : List ε) (a : ε → ℚ) (b c : ℚ) :
    dot (elements.map a ++ [b]) (List.replicate elements.length c ++ [1]) = (elements.map a).sum * c + b := by
  unfold dot
  rw [List.zipWith_append (by simp), List.sum_append]
  congr 1
  · induction elements with
    | nil => simp
    | cons x xs ih => simp only [List.map_cons, List.length_cons, List.replicate_succ, List.zipWith_cons_cons, List.sum_cons, ih, add_mul]
  · simp

theorem sum_indicator (elements : List ε) (hn : elements.Nodup) (el : ε) (hel : el ∈ elements) (c : ℚ) :
    (elements.map fun x => if x = el then c else 0).sum = c := by
  rw [← List.sum_toFinset _ hn]
  simp [hel]

theorem mem_borderRows (elements : List ε) (L : ℚ) (row : List ℚ) (h : row ∈ borderRows elements L) :
    ∃ el ∈ elements, row = elements.map (fun x => if x = el then -1 else 0) ++ [L] ∨ row = elements.map (fun x => if x = el then 1 else 0) ++ [0] := by
  unfold borderRows at h
  rw [List.mem_flatMap] at h
  obtain ⟨el, hel, h⟩ := h
  refine ⟨el, hel, ?_⟩
  simpa using h

/-- Every element has a reference when there are as many as elements. -/
theorem has_ref (elements : List ε) (frac : η → ε → ℚ) (mins : List η) (refs : List (ε × η)) (R : Refs elements frac mins refs)
    (hl : refs.length = elements.length) (el : ε) (hel : el ∈ elements) : ∃ r, (el, r) ∈ refs := by
  have hsub : refs.map Prod.fst ⊆ elements := by
    intro x hx
    obtain ⟨p, hp, rfl⟩ := List.mem_map.mp hx
    exact (R.mem p hp).2.1
  have hp := (List.subperm_of_subset R.nodup hsub).perm_of_length_le (by rw [List.length_map, hl])
  obtain ⟨p, hp, rfl⟩ := List.mem_map.mp (hp.mem_iff.mpr hel)
  exact ⟨p.2, hp⟩

/-- **C149, every stable phase.**  If the limits are low enough, every strictly stable phase (an element, or a compound whose formation energy is below the
tolerance) has a domain, provided the elemental references have energies of at most 0, so that the upper limit 0 does not cut. Missing for the full statement:
elements whose energy is exactly 0 (below), given limits, and compounds with a formation energy within the tolerance. -/
theorem C149_complete_partial (elements : List ε) (hn : elements.Nodup) (frac : η → ε → ℚ) (epa : η → ℚ) (formula : η → φ)
    (mins : List η) (hm : mins.Nodup) (refs : List (ε × η)) (R : Refs elements frac mins refs) (h2 : 2 ≤ elements.length)
    (hl : refs.length = elements.length) (h1 : ∀ e ∈ mins, (elements.map (frac e)).sum = 1) (hup : ∀ p ∈ refs, epa p.2 ≤ 0)
    (e : η) (he : e ∈ mins) (hself : ∀ el, (el, e) ∈ refs → epa e < 0) (hst : StrictlyStable elements frac epa mins e)
    (hsel : (∃ el, (el, e) ∈ refs) ∨ ∀ vec, List.Forall₂ (fun el v => ∃ r, (el, r) ∈ refs ∧ v = epa r) elements vec →
      epa e - weighted elements frac e vec < -formTol) :
    ∃ L0 : ℚ, ∀ L ≤ L0, ∀ hsInt : List (List ℚ) → List (List ℚ × List ℕ), (∀ H, Intersects elements.length H (hsInt H)) →
      (∀ H E, hyperplanesAndEntries elements frac epa mins refs = .ok (H, E) →
        Inside (H ++ borderRows elements L) (List.replicate elements.length (L + 1/10)) →
        Complete elements.length (H ++ borderRows elements L) (hsInt (H ++ borderRows elements L))) →
      ∃ doms pts, cpdDomains elements frac epa formula mins refs (borderRows elements L) hsInt = .ok doms ∧ (formula e, pts) ∈ doms ∧ pts ≠ [] := by
  obtain ⟨μ, hμe, hμ⟩ := touching elements hn frac epa mins hm h1 e he hst
  obtain ⟨L0, hL0⟩ := below_all (elements.map μ ++ (mins.map fun i => ((epa i : ℚ) : ℝ) - 1/10) ++ [-1/10])
  have hLμ : ∀ el ∈ elements, (L0 : ℝ) < μ el := fun el hel => hL0 _ (by simp; exact .inl ⟨el, hel, rfl⟩)
  have hLe : ∀ i ∈ mins, L0 + 1/10 < epa i := by
    intro i hi
    have := hL0 (((epa i : ℚ) : ℝ) - 1/10) (by simp; exact .inr (.inl ⟨i, hi, rfl⟩))
    have h3 : ((L0 + 1/10 : ℚ) : ℝ) < epa i := by push_cast; linarith
    exact_mod_cast h3
  have hLn : L0 + 1/10 < 0 := by
    have := hL0 (-1/10) (by simp)
    have h3 : ((L0 + 1/10 : ℚ) : ℝ) < 0 := by push_cast; linarith
    exact_mod_cast h3
  refine ⟨L0, ?_⟩
  intro L hL hsInt hspec hcomp
  obtain ⟨doms, hdoms⟩ := C93_built elements hn frac epa formula mins refs R h2 hl (borderRows elements L) hsInt hspec
  obtain ⟨H, E, hHE, -, -, -, hne, hiff⟩ := C93_contents elements frac epa formula mins refs _ hsInt doms hdoms
  obtain ⟨vec, hvec, hH, -, hE⟩ := selection elements frac epa mins refs H E hHE
  have heE : e ∈ E := by
    rw [hE]
    refine ⟨he, ?_⟩
    rcases hsel with ⟨el, hel⟩ | hsel
    · exact .inr ⟨_, hel, rfl⟩
    · refine .inl (hsel vec (hvec.imp ?_))
      rintro el v ⟨r, hr, hv⟩
      exact ⟨r, mem_of_dictGet _ _ _ hr, hv⟩
  have hEm : ∀ i ∈ E, i ∈ mins := fun i hi => ((hE i).mp hi).1
  have hHrow : ∀ row ∈ H, ∃ i ∈ E, row = hyperplane elements frac epa i := by
    intro row hr
    rw [hH] at hr
    obtain ⟨i, hi, rfl⟩ := List.mem_map.mp hr
    exact ⟨i, hi, rfl⟩
  have hin : Inside (H ++ borderRows elements L) (List.replicate elements.length (L + 1/10)) := by
    intro row hr
    rcases List.mem_append.mp hr with hr | hr
    · obtain ⟨i, hi, rfl⟩ := hHrow row hr
      unfold hyperplane
      rw [dot_const, h1 i (hEm i hi), one_mul]
      linarith [hLe i (hEm i hi)]
    · obtain ⟨el, hel, rfl | rfl⟩ := mem_borderRows elements L row hr
      · rw [dot_const, sum_indicator elements hn el hel]
        linarith
      · rw [dot_const, sum_indicator elements hn el hel]
        linarith
  have hval : ∀ i, dotR (hyperplane elements frac epa i) (elements.map μ ++ [1]) = (elements.map fun x => (frac i x : ℝ) * μ x).sum - epa i := by
    intro i
    unfold hyperplane
    rw [dotR_row]
    push_cast
    ring
  have hμ0 : ∀ el ∈ elements, μ el < 0 := by
    intro el hel
    obtain ⟨r, hr⟩ := has_ref elements frac mins refs R hl el hel
    have hu : (elements.map fun x => (frac r x : ℝ) * μ x).sum = μ el := by
      have h3 := sum_unit elements hn el hel 1 μ
      rw [one_mul] at h3
      rw [← h3]
      congr 1
      apply List.map_congr_left
      intro x hx
      rw [(R.mem _ hr).2.2 x hx]
      split_ifs <;> simp
    by_cases hre : r = e
    · rw [hre] at hu hr
      have hrn : ((epa e : ℚ) : ℝ) < 0 := by exact_mod_cast hself _ hr
      linarith
    · have hrn : ((epa r : ℚ) : ℝ) ≤ 0 := by exact_mod_cast hup _ hr
      have := hμ r (R.mem _ hr).1 hre
      linarith
  have hbord : ∀ row ∈ borderRows elements L, dotR row (elements.map μ ++ [1]) < 0 := by
    intro row hr
    have hLr : (L : ℝ) ≤ L0 := by exact_mod_cast hL
    obtain ⟨el, hel, rfl | rfl⟩ := mem_borderRows elements L row hr
    · rw [dotR_row]
      have h3 := sum_unit elements hn el hel (-1) μ
      have h4 : (elements.map fun x => (((if x = el then -1 else 0 : ℚ)) : ℝ) * μ x).sum = -1 * μ el := by
        rw [← h3]
        congr 1
        apply List.map_congr_left
        intro x _
        split_ifs <;> simp
      rw [h4]
      linarith [hLμ el hel]
    · rw [dotR_row]
      have h3 := sum_unit elements hn el hel 1 μ
      have h4 : (elements.map fun x => (((if x = el then 1 else 0 : ℚ)) : ℝ) * μ x).sum = 1 * μ el := by
        rw [← h3]
        congr 1
        apply List.map_congr_left
        intro x _
        split_ifs <;> simp
      rw [h4]
      have := hμ0 el hel
      push_cast
      linarith
  have hzero : dotR (hyperplane elements frac epa e) (elements.map μ ++ [1]) = 0 := by rw [hval, hμe, sub_self]
  have hrow : hyperplane elements frac epa e ∈ H ++ borderRows elements L := by
    refine List.mem_append_left _ ?_
    rw [hH]
    exact List.mem_map_of_mem heE
  obtain ⟨p, hp, v, hv, hHv⟩ := hcomp _ _ hHE hin _ hrow ⟨elements.map μ, by simp, hzero, by
    intro r hr hre
    rcases List.mem_append.mp hr with hr | hr
    · obtain ⟨i, hi, rfl⟩ := hHrow r hr
      have hie : i ≠ e := by rintro rfl; exact hre rfl
      rw [hval]
      linarith [hμ i (hEm i hi) hie]
    · exact hbord r hr⟩
  have hEv : E[v]? = some e := by
    rcases lt_or_ge v H.length with hlt | hge
    · rw [List.getElem?_append_left hlt, hH, List.getElem?_map, Option.map_eq_some_iff] at hHv
      obtain ⟨i, hi, hie⟩ := hHv
      by_cases hc : i = e
      · rw [← hc]; exact hi
      · exfalso
        have h3 := hμ i (hEm i (List.mem_of_getElem? hi)) hc
        have h4 := hval i
        rw [hie, hzero] at h4
        linarith
    · rw [List.getElem?_append_right hge] at hHv
      have := hbord _ (List.mem_of_getElem? hHv)
      linarith
  obtain ⟨pts, hpts, hpp⟩ := (hiff (formula e) p.1).mpr ⟨p.2, v, e, hp, hv, hEv, rfl⟩
  exact ⟨doms, pts, hdoms, hpts, hne _ hpts⟩

/-! ### Example -/

/-- The half-spaces of the diagram with elements at −1 and −2 and a compound at −3 (`Props/Chempot.lean`). -/
def exH (L : ℚ) : List (List ℚ) := [[1/2, 1/2, 3], [1, 0, 1], [0, 1, 2], [-1, 0, L], [1, 0, 0], [0, -1, L], [0, 1, 0]]

/-- Its corners. -/
def exCorners (L : ℚ) (H : List (List ℚ)) : List (List ℚ × List ℕ) :=
  if H = exH L then [([-1, -5], [0, 1]), ([-4, -2], [0, 2]), ([-1, L], [1, 5]), ([L, -2], [2, 3]), ([L, L], [3, 5])] else []

theorem exCorners_spec (L : ℚ) (hL : L ≤ -5) (H : List (List ℚ)) : Intersects 2 H (exCorners L H) := by
  intro p hp
  unfold exCorners at hp
  split_ifs at hp with h
  · subst h
    simp only [List.mem_cons, List.not_mem_nil, or_false] at hp
    rcases hp with rfl | rfl | rfl | rfl | rfl <;>
    · refine ⟨rfl, ?_, ?_⟩
      · simp only [exH, dot, List.mem_cons, List.not_mem_nil, or_false, forall_eq_or_imp, forall_eq, List.cons_append, List.nil_append, List.zipWith_cons_cons,
          List.zipWith_nil_left, List.sum_cons, List.sum_nil]
        refine ⟨?_, ?_, ?_, ?_, ?_, ?_, ?_⟩ <;> linarith
      · simp [exH, dot]
        try norm_num
  · simp at hp

theorem exCorners_complete (L : ℚ) : Complete 2 (exH L) (exCorners L (exH L)) := by
  rintro row hrow ⟨y, hy, h0, hs⟩
  obtain ⟨a, b, rfl⟩ : ∃ a b, y = [a, b] := by
    match y, hy with
    | [a, b], _ => exact ⟨a, b, rfl⟩
  unfold exCorners
  rw [if_pos rfl]
  have key : row ≠ [1, 0, 0] ∧ row ≠ [0, 1, 0] := by
    constructor
    · rintro rfl
      have h3 := hs [1, 0, 1] (by simp [exH]) (by decide +kernel)
      simp [dotR] at h0 h3
      linarith
    · rintro rfl
      have h3 := hs [0, 1, 2] (by simp [exH]) (by decide +kernel)
      simp [dotR] at h0 h3
      linarith
  simp only [exH, List.mem_cons, List.not_mem_nil, or_false] at hrow
  rcases hrow with rfl | rfl | rfl | rfl | rfl | rfl | rfl
  · exact ⟨([-1, -5], [0, 1]), by simp, 0, by simp, rfl⟩
  · exact ⟨([-1, -5], [0, 1]), by simp, 1, by simp, rfl⟩
  · exact ⟨([-4, -2], [0, 2]), by simp, 2, by simp, rfl⟩
  · exact ⟨([L, -2], [2, 3]), by simp, 3, by simp, rfl⟩
  · exact absurd rfl key.1
  · exact ⟨([-1, L], [1, 5]), by simp, 5, by simp, rfl⟩
  · exact absurd rfl key.2

theorem ex_halfspaces (H : List (List ℚ)) (E : List (ℚ × ℚ)) (h : hyperplanesAndEntries [0, 1] exFrac Prod.snd exMins exRefs = .ok (H, E)) (L : ℚ) :
    H ++ borderRows ([0, 1] : List (Fin 2)) L = exH L := by
  have h1 : hyperplanesAndEntries [0, 1] exFrac Prod.snd exMins exRefs
      = .ok ([[1/2, 1/2, 3], [1, 0, 1], [0, 1, 2]], [(1/2, -3), (0, -1), (1, -2)]) := by decide +kernel
  rw [h1] at h
  obtain ⟨rfl, -⟩ := Prod.ext_iff.mp (Except.ok.inj h)
  simp [borderRows, exH]

/-- The compound at −3 is strictly stable. -/
theorem ex_stable : StrictlyStable [0, 1] exFrac Prod.snd exMins (1/2, -3) := by
  intro w hw
  have hf : exMins.filter (· ≠ ((1/2 : ℚ), (-3 : ℚ))) = [(0, -1), (1, -2), (1/4, 0)] := by decide +kernel
  rw [hf] at hw ⊢
  have h1 := hw.nonneg (0, -1) (by simp)
  have h2 := hw.nonneg (1, -2) (by simp)
  have h3 := hw.nonneg (1/4, 0) (by simp)
  have h4 := hw.total
  simp only [mixEnergy, List.map_cons, List.map_nil, List.sum_cons, List.sum_nil] at h4 ⊢
  push_cast
  linarith

/-- The hypotheses hold, and the theorem gives the domain of the compound for all low limits. -/
example : ∃ L : ℚ, ∃ doms pts, cpdDomains [0, 1] exFrac Prod.snd (fun e => e) exMins exRefs (borderRows [0, 1] L) (exCorners L) = .ok doms ∧
    (((1/2 : ℚ), (-3 : ℚ)), pts) ∈ doms ∧ pts ≠ [] := by
  obtain ⟨L0, hL0⟩ := C149_complete_partial [0, 1] (by decide) exFrac Prod.snd (fun e => e) exMins (by decide +kernel) exRefs
    ⟨by decide +kernel, by decide +kernel⟩ (by decide) (by decide) (by decide +kernel) (by decide +kernel) (1/2, -3) (by decide +kernel)
    (fun el h => by simp [exRefs] at h) ex_stable (.inr (by
      intro vec hv
      obtain ⟨v0, l, ⟨r0, hr0, rfl⟩, hl, rfl⟩ := List.forall₂_cons_left_iff.mp hv
      obtain ⟨v1, l', ⟨r1, hr1, rfl⟩, hl', rfl⟩ := List.forall₂_cons_left_iff.mp hl
      rw [List.forall₂_nil_left_iff.mp hl']
      simp [exRefs] at hr0 hr1
      subst hr0 hr1
      decide +kernel))
  refine ⟨min L0 (-5), hL0 _ (min_le_left _ _) _ (fun H => exCorners_spec _ (min_le_right _ _) H) ?_⟩
  intro H E hHE _
  rw [ex_halfspaces H E hHE]
  exact exCorners_complete _

/-- A domain and a mixture for `C149_sound`: the compound at −3 against the elements. -/
example : Mixes [0, 1] exFrac [(0, -1), (1, -2)] (fun _ => 1/2) ((1/2, -3) : ℚ × ℚ) := by
  refine ⟨by simp, by norm_num, ?_⟩
  intro el hel
  simp only [List.mem_cons, List.not_mem_nil, or_false] at hel
  rcases hel with rfl | rfl <;> norm_num [exFrac]

/-! ### Violations -/

def limMins : List (ℚ × ℚ) := [(0, 0), (1, 0), (1/2, -503/10), (1/100, -101/100)]
def limRefs : List (Fin 2 × (ℚ × ℚ)) := [(0, (0, 0)), (1, (1, 0))]

/-- **C149 is violated** for the default limits `(-100, 0)`: a strictly stable phase with a formation energy of −1.01 eV/atom has no domain, whatever the
half-space intersection reports, because its chemical potentials lie below the limit. -/
theorem C149_limit_violated : StrictlyStable [0, 1] exFrac Prod.snd limMins (1/100, -101/100) ∧
    (∃ H E, hyperplanesAndEntries [0, 1] exFrac Prod.snd limMins limRefs = .ok (H, E) ∧ (1/100, -101/100) ∈ E ∧
      Inside (H ++ borderRows [0, 1] (-100)) [-100 + 1/10, -100 + 1/10]) ∧
    ∀ hsInt : List (List ℚ) → List (List ℚ × List ℕ), (∀ H, Intersects 2 H (hsInt H)) → ∀ doms pts,
      cpdDomains [0, 1] exFrac Prod.snd (fun e => e) limMins limRefs (borderRows [0, 1] (-100)) hsInt = .ok doms →
      (((1/100 : ℚ), (-101/100 : ℚ)), pts) ∉ doms := by
  refine ⟨?_, ⟨_, _, rfl, by decide +kernel, by unfold Inside; decide +kernel⟩, ?_⟩
  · intro w hw
    have hf : limMins.filter (· ≠ ((1/100 : ℚ), (-101/100 : ℚ))) = [(0, 0), (1, 0), (1/2, -503/10)] := by decide +kernel
    rw [hf] at hw ⊢
    have h1 := hw.nonneg (0, 0) (by simp)
    have h2 := hw.nonneg (1, 0) (by simp)
    have h3 := hw.nonneg (1/2, -503/10) (by simp)
    have h4 := hw.total
    have h5 := hw.balanced 1 (by simp)
    simp only [mixEnergy, exFrac, List.map_cons, List.map_nil, List.sum_cons, List.sum_nil] at h4 h5 ⊢
    norm_num at h4 h5 ⊢
    linarith
  · intro hsInt hspec doms pts h hd
    have R : Refs [0, 1] exFrac limMins limRefs := ⟨by decide +kernel, by decide +kernel⟩
    obtain ⟨_, _, -, -, -, -, hne, -⟩ := C93_contents _ _ _ _ _ _ _ hsInt doms h
    obtain ⟨μ, hμ⟩ := List.exists_mem_of_ne_nil _ (hne _ hd)
    obtain ⟨⟨e, he, hf, hw, -⟩, hall, hb⟩ := C93_points [0, 1] (by decide) exFrac Prod.snd (fun e => e) limMins limMins limRefs R (by decide +kernel)
      (fun e he => ⟨e, he, fun _ _ => rfl, le_rfl⟩) _ hsInt hspec doms h _ pts hd μ hμ
    subst hf
    obtain ⟨facet, v, e', hp, -⟩ := (by
      obtain ⟨H, E, -, -, -, -, -, hiff⟩ := C93_contents _ _ _ _ _ _ _ hsInt doms h
      obtain ⟨facet, v, e', hp, -⟩ := (hiff _ μ).mp ⟨pts, hd, hμ⟩
      exact ⟨facet, H, e', hp, trivial⟩ : ∃ facet H, ∃ _ : ℚ × ℚ, (μ, facet) ∈ hsInt (H ++ borderRows [0, 1] (-100)) ∧ True)
    have hlen := (hspec _ _ hp).1
    simp only at hlen
    obtain ⟨a, b, rfl⟩ : ∃ a b, μ = [a, b] := by
      match μ, hlen with
      | [a, b], _ => exact ⟨a, b, rfl⟩
    have h1 := hall (1/2, -503/10) (by simp [limMins])
    have h2 := hb [0, -1, -100] (by decide +kernel)
    simp only [weighted, exFrac, dot, List.zipWith_cons_cons, List.zipWith_nil_left, List.sum_cons, List.sum_nil, List.cons_append, List.nil_append,
      formTol] at hw h1 h2
    norm_num at hw h1 h2
    linarith

/-- Elements at 0 and a compound at −1, with the limits `(-10, 0)`. -/
def zMins : List (ℚ × ℚ) := [(0, 0), (1, 0), (1/2, -1)]
def zRefs : List (Fin 2 × (ℚ × ℚ)) := [(0, (0, 0)), (1, (1, 0))]
def zH : List (List ℚ) := [[1/2, 1/2, 1], [1, 0, 0], [0, 1, 0], [-1, 0, -10], [1, 0, 0], [0, -1, -10], [0, 1, 0]]

/-- The corners, where the coinciding half-spaces `μ ≤ 0` of element and border are listed under the given numbers. -/
def zCorners (i j : ℕ) (H : List (List ℚ)) : List (List ℚ × List ℕ) :=
  if H = zH then [([0, -2], [0, i]), ([-2, 0], [0, j]), ([0, -10], [i, 5]), ([-10, 0], [j, 3]), ([-10, -10], [3, 5])] else []

theorem zCorners_spec (i j : ℕ) (hi : zH[i]? = some [1, 0, 0]) (hj : zH[j]? = some [0, 1, 0]) :
    (∀ H, Intersects 2 H (zCorners i j H)) ∧ Complete 2 zH (zCorners i j zH) := by
  constructor
  · intro H p hp
    unfold zCorners at hp
    split_ifs at hp with h
    · subst h
      simp only [List.mem_cons, List.not_mem_nil, or_false] at hp
      rcases hp with rfl | rfl | rfl | rfl | rfl <;>
      · refine ⟨rfl, by dsimp only; decide +kernel, ?_⟩
        intro v hv
        dsimp only
        simp only [List.mem_cons, List.not_mem_nil, or_false] at hv
        rcases hv with rfl | rfl <;> first | exact ⟨_, hi, by decide +kernel⟩ | exact ⟨_, hj, by decide +kernel⟩ | exact ⟨_, rfl, by decide +kernel⟩
    · simp at hp
  · rintro row hrow -
    unfold zCorners
    rw [if_pos rfl]
    simp only [zH, List.mem_cons, List.not_mem_nil, or_false] at hrow
    rcases hrow with rfl | rfl | rfl | rfl | rfl | rfl | rfl
    · exact ⟨([0, -2], [0, i]), by simp, 0, by simp, rfl⟩
    · exact ⟨([0, -2], [0, i]), by simp, i, by simp, hi⟩
    · exact ⟨([-2, 0], [0, j]), by simp, j, by simp, hj⟩
    · exact ⟨([-10, -10], [3, 5]), by simp, 3, by simp, rfl⟩
    · exact ⟨([0, -2], [0, i]), by simp, i, by simp, hi⟩
    · exact ⟨([-10, -10], [3, 5]), by simp, 5, by simp, rfl⟩
    · exact ⟨([-2, 0], [0, j]), by simp, j, by simp, hj⟩

/-- **C149 is violated** for elements with energy 0, which is the case for formation energies: their half-space coincides with the border at the upper limit,
and whether they have a domain depends on which of the two Qhull happens to list. -/
theorem C149_zero_reference_violated :
    (∀ H, Intersects 2 H (zCorners 1 2 H)) ∧ Complete 2 zH (zCorners 1 2 zH) ∧ (∀ H, Intersects 2 H (zCorners 4 6 H)) ∧ Complete 2 zH (zCorners 4 6 zH) ∧
    cpdDomains [0, 1] exFrac Prod.snd (fun e => e) zMins zRefs (borderRows [0, 1] (-10)) (zCorners 1 2)
      = .ok [((1/2, -1), [[0, -2], [-2, 0]]), ((0, 0), [[0, -2], [0, -10]]), ((1, 0), [[-2, 0], [-10, 0]])] ∧
    cpdDomains [0, 1] exFrac Prod.snd (fun e => e) zMins zRefs (borderRows [0, 1] (-10)) (zCorners 4 6)
      = .ok [((1/2, -1), [[0, -2], [-2, 0]])] := by
  obtain ⟨a, b⟩ := zCorners_spec 1 2 rfl rfl
  obtain ⟨c, d⟩ := zCorners_spec 4 6 rfl rfl
  exact ⟨a, b, c, d, by decide +kernel, by decide +kernel⟩

end Verif.Props.StableDomains
