import Verif.Props.DomainShift
import Verif.Props.StableDomains

/-!
C161: the domains and distances of a chemical potential diagram when phases are added, when energies are lowered and when energies are wrong
(src/rxn_network/thermo/chempot_diagram.py).
-/

set_option linter.unusedSectionVars false

namespace Verif.Props.DomainGrow
open Verif.Py Verif.Model Verif.Model.Chempot Verif.Model.Thermo Verif.Lemmas Verif.Lemmas.Dict Verif.Props.Chempot Verif.Props.DomainDistance
open Verif.Props.DomainShift (Facet Precise Vertex Feasible selected)
open Verif.Props.StableDomains (Mixes mixEnergy StrictlyStable mix_weighted)

variable {η ε φ : Type} [DecidableEq η] [DecidableEq ε] [DecidableEq φ]

/-! ### Specification -/

/-- The second list of phases competes at least as hard: for every phase of the first it has one with the same atomic fractions that is not
higher in energy. (Phases were added, or energies lowered.) -/
def Harder (elements : List ε) (frac : η → ε → ℚ) (epa epa' : η → ℚ) (mins mins' : List η) : Prop :=
  ∀ x ∈ mins, ∃ y ∈ mins', (∀ el ∈ elements, frac y el = frac x el) ∧ epa' y ≤ epa x

/-- One ground state per composition. -/
def OnePer (elements : List ε) (frac : η → ε → ℚ) (mins : List η) : Prop :=
  mins.Nodup ∧ ∀ a ∈ mins, ∀ b ∈ mins, (∀ el ∈ elements, frac a el = frac b el) → a = b

/-! ### Helper lemmas -/

theorem weighted_congr (elements : List ε) (frac : η → ε → ℚ) (x y : η) (h : ∀ el ∈ elements, frac y el = frac x el) (μ : List ℚ) :
    weighted elements frac y μ = weighted elements frac x μ := by
  unfold weighted
  congr 1
  induction elements generalizing μ with
  | nil => simp
  | cons a l ih =>
    cases μ with
    | nil => simp
    | cons m μ =>
      rw [List.zipWith_cons_cons, List.zipWith_cons_cons, h a (by simp), ih (fun el hel => h el (List.mem_cons_of_mem _ hel))]

theorem weighted_lt (elements : List ε) (frac : η → ε → ℚ) (e : η) (h0 : ∀ el ∈ elements, 0 ≤ frac e el) (μ ν : List ℚ)
    (hl : μ.length = elements.length) (h : List.Forall₂ (· ≤ ·) μ ν)
    (hs : ∃ (i : ℕ) (el : ε) (m n : ℚ), elements[i]? = some el ∧ μ[i]? = some m ∧ ν[i]? = some n ∧ 0 < frac e el ∧ m < n) :
    weighted elements frac e μ < weighted elements frac e ν := by
  induction h generalizing elements with
  | nil =>
    obtain ⟨i, el, m, n, -, h2, -⟩ := hs
    simp at h2
  | @cons m n μ ν hm hr ih =>
    cases elements with
    | nil => simp at hl
    | cons x xs =>
      have hl' : μ.length = xs.length := by simpa using hl
      have h0' : ∀ el ∈ xs, 0 ≤ frac e el := fun el hel => h0 el (List.mem_cons_of_mem _ hel)
      have ht := weighted_mono xs frac e h0' μ ν hl' hr
      have hx := mul_le_mul_of_nonneg_left hm (h0 x (by simp))
      obtain ⟨i, el, a, b, k1, k2, k3, k4, k5⟩ := hs
      unfold weighted at ht ih ⊢
      simp only [List.zipWith_cons_cons, List.sum_cons]
      cases i with
      | zero =>
        simp only [List.getElem?_cons_zero, Option.some.injEq] at k1 k2 k3
        subst k1 k2 k3
        have := mul_lt_mul_of_pos_left k5 k4
        linarith
      | succ i =>
        have := ih xs h0' hl' ⟨i, el, a, b, by simpa using k1, by simpa using k2, by simpa using k3, k4, k5⟩
        linarith

section
variable {elements : List ε} {frac : η → ε → ℚ} {epa epa' : η → ℚ} {formula : η → φ} {mins mins' : List η} {refs refs' : List (ε × η)}
  {borders borders' : List (List ℚ)} {hsInt hsInt' : List (List ℚ) → List (List ℚ × List ℕ)} {doms doms' : List (φ × List (List ℚ))}

/-- Regions shrink. -/
theorem region_anti (hh : Harder elements frac epa epa' mins mins') (hb : ∀ row ∈ borders, row ∈ borders') (e : η) (he : epa' e = epa e) :
    Region elements frac epa' mins' borders' e ⊆ Region elements frac epa mins borders e := by
  rintro μ ⟨h1, h2, h3, h4⟩
  refine ⟨h1, h2.trans he, fun x hx => ?_, fun row hrow => h4 row (hb row hrow)⟩
  obtain ⟨y, hy, hf, hle⟩ := hh x hx
  rw [← weighted_congr elements frac x y hf]
  exact (h3 y hy).trans hle

/-- The energy of the reference of an element is that of the entry. -/
theorem vec_at {vec : List ℚ} (hvec : List.Forall₂ (fun el v => ∃ r, dictGet refs el = some r ∧ v = epa r) elements vec) (i : ℕ) (el : ε)
    (hi : elements[i]? = some el) : ∃ r, dictGet refs el = some r ∧ vec[i]? = some (epa r) := by
  obtain ⟨hi', rfl⟩ := List.getElem?_eq_some_iff.mp hi
  have hl := hvec.length_eq
  obtain ⟨r, hr, hv⟩ := (List.forall₂_iff_get.mp hvec).2 i hi' (by omega)
  exact ⟨r, hr, by rw [List.getElem?_eq_getElem (by omega)]; exact congrArg some hv⟩

/-- The selected entries are distinct. -/
theorem nodup_selected (hn : elements.Nodup) (R : Refs elements frac mins refs) (hm : mins.Nodup) {vec : List ℚ}
    (hvec : List.Forall₂ (fun el v => ∃ r, dictGet refs el = some r ∧ v = epa r) elements vec) :
    ((mins.filter fun e => decide (epa e - weighted elements frac e vec < -formTol)) ++ refs.map Prod.snd).Nodup := by
  have hl : vec.length = elements.length := hvec.length_eq.symm
  rw [List.nodup_append]
  refine ⟨hm.filter _, ?_, ?_⟩
  · rw [List.nodup_map_iff_inj_on (List.Nodup.of_map _ R.nodup)]
    intro p hp q hq hpq
    obtain ⟨-, p2, p3⟩ := R.mem p hp
    obtain ⟨-, q2, q3⟩ := R.mem q hq
    have hfst : p.1 = q.1 := by
      by_contra hne
      have e1 := p3 p.1 p2
      have e2 := q3 p.1 p2
      rw [hpq, if_pos rfl] at e1
      rw [if_neg hne, e1] at e2
      exact one_ne_zero e2
    exact Prod.ext hfst hpq
  · intro x hx y hy hxy
    subst hxy
    obtain ⟨-, hx2⟩ := List.mem_filter.mp hx
    have hx2 := of_decide_eq_true hx2
    obtain ⟨p, hp, rfl⟩ := List.mem_map.mp hy
    obtain ⟨-, p2, p3⟩ := R.mem p hp
    obtain ⟨i, hi⟩ := List.mem_iff_getElem?.mp p2
    have hw := weighted_unit elements hn frac p.2 vec hl p.1 i hi p3
    obtain ⟨r, hr, hrv⟩ := vec_at hvec i p.1 hi
    have hpr : dictGet refs p.1 = some p.2 := dictGet_eq_some_of_mem _ R.nodup _ _ hp
    rw [hpr] at hr
    cases hr
    rw [hrv] at hw
    have hw := Option.some.inj hw
    rw [← hw] at hx2
    have htol : (0 : ℚ) < formTol := by unfold formTol; norm_num
    linarith

/-- A half-space that bounds a facet of the harder diagram bounds one of the other. -/
theorem facet_anti (D : Diagram elements frac epa formula mins refs borders hsInt doms)
    (D' : Diagram elements frac epa' formula mins' refs' borders' hsInt' doms') (hh : Harder elements frac epa epa' mins mins')
    (ho : OnePer elements frac mins) (ho' : OnePer elements frac mins') (hb : ∀ row ∈ borders, row ∈ borders')
    {H H' : List (List ℚ)} {E E' : List η} (hHE : hyperplanesAndEntries elements frac epa mins refs = .ok (H, E))
    (hHE' : hyperplanesAndEntries elements frac epa' mins' refs' = .ok (H', E')) (e : η) (he : e ∈ mins) (heE : e ∈ E') (hee : epa' e = epa e)
    (hF : Facet elements.length (H' ++ borders') (hyperplane elements frac epa' e)) :
    e ∈ E ∧ Facet elements.length (H ++ borders) (hyperplane elements frac epa e) := by
  obtain ⟨vec, hvec, hH, hE⟩ := selected _ _ _ _ _ _ _ hHE
  obtain ⟨vec', hvec', hH', hE'⟩ := selected _ _ _ _ _ _ _ hHE'
  have hl : vec.length = elements.length := hvec.length_eq.symm
  have hl' : vec'.length = elements.length := hvec'.length_eq.symm
  have hvec2' : List.Forall₂ (fun el v => ∃ r, (el, r) ∈ refs' ∧ v = epa' r) elements vec' :=
    hvec'.imp fun el v ⟨r, hr, hv⟩ => ⟨r, mem_of_dictGet _ _ _ hr, hv⟩
  have memE' : ∀ x ∈ E', x ∈ mins' := by
    intro x hx
    rw [hE'] at hx
    rcases List.mem_append.mp hx with hx | hx
    · exact (List.mem_filter.mp hx).1
    · obtain ⟨p, hp, rfl⟩ := List.mem_map.mp hx
      exact (D'.isRefs.mem p hp).1
  have memE : ∀ x ∈ E, x ∈ mins := by
    intro x hx
    rw [hE] at hx
    rcases List.mem_append.mp hx with hx | hx
    · exact (List.mem_filter.mp hx).1
    · obtain ⟨p, hp, rfl⟩ := List.mem_map.mp hx
      exact (D.isRefs.mem p hp).1
  -- references are not higher in the harder diagram
  have hvv : List.Forall₂ (· ≤ ·) vec' vec := by
    rw [List.forall₂_iff_get]
    refine ⟨by omega, fun i hi hi' => ?_⟩
    have hi2 : elements[i]? = some (elements[i]'(by omega)) := List.getElem?_eq_getElem (by omega)
    obtain ⟨r, hr, hv⟩ := vec_at hvec i _ hi2
    obtain ⟨r', hr', hv'⟩ := vec_at hvec' i _ hi2
    obtain ⟨k1, -, k3⟩ := D.isRefs.mem _ (mem_of_dictGet _ _ _ hr)
    obtain ⟨k1', -, k3'⟩ := D'.isRefs.mem _ (mem_of_dictGet _ _ _ hr')
    obtain ⟨y, hy, hf, hle⟩ := hh r k1
    have : y = r' := ho'.2 y hy r' k1' fun el hel => by rw [hf el hel, k3 el hel, k3' el hel]
    subst this
    rw [List.getElem?_eq_getElem hi] at hv'
    rw [List.getElem?_eq_getElem hi'] at hv
    rw [List.get_eq_getElem, List.get_eq_getElem, Option.some.inj hv, Option.some.inj hv']
    exact hle
  have heE2 : e ∈ E := by
    rw [hE'] at heE
    rw [hE]
    rcases List.mem_append.mp heE with hx | hx
    · refine List.mem_append.mpr (Or.inl (List.mem_filter.mpr ⟨he, ?_⟩))
      have hx := of_decide_eq_true (List.mem_filter.mp hx).2
      have := weighted_mono elements frac e (D.nonneg e he) vec' vec hl' hvv
      exact decide_eq_true (by linarith)
    · obtain ⟨p, hp, rfl⟩ := List.mem_map.mp hx
      obtain ⟨-, p2, p3⟩ := D'.isRefs.mem p hp
      obtain ⟨i, hi⟩ := List.mem_iff_getElem?.mp p2
      obtain ⟨r, hr, -⟩ := vec_at hvec i _ hi
      have hr := mem_of_dictGet _ _ _ hr
      obtain ⟨k1, -, k3⟩ := D.isRefs.mem _ hr
      have : r = p.2 := ho.2 r k1 _ he fun el hel => by rw [k3 el hel, p3 el hel]
      exact List.mem_append.mpr (Or.inr (List.mem_map.mpr ⟨_, hr, this⟩))
  refine ⟨heE2, ?_⟩
  obtain ⟨-, μ, hμ, h0, hlt⟩ := hF
  have hrowE' : hyperplane elements frac epa' e ∈ E'.map (hyperplane elements frac epa') := List.mem_map_of_mem heE
  have hrowE : hyperplane elements frac epa e ∈ E.map (hyperplane elements frac epa) := List.mem_map_of_mem heE2
  rw [hH', List.erase_append_left _ hrowE'] at hlt
  -- rows of different compositions differ
  have rowne : ∀ (a b : η) (u v : η → ℚ), hyperplane elements frac u a = hyperplane elements frac v b → ∀ el ∈ elements, frac a el = frac b el := by
    intro a b u v hab el hel
    unfold hyperplane at hab
    have := (List.append_inj hab (by simp)).1
    exact List.map_inj_left.mp this el hel
  have strict' : ∀ y ∈ E', y ≠ e → weighted elements frac y μ < epa' y := by
    intro y hy hne
    have hrn : hyperplane elements frac epa' y ≠ hyperplane elements frac epa' e := fun hc =>
      hne (ho'.2 y (memE' y hy) e (memE' e heE) (rowne _ _ _ _ hc))
    have := hlt _ (List.mem_append.mpr (Or.inl ((List.mem_erase_of_ne hrn).mpr (List.mem_map_of_mem hy))))
    rw [dot_hyperplane _ _ _ _ _ hμ] at this
    linarith
  have tight : weighted elements frac e μ = epa' e := by
    rw [dot_hyperplane _ _ _ _ _ hμ] at h0
    linarith
  have hle : ∀ y ∈ E', weighted elements frac y μ ≤ epa' y := by
    intro y hy
    by_cases hne : y = e
    · rw [hne, tight]
    · exact (strict' y hy hne).le
  -- the chemical potential of an element is at most that of its reference, strictly if the reference is not `e`
  have hat : ∀ (i : ℕ) (el : ε), elements[i]? = some el → ∃ r m, (el, r) ∈ refs' ∧ μ[i]? = some m ∧ vec'[i]? = some (epa' r) ∧ m ≤ epa' r ∧
      (r ≠ e → m < epa' r) := by
    intro i el hi
    obtain ⟨r, hr, hv⟩ := vec_at hvec' i el hi
    have hr := mem_of_dictGet _ _ _ hr
    obtain ⟨k1, -, k3⟩ := D'.isRefs.mem _ hr
    have hrE : r ∈ E' := by
      rw [hE']
      exact List.mem_append.mpr (Or.inr (List.mem_map.mpr ⟨_, hr, rfl⟩))
    exact ⟨r, _, hr, weighted_unit elements D.nodup frac r μ hμ el i hi k3, hv, hle r hrE, fun hne => strict' r hrE hne⟩
  have hμv : List.Forall₂ (· ≤ ·) μ vec' := by
    rw [List.forall₂_iff_get]
    refine ⟨by omega, fun i hi hi' => ?_⟩
    obtain ⟨r, m, -, h1, h2, h3, -⟩ := hat i _ (List.getElem?_eq_getElem (show i < elements.length by omega))
    rw [List.getElem?_eq_getElem hi] at h1
    rw [List.getElem?_eq_getElem hi'] at h2
    rw [List.get_eq_getElem, List.get_eq_getElem, Option.some.inj h1, Option.some.inj h2]
    exact h3
  have strict : ∀ y ∈ mins', y ≠ e → weighted elements frac y μ < epa' y := by
    intro y hy hne
    by_cases hyE : y ∈ E'
    · exact strict' y hyE hne
    have hform : 0 ≤ epa' y - weighted elements frac y vec' := by
      refine (D'.sharp y hy vec' hvec2').resolve_left fun hc => hyE ?_
      rw [hE']
      exact List.mem_append.mpr (Or.inl (List.mem_filter.mpr ⟨hy, decide_eq_true hc⟩))
    by_cases hex : ∃ (i : ℕ) (el : ε) (r : η), elements[i]? = some el ∧ (el, r) ∈ refs' ∧ 0 < frac y el ∧ r ≠ e
    · obtain ⟨i, el, r, g1, g2, g3, g4⟩ := hex
      obtain ⟨r', m, k1, k2, k3, -, k5⟩ := hat i el g1
      have : r' = r := by
        have a := dictGet_eq_some_of_mem _ D'.isRefs.nodup _ _ k1
        have b := dictGet_eq_some_of_mem _ D'.isRefs.nodup _ _ g2
        rw [a] at b
        exact Option.some.inj b
      have := weighted_lt elements frac y (D'.nonneg y hy) μ vec' hμ hμv ⟨i, el, m, epa' r', g1, k2, k3, g3, k5 (this ▸ g4)⟩
      linarith
    · exfalso
      have hall : ∀ (i : ℕ) (el : ε) (r : η), elements[i]? = some el → (el, r) ∈ refs' → 0 < frac y el → r = e := by
        intro i el r g1 g2 g3
        by_contra hc
        exact hex ⟨i, el, r, g1, g2, g3, hc⟩
      have hsum := D'.total y hy
      have hpos : ∃ el ∈ elements, 0 < frac y el := by
        by_contra hc
        push Not at hc
        have : (elements.map (frac y)).sum = 0 := List.sum_eq_zero (by
          intro q hq
          obtain ⟨el, hel, rfl⟩ := List.mem_map.mp hq
          exact le_antisymm (hc el hel) (D'.nonneg y hy el hel))
        linarith
      obtain ⟨el, hel, hp⟩ := hpos
      obtain ⟨i, hi⟩ := List.mem_iff_getElem?.mp hel
      obtain ⟨r, hr, -⟩ := vec_at hvec' i el hi
      have hr := mem_of_dictGet _ _ _ hr
      have hre := hall i el r hi hr hp
      obtain ⟨k1, -, k3⟩ := D'.isRefs.mem _ hr
      -- `y` consists of the element of `e` only
      have hz : ∀ x ∈ elements, x ≠ el → frac y x = 0 := by
        intro x hx hxe
        refine le_antisymm ?_ (D'.nonneg y hy x hx)
        by_contra hc
        push Not at hc
        obtain ⟨j, hj⟩ := List.mem_iff_getElem?.mp hx
        obtain ⟨r2, hr2, -⟩ := vec_at hvec' j x hj
        have hr2 := mem_of_dictGet _ _ _ hr2
        have hr2e := hall j x r2 hj hr2 hc
        obtain ⟨-, -, q3⟩ := D'.isRefs.mem _ hr2
        have a := k3 x hx
        have b := q3 x hx
        simp only [hre, hr2e] at a b
        rw [a, if_neg hxe, if_pos trivial] at b
        exact zero_ne_one b
      have hone : frac y el = 1 := by
        have : (elements.map (frac y)).sum = frac y el := by
          rw [← List.sum_toFinset _ D.nodup, Finset.sum_eq_single_of_mem el (by simpa using hel)]
          intro x hx hxe
          exact hz x (by simpa using hx) hxe
        rw [← this, hsum]
      apply hne
      rw [← hre]
      refine ho'.2 y hy r k1 fun x hx => ?_
      rw [k3 x hx]
      split_ifs with hxe
      · simp only at hxe; rw [hxe, hone]
      · exact hz x hx hxe
  refine ⟨List.mem_append.mpr (Or.inl (hH ▸ hrowE)), μ, hμ, by rw [dot_hyperplane _ _ _ _ _ hμ, tight, hee, sub_self], ?_⟩
  rw [hH, List.erase_append_left _ hrowE]
  intro r hr
  rcases List.mem_append.mp hr with hr | hr
  · have hndE : E.Nodup := hE ▸ nodup_selected D.nodup D.isRefs ho.1 hvec
    have hndR : (E.map (hyperplane elements frac epa)).Nodup := by
      rw [List.nodup_map_iff_inj_on hndE]
      intro a ha b hb' hab
      exact ho.2 a (memE a ha) b (memE b hb') (rowne _ _ _ _ hab)
    obtain ⟨x, hx, rfl⟩ := List.mem_map.mp (List.mem_of_mem_erase hr)
    have hxe : x ≠ e := by
      rintro rfl
      exact hndR.not_mem_erase hr
    obtain ⟨y, hy, hf, hyx⟩ := hh x (memE x hx)
    have hye : y ≠ e := by
      rintro rfl
      exact hxe (ho.2 x (memE x hx) y he fun el hel => (hf el hel).symm)
    have := strict y hy hye
    rw [weighted_congr elements frac x y hf] at this
    rw [dot_hyperplane _ _ _ _ _ hμ]
    linarith
  · exact hlt r (List.mem_append.mpr (Or.inr (hb r hr)))

/-! ### C161 -/

/-- **C161, domains shrink.** With more phases, or lower energies of other phases, every point listed for a phase of unchanged energy lies in
the domain the phase had before. -/
theorem C161_domain (D' : Diagram elements frac epa' formula mins' refs' borders' hsInt' doms') (hh : Harder elements frac epa epa' mins mins')
    (hb : ∀ row ∈ borders, row ∈ borders') (e : η) (he' : e ∈ mins') (hee : epa' e = epa e) (pts : List (List ℚ))
    (hd : (formula e, pts) ∈ doms') (p : List ℚ) (hp : p ∈ pts) : p ∈ Region elements frac epa mins borders e :=
  region_anti hh hb e hee (listed_region D'.nodup D'.isRefs D'.nonneg D'.sharp D'.built D'.inj D'.intersects e he' pts hd p hp)

/-- **C161, no phase gains a domain.** A phase of unchanged energy that has a domain in the diagram with more phases or lower energies has one
in the other. -/
theorem C161_stays (D : Diagram elements frac epa formula mins refs borders hsInt doms)
    (D' : Diagram elements frac epa' formula mins' refs' borders' hsInt' doms')
    (P : ∀ H E, hyperplanesAndEntries elements frac epa mins refs = .ok (H, E) → Precise elements.length (H ++ borders) (hsInt (H ++ borders)))
    (P' : ∀ H E, hyperplanesAndEntries elements frac epa' mins' refs' = .ok (H, E) → Precise elements.length (H ++ borders') (hsInt' (H ++ borders')))
    (hh : Harder elements frac epa epa' mins mins') (ho : OnePer elements frac mins) (ho' : OnePer elements frac mins')
    (hb : ∀ row ∈ borders, row ∈ borders') (e : η) (he : e ∈ mins) (he' : e ∈ mins') (hee : epa' e = epa e)
    (h : ∃ pts, (formula e, pts) ∈ doms') : ∃ pts, (formula e, pts) ∈ doms := by
  obtain ⟨H, E, hHE, -, -, -, -, hiff⟩ := C93_contents elements frac epa formula mins refs borders hsInt doms D.built
  obtain ⟨H', E', hHE', -, -, -, -, hiff'⟩ := C93_contents elements frac epa' formula mins' refs' borders' hsInt' doms' D'.built
  have at_ : ∀ {E : List η} {H : List (List ℚ)} {epa : η → ℚ} (_ : H = E.map (hyperplane elements frac epa)) (borders : List (List ℚ)) {v : ℕ} {e : η},
      E[v]? = some e → (H ++ borders)[v]? = some (hyperplane elements frac epa e) := by
    intro E H epa hH borders v e hv
    rw [List.getElem?_append_left (by rw [hH, List.length_map]; exact (List.getElem?_eq_some_iff.mp hv).1), hH, List.getElem?_map, hv]
    rfl
  obtain ⟨_, -, hH, -⟩ := selected _ _ _ _ _ _ _ hHE
  obtain ⟨vec', hvec', hH', hE'⟩ := selected _ _ _ _ _ _ _ hHE'
  obtain ⟨pts, hd⟩ := h
  obtain ⟨p, hp⟩ := List.exists_mem_of_ne_nil _ (found D' _ _ hd).2
  obtain ⟨facet, v, e', h1, h2, h3, h4⟩ := (hiff' _ p).mp ⟨pts, hd, hp⟩
  have heE : e' ∈ E' := List.mem_of_getElem? h3
  have : e' = e := by
    refine D'.inj e' ?_ e he' h4
    rw [hE'] at heE
    rcases List.mem_append.mp heE with hx | hx
    · exact (List.mem_filter.mp hx).1
    · obtain ⟨p, hp, rfl⟩ := List.mem_map.mp hx
      exact (D'.isRefs.mem p hp).1
  subst this
  have hF := ((P' H' E' hHE').facet v _ (at_ hH' borders' h3)).mp ⟨_, h1, h2⟩
  obtain ⟨heE2, hF2⟩ := facet_anti D D' hh ho ho' hb hHE hHE' e' he heE hee hF
  obtain ⟨w, hw⟩ := List.mem_iff_getElem?.mp heE2
  obtain ⟨q, hq, hwq⟩ := ((P H E hHE).facet w _ (at_ hH borders hw)).mpr hF2
  obtain ⟨pts', g1, -⟩ := (hiff (formula e') q.1).mpr ⟨q.2, w, e', hq, hwq, hw, rfl⟩
  exact ⟨pts', g1⟩

/-- **C161, distances.** The distance reported in the diagram with more phases or lower energies is that of two points of the domains in the other
diagram: it is never below the distance of the domains there. -/
theorem C161_distance_partial {κ : Type} [DecidableEq κ] (X : Ext κ φ (List (List ℚ))) (s : CPD κ φ (List (List ℚ)))
    (D' : Diagram elements frac epa' formula mins' refs' borders' hsInt' doms') (hh : Harder elements frac epa epa' mins mins')
    (hb : ∀ row ∈ borders, row ∈ borders') (e g : η) (he' : e ∈ mins') (hg' : g ∈ mins') (hee : epa' e = epa e) (hgg : epa' g = epa g)
    (pf pg : List (List ℚ)) (hf : (formula e, pf) ∈ doms') (hg : (formula g, pg) ∈ doms') (offset : ℝ) :
    ∃ m, shortest X (dictGet doms') euclid s (formula e) (formula g) offset = (s, .ok (m + offset)) ∧
      ∃ p ∈ Region elements frac epa mins borders e, ∃ q ∈ Region elements frac epa mins borders g, euclid p q = m := by
  obtain ⟨m, h1, p, hp, q, hq, h2⟩ := C146_attained_partial X s D' e g he' hg' pf pg hf hg offset
  exact ⟨m, h1, p, region_anti hh hb e hee hp, q, region_anti hh hb g hgg hq, h2⟩

/-- **C161, two elements.** In a binary diagram the reported distance of two phases of unchanged energy never decreases when phases are added or
the energies of others are lowered. -/
theorem C161_two_elements {κ : Type} [DecidableEq κ] (X : Ext κ φ (List (List ℚ))) (s : CPD κ φ (List (List ℚ)))
    (D : Diagram elements frac epa formula mins refs borders hsInt doms)
    (D' : Diagram elements frac epa' formula mins' refs' borders' hsInt' doms') (h2 : elements.length = 2)
    (hh : Harder elements frac epa epa' mins mins') (hb : ∀ row ∈ borders, row ∈ borders') (e g : η) (he : e ∈ mins) (hg : g ∈ mins)
    (he' : e ∈ mins') (hg' : g ∈ mins') (hee : epa' e = epa e) (hgg : epa' g = epa g) (pf pg pf' pg' : List (List ℚ))
    (hf : (formula e, pf) ∈ doms) (hgd : (formula g, pg) ∈ doms) (hf' : (formula e, pf') ∈ doms') (hgd' : (formula g, pg') ∈ doms') (offset : ℝ) :
    ∃ m m', shortest X (dictGet doms) euclid s (formula e) (formula g) offset = (s, .ok (m + offset)) ∧
      shortest X (dictGet doms') euclid s (formula e) (formula g) offset = (s, .ok (m' + offset)) ∧ m ≤ m' := by
  obtain ⟨m, h1, hm⟩ := C146_two_elements X s D h2 e g he hg pf pg hf hgd offset
  obtain ⟨m', h1', hp⟩ := C161_distance_partial (epa := epa) (mins := mins) (borders := borders) X s D' hh hb e g he' hg' hee hgg pf' pg' hf' hgd' offset
  exact ⟨m, m', h1, h1', hm.2 hp⟩

/-- **C161, neighbours.** Phases of unchanged energy that touch in the diagram with more phases or lower energies touch in the other, for any
number of elements: an interface that can react keeps doing so when more phases are known. -/
theorem C161_neighbours {κ : Type} [DecidableEq κ] (X : Ext κ φ (List (List ℚ))) (s : CPD κ φ (List (List ℚ)))
    (D : Diagram elements frac epa formula mins refs borders hsInt doms)
    (D' : Diagram elements frac epa' formula mins' refs' borders' hsInt' doms')
    (hh : Harder elements frac epa epa' mins mins') (hb : ∀ row ∈ borders, row ∈ borders') (e g : η) (he : e ∈ mins) (hg : g ∈ mins)
    (he' : e ∈ mins') (hg' : g ∈ mins') (hee : epa' e = epa e) (hgg : epa' g = epa g) (pf pg pf' pg' : List (List ℚ))
    (hf : (formula e, pf) ∈ doms) (hgd : (formula g, pg) ∈ doms) (hf' : (formula e, pf') ∈ doms') (hgd' : (formula g, pg') ∈ doms')
    (h0 : (shortest X (dictGet doms') euclid s (formula e) (formula g) 0).2 = .ok 0) :
    (shortest X (dictGet doms) euclid s (formula e) (formula g) 0).2 = .ok 0 := by
  obtain ⟨μ, h1, h2⟩ := (C146_neighbours X s D' e g he' hg' pf' pg' hf' hgd').mp h0
  exact (C146_neighbours X s D e g he hg pf pg hf hgd).mpr ⟨μ, region_anti hh hb e hee h1, region_anti hh hb g hgg h2⟩

end

/-! ### Wrong energies -/

theorem weighted_shift (elements : List ε) (frac : η → ε → ℚ) (x : η) (d : ℚ) (μ : List ℚ) (hl : μ.length = elements.length) :
    weighted elements frac x (μ.map (· - d)) = weighted elements frac x μ - d * (elements.map (frac x)).sum := by
  unfold weighted
  induction elements generalizing μ with
  | nil => simp
  | cons a l ih =>
    cases μ with
    | nil => simp at hl
    | cons m μ =>
      simp only [List.map_cons, List.zipWith_cons_cons, List.sum_cons]
      rw [ih μ (by simpa using hl)]
      ring

theorem mix_error (epa epa' : η → ℚ) (δ : ℚ) (l : List η) (w : η → ℝ) (hw : ∀ i ∈ l, 0 ≤ w i) (ht : (l.map w).sum = 1)
    (hδ : ∀ i ∈ l, |epa' i - epa i| ≤ δ) : |mixEnergy epa' l w - mixEnergy epa l w| ≤ δ := by
  have h : ∀ (u v : η → ℚ), (∀ i ∈ l, u i ≤ v i + δ) → mixEnergy u l w ≤ mixEnergy v l w + δ := by
    intro u v huv
    unfold mixEnergy
    have : (l.map fun i => w i * (u i : ℝ)).sum ≤ (l.map fun i => w i * (v i : ℝ) + w i * (δ : ℝ)).sum := by
      apply List.sum_le_sum
      intro i hi
      rw [← mul_add]
      apply mul_le_mul_of_nonneg_left _ (hw i hi)
      exact_mod_cast huv i hi
    rwa [List.sum_map_add, List.sum_map_mul_right, ht, one_mul] at this
  have a := h epa' epa fun i hi => by linarith [(abs_le.mp (hδ i hi)).2]
  have b := h epa epa' fun i hi => by linarith [(abs_le.mp (hδ i hi)).1]
  rw [abs_le]
  constructor <;> linarith

section
variable {elements : List ε} {frac : η → ε → ℚ} {epa epa' : η → ℚ} {formula : η → φ} {mins : List η} {refs : List (ε × η)}
  {borders : List (List ℚ)} {hsInt : List (List ℚ) → List (List ℚ × List ℕ)} {doms : List (φ × List (List ℚ))}

/-- **C161, wrong energies: points.** If the energies per atom behind a diagram are wrong by at most `δ`, then lowering all chemical potentials of
a listed point by `δ` gives a point at which, with the right energies, no phase gains energy and the phase it is listed for is within `2 δ` of
being in equilibrium. -/
theorem C161_error (D : Diagram elements frac epa' formula mins refs borders hsInt doms) (δ : ℚ) (hδ : ∀ x ∈ mins, |epa' x - epa x| ≤ δ)
    (e : η) (he : e ∈ mins) (pts : List (List ℚ)) (hd : (formula e, pts) ∈ doms) (p : List ℚ) (hp : p ∈ pts) :
    (∀ x ∈ mins, weighted elements frac x (p.map (· - δ)) ≤ epa x) ∧ epa e - 2 * δ ≤ weighted elements frac e (p.map (· - δ)) := by
  obtain ⟨h1, h2, h3, -⟩ := listed_region D.nodup D.isRefs D.nonneg D.sharp D.built D.inj D.intersects e he pts hd p hp
  constructor
  · intro x hx
    rw [weighted_shift _ _ _ _ _ h1, D.total x hx]
    have := h3 x hx
    have := (abs_le.mp (hδ x hx)).2
    linarith
  · rw [weighted_shift _ _ _ _ _ h1, D.total e he]
    have := (abs_le.mp (hδ e he)).1
    linarith

/-- **C161, wrong energies: phases with a domain** are at most `2 δ` per atom above every mixture of phases with the right energies. -/
theorem C161_error_sound (D : Diagram elements frac epa' formula mins refs borders hsInt doms) (δ : ℚ) (hδ : ∀ x ∈ mins, |epa' x - epa x| ≤ δ)
    (e : η) (he : e ∈ mins) (pts : List (List ℚ)) (hd : (formula e, pts) ∈ doms) (l : List η) (w : η → ℝ) (hl : ∀ i ∈ l, i ∈ mins)
    (hm : Mixes elements frac l w e) : (epa e : ℝ) ≤ mixEnergy epa l w + 2 * δ := by
  obtain ⟨p, hp⟩ := List.exists_mem_of_ne_nil _ (found D _ _ hd).2
  obtain ⟨h1, h2, h3, -⟩ := listed_region D.nodup D.isRefs D.nonneg D.sharp D.built D.inj D.intersects e he pts hd p hp
  have h4 := mix_weighted elements frac l w e p hm
  rw [h2] at h4
  have h5 : (l.map fun i => w i * ((weighted elements frac i p : ℚ) : ℝ)).sum ≤ mixEnergy epa' l w := by
    unfold mixEnergy
    apply List.sum_le_sum
    intro i hi
    apply mul_le_mul_of_nonneg_left _ (hm.nonneg i hi)
    exact_mod_cast h3 i (hl i hi)
  have h6 := (abs_le.mp (mix_error epa epa' δ l w hm.nonneg hm.total fun i hi => hδ i (hl i hi))).2
  have h7 : (epa e : ℝ) ≤ epa' e + δ := by
    have := (abs_le.mp (hδ e he)).1
    exact_mod_cast (show epa e ≤ epa' e + δ by linarith)
  linarith
end

section
variable {elements : List ε} {frac : η → ε → ℚ} {epa epa' : η → ℚ} {formula : η → φ} {mins : List η} {refs : List (ε × η)}

/-- **C161, wrong energies: clearly stable phases keep their domain.** A phase that lies more than `2 δ` per atom below all mixtures of the other
phases has a domain in every diagram made with energies wrong by at most `δ`, if the limits are low enough (see C149 for the conditions on
references and tolerance). -/
theorem C161_error_complete_partial (hn : elements.Nodup) (hm : mins.Nodup) (R : Refs elements frac mins refs) (h2 : 2 ≤ elements.length)
    (hl : refs.length = elements.length) (h1 : ∀ e ∈ mins, (elements.map (frac e)).sum = 1) (hup : ∀ p ∈ refs, epa' p.2 ≤ 0) (δ : ℚ)
    (hδ : ∀ x ∈ mins, |epa' x - epa x| ≤ δ) (e : η) (he : e ∈ mins) (hself : ∀ el, (el, e) ∈ refs → epa' e < 0)
    (hst : ∀ w, Mixes elements frac (mins.filter (· ≠ e)) w e → (epa e : ℝ) + 2 * δ < mixEnergy epa (mins.filter (· ≠ e)) w)
    (hsel : (∃ el, (el, e) ∈ refs) ∨ ∀ vec, List.Forall₂ (fun el v => ∃ r, (el, r) ∈ refs ∧ v = epa' r) elements vec →
      epa' e - weighted elements frac e vec < -formTol) :
    ∃ L0 : ℚ, ∀ L ≤ L0, ∀ hsInt : List (List ℚ) → List (List ℚ × List ℕ), (∀ H, Intersects elements.length H (hsInt H)) →
      (∀ H E, hyperplanesAndEntries elements frac epa' mins refs = .ok (H, E) →
        StableDomains.Inside (H ++ StableDomains.borderRows elements L) (List.replicate elements.length (L + 1/10)) →
        StableDomains.Complete elements.length (H ++ StableDomains.borderRows elements L) (hsInt (H ++ StableDomains.borderRows elements L))) →
      ∃ doms pts, cpdDomains elements frac epa' formula mins refs (StableDomains.borderRows elements L) hsInt = .ok doms ∧
        (formula e, pts) ∈ doms ∧ pts ≠ [] := by
  refine StableDomains.C149_complete_partial elements hn frac epa' formula mins hm refs R h2 hl h1 hup e he hself (fun w hw => ?_) hsel
  have a := hst w hw
  have b := (abs_le.mp (mix_error epa epa' δ _ w hw.nonneg hw.total fun i hi => hδ i (List.mem_filter.mp hi).1)).1
  have c : (epa' e : ℝ) ≤ epa e + δ := by
    have := (abs_le.mp (hδ e he)).2
    exact_mod_cast (show epa' e ≤ epa e + δ by linarith)
  linarith
end

/-! ### Corners of polygons -/

theorem corner2 {c1 c2 a1 a2 b1 b2 u v p q : ℚ} (hD : 0 < a1 * b2 - a2 * b1) (hα : 0 ≤ c1 * b2 - c2 * b1) (hβ : c1 * a2 - c2 * a1 ≤ 0)
    (ha : a1 * (u - p) + a2 * (v - q) ≤ 0) (hb : b1 * (u - p) + b2 * (v - q) ≤ 0) : c1 * u + c2 * v ≤ c1 * p + c2 * q := by
  have h : (a1 * b2 - a2 * b1) * (c1 * (u - p) + c2 * (v - q)) =
      (c1 * b2 - c2 * b1) * (a1 * (u - p) + a2 * (v - q)) + (-(c1 * a2 - c2 * a1)) * (b1 * (u - p) + b2 * (v - q)) := by ring
  have h1 := mul_nonpos_of_nonneg_of_nonpos hα ha
  have h2 := mul_nonpos_of_nonneg_of_nonpos (neg_nonneg.mpr hβ) hb
  have h3 : c1 * (u - p) + c2 * (v - q) ≤ 0 := by
    by_contra hc
    push Not at hc
    have := mul_pos hD hc
    linarith
  linarith

/-- How the objective `c` relates to the side from `P` to `Q` of a polygon listed counterclockwise. -/
def side (c1 c2 : ℚ) (P Q : ℚ × ℚ) : ℚ := c1 * (P.1 - Q.1) - c2 * (Q.2 - P.2)
def inside (u v : ℚ) (P Q : ℚ × ℚ) : Prop := (Q.2 - P.2) * (u - P.1) + (P.1 - Q.1) * (v - P.2) ≤ 0
def turn (P Q R : ℚ × ℚ) : Prop := 0 < (Q.2 - P.2) * (Q.1 - R.1) - (P.1 - Q.1) * (R.2 - Q.2)

theorem best {c1 c2 u v : ℚ} {P Q R : ℚ × ℚ} (t : turn P Q R) (h : inside u v P Q) (h' : inside u v Q R) (s : side c1 c2 P Q ≤ 0) (s' : 0 ≤ side c1 c2 Q R) :
    c1 * u + c2 * v ≤ c1 * Q.1 + c2 * Q.2 := by
  unfold turn at t; unfold inside at h h'; unfold side at s s'
  exact corner2 t s' s (by linarith) h'

theorem quad (c1 c2 u v : ℚ) (A B C D : ℚ × ℚ) (t1 : turn A B C) (t2 : turn B C D) (t3 : turn C D A) (t4 : turn D A B)
    (h1 : inside u v A B) (h2 : inside u v B C) (h3 : inside u v C D) (h4 : inside u v D A) :
    c1 * u + c2 * v ≤ c1 * A.1 + c2 * A.2 ∨ c1 * u + c2 * v ≤ c1 * B.1 + c2 * B.2 ∨ c1 * u + c2 * v ≤ c1 * C.1 + c2 * C.2 ∨
      c1 * u + c2 * v ≤ c1 * D.1 + c2 * D.2 := by
  by_contra hc
  push Not at hc
  obtain ⟨k1, k2, k3, k4⟩ := hc
  have e : side c1 c2 A B + side c1 c2 B C + side c1 c2 C D + side c1 c2 D A = 0 := by unfold side; ring
  have g1 : 0 ≤ side c1 c2 B C → 0 < side c1 c2 A B := fun h => not_le.mp fun s => absurd (best t1 h1 h2 s h) (not_le.mpr k2)
  have g2 : 0 ≤ side c1 c2 C D → 0 < side c1 c2 B C := fun h => not_le.mp fun s => absurd (best t2 h2 h3 s h) (not_le.mpr k3)
  have g3 : 0 ≤ side c1 c2 D A → 0 < side c1 c2 C D := fun h => not_le.mp fun s => absurd (best t3 h3 h4 s h) (not_le.mpr k4)
  have g4 : 0 ≤ side c1 c2 A B → 0 < side c1 c2 D A := fun h => not_le.mp fun s => absurd (best t4 h4 h1 s h) (not_le.mpr k1)
  rcases lt_or_ge (side c1 c2 A B) 0 with a | a
  · have b := not_le.mp fun h => absurd (g1 h) (not_lt.mpr a.le)
    have c := not_le.mp fun h => absurd (g2 h) (not_lt.mpr b.le)
    have d := not_le.mp fun h => absurd (g3 h) (not_lt.mpr c.le)
    linarith
  · have d := g4 a
    have c := g3 d.le
    have b := g2 c.le
    linarith

theorem pent (c1 c2 u v : ℚ) (A B C D E : ℚ × ℚ) (t1 : turn A B C) (t2 : turn B C D) (t3 : turn C D E) (t4 : turn D E A) (t5 : turn E A B)
    (h1 : inside u v A B) (h2 : inside u v B C) (h3 : inside u v C D) (h4 : inside u v D E) (h5 : inside u v E A) :
    c1 * u + c2 * v ≤ c1 * A.1 + c2 * A.2 ∨ c1 * u + c2 * v ≤ c1 * B.1 + c2 * B.2 ∨ c1 * u + c2 * v ≤ c1 * C.1 + c2 * C.2 ∨
      c1 * u + c2 * v ≤ c1 * D.1 + c2 * D.2 ∨ c1 * u + c2 * v ≤ c1 * E.1 + c2 * E.2 := by
  by_contra hc
  push Not at hc
  obtain ⟨k1, k2, k3, k4, k5⟩ := hc
  have e : side c1 c2 A B + side c1 c2 B C + side c1 c2 C D + side c1 c2 D E + side c1 c2 E A = 0 := by unfold side; ring
  have g1 : 0 ≤ side c1 c2 B C → 0 < side c1 c2 A B := fun h => not_le.mp fun s => absurd (best t1 h1 h2 s h) (not_le.mpr k2)
  have g2 : 0 ≤ side c1 c2 C D → 0 < side c1 c2 B C := fun h => not_le.mp fun s => absurd (best t2 h2 h3 s h) (not_le.mpr k3)
  have g3 : 0 ≤ side c1 c2 D E → 0 < side c1 c2 C D := fun h => not_le.mp fun s => absurd (best t3 h3 h4 s h) (not_le.mpr k4)
  have g4 : 0 ≤ side c1 c2 E A → 0 < side c1 c2 D E := fun h => not_le.mp fun s => absurd (best t4 h4 h5 s h) (not_le.mpr k5)
  have g5 : 0 ≤ side c1 c2 A B → 0 < side c1 c2 E A := fun h => not_le.mp fun s => absurd (best t5 h5 h1 s h) (not_le.mpr k1)
  rcases lt_or_ge (side c1 c2 A B) 0 with a | a
  · have b := not_le.mp fun h => absurd (g1 h) (not_lt.mpr a.le)
    have c := not_le.mp fun h => absurd (g2 h) (not_lt.mpr b.le)
    have d := not_le.mp fun h => absurd (g3 h) (not_lt.mpr c.le)
    have e' := not_le.mp fun h => absurd (g4 h) (not_lt.mpr d.le)
    linarith
  · have e' := g5 a
    have d := g4 e'.le
    have c := g3 d.le
    have b := g2 c.le
    linarith

/-! ### Three elements: one more phase, smaller distance -/

/-- Atomic fractions: those of the diagram of C146, and A2B (5). -/
def gFrac (e : ℕ) (el : Fin 3) : ℚ := if e = 5 then (if el = 0 then 2/3 else if el = 1 then 1/3 else 0) else tFrac e el

/-- Energies per atom: those of the diagram of C146, and A2B −4/3. -/
def gEpa (e : ℕ) : ℚ := if e = 5 then -4/3 else tEpa e
def gMins : List ℕ := [0, 1, 2, 3, 4, 5]
def gH : List (List ℚ) := [[1/2, 0, 1/2, 1], [1/3, 1/3, 1/3, 4/3], [2/3, 1/3, 0, 4/3], [1, 0, 0, 0], [0, 1, 0, 0], [0, 0, 1, 0]] ++ tBorders

/-- The corners of the diagram with A2B. Half-spaces: 0 AC, 1 ABC, 2 A2B, 3 A, 4 B, 5 C, 6–8 the limits. -/
def gPairs : List (List ℚ × List ℕ) :=
  [([0, -4, -2], [0, 2, 3]), ([0, -4, -10], [2, 3, 8]), ([0, -10, -2], [0, 3, 7]), ([0, -10, -10], [3, 7, 8]), ([-1, -2, -1], [0, 1, 2]), ([-2, 0, -2], [1, 2, 4]), ([-2, 0, -10], [2, 4, 8]), ([-2, -2, 0], [0, 1, 5]), ([-2, -10, 0], [0, 5, 7]), ([-4, 0, 0], [1, 4, 5]), ([-10, 0, 0], [4, 5, 6]), ([-10, 0, -10], [4, 6, 8]), ([-10, -10, 0], [5, 6, 7]), ([-10, -10, -10], [6, 7, 8])]

def gInt (H : List (List ℚ)) : List (List ℚ × List ℕ) := if H = gH then gPairs else []

def gDoms : List (ℕ × List (List ℚ)) :=
  [(3, [[0, -4, -2], [0, -10, -2], [-1, -2, -1], [-2, -2, 0], [-2, -10, 0]]), (4, [[-1, -2, -1], [-2, 0, -2], [-2, -2, 0], [-4, 0, 0]]),
    (5, [[0, -4, -2], [0, -4, -10], [-1, -2, -1], [-2, 0, -2], [-2, 0, -10]]), (0, [[0, -4, -2], [0, -4, -10], [0, -10, -2], [0, -10, -10]]),
    (1, [[-2, 0, -2], [-2, 0, -10], [-4, 0, 0], [-10, 0, 0], [-10, 0, -10]]), (2, [[-2, -2, 0], [-2, -10, 0], [-4, 0, 0], [-10, 0, 0], [-10, -10, 0]])]

theorem gInt_spec : ∀ H, Intersects 3 H (gInt H) := by
  intro H p hp
  unfold gInt at hp
  split_ifs at hp with h
  · subst h
    have : ∀ p ∈ gPairs, p.1.length = 3 ∧ (∀ row ∈ gH, dot row (p.1 ++ [1]) ≤ 0) ∧
        ∀ v ∈ p.2, ((gH[v]?).map fun row => dot row (p.1 ++ [1])) = some 0 := by decide +kernel
    obtain ⟨h1, h2, h3⟩ := this p hp
    exact ⟨h1, h2, fun v hv => by simpa [Option.map_eq_some_iff] using h3 v hv⟩
  · simp at hp

theorem gCorners : ∀ H, Corners 3 H (gInt H) := by
  intro H
  unfold gInt
  split_ifs with hH
  · subst hH
    constructor
    · rintro v - row hrow c μ hc hμ hall hz
      obtain ⟨c₁, c₂, c₃, rfl⟩ := list3 c hc
      obtain ⟨x, y, z, rfl⟩ := list3 μ hμ
      simp [gH, tBorders, dot] at hall
      obtain ⟨h1, h2, h3, h4, h5, h6, h7, h8, h9⟩ := hall
      have pick : ∀ (a b d : ℚ) (l : List ℕ), ([a, b, d], l) ∈ gPairs → v ∈ l → c₁ * x + c₂ * y + c₃ * z ≤ c₁ * a + c₂ * b + c₃ * d →
          ∃ p ∈ gPairs, v ∈ p.2 ∧ dot [c₁, c₂, c₃] [x, y, z] ≤ dot [c₁, c₂, c₃] p.1 := by
        intro a b d l hm hv hle
        refine ⟨_, hm, hv, ?_⟩
        simp [dot]; linarith
      match v with
      | 0 =>
        simp [gH, tBorders] at hrow; subst hrow; simp [dot] at hz
        obtain rfl : z = -2 - x := by linarith
        rcases pent (c₁ - c₃) (c₂) x y (-2, -10) (0, -10) (0, -4) (-1, -2) (-2, -2)
          (by unfold turn; norm_num) (by unfold turn; norm_num) (by unfold turn; norm_num) (by unfold turn; norm_num) (by unfold turn; norm_num) (by unfold inside; norm_num; linarith) (by unfold inside; norm_num; linarith) (by unfold inside; norm_num; linarith) (by unfold inside; norm_num; linarith) (by unfold inside; norm_num; linarith) with k | k | k | k | k
        · exact pick (-2) (-10) 0 [0, 5, 7] (by simp [gPairs]) (by simp) (by linarith)
        · exact pick 0 (-10) (-2) [0, 3, 7] (by simp [gPairs]) (by simp) (by linarith)
        · exact pick 0 (-4) (-2) [0, 2, 3] (by simp [gPairs]) (by simp) (by linarith)
        · exact pick (-1) (-2) (-1) [0, 1, 2] (by simp [gPairs]) (by simp) (by linarith)
        · exact pick (-2) (-2) 0 [0, 1, 5] (by simp [gPairs]) (by simp) (by linarith)
      | 1 =>
        simp [gH, tBorders] at hrow; subst hrow; simp [dot] at hz
        obtain rfl : z = -4 - x - y := by linarith
        rcases quad (c₁ - c₃) (c₂ - c₃) x y (-2, -2) (-1, -2) (-2, 0) (-4, 0)
          (by unfold turn; norm_num) (by unfold turn; norm_num) (by unfold turn; norm_num) (by unfold turn; norm_num) (by unfold inside; norm_num; linarith) (by unfold inside; norm_num; linarith) (by unfold inside; norm_num; linarith) (by unfold inside; norm_num; linarith) with k | k | k | k
        · exact pick (-2) (-2) 0 [0, 1, 5] (by simp [gPairs]) (by simp) (by linarith)
        · exact pick (-1) (-2) (-1) [0, 1, 2] (by simp [gPairs]) (by simp) (by linarith)
        · exact pick (-2) 0 (-2) [1, 2, 4] (by simp [gPairs]) (by simp) (by linarith)
        · exact pick (-4) 0 0 [1, 4, 5] (by simp [gPairs]) (by simp) (by linarith)
      | 2 =>
        simp [gH, tBorders] at hrow; subst hrow; simp [dot] at hz
        obtain rfl : y = -4 + (-2) * x := by linarith
        rcases pent (c₁ + (-2) * c₂) (c₃) x z (-2, -10) (0, -10) (0, -2) (-1, -1) (-2, -2)
          (by unfold turn; norm_num) (by unfold turn; norm_num) (by unfold turn; norm_num) (by unfold turn; norm_num) (by unfold turn; norm_num) (by unfold inside; norm_num; linarith) (by unfold inside; norm_num; linarith) (by unfold inside; norm_num; linarith) (by unfold inside; norm_num; linarith) (by unfold inside; norm_num; linarith) with k | k | k | k | k
        · exact pick (-2) 0 (-10) [2, 4, 8] (by simp [gPairs]) (by simp) (by linarith)
        · exact pick 0 (-4) (-10) [2, 3, 8] (by simp [gPairs]) (by simp) (by linarith)
        · exact pick 0 (-4) (-2) [0, 2, 3] (by simp [gPairs]) (by simp) (by linarith)
        · exact pick (-1) (-2) (-1) [0, 1, 2] (by simp [gPairs]) (by simp) (by linarith)
        · exact pick (-2) 0 (-2) [1, 2, 4] (by simp [gPairs]) (by simp) (by linarith)
      | 3 =>
        simp [gH, tBorders] at hrow; subst hrow; simp [dot] at hz
        obtain rfl : x = 0 := by linarith
        rcases quad (c₂) (c₃) y z (-10, -10) (-4, -10) (-4, -2) (-10, -2)
          (by unfold turn; norm_num) (by unfold turn; norm_num) (by unfold turn; norm_num) (by unfold turn; norm_num) (by unfold inside; norm_num; linarith) (by unfold inside; norm_num; linarith) (by unfold inside; norm_num; linarith) (by unfold inside; norm_num; linarith) with k | k | k | k
        · exact pick 0 (-10) (-10) [3, 7, 8] (by simp [gPairs]) (by simp) (by linarith)
        · exact pick 0 (-4) (-10) [2, 3, 8] (by simp [gPairs]) (by simp) (by linarith)
        · exact pick 0 (-4) (-2) [0, 2, 3] (by simp [gPairs]) (by simp) (by linarith)
        · exact pick 0 (-10) (-2) [0, 3, 7] (by simp [gPairs]) (by simp) (by linarith)
      | 4 =>
        simp [gH, tBorders] at hrow; subst hrow; simp [dot] at hz
        obtain rfl : y = 0 := by linarith
        rcases pent (c₁) (c₃) x z (-10, -10) (-2, -10) (-2, -2) (-4, 0) (-10, 0)
          (by unfold turn; norm_num) (by unfold turn; norm_num) (by unfold turn; norm_num) (by unfold turn; norm_num) (by unfold turn; norm_num) (by unfold inside; norm_num; linarith) (by unfold inside; norm_num; linarith) (by unfold inside; norm_num; linarith) (by unfold inside; norm_num; linarith) (by unfold inside; norm_num; linarith) with k | k | k | k | k
        · exact pick (-10) 0 (-10) [4, 6, 8] (by simp [gPairs]) (by simp) (by linarith)
        · exact pick (-2) 0 (-10) [2, 4, 8] (by simp [gPairs]) (by simp) (by linarith)
        · exact pick (-2) 0 (-2) [1, 2, 4] (by simp [gPairs]) (by simp) (by linarith)
        · exact pick (-4) 0 0 [1, 4, 5] (by simp [gPairs]) (by simp) (by linarith)
        · exact pick (-10) 0 0 [4, 5, 6] (by simp [gPairs]) (by simp) (by linarith)
      | 5 =>
        simp [gH, tBorders] at hrow; subst hrow; simp [dot] at hz
        obtain rfl : z = 0 := by linarith
        rcases pent (c₁) (c₂) x y (-10, -10) (-2, -10) (-2, -2) (-4, 0) (-10, 0)
          (by unfold turn; norm_num) (by unfold turn; norm_num) (by unfold turn; norm_num) (by unfold turn; norm_num) (by unfold turn; norm_num) (by unfold inside; norm_num; linarith) (by unfold inside; norm_num; linarith) (by unfold inside; norm_num; linarith) (by unfold inside; norm_num; linarith) (by unfold inside; norm_num; linarith) with k | k | k | k | k
        · exact pick (-10) (-10) 0 [5, 6, 7] (by simp [gPairs]) (by simp) (by linarith)
        · exact pick (-2) (-10) 0 [0, 5, 7] (by simp [gPairs]) (by simp) (by linarith)
        · exact pick (-2) (-2) 0 [0, 1, 5] (by simp [gPairs]) (by simp) (by linarith)
        · exact pick (-4) 0 0 [1, 4, 5] (by simp [gPairs]) (by simp) (by linarith)
        · exact pick (-10) 0 0 [4, 5, 6] (by simp [gPairs]) (by simp) (by linarith)
      | 6 =>
        simp [gH, tBorders] at hrow; subst hrow; simp [dot] at hz
        obtain rfl : x = -10 := by linarith
        rcases quad (c₂) (c₃) y z (-10, -10) (0, -10) (0, 0) (-10, 0)
          (by unfold turn; norm_num) (by unfold turn; norm_num) (by unfold turn; norm_num) (by unfold turn; norm_num) (by unfold inside; norm_num; linarith) (by unfold inside; norm_num; linarith) (by unfold inside; norm_num; linarith) (by unfold inside; norm_num; linarith) with k | k | k | k
        · exact pick (-10) (-10) (-10) [6, 7, 8] (by simp [gPairs]) (by simp) (by linarith)
        · exact pick (-10) 0 (-10) [4, 6, 8] (by simp [gPairs]) (by simp) (by linarith)
        · exact pick (-10) 0 0 [4, 5, 6] (by simp [gPairs]) (by simp) (by linarith)
        · exact pick (-10) (-10) 0 [5, 6, 7] (by simp [gPairs]) (by simp) (by linarith)
      | 7 =>
        simp [gH, tBorders] at hrow; subst hrow; simp [dot] at hz
        obtain rfl : y = -10 := by linarith
        rcases pent (c₁) (c₃) x z (-10, -10) (0, -10) (0, -2) (-2, 0) (-10, 0)
          (by unfold turn; norm_num) (by unfold turn; norm_num) (by unfold turn; norm_num) (by unfold turn; norm_num) (by unfold turn; norm_num) (by unfold inside; norm_num; linarith) (by unfold inside; norm_num; linarith) (by unfold inside; norm_num; linarith) (by unfold inside; norm_num; linarith) (by unfold inside; norm_num; linarith) with k | k | k | k | k
        · exact pick (-10) (-10) (-10) [6, 7, 8] (by simp [gPairs]) (by simp) (by linarith)
        · exact pick 0 (-10) (-10) [3, 7, 8] (by simp [gPairs]) (by simp) (by linarith)
        · exact pick 0 (-10) (-2) [0, 3, 7] (by simp [gPairs]) (by simp) (by linarith)
        · exact pick (-2) (-10) 0 [0, 5, 7] (by simp [gPairs]) (by simp) (by linarith)
        · exact pick (-10) (-10) 0 [5, 6, 7] (by simp [gPairs]) (by simp) (by linarith)
      | 8 =>
        simp [gH, tBorders] at hrow; subst hrow; simp [dot] at hz
        obtain rfl : z = -10 := by linarith
        rcases pent (c₁) (c₂) x y (-10, -10) (0, -10) (0, -4) (-2, 0) (-10, 0)
          (by unfold turn; norm_num) (by unfold turn; norm_num) (by unfold turn; norm_num) (by unfold turn; norm_num) (by unfold turn; norm_num) (by unfold inside; norm_num; linarith) (by unfold inside; norm_num; linarith) (by unfold inside; norm_num; linarith) (by unfold inside; norm_num; linarith) (by unfold inside; norm_num; linarith) with k | k | k | k | k
        · exact pick (-10) (-10) (-10) [6, 7, 8] (by simp [gPairs]) (by simp) (by linarith)
        · exact pick 0 (-10) (-10) [3, 7, 8] (by simp [gPairs]) (by simp) (by linarith)
        · exact pick 0 (-4) (-10) [2, 3, 8] (by simp [gPairs]) (by simp) (by linarith)
        · exact pick (-2) 0 (-10) [2, 4, 8] (by simp [gPairs]) (by simp) (by linarith)
        · exact pick (-10) 0 (-10) [4, 6, 8] (by simp [gPairs]) (by simp) (by linarith)
      | n + 9 => simp [gH, tBorders] at hrow
    · have : ∀ p ∈ gPairs, ∀ v < 9, ∀ row ∈ gH[v]?, dot row (p.1 ++ [1]) = 0 → v ∈ p.2 := by decide +kernel
      intro p hp v _ row hrow hz
      have hv : v < 9 := by
        have := (List.getElem?_eq_some_iff.mp hrow).1
        simpa [gH, tBorders] using this
      exact ⟨p, hp, rfl, this p hp v hv row hrow hz⟩
  · exact ⟨fun v ⟨p, hp, _⟩ => by simp at hp, fun p hp => by simp at hp⟩

/-- The diagram of C146, without A2B. -/
theorem gOld : Diagram [0, 1, 2] gFrac gEpa (fun e => e) tMins tRefs tBorders tInt tDoms where
  nodup := by decide
  isRefs := ⟨by decide +kernel, by decide +kernel⟩
  nonneg := by decide +kernel
  total := by decide +kernel
  inj := fun _ _ _ _ h => h
  sharp := by
    intro x hx vec hvec
    have : vec = [0, 0, 0] := by
      cases hvec with
      | cons h1 h => cases h with
        | cons h2 h => cases h with
          | cons h3 h => cases h with
            | nil =>
              obtain ⟨r, hr, rfl⟩ := h1
              obtain ⟨r', hr', rfl⟩ := h2
              obtain ⟨r'', hr'', rfl⟩ := h3
              simp [tRefs] at hr hr' hr''
              subst hr hr' hr''
              decide +kernel
    subst this
    revert x
    decide +kernel
  intersects := tInt_spec
  corners := tCorners
  built := by decide +kernel

/-- The diagram with A2B. -/
theorem gNew : Diagram [0, 1, 2] gFrac gEpa (fun e => e) gMins tRefs tBorders gInt gDoms where
  nodup := by decide
  isRefs := ⟨by decide +kernel, by decide +kernel⟩
  nonneg := by decide +kernel
  total := by decide +kernel
  inj := fun _ _ _ _ h => h
  sharp := by
    intro x hx vec hvec
    have : vec = [0, 0, 0] := by
      cases hvec with
      | cons h1 h => cases h with
        | cons h2 h => cases h with
          | cons h3 h => cases h with
            | nil =>
              obtain ⟨r, hr, rfl⟩ := h1
              obtain ⟨r', hr', rfl⟩ := h2
              obtain ⟨r'', hr'', rfl⟩ := h3
              simp [tRefs] at hr hr' hr''
              subst hr hr' hr''
              decide +kernel
    subst this
    revert x
    decide +kernel
  intersects := gInt_spec
  corners := gCorners
  built := by decide +kernel

/-- **C161 is violated** with three elements: one more phase can reduce a reported distance although it only shrinks the domains. In the system
A–B–C with compounds AC and ABC the reported distance of AC and B is `√8`; with A2B as well it is at most `√6`. -/
theorem C161_three_elements_violated : ∃ (elements : List (Fin 3)) (frac : ℕ → Fin 3 → ℚ) (epa : ℕ → ℚ) (mins mins' : List ℕ)
    (refs : List (Fin 3 × ℕ)) (borders : List (List ℚ)) (hsInt hsInt' : List (List ℚ) → List (List ℚ × List ℕ)) (doms doms' : List (ℕ × List (List ℚ))),
    Diagram elements frac epa (fun e => e) mins refs borders hsInt doms ∧ Diagram elements frac epa (fun e => e) mins' refs borders hsInt' doms' ∧
    Harder elements frac epa epa mins mins' ∧ OnePer elements frac mins' ∧
    ∃ e ∈ mins, ∃ g ∈ mins, ∀ (X : Ext ℕ ℕ (List (List ℚ))) (s : CPD ℕ ℕ (List (List ℚ))), ∃ m m',
      shortest X (dictGet doms) euclid s e g 0 = (s, .ok m) ∧ shortest X (dictGet doms') euclid s e g 0 = (s, .ok m') ∧ m' < m := by
  refine ⟨[0, 1, 2], gFrac, gEpa, tMins, gMins, tRefs, tBorders, tInt, gInt, tDoms, gDoms, gOld, gNew,
    fun x hx => ⟨x, by revert x; decide, fun _ _ => rfl, le_refl _⟩, ⟨by decide, by decide +kernel⟩, 3, by decide, 1, by decide, fun X s => ?_⟩
  obtain ⟨m, h1, ⟨p, hp, q, hq, hm⟩, -⟩ := reported (doms := tDoms) X s 3 1 [[0, -2, -2], [0, -10, -2], [-2, -2, 0], [-2, -10, 0]]
    [[0, 0, -4], [0, 0, -10], [-4, 0, 0], [-10, 0, 0], [-10, 0, -10]] (by decide +kernel) (by decide +kernel) (by simp) (by simp) 0
  obtain ⟨m', h1', -, hle⟩ := reported (doms := gDoms) X s 3 1 [[0, -4, -2], [0, -10, -2], [-1, -2, -1], [-2, -2, 0], [-2, -10, 0]]
    [[-2, 0, -2], [-2, 0, -10], [-4, 0, 0], [-10, 0, 0], [-10, 0, -10]] (by decide +kernel) (by decide +kernel) (by simp) (by simp) 0
  refine ⟨m, m', by rw [h1, add_zero], by rw [h1', add_zero], lt_of_le_of_lt (hle [-1, -2, -1] (by simp) [-2, 0, -2] (by simp)) ?_⟩
  rw [← hm]
  unfold euclid
  apply Real.sqrt_lt_sqrt
  · exact_mod_cast sum_sq_nonneg _ _
  · have : ∀ p ∈ ([[0, -2, -2], [0, -10, -2], [-2, -2, 0], [-2, -10, 0]] : List (List ℚ)),
        ∀ q ∈ ([[0, 0, -4], [0, 0, -10], [-4, 0, 0], [-10, 0, 0], [-10, 0, -10]] : List (List ℚ)),
        (List.zipWith (fun x y => (x - y) ^ 2) ([-1, -2, -1] : List ℚ) [-2, 0, -2]).sum <
          (List.zipWith (fun x y => (x - y) ^ 2) p q).sum := by
      simp only [List.mem_cons, List.not_mem_nil, or_false, forall_eq_or_imp, forall_eq, List.zipWith_cons_cons, List.zipWith_nil_right,
        List.sum_cons, List.sum_nil]
      norm_num
    exact_mod_cast this p hp q hq

example (X : Ext ℕ ℕ (List (List ℚ))) (s : CPD ℕ ℕ (List (List ℚ))) :=
  C161_distance_partial (epa := gEpa) (mins := tMins) (borders := tBorders) X s gNew (fun x hx => ⟨x, by revert x; decide, fun _ _ => rfl, le_refl _⟩)
    (fun _ h => h) 3 1 (by decide) (by decide) rfl rfl [[0, -4, -2], [0, -10, -2], [-1, -2, -1], [-2, -2, 0], [-2, -10, 0]]
    [[-2, 0, -2], [-2, 0, -10], [-4, 0, 0], [-10, 0, 0], [-10, 0, -10]] (by decide +kernel) (by decide +kernel) 0

/-! ### Two elements: a phase falls in energy -/

/-- The phases of the diagram of C146, but the one of composition 1/4 is at −9/4 and not at 0. -/
def bMins : List (ℚ × ℚ) := [(0, -1), (1, -2), (1/2, -3), (1/4, -9/4)]
def bH : List (List ℚ) := [[1/2, 1/2, 3], [3/4, 1/4, 9/4], [1, 0, 1], [0, 1, 2]] ++ exBorders
def bPairs : List (List ℚ × List ℕ) := [([-3/2, -9/2], [0, 1]), ([-4, -2], [0, 3]), ([-1, -6], [1, 2]), ([-1, -10], [2, 5]), ([-10, -2], [3, 4]), (([-10, -10] : List ℚ), [4, 5])]
def bInt (H : List (List ℚ)) : List (List ℚ × List ℕ) := if H = bH then bPairs else []
def bDoms : List ((ℚ × ℚ) × List (List ℚ)) :=
  [((1/2, -3), [[-3/2, -9/2], [-4, -2]]), ((1/4, -9/4), [[-3/2, -9/2], [-1, -6]]), ((0, -1), [[-1, -6], [-1, -10]]), ((1, -2), [[-4, -2], [-10, -2]])]

theorem bInt_spec : ∀ H, Intersects 2 H (bInt H) := by
  intro H p hp
  unfold bInt at hp
  split_ifs at hp with h
  · subst h
    have : ∀ p ∈ bPairs, p.1.length = 2 ∧ (∀ row ∈ bH, dot row (p.1 ++ [1]) ≤ 0) ∧
        ∀ v ∈ p.2, ((bH[v]?).map fun row => dot row (p.1 ++ [1])) = some 0 := by decide +kernel
    obtain ⟨h1, h2, h3⟩ := this p hp
    exact ⟨h1, h2, fun v hv => by simpa [Option.map_eq_some_iff] using h3 v hv⟩
  · simp at hp

theorem bCorners : ∀ H, Corners 2 H (bInt H) := by
  intro H
  unfold bInt
  split_ifs with hH
  · subst hH
    constructor
    · rintro v - row hrow c μ hc hμ hall hz
      obtain ⟨c₁, c₂, rfl⟩ := list2 c hc
      obtain ⟨a, b, rfl⟩ := list2 μ hμ
      simp [bH, exBorders, dot] at hall
      obtain ⟨h1, h2, h3, h4, h5, h6⟩ := hall
      have pick : ∀ (r s : ℚ) (l : List ℕ), ([r, s], l) ∈ bPairs → v ∈ l → c₁ * a + c₂ * b ≤ c₁ * r + c₂ * s →
          ∃ p ∈ bPairs, v ∈ p.2 ∧ dot [c₁, c₂] [a, b] ≤ dot [c₁, c₂] p.1 := by
        intro r s l hm hv hle
        refine ⟨_, hm, hv, ?_⟩
        simp [dot]; linarith
      match v with
      | 0 =>
        simp [bH, exBorders] at hrow; subst hrow; simp [dot] at hz
        obtain rfl : b = -6 - a := by linarith
        rcases le_total 0 (c₁ - c₂) with k | k
        · have := up k (show a ≤ -3/2 by linarith)
          exact pick (-3/2) (-9/2) [0, 1] (by simp [bPairs]) (by simp) (by linarith)
        · have := down k (show -4 ≤ a by linarith)
          exact pick (-4) (-2) [0, 3] (by simp [bPairs]) (by simp) (by linarith)
      | 1 =>
        simp [bH, exBorders] at hrow; subst hrow; simp [dot] at hz
        obtain rfl : b = -9 - 3 * a := by linarith
        rcases le_total 0 (c₁ - 3 * c₂) with k | k
        · have := up k (show a ≤ -1 by linarith)
          exact pick (-1) (-6) [1, 2] (by simp [bPairs]) (by simp) (by linarith)
        · have := down k (show -3/2 ≤ a by linarith)
          exact pick (-3/2) (-9/2) [0, 1] (by simp [bPairs]) (by simp) (by linarith)
      | 2 =>
        simp [bH, exBorders] at hrow; subst hrow; simp [dot] at hz
        obtain rfl : a = -1 := by linarith
        rcases le_total 0 (c₂) with k | k
        · have := up k (show b ≤ -6 by linarith)
          exact pick (-1) (-6) [1, 2] (by simp [bPairs]) (by simp) (by linarith)
        · have := down k (show -10 ≤ b by linarith)
          exact pick (-1) (-10) [2, 5] (by simp [bPairs]) (by simp) (by linarith)
      | 3 =>
        simp [bH, exBorders] at hrow; subst hrow; simp [dot] at hz
        obtain rfl : b = -2 := by linarith
        rcases le_total 0 (c₁) with k | k
        · have := up k (show a ≤ -4 by linarith)
          exact pick (-4) (-2) [0, 3] (by simp [bPairs]) (by simp) (by linarith)
        · have := down k (show -10 ≤ a by linarith)
          exact pick (-10) (-2) [3, 4] (by simp [bPairs]) (by simp) (by linarith)
      | 4 =>
        simp [bH, exBorders] at hrow; subst hrow; simp [dot] at hz
        obtain rfl : a = -10 := by linarith
        rcases le_total 0 (c₂) with k | k
        · have := up k (show b ≤ -2 by linarith)
          exact pick (-10) (-2) [3, 4] (by simp [bPairs]) (by simp) (by linarith)
        · have := down k (show -10 ≤ b by linarith)
          exact pick (-10) (-10) [4, 5] (by simp [bPairs]) (by simp) (by linarith)
      | 5 =>
        simp [bH, exBorders] at hrow; subst hrow; simp [dot] at hz
        obtain rfl : b = -10 := by linarith
        rcases le_total 0 (c₁) with k | k
        · have := up k (show a ≤ -1 by linarith)
          exact pick (-1) (-10) [2, 5] (by simp [bPairs]) (by simp) (by linarith)
        · have := down k (show -10 ≤ a by linarith)
          exact pick (-10) (-10) [4, 5] (by simp [bPairs]) (by simp) (by linarith)
      | n + 6 => simp [bH, exBorders] at hrow
    · have : ∀ p ∈ bPairs, ∀ v < 6, ∀ row ∈ bH[v]?, dot row (p.1 ++ [1]) = 0 → v ∈ p.2 := by decide +kernel
      intro p hp v _ row hrow hz
      have hv : v < 6 := by
        have := (List.getElem?_eq_some_iff.mp hrow).1
        simpa [bH, exBorders] using this
      exact ⟨p, hp, rfl, this p hp v hv row hrow hz⟩
  · exact ⟨fun v ⟨p, hp, _⟩ => by simp at hp, fun p hp => by simp at hp⟩

theorem bDiagram : Diagram [0, 1] exFrac Prod.snd (fun e => e) bMins exRefs exBorders bInt bDoms where
  nodup := by decide
  isRefs := ⟨by decide +kernel, by decide +kernel⟩
  nonneg := by decide +kernel
  total := by decide +kernel
  inj := fun _ _ _ _ h => h
  sharp := by
    intro x hx vec hvec
    have : vec = [-1, -2] := by
      cases hvec with
      | cons h1 h => cases h with
        | cons h2 h => cases h with
          | nil =>
            obtain ⟨r, hr, rfl⟩ := h1
            obtain ⟨r', hr', rfl⟩ := h2
            simp [exRefs] at hr hr'
            rw [hr, hr']
    subst this
    revert x
    decide +kernel
  intersects := bInt_spec
  corners := bCorners
  built := by decide +kernel

theorem bPrecise : Precise 2 bH (bInt bH) := by
  have hx : bInt bH = bPairs := by decide +kernel
  rw [hx]
  constructor
  · have key : ∀ (x y u w : ℚ), Feasible 2 bH [x, y] → (∀ c d : ℚ, c + d ≤ -6 → 3 * c + d ≤ -9 → c ≤ -1 → d ≤ -2 → -10 ≤ c → -10 ≤ d →
        u * x + w * y ≤ u * c + w * d → c = x ∧ d = y) → Vertex 2 bH [x, y] := by
      intro x y u w hf h
      refine ⟨hf, [u, w], rfl, ?_⟩
      rintro q ⟨hq, hall⟩ hne
      obtain ⟨c, d, rfl⟩ := list2 q hq
      simp [bH, exBorders, dot] at hall
      obtain ⟨h1, h2, h3, h4, h5, h6⟩ := hall
      by_contra hlt
      simp [dot] at hlt
      obtain ⟨rfl, rfl⟩ := h c d (by linarith) (by linarith) (by linarith) (by linarith) (by linarith) (by linarith) hlt
      exact hne rfl
    intro p hp
    simp only [bPairs, List.mem_cons, List.not_mem_nil, or_false] at hp
    rcases hp with rfl | rfl | rfl | rfl | rfl | rfl
    · exact key _ _ 2 1 ⟨rfl, by decide +kernel⟩ fun c d _ _ _ _ _ _ _ => ⟨by linarith, by linarith⟩
    · exact key _ _ 1 2 ⟨rfl, by decide +kernel⟩ fun c d _ _ _ _ _ _ _ => ⟨by linarith, by linarith⟩
    · exact key _ _ 4 1 ⟨rfl, by decide +kernel⟩ fun c d _ _ _ _ _ _ _ => ⟨by linarith, by linarith⟩
    · exact key _ _ 1 (-1) ⟨rfl, by decide +kernel⟩ fun c d _ _ _ _ _ _ _ => ⟨by linarith, by linarith⟩
    · exact key _ _ (-1) 1 ⟨rfl, by decide +kernel⟩ fun c d _ _ _ _ _ _ _ => ⟨by linarith, by linarith⟩
    · exact key _ _ (-1) (-1) ⟨rfl, by decide +kernel⟩ fun c d _ _ _ _ _ _ _ => ⟨by linarith, by linarith⟩
  · intro v row hrow
    have hv : v < 6 := by
      have := (List.getElem?_eq_some_iff.mp hrow).1
      simpa [bH, exBorders] using this
    have h1 : ∀ v < 6, ∃ p ∈ bPairs, v ∈ p.2 := by decide +kernel
    have h2 : ∀ row ∈ bH, ∃ μ ∈ [[-5/2, -7/2], [-5/4, -21/4], [-1, -7], [-7, -2], [-10, -5], ([-5, -10] : List ℚ)], μ.length = 2 ∧
        dot row (μ ++ [1]) = 0 ∧ ∀ r ∈ bH.erase row, dot r (μ ++ [1]) < 0 := by decide +kernel
    obtain ⟨μ, -, hμ⟩ := h2 row (List.mem_of_getElem? hrow)
    exact ⟨fun _ => ⟨List.mem_of_getElem? hrow, μ, hμ⟩, fun _ => h1 v hv⟩

theorem bPrecise_all (H : List (List ℚ)) (E : List (ℚ × ℚ)) (h : hyperplanesAndEntries [0, 1] exFrac Prod.snd bMins exRefs = .ok (H, E)) :
    Precise 2 (H ++ exBorders) (bInt (H ++ exBorders)) := by
  have h' : hyperplanesAndEntries [0, 1] exFrac Prod.snd bMins exRefs = .ok ([[1/2, 1/2, 3], [3/4, 1/4, 9/4], [1, 0, 1], [0, 1, 2]],
    [(1/2, -3), (1/4, -9/4), (0, -1), (1, -2)]) := by decide +kernel
  rw [h'] at h
  cases h
  exact bPrecise

theorem bHarder : Harder [0, 1] exFrac Prod.snd Prod.snd exMins bMins := by unfold Harder; decide +kernel

/-- The corner the compound keeps, and the one it gains, lie in its earlier domain. -/
example : [-3/2, -9/2] ∈ Region [0, 1] exFrac Prod.snd exMins exBorders (1/2, -3) :=
  C161_domain bDiagram bHarder (fun _ h => h) (1/2, -3) (by decide +kernel) rfl [[-3/2, -9/2], [-4, -2]] (by decide +kernel) _ (by simp)

example : ∃ pts, ((1/2, -3), pts) ∈ exDoms :=
  C161_stays exDiagram bDiagram Verif.Props.DomainShift.exPrecise_all bPrecise_all bHarder ⟨by decide +kernel, by decide +kernel⟩
    ⟨by decide +kernel, by decide +kernel⟩ (fun _ h => h) (1/2, -3) (by decide +kernel) (by decide +kernel) rfl ⟨_, List.mem_cons_self ..⟩

/-- The elements move apart from `3√2` (between `(-1, -5)` and `(-4, -2)`) to 5 (between `(-1, -6)` and `(-4, -2)`). -/
example (X : Ext ℕ (ℚ × ℚ) (List (List ℚ))) (s : CPD ℕ (ℚ × ℚ) (List (List ℚ))) :=
  C161_two_elements X s exDiagram bDiagram rfl bHarder (fun _ h => h) (0, -1) (1, -2) (by decide +kernel) (by decide +kernel) (by decide +kernel)
    (by decide +kernel) rfl rfl [[-1, -5], [-1, -10]] [[-4, -2], [-10, -2]] [[-1, -6], [-1, -10]] [[-4, -2], [-10, -2]] (by decide +kernel)
    (by decide +kernel) (by decide +kernel) (by decide +kernel) 0

/-- The compound and the second element touch in both diagrams. -/
example (X : Ext ℕ (ℚ × ℚ) (List (List ℚ))) (s : CPD ℕ (ℚ × ℚ) (List (List ℚ))) :
    (shortest X (dictGet exDoms) euclid s (1/2, -3) (1, -2) 0).2 = .ok 0 :=
  C161_neighbours X s exDiagram bDiagram bHarder (fun _ h => h) (1/2, -3) (1, -2) (by decide +kernel) (by decide +kernel) (by decide +kernel)
    (by decide +kernel) rfl rfl [[-1, -5], [-4, -2]] [[-4, -2], [-10, -2]] [[-3/2, -9/2], [-4, -2]] [[-4, -2], [-10, -2]] (by decide +kernel)
    (by decide +kernel) (by decide +kernel) (by decide +kernel)
    ((C146_neighbours X s bDiagram (1/2, -3) (1, -2) (by decide +kernel) (by decide +kernel) [[-3/2, -9/2], [-4, -2]] [[-4, -2], [-10, -2]]
      (by decide +kernel) (by decide +kernel)).mpr ⟨[-4, -2], by
        constructor <;> exact ⟨rfl, by decide +kernel, by decide +kernel, by decide +kernel⟩⟩)

/-- Right energies that differ from the ones used by 1/10 up or down. -/
def bTrue (e : ℚ × ℚ) : ℚ := if e.1 = 1/2 then e.2 + 1/10 else e.2 - 1/10

example := C161_error (epa := bTrue) bDiagram (1/10) (by decide +kernel) (1/4, -9/4) (by decide +kernel) [[-3/2, -9/2], [-1, -6]] (by decide +kernel)
  [-1, -6] (by simp)

/-- The compound of composition 1/2 is, with the right energies, at most 1/5 above the mixture of the elements in equal parts. -/
example : ((bTrue (1/2, -3) : ℚ) : ℝ) ≤ mixEnergy bTrue [(0, -1), (1, -2)] (fun _ => 1/2) + 2 * ((1/10 : ℚ) : ℝ) :=
  C161_error_sound (epa := bTrue) bDiagram (1/10) (by decide +kernel) (1/2, -3) (by decide +kernel) [[-3/2, -9/2], [-4, -2]] (by decide +kernel)
    [(0, -1), (1, -2)] (fun _ => 1/2) (by decide +kernel) (by
      refine ⟨by simp, by norm_num, ?_⟩
      intro el hel
      simp only [List.mem_cons, List.not_mem_nil, or_false] at hel
      rcases hel with rfl | rfl <;> norm_num [exFrac])

/-- The compound of composition 1/2 lies, with the right energies, by more than 1/5 below all mixtures of the other phases. -/
example := C161_error_complete_partial (elements := [0, 1]) (frac := exFrac) (epa := bTrue) (epa' := Prod.snd) (formula := fun e => e) (mins := exMins)
  (refs := exRefs) (by decide) (by decide +kernel) ⟨by decide +kernel, by decide +kernel⟩ (by decide) (by decide) (by decide +kernel)
  (by decide +kernel) (1/10) (by decide +kernel) (1/2, -3) (by decide +kernel) (fun el h => by simp [exRefs] at h) (by
    intro w hw
    have hf : exMins.filter (· ≠ (1/2, -3)) = [(0, -1), (1, -2), (1/4, 0)] := by decide +kernel
    rw [hf] at hw ⊢
    have h0 := hw.nonneg (0, -1) (by simp)
    have h1 := hw.nonneg (1, -2) (by simp)
    have h2 := hw.nonneg (1/4, 0) (by simp)
    have ht := hw.total
    simp only [List.map_cons, List.map_nil, List.sum_cons, List.sum_nil] at ht
    norm_num [mixEnergy, bTrue]
    linarith) (.inr (by
      intro vec hv
      obtain ⟨v0, l, ⟨r0, hr0, rfl⟩, hl, rfl⟩ := List.forall₂_cons_left_iff.mp hv
      obtain ⟨v1, l', ⟨r1, hr1, rfl⟩, hl', rfl⟩ := List.forall₂_cons_left_iff.mp hl
      rw [List.forall₂_nil_left_iff.mp hl']
      simp [exRefs] at hr0 hr1
      subst hr0 hr1
      decide +kernel))

end Verif.Props.DomainGrow
