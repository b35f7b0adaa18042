import Verif.Props.Chempot
import Mathlib.Analysis.SpecialFunctions.Pow.Real
import Mathlib.Tactic.Ring

/-!
C146: the distance reported for two phases of a chemical potential diagram against the distance between their domains.
-/

set_option linter.unusedSectionVars false

namespace Verif.Props.DomainDistance
open Verif.Py Verif.Model Verif.Model.Chempot Verif.Model.Thermo Verif.Lemmas.Dict Verif.Props.Chempot

variable {η ε φ : Type} [DecidableEq η] [DecidableEq ε] [DecidableEq φ]

/-! ### Specification -/

/-- Specification: Euclidean distance in chemical potential space. -/
noncomputable def euclid (p q : List ℚ) : ℝ := Real.sqrt (((List.zipWith (fun x y => (x - y) ^ 2) p q).sum : ℚ) : ℝ)

/-- Specification: the domain of the phase `e`, as a region: all chemical potentials within the limits of the diagram at which no phase
would gain energy and `e` is in equilibrium. -/
def Region (elements : List ε) (frac : η → ε → ℚ) (epa : η → ℚ) (mins : List η) (borders : List (List ℚ)) (e : η) : Set (List ℚ) :=
  {μ | μ.length = elements.length ∧ weighted elements frac e μ = epa e ∧ (∀ x ∈ mins, weighted elements frac x μ ≤ epa x) ∧
    ∀ row ∈ borders, dot row (μ ++ [1]) ≤ 0}

/-- What is assumed of scipy's half-space intersection besides `Intersects`, for the half-spaces that bound a facet: the listed points of the
facet contain an optimum of every linear objective on it (they are its corners), and a corner that lies on a facet is listed for it. -/
structure Corners (n : ℕ) (H : List (List ℚ)) (pairs : List (List ℚ × List ℕ)) : Prop where
  optimum : ∀ v, (∃ p ∈ pairs, v ∈ p.2) → ∀ row, H[v]? = some row → ∀ c μ : List ℚ, c.length = n → μ.length = n →
    (∀ r ∈ H, dot r (μ ++ [1]) ≤ 0) → dot row (μ ++ [1]) = 0 → ∃ p ∈ pairs, v ∈ p.2 ∧ dot c μ ≤ dot c p.1
  tight : ∀ p ∈ pairs, ∀ v, (∃ q ∈ pairs, v ∈ q.2) → ∀ row, H[v]? = some row → dot row (p.1 ++ [1]) = 0 →
    ∃ q ∈ pairs, q.1 = p.1 ∧ v ∈ q.2

/-- No phase has a formation energy that is negative but within the tolerance. -/
def Sharp (elements : List ε) (frac : η → ε → ℚ) (epa : η → ℚ) (mins : List η) (refs : List (ε × η)) : Prop :=
  ∀ x ∈ mins, ∀ vec, List.Forall₂ (fun el v => ∃ r, (el, r) ∈ refs ∧ v = epa r) elements vec →
    epa x - weighted elements frac x vec < -formTol ∨ 0 ≤ epa x - weighted elements frac x vec

/-! ### Distance -/

theorem euclid_symm (p q : List ℚ) : euclid p q = euclid q p := by
  unfold euclid
  rw [List.zipWith_comm]
  have : (fun b a : ℚ => (a - b) ^ 2) = fun x y => (x - y) ^ 2 := by funext x y; ring
  rw [this]

theorem sum_sq_nonneg (p q : List ℚ) : 0 ≤ (List.zipWith (fun x y => (x - y) ^ 2) p q).sum := by
  apply List.sum_nonneg
  intro x hx
  rw [List.mem_iff_getElem?] at hx
  obtain ⟨i, hi⟩ := hx
  rw [List.getElem?_zipWith_eq_some] at hi
  obtain ⟨a, b, -, -, rfl⟩ := hi
  positivity

theorem euclid_nonneg (p q : List ℚ) : 0 ≤ euclid p q := Real.sqrt_nonneg _

theorem euclid_le (p q p' q' : List ℚ) (h : (List.zipWith (fun x y => (x - y) ^ 2) p q).sum ≤ (List.zipWith (fun x y => (x - y) ^ 2) p' q').sum) :
    euclid p q ≤ euclid p' q' := Real.sqrt_le_sqrt (by exact_mod_cast h)

theorem sq_zero : ∀ p q : List ℚ, p.length = q.length → (List.zipWith (fun x y => (x - y) ^ 2) p q).sum = 0 → p = q
  | [], [], _, _ => rfl
  | a :: p, b :: q, hl, h => by
    rw [List.zipWith_cons_cons, List.sum_cons] at h
    have h1 := sum_sq_nonneg p q
    have h2 : 0 ≤ (a - b) ^ 2 := by positivity
    have h3 : (a - b) ^ 2 = 0 := by linarith
    have h4 : a = b := by
      have := pow_eq_zero_iff (two_ne_zero) |>.mp h3
      linarith
    rw [h4, sq_zero p q (by simpa using hl) (by linarith)]

theorem euclid_self (p : List ℚ) : euclid p p = 0 := by
  unfold euclid
  have : (List.zipWith (fun x y => (x - y) ^ 2) p p).sum = 0 := by
    induction p with
    | nil => rfl
    | cons a p ih => simp only [List.zipWith_cons_cons, List.sum_cons, ih]; ring
  rw [this]; simp

theorem euclid_eq_zero (p q : List ℚ) (hl : p.length = q.length) (h : euclid p q = 0) : p = q := by
  unfold euclid at h
  have h0 := sum_sq_nonneg p q
  rw [Real.sqrt_eq_zero (by exact_mod_cast h0)] at h
  exact sq_zero p q hl (by exact_mod_cast h)

/-! ### Points of the domains -/

section
variable {elements : List ε} {frac : η → ε → ℚ} {epa : η → ℚ} {formula : η → φ} {mins : List η} {refs : List (ε × η)}
  {borders : List (List ℚ)} {hsInt : List (List ℚ) → List (List ℚ × List ℕ)} {doms : List (φ × List (List ℚ))}

/-- What is needed of the built diagram: its half-spaces with their phases, and the points of each domain. -/
theorem built (h : cpdDomains elements frac epa formula mins refs borders hsInt = .ok doms)
    (hinj : ∀ a ∈ mins, ∀ b ∈ mins, formula a = formula b → a = b) (hint : ∀ H, Intersects elements.length H (hsInt H)) :
    ∃ (E : List η) (vec : List ℚ), List.Forall₂ (fun el v => ∃ r, dictGet refs el = some r ∧ v = epa r) elements vec ∧
      (∀ e, e ∈ E ↔ e ∈ mins ∧ (epa e - weighted elements frac e vec < -formTol ∨ ∃ p ∈ refs, p.2 = e)) ∧
      (∀ p facet, (p, facet) ∈ hsInt (E.map (hyperplane elements frac epa) ++ borders) →
        p.length = elements.length ∧ (∀ x ∈ E, weighted elements frac x p ≤ epa x) ∧ ∀ row ∈ borders, dot row (p ++ [1]) ≤ 0) ∧
      ∀ e ∈ mins, ∀ pts, (formula e, pts) ∈ doms → pts ≠ [] ∧ ∀ p, p ∈ pts ↔
        ∃ facet v, (p, facet) ∈ hsInt (E.map (hyperplane elements frac epa) ++ borders) ∧ v ∈ facet ∧ E[v]? = some e := by
  obtain ⟨H, E, hHE, -, -, hnd, hne, hiff⟩ := C93_contents elements frac epa formula mins refs borders hsInt doms h
  obtain ⟨vec, hvec, hHmap, -, hmem⟩ := selection elements frac epa mins refs H E hHE
  subst hHmap
  refine ⟨E, vec, hvec, hmem, ?_, ?_⟩
  · intro p facet hp
    obtain ⟨h1, h2, -⟩ := hint _ _ hp
    refine ⟨h1, fun x hx => ?_, fun row hrow => h2 row (List.mem_append.mpr (Or.inr hrow))⟩
    have := h2 (hyperplane elements frac epa x) (List.mem_append.mpr (Or.inl (List.mem_map.mpr ⟨x, hx, rfl⟩)))
    rw [dot_hyperplane _ _ _ _ _ h1] at this
    linarith
  · intro e he pts hd
    refine ⟨hne _ hd, fun p => ?_⟩
    have hu : ∀ pts', (formula e, pts') ∈ doms → pts' = pts := by
      intro pts' hd'
      have a := dictGet_eq_some_of_mem _ hnd _ _ hd
      have b := dictGet_eq_some_of_mem _ hnd _ _ hd'
      rw [a] at b
      exact (Option.some.inj b).symm
    constructor
    · intro hp
      obtain ⟨facet, v, e', h1, h2, h3, h4⟩ := (hiff (formula e) p).mp ⟨pts, hd, hp⟩
      have : e' = e := hinj e' ((hmem e').mp (List.mem_of_getElem? h3)).1 e he h4
      exact ⟨facet, v, h1, h2, this ▸ h3⟩
    · rintro ⟨facet, v, h1, h2, h3⟩
      obtain ⟨pts', hd', hp'⟩ := (hiff (formula e) p).mpr ⟨facet, v, e, h1, h2, h3, rfl⟩
      exact hu pts' hd' ▸ hp'

/-- The points listed for a phase lie in its domain. -/
theorem listed_region (hn : elements.Nodup) (R : Refs elements frac mins refs) (h0 : ∀ e ∈ mins, ∀ el ∈ elements, 0 ≤ frac e el)
    (hs : Sharp elements frac epa mins refs) (h : cpdDomains elements frac epa formula mins refs borders hsInt = .ok doms)
    (hinj : ∀ a ∈ mins, ∀ b ∈ mins, formula a = formula b → a = b) (hint : ∀ H, Intersects elements.length H (hsInt H))
    (e : η) (he : e ∈ mins) (pts : List (List ℚ)) (hd : (formula e, pts) ∈ doms) (p : List ℚ) (hp : p ∈ pts) :
    p ∈ Region elements frac epa mins borders e := by
  obtain ⟨E, vec, hvec, hmem, hall, hpts⟩ := built h hinj hint
  obtain ⟨facet, v, h1, h2, h3⟩ := ((hpts e he pts hd).2 p).mp hp
  obtain ⟨hlen, hsat, hb⟩ := hall p facet h1
  have hvec' : List.Forall₂ (fun el v => ∃ r, (el, r) ∈ refs ∧ v = epa r) elements vec :=
    hvec.imp fun el v ⟨r, hr, hv⟩ => ⟨r, mem_of_dictGet _ _ _ hr, hv⟩
  have hle : List.Forall₂ (· ≤ ·) p vec := by
    rw [List.forall₂_iff_get]
    refine ⟨by rw [hlen, hvec.length_eq], fun i hi hi' => ?_⟩
    have hi2 : i < elements.length := hlen ▸ hi
    obtain ⟨r, hr, hvr⟩ := (List.forall₂_iff_get.mp hvec).2 i hi2 hi'
    have hrr := mem_of_dictGet _ _ _ hr
    obtain ⟨k1, k2, k3⟩ := R.mem _ hrr
    have hrE : r ∈ E := (hmem r).mpr ⟨k1, Or.inr ⟨_, hrr, rfl⟩⟩
    have hu := weighted_unit elements hn frac r p hlen _ i (List.getElem?_eq_getElem hi2) k3
    rw [List.getElem?_eq_getElem hi] at hu
    rw [hvr]
    have := hsat r hrE
    rw [← Option.some.inj hu] at this
    exact this
  refine ⟨hlen, ?_, ?_, hb⟩
  · obtain ⟨row, hrow, hz⟩ := (hint _ _ h1).2.2 v h2
    have hvl : v < (E.map (hyperplane elements frac epa)).length := by
      rw [List.length_map]; exact (List.getElem?_eq_some_iff.mp h3).1
    rw [List.getElem?_append_left hvl, List.getElem?_map, h3] at hrow
    simp only [Option.map_some, Option.some.injEq] at hrow
    rw [← hrow, dot_hyperplane _ _ _ _ _ hlen] at hz
    linarith
  · intro x hx
    rcases hs x hx vec hvec' with hc | hc
    · exact hsat x ((hmem x).mpr ⟨hx, Or.inl hc⟩)
    · have := weighted_mono elements frac x (h0 x hx) p vec hlen hle
      linarith

/-- For every point of the domain of a phase and every linear objective, a listed point of the phase is at least as good. -/
theorem better (h : cpdDomains elements frac epa formula mins refs borders hsInt = .ok doms)
    (hinj : ∀ a ∈ mins, ∀ b ∈ mins, formula a = formula b → a = b) (hint : ∀ H, Intersects elements.length H (hsInt H))
    (hcor : ∀ H, Corners elements.length H (hsInt H)) (e : η) (he : e ∈ mins) (pts : List (List ℚ)) (hd : (formula e, pts) ∈ doms)
    (μ : List ℚ) (hμ : μ ∈ Region elements frac epa mins borders e) (c : List ℚ) (hc : c.length = elements.length) :
    ∃ p ∈ pts, dot c μ ≤ dot c p := by
  obtain ⟨E, vec, -, hmem, -, hpts⟩ := built h hinj hint
  obtain ⟨hne, hiff⟩ := hpts e he pts hd
  obtain ⟨p₀, hp₀⟩ := List.exists_mem_of_ne_nil _ hne
  obtain ⟨facet, v, h1, h2, h3⟩ := (hiff p₀).mp hp₀
  obtain ⟨m1, m2, m3, m4⟩ := hμ
  have hvl : v < (E.map (hyperplane elements frac epa)).length := by
    rw [List.length_map]; exact (List.getElem?_eq_some_iff.mp h3).1
  have hrow : (E.map (hyperplane elements frac epa) ++ borders)[v]? = some (hyperplane elements frac epa e) := by
    rw [List.getElem?_append_left hvl, List.getElem?_map, h3]; rfl
  obtain ⟨⟨q, fq⟩, hq, hvq, hle⟩ := (hcor _).optimum v ⟨_, h1, h2⟩ _ hrow c μ hc m1 (by
      intro r hr
      rcases List.mem_append.mp hr with hr | hr
      · obtain ⟨x, hx, rfl⟩ := List.mem_map.mp hr
        rw [dot_hyperplane _ _ _ _ _ m1]
        have := m3 x ((hmem x).mp hx).1
        linarith
      · exact m4 r hr) (by rw [dot_hyperplane _ _ _ _ _ m1]; linarith)
  exact ⟨q, (hiff q).mpr ⟨fq, v, hq, hvq, h3⟩, hle⟩

/-- A listed point of one phase that lies on the hyperplane of another phase with a domain is listed for that one, too. -/
theorem shared (h : cpdDomains elements frac epa formula mins refs borders hsInt = .ok doms)
    (hinj : ∀ a ∈ mins, ∀ b ∈ mins, formula a = formula b → a = b) (hint : ∀ H, Intersects elements.length H (hsInt H))
    (hcor : ∀ H, Corners elements.length H (hsInt H)) (e e' : η) (he : e ∈ mins) (he' : e' ∈ mins) (pts pts' : List (List ℚ))
    (hd : (formula e, pts) ∈ doms) (hd' : (formula e', pts') ∈ doms) (p : List ℚ) (hp : p ∈ pts)
    (hz : weighted elements frac e' p = epa e') : p ∈ pts' := by
  obtain ⟨E, vec, -, -, hall, hpts⟩ := built h hinj hint
  obtain ⟨hne, hiff⟩ := hpts e' he' pts' hd'
  obtain ⟨p₀, hp₀⟩ := List.exists_mem_of_ne_nil _ hne
  obtain ⟨facet', v', h1', h2', h3'⟩ := (hiff p₀).mp hp₀
  obtain ⟨facet, v, h1, h2, h3⟩ := ((hpts e he pts hd).2 p).mp hp
  have hvl : v' < (E.map (hyperplane elements frac epa)).length := by
    rw [List.length_map]; exact (List.getElem?_eq_some_iff.mp h3').1
  have hrow : (E.map (hyperplane elements frac epa) ++ borders)[v']? = some (hyperplane elements frac epa e') := by
    rw [List.getElem?_append_left hvl, List.getElem?_map, h3']; rfl
  obtain ⟨⟨q, fq⟩, hq, hqp, hvq⟩ := (hcor _).tight _ h1 v' ⟨_, h1', h2'⟩ _ hrow
    (by dsimp only; rw [dot_hyperplane _ _ _ _ _ (hall p facet h1).1]; linarith)
  simp only at hqp
  subst hqp
  exact (hiff q).mpr ⟨fq, v', hq, hvq, h3'⟩

/-- The reported distance of two phases with domains is the least distance of their listed points. -/
theorem reported {κ : Type} [DecidableEq κ] (X : Ext κ φ (List (List ℚ))) (s : CPD κ φ (List (List ℚ))) (f g : φ) (pf pg : List (List ℚ))
    (hf : dictGet doms f = some pf) (hg : dictGet doms g = some pg) (hpf : pf ≠ []) (hpg : pg ≠ []) (offset : ℝ) :
    ∃ m, shortest X (dictGet doms) euclid s f g offset = (s, .ok (m + offset)) ∧ Verif.Props.Thermo.IsMinDist euclid pf pg m := by
  obtain ⟨m, h1, h2⟩ := Verif.Props.Thermo.C46_minimal euclid euclid_symm pf pg hpf hpg offset
  refine ⟨m, ?_, h2⟩
  unfold shortest pointsOf
  rw [hf, hg]
  simp only [h1]

end

/-! ### C146 -/

/-- A diagram as the user gets it: one ground state per formula, a reference for every element, atomic fractions of these elements, and a
half-space intersection that does what it says. -/
structure Diagram (elements : List ε) (frac : η → ε → ℚ) (epa : η → ℚ) (formula : η → φ) (mins : List η) (refs : List (ε × η))
    (borders : List (List ℚ)) (hsInt : List (List ℚ) → List (List ℚ × List ℕ)) (doms : List (φ × List (List ℚ))) : Prop where
  nodup : elements.Nodup
  isRefs : Refs elements frac mins refs
  nonneg : ∀ e ∈ mins, ∀ el ∈ elements, 0 ≤ frac e el
  total : ∀ e ∈ mins, (elements.map (frac e)).sum = 1
  inj : ∀ a ∈ mins, ∀ b ∈ mins, formula a = formula b → a = b
  sharp : Sharp elements frac epa mins refs
  intersects : ∀ H, Intersects elements.length H (hsInt H)
  corners : ∀ H, Corners elements.length H (hsInt H)
  built : cpdDomains elements frac epa formula mins refs borders hsInt = .ok doms

variable {elements : List ε} {frac : η → ε → ℚ} {epa : η → ℚ} {formula : η → φ} {mins : List η} {refs : List (ε × η)}
  {borders : List (List ℚ)} {hsInt : List (List ℚ) → List (List ℚ × List ℕ)} {doms : List (φ × List (List ℚ))}

/-- A stored domain is found by its formula and is not empty. -/
theorem found (D : Diagram elements frac epa formula mins refs borders hsInt doms) (f : φ) (pf : List (List ℚ)) (h : (f, pf) ∈ doms) :
    dictGet doms f = some pf ∧ pf ≠ [] := by
  obtain ⟨-, -, -, -, -, hnd, hne, -⟩ := C93_contents elements frac epa formula mins refs borders hsInt doms D.built
  exact ⟨dictGet_eq_some_of_mem _ hnd _ _ h, hne _ h⟩

/-- **C146, provable part: never too small.** For any number of elements the reported distance (without the offset) is the distance of two
points of the two domains, so it is not smaller than the distance of the domains. The diagram is not changed. Missing: it need not be the
shortest such distance (`C146_three_elements_violated`). -/
theorem C146_attained_partial {κ : Type} [DecidableEq κ] (X : Ext κ φ (List (List ℚ))) (s : CPD κ φ (List (List ℚ)))
    (D : Diagram elements frac epa formula mins refs borders hsInt doms) (e e' : η) (he : e ∈ mins) (he' : e' ∈ mins)
    (pf pg : List (List ℚ)) (hf : (formula e, pf) ∈ doms) (hg : (formula e', pg) ∈ doms) (offset : ℝ) :
    ∃ m, shortest X (dictGet doms) euclid s (formula e) (formula e') offset = (s, .ok (m + offset)) ∧
      ∃ p ∈ Region elements frac epa mins borders e, ∃ q ∈ Region elements frac epa mins borders e', euclid p q = m := by
  obtain ⟨f1, f2⟩ := found D _ _ hf
  obtain ⟨g1, g2⟩ := found D _ _ hg
  obtain ⟨m, h1, ⟨p, hp, q, hq, hm⟩, -⟩ := reported X s _ _ pf pg f1 g1 f2 g2 offset
  exact ⟨m, h1, p, listed_region D.nodup D.isRefs D.nonneg D.sharp D.built D.inj D.intersects e he pf hf p hp,
    q, listed_region D.nodup D.isRefs D.nonneg D.sharp D.built D.inj D.intersects e' he' pg hg q hq, hm⟩

theorem dot_frac (e : η) (μ : List ℚ) : dot (elements.map (frac e)) μ = weighted elements frac e μ := by
  unfold dot weighted
  rw [List.zipWith_map_left]

/-- Domains that meet have a common listed point. -/
theorem meet (D : Diagram elements frac epa formula mins refs borders hsInt doms) (e e' : η) (he : e ∈ mins) (he' : e' ∈ mins)
    (pf pg : List (List ℚ)) (hf : (formula e, pf) ∈ doms) (hg : (formula e', pg) ∈ doms) (μ : List ℚ)
    (h1 : μ ∈ Region elements frac epa mins borders e) (h2 : μ ∈ Region elements frac epa mins borders e') : ∃ p ∈ pf, p ∈ pg := by
  obtain ⟨p, hp, hle⟩ := better D.built D.inj D.intersects D.corners e he pf hf μ h1 (elements.map (frac e')) (by simp)
  rw [dot_frac, dot_frac, h2.2.1] at hle
  have hr := listed_region D.nodup D.isRefs D.nonneg D.sharp D.built D.inj D.intersects e he pf hf p hp
  have := hr.2.2.1 e' he'
  exact ⟨p, hp, shared D.built D.inj D.intersects D.corners e e' he he' pf pg hf hg p hp (le_antisymm this hle)⟩

/-- **C146, neighbours.** For any number of elements the reported distance is zero exactly for phases whose domains meet. -/
theorem C146_neighbours {κ : Type} [DecidableEq κ] (X : Ext κ φ (List (List ℚ))) (s : CPD κ φ (List (List ℚ)))
    (D : Diagram elements frac epa formula mins refs borders hsInt doms) (e e' : η) (he : e ∈ mins) (he' : e' ∈ mins)
    (pf pg : List (List ℚ)) (hf : (formula e, pf) ∈ doms) (hg : (formula e', pg) ∈ doms) :
    (shortest X (dictGet doms) euclid s (formula e) (formula e') 0).2 = .ok 0 ↔
      (Region elements frac epa mins borders e ∩ Region elements frac epa mins borders e').Nonempty := by
  obtain ⟨f1, f2⟩ := found D _ _ hf
  obtain ⟨g1, g2⟩ := found D _ _ hg
  obtain ⟨m, h1, ⟨p, hp, q, hq, hm⟩, hmin⟩ := reported X s _ _ pf pg f1 g1 f2 g2 0
  have rp := listed_region D.nodup D.isRefs D.nonneg D.sharp D.built D.inj D.intersects e he pf hf p hp
  have rq := listed_region D.nodup D.isRefs D.nonneg D.sharp D.built D.inj D.intersects e' he' pg hg q hq
  rw [h1]
  simp only [add_zero, Except.ok.injEq]
  constructor
  · intro hz
    have := euclid_eq_zero p q (rp.1.trans rq.1.symm) (hm.trans hz)
    exact ⟨p, rp, this ▸ rq⟩
  · rintro ⟨μ, hμ, hμ'⟩
    obtain ⟨r, hr, hr'⟩ := meet D e e' he he' pf pg hf hg μ hμ hμ'
    have a := hmin r hr r hr'
    rw [euclid_self] at a
    exact le_antisymm a (hm ▸ euclid_nonneg p q)

/-- Two fractions of two elements and the potentials in between. -/
theorem order_two {x y w₁ w₂ : ℚ} (hx : x ≤ 1) (hy : 0 ≤ y) (hxy : y < x) (h1 : x * w₁ + (1 - x) * w₂ ≤ 0)
    (h2 : 0 ≤ y * w₁ + (1 - y) * w₂) : w₁ ≤ 0 ∧ 0 ≤ w₂ := by
  have hw : w₁ ≤ w₂ := by
    by_contra hc
    push Not at hc
    nlinarith [mul_pos (sub_pos.mpr hxy) (sub_pos.mpr hc)]
  constructor
  · nlinarith [mul_nonneg (sub_nonneg.mpr hx) (sub_nonneg.mpr hw)]
  · nlinarith [mul_nonneg hy (sub_nonneg.mpr hw)]

/-- On the line of a phase, the point with the larger `μ₂ - μ₁` has the smaller first and the larger second potential. -/
theorem along {x a₁ a₂ b₁ b₂ : ℚ} (hx0 : 0 ≤ x) (hx : x ≤ 1) (h : x * a₁ + (1 - x) * a₂ = x * b₁ + (1 - x) * b₂)
    (hl : a₂ - a₁ ≤ b₂ - b₁) : b₁ ≤ a₁ ∧ a₂ ≤ b₂ := by
  have hd : (b₂ - a₂) - (b₁ - a₁) ≥ 0 := by linarith
  constructor
  · nlinarith [mul_nonneg (sub_nonneg.mpr hx) hd]
  · nlinarith [mul_nonneg hx0 hd]

theorem sq_mono {a b : ℚ} (h : (a ≤ b ∧ b ≤ 0) ∨ (0 ≤ b ∧ b ≤ a)) : b ^ 2 ≤ a ^ 2 := by
  rcases h with ⟨h1, h2⟩ | ⟨h1, h2⟩ <;> nlinarith

/-- One order of the two phases: the first has more of the first element. -/
theorem binary_half (D : Diagram elements frac epa formula mins refs borders hsInt doms) (A B : ε) (hel : elements = [A, B]) (e e' : η)
    (he : e ∈ mins) (he' : e' ∈ mins) (hlt : frac e' A < frac e A) (pf pg : List (List ℚ)) (hf : (formula e, pf) ∈ doms)
    (hg : (formula e', pg) ∈ doms) (p q : List ℚ) (hp : p ∈ Region elements frac epa mins borders e)
    (hq : q ∈ Region elements frac epa mins borders e') : ∃ p' ∈ pf, ∃ q' ∈ pg, euclid p' q' ≤ euclid p q := by
  subst hel
  have tot : ∀ x ∈ mins, frac x B = 1 - frac x A := by
    intro x hx
    have := D.total x hx
    simp only [List.map_cons, List.map_nil, List.sum_cons, List.sum_nil, add_zero] at this
    linarith
  have two : ∀ μ : List ℚ, μ.length = [A, B].length → ∃ a b, μ = [a, b] := by
    intro μ hμ
    match μ, hμ with
    | [a, b], _ => exact ⟨a, b, rfl⟩
  have wt : ∀ x ∈ mins, ∀ a b, weighted [A, B] frac x [a, b] = frac x A * a + (1 - frac x A) * b := by
    intro x hx a b
    simp [weighted, tot x hx]
  have hge : ∀ x ∈ mins, 0 ≤ frac x A ∧ frac x A ≤ 1 := by
    intro x hx
    have h1 := D.nonneg x hx A (by simp)
    have h2 := D.nonneg x hx B (by simp)
    rw [tot x hx] at h2
    exact ⟨h1, by linarith⟩
  obtain ⟨p', hp', hlp⟩ := better D.built D.inj D.intersects D.corners e he pf hf p hp [-1, 1] rfl
  obtain ⟨q', hq', hlq⟩ := better D.built D.inj D.intersects D.corners e' he' pg hg q hq [1, -1] rfl
  have rp := listed_region D.nodup D.isRefs D.nonneg D.sharp D.built D.inj D.intersects e he pf hf p' hp'
  have rq := listed_region D.nodup D.isRefs D.nonneg D.sharp D.built D.inj D.intersects e' he' pg hg q' hq'
  refine ⟨p', hp', q', hq', ?_⟩
  obtain ⟨p₁, p₂, rfl⟩ := two p hp.1
  obtain ⟨q₁, q₂, rfl⟩ := two q hq.1
  obtain ⟨r₁, r₂, rfl⟩ := two p' rp.1
  obtain ⟨s₁, s₂, rfl⟩ := two q' rq.1
  have hlp' : p₂ - p₁ ≤ r₂ - r₁ := by simp [dot] at hlp; linarith
  have hlq' : s₂ - s₁ ≤ q₂ - q₁ := by simp [dot] at hlq; linarith
  have ep := hp.2.1
  have erp := rp.2.1
  have eq := hq.2.1
  have erq := rq.2.1
  have c1 := rq.2.2.1 e he
  have c2 := rp.2.2.1 e' he'
  rw [wt e he] at ep erp c1
  rw [wt e' he'] at eq erq c2
  obtain ⟨u1, u2⟩ := along (hge e he).1 (hge e he).2 (ep.trans erp.symm) hlp'
  obtain ⟨v1, v2⟩ := along (hge e' he').1 (hge e' he').2 (erq.trans eq.symm) hlq'
  obtain ⟨w1, w2⟩ := order_two (w₁ := s₁ - r₁) (w₂ := s₂ - r₂) (hge e he).2 (hge e' he').1 hlt (by linarith) (by linarith)
  apply euclid_le
  simp only [List.zipWith_cons_cons, List.zipWith_nil_right, List.sum_cons, List.sum_nil, add_zero]
  have s1 : (r₁ - s₁) ^ 2 ≤ (p₁ - q₁) ^ 2 := sq_mono (Or.inr ⟨by linarith, by linarith⟩)
  have s2 : (r₂ - s₂) ^ 2 ≤ (p₂ - q₂) ^ 2 := sq_mono (Or.inl ⟨by linarith, by linarith⟩)
  linarith

/-- **C146, two elements.** In a binary diagram the reported distance is the distance of the two domains: it is attained and no two of their
points are closer. -/
theorem C146_two_elements {κ : Type} [DecidableEq κ] (X : Ext κ φ (List (List ℚ))) (s : CPD κ φ (List (List ℚ)))
    (D : Diagram elements frac epa formula mins refs borders hsInt doms) (h2 : elements.length = 2) (e e' : η) (he : e ∈ mins)
    (he' : e' ∈ mins) (pf pg : List (List ℚ)) (hf : (formula e, pf) ∈ doms) (hg : (formula e', pg) ∈ doms) (offset : ℝ) :
    ∃ m, shortest X (dictGet doms) euclid s (formula e) (formula e') offset = (s, .ok (m + offset)) ∧
      IsLeast {d | ∃ p ∈ Region elements frac epa mins borders e, ∃ q ∈ Region elements frac epa mins borders e', euclid p q = d} m := by
  obtain ⟨f1, f2⟩ := found D _ _ hf
  obtain ⟨g1, g2⟩ := found D _ _ hg
  obtain ⟨m, h1, ⟨p, hp, q, hq, hm⟩, hmin⟩ := reported X s _ _ pf pg f1 g1 f2 g2 offset
  refine ⟨m, h1, ⟨p, listed_region D.nodup D.isRefs D.nonneg D.sharp D.built D.inj D.intersects e he pf hf p hp,
    q, listed_region D.nodup D.isRefs D.nonneg D.sharp D.built D.inj D.intersects e' he' pg hg q hq, hm⟩, ?_⟩
  rintro d ⟨μ, hμ, ν, hν, rfl⟩
  obtain ⟨A, B, hel⟩ : ∃ A B, elements = [A, B] := by
    match elements, h2 with
    | [A, B], _ => exact ⟨A, B, rfl⟩
  rcases lt_trichotomy (frac e' A) (frac e A) with hlt | heq | hlt
  · obtain ⟨p', hp', q', hq', hle⟩ := binary_half D A B hel e e' he he' hlt pf pg hf hg μ ν hμ hν
    exact (hmin p' hp' q' hq').trans hle
  · have hw : ∀ x, weighted elements frac e x = weighted elements frac e' x := by
      intro x
      have t1 := D.total e he
      have t2 := D.total e' he'
      subst hel
      simp only [List.map_cons, List.map_nil, List.sum_cons, List.sum_nil, add_zero] at t1 t2
      have hB : frac e B = frac e' B := by linarith
      unfold weighted
      match x with
      | [] => rfl
      | [a] => simp [heq]
      | a :: b :: x => simp [heq, hB]
    have hE : epa e = epa e' := by
      have a1 := hμ.2.1
      have a2 := hν.2.1
      have a3 := hμ.2.2.1 e' he'
      have a4 := hν.2.2.1 e he
      rw [hw] at a1 a4
      linarith
    have : μ ∈ Region elements frac epa mins borders e' := ⟨hμ.1, by rw [← hw, hμ.2.1, hE], hμ.2.2⟩
    obtain ⟨r, hr, hr'⟩ := meet D e e' he he' pf pg hf hg μ hμ this
    have a := hmin r hr r hr'
    rw [euclid_self] at a
    exact a.trans (euclid_nonneg _ _)
  · obtain ⟨q', hq', p', hp', hle⟩ := binary_half D A B hel e' e he' he hlt pg pf hg hf ν μ hν hμ
    have := hmin p' hp' q' hq'
    rw [euclid_symm p' q'] at this
    rw [euclid_symm μ ν]
    exact this.trans hle

/-! Concrete case: the binary diagram of C93, with the compound's domain between those of the elements. -/

def exDoms : List ((ℚ × ℚ) × List (List ℚ)) :=
  [((1/2, -3), [[-1, -5], [-4, -2]]), ((0, -1), [[-1, -5], [-1, -10]]), ((1, -2), [[-4, -2], [-10, -2]])]

theorem list2 (μ : List ℚ) (h : μ.length = 2) : ∃ a b, μ = [a, b] := by
  match μ, h with
  | [a, b], _ => exact ⟨a, b, rfl⟩

theorem list3 (μ : List ℚ) (h : μ.length = 3) : ∃ a b c, μ = [a, b, c] := by
  match μ, h with
  | [a, b, c], _ => exact ⟨a, b, c, rfl⟩

theorem up {c a m : ℚ} (k : 0 ≤ c) (h : a ≤ m) : c * a ≤ c * m := mul_le_mul_of_nonneg_left h k
theorem down {c a m : ℚ} (k : c ≤ 0) (h : m ≤ a) : c * a ≤ c * m := mul_le_mul_of_nonpos_left h k

theorem exCorners : ∀ H, Corners 2 H (exInt H) := by
  intro H
  unfold exInt
  split_ifs with hH
  · subst hH
    constructor
    · rintro v - row hrow c μ hc hμ hall hz
      obtain ⟨c₁, c₂, rfl⟩ := list2 c hc
      obtain ⟨a, b, rfl⟩ := list2 μ hμ
      simp only [exBorders, List.cons_append, List.nil_append, List.mem_cons, List.not_mem_nil, or_false, forall_eq_or_imp, forall_eq, dot,
        List.zipWith_cons_cons, List.zipWith_nil_right, List.sum_cons, List.sum_nil, add_zero] at hall
      obtain ⟨h1, h2, h3, h4, h5⟩ := hall
      have pick : ∀ (r s : ℚ) (l : List ℕ), ([r, s], l) ∈ [([-1, -5], [0, 1]), ([-4, -2], [0, 2]), ([-1, -10], [1, 4]), ([-10, -2], [2, 3]),
          (([-10, -10] : List ℚ), [3, 4])] → v ∈ l → c₁ * a + c₂ * b ≤ c₁ * r + c₂ * s →
          ∃ p ∈ [([-1, -5], [0, 1]), ([-4, -2], [0, 2]), ([-1, -10], [1, 4]), ([-10, -2], [2, 3]), (([-10, -10] : List ℚ), [3, 4])],
            v ∈ p.2 ∧ dot [c₁, c₂] [a, b] ≤ dot [c₁, c₂] p.1 := by
        intro r s l hm hv hle
        refine ⟨_, hm, hv, ?_⟩
        simp [dot]; linarith
      match v with
      | 0 =>
        simp [exBorders] at hrow; subst hrow; simp [dot] at hz
        obtain rfl : b = -6 - a := by linarith
        rcases le_total 0 (c₁ - c₂) with k | k
        · have := up k (show a ≤ -1 by linarith)
          exact pick (-1) (-5) [0, 1] (by simp) (by simp) (by linarith)
        · have := down k (show -4 ≤ a by linarith)
          exact pick (-4) (-2) [0, 2] (by simp) (by simp) (by linarith)
      | 1 =>
        simp [exBorders] at hrow; subst hrow; simp [dot] at hz
        obtain rfl : a = -1 := by linarith
        rcases le_total 0 c₂ with k | k
        · have := up k (show b ≤ -5 by linarith)
          exact pick (-1) (-5) [0, 1] (by simp) (by simp) (by linarith)
        · have := down k (show -10 ≤ b by linarith)
          exact pick (-1) (-10) [1, 4] (by simp) (by simp) (by linarith)
      | 2 =>
        simp [exBorders] at hrow; subst hrow; simp [dot] at hz
        obtain rfl : b = -2 := by linarith
        rcases le_total 0 c₁ with k | k
        · have := up k (show a ≤ -4 by linarith)
          exact pick (-4) (-2) [0, 2] (by simp) (by simp) (by linarith)
        · have := down k (show -10 ≤ a by linarith)
          exact pick (-10) (-2) [2, 3] (by simp) (by simp) (by linarith)
      | 3 =>
        simp [exBorders] at hrow; subst hrow; simp [dot] at hz
        obtain rfl : a = -10 := by linarith
        rcases le_total 0 c₂ with k | k
        · have := up k (show b ≤ -2 by linarith)
          exact pick (-10) (-2) [2, 3] (by simp) (by simp) (by linarith)
        · have := down k (show -10 ≤ b by linarith)
          exact pick (-10) (-10) [3, 4] (by simp) (by simp) (by linarith)
      | 4 =>
        simp [exBorders] at hrow; subst hrow; simp [dot] at hz
        obtain rfl : b = -10 := by linarith
        rcases le_total 0 c₁ with k | k
        · have := up k (show a ≤ -1 by linarith)
          exact pick (-1) (-10) [1, 4] (by simp) (by simp) (by linarith)
        · have := down k (show -10 ≤ a by linarith)
          exact pick (-10) (-10) [3, 4] (by simp) (by simp) (by linarith)
      | n + 5 => simp [exBorders] at hrow
    · have : ∀ p ∈ [([-1, -5], [0, 1]), ([-4, -2], [0, 2]), ([-1, -10], [1, 4]), ([-10, -2], [2, 3]), (([-10, -10] : List ℚ), [3, 4])],
          ∀ v < 5, ∀ row ∈ ([[1/2, 1/2, 3], [1, 0, 1], [0, 1, 2]] ++ exBorders)[v]?, dot row (p.1 ++ [1]) = 0 → v ∈ p.2 := by decide +kernel
      intro p hp v _ row hrow hz
      have hv : v < 5 := by
        have := (List.getElem?_eq_some_iff.mp hrow).1
        simpa [exBorders] using this
      exact ⟨p, hp, rfl, this p hp v hv row hrow hz⟩
  · exact ⟨fun v ⟨p, hp, _⟩ => by simp at hp, fun p hp => by simp at hp⟩

theorem exDiagram : Diagram [0, 1] exFrac Prod.snd (fun e => e) exMins exRefs exBorders exInt exDoms where
  nodup := by decide
  isRefs := ⟨by decide +kernel, by decide +kernel⟩
  nonneg := by decide +kernel
  total := by decide +kernel
  inj := fun _ _ _ _ h => h
  sharp := by
    intro x hx vec hvec
    have : vec = [-1, -2] := by
      cases hvec with
      | cons h1 h => cases h with
        | cons h2 h => cases h with
          | nil =>
            obtain ⟨r, hr, rfl⟩ := h1
            obtain ⟨r', hr', rfl⟩ := h2
            simp [exRefs] at hr hr'
            rw [hr, hr']
    subst this
    revert x
    decide +kernel
  intersects := exInt_spec
  corners := exCorners
  built := by decide +kernel

/-- The elements' domains are `3√2` apart (the corners `(-1, -5)` and `(-4, -2)`), and no two of their points are closer. -/
example (X : Ext ℕ (ℚ × ℚ) (List (List ℚ))) (s : CPD ℕ (ℚ × ℚ) (List (List ℚ))) :=
  C146_two_elements X s exDiagram rfl (0, -1) (1, -2) (by decide) (by decide) [[-1, -5], [-1, -10]] [[-4, -2], [-10, -2]]
    (by decide +kernel) (by decide +kernel) 0

/-- The compound touches both elements; the elements do not touch. -/
example (X : Ext ℕ (ℚ × ℚ) (List (List ℚ))) (s : CPD ℕ (ℚ × ℚ) (List (List ℚ))) :
    (shortest X (dictGet exDoms) euclid s (1/2, -3) (1, -2) 0).2 = .ok 0 :=
  (C146_neighbours X s exDiagram (1/2, -3) (1, -2) (by decide +kernel) (by decide +kernel) [[-1, -5], [-4, -2]] [[-4, -2], [-10, -2]]
    (by decide +kernel) (by decide +kernel)).mpr ⟨[-4, -2], by
      constructor <;> exact ⟨rfl, by decide +kernel, by decide +kernel, by decide +kernel⟩⟩

/-! ### Three elements -/

/-- Phases A, B, C (0, 1, 2), AC and ABC (3, 4) of a ternary system. -/
def tFrac (e : ℕ) (el : Fin 3) : ℚ :=
  match e, el with
  | 0, 0 => 1
  | 1, 1 => 1
  | 2, 2 => 1
  | 3, 0 => 1/2
  | 3, 2 => 1/2
  | 4, _ => 1/3
  | _, _ => 0

/-- Energies per atom: the elements 0, AC −1, ABC −4/3. -/
def tEpa (e : ℕ) : ℚ := if e < 3 then 0 else if e = 3 then -1 else -4/3
def tMins : List ℕ := [0, 1, 2, 3, 4]
def tRefs : List (Fin 3 × ℕ) := [(0, 0), (1, 1), (2, 2)]
def tBorders : List (List ℚ) := [[-1, 0, 0, -10], [0, -1, 0, -10], [0, 0, -1, -10]]
def tH : List (List ℚ) := [[1/2, 0, 1/2, 1], [1/3, 1/3, 1/3, 4/3], [1, 0, 0, 0], [0, 1, 0, 0], [0, 0, 1, 0]] ++ tBorders

/-- The corners of the diagram. Half-spaces: 0 AC, 1 ABC, 2 A, 3 B, 4 C, 5–7 the limits. -/
def tPairs : List (List ℚ × List ℕ) :=
  [([0, 0, -4], [1, 2, 3]), ([0, -2, -2], [0, 1, 2]), ([0, -10, -2], [0, 2, 6]), ([0, -10, -10], [2, 6, 7]), ([0, 0, -10], [2, 3, 7]), ([-4, 0, 0], [1, 3, 4]), ([-2, -2, 0], [0, 1, 4]), ([-2, -10, 0], [0, 4, 6]), ([-10, -10, 0], [4, 5, 6]), ([-10, 0, 0], [3, 4, 5]), ([-10, 0, -10], [3, 5, 7]), ([-10, -10, -10], [5, 6, 7])]

def tInt (H : List (List ℚ)) : List (List ℚ × List ℕ) := if H = tH then tPairs else []

def tDoms : List (ℕ × List (List ℚ)) :=
  [(3, [[0, -2, -2], [0, -10, -2], [-2, -2, 0], [-2, -10, 0]]), (4, [[0, 0, -4], [0, -2, -2], [-4, 0, 0], [-2, -2, 0]]), (0, [[0, 0, -4], [0, -2, -2], [0, -10, -2], [0, -10, -10], [0, 0, -10]]), (1, [[0, 0, -4], [0, 0, -10], [-4, 0, 0], [-10, 0, 0], [-10, 0, -10]]), (2, [[-4, 0, 0], [-2, -2, 0], [-2, -10, 0], [-10, -10, 0], [-10, 0, 0]])]

theorem tInt_spec : ∀ H, Intersects 3 H (tInt H) := by
  intro H p hp
  unfold tInt at hp
  split_ifs at hp with h
  · subst h
    have : ∀ p ∈ tPairs, p.1.length = 3 ∧ (∀ row ∈ tH, dot row (p.1 ++ [1]) ≤ 0) ∧
        ∀ v ∈ p.2, ((tH[v]?).map fun row => dot row (p.1 ++ [1])) = some 0 := by decide +kernel
    obtain ⟨h1, h2, h3⟩ := this p hp
    exact ⟨h1, h2, fun v hv => by simpa [Option.map_eq_some_iff] using h3 v hv⟩
  · simp at hp

theorem tCorners : ∀ H, Corners 3 H (tInt H) := by
  intro H
  unfold tInt
  split_ifs with hH
  · subst hH
    constructor
    · rintro v - row hrow c μ hc hμ hall hz
      obtain ⟨c₁, c₂, c₃, rfl⟩ := list3 c hc
      obtain ⟨x, y, z, rfl⟩ := list3 μ hμ
      simp [tH, tBorders, dot] at hall
      obtain ⟨h1, h2, h3, h4, h5, h6, h7, h8⟩ := hall
      have pick : ∀ (a b d : ℚ) (l : List ℕ), ([a, b, d], l) ∈ tPairs → v ∈ l → c₁ * x + c₂ * y + c₃ * z ≤ c₁ * a + c₂ * b + c₃ * d →
          ∃ p ∈ tPairs, v ∈ p.2 ∧ dot [c₁, c₂, c₃] [x, y, z] ≤ dot [c₁, c₂, c₃] p.1 := by
        intro a b d l hm hv hle
        refine ⟨_, hm, hv, ?_⟩
        simp [dot]; linarith
      match v with
      | 0 =>
        simp [tH, tBorders] at hrow; subst hrow; simp [dot] at hz
        obtain rfl : z = -2 - x := by linarith
        rcases le_total 0 (c₁ - c₃) with k | k <;> rcases le_total 0 c₂ with k' | k'
        · have := up k (show x ≤ 0 by linarith)
          have := up k' (show y ≤ -2 by linarith)
          exact pick 0 (-2) (-2) [0, 1, 2] (by simp [tPairs]) (by simp) (by linarith)
        · have := up k (show x ≤ 0 by linarith)
          have := down k' (show -10 ≤ y by linarith)
          exact pick 0 (-10) (-2) [0, 2, 6] (by simp [tPairs]) (by simp) (by linarith)
        · have := down k (show -2 ≤ x by linarith)
          have := up k' (show y ≤ -2 by linarith)
          exact pick (-2) (-2) 0 [0, 1, 4] (by simp [tPairs]) (by simp) (by linarith)
        · have := down k (show -2 ≤ x by linarith)
          have := down k' (show -10 ≤ y by linarith)
          exact pick (-2) (-10) 0 [0, 4, 6] (by simp [tPairs]) (by simp) (by linarith)
      | 1 =>
        simp [tH, tBorders] at hrow; subst hrow; simp [dot] at hz
        obtain rfl : z = -4 - x - y := by linarith
        rcases le_total 0 (c₁ - c₃) with k | k
        · have := up k (show x ≤ 0 by linarith)
          rcases le_total 0 (c₂ - c₃) with k' | k'
          · have := up k' (show y ≤ 0 by linarith)
            exact pick 0 0 (-4) [1, 2, 3] (by simp [tPairs]) (by simp) (by linarith)
          · have := down k' (show -2 ≤ y by linarith)
            exact pick 0 (-2) (-2) [0, 1, 2] (by simp [tPairs]) (by simp) (by linarith)
        · have := down k (show -4 - y ≤ x by linarith)
          rcases le_total 0 (c₂ - c₁) with k' | k'
          · have := up k' (show y ≤ 0 by linarith)
            exact pick (-4) 0 0 [1, 3, 4] (by simp [tPairs]) (by simp) (by linarith)
          · have := down k' (show -2 ≤ y by linarith)
            exact pick (-2) (-2) 0 [0, 1, 4] (by simp [tPairs]) (by simp) (by linarith)
      | 2 =>
        simp [tH, tBorders] at hrow; subst hrow; simp [dot] at hz
        obtain rfl : x = 0 := by linarith
        rcases le_total 0 c₂ with k | k <;> rcases le_total 0 c₃ with k' | k'
        · rcases le_total 0 (c₂ - c₃) with k'' | k''
          · have := up k'' (show y ≤ 0 by linarith)
            have := up k' (show y + z ≤ -4 by linarith)
            exact pick 0 0 (-4) [1, 2, 3] (by simp [tPairs]) (by simp) (by linarith)
          · have := up (neg_nonneg.mpr k'') (show z ≤ -2 by linarith)
            have := up k (show y + z ≤ -4 by linarith)
            exact pick 0 (-2) (-2) [0, 1, 2] (by simp [tPairs]) (by simp) (by linarith)
        · have := up k (show y ≤ 0 by linarith)
          have := down k' (show -10 ≤ z by linarith)
          exact pick 0 0 (-10) [2, 3, 7] (by simp [tPairs]) (by simp) (by linarith)
        · have := down k (show -10 ≤ y by linarith)
          have := up k' (show z ≤ -2 by linarith)
          exact pick 0 (-10) (-2) [0, 2, 6] (by simp [tPairs]) (by simp) (by linarith)
        · have := down k (show -10 ≤ y by linarith)
          have := down k' (show -10 ≤ z by linarith)
          exact pick 0 (-10) (-10) [2, 6, 7] (by simp [tPairs]) (by simp) (by linarith)
      | 3 =>
        simp [tH, tBorders] at hrow; subst hrow; simp [dot] at hz
        obtain rfl : y = 0 := by linarith
        rcases le_total 0 c₁ with k | k <;> rcases le_total 0 c₃ with k' | k'
        · rcases le_total 0 (c₁ - c₃) with k'' | k''
          · have := up k'' (show x ≤ 0 by linarith)
            have := up k' (show x + z ≤ -4 by linarith)
            exact pick 0 0 (-4) [1, 2, 3] (by simp [tPairs]) (by simp) (by linarith)
          · have := up (neg_nonneg.mpr k'') (show z ≤ 0 by linarith)
            have := up k (show x + z ≤ -4 by linarith)
            exact pick (-4) 0 0 [1, 3, 4] (by simp [tPairs]) (by simp) (by linarith)
        · have := up k (show x ≤ 0 by linarith)
          have := down k' (show -10 ≤ z by linarith)
          exact pick 0 0 (-10) [2, 3, 7] (by simp [tPairs]) (by simp) (by linarith)
        · have := down k (show -10 ≤ x by linarith)
          have := up k' (show z ≤ 0 by linarith)
          exact pick (-10) 0 0 [3, 4, 5] (by simp [tPairs]) (by simp) (by linarith)
        · have := down k (show -10 ≤ x by linarith)
          have := down k' (show -10 ≤ z by linarith)
          exact pick (-10) 0 (-10) [3, 5, 7] (by simp [tPairs]) (by simp) (by linarith)
      | 4 =>
        simp [tH, tBorders] at hrow; subst hrow; simp [dot] at hz
        obtain rfl : z = 0 := by linarith
        rcases le_total 0 c₂ with k | k <;> rcases le_total 0 c₁ with k' | k'
        · rcases le_total 0 (c₂ - c₁) with k'' | k''
          · have := up k'' (show y ≤ 0 by linarith)
            have := up k' (show y + x ≤ -4 by linarith)
            exact pick (-4) 0 0 [1, 3, 4] (by simp [tPairs]) (by simp) (by linarith)
          · have := up (neg_nonneg.mpr k'') (show x ≤ -2 by linarith)
            have := up k (show y + x ≤ -4 by linarith)
            exact pick (-2) (-2) 0 [0, 1, 4] (by simp [tPairs]) (by simp) (by linarith)
        · have := up k (show y ≤ 0 by linarith)
          have := down k' (show -10 ≤ x by linarith)
          exact pick (-10) 0 0 [3, 4, 5] (by simp [tPairs]) (by simp) (by linarith)
        · have := down k (show -10 ≤ y by linarith)
          have := up k' (show x ≤ -2 by linarith)
          exact pick (-2) (-10) 0 [0, 4, 6] (by simp [tPairs]) (by simp) (by linarith)
        · have := down k (show -10 ≤ y by linarith)
          have := down k' (show -10 ≤ x by linarith)
          exact pick (-10) (-10) 0 [4, 5, 6] (by simp [tPairs]) (by simp) (by linarith)
      | 5 =>
        simp [tH, tBorders] at hrow; subst hrow; simp [dot] at hz
        obtain rfl : x = -10 := by linarith
        rcases le_total 0 c₂ with k | k <;> rcases le_total 0 c₃ with k' | k'
        · have := up k (show y ≤ 0 by linarith)
          have := up k' (show z ≤ 0 by linarith)
          exact pick (-10) 0 0 [3, 4, 5] (by simp [tPairs]) (by simp) (by linarith)
        · have := up k (show y ≤ 0 by linarith)
          have := down k' (show -10 ≤ z by linarith)
          exact pick (-10) 0 (-10) [3, 5, 7] (by simp [tPairs]) (by simp) (by linarith)
        · have := down k (show -10 ≤ y by linarith)
          have := up k' (show z ≤ 0 by linarith)
          exact pick (-10) (-10) 0 [4, 5, 6] (by simp [tPairs]) (by simp) (by linarith)
        · have := down k (show -10 ≤ y by linarith)
          have := down k' (show -10 ≤ z by linarith)
          exact pick (-10) (-10) (-10) [5, 6, 7] (by simp [tPairs]) (by simp) (by linarith)
      | 6 =>
        simp [tH, tBorders] at hrow; subst hrow; simp [dot] at hz
        obtain rfl : y = -10 := by linarith
        rcases le_total 0 c₁ with k | k <;> rcases le_total 0 c₃ with k' | k'
        · rcases le_total 0 (c₁ - c₃) with k'' | k''
          · have := up k'' (show x ≤ 0 by linarith)
            have := up k' (show x + z ≤ -2 by linarith)
            exact pick 0 (-10) (-2) [0, 2, 6] (by simp [tPairs]) (by simp) (by linarith)
          · have := up (neg_nonneg.mpr k'') (show z ≤ 0 by linarith)
            have := up k (show x + z ≤ -2 by linarith)
            exact pick (-2) (-10) 0 [0, 4, 6] (by simp [tPairs]) (by simp) (by linarith)
        · have := up k (show x ≤ 0 by linarith)
          have := down k' (show -10 ≤ z by linarith)
          exact pick 0 (-10) (-10) [2, 6, 7] (by simp [tPairs]) (by simp) (by linarith)
        · have := down k (show -10 ≤ x by linarith)
          have := up k' (show z ≤ 0 by linarith)
          exact pick (-10) (-10) 0 [4, 5, 6] (by simp [tPairs]) (by simp) (by linarith)
        · have := down k (show -10 ≤ x by linarith)
          have := down k' (show -10 ≤ z by linarith)
          exact pick (-10) (-10) (-10) [5, 6, 7] (by simp [tPairs]) (by simp) (by linarith)
      | 7 =>
        simp [tH, tBorders] at hrow; subst hrow; simp [dot] at hz
        obtain rfl : z = -10 := by linarith
        rcases le_total 0 c₁ with k | k <;> rcases le_total 0 c₂ with k' | k'
        · have := up k (show x ≤ 0 by linarith)
          have := up k' (show y ≤ 0 by linarith)
          exact pick 0 0 (-10) [2, 3, 7] (by simp [tPairs]) (by simp) (by linarith)
        · have := up k (show x ≤ 0 by linarith)
          have := down k' (show -10 ≤ y by linarith)
          exact pick 0 (-10) (-10) [2, 6, 7] (by simp [tPairs]) (by simp) (by linarith)
        · have := down k (show -10 ≤ x by linarith)
          have := up k' (show y ≤ 0 by linarith)
          exact pick (-10) 0 (-10) [3, 5, 7] (by simp [tPairs]) (by simp) (by linarith)
        · have := down k (show -10 ≤ x by linarith)
          have := down k' (show -10 ≤ y by linarith)
          exact pick (-10) (-10) (-10) [5, 6, 7] (by simp [tPairs]) (by simp) (by linarith)
      | n + 8 => simp [tH, tBorders] at hrow
    · have : ∀ p ∈ tPairs, ∀ v < 8, ∀ row ∈ tH[v]?, dot row (p.1 ++ [1]) = 0 → v ∈ p.2 := by decide +kernel
      intro p hp v _ row hrow hz
      have hv : v < 8 := by
        have := (List.getElem?_eq_some_iff.mp hrow).1
        simpa [tH, tBorders] using this
      exact ⟨p, hp, rfl, this p hp v hv row hrow hz⟩
  · exact ⟨fun v ⟨p, hp, _⟩ => by simp at hp, fun p hp => by simp at hp⟩

theorem tDiagram : Diagram [0, 1, 2] tFrac tEpa (fun e => e) tMins tRefs tBorders tInt tDoms where
  nodup := by decide
  isRefs := ⟨by decide +kernel, by decide +kernel⟩
  nonneg := by decide +kernel
  total := by decide +kernel
  inj := fun _ _ _ _ h => h
  sharp := by
    intro x hx vec hvec
    have : vec = [0, 0, 0] := by
      cases hvec with
      | cons h1 h => cases h with
        | cons h2 h => cases h with
          | cons h3 h => cases h with
            | nil =>
              obtain ⟨r, hr, rfl⟩ := h1
              obtain ⟨r', hr', rfl⟩ := h2
              obtain ⟨r'', hr'', rfl⟩ := h3
              simp [tRefs] at hr hr' hr''
              subst hr hr' hr''
              decide +kernel
    subst this
    revert x
    decide +kernel
  intersects := tInt_spec
  corners := tCorners
  built := by decide +kernel

/-- **C146 is violated** with three elements: only the corners of the domains are compared. In the system A–B–C with compounds AC and ABC,
the reported distance of AC and B is `√8` although points of their domains are only `√6` apart. -/
theorem C146_three_elements_violated : ∃ (elements : List (Fin 3)) (frac : ℕ → Fin 3 → ℚ) (epa : ℕ → ℚ) (mins : List ℕ)
    (refs : List (Fin 3 × ℕ)) (borders : List (List ℚ)) (hsInt : List (List ℚ) → List (List ℚ × List ℕ)) (doms : List (ℕ × List (List ℚ))),
    Diagram elements frac epa (fun e => e) mins refs borders hsInt doms ∧
    ∃ e ∈ mins, ∃ e' ∈ mins, ∃ p ∈ Region elements frac epa mins borders e, ∃ q ∈ Region elements frac epa mins borders e',
      ∀ (X : Ext ℕ ℕ (List (List ℚ))) (s : CPD ℕ ℕ (List (List ℚ))), ∃ m, shortest X (dictGet doms) euclid s e e' 0 = (s, .ok m) ∧
        euclid p q < m := by
  refine ⟨[0, 1, 2], tFrac, tEpa, tMins, tRefs, tBorders, tInt, tDoms, tDiagram, 3, by decide, 1, by decide,
    [-1, -2, -1], ⟨rfl, by decide +kernel, by decide +kernel, by decide +kernel⟩,
    [-2, 0, -2], ⟨rfl, by decide +kernel, by decide +kernel, by decide +kernel⟩, fun X s => ?_⟩
  obtain ⟨m, h1, ⟨p, hp, q, hq, hm⟩, -⟩ := reported (doms := tDoms) X s 3 1 [[0, -2, -2], [0, -10, -2], [-2, -2, 0], [-2, -10, 0]]
    [[0, 0, -4], [0, 0, -10], [-4, 0, 0], [-10, 0, 0], [-10, 0, -10]] (by decide +kernel) (by decide +kernel) (by simp) (by simp) 0
  refine ⟨m, by rw [h1, add_zero], ?_⟩
  rw [← hm]
  unfold euclid
  apply Real.sqrt_lt_sqrt
  · exact_mod_cast sum_sq_nonneg _ _
  · have : ∀ p ∈ ([[0, -2, -2], [0, -10, -2], [-2, -2, 0], [-2, -10, 0]] : List (List ℚ)),
        ∀ q ∈ ([[0, 0, -4], [0, 0, -10], [-4, 0, 0], [-10, 0, 0], [-10, 0, -10]] : List (List ℚ)),
        (List.zipWith (fun x y => (x - y) ^ 2) ([-1, -2, -1] : List ℚ) [-2, 0, -2]).sum <
          (List.zipWith (fun x y => (x - y) ^ 2) p q).sum := by
      simp only [List.mem_cons, List.not_mem_nil, or_false, forall_eq_or_imp, forall_eq, List.zipWith_cons_cons, List.zipWith_nil_right,
        List.sum_cons, List.sum_nil]
      norm_num
    exact_mod_cast this p hp q hq

example (X : Ext ℕ ℕ (List (List ℚ))) (s : CPD ℕ ℕ (List (List ℚ))) :=
  C146_attained_partial X s tDiagram 3 1 (by decide) (by decide) _ _ (show (3, [[0, -2, -2], [0, -10, -2], [-2, -2, 0], [-2, -10, 0]]) ∈ tDoms by simp [tDoms])
    (show (1, [[0, 0, -4], [0, 0, -10], [-4, 0, 0], [-10, 0, 0], [-10, 0, -10]]) ∈ tDoms by simp [tDoms]) 0

end Verif.Props.DomainDistance
