import Verif.Props.OpenWindow
import Verif.Props.ScoreTemp

/-!
Property C166: stability and competition scores of a reaction between two chemical potentials of an open element (src/rxn_network/reactions/open.py:28-150 and
src/rxn_network/reactions/hull.py).
-/

set_option linter.unusedSectionVars false

namespace Verif.Props.OpenScore
open Verif.Py Verif.Model Verif.Model.Enum Verif.Model.Reaction Verif.Spec.Reaction Verif.Props.GroundStateOpen Verif.Props.OpenWindow
  Verif.Props.EnumComplete
open Verif.Model.Hull Verif.Spec.Hull Verif.Props.Hull Verif.Props.HullConvex Verif.Props.HullMirror Verif.Props.HullGrow
open Verif.Props.TempLine (Blend)
open Verif.Props.ScoreTemp (Same C165_primary C165_above_hull C165_stable C165_secondary_max_partial)

variable {κ : Type} [DecidableEq κ]

/-! ### Helper lemmas -/

/-- Place and energy of each reaction at a potential. -/
abbrev Points (X : Chem κ Sym) (A B : Entry κ) (el : Sym) (μ : ℚ) (gs : List (CRxn κ)) (P : List (ℚ × ℚ)) : Prop :=
  List.Forall₂ (fun g p => coordOpen X A B (toOpen X el μ g) = .ok p.1 ∧ oenergyPerAtom X (toOpen X el μ g) = .ok p.2) gs P

theorem points_of (X : Chem κ Sym) (A B : Entry κ) (el : Sym) (μ : ℚ) (gs : List (CRxn κ)) (H : Built (ORxn κ Sym))
    (k : HullOfOpen X A B (gs.map (toOpen X el μ)) H) (w : List ℕ) (q : HullIndices H.coords w) : ∃ P, Points X A B el μ gs P ∧ IsHullOf P ⟨H.coords, w⟩ := by
  obtain ⟨ident, argsort, hs, k⟩ := k
  obtain ⟨-, -, P, -, -, -, -, f, -, -, -, p, s⟩ := Verif.Props.HullInit.C92_aligned _ _ _ _ _ _ hs _ _ _ _ k
  exact ⟨P, List.forall₂_map_left_iff.mp f, p, s, q⟩

theorem blend_of (X : Chem κ Sym) (hX : X.Lawful) (A B : Entry κ) (el : Sym) (gs : List (CRxn κ)) (μ₀ μ₁ t : ℚ) (P Q R : List (ℚ × ℚ))
    (f₀ : Points X A B el μ₀ gs P) (f₁ : Points X A B el μ₁ gs Q) (f : Points X A B el ((1 - t) * μ₀ + t * μ₁) gs R) : Blend t P Q R := by
  refine ⟨by rw [← f₀.length_eq, f.length_eq], by rw [← f₁.length_eq, f.length_eq], ?_⟩
  induction f₀ generalizing Q R with
  | nil =>
    cases f
    intro i r h
    simp at h
  | @cons g p gs P hp _ ih =>
    cases f₁ with
    | @cons _ q _ Q hq f₁ =>
    cases f with
    | @cons _ r _ R hr f =>
    intro i
    cases i with
    | succ i => simpa using ih Q R f₁ f i
    | zero =>
      intro r' h'
      have h' : r = r' := by simpa using h'
      subst h'
      refine ⟨p, q, rfl, rfl, Except.ok.inj (hp.1.symm.trans hr.1), Except.ok.inj (hq.1.symm.trans hr.1), ?_⟩
      by_cases ha : atoms X el g = 0
      · have := hp.2
        rw [(C157_reaction X hX el g).1 ha] at this
        cases this
      · obtain ⟨a, hl⟩ := (C157_reaction X hX el g).2 ha
        have e0 := Except.ok.inj ((hl _).symm.trans hp.2)
        have e1 := Except.ok.inj ((hl _).symm.trans hq.2)
        have e := Except.ok.inj ((hl _).symm.trans hr.2)
        rw [← e0, ← e1, ← e]
        ring

theorem pick {X : Chem κ Sym} {A B : Entry κ} {el : Sym} {μ : ℚ} {gs : List (CRxn κ)} {P : List (ℚ × ℚ)} (f : Points X A B el μ gs P) (n : ℕ) (g : CRxn κ)
    (hn : gs[n]? = some g) : ∃ c : ℚ × ℚ, P[n]? = some c ∧ coordOpen X A B (toOpen X el μ g) = .ok c.1 ∧ oenergyPerAtom X (toOpen X el μ g) = .ok c.2 := by
  induction f generalizing n with
  | nil => simp at hn
  | @cons y p l P hy _ ih =>
    cases n with
    | zero =>
      have hx : y = g := by simpa using hn
      subst hx
      exact ⟨p, by simp, hy⟩
    | succ n =>
      obtain ⟨c, hc, hp⟩ := ih n (by simpa using hn)
      exact ⟨c, by simpa using hc, hp⟩

theorem origin {X : Chem κ Sym} {A B : Entry κ} {el : Sym} {μ : ℚ} {gs : List (CRxn κ)} {P : List (ℚ × ℚ)} (f : Points X A B el μ gs P) (p : ℚ × ℚ) (hp : p ∈ P) :
    ∃ g ∈ gs, coordOpen X A B (toOpen X el μ g) = .ok p.1 ∧ oenergyPerAtom X (toOpen X el μ g) = .ok p.2 := by
  induction f with
  | nil => simp at hp
  | @cons g' p' gs P h' _ ih =>
    rcases List.mem_cons.mp hp with rfl | hp
    · exact ⟨g', by simp, h'⟩
    · obtain ⟨g, hg, hk⟩ := ih hp
      exact ⟨g, by simp [hg], hk⟩

theorem range {X : Chem κ Sym} {A B : Entry κ} {el : Sym} {μ₀ μ : ℚ} {gs : List (CRxn κ)} {P : List (ℚ × ℚ)}
    (u : ∀ g ∈ gs, ∀ x, coordOpen X A B (toOpen X el μ₀ g) = .ok x → 0 ≤ x ∧ x ≤ 1) (f : Points X A B el μ gs P) : ∀ p ∈ P, 0 ≤ p.1 ∧ p.1 ≤ 1 := by
  intro p hp
  obtain ⟨g, hg, hgp, -⟩ := origin f p hp
  exact u g hg _ ((coord_same X A B el μ₀ μ g).trans hgp)

/-- The points of a reaction at three potentials, among the points of the three hulls. -/
theorem tracked (X : Chem κ Sym) (hX : X.Lawful) (A B : Entry κ) (el : Sym) (gs : List (CRxn κ)) (μ₀ μ₁ t : ℚ)
    (h₀ h₁ h : Built (ORxn κ Sym)) (H₀ : HullOfOpen X A B (gs.map (toOpen X el μ₀)) h₀) (H₁ : HullOfOpen X A B (gs.map (toOpen X el μ₁)) h₁)
    (H : HullOfOpen X A B (gs.map (toOpen X el ((1 - t) * μ₀ + t * μ₁))) h) (w₀ w₁ w : List ℕ) (q₀ : HullIndices h₀.coords w₀)
    (q₁ : HullIndices h₁.coords w₁) (q : HullIndices h.coords w) (g : CRxn κ) (hg : g ∈ gs) :
    ∃ P Q R, IsHullOf P ⟨h₀.coords, w₀⟩ ∧ IsHullOf Q ⟨h₁.coords, w₁⟩ ∧ IsHullOf R ⟨h.coords, w⟩ ∧ Blend t P Q R ∧ Points X A B el μ₀ gs P ∧
      Points X A B el μ₁ gs Q ∧ Points X A B el ((1 - t) * μ₀ + t * μ₁) gs R ∧ ∃ c₀ ∈ h₀.coords, ∃ c₁ ∈ h₁.coords, ∃ c ∈ h.coords, Same t c₀ c₁ c ∧
      (coordOpen X A B (toOpen X el μ₀ g) = .ok c₀.1 ∧ oenergyPerAtom X (toOpen X el μ₀ g) = .ok c₀.2) ∧
      (coordOpen X A B (toOpen X el μ₁ g) = .ok c₁.1 ∧ oenergyPerAtom X (toOpen X el μ₁ g) = .ok c₁.2) ∧
      (coordOpen X A B (toOpen X el ((1 - t) * μ₀ + t * μ₁) g) = .ok c.1 ∧ oenergyPerAtom X (toOpen X el ((1 - t) * μ₀ + t * μ₁) g) = .ok c.2) := by
  obtain ⟨P, f₀, I₀⟩ := points_of X A B el _ gs h₀ H₀ w₀ q₀
  obtain ⟨Q, f₁, I₁⟩ := points_of X A B el _ gs h₁ H₁ w₁ q₁
  obtain ⟨R, f, I⟩ := points_of X A B el _ gs h H w q
  have Bl := blend_of X hX A B el gs μ₀ μ₁ t P Q R f₀ f₁ f
  obtain ⟨n, hn⟩ := List.mem_iff_getElem?.mp hg
  obtain ⟨c₀, m₀, e₀⟩ := pick f₀ n g hn
  obtain ⟨c₁, m₁, e₁⟩ := pick f₁ n g hn
  obtain ⟨c, m, e⟩ := pick f n g hn
  obtain ⟨p, r, hp, hr, S⟩ := Bl.2.2 n c m
  rw [m₀] at hp
  rw [m₁] at hr
  rw [← Option.some.inj hp, ← Option.some.inj hr] at S
  exact ⟨P, Q, R, I₀, I₁, I, Bl, f₀, f₁, f, c₀, I₀.perm.mem_iff.mpr (List.mem_append_left _ (List.mem_of_getElem? m₀)), c₁,
    I₁.perm.mem_iff.mpr (List.mem_append_left _ (List.mem_of_getElem? m₁)), c, I.perm.mem_iff.mpr (List.mem_append_left _ (List.mem_of_getElem? m)), S,
    e₀, e₁, e⟩

/-! ### C166 -/

section
variable (X : Chem κ Sym) (hX : X.Lawful) (A B : Entry κ) (el : Sym) (gs : List (CRxn κ)) (μ₀ μ₁ t : ℚ) (ht0 : 0 ≤ t) (ht1 : t ≤ 1)
  (h₀ h₁ h : Built (ORxn κ Sym)) (H₀ : HullOfOpen X A B (gs.map (toOpen X el μ₀)) h₀) (H₁ : HullOfOpen X A B (gs.map (toOpen X el μ₁)) h₁)
  (H : HullOfOpen X A B (gs.map (toOpen X el ((1 - t) * μ₀ + t * μ₁))) h) (w₀ w₁ w : List ℕ) (q₀ : HullIndices h₀.coords w₀)
  (q₁ : HullIndices h₁.coords w₁) (q : HullIndices h.coords w) (g : CRxn κ) (hg : g ∈ gs)
include hX ht0 ht1 H₀ H₁ H q₀ q₁ q hg

/-- **C166, primary competition** of a reaction is at no potential above the interpolation of its values at two potentials around it. -/
theorem C166_primary : ∃ x y₀ y₁ y v₀ v₁ v,
    (coordOpen X A B (toOpen X el μ₀ g) = .ok x ∧ oenergyPerAtom X (toOpen X el μ₀ g) = .ok y₀ ∧ getPrimaryCompetition ⟨h₀.coords, w₀⟩ y₀ x = some v₀) ∧
    (coordOpen X A B (toOpen X el μ₁ g) = .ok x ∧ oenergyPerAtom X (toOpen X el μ₁ g) = .ok y₁ ∧ getPrimaryCompetition ⟨h₁.coords, w₁⟩ y₁ x = some v₁) ∧
    (coordOpen X A B (toOpen X el ((1 - t) * μ₀ + t * μ₁) g) = .ok x ∧ oenergyPerAtom X (toOpen X el ((1 - t) * μ₀ + t * μ₁) g) = .ok y ∧
      getPrimaryCompetition ⟨h.coords, w⟩ y x = some v) ∧ v ≤ (1 - t) * v₀ + t * v₁ := by
  obtain ⟨P, Q, R, I₀, I₁, I, Bl, -, -, -, c₀, m₀, c₁, m₁, c, m, S, e₀, e₁, e⟩ := tracked X hX A B el gs μ₀ μ₁ t h₀ h₁ h H₀ H₁ H w₀ w₁ w q₀ q₁ q g hg
  obtain ⟨v₀, v₁, v, k₀, k₁, k, hv⟩ := C165_primary ht0 ht1 I₀ I₁ I Bl c₀ c₁ c m₀ m₁ m S
  rw [S.1] at k₀ e₀
  rw [S.2.1] at k₁ e₁
  exact ⟨c.1, _, _, _, v₀, v₁, v, ⟨e₀.1, e₀.2, k₀⟩, ⟨e₁.1, e₁.2, k₁⟩, ⟨e.1, e.2, k⟩, hv⟩

/-- **C166, stability.** A reaction that is a corner of the hull at two potentials is one at every potential between. -/
theorem C166_stable (x y₀ y₁ y : ℚ) (k₀ : coordOpen X A B (toOpen X el μ₀ g) = .ok x) (j₀ : oenergyPerAtom X (toOpen X el μ₀ g) = .ok y₀)
    (j₁ : oenergyPerAtom X (toOpen X el μ₁ g) = .ok y₁) (j : oenergyPerAtom X (toOpen X el ((1 - t) * μ₀ + t * μ₁) g) = .ok y)
    (l₀ : LowerCorner h₀.coords (x, y₀)) (l₁ : LowerCorner h₁.coords (x, y₁)) : LowerCorner h.coords (x, y) := by
  obtain ⟨P, Q, R, I₀, I₁, I, Bl, -, -, -, c₀, m₀, c₁, m₁, c, m, S, e₀, e₁, e⟩ := tracked X hX A B el gs μ₀ μ₁ t h₀ h₁ h H₀ H₁ H w₀ w₁ w q₀ q₁ q g hg
  have hx : c₀.1 = x := Except.ok.inj (e₀.1.symm.trans k₀)
  have z₀ : (x, y₀) = c₀ := Prod.ext hx.symm (Except.ok.inj (j₀.symm.trans e₀.2))
  have z₁ : (x, y₁) = c₁ := Prod.ext (by rw [← hx, S.1, S.2.1]) (Except.ok.inj (j₁.symm.trans e₁.2))
  have z : (x, y) = c := Prod.ext (by rw [← hx, S.1]) (Except.ok.inj (j.symm.trans e.2))
  rw [z₀] at l₀
  rw [z₁] at l₁
  rw [z]
  exact C165_stable ht0 ht1 I₀ I₁ I Bl c₀ c₁ c m S l₀ l₁

/-- **C166, energy above the hull** of a reaction is at no potential above the interpolation, if corners of the hulls are told apart. -/
theorem C166_above_hull (u : ∀ g ∈ gs, ∀ x, coordOpen X A B (toOpen X el μ₀ g) = .ok x → 0 ≤ x ∧ x ≤ 1) (a₀ : Apart' h₀.coords) (a₁ : Apart' h₁.coords)
    (a : Apart' h.coords) (x : ℚ) (k₀ : coordOpen X A B (toOpen X el μ₀ g) = .ok x) (b₀ : Apart1 h₀.coords x) (b₁ : Apart1 h₁.coords x) (b : Apart1 h.coords x) :
    ∃ i₀ i₁ i y₀ y₁ y v₀ v₁ v, (oenergyPerAtom X (toOpen X el μ₀ g) = .ok y₀ ∧ h₀.coords[i₀]? = some (x, y₀) ∧ getEnergyAboveHull ⟨h₀.coords, w₀⟩ i₀ = some v₀) ∧
      (oenergyPerAtom X (toOpen X el μ₁ g) = .ok y₁ ∧ h₁.coords[i₁]? = some (x, y₁) ∧ getEnergyAboveHull ⟨h₁.coords, w₁⟩ i₁ = some v₁) ∧
      (oenergyPerAtom X (toOpen X el ((1 - t) * μ₀ + t * μ₁) g) = .ok y ∧ h.coords[i]? = some (x, y) ∧ getEnergyAboveHull ⟨h.coords, w⟩ i = some v) ∧
      v ≤ (1 - t) * v₀ + t * v₁ := by
  obtain ⟨P, Q, R, I₀, I₁, I, Bl, f₀, f₁, f₂, c₀, m₀, c₁, m₁, c, m, S, e₀, e₁, e⟩ :=
    tracked X hX A B el gs μ₀ μ₁ t h₀ h₁ h H₀ H₁ H w₀ w₁ w q₀ q₁ q g hg
  have hx : c.1 = x := by rw [← S.1]; exact Except.ok.inj (e₀.1.symm.trans k₀)
  obtain ⟨i₀, n₀⟩ := List.mem_iff_getElem?.mp m₀
  obtain ⟨i₁, n₁⟩ := List.mem_iff_getElem?.mp m₁
  obtain ⟨i, n⟩ := List.mem_iff_getElem?.mp m
  obtain ⟨v₀, v₁, v, r₀, r₁, r, hv⟩ := C165_above_hull ht0 ht1 I₀ I₁ I (range u f₀) (range u f₁) (range u f₂) a₀ a₁ a Bl i₀ i₁ i c₀ c₁ c n₀ n₁ n S
    (hx ▸ b₀) (hx ▸ b₁) (hx ▸ b)
  refine ⟨i₀, i₁, i, c₀.2, c₁.2, c.2, v₀, v₁, v, ⟨e₀.2, ?_, r₀⟩, ⟨e₁.2, ?_, r₁⟩, ⟨e.2, ?_, r⟩, hv⟩
  · rw [n₀, ← hx, ← S.1]
  · rw [n₁, ← hx, ← S.2.1]
  · rw [n, ← hx]
/-- **C166, secondary competition by maximum energies** of a reaction that is stable at both potentials is nowhere above the interpolation, if neither of the
two phases decomposes or reacts with the reservoir alone at these potentials. -/
theorem C166_secondary_max (u : ∀ g ∈ gs, ∀ x, coordOpen X A B (toOpen X el μ₀ g) = .ok x → 0 ≤ x ∧ x ≤ 1) (a₀ : Apart' h₀.coords) (a₁ : Apart' h₁.coords)
    (a : Apart' h.coords)
    (z₀ : ∀ g ∈ gs, ∀ x y, coordOpen X A B (toOpen X el μ₀ g) = .ok x → oenergyPerAtom X (toOpen X el μ₀ g) = .ok y → x = 0 ∨ x = 1 → 0 ≤ y)
    (z₁ : ∀ g ∈ gs, ∀ x y, coordOpen X A B (toOpen X el μ₁ g) = .ok x → oenergyPerAtom X (toOpen X el μ₁ g) = .ok y → x = 0 ∨ x = 1 → 0 ≤ y)
    (x y₀ y₁ : ℚ) (k₀ : coordOpen X A B (toOpen X el μ₀ g) = .ok x) (hx0 : 0 < x) (hx1 : x < 1) (j₀ : oenergyPerAtom X (toOpen X el μ₀ g) = .ok y₀)
    (j₁ : oenergyPerAtom X (toOpen X el μ₁ g) = .ok y₁) (l₀ : LowerCorner h₀.coords (x, y₀)) (l₁ : LowerCorner h₁.coords (x, y₁)) :
    ∃ i₀ i₁ i y v₀ v₁ v, (h₀.coords[i₀]? = some (x, y₀) ∧ getSecondaryCompetitionMaxEnergy ⟨h₀.coords, w₀⟩ i₀ = some v₀) ∧
      (h₁.coords[i₁]? = some (x, y₁) ∧ getSecondaryCompetitionMaxEnergy ⟨h₁.coords, w₁⟩ i₁ = some v₁) ∧
      (oenergyPerAtom X (toOpen X el ((1 - t) * μ₀ + t * μ₁) g) = .ok y ∧ h.coords[i]? = some (x, y) ∧
        getSecondaryCompetitionMaxEnergy ⟨h.coords, w⟩ i = some v) ∧ v ≤ (1 - t) * v₀ + t * v₁ := by
  obtain ⟨P, Q, R, I₀, I₁, I, Bl, f₀, f₁, f₂, c₀, m₀, c₁, m₁, c, m, S, e₀, e₁, e⟩ :=
    tracked X hX A B el gs μ₀ μ₁ t h₀ h₁ h H₀ H₁ H w₀ w₁ w q₀ q₁ q g hg
  have hx : c.1 = x := by rw [← S.1]; exact Except.ok.inj (e₀.1.symm.trans k₀)
  have g₀ : (x, y₀) = c₀ := Prod.ext (by rw [← hx, S.1]) (Except.ok.inj (j₀.symm.trans e₀.2))
  have g₁ : (x, y₁) = c₁ := Prod.ext (by rw [← hx, S.2.1]) (Except.ok.inj (j₁.symm.trans e₁.2))
  have flat : ∀ {μ : ℚ} {P : List (ℚ × ℚ)}, Points X A B el μ gs P →
      (∀ g ∈ gs, ∀ x y, coordOpen X A B (toOpen X el μ g) = .ok x → oenergyPerAtom X (toOpen X el μ g) = .ok y → x = 0 ∨ x = 1 → 0 ≤ y) →
      ∀ p ∈ P, p.1 = 0 ∨ p.1 = 1 → 0 ≤ p.2 := by
    intro μ P f z p hp he
    obtain ⟨g, hg, h1, h2⟩ := origin f p hp
    exact z g hg _ _ h1 h2 he
  obtain ⟨i₀, n₀⟩ := List.mem_iff_getElem?.mp m₀
  obtain ⟨i₁, n₁⟩ := List.mem_iff_getElem?.mp m₁
  obtain ⟨i, n⟩ := List.mem_iff_getElem?.mp m
  obtain ⟨v₀, v₁, v, r₀, r₁, r, hv⟩ := C165_secondary_max_partial ht0 ht1 I₀ I₁ I (range u f₀) (range u f₁) (range u f₂) a₀ a₁ a Bl (flat f₀ z₀) (flat f₁ z₁)
    i₀ i₁ i c₀ c₁ c n₀ n₁ n S (hx ▸ hx0) (hx ▸ hx1) (g₀ ▸ l₀) (g₁ ▸ l₁)
  refine ⟨i₀, i₁, i, c.2, v₀, v₁, v, ⟨by rw [n₀, g₀], r₀⟩, ⟨by rw [n₁, g₁], r₁⟩, ⟨e.2, ?_, r⟩, hv⟩
  rw [n, ← hx]
end

/-! ### Example: B next to AB in contact with a reservoir of A, forming A2B in two proportions -/

def exHalf : CRxn (Fin 4) := cinit exChem [⟨1, 0⟩, ⟨2, -1⟩, ⟨0, 0⟩, ⟨3, -5⟩] [-1, -1, -3, 2] [] none
def exQuarter : CRxn (Fin 4) := cinit exChem [⟨1, 0⟩, ⟨2, -1⟩, ⟨0, 0⟩, ⟨3, -5⟩] [-3, -1, -7, 4] [] none
def exTwo : List (CRxn (Fin 4)) := [exHalf, exQuarter]
def exPts (μ : ℚ) : List (ℚ × ℚ) := [(0, 0), (1/4, -19/4 - 7/4 * μ), (1/2, -9/2 - 3/2 * μ), (1, 0)]

theorem exTwo_hull (μ : ℚ) (hμ : μ ∈ [(-1 : ℚ), 0, 1]) : ∃ h, HullOfOpen exChem ⟨1, 0⟩ ⟨2, -1⟩ (exTwo.map (toOpen exChem ['A'] μ)) h ∧ h.coords = exPts μ := by
  obtain ⟨h, k, hp⟩ := Verif.Props.Gibbs.ok_of (x := hullInit reactantsOf (fun e : Entry (Fin 4) => exChem.red e.comp) (coordOpen exChem ⟨1, 0⟩ ⟨2, -1⟩)
    (oenergyPerAtom exChem) (fun _ => toOpen exChem ['A'] 0 exHalf) Verif.Props.HullInit.exArgsort 1 2 (exTwo.map (toOpen exChem ['A'] μ)))
    (fun h => decide (h.coords = exPts μ)) (by
      revert μ
      decide +kernel)
  exact ⟨h, ⟨_, _, Verif.Props.HullInit.exArgsort_sorts, k⟩, of_decide_eq_true hp⟩

theorem exTwo_corners (μ : ℚ) (hμ : μ ∈ [(-1 : ℚ), 0, 1]) : HullIndices (exPts μ) [0, 1, 2, 3] := by
  refine ⟨by decide, ?_, ?_, by revert μ; decide +kernel⟩
  · intro i hi
    simp only [List.mem_cons, List.not_mem_nil, or_false] at hi
    rcases hi with rfl | rfl | rfl | rfl
    · exact ⟨(0, 0), rfl, by simp [exPts], -1, 0, by revert μ; decide +kernel⟩
    · exact ⟨_, rfl, by simp [exPts], -5, -1, by revert μ; decide +kernel⟩
    · exact ⟨_, rfl, by simp [exPts], 4, -1, by revert μ; decide +kernel⟩
    · exact ⟨(1, 0), rfl, by simp [exPts], 1, 0, by revert μ; decide +kernel⟩
  · rintro p ⟨hp, -⟩
    simp only [exPts, List.mem_cons, List.not_mem_nil, or_false] at hp
    rcases hp with rfl | rfl | rfl | rfl
    · exact ⟨0, by decide, rfl⟩
    · exact ⟨1, by decide, rfl⟩
    · exact ⟨2, by decide, rfl⟩
    · exact ⟨3, by decide, rfl⟩

theorem exTwo_apart (μ : ℚ) (hμ : μ ∈ [(-1 : ℚ), 0, 1]) : Apart' (exPts μ) := apart_of_list (by revert μ; decide +kernel) (by revert μ; decide +kernel)

theorem exMid : ((1 - 1 / 2) * (-1) + 1 / 2 * 1 : ℚ) = 0 := by norm_num

/-- All parts at the potentials -1, 0 and 1. -/
example : ∃ h₀ h₁ h : Built (ORxn (Fin 4) Sym), h₀.coords = exPts (-1) ∧ h₁.coords = exPts 1 ∧ h.coords = exPts 0 ∧
    (∃ x y₀ y₁ y v₀ v₁ v, (oenergyPerAtom exChem (toOpen exChem ['A'] (-1) exHalf) = .ok y₀ ∧ getPrimaryCompetition ⟨h₀.coords, [0, 1, 2, 3]⟩ y₀ x = some v₀) ∧
      (oenergyPerAtom exChem (toOpen exChem ['A'] 1 exHalf) = .ok y₁ ∧ getPrimaryCompetition ⟨h₁.coords, [0, 1, 2, 3]⟩ y₁ x = some v₁) ∧
      getPrimaryCompetition ⟨h.coords, [0, 1, 2, 3]⟩ y x = some v ∧ v ≤ (1 - 1 / 2) * v₀ + 1 / 2 * v₁) ∧
    LowerCorner h.coords (1/2, -9/2) ∧
    (∃ i₀ i₁ i v₀ v₁ v, getEnergyAboveHull ⟨h₀.coords, [0, 1, 2, 3]⟩ i₀ = some v₀ ∧ getEnergyAboveHull ⟨h₁.coords, [0, 1, 2, 3]⟩ i₁ = some v₁ ∧
      getEnergyAboveHull ⟨h.coords, [0, 1, 2, 3]⟩ i = some v ∧ v ≤ (1 - 1 / 2) * v₀ + 1 / 2 * v₁) ∧
    ∃ i₀ i₁ i v₀ v₁ v, getSecondaryCompetitionMaxEnergy ⟨h₀.coords, [0, 1, 2, 3]⟩ i₀ = some v₀ ∧
      getSecondaryCompetitionMaxEnergy ⟨h₁.coords, [0, 1, 2, 3]⟩ i₁ = some v₁ ∧ getSecondaryCompetitionMaxEnergy ⟨h.coords, [0, 1, 2, 3]⟩ i = some v ∧
      v ≤ (1 - 1 / 2) * v₀ + 1 / 2 * v₁ := by
  obtain ⟨h₀, H₀, c₀⟩ := exTwo_hull (-1) (by simp)
  obtain ⟨h₁, H₁, c₁⟩ := exTwo_hull 1 (by simp)
  obtain ⟨h, H, c⟩ := exTwo_hull 0 (by simp)
  rw [← exMid] at H
  have q₀ : HullIndices h₀.coords [0, 1, 2, 3] := c₀ ▸ exTwo_corners (-1) (by simp)
  have q₁ : HullIndices h₁.coords [0, 1, 2, 3] := c₁ ▸ exTwo_corners 1 (by simp)
  have q : HullIndices h.coords [0, 1, 2, 3] := c ▸ exTwo_corners 0 (by simp)
  have b0 : (0 : ℚ) ≤ 1 / 2 := by norm_num
  have b1 : (1 : ℚ) / 2 ≤ 1 := by norm_num
  have hg : exHalf ∈ exTwo := by simp [exTwo]
  have k : coordOpen exChem ⟨1, 0⟩ ⟨2, -1⟩ (toOpen exChem ['A'] (-1) exHalf) = .ok (1/2) := by decide +kernel
  have sep : ∀ μ ∈ [(-1 : ℚ), 0, 1], ∀ p ∈ exPts μ, isclose (1/2) p.1 = true → 1/2 = p.1 := by decide +kernel
  have e1 : coordOpen exChem ⟨1, 0⟩ ⟨2, -1⟩ (toOpen exChem ['A'] (-1) exQuarter) = .ok (1/4) := by decide +kernel
  have place : ∀ g ∈ exTwo, ∀ μ x, coordOpen exChem ⟨1, 0⟩ ⟨2, -1⟩ (toOpen exChem ['A'] μ g) = .ok x → x = 1/2 ∨ x = 1/4 := by
    intro g hg μ x hx
    rw [coord_same exChem _ _ _ μ (-1)] at hx
    simp only [exTwo, List.mem_cons, List.not_mem_nil, or_false] at hg
    rcases hg with rfl | rfl
    · rw [k] at hx; exact Or.inl (Except.ok.inj hx).symm
    · rw [e1] at hx; exact Or.inr (Except.ok.inj hx).symm
  have u : ∀ g ∈ exTwo, ∀ x, coordOpen exChem ⟨1, 0⟩ ⟨2, -1⟩ (toOpen exChem ['A'] (-1) g) = .ok x → 0 ≤ x ∧ x ≤ 1 := by
    intro g hg x hx
    rcases place g hg _ x hx with rfl | rfl <;> norm_num
  have z : ∀ μ, ∀ g ∈ exTwo, ∀ x y, coordOpen exChem ⟨1, 0⟩ ⟨2, -1⟩ (toOpen exChem ['A'] μ g) = .ok x →
      oenergyPerAtom exChem (toOpen exChem ['A'] μ g) = .ok y → x = 0 ∨ x = 1 → 0 ≤ y := by
    intro μ g hg x y hx _ he
    rcases place g hg _ x hx with rfl | rfl <;> norm_num at he
  have l₀ : LowerCorner h₀.coords (1/2, -3) := by rw [c₀]; exact ⟨by decide +kernel, 4, by decide +kernel⟩
  have l₁ : LowerCorner h₁.coords (1/2, -6) := by rw [c₁]; exact ⟨by decide +kernel, 4, by decide +kernel⟩
  refine ⟨h₀, h₁, h, c₀, c₁, c, ?_, ?_, ?_, ?_⟩
  · obtain ⟨x, y₀, y₁, y, v₀, v₁, v, r₀, r₁, r, hv⟩ := C166_primary exChem exLawful _ _ ['A'] exTwo (-1) 1 (1 / 2) b0 b1 h₀ h₁ h H₀ H₁ H _ _ _ q₀ q₁ q exHalf hg
    exact ⟨x, y₀, y₁, y, v₀, v₁, v, r₀.2, r₁.2, r.2.2, hv⟩
  · refine C166_stable exChem exLawful _ _ ['A'] exTwo (-1) 1 (1 / 2) b0 b1 h₀ h₁ h H₀ H₁ H _ _ _ q₀ q₁ q exHalf hg (1/2) (-3) (-6) (-9/2) k
      (by decide +kernel) (by decide +kernel) (by rw [exMid]; decide +kernel) l₀ l₁
  · obtain ⟨i₀, i₁, i, y₀, y₁, y, v₀, v₁, v, r₀, r₁, r, hv⟩ := C166_above_hull exChem exLawful _ _ ['A'] exTwo (-1) 1 (1 / 2) b0 b1 h₀ h₁ h H₀ H₁ H _ _ _ q₀ q₁ q
      exHalf hg u
      (c₀ ▸ exTwo_apart (-1) (by simp)) (c₁ ▸ exTwo_apart 1 (by simp)) (c ▸ exTwo_apart 0 (by simp)) (1/2) k
      (fun p hp => sep (-1) (by simp) p (c₀ ▸ hp.1)) (fun p hp => sep 1 (by simp) p (c₁ ▸ hp.1)) (fun p hp => sep 0 (by simp) p (c ▸ hp.1))
    exact ⟨i₀, i₁, i, v₀, v₁, v, r₀.2.2, r₁.2.2, r.2.2, hv⟩
  · obtain ⟨i₀, i₁, i, y, v₀, v₁, v, r₀, r₁, r, hv⟩ := C166_secondary_max exChem exLawful _ _ ['A'] exTwo (-1) 1 (1 / 2) b0 b1 h₀ h₁ h H₀ H₁ H _ _ _ q₀ q₁ q
      exHalf hg u (c₀ ▸ exTwo_apart (-1) (by simp)) (c₁ ▸ exTwo_apart 1 (by simp)) (c ▸ exTwo_apart 0 (by simp)) (z _) (z _) (1/2) (-3) (-6) k (by norm_num)
      (by norm_num) (by decide +kernel) (by decide +kernel) l₀ l₁
    exact ⟨i₀, i₁, i, v₀, v₁, v, r₀.2, r₁.2, r.2.2, hv⟩

end Verif.Props.OpenScore
