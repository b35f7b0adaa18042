import Verif.Props.GroundStateOpen
import Verif.Lemmas.HullExample

/-! Property C157: how an interface responds to the chemical potential of an open element (src/rxn_network/reactions/open.py:28-150,
src/rxn_network/reactions/hull.py:25-140). -/

set_option linter.unusedSectionVars false

namespace Verif.Props.OpenWindow
open Verif.Py Verif.Model Verif.Model.Enum Verif.Model.Reaction Verif.Spec.Reaction Verif.Lemmas Verif.Lemmas.Exc Verif.Props.Enum
  Verif.Props.EnumGroup Verif.Props.EnumComplete Verif.Props.EnumExact Verif.Props.EnumOpenExact Verif.Props.GroundStateOpen
open Verif.Model.Hull (hullInit Built getHullEnergy)
open Verif.Props.HullConvex (LowerCorner Envelope Apart')
open Verif.Props.HullInit (SortsBy)
open Verif.Spec.Hull (HullIndices)
open Verif.Props.GroundState (OneEach Admits)

variable {κ : Type} [DecidableEq κ]

/-- Amount of `el` that the reaction binds in phases other than the pure element (negative: sets free). -/
noncomputable def uptake (X : Chem κ Sym) (el : Sym) (g : CRxn κ) : ℚ :=
  open Classical in
  ((((g.entries.map fun e => X.red e.comp).zip g.base.coeffs).filter fun p => ¬ PureOpen X [el] p.1).map fun p => p.2 * X.amt p.1 el).sum

/-- Atoms, not counting those of `el`, per unit of reaction. -/
def atoms (X : Chem κ Sym) (el : Sym) (g : CRxn κ) : ℚ :=
  numAtoms X ((elements X (g.entries.map fun e => X.red e.comp)).filter fun e => e ∉ [el]) (g.entries.map fun e => X.red e.comp) g.base.coeffs

theorem epa_eq (X : Chem κ Sym) (hX : X.Lawful) (el : Sym) (g : CRxn κ) : ∃ E : ℚ, ∀ μ,
    oenergyPerAtom X (toOpen X el μ g) = if atoms X el g = 0 then .error .nonFinite else .ok ((E - μ * uptake X el g) / atoms X el g) := by
  classical
  obtain ⟨f, hf, -⟩ := Verif.Props.Reaction.C17_energy_formula X g.entries g.base.coeffs g.base.data g.base.lne
  refine ⟨(((g.entries.map fun e => X.red e.comp).zip g.base.coeffs).map fun p => p.2 * f p.1).sum, fun μ => ?_⟩
  · have h := Verif.Props.Reaction.C19_grand_potential X hX g.entries g.base.coeffs [(el, μ)] g.base.data g.base.lne
    simp only at h
    rw [hf] at h
    have h' : oenergy X (toOpen X el μ g) = .ok ((((g.entries.map fun e => X.red e.comp).zip g.base.coeffs).map fun p => p.2 * f p.1).sum
        - μ * uptake X el g) := by
      unfold toOpen
      rw [h]
      show Except.ok _ = Except.ok _
      congr 2
      simp only [List.map_cons, List.map_nil, List.sum_cons, List.sum_nil, add_zero]
      congr 1
    have hn : numAtoms X (oelements X (toOpen X el μ g)) (toOpen X el μ g).base.comps (toOpen X el μ g).base.coeffs = atoms X el g := by
      unfold atoms oelements toOpen
      simp [oinit, Verif.Model.Reaction.init]
    unfold oenergyPerAtom
    rw [h', hn]
    rfl

theorem atoms_nonneg (X : Chem κ Sym) (hX : X.Lawful) (el : Sym) (g : CRxn κ) : 0 ≤ atoms X el g := by
  unfold atoms numAtoms
  apply List.sum_nonneg
  intro v hv
  obtain ⟨p, hp, rfl⟩ := List.mem_map.mp hv
  have hp := Verif.Lemmas.Dict.mem_dictOf _ _ hp
  refine mul_nonneg (le_of_lt (by simpa using (List.mem_filter.mp hp).2)) (List.sum_nonneg ?_)
  intro v hv
  obtain ⟨s, -, rfl⟩ := List.mem_map.mp hv
  exact hX.nonneg _ _

/-! ### One reaction -/

/-- The energy per atom of an open reaction is a straight line in the potential, falling by what the reaction binds of the element per atom that is not
exchanged; if there is no such atom it is undefined at every potential. -/
theorem C157_reaction (X : Chem κ Sym) (hX : X.Lawful) (el : Sym) (g : CRxn κ) :
    (atoms X el g = 0 → ∀ μ, oenergyPerAtom X (toOpen X el μ g) = .error .nonFinite) ∧
    (atoms X el g ≠ 0 → ∃ a, ∀ μ, oenergyPerAtom X (toOpen X el μ g) = .ok (a - μ * (uptake X el g / atoms X el g))) := by
  obtain ⟨E, hE⟩ := epa_eq X hX el g
  refine ⟨fun h μ => by rw [hE, if_pos h], fun h => ⟨E / atoms X el g, fun μ => ?_⟩⟩
  rw [hE, if_neg h]
  congr 1
  field_simp

/-- A reaction that binds or frees the element reverses at exactly one potential: above it the reaction that binds the element releases energy, below it the
one that frees it. -/
theorem C157_crossover (X : Chem κ Sym) (hX : X.Lawful) (el : Sym) (g : CRxn κ) (ha : atoms X el g ≠ 0) (hu : uptake X el g ≠ 0) :
    ∃ μ₀, ∀ μ, ∃ e, oenergyPerAtom X (toOpen X el μ g) = .ok e ∧ (e = 0 ↔ μ = μ₀) ∧
      (e < 0 ↔ if 0 < uptake X el g then μ₀ < μ else μ < μ₀) := by
  obtain ⟨a, h⟩ := (C157_reaction X hX el g).2 ha
  have hpos : 0 < atoms X el g := lt_of_le_of_ne (atoms_nonneg X hX el g) (Ne.symm ha)
  set n := uptake X el g / atoms X el g with hn
  have hn0 : n ≠ 0 := div_ne_zero hu ha
  refine ⟨a / n, fun μ => ⟨_, h μ, ?_, ?_⟩⟩
  · rw [sub_eq_zero, eq_div_iff hn0]
    exact eq_comm
  · rw [sub_neg]
    split_ifs with hup
    · have hnp : 0 < n := div_pos hup hpos
      rw [div_lt_iff₀ hnp]
    · have hnn : n < 0 := div_neg_of_neg_of_pos (lt_of_le_of_ne (not_lt.mp hup) hu) hpos
      rw [lt_div_iff_of_neg hnn]

/-! ### The hull of an interface -/

theorem mem_coords (X : Chem κ Sym) (A B : Entry κ) (os : List (ORxn κ Sym)) (h : Built (ORxn κ Sym)) (hh : HullOfOpen X A B os h) (q : ℚ × ℚ) :
    q ∈ h.coords ↔ (∃ o ∈ os, coordOpen X A B o = .ok q.1 ∧ oenergyPerAtom X o = .ok q.2) ∨ q = (0, 0) ∨ q = (1, 0) := by
  obtain ⟨ident, argsort, hs, hh⟩ := hh
  obtain ⟨a, b, pts, -, -, -, -, hf, -, -, -, hp, -⟩ := Verif.Props.HullInit.C92_aligned _ _ _ _ _ _ hs _ _ _ _ hh
  rw [hp.mem_iff, List.mem_append]
  simp only [List.mem_cons, List.not_mem_nil, or_false]
  refine or_congr_left ?_
  clear hp hh
  induction hf with
  | nil => simp
  | @cons o p os pts h _ ih =>
    rw [List.mem_cons, ih]
    constructor
    · rintro (rfl | ⟨o', ho', h'⟩)
      · exact ⟨o, by simp, h⟩
      · exact ⟨o', by simp [ho'], h'⟩
    · rintro ⟨o', ho', h1, h2⟩
      rcases List.mem_cons.mp ho' with rfl | ho'
      · left
        rw [h.1] at h1
        rw [h.2] at h2
        exact Prod.ext (Except.ok.inj h1).symm (Except.ok.inj h2).symm
      · exact Or.inr ⟨o', ho', h1, h2⟩

theorem coord_same (X : Chem κ Sym) (A B : Entry κ) (el : Sym) (μ μ' : ℚ) (g : CRxn κ) :
    coordOpen X A B (toOpen X el μ g) = coordOpen X A B (toOpen X el μ' g) := rfl

/-- Whether the hull of given reactions can be built does not depend on the potential. -/
theorem C157_builds (X : Chem κ Sym) (hX : X.Lawful) (A B : Entry κ) (el : Sym) (gs : List (CRxn κ)) (μ μ' : ℚ)
    (h : Built (ORxn κ Sym)) (hh : HullOfOpen X A B (gs.map (toOpen X el μ)) h) : ∃ h', HullOfOpen X A B (gs.map (toOpen X el μ')) h' := by
  obtain ⟨ident, argsort, hs, hh⟩ := hh
  have hr := Verif.Props.HullInit.C92_raises reactantsOf (fun e : Entry κ => X.red e.comp) (coordOpen X A B) (oenergyPerAtom X) ident argsort
    (X.red A.comp) (X.red B.comp) (gs.map (toOpen X el μ))
  have hr' := Verif.Props.HullInit.C92_raises reactantsOf (fun e : Entry κ => X.red e.comp) (coordOpen X A B) (oenergyPerAtom X) ident argsort
    (X.red A.comp) (X.red B.comp) (gs.map (toOpen X el μ'))
  have hb : Verif.Props.HullInit.BothOccur reactantsOf (fun e : Entry κ => X.red e.comp) (X.red A.comp) (X.red B.comp) (gs.map (toOpen X el μ)) := by
    by_contra hc
    rw [hr.1 hc] at hh
    cases hh
  have hb' : Verif.Props.HullInit.BothOccur reactantsOf (fun e : Entry κ => X.red e.comp) (X.red A.comp) (X.red B.comp) (gs.map (toOpen X el μ')) := by
    obtain ⟨h1, ⟨r, hr, h2⟩, r', hr', h3⟩ := hb
    obtain ⟨g, hg, rfl⟩ := List.mem_map.mp hr
    obtain ⟨g', hg', rfl⟩ := List.mem_map.mp hr'
    exact ⟨h1, ⟨_, List.mem_map.mpr ⟨g, hg, rfl⟩, h2⟩, _, List.mem_map.mpr ⟨g', hg', rfl⟩, h3⟩
  have hall := (hr.2 hb).1.mp ⟨h, hh⟩
  obtain ⟨h', hh'⟩ := (hr'.2 hb').1.mpr (by
    intro r hr
    obtain ⟨g, hg, rfl⟩ := List.mem_map.mp hr
    obtain ⟨⟨x, hx⟩, y, hy⟩ := hall _ (List.mem_map.mpr ⟨g, hg, rfl⟩)
    refine ⟨⟨x, hx⟩, ?_⟩
    by_cases ha : atoms X el g = 0
    · rw [(C157_reaction X hX el g).1 ha] at hy
      cases hy
    · obtain ⟨a, h⟩ := (C157_reaction X hX el g).2 ha
      exact ⟨_, h μ'⟩)
  exact ⟨h', ident, argsort, hs, hh'⟩

/-- A point of the hull at one potential is, on the same reaction, a point at the same coordinate at every other potential. -/
theorem track (X : Chem κ Sym) (hX : X.Lawful) (A B : Entry κ) (el : Sym) (gs : List (CRxn κ)) (μ : ℚ)
    (h : Built (ORxn κ Sym)) (hh : HullOfOpen X A B (gs.map (toOpen X el μ)) h) (q : ℚ × ℚ) (hq : q ∈ h.coords) :
    ∃ n : ℚ, (n = 0 ∨ ∃ g ∈ gs, atoms X el g ≠ 0 ∧ n = uptake X el g / atoms X el g) ∧
      ∀ μ' h', HullOfOpen X A B (gs.map (toOpen X el μ')) h' → (q.1, q.2 + (μ - μ') * n) ∈ h'.coords := by
  rcases (mem_coords X A B _ h hh q).mp hq with ⟨o, ho, h1, h2⟩ | rfl | rfl
  · obtain ⟨g, hg, rfl⟩ := List.mem_map.mp ho
    by_cases ha : atoms X el g = 0
    · rw [(C157_reaction X hX el g).1 ha] at h2
      cases h2
    · obtain ⟨a, hl⟩ := (C157_reaction X hX el g).2 ha
      refine ⟨_, Or.inr ⟨g, hg, ha, rfl⟩, fun μ' h' hh' => (mem_coords X A B _ h' hh' _).mpr (Or.inl ⟨_, List.mem_map.mpr ⟨g, hg, rfl⟩, h1, ?_⟩)⟩
      rw [hl] at h2 ⊢
      have h2 := Except.ok.inj h2
      rw [← h2]
      congr 1
      ring
  · exact ⟨0, Or.inl rfl, fun μ' h' hh' => by simpa using (mem_coords X A B _ h' hh' (0, 0)).mpr (by simp)⟩
  · exact ⟨0, Or.inl rfl, fun μ' h' hh' => by simpa using (mem_coords X A B _ h' hh' (1, 0)).mpr (by simp)⟩

/-- **Concavity.** At a potential between two others the hull energy at any ratio is at least the value interpolated between the two. -/
theorem C157_concave (X : Chem κ Sym) (hX : X.Lawful) (A B : Entry κ) (el : Sym) (gs : List (CRxn κ)) (μ₀ μ₁ t : ℚ) (ht0 : 0 ≤ t) (ht1 : t ≤ 1)
    (h₀ h₁ h : Built (ORxn κ Sym)) (H₀ : HullOfOpen X A B (gs.map (toOpen X el μ₀)) h₀) (H₁ : HullOfOpen X A B (gs.map (toOpen X el μ₁)) h₁)
    (H : HullOfOpen X A B (gs.map (toOpen X el ((1 - t) * μ₀ + t * μ₁))) h) (x y₀ y₁ y : ℚ) (e₀ : Envelope h₀.coords x y₀) (e₁ : Envelope h₁.coords x y₁)
    (e : Envelope h.coords x y) : (1 - t) * y₀ + t * y₁ ≤ y := by
  obtain ⟨⟨s₀, c₀, hs₀, rfl⟩, -⟩ := e₀
  obtain ⟨⟨s₁, c₁, hs₁, rfl⟩, -⟩ := e₁
  have := e.2 ((1 - t) * s₀ + t * s₁) ((1 - t) * c₀ + t * c₁) fun q hq => by
    obtain ⟨n, -, hn⟩ := track X hX A B el gs _ h H q hq
    have a0 := hs₀ _ (hn μ₀ h₀ H₀)
    have a1 := hs₁ _ (hn μ₁ h₁ H₁)
    simp only at a0 a1
    have b0 := mul_le_mul_of_nonneg_left a0 (sub_nonneg.mpr ht1)
    have b1 := mul_le_mul_of_nonneg_left a1 ht0
    nlinarith
  nlinarith

/-- **Window.** The potentials at which no reaction of an interface releases energy form an interval. -/
theorem C157_window (X : Chem κ Sym) (hX : X.Lawful) (A B : Entry κ) (el : Sym) (gs : List (CRxn κ)) (μ₀ μ μ₁ : ℚ) (hμ₀ : μ₀ ≤ μ) (hμ₁ : μ ≤ μ₁)
    (h₀ h₁ h : Built (ORxn κ Sym)) (H₀ : HullOfOpen X A B (gs.map (toOpen X el μ₀)) h₀) (H₁ : HullOfOpen X A B (gs.map (toOpen X el μ₁)) h₁)
    (H : HullOfOpen X A B (gs.map (toOpen X el μ)) h) (i₀ : ∀ p ∈ h₀.coords, 0 ≤ p.2) (i₁ : ∀ p ∈ h₁.coords, 0 ≤ p.2) : ∀ p ∈ h.coords, 0 ≤ p.2 := by
  intro p hp
  obtain ⟨n, -, hn⟩ := track X hX A B el gs _ h H p hp
  have a0 := i₀ _ (hn μ₀ h₀ H₀)
  have a1 := i₁ _ (hn μ₁ h₁ H₁)
  simp only at a0 a1
  rcases le_total 0 n with h | h
  · have := mul_nonneg (sub_nonneg.mpr hμ₁) h
    linarith
  · have := mul_nonneg_of_nonpos_of_nonpos (sub_nonpos.mpr hμ₀) h
    have : (μ₀ - μ) * n ≥ 0 := this
    linarith

/-- **Monotonicity.** If the reactions only bind the element, raising its potential never raises the hull, and an interface that reacts keeps reacting. -/
theorem C157_monotone (X : Chem κ Sym) (hX : X.Lawful) (A B : Entry κ) (el : Sym) (gs : List (CRxn κ)) (hup : ∀ g ∈ gs, 0 ≤ uptake X el g) (μ₀ μ₁ : ℚ)
    (hμ : μ₀ ≤ μ₁) (h₀ h₁ : Built (ORxn κ Sym)) (H₀ : HullOfOpen X A B (gs.map (toOpen X el μ₀)) h₀)
    (H₁ : HullOfOpen X A B (gs.map (toOpen X el μ₁)) h₁) :
    (∀ x y₀ y₁, Envelope h₀.coords x y₀ → Envelope h₁.coords x y₁ → y₁ ≤ y₀) ∧ ((∃ p ∈ h₀.coords, p.2 < 0) → ∃ p ∈ h₁.coords, p.2 < 0) := by
  have key : ∀ q ∈ h₀.coords, ∃ q' ∈ h₁.coords, q'.1 = q.1 ∧ q'.2 ≤ q.2 := by
    intro q hq
    obtain ⟨n, hn, hm⟩ := track X hX A B el gs _ h₀ H₀ q hq
    refine ⟨_, hm μ₁ h₁ H₁, rfl, ?_⟩
    have hn0 : 0 ≤ n := by
      rcases hn with rfl | ⟨g, hg, -, rfl⟩
      · exact le_rfl
      · exact div_nonneg (hup g hg) (atoms_nonneg X hX el g)
    have := mul_nonneg (sub_nonneg.mpr hμ) hn0
    simp only
    linarith
  refine ⟨?_, ?_⟩
  · rintro x y₀ y₁ e₀ ⟨⟨s, c, hs, rfl⟩, -⟩
    refine e₀.2 s c fun q hq => ?_
    obtain ⟨q', hq', h1, h2⟩ := key q hq
    have := hs q' hq'
    rw [h1] at this
    linarith
  · rintro ⟨q, hq, hlt⟩
    obtain ⟨q', hq', -, h2⟩ := key q hq
    exact ⟨q', hq', lt_of_le_of_lt h2 hlt⟩

/-! ### Enumerated reactions -/

section
variable {X : Chem κ Sym} {cfg : Cfg (Entry κ)} {entries : List (Entry κ)} {n : ℤ} {el : Sym} {μ₀ μ₁ μ : ℚ} {O A B : Entry κ}
  {out out' : List (Rx (Entry κ))} {gs : List (CRxn κ)} {h₀ h₁ h : Built (ORxn κ Sym)}

/-- The value the hull object reports is concave in the potential. -/
theorem C157_hull_energy {t : ℚ} (ht0 : 0 ≤ t) (ht1 : t ≤ 1) (S₀ : OpenSetup X cfg entries n el μ₀ O A B out out' gs h₀)
    (S₁ : OpenSetup X cfg entries n el μ₁ O A B out out' gs h₁) (S : OpenSetup X cfg entries n el ((1 - t) * μ₀ + t * μ₁) O A B out out' gs h)
    (raw₀ raw₁ raw : List ℕ) (I₀ : HullIndices h₀.coords raw₀) (I₁ : HullIndices h₁.coords raw₁) (I : HullIndices h.coords raw)
    (a₀ : Apart' h₀.coords) (a₁ : Apart' h₁.coords) (a : Apart' h.coords) (x : ℚ) (hx0 : 0 ≤ x) (hx1 : x ≤ 1)
    (sep₀ : ∀ p, LowerCorner h₀.coords p → isclose x p.1 = true → x = p.1) (sep₁ : ∀ p, LowerCorner h₁.coords p → isclose x p.1 = true → x = p.1)
    (sep : ∀ p, LowerCorner h.coords p → isclose x p.1 = true → x = p.1) :
    ∃ y₀ y₁ y, getHullEnergy ⟨h₀.coords, raw₀⟩ x = some y₀ ∧ getHullEnergy ⟨h₁.coords, raw₁⟩ x = some y₁ ∧
      getHullEnergy ⟨h.coords, raw⟩ x = some y ∧ (1 - t) * y₀ + t * y₁ ≤ y := by
  obtain ⟨y₀, g₀, e₀, -⟩ := C139_attained S₀ raw₀ I₀ a₀ x hx0 hx1 sep₀
  obtain ⟨y₁, g₁, e₁, -⟩ := C139_attained S₁ raw₁ I₁ a₁ x hx0 hx1 sep₁
  obtain ⟨y, g, e, -⟩ := C139_attained S raw I a x hx0 hx1 sep
  exact ⟨y₀, y₁, y, g₀, g₁, g, C157_concave X S.phases.lawful A B el gs μ₀ μ₁ t ht0 ht1 h₀ h₁ h S₀.hull S₁.hull S.hull x y₀ y₁ y e₀ e₁ e⟩

/-- **Stability window of an interface.** If no mixture of the two phases can release energy at two potentials of the reservoir, none can at a potential
between them. -/
theorem C157_stability_window (hμ₀ : μ₀ ≤ μ) (hμ₁ : μ ≤ μ₁) (S₀ : OpenSetup X cfg entries n el μ₀ O A B out out' gs h₀)
    (S₁ : OpenSetup X cfg entries n el μ₁ O A B out out' gs h₁) (S : OpenSetup X cfg entries n el μ O A B out out' gs h)
    (hO : OneEach X entries) (hA : Admits cfg A B) (hR : RoomyOpen X el A B n)
    (i₀ : ∀ x e, OpenMixes X (solids entries O) el (absolute X el O μ₀) A B x e → 0 ≤ e)
    (i₁ : ∀ x e, OpenMixes X (solids entries O) el (absolute X el O μ₁) A B x e → 0 ≤ e) :
    (∀ p ∈ h.coords, 0 ≤ p.2) ∧ ∀ x e, OpenMixes X (solids entries O) el (absolute X el O μ) A B x e → 0 ≤ e := by
  have c : ∀ {μ : ℚ} {h : Built (ORxn κ Sym)}, OpenSetup X cfg entries n el μ O A B out out' gs h →
      ((∀ p ∈ h.coords, 0 ≤ p.2) ↔ ∀ x e, OpenMixes X (solids entries O) el (absolute X el O μ) A B x e → 0 ≤ e) := by
    intro μ h S
    have := C139_inert S hO hA hR
    constructor
    · intro hp x e he
      by_contra hc
      obtain ⟨p, hp', hlt⟩ := this.mpr ⟨x, e, he, not_le.mp hc⟩
      exact absurd (hp p hp') (not_le.mpr hlt)
    · intro hm p hp
      by_contra hc
      obtain ⟨x, e, he, hlt⟩ := this.mp ⟨p, hp, not_le.mp hc⟩
      exact absurd (hm x e he) (not_le.mpr hlt)
  have hall := C157_window X S.phases.lawful A B el gs μ₀ μ μ₁ hμ₀ hμ₁ h₀ h₁ h S₀.hull S₁.hull S.hull ((c S₀).mpr i₀) ((c S₁).mpr i₁)
  exact ⟨hall, (c S).mp hall⟩
end

/-! ### Example: B next to AB in contact with a reservoir of A

The AB formed has the energy -1, the AB consumed -3, so that B takes up A only above the potential -1 and AB gives it off only below -3. -/

open Verif.Props.GroundState (eA eB eAB exOne exSum exAmounts amount)

def exForm : CRxn (Fin 4) := cinit exChem [⟨1, 0⟩, ⟨0, 0⟩, ⟨2, -1⟩] [-1, -1, 1] [] none
def exDecay : CRxn (Fin 4) := cinit exChem [⟨2, -3⟩, ⟨1, 0⟩, ⟨0, 0⟩] [-1, 1, 1] [] none
def exGs : List (CRxn (Fin 4)) := [exForm, exDecay]

theorem exPure (c : Fin 4) : PureOpen exChem [['A']] c ↔ exChem.elems c = [['A']] := by simp [PureOpen]

theorem exUptake : uptake exChem ['A'] exForm = 1 ∧ uptake exChem ['A'] exDecay = -1 := by
  classical
  unfold uptake
  constructor
  · rw [show List.filter (fun p : Fin 4 × ℚ => decide ¬PureOpen exChem [['A']] p.1) ((exForm.entries.map fun e => exChem.red e.comp).zip exForm.base.coeffs)
      = List.filter (fun p => decide (exChem.elems p.1 ≠ [['A']])) ((exForm.entries.map fun e => exChem.red e.comp).zip exForm.base.coeffs) from
        List.filter_congr fun p _ => by simp only [exPure]]
    decide +kernel
  · rw [show List.filter (fun p : Fin 4 × ℚ => decide ¬PureOpen exChem [['A']] p.1) ((exDecay.entries.map fun e => exChem.red e.comp).zip exDecay.base.coeffs)
      = List.filter (fun p => decide (exChem.elems p.1 ≠ [['A']])) ((exDecay.entries.map fun e => exChem.red e.comp).zip exDecay.base.coeffs) from
        List.filter_congr fun p _ => by simp only [exPure]]
    decide +kernel

theorem exAtoms : atoms exChem ['A'] exForm = 1 ∧ atoms exChem ['A'] exDecay = 1 := by decide +kernel

/-- The formation reverses at -1. -/
example : (∃ μ₀, ∀ μ, ∃ e, oenergyPerAtom exChem (toOpen exChem ['A'] μ exForm) = .ok e ∧ (e = 0 ↔ μ = μ₀) ∧ (e < 0 ↔ μ₀ < μ)) ∧
    oenergyPerAtom exChem (toOpen exChem ['A'] (-1) exForm) = .ok 0 ∧ oenergyPerAtom exChem (toOpen exChem ['A'] 0 exForm) = .ok (-1) := by
  refine ⟨?_, by decide +kernel, by decide +kernel⟩
  obtain ⟨μ₀, h⟩ := C157_crossover exChem exLawful ['A'] exForm (by rw [exAtoms.1]; norm_num) (by rw [exUptake.1]; norm_num)
  simp only [exUptake.1, zero_lt_one, if_true] at h
  exact ⟨μ₀, h⟩

/-- A reaction that only moves the open element has no energy per atom. -/
example : ∀ μ, oenergyPerAtom exChem (toOpen exChem ['A'] μ (cinit exChem [⟨0, 0⟩] [1] [] none)) = .error .nonFinite :=
  (C157_reaction exChem exLawful ['A'] _).1 (by decide +kernel)

theorem exHull (μ : ℚ) : ∃ h, HullOfOpen exChem ⟨1, 0⟩ ⟨2, -3⟩ (exGs.map (toOpen exChem ['A'] μ)) h := by
  have h0 : ∃ h, HullOfOpen exChem ⟨1, 0⟩ ⟨2, -3⟩ (exGs.map (toOpen exChem ['A'] 0)) h := by
    have := ((Verif.Props.HullInit.C92_raises reactantsOf (fun e : Entry (Fin 4) => exChem.red e.comp) (coordOpen exChem ⟨1, 0⟩ ⟨2, -3⟩)
      (oenergyPerAtom exChem) (fun _ => toOpen exChem ['A'] 0 exForm) Verif.Props.HullInit.exArgsort 1 2 (exGs.map (toOpen exChem ['A'] 0))).2 (by
        refine ⟨by decide, ⟨toOpen exChem ['A'] 0 exForm, by simp [exGs], ?_⟩, toOpen exChem ['A'] 0 exDecay, by simp [exGs], ?_⟩
        all_goals decide +kernel)).1.mpr (by
        intro r hr
        simp only [exGs, List.map_cons, List.map_nil, List.mem_cons, List.not_mem_nil, or_false] at hr
        rcases hr with rfl | rfl
        · exact ⟨⟨0, by decide +kernel⟩, -1, by decide +kernel⟩
        · exact ⟨⟨1, by decide +kernel⟩, 3, by decide +kernel⟩)
    obtain ⟨h, hh⟩ := this
    exact ⟨h, _, _, Verif.Props.HullInit.exArgsort_sorts, hh⟩
  obtain ⟨h, hh⟩ := h0
  exact C157_builds exChem exLawful _ _ ['A'] exGs 0 μ h hh

theorem exCoords (μ : ℚ) (h) (hh : HullOfOpen exChem ⟨1, 0⟩ ⟨2, -3⟩ (exGs.map (toOpen exChem ['A'] μ)) h) (q : ℚ × ℚ) :
    q ∈ h.coords ↔ q = (0, -1 - μ) ∨ q = (1, 3 + μ) ∨ q = (0, 0) ∨ q = (1, 0) := by
  have a1 : coordOpen exChem ⟨1, 0⟩ ⟨2, -3⟩ (toOpen exChem ['A'] μ exForm) = .ok 0 :=
    (coord_same exChem _ _ _ μ 0 exForm).trans (by decide +kernel)
  have a2 : coordOpen exChem ⟨1, 0⟩ ⟨2, -3⟩ (toOpen exChem ['A'] μ exDecay) = .ok 1 :=
    (coord_same exChem _ _ _ μ 0 exDecay).trans (by decide +kernel)
  have b1 : oenergyPerAtom exChem (toOpen exChem ['A'] μ exForm) = .ok (-1 - μ) := by
    obtain ⟨a, h⟩ := (C157_reaction exChem exLawful ['A'] exForm).2 (by rw [exAtoms.1]; norm_num)
    have h0 := h 0
    rw [show oenergyPerAtom exChem (toOpen exChem ['A'] 0 exForm) = .ok (-1) from by decide +kernel] at h0
    have h0 := Except.ok.inj h0
    rw [h, exUptake.1, exAtoms.1]
    congr 1
    linarith
  have b2 : oenergyPerAtom exChem (toOpen exChem ['A'] μ exDecay) = .ok (3 + μ) := by
    obtain ⟨a, h⟩ := (C157_reaction exChem exLawful ['A'] exDecay).2 (by rw [exAtoms.2]; norm_num)
    have h0 := h 0
    rw [show oenergyPerAtom exChem (toOpen exChem ['A'] 0 exDecay) = .ok 3 from by decide +kernel] at h0
    have h0 := Except.ok.inj h0
    rw [h, exUptake.2, exAtoms.2]
    congr 1
    linarith
  rw [mem_coords exChem _ _ _ h hh]
  simp only [exGs, List.map_cons, List.map_nil, List.mem_cons, List.not_mem_nil, or_false, exists_eq_or_imp, exists_eq_left, a1, a2, b1, b2,
    Except.ok.injEq, or_assoc]
  obtain ⟨a, b⟩ := q
  simp only [Prod.mk.injEq, @eq_comm ℚ 0 a, @eq_comm ℚ 1 a, @eq_comm ℚ _ b]

/-- The interface is inert at -3 and at -1, hence at all potentials between; it reacts at 0 and at -4. -/
example : (∀ μ, -3 ≤ μ → μ ≤ -1 → ∀ h, HullOfOpen exChem ⟨1, 0⟩ ⟨2, -3⟩ (exGs.map (toOpen exChem ['A'] μ)) h → ∀ p ∈ h.coords, 0 ≤ p.2) ∧
    (∀ h, HullOfOpen exChem ⟨1, 0⟩ ⟨2, -3⟩ (exGs.map (toOpen exChem ['A'] 0)) h → (0, -1) ∈ h.coords) ∧
    ∀ h, HullOfOpen exChem ⟨1, 0⟩ ⟨2, -3⟩ (exGs.map (toOpen exChem ['A'] (-4))) h → (1, -1) ∈ h.coords := by
  refine ⟨fun μ h1 h2 h H => ?_, fun h H => (exCoords 0 h H _).mpr (by norm_num), fun h H => (exCoords (-4) h H _).mpr (by norm_num)⟩
  obtain ⟨k₀, K₀⟩ := exHull (-3)
  obtain ⟨k₁, K₁⟩ := exHull (-1)
  refine C157_window exChem exLawful _ _ ['A'] exGs (-3) μ (-1) h1 h2 k₀ k₁ h K₀ K₁ H ?_ ?_
  · intro p hp
    rcases (exCoords _ _ K₀ p).mp hp with rfl | rfl | rfl | rfl <;> norm_num
  · intro p hp
    rcases (exCoords _ _ K₁ p).mp hp with rfl | rfl | rfl | rfl <;> norm_num

/-- Half way between the phases the hull is at -1/2 for the potentials -4 and 0 and at 0 for -2. -/
example : ∃ h₀ h₁ h, HullOfOpen exChem ⟨1, 0⟩ ⟨2, -3⟩ (exGs.map (toOpen exChem ['A'] (-4))) h₀ ∧
    HullOfOpen exChem ⟨1, 0⟩ ⟨2, -3⟩ (exGs.map (toOpen exChem ['A'] 0)) h₁ ∧
    HullOfOpen exChem ⟨1, 0⟩ ⟨2, -3⟩ (exGs.map (toOpen exChem ['A'] ((1 - 1 / 2) * -4 + 1 / 2 * 0))) h ∧
    Envelope h₀.coords (1 / 2) (-1 / 2) ∧ Envelope h₁.coords (1 / 2) (-1 / 2) ∧ Envelope h.coords (1 / 2) 0 ∧
    ((1 - 1 / 2) * (-1 / 2) + 1 / 2 * (-1 / 2) : ℚ) ≤ 0 := by
  obtain ⟨h₀, H₀⟩ := exHull (-4)
  obtain ⟨h₁, H₁⟩ := exHull 0
  obtain ⟨h, H⟩ := exHull ((1 - 1 / 2) * -4 + 1 / 2 * 0)
  have e₀ : Envelope h₀.coords (1 / 2) (-1 / 2) := by
    refine ⟨⟨-1, 0, fun q hq => ?_, by norm_num⟩, fun s c hs => ?_⟩
    · rcases (exCoords _ _ H₀ q).mp hq with rfl | rfl | rfl | rfl <;> norm_num
    · have a := hs _ ((exCoords _ _ H₀ _).mpr (Or.inr (Or.inl rfl)))
      have b := hs _ ((exCoords _ _ H₀ _).mpr (Or.inr (Or.inr (Or.inl rfl))))
      norm_num at a b ⊢
      linarith
  have e₁ : Envelope h₁.coords (1 / 2) (-1 / 2) := by
    refine ⟨⟨1, -1, fun q hq => ?_, by norm_num⟩, fun s c hs => ?_⟩
    · rcases (exCoords _ _ H₁ q).mp hq with rfl | rfl | rfl | rfl <;> norm_num
    · have a := hs _ ((exCoords _ _ H₁ _).mpr (Or.inl rfl))
      have b := hs _ ((exCoords _ _ H₁ _).mpr (Or.inr (Or.inr (Or.inr rfl))))
      norm_num at a b ⊢
      linarith
  have e : Envelope h.coords (1 / 2) 0 := by
    refine ⟨⟨0, 0, fun q hq => ?_, by norm_num⟩, fun s c hs => ?_⟩
    · rcases (exCoords _ _ H q).mp hq with rfl | rfl | rfl | rfl <;> norm_num
    · have a := hs _ ((exCoords _ _ H _).mpr (Or.inr (Or.inr (Or.inl rfl))))
      have b := hs _ ((exCoords _ _ H _).mpr (Or.inr (Or.inr (Or.inr rfl))))
      norm_num at a b ⊢
      linarith
  exact ⟨h₀, h₁, h, H₀, H₁, H, e₀, e₁, e,
    C157_concave exChem exLawful _ _ ['A'] exGs (-4) 0 (1 / 2) (by norm_num) (by norm_num) h₀ h₁ h H₀ H₁ H _ _ _ _ e₀ e₁ e⟩

/-- The hypothesis of `C157_monotone` for the formation alone; with the decomposition as well, it fails and so does the claim: the hull at the coordinate 1
rises from -1 to 0 between the potentials -4 and -3. -/
example : (∀ g ∈ [exForm], 0 ≤ uptake exChem ['A'] g) ∧ (∃ g ∈ exGs, uptake exChem ['A'] g < 0) ∧
    ∀ h₀ h₁, HullOfOpen exChem ⟨1, 0⟩ ⟨2, -3⟩ (exGs.map (toOpen exChem ['A'] (-4))) h₀ →
      HullOfOpen exChem ⟨1, 0⟩ ⟨2, -3⟩ (exGs.map (toOpen exChem ['A'] (-3))) h₁ → (∃ p ∈ h₀.coords, p.2 < 0) ∧ ∀ p ∈ h₁.coords, 0 ≤ p.2 := by
  refine ⟨by simp [exUptake.1], ⟨exDecay, by simp [exGs], by rw [exUptake.2]; norm_num⟩, fun h₀ h₁ H₀ H₁ => ⟨⟨(1, -1), ?_, by norm_num⟩, ?_⟩⟩
  · exact (exCoords _ _ H₀ _).mpr (by norm_num)
  · intro p hp
    rcases (exCoords _ _ H₁ p).mp hp with rfl | rfl | rfl | rfl <;> norm_num

/-- The enumerated reactions of `exOpenSetup` have a hull at every potential; at -1 neither direction releases energy, and so neither does any mixture. -/
example : ∃ out out' gs, (∀ μ, ∃ h, OpenSetup exChem exOpen exThree 2 ['A'] μ eA eB eAB out out' gs h) ∧
    ∀ x e, OpenMixes exChem (solids exThree eA) ['A'] (absolute exChem ['A'] eA (-1)) eB eAB x e → 0 ≤ e := by
  obtain ⟨out, out', gs, h, S, -, hm⟩ := exOpenSetup
  have hall : ∀ μ, ∃ h, OpenSetup exChem exOpen exThree 2 ['A'] μ eA eB eAB out out' gs h := fun μ => by
    obtain ⟨h', hh'⟩ := C157_builds exChem exLawful _ _ ['A'] gs _ μ h S.hull
    exact ⟨h', S.phases, S.run, S.runOpen, S.between, hh'⟩
  refine ⟨out, out', gs, hall, ?_⟩
  obtain ⟨h1, S1⟩ := hall (-1)
  have hz : ∀ p ∈ h1.coords, 0 ≤ p.2 := by
    intro p hp
    rcases S1.coords.2.2.2 p hp with rfl | rfl | ⟨g, hg, -, h2⟩
    · norm_num
    · norm_num
    · have hG := S1.between.2 g hg
      obtain ⟨aA, aB⟩ := exAmounts g hG
      have hin : ∀ z, amount g z ≠ 0 → z = eB ∨ z = eAB ∨ z = eA := by
        intro z hz
        have := hG.mem z (by by_contra hc; exact hz (Verif.Props.GroundState.coeffOf_absent _ _ _ hc))
        have : z = eA ∨ z = eB ∨ z = eAB := by simpa [exThree, eA, eB, eAB] using this
        tauto
      obtain ⟨h1, -⟩ := exReservoir.readings (-1) g hG fun z hz => hin z hz.ne
      have f1 : ef exChem ['A'] (absolute exChem ['A'] eA (-1)) eA eA = 0 := by decide +kernel
      have f2 : ef exChem ['A'] (absolute exChem ['A'] eA (-1)) eA eB = -1 := by decide +kernel
      have f3 : ef exChem ['A'] (absolute exChem ['A'] eA (-1)) eA eAB = -1 := by decide +kernel
      rw [exSum, aA, aB, f1, f2, f3, h2] at h1
      unfold perAtom at h1
      simp only at h1
      split_ifs at h1
      have h1 := Except.ok.inj h1
      rw [h1]
      apply le_of_eq
      ring_nf
  have i : ∀ x e, OpenMixes exChem (solids exThree eA) ['A'] (absolute exChem ['A'] eA (-1)) eB eAB x e → 0 ≤ e := by
    intro x e he
    by_contra hc
    obtain ⟨p, hp, hlt⟩ := (C139_inert S1 exOne exAdmitsOpen exRoomyOpen).mpr ⟨x, e, he, not_le.mp hc⟩
    exact absurd (hz p hp) (not_le.mpr hlt)
  exact (C157_stability_window le_rfl le_rfl S1 S1 S1 exOne exAdmitsOpen exRoomyOpen i i).2

/-- The hypotheses of `C157_hull_energy` on the enumerated reactions. -/
example : ∃ h : Built (ORxn (Fin 4) Sym), ∃ raw y₀ y₁ y, getHullEnergy ⟨h.coords, raw⟩ (1 / 2) = some y₀ ∧ getHullEnergy ⟨h.coords, raw⟩ (1 / 2) = some y₁ ∧
    getHullEnergy ⟨h.coords, raw⟩ (1 / 2) = some y ∧ (1 - 1 / 3) * y₀ + 1 / 3 * y₁ ≤ y := by
  obtain ⟨out, out', gs, h, S, -, hm⟩ := exOpenSetup
  have S' : OpenSetup exChem exOpen exThree 2 ['A'] ((1 - 1 / 3) * (-1 / 2) + 1 / 3 * (-1 / 2)) eA eB eAB out out' gs h := by
    have : ((1 - 1 / 3) * (-1 / 2) + 1 / 3 * (-1 / 2) : ℚ) = -1 / 2 := by norm_num
    rw [this]
    exact S
  exact ⟨h, _, C157_hull_energy (by norm_num) (by norm_num) S S S' _ _ _ (exOpen_indices _ hm) (exOpen_indices _ hm) (exOpen_indices _ hm)
    (exOpen_apart _ hm) (exOpen_apart _ hm) (exOpen_apart _ hm) (1 / 2) (by norm_num) (by norm_num) (exOpen_sep _ hm) (exOpen_sep _ hm) (exOpen_sep _ hm)⟩

end Verif.Props.OpenWindow
