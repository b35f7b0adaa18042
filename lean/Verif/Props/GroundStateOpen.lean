import Verif.Props.EnumOpenExact
import Verif.Props.GroundState
import Verif.Props.PathEnergy

/-! Property C139: the hull of the enumerated reactions between two phases that may exchange an element with the environment is the
ground state of every mixture of the two in contact with a reservoir of the element. -/

set_option linter.unusedSectionVars false

namespace Verif.Props.GroundStateOpen
open Verif.Py Verif.Model Verif.Model.Enum Verif.Model.Reaction Verif.Spec.Reaction Verif.Lemmas Verif.Lemmas.Exc Verif.Props.Enum
  Verif.Props.EnumGroup Verif.Props.BalanceLinear Verif.Props.EnumComplete Verif.Props.EnumExact Verif.Props.EnumOpenExact
  Verif.Lemmas.Conformal
open Verif.Model.Hull (hullInit Built getHullEnergy)
open Verif.Props.HullConvex (LowerCorner Envelope Apart')
open Verif.Props.HullInit (SortsBy)
open Verif.Spec.Hull (HullIndices)
open Verif.Props.GroundState (Genuine OneEach Admits w m en neg amount)

variable {κ : Type} [DecidableEq κ]

/-! ### Specification -/

/-- Atoms of a phase that are not exchanged with the environment. -/
def other (X : Chem κ Sym) (el : Sym) (z : Entry κ) : ℚ := X.natoms z.comp - X.amt z.comp el

/-- Energy of a phase without what its atoms of `el` cost at the potential `μ`. -/
def potential (X : Chem κ Sym) (el : Sym) (μ : ℚ) (z : Entry κ) : ℚ := z.energy - μ * X.amt z.comp el

/-- A mixture with one atom that is not exchanged, `x` of it from `B` and the rest from `A`, can turn into `phases` while it takes or gives
any amount of `el` at the potential `μ`, and its grand potential changes by `e`. -/
def OpenMixes (X : Chem κ Sym) (phases : List (Entry κ)) (el : Sym) (μ : ℚ) (A B : Entry κ) (x e : ℚ) : Prop :=
  0 ≤ x ∧ x ≤ 1 ∧ ∃ q : Entry κ → ℚ, (∀ z, 0 ≤ q z) ∧
    (∀ s, s ≠ el → (phases.map fun z => q z * X.amt z.comp s).sum
      = (1 - x) * (X.amt A.comp s / other X el A) + x * (X.amt B.comp s / other X el B)) ∧
    e = (phases.map fun z => q z * potential X el μ z).sum
      - ((1 - x) * (potential X el μ A / other X el A) + x * (potential X el μ B / other X el B))

/-- The phases that are not the reservoir. -/
def solids (entries : List (Entry κ)) (O : Entry κ) : List (Entry κ) := entries.filter fun z => z ≠ O

/-- The potential of the reservoir: the given one counts from the energy of the pure element. -/
def absolute (X : Chem κ Sym) (el : Sym) (O : Entry κ) (μ : ℚ) : ℚ := μ + O.energy / X.amt O.comp el

/-- A reaction as the set of reactions hands it out for the open element `el`, `OpenComputedReaction.from_computed_rxn`,
src/rxn_network/reactions/open.py:203-221, and `ReactionSet._get_rxns_by_indices`, src/rxn_network/reactions/reaction_set.py:572-600. -/
def toOpen (X : Chem κ Sym) (el : Sym) (μ : ℚ) (g : CRxn κ) : ORxn κ Sym :=
  oinit X g.entries g.base.coeffs [(el, μ)] g.base.data g.base.lne

/-- `gs` are the reactions of the enumerations that consume no other phases than `A`, `B` and the reservoir `O`. -/
def BetweenOpen (X : Chem κ Sym) (entries : List (Entry κ)) (A B O : Entry κ) (out : List (Rx (Entry κ))) (gs : List (CRxn κ)) : Prop :=
  (gs.map viewOf).Perm (out.filter fun x => decide (∀ z ∈ x.reactants, z = A ∨ z = B ∨ z = O)) ∧ ∀ g ∈ gs, Genuine X entries g

/-- Atoms of a composition that are not exchanged, as open reactions count them. -/
def weight (X : Chem κ Sym) (o : ORxn κ Sym) (c : κ) : ℚ := ((oelements X o).map (X.amt c)).sum

/-- The fraction of `B`, as the hull computes it for an open reaction. -/
def coordOpen (X : Chem κ Sym) (A B : Entry κ) (o : ORxn κ Sym) : Except Err ℚ :=
  coordinate (X.red A.comp) (X.red B.comp)
    (reactantAtomicFractions X (weight X o) (numAtoms X (oelements X o) o.base.comps o.base.coeffs) o.base)

/-- `reactant_entries`, src/rxn_network/reactions/computed.py:144-147. -/
def reactantsOf (o : ORxn κ Sym) : List (Entry κ) := ((o.entries.zip o.base.coeffs).filter fun p => p.2 < 0).map Prod.fst

/-- The hull of the open reactions `os` between `A` and `B`, however ties are sorted. -/
def HullOfOpen (X : Chem κ Sym) (A B : Entry κ) (os : List (ORxn κ Sym)) (h : Built (ORxn κ Sym)) : Prop :=
  ∃ (ident : Entry κ → ORxn κ Sym) (argsort : List ℚ → List ℕ), SortsBy argsort ∧
    hullInit reactantsOf (fun e : Entry κ => X.red e.comp) (coordOpen X A B) (oenergyPerAtom X) ident argsort
      (X.red A.comp) (X.red B.comp) os = .ok h

/-- Phases `A` and `B` that are not the open element, an open phase `O` of the pure element `el`, and the only one. -/
structure Reservoir (X : Chem κ Sym) (cfg : Cfg (Entry κ)) (entries : List (Entry κ)) (el : Sym) (O A B : Entry κ) : Prop where
  lawful : X.Lawful
  symbols : Symbols fun e : Entry κ => X.elems e.comp
  opened : Opened cfg entries
  single : cfg.openEntries = [O]
  pure : ∀ s ∈ X.elems O.comp, s = el
  lone : ∀ z ∈ entries, (∀ s ∈ X.elems z.comp, s = el) → z = O
  distinct : (entries.map fun e => X.red e.comp).Nodup
  sharp : Sharp X entries
  inA : A ∈ entries
  inB : B ∈ entries
  differ : A ≠ B
  notA : A ≠ O
  notB : B ≠ O

/-- `gs` are the reactions between the phases `A` and `B`, with or without `el` from the environment, that the two enumerators returned, and
`h` is their hull at the chemical potential `μ`. -/
structure OpenSetup (X : Chem κ Sym) (cfg : Cfg (Entry κ)) (entries : List (Entry κ)) (n : ℤ) (el : Sym) (μ : ℚ) (O A B : Entry κ)
    (out out' : List (Rx (Entry κ))) (gs : List (CRxn κ)) (h : Built (ORxn κ Sym)) : Prop where
  phases : Reservoir X cfg entries el O A B
  run : Returns X { cfg with openEntries := [] } entries n out
  runOpen : ReturnsOpen X cfg entries n out'
  between : BetweenOpen X entries A B O (out ++ out') gs
  hull : HullOfOpen X A B (gs.map (toOpen X el μ)) h

/-- Enough phases per side for every element of `A` and `B`, and a system that the enumerators do not skip. -/
structure RoomyOpen (X : Chem κ Sym) (el : Sym) (A B : Entry κ) (n : ℤ) : Prop where
  two : 2 ≤ n
  room : ((X.elems A.comp ++ X.elems B.comp).dedup.length : ℤ) ≤ n
  nine : (X.elems A.comp ++ X.elems B.comp ++ [el]).dedup.length ≤ 9

/-- Atoms, other than those of `el`, that a reaction takes from the phase `z`. -/
def takenOpen (X : Chem κ Sym) (el : Sym) (g : CRxn κ) (z : Entry κ) : ℚ :=
  consumed g.entries g.base.coeffs z * (X.natoms (X.red z.comp) - X.amt (X.red z.comp) el)

/-- No coordinate is off by more than `δ`. -/
def OffOpen (X : Chem κ Sym) (el : Sym) (μ : ℚ) (A B : Entry κ) (gs : List (CRxn κ)) (δ : ℚ) : Prop :=
  ∀ g ∈ gs, ∀ c, coordOpen X A B (toOpen X el μ g) = .ok c → |c - takenOpen X el g B / (takenOpen X el g A + takenOpen X el g B)| ≤ δ

/-! ### Helper lemmas: decomposition -/

/-- If every elementary part of a way `v` of consuming `A` and `B` is a point of the hull, lines below the hull stay below `v`. -/
theorem core {σ : Type} (E : Finset (Entry κ)) (W : Entry κ → σ → ℚ) (f mm : Entry κ → ℚ) (A B : Entry κ) (coords : List (ℚ × ℚ))
    (h00 : ((0 : ℚ), (0 : ℚ)) ∈ coords) (h10 : ((1 : ℚ), (0 : ℚ)) ∈ coords) {δ : ℚ} (hδ0 : 0 ≤ δ) (v : Entry κ → ℚ) (hker : Kernel E W v) (x : ℚ)
    (hnA : neg v A * mm A ≤ 1 - x) (hnB : neg v B * mm B ≤ x)
    (hstep : ∀ u, Elementary E W u → Follows u v → ∃ p ∈ coords, 0 ≤ p.1 ∧ p.1 ≤ 1 ∧ 0 ≤ neg u A * mm A + neg u B * mm B ∧
      |p.1 * (neg u A * mm A + neg u B * mm B) - neg u B * mm B| ≤ δ * (neg u A * mm A + neg u B * mm B) ∧
      p.2 * (neg u A * mm A + neg u B * mm B) = ∑ z ∈ E, u z * f z) :
    ∃ x', |x' - x| ≤ δ ∧ 0 ≤ x' ∧ x' ≤ 1 ∧ ∀ s t : ℚ, (∀ q ∈ coords, s * q.1 + t ≤ q.2) → s * x' + t ≤ ∑ z ∈ E, v z * f z := by
  obtain ⟨L, hL, hLs⟩ := decompose _ v le_rfl hker
  choose! c hc hc0 hc1 hcN hcδ hcl using fun u (hu : u ∈ L) => hstep u (hL u hu).1 (hL u hu).2
  set N : (Entry κ → ℚ) → ℚ := fun u => neg u A * mm A + neg u B * mm B with hN
  set K := (L.map fun u => (c u).1 * N u).sum with hK
  have hNsum : (L.map N).sum = neg v A * mm A + neg v B * mm B := by
    have e1 := Verif.Props.GroundState.neg_list L v (fun u hu => (hL u hu).2) hLs A
    have e2 := Verif.Props.GroundState.neg_list L v (fun u hu => (hL u hu).2) hLs B
    rw [← e1, ← e2, ← List.sum_map_mul_right, ← List.sum_map_mul_right, ← List.sum_map_add]
  have hBsum : (L.map fun u => neg u B * mm B).sum = neg v B * mm B := by
    rw [← Verif.Props.GroundState.neg_list L v (fun u hu => (hL u hu).2) hLs B, ← List.sum_map_mul_right]
  have hKδ : |K - neg v B * mm B| ≤ δ * (L.map N).sum := by
    rw [← hBsum, hK]
    clear_value K
    clear hK hNsum hBsum hLs
    induction L with
    | nil => simp
    | cons u L ih =>
      have ih := ih (fun u hu => hL u (List.mem_cons_of_mem _ hu)) (fun u hu => hc u (List.mem_cons_of_mem _ hu)) (fun u hu => hc0 u (List.mem_cons_of_mem _ hu))
        (fun u hu => hc1 u (List.mem_cons_of_mem _ hu)) (fun u hu => hcN u (List.mem_cons_of_mem _ hu)) (fun u hu => hcδ u (List.mem_cons_of_mem _ hu))
        (fun u hu => hcl u (List.mem_cons_of_mem _ hu))
      have h1 := hcδ u List.mem_cons_self
      simp only [List.map_cons, List.sum_cons]
      have e1 : (c u).1 * N u + (L.map fun u => (c u).1 * N u).sum - (neg u B * mm B + (L.map fun u => neg u B * mm B).sum)
          = ((c u).1 * N u - neg u B * mm B) + ((L.map fun u => (c u).1 * N u).sum - (L.map fun u => neg u B * mm B).sum) := by ring
      rw [e1]
      refine (abs_add_le _ _).trans ?_
      have h2 := add_le_add h1 ih
      rw [← mul_add] at h2
      exact h2
  have hK0 : 0 ≤ K := List.sum_nonneg (by
    intro y hy
    obtain ⟨u, hu, rfl⟩ := List.mem_map.mp hy
    exact mul_nonneg (hc0 u hu) (hcN u hu))
  have hK1 : K ≤ (L.map N).sum := List.sum_le_sum fun u hu => by
    have := mul_le_mul_of_nonneg_right (hc1 u hu) (hcN u hu)
    rw [one_mul] at this
    exact this
  have hN1 : (L.map N).sum ≤ 1 := by rw [hNsum]; linarith
  refine ⟨K + (x - neg v B * mm B), ?_, by linarith, by rw [hNsum] at hK1; linarith, fun s t hst => ?_⟩
  · have e1 : K + (x - neg v B * mm B) - x = K - neg v B * mm B := by ring
    rw [e1]
    refine hKδ.trans ?_
    have := mul_le_mul_of_nonneg_left hN1 hδ0
    linarith
  · have hsum : s * K + t * (L.map N).sum ≤ ∑ z ∈ E, v z * f z := by
      have e1 : ∑ z ∈ E, v z * f z = (L.map fun u => ∑ z ∈ E, u z * f z).sum := by
        have e2 : ∀ z ∈ E, v z * f z = (L.map fun u => u z * f z).sum := fun z _ => by
          rw [List.sum_map_mul_right, hLs]
        rw [Finset.sum_congr rfl e2]
        clear hK1 hKδ hK0 hBsum hNsum e2 hLs hN1
        clear_value K
        clear hK hcl hcN hcδ hc1 hc0 hc hL
        induction L with
        | nil => simp
        | cons u L ih => simp only [List.map_cons, List.sum_cons, Finset.sum_add_distrib, ih]
      rw [e1, hK, ← List.sum_map_mul_left, ← List.sum_map_mul_left, ← List.sum_map_add]
      refine List.sum_le_sum fun u hu => ?_
      have h3 := hst _ (hc u hu)
      have h4 := mul_le_mul_of_nonneg_right h3 (hcN u hu)
      rw [← hcl u hu]
      simp only [hN]
      linarith
    have ht0 := hst _ h00
    have ht1 := hst _ h10
    simp only [mul_zero, zero_add, mul_one] at ht0 ht1
    rw [hNsum] at hsum
    have h1 : (s + t) * (x - neg v B * mm B) ≤ 0 := mul_nonpos_of_nonpos_of_nonneg ht1 (by linarith)
    have h2 : t * (1 - x - neg v A * mm A) ≤ 0 := mul_nonpos_of_nonpos_of_nonneg ht0 (by linarith)
    linarith

/-- The two sides of an elementary way of conserving the elements. -/
theorem elementary_sides (X : Chem κ Sym) (hX : X.Lawful) (hsym : Symbols fun e : Entry κ => X.elems e.comp) (entries : List (Entry κ))
    (hnd : entries.Nodup) (u : Entry κ → ℚ) (hu : Elementary entries.toFinset (w X) u) :
    ∃ r p : List (Entry κ), r.Nodup ∧ p.Nodup ∧ (∀ z, z ∈ r ↔ u z < 0) ∧ (∀ z, z ∈ p ↔ 0 < u z) ∧ (∀ z ∈ r, z ∈ entries) ∧ (∀ z ∈ p, z ∈ entries) ∧
      r ≠ [] ∧ p ≠ [] ∧ r.length + p.length = size entries.toFinset u ∧ Balances X r p (fun z => -(u z)) u ∧
      (∀ z ∈ p, ∀ s ∈ X.elems z.comp, ∃ y ∈ r, s ∈ X.elems y.comp) ∧ ∀ z ∈ r, ∀ s ∈ X.elems z.comp, ∃ y ∈ p, s ∈ X.elems y.comp := by
  have hmem : ∀ z, u z ≠ 0 → z ∈ entries := fun z hz => by
    by_contra hc
    exact hz (hu.kernel.1 z fun h => hc (List.mem_toFinset.mp h))
  have hw : ∀ z s, 0 ≤ w X z s := fun z s => hX.nonneg _ _
  have hwel : ∀ z s, w X z s ≠ 0 ↔ s ∈ X.elems z.comp := fun z s => by
    rw [← Verif.Props.GroundState.elems_red X hX, hX.mem_elems]; rfl
  -- an element on one side occurs on the other
  have hel : ∀ t : ℚ, t ≠ 0 → ∀ z, 0 < t * u z → ∀ s ∈ X.elems z.comp, ∃ y, t * u y < 0 ∧ s ∈ X.elems y.comp := by
    intro t ht z hz s hs
    by_contra hc
    push Not at hc
    have h0 := (hu.kernel.smul t).2 s
    have hall : ∀ y ∈ entries.toFinset, 0 ≤ t * u y * w X y s := by
      intro y _
      by_cases hy : t * u y < 0
      · have : w X y s = 0 := by
          by_contra h'
          exact hc y hy ((hwel y s).mp h')
        rw [this, mul_zero]
      · exact mul_nonneg (not_lt.mp hy) (hw y s)
    have := (Finset.sum_eq_zero_iff_of_nonneg hall).mp h0 z (List.mem_toFinset.mpr (hmem z (right_ne_zero_of_mul hz.ne')))
    exact (mul_ne_zero hz.ne' ((hwel z s).mpr hs)) this
  have hatoms := Verif.Props.GroundState.kernel_atoms X hX hu.kernel
  have hm := Verif.Props.GroundState.m_pos X hX hsym
  set r := entries.filter fun z => decide (u z < 0) with hr
  set p := entries.filter fun z => decide (0 < u z) with hp
  have mr : ∀ z, z ∈ r ↔ u z < 0 := fun z => by
    rw [hr, List.mem_filter, decide_eq_true_eq]
    exact ⟨fun h => h.2, fun h => ⟨hmem z h.ne, h⟩⟩
  have mp : ∀ z, z ∈ p ↔ 0 < u z := fun z => by
    rw [hp, List.mem_filter, decide_eq_true_eq]
    exact ⟨fun h => h.2, fun h => ⟨hmem z h.ne', h⟩⟩
  have exr : ∃ z, u z < 0 := by
    by_contra hc
    push Not at hc
    obtain ⟨i, hi⟩ := hu.nonzero
    have := (Finset.sum_eq_zero_iff_of_nonneg fun y _ => mul_nonneg (hc y) (hm y).le).mp hatoms i (List.mem_toFinset.mpr (hmem i hi))
    exact mul_ne_zero hi (hm i).ne' this
  have exp : ∃ z, 0 < u z := by
    by_contra hc
    push Not at hc
    obtain ⟨i, hi⟩ := hu.nonzero
    have := (Finset.sum_eq_zero_iff_of_nonpos fun y _ => mul_nonpos_of_nonpos_of_nonneg (hc y) (hm y).le).mp hatoms i (List.mem_toFinset.mpr (hmem i hi))
    exact mul_ne_zero hi (hm i).ne' this
  obtain ⟨zr, hzr⟩ := exr
  obtain ⟨zp, hzp⟩ := exp
  have hdis : Disjoint r.toFinset p.toFinset := by
    rw [Finset.disjoint_left]
    intro z h1 h2
    rw [List.mem_toFinset, mr] at h1
    rw [List.mem_toFinset, mp] at h2
    linarith
  have hlen : r.length + p.length = size entries.toFinset u := by
    unfold size
    rw [← List.toFinset_card_of_nodup (hnd.filter _), ← List.toFinset_card_of_nodup (hnd.filter _), ← Finset.card_union_of_disjoint hdis]
    congr 1
    ext z
    rw [Finset.mem_union, List.mem_toFinset, List.mem_toFinset, mr, mp, Finset.mem_filter, List.mem_toFinset]
    constructor
    · rintro (h | h)
      · exact ⟨hmem z h.ne, h.ne⟩
      · exact ⟨hmem z h.ne', h.ne'⟩
    · rintro ⟨-, h⟩
      exact lt_or_gt_of_ne h
  have hsplit : ∀ f : Entry κ → ℚ, (∀ z, u z = 0 → f z = 0) → (r.map f).sum + (p.map f).sum = ∑ z ∈ entries.toFinset, f z := by
    intro f hf
    rw [← List.sum_toFinset _ (hnd.filter _), ← List.sum_toFinset _ (hnd.filter _), ← Finset.sum_union hdis]
    apply Finset.sum_subset
    · intro z hz
      rw [Finset.mem_union, List.mem_toFinset, List.mem_toFinset, mr, mp] at hz
      rcases hz with h | h
      · exact List.mem_toFinset.mpr (hmem z h.ne)
      · exact List.mem_toFinset.mpr (hmem z h.ne')
    · intro z _ hz
      rw [Finset.mem_union, List.mem_toFinset, List.mem_toFinset, mr, mp] at hz
      push Not at hz
      exact hf z (le_antisymm hz.2 hz.1)
  refine ⟨r, p, hnd.filter _, hnd.filter _, mr, mp, fun x hx => (List.mem_filter.mp hx).1, fun x hx => (List.mem_filter.mp hx).1,
    List.ne_nil_of_mem ((mr zr).mpr hzr), List.ne_nil_of_mem ((mp zp).mpr hzp), hlen, ?_, ?_, ?_⟩
  · refine ⟨fun x hx => by have := (mr x).mp hx; linarith, fun x hx => (mp x).mp hx, fun s => ?_, fun c hc => ?_⟩
    · have h1 := hsplit (fun z => u z * w X z s) (fun z hz => by simp only [hz, zero_mul])
      rw [hu.kernel.2 s] at h1
      have h2 : (r.map fun x => -(u x) * X.amt (X.red x.comp) s).sum = -(r.map fun z => u z * w X z s).sum := by
        have e : (fun x : Entry κ => -(u x) * X.amt (X.red x.comp) s) = fun z => (-1) * (u z * w X z s) := by
          funext z; unfold w; ring
        rw [e, List.sum_map_mul_left]; ring
      rw [h2]
      have h3 : (p.map fun x => u x * X.amt (X.red x.comp) s).sum = (p.map fun z => u z * w X z s).sum := rfl
      rw [h3]
      linarith
    · obtain ⟨t, ht⟩ := hu.unique (fun z => if u z = 0 then 0 else c z) (by
        refine ⟨fun i hi => by simp only [hu.kernel.1 i hi, if_true], fun s => ?_⟩
        rw [← hsplit (fun z => (if u z = 0 then 0 else c z) * w X z s) (fun z hz => by simp only [hz, if_true, zero_mul])]
        refine Eq.trans ?_ (hc s)
        congr 1
        · congr 1
          refine List.map_congr_left fun x hx => ?_
          rw [if_neg ((mr x).mp hx).ne]; rfl
        · congr 1
          refine List.map_congr_left fun x hx => ?_
          rw [if_neg ((mp x).mp hx).ne']; rfl) (fun i hi => by simp only [hi, if_true])
      refine ⟨t, fun x hx => ?_, fun x hx => ?_⟩
      · have := ht x
        simp only [if_neg ((mr x).mp hx).ne] at this
        rw [this]; ring
      · have := ht x
        simp only [if_neg ((mp x).mp hx).ne'] at this
        rw [this]; ring
  · intro z hz s hs
    obtain ⟨y, hy, hys⟩ := hel 1 one_ne_zero z (by have := (mp z).mp hz; linarith) s hs
    exact ⟨y, (mr y).mpr (by linarith), hys⟩
  · intro z hz s hs
    obtain ⟨y, hy, hys⟩ := hel (-1) (by norm_num) z (by have := (mr z).mp hz; linarith) s hs
    exact ⟨y, (mp y).mpr (by linarith), hys⟩

/-! ### Helper lemmas: one reaction -/

/-- Atoms of a reduced formula unit that are not exchanged. -/
def mo (X : Chem κ Sym) (el : Sym) (z : Entry κ) : ℚ := m X z - w X z el

/-- Energy that an open reaction counts for a reduced formula unit. -/
def eg (X : Chem κ Sym) (el : Sym) (μ : ℚ) (z : Entry κ) : ℚ := grandEnergy X [(el, μ)] z / X.fac z.comp

/-- Energy of a reduced formula unit at the potential of the reservoir, which is itself free. -/
def ef (X : Chem κ Sym) (el : Sym) (μ : ℚ) (O z : Entry κ) : ℚ := if z = O then 0 else potential X el μ z / X.fac z.comp

theorem other_fac (X : Chem κ Sym) (hX : X.Lawful) (el : Sym) (z : Entry κ) : other X el z = X.fac z.comp * mo X el z := by
  unfold other mo m w
  rw [Verif.Props.GroundState.natoms_fac X hX, hX.red_amt z.comp el]
  ring

theorem mo_eq (X : Chem κ Sym) (hX : X.Lawful) (el : Sym) (z : Entry κ) : mo X el z = (((X.elems z.comp).filter fun s => s ≠ el).map (w X z)).sum := by
  unfold mo m
  rw [Verif.Lemmas.Reaction.natoms_eq X hX (X.red z.comp) (X.elems z.comp) (hX.nodup _) (fun e he => (Verif.Props.GroundState.elems_red X hX _ e).mp he)]
  rw [← List.sum_toFinset _ (hX.nodup _), ← List.sum_toFinset _ ((hX.nodup _).filter _)]
  have h0 : el ∉ (X.elems z.comp).toFinset → w X z el = 0 := by
    intro h
    by_contra hc
    exact h (List.mem_toFinset.mpr ((Verif.Props.GroundState.elems_red X hX _ el).mp ((hX.mem_elems _ _).mpr hc)))
  have h1 : ((X.elems z.comp).filter fun s => decide (s ≠ el)).toFinset = (X.elems z.comp).toFinset.erase el := by
    ext s; simp [and_comm]
  rw [h1]
  by_cases he : el ∈ (X.elems z.comp).toFinset
  · rw [← Finset.add_sum_erase _ _ he]
    unfold w
    ring
  · rw [h0 he, Finset.erase_eq_of_notMem he, sub_zero]
    rfl

theorem mo_nonneg (X : Chem κ Sym) (hX : X.Lawful) (el : Sym) (z : Entry κ) : 0 ≤ mo X el z := by
  rw [mo_eq X hX]
  apply List.sum_nonneg
  intro y hy
  obtain ⟨s, -, rfl⟩ := List.mem_map.mp hy
  exact hX.nonneg _ _

theorem w_zero (X : Chem κ Sym) (hX : X.Lawful) (z : Entry κ) (s : Sym) (h : s ∉ X.elems z.comp) : w X z s = 0 := by
  by_contra hc
  exact h ((Verif.Props.GroundState.elems_red X hX _ s).mp ((hX.mem_elems _ _).mpr hc))

theorem w_pos (X : Chem κ Sym) (hX : X.Lawful) (z : Entry κ) (s : Sym) (h : s ∈ X.elems z.comp) : 0 < w X z s :=
  lt_of_le_of_ne (hX.nonneg _ _) (Ne.symm ((hX.mem_elems _ _).mp ((Verif.Props.GroundState.elems_red X hX _ s).mpr h)))

theorem mo_pos (X : Chem κ Sym) (hX : X.Lawful) (el : Sym) (z : Entry κ) (h : ∃ s ∈ X.elems z.comp, s ≠ el) : 0 < mo X el z := by
  obtain ⟨s, hs, hne⟩ := h
  rw [mo_eq X hX]
  apply List.sum_pos
  · intro y hy
    obtain ⟨t, ht, rfl⟩ := List.mem_map.mp hy
    exact w_pos X hX z t (List.mem_filter.mp ht).1
  · intro h
    have : w X z s ∈ ((X.elems z.comp).filter fun s => s ≠ el).map (w X z) := List.mem_map.mpr ⟨s, List.mem_filter.mpr ⟨hs, by simpa using hne⟩, rfl⟩
    rw [h] at this
    cases this

section
variable {X : Chem κ Sym} {cfg : Cfg (Entry κ)} {entries : List (Entry κ)} {n : ℤ} {el : Sym} {μ : ℚ} {O A B : Entry κ}
  {out out' : List (Rx (Entry κ))} {gs : List (CRxn κ)} {h : Built (ORxn κ Sym)}

theorem Reservoir.inO (R : Reservoir X cfg entries el O A B) : O ∈ entries := R.opened.given O (by rw [R.single]; simp)

theorem Reservoir.elemsO (R : Reservoir X cfg entries el O A B) : X.elems O.comp = [el] := by
  have h1 := R.symbols.ne O
  have h2 := R.pure
  have h3 := R.lawful.nodup O.comp
  match hE : X.elems O.comp, h1, h2, h3 with
  | [a], _, h2, _ => rw [h2 a (by simp)]
  | a :: b :: l, _, h2, h3 =>
    exact absurd ((h2 a (by simp)).trans (h2 b (by simp)).symm) (by rintro rfl; simp at h3)
  | [], h1, _, _ => exact absurd rfl h1

theorem Reservoir.has (R : Reservoir X cfg entries el O A B) (z : Entry κ) (hz : z ∈ entries) (hne : z ≠ O) : ∃ s ∈ X.elems z.comp, s ≠ el := by
  by_contra hc
  push Not at hc
  exact hne (R.lone z hz hc)

theorem Reservoir.moA (R : Reservoir X cfg entries el O A B) : 0 < mo X el A := mo_pos X R.lawful el A (R.has A R.inA R.notA)
theorem Reservoir.moB (R : Reservoir X cfg entries el O A B) : 0 < mo X el B := mo_pos X R.lawful el B (R.has B R.inB R.notB)

theorem Reservoir.moO (R : Reservoir X cfg entries el O A B) : mo X el O = 0 := by
  rw [mo_eq X R.lawful, R.elemsO]; simp

theorem Reservoir.wO (R : Reservoir X cfg entries el O A B) : 0 < w X O el := w_pos X R.lawful O el (by rw [R.elemsO]; simp)

theorem Reservoir.wO' (R : Reservoir X cfg entries el O A B) (s : Sym) (hs : s ≠ el) : w X O s = 0 :=
  w_zero X R.lawful O s (by rw [R.elemsO]; simpa using hs)

/-- What an open reaction counts for a phase differs from its energy at the potential of the reservoir by a multiple of its amount of `el`. -/
theorem Reservoir.eg_eq (R : Reservoir X cfg entries el O A B) (μ : ℚ) (z : Entry κ) (hz : z ∈ entries) :
    eg X el μ z = ef X el (absolute X el O μ) O z + O.energy / X.amt O.comp el * w X z el := by
  have hf := (R.lawful.fac_pos z.comp).ne'
  have hwz : X.amt z.comp el = X.fac z.comp * w X z el := R.lawful.red_amt z.comp el
  unfold eg ef potential absolute
  have perm : ∀ l : List Sym, X.elems (X.red z.comp) = l → (∀ s, s ∈ l ↔ s ∈ X.elems z.comp) := by
    rintro l rfl s
    exact Verif.Props.GroundState.elems_red X R.lawful _ s
  by_cases hO : z = O
  · subst hO
    have hl : X.elems (X.red z.comp) = [el] := by
      have h1 : ∀ s ∈ X.elems (X.red z.comp), s = el := fun s hs => R.pure s ((Verif.Props.GroundState.elems_red X R.lawful _ s).mp hs)
      have h2 : el ∈ X.elems (X.red z.comp) := (Verif.Props.GroundState.elems_red X R.lawful _ el).mpr (by rw [R.elemsO]; simp)
      have h3 := R.lawful.nodup (X.red z.comp)
      match X.elems (X.red z.comp), h1, h2, h3 with
      | [a], h1, _, _ => rw [h1 a (by simp)]
      | a :: b :: l, h1, _, h3 => exact absurd ((h1 a (by simp)).trans (h1 b (by simp)).symm) (by rintro rfl; simp at h3)
    have hgr : grandEnergy X [(el, μ)] z = z.energy := by
      unfold grandEnergy
      rw [hl]
      simp
    rw [hgr, if_pos rfl, hwz, zero_add]
    have := R.wO.ne'
    field_simp
  · rw [if_neg hO]
    have hne : ∀ a, X.elems (X.red z.comp) = [a] → a ≠ el := by
      rintro a ha rfl
      obtain ⟨s, hs, hs'⟩ := R.has z hz hO
      rw [← perm _ rfl, ha, List.mem_singleton] at hs
      exact hs' hs
    have hgr : grandEnergy X [(el, μ)] z = z.energy - X.amt z.comp el * μ := by
      unfold grandEnergy
      split
      · rename_i a ha
        rw [if_neg (by simpa using hne a ha)]
        simp
      · simp
    rw [hgr, hwz]
    field_simp
    ring

theorem Reservoir.kernel_energy (R : Reservoir X cfg entries el O A B) (μ : ℚ) (v : Entry κ → ℚ) (hv : Kernel entries.toFinset (w X) v) :
    ∑ z ∈ entries.toFinset, v z * eg X el μ z = ∑ z ∈ entries.toFinset, v z * ef X el (absolute X el O μ) O z := by
  have e : ∀ z ∈ entries.toFinset, v z * eg X el μ z = v z * ef X el (absolute X el O μ) O z + O.energy / X.amt O.comp el * (v z * w X z el) := by
    intro z hz
    rw [R.eg_eq μ z (List.mem_toFinset.mp hz)]; ring
  rw [Finset.sum_congr rfl e, Finset.sum_add_distrib, ← Finset.mul_sum, hv.2 el, mul_zero, add_zero]

theorem takenOpen_eq {g : CRxn κ} (hg : Genuine X entries g) (z : Entry κ) : takenOpen X el g z = neg (amount g) z * mo X el z := by
  unfold takenOpen neg amount mo m w
  rw [Verif.Props.GroundState.consumed_eq _ _ hg.nodup]

/-- What the hull reads off an open reaction of `A` and `B`. -/
theorem Reservoir.readings (R : Reservoir X cfg entries el O A B) (μ : ℚ) (g : CRxn κ) (hg : Genuine X entries g)
    (hre : ∀ z, amount g z < 0 → z = A ∨ z = B ∨ z = O) :
    let N := neg (amount g) A * mo X el A + neg (amount g) B * mo X el B
    oenergyPerAtom X (toOpen X el μ g) = perAtom (.ok (∑ z ∈ entries.toFinset, amount g z * ef X el (absolute X el O μ) O z)) N ∧
    (N ≠ 0 → ∃ c, coordOpen X A B (toOpen X el μ g) = .ok c ∧ 0 ≤ c ∧ c ≤ 1 ∧ |c - neg (amount g) B * mo X el B / N| ≤ 1 / (2 * 10 ^ 12) ∧
      c = roundDigits 12 (neg (amount g) B * mo X el B / N)) := by
  intro N
  have hX := R.lawful
  have hn := R.distinct
  have hinj : ∀ y ∈ entries, ∀ z ∈ entries, X.red y.comp = X.red z.comp → y = z := fun y hy z hz h => List.inj_on_of_nodup_map hn hy hz h
  set comps := g.entries.map fun e => X.red e.comp with hcomps
  have hgn : comps.Nodup := hg.nodup.map_on fun y hy z hz h => hinj y (hg.mem y hy) z (hg.mem z hz) h
  have hwt : ∀ z ∈ g.entries, weight X (toOpen X el μ g) (X.red z.comp) = mo X el z := by
    intro z hz
    have hsub : ∀ e ∈ X.elems (X.red z.comp), e ∈ elements X comps := fun e he =>
      (Verif.Lemmas.Reaction.mem_elements X comps e).mpr ⟨X.red z.comp, List.mem_map.mpr ⟨z, hz, rfl⟩, he⟩
    have e1 : oelements X (toOpen X el μ g) = (elements X comps).filter fun s => s ≠ el := by
      unfold oelements toOpen oinit Verif.Model.Reaction.init
      simp only [List.map_cons, List.map_nil, List.mem_singleton]
      rfl
    rw [mo_eq X hX, weight, e1, ← List.sum_toFinset _ ((Verif.Lemmas.Reaction.nodup_elements X comps).filter _), ← List.sum_toFinset _ ((hX.nodup _).filter _)]
    symm
    apply Finset.sum_subset
    · intro s hs
      rw [List.mem_toFinset, List.mem_filter] at hs ⊢
      exact ⟨hsub s ((Verif.Props.GroundState.elems_red X hX _ s).mpr hs.1), hs.2⟩
    · intro s hs hns
      rw [List.mem_toFinset, List.mem_filter] at hs hns
      exact w_zero X hX z s fun h => hns ⟨h, hs.2⟩
  have hac : ∀ z ∈ entries, consumed comps g.base.coeffs (X.red z.comp) = neg (amount g) z := by
    intro z hz
    unfold neg amount
    rw [hcomps, Verif.Props.GroundState.consumed_red X _ _ _ fun y hy h => hinj y (hg.mem y hy) z hz h, Verif.Props.GroundState.consumed_eq _ _ hg.nodup]
  have hcw : ∀ z ∈ entries, consumed comps g.base.coeffs (X.red z.comp) * weight X (toOpen X el μ g) (X.red z.comp) = neg (amount g) z * mo X el z := by
    intro z hz
    rw [hac z hz]
    by_cases h : z ∈ g.entries
    · rw [hwt z h]
    · have : amount g z = 0 := Verif.Props.GroundState.coeffOf_absent _ _ _ h
      simp [neg, this]
  have hnegs : ∑ z ∈ entries.toFinset, neg (amount g) z * mo X el z = N := by
    have hsub : ({A, B, O} : Finset (Entry κ)) ⊆ entries.toFinset := by
      intro z hz
      rw [List.mem_toFinset]
      simp only [Finset.mem_insert, Finset.mem_singleton] at hz
      rcases hz with rfl | rfl | rfl
      · exact R.inA
      · exact R.inB
      · exact R.inO
    rw [← Finset.sum_subset hsub]
    · rw [Finset.sum_insert (by simp [R.differ, R.notA]), Finset.sum_pair R.notB, R.moO]
      ring
    · intro z _ hz
      have : ¬ amount g z < 0 := fun h => hz (by rcases hre z h with rfl | rfl | rfl <;> simp)
      unfold neg
      rw [max_eq_left (by linarith [not_lt.mp this]), zero_mul]
  have hnum : numAtoms X (oelements X (toOpen X el μ g)) comps g.base.coeffs = N := by
    have hs := Verif.Lemmas.Reaction.sidesNodup_of_nodup comps g.base.coeffs hgn
    rw [← Verif.Lemmas.Reaction.numAtoms_reactants X _ comps g.base.coeffs hs (fun e _ => hg.conserved e), Verif.Lemmas.Reaction.reactantCoeffs_eq _ _ hs, ← hnegs]
    unfold Verif.Lemmas.Reaction.neg
    rw [hcomps, List.zip_map_left, List.filter_map, List.map_map]
    have e1 : ((g.entries.zip g.base.coeffs).filter ((fun p : κ × ℚ => decide (p.2 < 0)) ∘ Prod.map (fun e : Entry κ => X.red e.comp) id)).map
        ((fun p : κ × ℚ => -p.2 * ((oelements X (toOpen X el μ g)).map (X.amt p.1)).sum) ∘ Prod.map (fun e : Entry κ => X.red e.comp) id)
        = ((g.entries.zip g.base.coeffs).filter fun p => decide (p.2 < 0)).map fun p => neg (amount g) p.1 * mo X el p.1 := by
      have e0 : ((fun p : κ × ℚ => decide (p.2 < 0)) ∘ Prod.map (fun e : Entry κ => X.red e.comp) id) = fun p : Entry κ × ℚ => decide (p.2 < 0) := rfl
      rw [e0]
      apply List.map_congr_left
      intro p hp
      obtain ⟨hp, hlt⟩ := List.mem_filter.mp hp
      simp only [decide_eq_true_eq] at hlt
      have hm := (List.of_mem_zip (a := p.1) (b := p.2) hp).1
      have ha : amount g p.1 = p.2 := Verif.Props.GroundState.coeffOf_mem _ _ hg.nodup p hp
      have := hwt p.1 hm
      unfold weight at this
      simp only [Function.comp, Prod.map, id]
      rw [this]
      unfold neg
      rw [ha, max_eq_right (by linarith)]
    rw [e1]
    have e2 : (((g.entries.zip g.base.coeffs).filter fun p => decide (p.2 < 0)).map fun p => neg (amount g) p.1 * mo X el p.1)
        = (((g.entries.zip g.base.coeffs).filter fun p => decide (p.2 < 0)).map Prod.fst).map fun z => neg (amount g) z * mo X el z := by
      rw [List.map_map]; rfl
    have hnd : (((g.entries.zip g.base.coeffs).filter fun p => decide (p.2 < 0)).map Prod.fst).Nodup := by
      have : ((g.entries.zip g.base.coeffs).map Prod.fst).Nodup := by rw [List.map_fst_zip hg.whole.2.le]; exact hg.nodup
      exact this.sublist (List.filter_sublist.map _)
    rw [e2, ← List.sum_toFinset _ hnd]
    apply Finset.sum_subset
    · intro z hz
      obtain ⟨p, hp, rfl⟩ := List.mem_map.mp (List.mem_toFinset.mp hz)
      exact List.mem_toFinset.mpr (hg.mem _ (List.of_mem_zip (a := p.1) (b := p.2) (List.mem_filter.mp hp).1).1)
    · intro z _ hz
      have : ¬ amount g z < 0 := fun h => hz (List.mem_toFinset.mpr ((Verif.Props.GroundState.mem_reactants hg z).mpr h))
      unfold neg
      rw [max_eq_left (by linarith [not_lt.mp this]), zero_mul]
  have hen : oenergy X (toOpen X el μ g) = .ok (∑ z ∈ entries.toFinset, amount g z * ef X el (absolute X el O μ) O z) := by
    rw [← R.kernel_energy μ _ (Verif.Props.GroundState.genuine_kernel hg), ← Verif.Props.GroundState.genuine_sum hg]
    exact Verif.Props.PathEnergy.oenergy_distinct X _ _ _ _ _ hgn
  refine ⟨?_, fun hN => ?_⟩
  · unfold oenergyPerAtom
    rw [hen]
    exact congrArg (perAtom _) hnum
  · have hbal : (toOpen X el μ g).base.balanced = true := by
      have := (Verif.Props.Reaction.C09_computed X hX g.entries g.base.coeffs g.base.data g.base.lne hgn).mpr (by intro e; rw [hg.conserved e]; norm_num)
      exact this
    have hrr : ∀ c ∈ (toOpen X el μ g).base.comps, X.red c = c := by
      intro c hc
      obtain ⟨e, _, rfl⟩ := List.mem_map.mp hc
      exact hX.red_red _
    obtain ⟨f, hf, h1⟩ := Verif.Props.Reaction.dictGet_consumed X (toOpen X el μ g).base (weight X (toOpen X el μ g)) N (X.red A.comp) hgn hrr hbal
    obtain ⟨f', hf', h2⟩ := Verif.Props.Reaction.dictGet_consumed X (toOpen X el μ g).base (weight X (toOpen X el μ g)) N (X.red B.comp) hgn hrr hbal
    rw [hf] at hf'
    cases hf'
    have h1' : (dictGet f (X.red A.comp)).getD 0 = neg (amount g) A * mo X el A / N := h1.trans (congrArg (· / N) (hcw A R.inA))
    have h2' : (dictGet f (X.red B.comp)).getD 0 = neg (amount g) B * mo X el B / N := h2.trans (congrArg (· / N) (hcw B R.inB))
    have hA0 : 0 ≤ neg (amount g) A * mo X el A := mul_nonneg (le_max_left _ _) R.moA.le
    have hB0 : 0 ≤ neg (amount g) B * mo X el B := mul_nonneg (le_max_left _ _) R.moB.le
    have hNp : 0 < N := lt_of_le_of_ne (add_nonneg hA0 hB0) (Ne.symm hN)
    have hx : coordOpen X A B (toOpen X el μ g) = .ok (roundDigits 12 (neg (amount g) B * mo X el B / N)) := by
      unfold coordOpen
      have : numAtoms X (oelements X (toOpen X el μ g)) (toOpen X el μ g).base.comps (toOpen X el μ g).base.coeffs = N := hnum
      rw [this, hf]
      simp only [coordinate, h1', h2']
      have e1 : neg (amount g) A * mo X el A / N + neg (amount g) B * mo X el B / N = 1 := by rw [← add_div]; exact div_self hN
      rw [e1, if_neg one_ne_zero, div_one]
    have := Verif.Props.Reaction.roundDigits_range (neg (amount g) B * mo X el B / N) (div_nonneg hB0 hNp.le) (by rw [div_le_one hNp]; simp only [N]; linarith)
    exact ⟨_, hx, this.1, this.2.1, this.2.2.1, rfl⟩
end

/-! ### Helper lemmas: the enumerations -/

/-- A reaction object with the amounts of an exactly balanced reaction. -/
theorem genuine_of (X : Chem κ Sym) (entries r p : List (Entry κ)) (a b : Entry κ → ℚ) (hr : r.Nodup) (hp : p.Nodup) (hd : ∀ z ∈ r, z ∉ p)
    (hre : ∀ z ∈ r, z ∈ entries) (hpe : ∀ z ∈ p, z ∈ entries) (hb : Balances X r p a b) (g : CRxn κ) (hw : Whole X g) (s : ℚ)
    (hperm : (g.entries.zip g.base.coeffs).Perm ((r.map fun x => (x, -(a x) * s)) ++ p.map fun x => (x, b x * s))) : Genuine X entries g := by
  have hent : g.entries = (g.entries.zip g.base.coeffs).map Prod.fst := by rw [List.map_fst_zip hw.2.le]
  have hpm : g.entries.Perm (r ++ p) := by
    rw [hent]
    have := hperm.map Prod.fst
    rw [List.map_append, List.map_map, List.map_map] at this
    have e1 : (Prod.fst ∘ fun z : Entry κ => (z, -(a z) * s)) = id := rfl
    have e2 : (Prod.fst ∘ fun z : Entry κ => (z, b z * s)) = id := rfl
    rw [e1, e2, List.map_id, List.map_id] at this
    exact this
  refine ⟨hw, ?_, ?_, fun e => ?_⟩
  · rw [hpm.nodup_iff, List.nodup_append']
    exact ⟨hr, hp, fun z h1 h2 => hd z h1 h2⟩
  · intro z hz
    rcases List.mem_append.mp (hpm.mem_iff.mp hz) with h | h
    · exact hre z h
    · exact hpe z h
  · unfold net
    rw [List.zip_map_left, List.map_map, (hperm.map _).sum_eq, List.map_append, List.sum_append, List.map_map, List.map_map]
    have e1 : ∀ l : List (Entry κ), (l.map (((fun q : κ × ℚ => q.2 * X.amt q.1 e) ∘ Prod.map (fun y : Entry κ => X.red y.comp) id) ∘ fun z => (z, -(a z) * s))).sum
        = -s * (l.map fun z => a z * X.amt (X.red z.comp) e).sum := by
      intro l
      rw [← List.sum_map_mul_left]
      congr 1
      refine List.map_congr_left fun z _ => ?_
      simp only [Function.comp, Prod.map, id]
      ring
    have e2 : ∀ l : List (Entry κ), (l.map (((fun q : κ × ℚ => q.2 * X.amt q.1 e) ∘ Prod.map (fun y : Entry κ => X.red y.comp) id) ∘ fun z => (z, b z * s))).sum
        = s * (l.map fun z => b z * X.amt (X.red z.comp) e).sum := by
      intro l
      rw [← List.sum_map_mul_left]
      congr 1
      refine List.map_congr_left fun z _ => ?_
      simp only [Function.comp, Prod.map, id]
      ring
    rw [e1, e2, hb.conserved e]
    ring

section
variable {X : Chem κ Sym} {cfg : Cfg (Entry κ)} {entries : List (Entry κ)} {n : ℤ} {el : Sym} {μ : ℚ} {O A B : Entry κ}
  {out out' : List (Rx (Entry κ))} {gs : List (CRxn κ)} {h : Built (ORxn κ Sym)}

theorem Reservoir.plain (R : Reservoir X cfg entries el O A B) : Plain { cfg with openEntries := [] } := ⟨rfl, R.opened.removes, R.opened.constraints⟩

/-- Every reaction between `A` and `B` consumes one of them. -/
theorem Reservoir.pos (R : Reservoir X cfg entries el O A B) (hrun : Returns X { cfg with openEntries := [] } entries n out)
    (hopen : ReturnsOpen X cfg entries n out') (hb : BetweenOpen X entries A B O (out ++ out') gs) (g : CRxn κ) (hg : g ∈ gs) :
    (∀ z, amount g z < 0 → z = A ∨ z = B ∨ z = O) ∧ 0 < neg (amount g) A * mo X el A + neg (amount g) B * mo X el B := by
  have hG := hb.2 g hg
  obtain ⟨hx, ho⟩ := List.mem_filter.mp (hb.1.mem_iff.mp (List.mem_map.mpr ⟨g, hg, rfl⟩))
  simp only [decide_eq_true_eq] at ho
  have honly : ∀ z, amount g z < 0 → z = A ∨ z = B ∨ z = O := fun z hz => ho z ((Verif.Props.GroundState.mem_reactants hG z).mpr hz)
  refine ⟨honly, ?_⟩
  have hex : ∃ z ∈ (viewOf g).reactants, z ≠ O := by
    rcases List.mem_append.mp hx with hx | hx
    · obtain ⟨a, b, hS⟩ := returned_sought X R.lawful R.symbols _ R.plain entries R.distinct R.sharp n out hrun _ hx
      by_contra hc
      push Not at hc
      have h2 := hS.elements.1
      have hone : ∀ e ∈ ((viewOf g).reactants.flatMap fun e => X.elems e.comp).dedup, e = el := by
        intro e he
        rw [List.mem_dedup, List.mem_flatMap] at he
        obtain ⟨y, hy, hey⟩ := he
        rw [hc y hy] at hey
        exact R.pure e hey
      have hnd := List.nodup_dedup ((viewOf g).reactants.flatMap fun e => X.elems e.comp)
      generalize ((viewOf g).reactants.flatMap fun e => X.elems e.comp).dedup = l at h2 hone hnd
      match l, h2, hone, hnd with
      | a :: b :: l, _, hone, hnd => exact absurd ((hone a (by simp)).trans (hone b (by simp)).symm) (by rintro rfl; simp at hnd)
    · obtain ⟨a, b, hS⟩ := returned_sought_open X R.lawful R.symbols cfg entries R.opened R.distinct R.sharp n out' hopen _ hx
      obtain ⟨z, hz, hne⟩ := hS.someR
      exact ⟨z, hz, fun h => hne (by rw [h, R.single]; simp)⟩
  obtain ⟨z, hz, hne⟩ := hex
  have hz' := (Verif.Props.GroundState.mem_reactants hG z).mp hz
  have hn : 0 < neg (amount g) z := lt_max_of_lt_right (by linarith)
  have hA0 : 0 ≤ neg (amount g) A * mo X el A := mul_nonneg (le_max_left _ _) R.moA.le
  have hB0 : 0 ≤ neg (amount g) B * mo X el B := mul_nonneg (le_max_left _ _) R.moB.le
  rcases honly z hz' with rfl | rfl | h
  · have := mul_pos hn R.moA; linarith
  · have := mul_pos hn R.moB; linarith
  · exact absurd h hne

theorem OpenSetup.pos (S : OpenSetup X cfg entries n el μ O A B out out' gs h) (g : CRxn κ) (hg : g ∈ gs) :
    (∀ z, amount g z < 0 → z = A ∨ z = B ∨ z = O) ∧ 0 < neg (amount g) A * mo X el A + neg (amount g) B * mo X el B :=
  S.phases.pos S.run S.runOpen S.between g hg

theorem OpenSetup.off (S : OpenSetup X cfg entries n el μ O A B out out' gs h) : OffOpen X el μ A B gs (1 / (2 * 10 ^ 12)) := by
  intro g hg c hc
  have hG := S.between.2 g hg
  obtain ⟨ho, hp⟩ := S.pos g hg
  obtain ⟨-, h2⟩ := S.phases.readings μ g hG ho
  rw [takenOpen_eq hG, takenOpen_eq hG]
  obtain ⟨c', h1, -, -, h4, -⟩ := h2 hp.ne'
  rw [hc] at h1
  cases h1
  exact h4

/-- An elementary way of turning `A` and `B` into other phases, with or without the element of the environment, is one of the reactions. -/
theorem OpenSetup.step (S : OpenSetup X cfg entries n el μ O A B out out' gs h) (hO : OneEach X entries) (hA : Admits cfg A B) (hR : RoomyOpen X el A B n)
    (u : Entry κ → ℚ) (hu : Elementary entries.toFinset (w X) u) (hneg : ∀ z, u z < 0 → z = A ∨ z = B ∨ z = O) :
    ∃ g ∈ gs, ∃ t : ℚ, 0 < t ∧ ∀ z, amount g z = t * u z := by
  have R := S.phases
  have hnd : entries.Nodup := List.Nodup.of_map _ R.distinct
  obtain ⟨r, p, nr, np, mr, mp, inr, inp, r0, p0, hlen, hbal, help, helr⟩ := elementary_sides X R.lawful R.symbols entries hnd u hu
  obtain ⟨zr, hzr⟩ := List.exists_mem_of_ne_nil _ r0
  obtain ⟨zp, hzp⟩ := List.exists_mem_of_ne_nil _ p0
  have hdis : ∀ z ∈ r, z ∉ p := fun z h1 h2 => by
    have := (mr z).mp h1
    have := (mp z).mp h2
    linarith
  have hwel : ∀ z s, w X z s ≠ 0 → s ∈ X.elems z.comp := fun z s hz => by
    by_contra hc
    exact hz (w_zero X R.lawful z s hc)
  have hsize : ∀ T : Finset Sym, (∀ z ∈ r, ∀ s ∈ X.elems z.comp, s ∈ T) → size entries.toFinset u ≤ T.card + 1 := by
    intro T hT
    refine hu.size_le T fun i hi s hs => ?_
    by_contra hc
    have hs' := hwel i s hc
    rcases lt_or_gt_of_ne hi with h | h
    · exact hs (hT i ((mr i).mpr h) s hs')
    · obtain ⟨y, hy, hsy⟩ := help i ((mp i).mpr h) s hs'
      exact hs (hT y hy s hsy)
  set T := (X.elems A.comp ++ X.elems B.comp).toFinset with hT
  have hTc : (T.card : ℤ) ≤ n := by rw [hT, List.card_toFinset]; exact hR.room
  set T1 := (X.elems A.comp ++ X.elems B.comp ++ [el]).toFinset with hT1
  have hT1c : T1.card ≤ 9 := by rw [hT1, List.card_toFinset]; exact hR.nine
  have hT1T : T1.card ≤ T.card + 1 := by
    have : T1 = insert el T := by ext s; simp [hT1, hT]
    rw [this]
    exact Finset.card_insert_le _ _
  have hrT1 : ∀ z ∈ r, ∀ s ∈ X.elems z.comp, s ∈ T1 := by
    intro z hz s hs
    simp only [hT1, List.mem_toFinset, List.mem_append, List.mem_singleton]
    rcases hneg z ((mr z).mp hz) with rfl | rfl | rfl
    · exact .inl (.inl hs)
    · exact .inl (.inr hs)
    · exact .inr (R.pure s hs)
  have hone : ∀ l : List Sym, l.length ≤ 1 → ∀ s ∈ l, ∀ e ∈ l, e = s := by
    intro l hl s hs e he
    match l, hl with
    | [a], _ => rw [List.mem_singleton.mp he, List.mem_singleton.mp hs]
  have found : ∃ x ∈ out ++ out', x.reactants.toFinset = r.toFinset ∧ x.products.toFinset = p.toFinset := by
    by_cases hu0 : u O = 0
    · -- closed
      have hneg' : ∀ z ∈ r, z = A ∨ z = B := by
        intro z hz
        rcases hneg z ((mr z).mp hz) with h | h | rfl
        · exact .inl h
        · exact .inr h
        · have := (mr z).mp hz; linarith
      have hrT : ∀ z ∈ r, ∀ s ∈ X.elems z.comp, s ∈ T := by
        intro z hz s hs
        rw [hT, List.mem_toFinset, List.mem_append]
        rcases hneg' z hz with rfl | rfl
        · exact .inl hs
        · exact .inr hs
      have hs := hsize T hrT
      have hr1 := List.length_pos_of_mem hzr
      have hr2 : r.length ≤ 2 := by
        rw [← List.toFinset_card_of_nodup nr]
        refine (Finset.card_le_card (t := {A, B}) fun z hz => ?_).trans (Finset.card_le_two)
        rcases hneg' z (List.mem_toFinset.mp hz) with rfl | rfl <;> simp
      have hsought : Sought X { cfg with openEntries := [] } entries n r p (fun z => -(u z)) u := by
        refine ⟨nr, np, r0, p0, ?_, ?_, inr, inp, hdis, hbal, ⟨?_, ?_, fun h => absurd hA.targets h, fun h => absurd hA.targets h⟩, ⟨?_, ?_⟩,
          fun h => absurd hA.system h⟩
        · have := hR.two; omega
        · omega
        · intro hne _ e he _
          rcases hA.precursors with h | ⟨ha, hb⟩
          · exact absurd h hne
          · rcases hneg' e he with rfl | rfl
            · exact ha
            · exact hb
        · intro hne _
          refine ⟨zr, hzr, by simp, ?_⟩
          rcases hA.precursors with h | ⟨ha, hb⟩
          · exact absurd h hne
          · rcases hneg' zr hzr with h | h
            · rw [h]; exact ha
            · rw [h]; exact hb
        · by_contra hlt
          obtain ⟨s, hs⟩ := List.exists_mem_of_ne_nil _ (R.symbols.ne zr)
          have hmm : ∀ y ∈ r, ∀ e ∈ X.elems y.comp, e ∈ (r.flatMap fun e => X.elems e.comp).dedup := by
            intro y hy e he
            rw [List.mem_dedup, List.mem_flatMap]
            exact ⟨y, hy, he⟩
          have h1 := hone _ (by omega) s (hmm zr hzr s hs)
          have : zr = zp := hO zr (inr zr hzr) zp (inp zp hzp) s (fun e he => h1 e (hmm zr hzr e he)) (fun e he => by
            obtain ⟨y, hy, hey⟩ := help zp hzp e he
            exact h1 e (hmm y hy e hey))
          exact hdis zr hzr (this ▸ hzp)
        · refine le_trans ?_ hT1c
          rw [← List.card_toFinset]
          refine Finset.card_le_card fun s hs => ?_
          rw [List.mem_toFinset, List.mem_flatMap] at hs
          obtain ⟨y, hy, hsy⟩ := hs
          exact hrT1 y hy s hsy
      obtain ⟨x, hx, h1, h2⟩ := (C132_exact_partial X R.lawful R.symbols _ R.plain entries R.distinct R.sharp n out S.run r p nr np).1.mpr ⟨_, _, hsought⟩
      exact ⟨x, List.mem_append_left _ hx, h1, h2⟩
    · -- open
      have hOr : O ∈ r ∨ O ∈ p := by
        rcases lt_or_gt_of_ne hu0 with h | h
        · exact .inl ((mr O).mpr h)
        · exact .inr ((mp O).mpr h)
      have hnr : ∃ z ∈ r, z ≠ O := by
        by_contra hc
        push Not at hc
        refine hdis zr hzr ?_
        have : zp = O := R.lone zp (inp zp hzp) fun e he => by
          obtain ⟨y, hy, hey⟩ := help zp hzp e he
          rw [hc y hy] at hey
          exact R.pure e hey
        rw [hc zr hzr, ← this]
        exact hzp
      have hnp : ∃ z ∈ p, z ≠ O := by
        by_contra hc
        push Not at hc
        refine hdis zr hzr ?_
        have : zr = O := R.lone zr (inr zr hzr) fun e he => by
          obtain ⟨y, hy, hey⟩ := helr zr hzr e he
          rw [hc y hy] at hey
          exact R.pure e hey
        rw [this, ← hc zp hzp]
        exact hzp
      have hs := hsize T1 hrT1
      have key : ∀ l : List (Entry κ), (∃ z ∈ l, z ≠ O) → 0 < (l.filter fun x => decide (x ∉ cfg.openEntries)).length := by
        rintro l ⟨z, hz, hne⟩
        exact List.length_pos_of_mem (List.mem_filter.mpr ⟨hz, by rw [R.single]; simpa using hne⟩)
      have less : ∀ l : List (Entry κ), O ∈ l → (l.filter fun x => decide (x ∉ cfg.openEntries)).length + 1 ≤ l.length := by
        intro l hl
        exact List.length_filter_lt_length_iff_exists.mpr ⟨O, hl, by rw [R.single]; simp⟩
      have le : ∀ l : List (Entry κ), (l.filter fun x => decide (x ∉ cfg.openEntries)).length ≤ l.length := fun l => List.length_filter_le _ _
      have kr := key r hnr
      have kp := key p hnp
      have tot : (r.filter fun x => decide (x ∉ cfg.openEntries)).length + (p.filter fun x => decide (x ∉ cfg.openEntries)).length ≤ T.card + 1 := by
        have := le r
        have := le p
        rcases hOr with h | h
        · have := less r h; omega
        · have := less p h; omega
      have hsought : SoughtOpen X cfg entries n r p (fun z => -(u z)) u := by
        refine ⟨nr, np, ?_, ?_, ?_, ?_, inr, inp, hdis, ?_, hbal, ⟨?_, ?_, fun h => absurd hA.targets h, fun h => absurd hA.targets h⟩, ⟨?_, ?_⟩,
          fun h => absurd hA.system h⟩
        · obtain ⟨z, hz, hne⟩ := hnr
          exact ⟨z, hz, by rw [R.single]; simpa using hne⟩
        · obtain ⟨z, hz, hne⟩ := hnp
          exact ⟨z, hz, by rw [R.single]; simpa using hne⟩
        · omega
        · omega
        · rw [R.single]
          rcases hOr with h | h
          · exact .inr ⟨fun z hz hz' => hdis O h (by rw [List.mem_singleton] at hz'; exact hz' ▸ hz), O, h, by simp⟩
          · exact .inl ⟨fun z hz hz' => hdis z hz (by rw [List.mem_singleton] at hz'; exact hz' ▸ h), O, h, by simp⟩
        · intro hne _ e he hno
          rcases hA.precursors with h | ⟨ha, hb⟩
          · exact absurd h hne
          · rcases hneg e ((mr e).mp he) with rfl | rfl | rfl
            · exact ha
            · exact hb
            · exact absurd (by rw [R.single]; simp) hno
        · intro hne _
          obtain ⟨z, hz, hzO⟩ := hnr
          refine ⟨z, hz, by rw [R.single]; simpa using hzO, ?_⟩
          rcases hA.precursors with h | ⟨ha, hb⟩
          · exact absurd h hne
          · rcases hneg z ((mr z).mp hz) with h | h | h
            · rw [h]; exact ha
            · rw [h]; exact hb
            · exact absurd h hzO
        · by_contra hlt
          obtain ⟨z, hz, hzO⟩ := hnr
          obtain ⟨s, hs, hsel⟩ := R.has z (inr z hz) hzO
          refine hsel (hone (els (fun e => X.elems e.comp) r (cfg.openEntries.flatMap fun e => X.elems e.comp)).dedup (by omega) el ?_ s ?_)
          · unfold els
            rw [List.mem_dedup, List.mem_append, R.single]
            right
            simp [R.elemsO]
          · unfold els
            rw [List.mem_dedup, List.mem_append, List.mem_flatMap]
            exact .inl ⟨z, hz, hs⟩
        · refine le_trans ?_ hT1c
          rw [← List.card_toFinset]
          refine Finset.card_le_card fun s hs => ?_
          unfold els at hs
          rw [List.mem_toFinset, List.mem_append, R.single] at hs
          rcases hs with hs | hs
          · obtain ⟨y, hy, hsy⟩ := List.mem_flatMap.mp hs
            exact hrT1 y hy s hsy
          · rw [List.flatMap_singleton, R.elemsO, List.mem_singleton] at hs
            rw [hT1, hs]; simp
      obtain ⟨x, hx, h1, h2⟩ := (C134_exact_partial X R.lawful R.symbols cfg entries R.opened R.distinct R.sharp n out' S.runOpen r p nr np).1.mpr ⟨_, _, hsought⟩
      exact ⟨x, List.mem_append_right _ hx, h1, h2⟩
  obtain ⟨x, hx, hxr, hxp⟩ := found
  have hxr' : ∀ z, z ∈ x.reactants ↔ u z < 0 := fun z => by
    rw [← List.mem_toFinset, hxr, List.mem_toFinset, mr]
  have hxp' : ∀ z, z ∈ x.products ↔ 0 < u z := fun z => by
    rw [← List.mem_toFinset, hxp, List.mem_toFinset, mp]
  have hx' : x ∈ gs.map viewOf := S.between.1.mem_iff.mpr (List.mem_filter.mpr ⟨hx, by
    simp only [decide_eq_true_eq]
    exact fun z hz => hneg z ((hxr' z).mp hz)⟩)
  obtain ⟨g, hg, rfl⟩ := List.mem_map.mp hx'
  have hG := S.between.2 g hg
  obtain ⟨t, ht⟩ := hu.unique (amount g) (Verif.Props.GroundState.genuine_kernel hG) (fun z hz => by
    by_contra hc
    rcases lt_or_gt_of_ne hc with h | h
    · have := (hxr' z).mp ((Verif.Props.GroundState.mem_reactants hG z).mpr h)
      linarith
    · have := (hxp' z).mp ((Verif.Props.GroundState.mem_products hG z).mpr h)
      linarith)
  refine ⟨g, hg, t, ?_, ht⟩
  have hzp' := (mp zp).mp hzp
  have h1 := (Verif.Props.GroundState.mem_products hG zp).mp ((hxp' zp).mpr hzp')
  rw [ht zp] at h1
  exact pos_of_mul_pos_left h1 hzp'.le

/-! ### Helper lemmas: mixtures -/

theorem Reservoir.solid_sum (R : Reservoir X cfg entries el O A B) (f : Entry κ → ℚ) (hf : f O = 0) :
    ((solids entries O).map f).sum = ∑ z ∈ entries.toFinset, f z := by
  have hnd : entries.Nodup := List.Nodup.of_map _ R.distinct
  unfold solids
  rw [← List.sum_toFinset _ (hnd.filter _)]
  apply Finset.sum_subset
  · intro z hz
    rw [List.mem_toFinset] at hz ⊢
    exact (List.mem_filter.mp hz).1
  · intro z hz hn
    have : z = O := by
      by_contra hc
      exact hn (List.mem_toFinset.mpr (List.mem_filter.mpr ⟨List.mem_toFinset.mp hz, by simpa using hc⟩))
    rw [this, hf]

theorem amt_fac (X : Chem κ Sym) (hX : X.Lawful) (z : Entry κ) (s : Sym) : X.amt z.comp s = X.fac z.comp * w X z s := hX.red_amt z.comp s

theorem ratio (X : Chem κ Sym) (hX : X.Lawful) (el : Sym) (z : Entry κ) (s : Sym) : X.amt z.comp s / other X el z = w X z s / mo X el z := by
  rw [amt_fac X hX, other_fac X hX, mul_div_mul_left _ _ (hX.fac_pos _).ne']

theorem ratio_ef (X : Chem κ Sym) (hX : X.Lawful) (el : Sym) (μ : ℚ) (O z : Entry κ) (hz : z ≠ O) :
    potential X el μ z / other X el z = ef X el μ O z / mo X el z := by
  unfold ef
  rw [if_neg hz, other_fac X hX, div_div]

theorem Reservoir.mixes_iff (R : Reservoir X cfg entries el O A B) (μ x e : ℚ) :
    OpenMixes X (solids entries O) el μ A B x e ↔ 0 ≤ x ∧ x ≤ 1 ∧ ∃ k : Entry κ → ℚ, (∀ z, 0 ≤ k z) ∧
      (∀ s, s ≠ el → ∑ z ∈ entries.toFinset, k z * w X z s = (1 - x) / mo X el A * w X A s + x / mo X el B * w X B s) ∧
      e = ∑ z ∈ entries.toFinset, k z * ef X el μ O z - ((1 - x) / mo X el A * ef X el μ O A + x / mo X el B * ef X el μ O B) := by
  have hX := R.lawful
  have hfac := fun z : Entry κ => hX.fac_pos z.comp
  have cw : ∀ (k : Entry κ → ℚ) s, s ≠ el → ((solids entries O).map fun z => k z * w X z s).sum = ∑ z ∈ entries.toFinset, k z * w X z s :=
    fun k s hs => R.solid_sum _ (by simp only [R.wO' s hs, mul_zero])
  have ce : ∀ k : Entry κ → ℚ, ((solids entries O).map fun z => k z * ef X el μ O z).sum = ∑ z ∈ entries.toFinset, k z * ef X el μ O z :=
    fun k => R.solid_sum _ (by simp [ef])
  have pe : ∀ z ∈ solids entries O, potential X el μ z = X.fac z.comp * ef X el μ O z := by
    intro z hz
    have : z ≠ O := by simpa using (List.mem_filter.mp hz).2
    unfold ef
    rw [if_neg this, mul_div_cancel₀ _ (hfac z).ne']
  unfold OpenMixes
  refine and_congr_right fun _ => and_congr_right fun _ => ⟨?_, ?_⟩
  · rintro ⟨q, h1, h2, h3⟩
    refine ⟨fun z => q z * X.fac z.comp, fun z => mul_nonneg (h1 z) (hfac z).le, fun s hs => ?_, ?_⟩
    · have := h2 s hs
      rw [ratio X hX, ratio X hX] at this
      rw [← cw _ s hs]
      have e1 : (solids entries O).map (fun z => q z * X.fac z.comp * w X z s) = (solids entries O).map fun z => q z * X.amt z.comp s :=
        List.map_congr_left fun z _ => by rw [amt_fac X hX]; ring
      rw [e1, this]; ring
    · rw [h3, ratio_ef X hX el μ O A R.notA, ratio_ef X hX el μ O B R.notB, ← ce]
      have e1 : (solids entries O).map (fun z => q z * X.fac z.comp * ef X el μ O z) = (solids entries O).map fun z => q z * potential X el μ z :=
        List.map_congr_left fun z hz => by rw [pe z hz]; ring
      rw [e1]; ring
  · rintro ⟨k, h1, h2, h3⟩
    refine ⟨fun z => k z / X.fac z.comp, fun z => div_nonneg (h1 z) (hfac z).le, fun s hs => ?_, ?_⟩
    · rw [ratio X hX, ratio X hX]
      have e1 : (solids entries O).map (fun z => k z / X.fac z.comp * X.amt z.comp s) = (solids entries O).map fun z => k z * w X z s :=
        List.map_congr_left fun z _ => by rw [amt_fac X hX, ← mul_assoc, div_mul_cancel₀ _ (hfac z).ne']
      rw [e1, cw _ s hs, h2 s hs]; ring
    · rw [h3, ratio_ef X hX el μ O A R.notA, ratio_ef X hX el μ O B R.notB, ← ce]
      have e1 : (solids entries O).map (fun z => k z / X.fac z.comp * potential X el μ z) = (solids entries O).map fun z => k z * ef X el μ O z :=
        List.map_congr_left fun z hz => by rw [pe z hz, ← mul_assoc, div_mul_cancel₀ _ (hfac z).ne']
      rw [e1]; ring

theorem openMixes_convex {phases : List (Entry κ)} {x y e f t : ℚ} (h1 : OpenMixes X phases el μ A B x e) (h2 : OpenMixes X phases el μ A B y f)
    (h0 : 0 ≤ t) (h3 : t ≤ 1) : OpenMixes X phases el μ A B ((1 - t) * x + t * y) ((1 - t) * e + t * f) := by
  obtain ⟨a1, a2, q, q1, q2, q3⟩ := h1
  obtain ⟨b1, b2, k, k1, k2, k3⟩ := h2
  have hsum : ∀ g : Entry κ → ℚ, (phases.map fun z => ((1 - t) * q z + t * k z) * g z).sum
      = (1 - t) * (phases.map fun z => q z * g z).sum + t * (phases.map fun z => k z * g z).sum := by
    intro g
    rw [← List.sum_map_mul_left, ← List.sum_map_mul_left, ← List.sum_map_add]
    congr 1
    exact List.map_congr_left fun z _ => by ring
  refine ⟨by nlinarith, by nlinarith, fun z => (1 - t) * q z + t * k z, fun z => ?_, fun s hs => ?_, ?_⟩
  · exact add_nonneg (mul_nonneg (by linarith) (q1 z)) (mul_nonneg h0 (k1 z))
  · rw [hsum, q2 s hs, k2 s hs]; ring
  · rw [hsum, q3, k3]; ring

theorem Reservoir.mixes_ends (R : Reservoir X cfg entries el O A B) (μ : ℚ) :
    OpenMixes X (solids entries O) el μ A B 0 0 ∧ OpenMixes X (solids entries O) el μ A B 1 0 := by
  have key : ∀ C ∈ entries, ∀ c : ℚ, ∀ g : Entry κ → ℚ, ∑ z ∈ entries.toFinset, (if z = C then c else 0) * g z = c * g C := by
    intro C hC c g
    simp [hC]
  rw [R.mixes_iff, R.mixes_iff]
  constructor
  · refine ⟨le_refl _, by norm_num, fun z => if z = A then 1 / mo X el A else 0, fun z => ?_, fun s _ => ?_, ?_⟩
    · dsimp only; split_ifs
      · exact one_div_nonneg.mpr R.moA.le
      · exact le_rfl
    · rw [key A R.inA]; ring
    · rw [key A R.inA]; ring
  · refine ⟨by norm_num, le_refl _, fun z => if z = B then 1 / mo X el B else 0, fun z => ?_, fun s _ => ?_, ?_⟩
    · dsimp only; split_ifs
      · exact one_div_nonneg.mpr R.moB.le
      · exact le_rfl
    · rw [key B R.inB]; ring
    · rw [key B R.inB]; ring

/-- Every reaction of `A` and `B` is a mixture at its share of `B`. -/
theorem OpenSetup.point (S : OpenSetup X cfg entries n el μ O A B out out' gs h) (g : CRxn κ) (hg : g ∈ gs) (y : ℚ)
    (hy : oenergyPerAtom X (toOpen X el μ g) = .ok y) :
    OpenMixes X (solids entries O) el (absolute X el O μ) A B (takenOpen X el g B / (takenOpen X el g A + takenOpen X el g B)) y := by
  have R := S.phases
  have hG := S.between.2 g hg
  obtain ⟨honly, hNp⟩ := S.pos g hg
  obtain ⟨h1, -⟩ := R.readings μ g hG honly
  rw [takenOpen_eq hG, takenOpen_eq hG]
  set N := neg (amount g) A * mo X el A + neg (amount g) B * mo X el B with hN
  have hN0 := hNp.ne'
  rw [h1] at hy
  unfold perAtom at hy
  simp only [if_neg hN0] at hy
  have hy := Except.ok.inj hy
  have hA0 : 0 ≤ neg (amount g) A * mo X el A := mul_nonneg (le_max_left _ _) R.moA.le
  have hB0 : 0 ≤ neg (amount g) B * mo X el B := mul_nonneg (le_max_left _ _) R.moB.le
  have e1 : 1 - neg (amount g) B * mo X el B / N = neg (amount g) A * mo X el A / N := by rw [eq_div_iff hN0, sub_mul, div_mul_cancel₀ _ hN0]; rw [hN]; ring
  have hnegs : ∀ f : Entry κ → ℚ, f O = 0 → ∑ z ∈ entries.toFinset, neg (amount g) z * f z = neg (amount g) A * f A + neg (amount g) B * f B := by
    intro f hf
    have hsub : ({A, B, O} : Finset (Entry κ)) ⊆ entries.toFinset := by
      intro z hz
      rw [List.mem_toFinset]
      simp only [Finset.mem_insert, Finset.mem_singleton] at hz
      rcases hz with rfl | rfl | rfl
      · exact R.inA
      · exact R.inB
      · exact R.inO
    rw [← Finset.sum_subset hsub]
    · rw [Finset.sum_insert (by simp [R.differ, R.notA]), Finset.sum_pair R.notB, hf]
      ring
    · intro z _ hz
      have : ¬ amount g z < 0 := fun h => hz (by rcases honly z h with rfl | rfl | rfl <;> simp)
      unfold neg
      rw [max_eq_left (by linarith [not_lt.mp this]), zero_mul]
  have hsum : ∀ f : Entry κ → ℚ, f O = 0 → ∑ z ∈ entries.toFinset, max 0 (amount g z) / N * f z
      = (∑ z ∈ entries.toFinset, amount g z * f z) / N + (neg (amount g) A * f A + neg (amount g) B * f B) / N := by
    intro f hf
    rw [← hnegs f hf, Finset.sum_div, Finset.sum_div, ← Finset.sum_add_distrib]
    refine Finset.sum_congr rfl fun z _ => ?_
    rw [Verif.Props.GroundState.pos_sub_neg (amount g) z]
    have : max 0 (max 0 (amount g z) - neg (amount g) z) = max 0 (amount g z) := by rw [← Verif.Props.GroundState.pos_sub_neg]
    rw [this]; ring
  rw [R.mixes_iff, e1]
  refine ⟨div_nonneg hB0 hNp.le, by rw [div_le_one hNp, hN]; linarith, fun z => max 0 (amount g z) / N, fun z => div_nonneg (le_max_left _ _) hNp.le, fun s hs => ?_, ?_⟩
  · rw [hsum (fun z => w X z s) (R.wO' s hs), (Verif.Props.GroundState.genuine_kernel hG).2 s]
    have := R.moA.ne'
    have := R.moB.ne'
    field_simp
    ring
  · rw [hsum (fun z => ef X el (absolute X el O μ) O z) (by simp [ef]), ← hy]
    have := R.moA.ne'
    have := R.moB.ne'
    field_simp
    ring

theorem OpenSetup.coords (S : OpenSetup X cfg entries n el μ O A B out out' gs h) :
    (∀ g ∈ gs, ∃ p ∈ h.coords, coordOpen X A B (toOpen X el μ g) = .ok p.1 ∧ oenergyPerAtom X (toOpen X el μ g) = .ok p.2) ∧
    (0, 0) ∈ h.coords ∧ (1, 0) ∈ h.coords ∧
    ∀ p ∈ h.coords, p = (0, 0) ∨ p = (1, 0) ∨
      ∃ g ∈ gs, coordOpen X A B (toOpen X el μ g) = .ok p.1 ∧ oenergyPerAtom X (toOpen X el μ g) = .ok p.2 := by
  obtain ⟨ident, argsort, hs, hh⟩ := S.hull
  obtain ⟨a, b, pts, -, -, -, -, hf, -, -, -, hp, -⟩ := Verif.Props.HullInit.C92_aligned _ _ _ _ _ _ hs _ _ _ h hh
  obtain ⟨hl, hfg⟩ := List.forall₂_iff_get.mp hf
  refine ⟨fun g hg => ?_, by rw [hp.mem_iff]; simp, by rw [hp.mem_iff]; simp, fun p hm => ?_⟩
  · obtain ⟨i, hi, hgi⟩ := List.mem_iff_getElem.mp (List.mem_map.mpr ⟨g, hg, rfl⟩ : toOpen X el μ g ∈ gs.map (toOpen X el μ))
    have := hfg i hi (hl ▸ hi)
    simp only [List.get_eq_getElem, hgi] at this
    exact ⟨pts[i]'(hl ▸ hi), hp.mem_iff.mpr (List.mem_append_left _ (List.getElem_mem _)), this⟩
  · rcases List.mem_append.mp (hp.mem_iff.mp hm) with h' | h'
    · obtain ⟨i, hi, rfl⟩ := List.mem_iff_getElem.mp h'
      obtain ⟨g, hg, hgi⟩ := List.mem_map.mp (List.getElem_mem (hl ▸ hi : i < (gs.map (toOpen X el μ)).length))
      have := hfg i (hl ▸ hi) hi
      simp only [List.get_eq_getElem, ← hgi] at this
      exact .inr (.inr ⟨g, hg, this⟩)
    · simp only [List.mem_cons, List.not_mem_nil, or_false] at h'
      rcases h' with rfl | rfl
      · exact .inl rfl
      · exact .inr (.inl rfl)

theorem OpenSetup.near (S : OpenSetup X cfg entries n el μ O A B out out' gs h) {δ : ℚ} (hδ : OffOpen X el μ A B gs δ) (h0 : 0 ≤ δ) (p : ℚ × ℚ)
    (hp : p ∈ h.coords) : ∃ x, |x - p.1| ≤ δ ∧ OpenMixes X (solids entries O) el (absolute X el O μ) A B x p.2 := by
  obtain ⟨e1, e2⟩ := S.phases.mixes_ends (absolute X el O μ)
  rcases S.coords.2.2.2 p hp with rfl | rfl | ⟨g, hg, h1, h2⟩
  · exact ⟨0, by simpa using h0, e1⟩
  · exact ⟨1, by simpa using h0, e2⟩
  · exact ⟨_, by rw [abs_sub_comm]; exact hδ g hg _ h1, S.point g hg _ h2⟩

/-- Lines below the hull stay below every mixture. -/
theorem OpenSetup.lower (S : OpenSetup X cfg entries n el μ O A B out out' gs h) (hO : OneEach X entries) (hA : Admits cfg A B) (hR : RoomyOpen X el A B n)
    {δ : ℚ} (hδ : OffOpen X el μ A B gs δ) (hδ0 : 0 ≤ δ) (x e : ℚ) (hx : OpenMixes X (solids entries O) el (absolute X el O μ) A B x e) :
    ∃ x', |x' - x| ≤ δ ∧ 0 ≤ x' ∧ x' ≤ 1 ∧ ∀ s t : ℚ, (∀ q ∈ h.coords, s * q.1 + t ≤ q.2) → s * x' + t ≤ e := by
  have R := S.phases
  set μ' := absolute X el O μ with hμ
  have hmA := R.moA
  have hmB := R.moB
  rw [R.mixes_iff] at hx
  obtain ⟨hx0, hx1, k, hk, hks, rfl⟩ := hx
  have hAE := List.mem_toFinset.mpr R.inA
  have hBE := List.mem_toFinset.mpr R.inB
  have hOE := List.mem_toFinset.mpr R.inO
  set v0 : Entry κ → ℚ := fun z => if z ∈ entries.toFinset then k z - (if z = A then (1 - x) / mo X el A else 0) - (if z = B then x / mo X el B else 0) else 0 with hv0
  have hv0sum : ∀ f : Entry κ → ℚ, ∑ z ∈ entries.toFinset, v0 z * f z
      = ∑ z ∈ entries.toFinset, k z * f z - ((1 - x) / mo X el A * f A + x / mo X el B * f B) := by
    intro f
    have e1 : ∀ z ∈ entries.toFinset, v0 z * f z = k z * f z - (if z = A then (1 - x) / mo X el A * f z else 0) - (if z = B then x / mo X el B * f z else 0) := by
      intro z hz
      rw [hv0]
      simp only [if_pos hz]
      split_ifs <;> ring
    rw [Finset.sum_congr rfl e1, Finset.sum_sub_distrib, Finset.sum_sub_distrib, Finset.sum_ite_eq', Finset.sum_ite_eq', if_pos hAE, if_pos hBE]
    ring
  -- the exchange with the environment makes up for the open element
  set c := (∑ z ∈ entries.toFinset, v0 z * w X z el) / w X O el with hc
  set v : Entry κ → ℚ := fun z => v0 z - (if z = O then c else 0) with hv
  have hvsum : ∀ f : Entry κ → ℚ, ∑ z ∈ entries.toFinset, v z * f z = ∑ z ∈ entries.toFinset, v0 z * f z - c * f O := by
    intro f
    have e1 : ∀ z ∈ entries.toFinset, v z * f z = v0 z * f z - (if z = O then c * f z else 0) := by
      intro z _
      simp only [hv]
      split_ifs <;> ring
    rw [Finset.sum_congr rfl e1, Finset.sum_sub_distrib, Finset.sum_ite_eq', if_pos hOE]
  have hker : Kernel entries.toFinset (w X) v := by
    refine ⟨fun z hz => ?_, fun s => ?_⟩
    · simp only [hv, hv0, if_neg hz]
      rw [if_neg (by rintro rfl; exact hz hOE), sub_zero]
    · rw [hvsum fun z => w X z s]
      by_cases hs : s = el
      · rw [hs, hc, div_mul_cancel₀ _ R.wO.ne', sub_self]
      · rw [R.wO' s hs, mul_zero, sub_zero, hv0sum, hks s hs, sub_self]
  have hvneg : ∀ z, v z < 0 → z = A ∨ z = B ∨ z = O := by
    intro z hz
    by_contra hcon
    push Not at hcon
    simp only [hv, hv0, if_neg hcon.1, if_neg hcon.2.1, if_neg hcon.2.2] at hz
    have := hk z
    split_ifs at hz <;> linarith
  have hvA : v A = k A - (1 - x) / mo X el A := by
    simp only [hv, hv0, if_pos hAE, if_neg R.differ, if_true, if_neg R.notA]; ring
  have hvB : v B = k B - x / mo X el B := by
    simp only [hv, hv0, if_pos hBE, if_neg (Ne.symm R.differ), if_true, if_neg R.notB]; ring
  have hnA : neg v A * mo X el A ≤ 1 - x := by
    unfold neg
    rw [max_mul_of_nonneg _ _ hmA.le, zero_mul]
    refine max_le (by linarith) ?_
    rw [hvA, neg_sub, sub_mul, div_mul_cancel₀ _ hmA.ne']
    have := mul_nonneg (hk A) hmA.le
    linarith
  have hnB : neg v B * mo X el B ≤ x := by
    unfold neg
    rw [max_mul_of_nonneg _ _ hmB.le, zero_mul]
    refine max_le (by linarith) ?_
    rw [hvB, neg_sub, sub_mul, div_mul_cancel₀ _ hmB.ne']
    have := mul_nonneg (hk B) hmB.le
    linarith
  have hfin := core entries.toFinset (w X) (ef X el μ' O) (mo X el) A B h.coords S.coords.2.1 S.coords.2.2.1 hδ0 v hker x hnA hnB ?_
  · rw [hvsum (ef X el μ' O), hv0sum] at hfin
    have hO0 : ef X el μ' O O = 0 := by simp [ef]
    rw [hO0, mul_zero, sub_zero] at hfin
    exact hfin
  · intro u hu hf
    have huneg : ∀ z, u z < 0 → z = A ∨ z = B ∨ z = O := by
      intro z hz
      refine hvneg z ?_
      have := hf z hz.ne
      by_contra hcon
      have := mul_nonpos_of_nonpos_of_nonneg hz.le (not_lt.mp hcon)
      linarith
    obtain ⟨g, hg, t, ht, hgu⟩ := S.step hO hA hR u hu huneg
    have hG := S.between.2 g hg
    obtain ⟨p, hp, hp1, hp2⟩ := S.coords.1 g hg
    obtain ⟨ho, hpos⟩ := S.pos g hg
    obtain ⟨h1, h2⟩ := R.readings μ g hG ho
    obtain ⟨c', hc', c0, c1, -⟩ := h2 hpos.ne'
    rw [hp1] at hc'
    have hc' := Except.ok.inj hc'
    have hneg : ∀ z, neg (amount g) z = t * neg u z := by
      intro z
      unfold neg
      rw [hgu z, ← mul_neg, mul_max_of_nonneg _ _ ht.le, mul_zero]
    have hoff := hδ g hg _ hp1
    rw [takenOpen_eq hG, takenOpen_eq hG, hneg, hneg] at hoff
    rw [hneg, hneg] at h1 hpos
    set N := neg u A * mo X el A + neg u B * mo X el B with hN
    have eN : t * neg u A * mo X el A + t * neg u B * mo X el B = t * N := by rw [hN]; ring
    rw [eN] at hoff h1 hpos
    rw [hp2] at h1
    unfold perAtom at h1
    simp only [if_neg hpos.ne'] at h1
    have h1 := Except.ok.inj h1
    have hNp : 0 < N := pos_of_mul_pos_right hpos ht.le
    refine ⟨p, hp, hc' ▸ c0, hc' ▸ c1, hNp.le, ?_, ?_⟩
    · have e1 : p.1 * N - neg u B * mo X el B = (p.1 - t * neg u B * mo X el B / (t * N)) * N := by
        have := ht.ne'
        have := hNp.ne'
        field_simp
      rw [e1, abs_mul, abs_of_pos hNp]
      exact mul_le_mul_of_nonneg_right hoff hNp.le
    · rw [h1]
      have : ∑ z ∈ entries.toFinset, amount g z * ef X el (absolute X el O μ) O z = t * ∑ z ∈ entries.toFinset, u z * ef X el μ' O z := by
        rw [Finset.mul_sum]
        exact Finset.sum_congr rfl fun z _ => by rw [hgu z]; ring
      rw [this]
      have := ht.ne'
      have := hNp.ne'
      field_simp

theorem OpenSetup.range (S : OpenSetup X cfg entries n el μ O A B out out' gs h) :
    ∀ o ∈ gs.map (toOpen X el μ), ∀ x, coordOpen X A B o = .ok x → 0 ≤ x ∧ x ≤ 1 := by
  intro o ho c hc
  obtain ⟨g, hg, rfl⟩ := List.mem_map.mp ho
  obtain ⟨h1, h2⟩ := S.pos g hg
  obtain ⟨c', h3, h4, h5, -⟩ := (S.phases.readings μ g (S.between.2 g hg) h1).2 h2.ne'
  rw [hc] at h3
  cases h3
  exact ⟨h4, h5⟩

theorem OpenSetup.attained (S : OpenSetup X cfg entries n el μ O A B out out' gs h) {δ : ℚ} (hδ : OffOpen X el μ A B gs δ) (hδ0 : 0 ≤ δ) (raw : List ℕ)
    (H : HullIndices h.coords raw) (hap : Apart' h.coords) (x : ℚ) (h0 : 0 ≤ x) (h1 : x ≤ 1)
    (hsep : ∀ p, LowerCorner h.coords p → Verif.Py.isclose x p.1 = true → x = p.1) :
    ∃ y, getHullEnergy ⟨h.coords, raw⟩ x = some y ∧ Envelope h.coords x y ∧
      ∃ x', |x' - x| ≤ δ ∧ OpenMixes X (solids entries O) el (absolute X el O μ) A B x' y := by
  obtain ⟨ident, argsort, hs, hh⟩ := S.hull
  obtain ⟨vs, G, hvs⟩ := Verif.Props.HullInit.C92_lower_hull _ _ _ _ _ _ hs _ _ _ h hh S.range raw H hap
  obtain ⟨y, hy, hch⟩ := Verif.Lemmas.Hull.hullEnergy_spec G h0 h1 (fun v hv => hsep v ((hvs v).mp hv))
  obtain ⟨a, b, hab, g1, g2, g3⟩ := hch
  have hlt := Verif.Lemmas.Hull.adjacent_lt G.lower.strict hab
  have ha : a ∈ vs := by obtain ⟨l, r, rfl⟩ := hab; simp
  have hb : b ∈ vs := by obtain ⟨l, r, rfl⟩ := hab; simp
  have hd : 0 < b.1 - a.1 := sub_pos.mpr hlt
  unfold Verif.Spec.Hull.OnLine at g3
  simp only at g1 g2 g3
  have hx : x = (1 - (x - a.1) / (b.1 - a.1)) * a.1 + (x - a.1) / (b.1 - a.1) * b.1 := by field_simp; ring
  have hyv : y = (1 - (x - a.1) / (b.1 - a.1)) * a.2 + (x - a.1) / (b.1 - a.1) * b.2 := by
    field_simp
    linarith
  have t0 : 0 ≤ (x - a.1) / (b.1 - a.1) := div_nonneg (by linarith) hd.le
  have t1 : (x - a.1) / (b.1 - a.1) ≤ 1 := by rw [div_le_one hd]; linarith
  refine ⟨y, hy, ⟨⟨(b.2 - a.2) / (b.1 - a.1), (a.2 * b.1 - b.2 * a.1) / (b.1 - a.1), fun q hq => ?_, ?_⟩, fun s t hst => ?_⟩, ?_⟩
  · have := G.lower.support a b hab q hq
    unfold Verif.Spec.Hull.AboveLine at this
    rw [div_mul_eq_mul_div, ← add_div, div_le_iff₀ hd]
    linarith
  · rw [div_mul_eq_mul_div, ← add_div, div_eq_iff hd.ne']
    linarith
  · have ha' := hst a ((hvs a).mp ha).1
    have hb' := hst b ((hvs b).mp hb).1
    generalize (x - a.1) / (b.1 - a.1) = t' at hx hyv t0 t1
    rw [hyv, hx]
    nlinarith [mul_le_mul_of_nonneg_left ha' (sub_nonneg.mpr t1), mul_le_mul_of_nonneg_left hb' t0]
  · obtain ⟨xa, ea, ma⟩ := S.near hδ hδ0 a ((hvs a).mp ha).1
    obtain ⟨xb, eb, mb⟩ := S.near hδ hδ0 b ((hvs b).mp hb).1
    have hmix := openMixes_convex ma mb t0 t1
    rw [← hyv] at hmix
    refine ⟨_, ?_, hmix⟩
    generalize (x - a.1) / (b.1 - a.1) = t' at hx t0 t1
    have e1 : (1 - t') * xa + t' * xb - x = (1 - t') * (xa - a.1) + t' * (xb - b.1) := by
      conv_lhs => rw [hx]
      ring
    rw [e1]
    refine (abs_add_le _ _).trans ?_
    rw [abs_mul, abs_mul, abs_of_nonneg (sub_nonneg.mpr t1), abs_of_nonneg t0]
    have := mul_le_mul_of_nonneg_left ea (sub_nonneg.mpr t1)
    have := mul_le_mul_of_nonneg_left eb t0
    linarith

/-! ### Theorems -/

/-- **C139, the reactions between two phases and a reservoir.** What the runs returned between `A`, `B` and the reservoir is made of exactly
balanced reaction objects of the given phases. -/
theorem C139_between (R : Reservoir X cfg entries el O A B) (hrun : Returns X { cfg with openEntries := [] } entries n out)
    (hopen : ReturnsOpen X cfg entries n out') : ∃ gs, BetweenOpen X entries A B O (out ++ out') gs := by
  have key : ∀ x ∈ out ++ out', ∃ g, Genuine X entries g ∧ viewOf g = x := by
    intro x hx
    have fin : ∀ (l : List (Rx (Entry κ))) (g : CRxn κ), x ∈ l → l.filter (fun z => decide (sides z = (x.reactants.toFinset, x.products.toFinset))) = [viewOf g] →
        viewOf g = x := by
      intro l g hl hg
      have : x ∈ l.filter fun z => decide (sides z = (x.reactants.toFinset, x.products.toFinset)) := List.mem_filter.mpr ⟨hl, by simp [sides]⟩
      rw [hg] at this
      exact (List.mem_singleton.mp this).symm
    rcases List.mem_append.mp hx with hx | hx
    · obtain ⟨a, b, hS⟩ := returned_sought X R.lawful R.symbols _ R.plain entries R.distinct R.sharp n out hrun x hx
      obtain ⟨g, hg, hw, s, hs, hp⟩ := (C132_exact_partial X R.lawful R.symbols _ R.plain entries R.distinct R.sharp n out hrun x.reactants x.products
        hS.nodupR hS.nodupP).2 a b hS
      exact ⟨g, genuine_of X entries _ _ a b hS.nodupR hS.nodupP hS.disjoint hS.inR hS.inP hS.balances g hw s hp, fin _ g hx hg⟩
    · obtain ⟨a, b, hS⟩ := returned_sought_open X R.lawful R.symbols cfg entries R.opened R.distinct R.sharp n out' hopen x hx
      obtain ⟨g, hg, hw, s, hs, hp⟩ := (C134_exact_partial X R.lawful R.symbols cfg entries R.opened R.distinct R.sharp n out' hopen x.reactants x.products
        hS.nodupR hS.nodupP).2 a b hS
      exact ⟨g, genuine_of X entries _ _ a b hS.nodupR hS.nodupP hS.disjoint hS.inR hS.inP hS.balances g hw s hp, fin _ g hx hg⟩
  have lift : ∀ l : List (Rx (Entry κ)), (∀ x ∈ l, x ∈ out ++ out') → ∃ gs : List (CRxn κ), gs.map viewOf = l ∧ ∀ g ∈ gs, Genuine X entries g := by
    intro l
    induction l with
    | nil => intro _; exact ⟨[], rfl, by simp⟩
    | cons x l ih =>
      intro hl
      obtain ⟨gs, h1, h2⟩ := ih fun y hy => hl y (List.mem_cons_of_mem _ hy)
      obtain ⟨g, hg, hgx⟩ := key x (hl x List.mem_cons_self)
      refine ⟨g :: gs, by rw [List.map_cons, h1, hgx], fun y hy => ?_⟩
      rcases List.mem_cons.mp hy with rfl | hy
      · exact hg
      · exact h2 y hy
  obtain ⟨gs, h1, h2⟩ := lift ((out ++ out').filter fun x => decide (∀ z ∈ x.reactants, z = A ∨ z = B ∨ z = O)) fun x hx => (List.mem_filter.mp hx).1
  exact ⟨gs, by rw [h1], h2⟩

/-- **C139, when there is a hull.** The hull of the returned reactions can be built at every chemical potential, unless `A` or `B` is in none of
them a reactant. -/
theorem C139_builds (R : Reservoir X cfg entries el O A B) (hrun : Returns X { cfg with openEntries := [] } entries n out)
    (hopen : ReturnsOpen X cfg entries n out') (hb : BetweenOpen X entries A B O (out ++ out') gs) (μ : ℚ) :
    (∃ h, HullOfOpen X A B (gs.map (toOpen X el μ)) h) ↔ (∃ g ∈ gs, A ∈ (viewOf g).reactants) ∧ ∃ g ∈ gs, B ∈ (viewOf g).reactants := by
  have hinj : ∀ y ∈ entries, ∀ z ∈ entries, X.red y.comp = X.red z.comp → y = z := fun y hy z hz h => List.inj_on_of_nodup_map R.distinct hy hz h
  have hin : ∀ g ∈ gs, ∀ z ∈ (viewOf g).reactants, z ∈ entries := by
    intro g hg z hz
    have hG := hb.2 g hg
    refine hG.mem z ?_
    by_contra hc
    have := (Verif.Props.GroundState.mem_reactants hG z).mp hz
    rw [amount, Verif.Props.GroundState.coeffOf_absent _ _ _ hc] at this
    exact lt_irrefl _ this
  have hro : ∀ g : CRxn κ, reactantsOf (toOpen X el μ g) = (viewOf g).reactants := fun g => rfl
  have hall : ∀ o ∈ gs.map (toOpen X el μ), (∃ x, coordOpen X A B o = .ok x) ∧ ∃ y, oenergyPerAtom X o = .ok y := by
    intro o ho
    obtain ⟨g, hg, rfl⟩ := List.mem_map.mp ho
    obtain ⟨ho, hpos⟩ := R.pos hrun hopen hb g hg
    obtain ⟨h1, h2⟩ := R.readings μ g (hb.2 g hg) ho
    obtain ⟨c, hc, -⟩ := h2 hpos.ne'
    refine ⟨⟨c, hc⟩, ?_⟩
    rw [h1]
    unfold perAtom
    simp only [if_neg hpos.ne']
    exact ⟨_, rfl⟩
  have hocc : Verif.Props.HullInit.BothOccur reactantsOf (fun e : Entry κ => X.red e.comp) (X.red A.comp) (X.red B.comp) (gs.map (toOpen X el μ)) ↔
      (∃ g ∈ gs, A ∈ (viewOf g).reactants) ∧ ∃ g ∈ gs, B ∈ (viewOf g).reactants := by
    unfold Verif.Props.HullInit.BothOccur
    constructor
    · rintro ⟨-, ⟨o, ho, e, he, h1⟩, o', ho', e', he', h2⟩
      obtain ⟨g, hg, rfl⟩ := List.mem_map.mp ho
      obtain ⟨g', hg', rfl⟩ := List.mem_map.mp ho'
      rw [hro] at he he'
      have := hinj e (hin g hg e he) A R.inA h1
      have h3 := hinj e' (hin g' hg' e' he') B R.inB h2
      subst this h3
      exact ⟨⟨g, hg, he⟩, g', hg', he'⟩
    · rintro ⟨⟨g, hg, he⟩, g', hg', he'⟩
      exact ⟨fun h => R.differ (hinj A R.inA B R.inB h), ⟨_, List.mem_map.mpr ⟨g, hg, rfl⟩, A, he, rfl⟩, _, List.mem_map.mpr ⟨g', hg', rfl⟩, B, he', rfl⟩
  rw [← hocc]
  constructor
  · rintro ⟨h, ident, argsort, -, hh⟩
    by_contra hc
    have := (Verif.Props.HullInit.C92_raises _ _ (coordOpen X A B) (oenergyPerAtom X) ident argsort _ _ (gs.map (toOpen X el μ))).1 hc
    rw [this] at hh
    cases hh
  · intro ho
    obtain ⟨-, ⟨o0, -, -⟩, -⟩ := id ho
    obtain ⟨h, hh⟩ := ((Verif.Props.HullInit.C92_raises _ _ (coordOpen X A B) (oenergyPerAtom X) (fun _ => o0) Verif.Props.HullInit.exArgsort _ _
      (gs.map (toOpen X el μ))).2 ho).1.mpr hall
    exact ⟨h, _, _, Verif.Props.HullInit.exArgsort_sorts, hh⟩

/-- **C139, nothing is missed.** No mixture of `A` and `B` that exchanges `el` with a reservoir can turn into phases with a lower grand potential
than the lower hull shows, at a coordinate that differs from the mixture by at most 5e-13. The potential of the reservoir is the given one
plus the energy per atom of the pure element. Missing: that the given potential is the potential of the reservoir (it is not, see
`C139_reference_violated`), and fewer phases per side than elements (`C136_small_n_violated`). -/
theorem C139_no_lower_partial (S : OpenSetup X cfg entries n el μ O A B out out' gs h) (hO : OneEach X entries) (hA : Admits cfg A B)
    (hR : RoomyOpen X el A B n) (x e : ℚ) (hx : OpenMixes X (solids entries O) el (absolute X el O μ) A B x e) :
    ∃ x', |x' - x| ≤ 1 / (2 * 10 ^ 12) ∧ 0 ≤ x' ∧ x' ≤ 1 ∧ ∀ y, Envelope h.coords x' y → y ≤ e := by
  obtain ⟨x', h1, h2, h3, h4⟩ := S.lower hO hA hR S.off (by norm_num) x e hx
  refine ⟨x', h1, h2, h3, fun y hy => ?_⟩
  obtain ⟨⟨s, t, hst, rfl⟩, -⟩ := hy
  exact h4 s t hst

/-- **C139, the hull is reached.** The hull energy at `x` is the change of the grand potential when a mixture within 5e-13 of `x` turns into
phases. This needs no condition on the number of phases per side. -/
theorem C139_attained (S : OpenSetup X cfg entries n el μ O A B out out' gs h) (raw : List ℕ)
    (H : HullIndices h.coords raw) (hap : Apart' h.coords) (x : ℚ) (h0 : 0 ≤ x) (h1 : x ≤ 1)
    (hsep : ∀ p, LowerCorner h.coords p → Verif.Py.isclose x p.1 = true → x = p.1) :
    ∃ y, getHullEnergy ⟨h.coords, raw⟩ x = some y ∧ Envelope h.coords x y ∧
      ∃ x', |x' - x| ≤ 1 / (2 * 10 ^ 12) ∧ OpenMixes X (solids entries O) el (absolute X el O μ) A B x' y :=
  S.attained S.off (by norm_num) raw H hap x h0 h1 hsep

/-- **C139, the ground state.** If rounding does not change the coordinates, the hull energy at `x` is the lowest grand potential that a mixture
of `A` and `B` with the share `x` of `B` can reach. -/
theorem C139_ground_state (S : OpenSetup X cfg entries n el μ O A B out out' gs h) (hO : OneEach X entries) (hA : Admits cfg A B)
    (hR : RoomyOpen X el A B n) (hex : OffOpen X el μ A B gs 0) (raw : List ℕ) (H : HullIndices h.coords raw) (hap : Apart' h.coords) (x : ℚ)
    (h0 : 0 ≤ x) (h1 : x ≤ 1) (hsep : ∀ p, LowerCorner h.coords p → Verif.Py.isclose x p.1 = true → x = p.1) :
    ∃ y, getHullEnergy ⟨h.coords, raw⟩ x = some y ∧ IsLeast {e | OpenMixes X (solids entries O) el (absolute X el O μ) A B x e} y := by
  obtain ⟨y, hy, ⟨⟨s, t, hst, rfl⟩, -⟩, x', hx', hm⟩ := S.attained hex le_rfl raw H hap x h0 h1 hsep
  have : x' = x := by have := abs_nonpos_iff.mp hx'; linarith
  subst this
  refine ⟨_, hy, hm, fun e he => ?_⟩
  obtain ⟨x'', e1, -, -, e2⟩ := S.lower hO hA hR hex le_rfl x' e he
  have : x'' = x' := by have := abs_nonpos_iff.mp e1; linarith
  subst this
  exact e2 s t hst

/-- **C139, inert interfaces.** Some reaction of the hull releases energy if and only if some mixture of `A` and `B` in contact with the reservoir
can release energy. Rounding does not matter. -/
theorem C139_inert (S : OpenSetup X cfg entries n el μ O A B out out' gs h) (hO : OneEach X entries) (hA : Admits cfg A B) (hR : RoomyOpen X el A B n) :
    (∃ p ∈ h.coords, p.2 < 0) ↔ ∃ x e, OpenMixes X (solids entries O) el (absolute X el O μ) A B x e ∧ e < 0 := by
  constructor
  · rintro ⟨p, hp, hlt⟩
    obtain ⟨x, -, hm⟩ := S.near S.off (by norm_num) p hp
    exact ⟨x, p.2, hm, hlt⟩
  · rintro ⟨x, e, hm, hlt⟩
    by_contra hc
    push Not at hc
    obtain ⟨x', -, -, -, h4⟩ := S.lower hO hA hR S.off (by norm_num) x e hm
    have := h4 0 0 fun q hq => by have := hc q hq; linarith
    linarith
end

/-! ### Example: B and AB in contact with a reservoir of A -/

open Verif.Props.GroundState (eA eB eAB exOne exSum exAmounts)

theorem exReservoir : Reservoir exChem exOpen exThree ['A'] eA eB eAB where
  lawful := exLawful
  symbols := exSymbols
  opened := exOpened
  single := rfl
  pure := by decide +kernel
  lone := by decide +kernel
  distinct := by decide
  sharp := exSharp
  inA := by decide +kernel
  inB := by decide +kernel
  differ := by decide +kernel
  notA := by decide +kernel
  notB := by decide +kernel

theorem exAdmitsOpen : Admits exOpen eB eAB := ⟨.inl rfl, rfl, rfl⟩
theorem exRoomyOpen : RoomyOpen exChem ['A'] eB eAB 2 := ⟨by decide, by decide +kernel, by decide +kernel⟩

theorem exSoughtClosed : Sought exChem { exOpen with openEntries := [] } exThree 2 [⟨0, -1⟩, ⟨1, -1⟩] [⟨2, -3⟩] (fun _ => 1) fun _ => 1 :=
  ⟨by decide +kernel, by decide +kernel, by decide +kernel, by decide +kernel, by decide +kernel, by decide +kernel, by decide +kernel,
    by decide +kernel, by decide +kernel, exFormation,
    ⟨by decide +kernel, by decide +kernel, by decide +kernel, by decide +kernel⟩, by decide +kernel, by decide +kernel⟩

/-- At the potential -1/2 the reaction to AB releases 1/2 and its reverse takes 1/2. -/
theorem exPointOpen (g : CRxn (Fin 4)) (hg : Genuine exChem exThree g) (ha : amount g eAB ≠ 0) :
    (0 < amount g eAB ∧ coordOpen exChem eB eAB (toOpen exChem ['A'] (-1 / 2) g) = .ok 0 ∧
      oenergyPerAtom exChem (toOpen exChem ['A'] (-1 / 2) g) = .ok (-1 / 2) ∧
      takenOpen exChem ['A'] g eAB / (takenOpen exChem ['A'] g eB + takenOpen exChem ['A'] g eAB) = 0) ∨
    (amount g eAB < 0 ∧ coordOpen exChem eB eAB (toOpen exChem ['A'] (-1 / 2) g) = .ok 1 ∧
      oenergyPerAtom exChem (toOpen exChem ['A'] (-1 / 2) g) = .ok (1 / 2) ∧
      takenOpen exChem ['A'] g eAB / (takenOpen exChem ['A'] g eB + takenOpen exChem ['A'] g eAB) = 1) := by
  obtain ⟨aA, aB⟩ := exAmounts g hg
  have hin : ∀ z, amount g z ≠ 0 → z = eB ∨ z = eAB ∨ z = eA := by
    intro z hz
    have := hg.mem z (by by_contra hc; exact hz (Verif.Props.GroundState.coeffOf_absent _ _ _ hc))
    have : z = eA ∨ z = eB ∨ z = eAB := by simpa [exThree, eA, eB, eAB] using this
    tauto
  obtain ⟨h1, h2⟩ := exReservoir.readings (-1 / 2) g hg fun z hz => hin z hz.ne
  rw [takenOpen_eq hg, takenOpen_eq hg]
  have mB : mo exChem ['A'] eB = 1 := by decide +kernel
  have mAB : mo exChem ['A'] eAB = 1 := by decide +kernel
  have f1 : ef exChem ['A'] (absolute exChem ['A'] eA (-1 / 2)) eA eA = 0 := by decide +kernel
  have f2 : ef exChem ['A'] (absolute exChem ['A'] eA (-1 / 2)) eA eB = -1 := by decide +kernel
  have f3 : ef exChem ['A'] (absolute exChem ['A'] eA (-1 / 2)) eA eAB = -3 / 2 := by decide +kernel
  rw [exSum, aA, aB, f1, f2, f3, mB, mAB] at h1
  rw [mB, mAB] at h2
  rw [mB, mAB]
  rcases lt_or_gt_of_ne ha with h | h
  · right
    have n1 : neg (amount g) eB = 0 := by unfold neg; rw [aB, neg_neg]; exact max_eq_left h.le
    have n2 : neg (amount g) eAB = -(amount g eAB) := by unfold neg; exact max_eq_right (by linarith)
    rw [n1, n2] at h1 h2
    rw [n1, n2]
    have hr : -(amount g eAB) * 1 / (0 * 1 + -(amount g eAB) * 1) = 1 := by rw [zero_mul, zero_add]; exact div_self (by linarith)
    obtain ⟨c, hc, -, -, -, he⟩ := h2 (by linarith)
    rw [hr] at he
    refine ⟨h, by rw [hc, he]; decide +kernel, ?_, hr⟩
    rw [h1]
    unfold perAtom
    simp only
    rw [if_neg (by linarith)]
    congr 1
    rw [div_eq_iff (by linarith)]
    ring
  · left
    have n1 : neg (amount g) eB = amount g eAB := by unfold neg; rw [aB, neg_neg]; exact max_eq_right h.le
    have n2 : neg (amount g) eAB = 0 := by unfold neg; exact max_eq_left (by linarith)
    rw [n1, n2] at h1 h2
    rw [n1, n2]
    have hr : 0 * 1 / (amount g eAB * 1 + 0 * 1) = 0 := by rw [zero_mul, zero_div]
    obtain ⟨c, hc, -, -, -, he⟩ := h2 (by linarith)
    rw [hr] at he
    refine ⟨h, by rw [hc, he]; decide +kernel, ?_, hr⟩
    rw [h1]
    unfold perAtom
    simp only
    rw [if_neg (by linarith)]
    congr 1
    field_simp
    norm_num

/-- The points of the hull. -/
def exPts : List (ℚ × ℚ) := [(0, -1 / 2), (0, 0), (1, 0), (1, 1 / 2)]

/-- There are runs on the three phases and a hull of their reactions between B and AB. -/
theorem exOpenSetup : ∃ out out' gs h, OpenSetup exChem exOpen exThree 2 ['A'] (-1 / 2) eA eB eAB out out' gs h ∧ OffOpen exChem ['A'] (-1 / 2) eB eAB gs 0 ∧
    ∀ p, p ∈ h.coords ↔ p ∈ exPts := by
  obtain ⟨out, hrun⟩ := exReturns exThree 2 { exOpen with openEntries := [] }
  obtain ⟨out', hopen⟩ := openReturns exChem exOpen exThree 2
  obtain ⟨gs, hb⟩ := C139_between exReservoir hrun hopen
  have hp := fun g hg => exReservoir.pos hrun hopen hb g hg
  have hne : ∀ g ∈ gs, amount g eAB ≠ 0 := by
    intro g hg h0
    have := (hp g hg).2
    obtain ⟨aA, aB⟩ := exAmounts g (hb.2 g hg)
    unfold neg at this
    rw [aB, h0] at this
    simp at this
  have hpt := fun g hg => exPointOpen g (hb.2 g hg) (hne g hg)
  have f1 := (C132_exact_partial exChem exLawful exSymbols { exOpen with openEntries := [] } ⟨rfl, rfl, rfl⟩ exThree (by decide) exSharp 2 out hrun
    [⟨0, -1⟩, ⟨1, -1⟩] [⟨2, -3⟩] (by decide +kernel) (by decide +kernel)).1.mpr ⟨_, _, exSoughtClosed⟩
  have f2 := (C132_reverse exChem exLawful exSymbols { exOpen with openEntries := [] } ⟨rfl, rfl, rfl⟩ rfl rfl exThree (by decide) exSharp 2 out hrun _ _
    (by decide +kernel) (by decide +kernel)).mp f1
  have get : ∀ r p : List (Entry (Fin 4)), Found out r p → (∀ z ∈ r, z = eB ∨ z = eAB ∨ z = eA) → ∃ g ∈ gs, ∀ z ∈ r, amount g z < 0 := by
    rintro r p ⟨x, hx, hxr, -⟩ hall
    have hm : ∀ z, z ∈ x.reactants ↔ z ∈ r := fun z => by rw [← List.mem_toFinset, hxr, List.mem_toFinset]
    have hx' : x ∈ gs.map viewOf := hb.1.mem_iff.mpr (List.mem_filter.mpr ⟨List.mem_append_left _ hx, by
      simp only [decide_eq_true_eq]
      exact fun z hz => hall z ((hm z).mp hz)⟩)
    obtain ⟨g, hg, rfl⟩ := List.mem_map.mp hx'
    exact ⟨g, hg, fun z hz => (Verif.Props.GroundState.mem_reactants (hb.2 g hg) z).mp ((hm z).mpr hz)⟩
  obtain ⟨g1, hg1, k1⟩ := get _ _ f1 (by decide +kernel)
  obtain ⟨g2, hg2, k2⟩ := get _ _ f2 (by decide +kernel)
  have k1 : amount g1 eB < 0 := k1 _ (by decide +kernel)
  have k2 : amount g2 eAB < 0 := k2 _ (by decide +kernel)
  obtain ⟨h, hh⟩ := (C139_builds exReservoir hrun hopen hb (-1 / 2)).mpr
    ⟨⟨g1, hg1, (Verif.Props.GroundState.mem_reactants (hb.2 g1 hg1) _).mpr k1⟩, g2, hg2, (Verif.Props.GroundState.mem_reactants (hb.2 g2 hg2) _).mpr k2⟩
  have S : OpenSetup exChem exOpen exThree 2 ['A'] (-1 / 2) eA eB eAB out out' gs h := ⟨exReservoir, hrun, hopen, hb, hh⟩
  refine ⟨out, out', gs, h, S, ?_, fun p => ⟨fun hm => ?_, fun hm => ?_⟩⟩
  · intro g hg c hc
    rcases hpt g hg with ⟨-, c1, -, c2⟩ | ⟨-, c1, -, c2⟩
    · rw [c1] at hc; cases hc; rw [c2]; simp
    · rw [c1] at hc; cases hc; rw [c2]; simp
  · rcases S.coords.2.2.2 p hm with rfl | rfl | ⟨g, hg, h1, h2⟩
    · simp [exPts]
    · simp [exPts]
    · rcases hpt g hg with ⟨-, c1, c2, -⟩ | ⟨-, c1, c2, -⟩
      · rw [h1] at c1; rw [h2] at c2
        have : p = (0, -1 / 2) := Prod.ext (Except.ok.inj c1) (Except.ok.inj c2)
        rw [this]; simp [exPts]
      · rw [h1] at c1; rw [h2] at c2
        have : p = (1, 1 / 2) := Prod.ext (Except.ok.inj c1) (Except.ok.inj c2)
        rw [this]; simp [exPts]
  · simp only [exPts, List.mem_cons, List.not_mem_nil, or_false] at hm
    rcases hm with rfl | rfl | rfl | rfl
    · obtain ⟨p, hp', h1, h2⟩ := S.coords.1 g1 hg1
      rcases hpt g1 hg1 with ⟨-, c1, c2, -⟩ | ⟨hlt, -⟩
      · rw [h1] at c1; rw [h2] at c2
        have : p = (0, -1 / 2) := Prod.ext (Except.ok.inj c1) (Except.ok.inj c2)
        exact this ▸ hp'
      · obtain ⟨-, aB⟩ := exAmounts g1 (hb.2 g1 hg1)
        linarith
    · exact S.coords.2.1
    · exact S.coords.2.2.1
    · obtain ⟨p, hp', h1, h2⟩ := S.coords.1 g2 hg2
      rcases hpt g2 hg2 with ⟨hlt, -⟩ | ⟨-, c1, c2, -⟩
      · linarith
      · rw [h1] at c1; rw [h2] at c2
        have : p = (1, 1 / 2) := Prod.ext (Except.ok.inj c1) (Except.ok.inj c2)
        exact this ▸ hp'

/-- The four points are the corners, wherever they are in the list. -/
theorem exOpen_indices (pts : List (ℚ × ℚ)) (hm : ∀ p, p ∈ pts ↔ p ∈ exPts) : HullIndices pts (exPts.map fun p => pts.idxOf p) := by
  have hget : ∀ p ∈ exPts, pts[pts.idxOf p]? = some p := by
    intro p hp
    have hlt := List.idxOf_lt_length_of_mem ((hm p).mpr hp)
    rw [List.getElem?_eq_getElem hlt, List.getElem_idxOf hlt]
  refine ⟨?_, ?_, ?_, ?_⟩
  · refine List.Nodup.map_on (fun p hp q hq h => ?_) (by decide +kernel)
    have := hget p hp
    rw [h, hget q hq] at this
    exact (Option.some.inj this).symm
  · intro i hi
    obtain ⟨p, hp, rfl⟩ := List.mem_map.mp hi
    refine ⟨p, hget p hp, (hm p).mpr hp, ?_⟩
    have : ∃ a b : ℚ, ∀ q ∈ exPts, q ≠ p → a * q.1 + b * q.2 < a * p.1 + b * p.2 := by
      simp only [exPts, List.mem_cons, List.not_mem_nil, or_false] at hp
      rcases hp with rfl | rfl | rfl | rfl
      · exact ⟨-1, -1, by decide +kernel⟩
      · exact ⟨-1, 1, by decide +kernel⟩
      · exact ⟨1, -1, by decide +kernel⟩
      · exact ⟨1, 1, by decide +kernel⟩
    obtain ⟨a, b, h⟩ := this
    exact ⟨a, b, fun q hq => h q ((hm q).mp hq)⟩
  · rintro p ⟨hp, -⟩
    exact ⟨_, List.mem_map.mpr ⟨p, (hm p).mp hp, rfl⟩, hget p ((hm p).mp hp)⟩
  · intro i hi j hj h
    obtain ⟨p, hp, rfl⟩ := List.mem_map.mp hi
    obtain ⟨q, hq, rfl⟩ := List.mem_map.mp hj
    rw [hget p hp, hget q hq] at h
    rw [Option.some.inj h]

theorem exOpen_apart (pts : List (ℚ × ℚ)) (hm : ∀ p, p ∈ pts ↔ p ∈ exPts) : Apart' pts := by
  have h1 : ∀ p ∈ exPts, ∀ q ∈ exPts, Verif.Py.isclose q.2 p.2 = true → q.1 = p.1 → q.2 = p.2 := by decide +kernel
  have h2 : ∀ p ∈ exPts, ∀ q ∈ exPts, Verif.Py.isclose p.1 q.1 = true → p.1 = q.1 := by decide +kernel
  exact ⟨fun p q hp hq hx _ hc => h1 p ((hm p).mp hp.1) q ((hm q).mp hq) hc hx, fun p q hp hq => h2 p ((hm p).mp hp.1) q ((hm q).mp hq.1)⟩

theorem exOpen_sep (pts : List (ℚ × ℚ)) (hm : ∀ p, p ∈ pts ↔ p ∈ exPts) : ∀ p, LowerCorner pts p → Verif.Py.isclose (1 / 2) p.1 = true → 1 / 2 = p.1 := by
  rintro p ⟨hp, -⟩ hcl
  have h1 : ∀ p ∈ exPts, Verif.Py.isclose (1 / 2) p.1 = true → 1 / 2 = p.1 := by decide +kernel
  exact h1 p ((hm p).mp hp) hcl

/-- Half way between B and AB the ground state lies 1/4 below the mixture: the B takes up A from the reservoir. -/
example : ∃ out out' gs h raw, OpenSetup exChem exOpen exThree 2 ['A'] (-1 / 2) eA eB eAB out out' gs h ∧
    getHullEnergy ⟨h.coords, raw⟩ (1 / 2) = some (-1 / 4) ∧
    IsLeast {e | OpenMixes exChem (solids exThree eA) ['A'] (absolute exChem ['A'] eA (-1 / 2)) eB eAB (1 / 2) e} (-1 / 4) ∧ (∃ p ∈ h.coords, p.2 < 0) ∧
    (∃ x', |x' - 1 / 2| ≤ 1 / (2 * 10 ^ 12) ∧ OpenMixes exChem (solids exThree eA) ['A'] (absolute exChem ['A'] eA (-1 / 2)) eB eAB x' (-1 / 4)) ∧
    ∃ x', |x' - 1 / 2| ≤ 1 / (2 * 10 ^ 12) ∧ 0 ≤ x' ∧ x' ≤ 1 ∧ ∀ y, Envelope h.coords x' y → y ≤ -1 / 4 := by
  obtain ⟨out, out', gs, h, S, hoff, hm⟩ := exOpenSetup
  obtain ⟨y, hy, hE, x', hx', hmix⟩ := C139_attained S _ (exOpen_indices _ hm) (exOpen_apart _ hm) (1 / 2) (by norm_num) (by norm_num) (exOpen_sep _ hm)
  have he : y = -1 / 4 := by
    obtain ⟨⟨s, t, hst, hey⟩, hmax⟩ := hE
    have a1 := hst (0, -1 / 2) ((hm _).mpr (by decide +kernel))
    have a2 := hst (1, 0) ((hm _).mpr (by decide +kernel))
    have a3 := hmax (1 / 2) (-1 / 2) fun q hq => by
      have : ∀ q ∈ exPts, 1 / 2 * q.1 + -1 / 2 ≤ q.2 := by decide +kernel
      exact this q ((hm q).mp hq)
    simp only at a1 a2
    linarith
  subst he
  obtain ⟨y', hy', hl⟩ := C139_ground_state S exOne exAdmitsOpen exRoomyOpen hoff _ (exOpen_indices _ hm) (exOpen_apart _ hm) (1 / 2) (by norm_num) (by norm_num)
    (exOpen_sep _ hm)
  rw [hy] at hy'
  cases hy'
  exact ⟨out, out', gs, h, _, S, hy, hl, (C139_inert S exOne exAdmitsOpen exRoomyOpen).mpr ⟨_, _, hl.1, by norm_num⟩, ⟨x', hx', hmix⟩,
    C139_no_lower_partial S exOne exAdmitsOpen exRoomyOpen _ _ hl.1⟩

/-! ### The reference of the chemical potential -/

/-- **C139 fails if the given potential is taken as the potential of the reservoir.** Pure A has the energy -1. In contact with a reservoir of
A at the potential -1/2, B gains 3/2 by turning into AB. The hull at the given potential -1/2 shows 1/2, because the reservoir is read 1
lower. -/
theorem C139_reference_violated : ∃ out out' gs h, OpenSetup exChem exOpen exThree 2 ['A'] (-1 / 2) eA eB eAB out out' gs h ∧
    OpenMixes exChem (solids exThree eA) ['A'] (-1 / 2) eB eAB 0 (-3 / 2) ∧ Envelope h.coords 0 (-1 / 2) ∧ ∀ p ∈ h.coords, -1 / 2 ≤ p.2 := by
  obtain ⟨out, out', gs, h, S, hoff, hm⟩ := exOpenSetup
  have hall : ∀ q ∈ exPts, -1 / 2 ≤ q.2 := by decide +kernel
  refine ⟨out, out', gs, h, S, ⟨le_rfl, by norm_num, fun z => if z = eAB then 1 else 0, fun z => by dsimp only; split_ifs <;> norm_num, fun s hs => ?_, by decide +kernel⟩,
    ⟨⟨0, -1 / 2, fun q hq => ?_, by norm_num⟩, fun s t hst => ?_⟩, fun p hp => hall p ((hm p).mp hp)⟩
  · by_cases hB : s = ['B']
    · subst hB; decide +kernel
    · have h0 : ∀ z, exChem.amt z s = 0 := fun z => by simp [exChem, hs, hB]
      simp [h0]
  · have := hall q ((hm q).mp hq)
    linarith
  · have := hst (0, -1 / 2) ((hm _).mpr (by decide +kernel))
    simpa using this

end Verif.Props.GroundStateOpen
