import Mathlib.Algebra.BigOperators.Field
import Mathlib.Order.Bounds.Basic
import Verif.Lemmas.Conformal
import Verif.Props.EnumExact
import Verif.Props.HullPlot
import Verif.Props.ReactionEnergy
import Verif.Props.ReactionFrac

/-! Property C136: the hull of the enumerated reactions between two phases is the ground state of every mixture of the two. -/

set_option linter.unusedSectionVars false

namespace Verif.Props.GroundState
open Verif.Py Verif.Model Verif.Model.Enum Verif.Model.Reaction Verif.Spec.Reaction Verif.Lemmas Verif.Lemmas.Exc Verif.Props.Enum
  Verif.Props.EnumGroup Verif.Props.BalanceLinear Verif.Props.EnumComplete Verif.Props.EnumExact Verif.Lemmas.Conformal
open Verif.Model.Hull (hullInit Built getHullEnergy)
open Verif.Props.HullConvex (LowerCorner Envelope Apart')
open Verif.Props.HullInit (SortsBy)
open Verif.Spec.Hull (HullIndices)

variable {κ : Type} [DecidableEq κ]

/-! ### Specification -/

/-- The share of element `s` in the atoms of a phase. -/
def share (X : Chem κ Sym) (z : Entry κ) (s : Sym) : ℚ := X.amt z.comp s / X.natoms z.comp

/-- Energy per atom of a phase. -/
def perAtomOf (X : Chem κ Sym) (z : Entry κ) : ℚ := z.energy / X.natoms z.comp

/-- One atom of a mixture, `x` of it from `B` and the rest from `A`, can turn into the phases of `entries` with an energy change of `e`. -/
def Mixes (X : Chem κ Sym) (entries : List (Entry κ)) (A B : Entry κ) (x e : ℚ) : Prop :=
  0 ≤ x ∧ x ≤ 1 ∧ ∃ q : Entry κ → ℚ, (∀ z, 0 ≤ q z) ∧
    (∀ s, (entries.map fun z => q z * share X z s).sum = (1 - x) * share X A s + x * share X B s) ∧
    e = (entries.map fun z => q z * perAtomOf X z).sum - ((1 - x) * perAtomOf X A + x * perAtomOf X B)

/-- `g` is an exactly balanced reaction object of phases of `entries`. -/
structure Genuine (X : Chem κ Sym) (entries : List (Entry κ)) (g : CRxn κ) : Prop where
  whole : Whole X g
  nodup : g.entries.Nodup
  mem : ∀ z ∈ g.entries, z ∈ entries
  conserved : Conserved X (g.entries.map fun e => X.red e.comp) g.base.coeffs

/-- `gs` are the reactions of an enumeration `out` that consume no other phases than `A` and `B`. -/
def Between (X : Chem κ Sym) (entries : List (Entry κ)) (A B : Entry κ) (out : List (Rx (Entry κ))) (gs : List (CRxn κ)) : Prop :=
  (gs.map viewOf).Perm (out.filter fun x => decide (∀ z ∈ x.reactants, z = A ∨ z = B)) ∧ ∀ g ∈ gs, Genuine X entries g

/-- The atomic fraction of `B`, as the hull computes it. -/
def coordOf (X : Chem κ Sym) (A B : Entry κ) (g : CRxn κ) : Except Err ℚ :=
  coordinate (X.red A.comp) (X.red B.comp)
    (reactantAtomicFractions X X.natoms (numAtoms X (elements X g.base.comps) g.base.comps g.base.coeffs) g.base)

/-- The hull of the reactions `gs` between `A` and `B`, however ties are sorted. -/
def HullOf (X : Chem κ Sym) (A B : Entry κ) (gs : List (CRxn κ)) (h : Built (CRxn κ)) : Prop :=
  ∃ (ident : Entry κ → CRxn κ) (argsort : List ℚ → List ℕ), SortsBy argsort ∧
    hullInit (fun g => (viewOf g).reactants) (fun e : Entry κ => X.red e.comp) (coordOf X A B) (energyPerAtom X) ident argsort
      (X.red A.comp) (X.red B.comp) gs = .ok h

/-- Every element is represented by one phase at most. -/
def OneEach (X : Chem κ Sym) (entries : List (Entry κ)) : Prop :=
  ∀ x ∈ entries, ∀ z ∈ entries, ∀ s, (∀ e ∈ X.elems x.comp, e = s) → (∀ e ∈ X.elems z.comp, e = s) → x = z

/-- Compositions in the same proportions have the same reduced formula, as in pymatgen. -/
def Canonical (X : Chem κ Sym) : Prop := ∀ c d k, 0 < k → (∀ s, X.amt c s = k * X.amt d s) → X.red c = X.red d

/-- The settings let every reaction of `A` and `B` pass. -/
structure Admits (cfg : Cfg (Entry κ)) (A B : Entry κ) : Prop where
  precursors : cfg.precursors = [] ∨ (A ∈ cfg.precursors ∧ B ∈ cfg.precursors)
  targets : cfg.targets = []
  system : cfg.filterChemsys = []

/-- Enough phases per side for every element of `A` and `B`, and a system that the enumerator does not skip
(src/rxn_network/enumerators/basic.py:392). -/
structure Roomy (X : Chem κ Sym) (A B : Entry κ) (n : ℤ) : Prop where
  two : 2 ≤ n
  room : ((X.elems A.comp ++ X.elems B.comp).dedup.length : ℤ) ≤ n
  nine : (X.elems A.comp ++ X.elems B.comp).dedup.length ≤ 9

/-- `h` is the hull of the reactions between the phases `A` and `B` that a run of the enumerator on `entries` returned. -/
structure Setup (X : Chem κ Sym) (cfg : Cfg (Entry κ)) (entries : List (Entry κ)) (n : ℤ) (A B : Entry κ) (out : List (Rx (Entry κ)))
    (gs : List (CRxn κ)) (h : Built (CRxn κ)) : Prop where
  lawful : X.Lawful
  symbols : Symbols fun e : Entry κ => X.elems e.comp
  plain : Plain cfg
  distinct : (entries.map fun e => X.red e.comp).Nodup
  sharp : Sharp X entries
  inA : A ∈ entries
  inB : B ∈ entries
  differ : A ≠ B
  run : Returns X cfg entries n out
  between : Between X entries A B out gs
  hull : HullOf X A B gs h

/-- Atoms that a reaction takes from the phase `z`. -/
def taken (X : Chem κ Sym) (g : CRxn κ) (z : Entry κ) : ℚ := consumed g.entries g.base.coeffs z * X.natoms (X.red z.comp)

/-- No coordinate is off by more than `δ`. -/
def Off (X : Chem κ Sym) (A B : Entry κ) (gs : List (CRxn κ)) (δ : ℚ) : Prop :=
  ∀ g ∈ gs, ∀ c, coordOf X A B g = .ok c → |c - taken X g B / (taken X g A + taken X g B)| ≤ δ

/-! ### Helper lemmas: sums -/

/-- Amount of an element in a reduced formula unit. -/
def w (X : Chem κ Sym) (z : Entry κ) (s : Sym) : ℚ := X.amt (X.red z.comp) s

/-- Atoms of a reduced formula unit. -/
def m (X : Chem κ Sym) (z : Entry κ) : ℚ := X.natoms (X.red z.comp)

/-- Energy of a reduced formula unit. -/
def en (X : Chem κ Sym) (z : Entry κ) : ℚ := z.energy / X.fac z.comp

/-- The part that is consumed. -/
def neg (u : Entry κ → ℚ) (z : Entry κ) : ℚ := max 0 (-(u z))

theorem elems_red (X : Chem κ Sym) (hX : X.Lawful) (c : κ) (s : Sym) : s ∈ X.elems (X.red c) ↔ s ∈ X.elems c := by
  rw [hX.mem_elems, hX.mem_elems, hX.red_amt c s]
  have := (hX.fac_pos c).ne'
  constructor
  · exact fun h => mul_ne_zero this h
  · exact fun h => right_ne_zero_of_mul h

theorem natoms_fac (X : Chem κ Sym) (hX : X.Lawful) (c : κ) : X.natoms c = X.fac c * X.natoms (X.red c) := by
  rw [Verif.Lemmas.Reaction.natoms_eq X hX (X.red c) (X.elems c) (hX.nodup c) (fun e he => (elems_red X hX c e).mp he)]
  unfold Chem.natoms
  rw [← List.sum_map_mul_left]
  congr 1
  exact List.map_congr_left fun e _ => hX.red_amt c e

theorem m_pos (X : Chem κ Sym) (hX : X.Lawful) (hsym : Symbols fun e : Entry κ => X.elems e.comp) (z : Entry κ) : 0 < m X z := by
  have h1 := Verif.Props.Reaction.natoms_pos X hX z.comp (hsym.ne z)
  rw [natoms_fac X hX] at h1
  exact pos_of_mul_pos_right h1 (hX.fac_pos _).le

theorem share_eq (X : Chem κ Sym) (hX : X.Lawful) (z : Entry κ) (s : Sym) :
    share X z s = w X z s / m X z := by
  unfold share w m
  rw [natoms_fac X hX, hX.red_amt z.comp s]
  exact mul_div_mul_left _ _ (hX.fac_pos _).ne'

theorem perAtom_eq (X : Chem κ Sym) (hX : X.Lawful) (z : Entry κ) : perAtomOf X z = en X z / m X z := by
  unfold perAtomOf en m
  rw [natoms_fac X hX, div_div]

theorem zip_sum (E : Finset (Entry κ)) (f : Entry κ → ℚ) : ∀ Z : List (Entry κ × ℚ), (∀ p ∈ Z, p.1 ∈ E) →
    (Z.map fun p => p.2 * f p.1).sum = ∑ z ∈ E, ((Z.filter fun p => p.1 = z).map Prod.snd).sum * f z
  | [], _ => by simp
  | q :: Z, h => by
    rw [List.map_cons, List.sum_cons, zip_sum E f Z fun p hp => h p (List.mem_cons_of_mem _ hp)]
    have e : ∀ z ∈ E, (((q :: Z).filter fun p => p.1 = z).map Prod.snd).sum * f z
        = (if z = q.1 then q.2 * f z else 0) + ((Z.filter fun p => p.1 = z).map Prod.snd).sum * f z := by
      intro z _
      by_cases hz : q.1 = z
      · rw [List.filter_cons_of_pos (by simpa using hz), List.map_cons, List.sum_cons, if_pos hz.symm]; ring
      · rw [List.filter_cons_of_neg (by simpa using hz), if_neg (Ne.symm hz)]; ring
    rw [Finset.sum_congr rfl e, Finset.sum_add_distrib, Finset.sum_ite_eq', if_pos (h q List.mem_cons_self)]

/-- Coefficient of a phase in a reaction. -/
def amount (g : CRxn κ) (z : Entry κ) : ℚ := coeffOf g.entries g.base.coeffs z

theorem coeffOf_absent (l : List (Entry κ)) (c : List ℚ) (z : Entry κ) (h : z ∉ l) : coeffOf l c z = 0 := by
  unfold coeffOf
  rw [List.filter_eq_nil_iff.mpr]
  · rfl
  · intro p hp
    simp only [decide_eq_true_eq]
    rintro rfl
    exact h (List.of_mem_zip (a := p.1) (b := p.2) hp).1

theorem coeffOf_mem : ∀ (l : List (Entry κ)) (c : List ℚ), l.Nodup → ∀ p ∈ l.zip c, coeffOf l c p.1 = p.2
  | [], _, _, p, hp => by simp at hp
  | _ :: _, [], _, p, hp => by simp at hp
  | x :: l, d :: c, hn, p, hp => by
    rw [List.nodup_cons] at hn
    rw [List.zip_cons_cons] at hp
    have hcons : ∀ z, coeffOf (x :: l) (d :: c) z = (if x = z then d else 0) + coeffOf l c z := by
      intro z
      unfold coeffOf
      rw [List.zip_cons_cons]
      by_cases hz : x = z
      · rw [List.filter_cons_of_pos (by simpa using hz), List.map_cons, List.sum_cons, if_pos hz]
      · rw [List.filter_cons_of_neg (by simpa using hz), if_neg hz, zero_add]
    rw [hcons]
    rcases List.mem_cons.mp hp with rfl | hp
    · rw [if_pos rfl, coeffOf_absent l c x hn.1, add_zero]
    · have hm := (List.of_mem_zip (a := p.1) (b := p.2) hp).1
      rw [if_neg (by rintro rfl; exact hn.1 hm), zero_add, coeffOf_mem l c hn.2 p hp]

theorem consumed_eq (l : List (Entry κ)) (c : List ℚ) (hn : l.Nodup) (z : Entry κ) : consumed l c z = max 0 (-(coeffOf l c z)) := by
  induction l generalizing c with
  | nil => simp [consumed, coeffOf]
  | cons x l ih =>
    cases c with
    | nil => simp [consumed, coeffOf]
    | cons d c =>
      rw [List.nodup_cons] at hn
      have h1 : consumed (x :: l) (d :: c) z = (if x = z ∧ d < 0 then -d else 0) + consumed l c z := by
        unfold consumed
        rw [List.zip_cons_cons]
        by_cases hz : x = z ∧ d < 0
        · rw [List.filter_cons_of_pos (by simpa using hz), List.map_cons, List.sum_cons, if_pos hz]
        · rw [List.filter_cons_of_neg (by simpa using hz), if_neg hz, zero_add]
      have h2 : coeffOf (x :: l) (d :: c) z = (if x = z then d else 0) + coeffOf l c z := by
        unfold coeffOf
        rw [List.zip_cons_cons]
        by_cases hz : x = z
        · rw [List.filter_cons_of_pos (by simpa using hz), List.map_cons, List.sum_cons, if_pos hz]
        · rw [List.filter_cons_of_neg (by simpa using hz), if_neg hz, zero_add]
      rw [h1, h2, ih c hn.2]
      by_cases hz : x = z
      · subst hz
        rw [coeffOf_absent l c x hn.1]
        by_cases hd : d < 0
        · rw [if_pos ⟨rfl, hd⟩, if_pos rfl]; simp [hd.le]
        · rw [if_neg (fun h => hd h.2), if_pos rfl]; simp [not_lt.mp hd]
      · rw [if_neg (fun h => hz h.1), if_neg hz, zero_add, zero_add]

theorem consumed_red (X : Chem κ Sym) (l : List (Entry κ)) (c : List ℚ) (z : Entry κ)
    (hinj : ∀ y ∈ l, X.red y.comp = X.red z.comp → y = z) :
    consumed (l.map fun e => X.red e.comp) c (X.red z.comp) = consumed l c z := by
  unfold consumed
  rw [List.zip_map_left, List.filter_map, List.map_map]
  have : (l.zip c).filter ((fun p : κ × ℚ => decide (p.1 = X.red z.comp ∧ p.2 < 0)) ∘ Prod.map (fun e : Entry κ => X.red e.comp) id)
      = (l.zip c).filter fun p => decide (p.1 = z ∧ p.2 < 0) := by
    apply List.filter_congr
    intro p hp
    have hm := (List.of_mem_zip (a := p.1) (b := p.2) hp).1
    simp only [Function.comp, Prod.map, id, decide_eq_decide]
    exact ⟨fun h => ⟨hinj p.1 hm h.1, h.2⟩, fun h => ⟨by rw [h.1], h.2⟩⟩
  rw [this]
  rfl

/-! ### Helper lemmas: one reaction -/

theorem mem_reactants {X : Chem κ Sym} {entries : List (Entry κ)} {g : CRxn κ} (hg : Genuine X entries g) (z : Entry κ) :
    z ∈ (viewOf g).reactants ↔ amount g z < 0 := by
  simp only [viewOf, List.mem_map, List.mem_filter, decide_eq_true_eq]
  constructor
  · rintro ⟨p, ⟨hp, hlt⟩, rfl⟩
    unfold amount
    rwa [coeffOf_mem _ _ hg.nodup p hp]
  · intro h
    have hz : z ∈ g.entries := by
      by_contra hc
      rw [amount, coeffOf_absent _ _ _ hc] at h
      exact lt_irrefl _ h
    obtain ⟨i, hi, rfl⟩ := List.mem_iff_getElem.mp hz
    have hl := hg.whole.2
    have hp : (g.entries[i], g.base.coeffs[i]'(hl ▸ hi)) ∈ g.entries.zip g.base.coeffs :=
      List.mem_iff_getElem.mpr ⟨i, by rw [List.length_zip]; omega, by rw [List.getElem_zip]⟩
    refine ⟨_, ⟨hp, ?_⟩, rfl⟩
    have := coeffOf_mem _ _ hg.nodup _ hp
    rw [amount] at h
    rwa [this] at h

theorem mem_products {X : Chem κ Sym} {entries : List (Entry κ)} {g : CRxn κ} (hg : Genuine X entries g) (z : Entry κ) :
    z ∈ (viewOf g).products ↔ 0 < amount g z := by
  simp only [viewOf, List.mem_map, List.mem_filter, decide_eq_true_eq]
  constructor
  · rintro ⟨p, ⟨hp, hlt⟩, rfl⟩
    unfold amount
    rwa [coeffOf_mem _ _ hg.nodup p hp]
  · intro h
    have hz : z ∈ g.entries := by
      by_contra hc
      rw [amount, coeffOf_absent _ _ _ hc] at h
      exact lt_irrefl _ h
    obtain ⟨i, hi, rfl⟩ := List.mem_iff_getElem.mp hz
    have hl := hg.whole.2
    have hp : (g.entries[i], g.base.coeffs[i]'(hl ▸ hi)) ∈ g.entries.zip g.base.coeffs :=
      List.mem_iff_getElem.mpr ⟨i, by rw [List.length_zip]; omega, by rw [List.getElem_zip]⟩
    refine ⟨_, ⟨hp, ?_⟩, rfl⟩
    have := coeffOf_mem _ _ hg.nodup _ hp
    rw [amount] at h
    rwa [this] at h

theorem genuine_sum {X : Chem κ Sym} {entries : List (Entry κ)} {g : CRxn κ} (hg : Genuine X entries g) (f : Entry κ → ℚ) :
    ((g.entries.zip g.base.coeffs).map fun p => p.2 * f p.1).sum = ∑ z ∈ entries.toFinset, amount g z * f z :=
  zip_sum _ _ _ fun p hp => List.mem_toFinset.mpr (hg.mem _ (List.of_mem_zip (a := p.1) (b := p.2) hp).1)

theorem genuine_kernel {X : Chem κ Sym} {entries : List (Entry κ)} {g : CRxn κ} (hg : Genuine X entries g) :
    Kernel entries.toFinset (w X) (amount g) := by
  refine ⟨fun z hz => coeffOf_absent _ _ _ fun h => hz (List.mem_toFinset.mpr (hg.mem z h)), fun s => ?_⟩
  rw [← genuine_sum hg fun z => w X z s]
  have := hg.conserved s
  unfold net at this
  rw [List.zip_map_left, List.map_map] at this
  exact this

theorem natoms_sum (X : Chem κ Sym) (hX : X.Lawful) (E : Finset (Entry κ)) : ∃ T : Finset Sym, ∀ z ∈ E, m X z = ∑ s ∈ T, w X z s := by
  refine ⟨E.biUnion fun z => (X.elems z.comp).toFinset, fun z hz => ?_⟩
  unfold m w
  rw [Verif.Lemmas.Reaction.natoms_eq X hX (X.red z.comp) (E.biUnion fun z => (X.elems z.comp).toFinset).toList (Finset.nodup_toList _)]
  · exact Finset.sum_map_toList _ _
  · intro e he
    rw [Finset.mem_toList, Finset.mem_biUnion]
    exact ⟨z, hz, List.mem_toFinset.mpr ((elems_red X hX _ e).mp he)⟩

theorem kernel_atoms (X : Chem κ Sym) (hX : X.Lawful) {E : Finset (Entry κ)} {v : Entry κ → ℚ} (hv : Kernel E (w X) v) : ∑ z ∈ E, v z * m X z = 0 := by
  obtain ⟨T, hT⟩ := natoms_sum X hX E
  rw [Finset.sum_congr rfl fun z hz => by rw [hT z hz, Finset.mul_sum]]
  rw [Finset.sum_comm]
  exact Finset.sum_eq_zero fun s _ => hv.2 s

/-- A sum over the consumed phases, when only `A` and `B` are consumed. -/
theorem neg_sum (E : Finset (Entry κ)) (u f : Entry κ → ℚ) (A B : Entry κ) (hA : A ∈ E) (hB : B ∈ E) (hAB : A ≠ B)
    (hu : ∀ z, u z < 0 → z = A ∨ z = B) : ∑ z ∈ E, neg u z * f z = neg u A * f A + neg u B * f B := by
  rw [← Finset.sum_subset (s₁ := {A, B}) (by intro z hz; rcases Finset.mem_insert.mp hz with rfl | hz; exact hA; rwa [Finset.mem_singleton.mp hz])]
  · rw [Finset.sum_pair hAB]
  · intro z _ hz
    have : ¬ u z < 0 := fun h => hz (by rcases hu z h with rfl | rfl <;> simp)
    unfold neg
    rw [max_eq_left (by linarith [not_lt.mp this]), zero_mul]

theorem pos_sub_neg (u : Entry κ → ℚ) (z : Entry κ) : u z = max 0 (u z) - neg u z := by
  unfold neg
  rcases le_total 0 (u z) with h | h
  · rw [max_eq_right h, max_eq_left (by linarith)]; ring
  · rw [max_eq_left h, max_eq_right (by linarith)]; ring

/-- What the hull reads off a reaction of `A` and `B`. -/
theorem readings (X : Chem κ Sym) (hX : X.Lawful) (entries : List (Entry κ)) (hn : (entries.map fun e => X.red e.comp).Nodup) (A B : Entry κ)
    (hA : A ∈ entries) (hB : B ∈ entries) (hAB : A ≠ B) (g : CRxn κ) (hg : Genuine X entries g) (hre : ∀ z, amount g z < 0 → z = A ∨ z = B) :
    let N := neg (amount g) A * m X A + neg (amount g) B * m X B
    energyPerAtom X g = perAtom (.ok (∑ z ∈ entries.toFinset, amount g z * en X z)) N ∧
    (N ≠ 0 → ∃ c, coordOf X A B g = .ok c ∧ 0 ≤ c ∧ c ≤ 1 ∧ |c - neg (amount g) B * m X B / N| ≤ 1 / (2 * 10 ^ 12) ∧
      c = roundDigits 12 (neg (amount g) B * m X B / N)) := by
  intro N
  have hinj : ∀ y ∈ entries, ∀ z ∈ entries, X.red y.comp = X.red z.comp → y = z := fun y hy z hz h => List.inj_on_of_nodup_map hn hy hz h
  have hgn : (g.entries.map fun e => X.red e.comp).Nodup := hg.nodup.map_on fun y hy z hz h => hinj y (hg.mem y hy) z (hg.mem z hz) h
  have hcomps : g.base.comps = g.entries.map fun e => X.red e.comp := by
    have := congrArg (fun r : CRxn κ => r.base.comps) hg.whole.1
    simpa [cinit, Verif.Model.Reaction.init] using this
  have hac : ∀ z ∈ entries, atomsConsumed X (g.entries.map fun e => X.red e.comp) g.base.coeffs (X.red z.comp) = neg (amount g) z * m X z := by
    intro z hz
    unfold atomsConsumed neg m amount
    rw [consumed_red X _ _ _ fun y hy h => hinj y (hg.mem y hy) z hz h, consumed_eq _ _ hg.nodup]
  have hnum : numAtoms X (elements X g.base.comps) g.base.comps g.base.coeffs = N := by
    rw [hcomps, ← Verif.Props.Reaction.C17_either_side X hX _ _ hgn hg.conserved, List.map_map]
    have hc : ∀ z ∈ g.entries, ((fun c => atomsConsumed X (g.entries.map fun e => X.red e.comp) g.base.coeffs c) ∘ fun e : Entry κ => X.red e.comp) z
        = neg (amount g) z * m X z := fun z hz => hac z (hg.mem z hz)
    rw [List.map_congr_left hc]
    rw [← List.sum_toFinset _ hg.nodup]
    rw [Finset.sum_subset (s₂ := entries.toFinset)]
    · exact neg_sum _ _ _ A B (List.mem_toFinset.mpr hA) (List.mem_toFinset.mpr hB) hAB hre
    · intro z hz; exact List.mem_toFinset.mpr (hg.mem z (List.mem_toFinset.mp hz))
    · intro z _ hz
      have : amount g z = 0 := coeffOf_absent _ _ _ fun h => hz (List.mem_toFinset.mpr h)
      simp [neg, this]
  have hen : energy X g = .ok (∑ z ∈ entries.toFinset, amount g z * en X z) := by
    rw [← genuine_sum hg]
    exact (congrArg (energy X) hg.whole.1).trans (Verif.Props.Reaction.C17_energy_distinct X _ _ _ _ hgn)
  refine ⟨?_, fun hN => ?_⟩
  · unfold energyPerAtom
    rw [hnum, hen]
  · have hbal : g.base.balanced = true := by
      rw [hg.whole.1, Verif.Props.Reaction.C09_computed X hX _ _ _ _ hgn]
      intro e
      rw [hg.conserved e]
      norm_num
    have := (Verif.Props.Reaction.C08_coordinate_partial X hX g.base (X.red A.comp) (X.red B.comp) hbal (by rw [hcomps]; exact hgn)
      (by rw [hcomps]; intro c hc; obtain ⟨e, _, rfl⟩ := List.mem_map.mp hc; exact hX.red_red _) (by rw [hnum]; exact hN)).2
    rw [hcomps, hac A hA, hac B hB] at this
    obtain ⟨c, h1, h2, h3, h4, -, -, -, h5⟩ := this hN
    refine ⟨c, ?_, h2, h3, h4, h5⟩
    unfold coordOf
    rw [hcomps]
    exact h1

theorem taken_eq {X : Chem κ Sym} {entries : List (Entry κ)} {g : CRxn κ} (hg : Genuine X entries g) (z : Entry κ) :
    taken X g z = neg (amount g) z * m X z := by
  unfold taken neg amount m
  rw [consumed_eq _ _ hg.nodup]

/-! ### Helper lemmas: the enumeration -/

section
variable {X : Chem κ Sym} {cfg : Cfg (Entry κ)} {entries : List (Entry κ)} {n : ℤ} {A B : Entry κ} {out : List (Rx (Entry κ))}
  {gs : List (CRxn κ)} {h : Built (CRxn κ)}

theorem Setup.only (S : Setup X cfg entries n A B out gs h) (g : CRxn κ) (hg : g ∈ gs) (z : Entry κ) (hz : amount g z < 0) : z = A ∨ z = B := by
  have h1 : viewOf g ∈ out.filter fun x => decide (∀ z ∈ x.reactants, z = A ∨ z = B) :=
    S.between.1.mem_iff.mp (List.mem_map.mpr ⟨g, hg, rfl⟩)
  have := (List.mem_filter.mp h1).2
  simp only [decide_eq_true_eq] at this
  exact this z ((mem_reactants (S.between.2 g hg) z).mpr hz)

/-- Every reaction between `A` and `B` consumes one of them, and no other phase. -/
theorem between_pos (hX : X.Lawful) (hsym : Symbols fun e : Entry κ => X.elems e.comp) (hcfg : Plain cfg)
    (hn : (entries.map fun e => X.red e.comp).Nodup) (hsharp : Sharp X entries) (hrun : Returns X cfg entries n out)
    (hb : Between X entries A B out gs) (g : CRxn κ) (hg : g ∈ gs) :
    (∀ z, amount g z < 0 → z = A ∨ z = B) ∧ 0 < neg (amount g) A * m X A + neg (amount g) B * m X B := by
  have hG := hb.2 g hg
  obtain ⟨hx, ho⟩ := List.mem_filter.mp (hb.1.mem_iff.mp (List.mem_map.mpr ⟨g, hg, rfl⟩))
  simp only [decide_eq_true_eq] at ho
  have honly : ∀ z, amount g z < 0 → z = A ∨ z = B := fun z hz => ho z ((mem_reactants hG z).mpr hz)
  refine ⟨honly, ?_⟩
  obtain ⟨a, b, hS⟩ := returned_sought X hX hsym cfg hcfg entries hn hsharp n out hrun _ hx
  obtain ⟨z, hz⟩ := List.exists_mem_of_ne_nil _ hS.someR
  have hz' := (mem_reactants hG z).mp hz
  have hpos : 0 < neg (amount g) z * m X z := mul_pos (lt_max_of_lt_right (by linarith)) (m_pos X hX hsym z)
  have hA0 : 0 ≤ neg (amount g) A * m X A := mul_nonneg (le_max_left _ _) (m_pos X hX hsym A).le
  have hB0 : 0 ≤ neg (amount g) B * m X B := mul_nonneg (le_max_left _ _) (m_pos X hX hsym B).le
  rcases honly z hz' with rfl | rfl <;> linarith

theorem Setup.off (S : Setup X cfg entries n A B out gs h) : Off X A B gs (1 / (2 * 10 ^ 12)) := by
  intro g hg c hc
  have hG := S.between.2 g hg
  obtain ⟨-, h2⟩ := readings X S.lawful entries S.distinct A B S.inA S.inB S.differ g hG (S.only g hg)
  rw [taken_eq hG, taken_eq hG]
  obtain ⟨c', h1, -, -, h4, -⟩ := h2 (between_pos S.lawful S.symbols S.plain S.distinct S.sharp S.run S.between g hg).2.ne'
  rw [hc] at h1
  cases h1
  exact h4

/-- An elementary way of turning `A` and `B` into other phases is one of the reactions. -/
theorem Setup.step (S : Setup X cfg entries n A B out gs h) (hO : OneEach X entries) (hA : Admits cfg A B) (hR : Roomy X A B n) (u : Entry κ → ℚ)
    (hu : Elementary entries.toFinset (w X) u) (hneg : ∀ z, u z < 0 → z = A ∨ z = B) : ∃ g ∈ gs, ∃ t : ℚ, 0 < t ∧ ∀ z, amount g z = t * u z := by
  have hnd : entries.Nodup := List.Nodup.of_map _ S.distinct
  have hmem : ∀ z, u z ≠ 0 → z ∈ entries := fun z hz => by
    by_contra hc
    exact hz (hu.kernel.1 z fun h => hc (List.mem_toFinset.mp h))
  have hw : ∀ z s, 0 ≤ w X z s := fun z s => S.lawful.nonneg _ _
  have hwel : ∀ z s, w X z s ≠ 0 ↔ s ∈ X.elems z.comp := fun z s => by
    rw [← elems_red X S.lawful, S.lawful.mem_elems]; rfl
  -- elements of products occur in the reactants
  have hel : ∀ z, 0 < u z → ∀ s ∈ X.elems z.comp, ∃ y, u y < 0 ∧ s ∈ X.elems y.comp := by
    intro z hz s hs
    by_contra hc
    push Not at hc
    have h0 := hu.kernel.2 s
    have hall : ∀ y ∈ entries.toFinset, 0 ≤ u y * w X y s := by
      intro y _
      by_cases hy : u y < 0
      · have : w X y s = 0 := by
          by_contra h'
          exact hc y hy ((hwel y s).mp h')
        rw [this, mul_zero]
      · exact mul_nonneg (not_lt.mp hy) (hw y s)
    have := (Finset.sum_eq_zero_iff_of_nonneg hall).mp h0 z (List.mem_toFinset.mpr (hmem z hz.ne'))
    exact (mul_ne_zero hz.ne' ((hwel z s).mpr hs)) this
  have hatoms := kernel_atoms X S.lawful hu.kernel
  have hm := m_pos X S.lawful S.symbols
  set r := entries.filter fun z => decide (u z < 0) with hr
  set p := entries.filter fun z => decide (0 < u z) with hp
  have mr : ∀ z, z ∈ r ↔ u z < 0 := fun z => by
    rw [hr, List.mem_filter, decide_eq_true_eq]
    exact ⟨fun h => h.2, fun h => ⟨hmem z h.ne, h⟩⟩
  have mp : ∀ z, z ∈ p ↔ 0 < u z := fun z => by
    rw [hp, List.mem_filter, decide_eq_true_eq]
    exact ⟨fun h => h.2, fun h => ⟨hmem z h.ne', h⟩⟩
  have exr : ∃ z, u z < 0 := by
    by_contra hc
    push Not at hc
    obtain ⟨i, hi⟩ := hu.nonzero
    have := (Finset.sum_eq_zero_iff_of_nonneg fun y _ => mul_nonneg (hc y) (hm y).le).mp hatoms i (List.mem_toFinset.mpr (hmem i hi))
    exact mul_ne_zero hi (hm i).ne' this
  have exp : ∃ z, 0 < u z := by
    by_contra hc
    push Not at hc
    obtain ⟨i, hi⟩ := hu.nonzero
    have := (Finset.sum_eq_zero_iff_of_nonpos fun y _ => mul_nonpos_of_nonpos_of_nonneg (hc y) (hm y).le).mp hatoms i (List.mem_toFinset.mpr (hmem i hi))
    exact mul_ne_zero hi (hm i).ne' this
  obtain ⟨zr, hzr⟩ := exr
  obtain ⟨zp, hzp⟩ := exp
  set T := (X.elems A.comp ++ X.elems B.comp).toFinset with hT
  have hTc : T.card = (X.elems A.comp ++ X.elems B.comp).dedup.length := by rw [hT, List.card_toFinset]
  have hrT : ∀ z, u z < 0 → ∀ s ∈ X.elems z.comp, s ∈ T := by
    intro z hz s hs
    rw [hT, List.mem_toFinset, List.mem_append]
    rcases hneg z hz with rfl | rfl
    · exact .inl hs
    · exact .inr hs
  have hsize : size entries.toFinset u ≤ T.card + 1 := by
    refine hu.size_le T fun i hi s hs => ?_
    by_contra hc
    have hs' := (hwel i s).mp hc
    rcases lt_or_gt_of_ne hi with h | h
    · exact hs (hrT i h s hs')
    · obtain ⟨y, hy, hsy⟩ := hel i h s hs'
      exact hs (hrT y hy s hsy)
  have hlen : r.length + p.length = size entries.toFinset u := by
    unfold size
    rw [← List.toFinset_card_of_nodup (hnd.filter _), ← List.toFinset_card_of_nodup (hnd.filter _), ← Finset.card_union_of_disjoint]
    · congr 1
      ext z
      rw [Finset.mem_union, List.mem_toFinset, List.mem_toFinset, mr, mp, Finset.mem_filter, List.mem_toFinset]
      constructor
      · rintro (h | h)
        · exact ⟨hmem z h.ne, h.ne⟩
        · exact ⟨hmem z h.ne', h.ne'⟩
      · rintro ⟨-, h⟩
        exact lt_or_gt_of_ne h
    · rw [Finset.disjoint_left]
      intro z h1 h2
      rw [List.mem_toFinset, mr] at h1
      rw [List.mem_toFinset, mp] at h2
      linarith
  have hr1 : 0 < r.length := List.length_pos_of_mem ((mr zr).mpr hzr)
  have hr2 : r.length ≤ 2 := by
    rw [← List.toFinset_card_of_nodup (hnd.filter _)]
    refine (Finset.card_le_card (t := {A, B}) fun z hz => ?_).trans (Finset.card_le_two)
    rw [List.mem_toFinset, mr] at hz
    rcases hneg z hz with rfl | rfl <;> simp
  have hsplit : ∀ f : Entry κ → ℚ, (∀ z, u z = 0 → f z = 0) → (r.map f).sum + (p.map f).sum = ∑ z ∈ entries.toFinset, f z := by
    intro f hf
    rw [← List.sum_toFinset _ (hnd.filter _), ← List.sum_toFinset _ (hnd.filter _), ← Finset.sum_union]
    · apply Finset.sum_subset
      · intro z hz
        rw [Finset.mem_union, List.mem_toFinset, List.mem_toFinset, mr, mp] at hz
        rcases hz with h | h
        · exact List.mem_toFinset.mpr (hmem z h.ne)
        · exact List.mem_toFinset.mpr (hmem z h.ne')
      · intro z _ hz
        rw [Finset.mem_union, List.mem_toFinset, List.mem_toFinset, mr, mp] at hz
        push Not at hz
        exact hf z (le_antisymm hz.2 hz.1)
    · rw [Finset.disjoint_left]
      intro z h1 h2
      rw [List.mem_toFinset, mr] at h1
      rw [List.mem_toFinset, mp] at h2
      linarith
  have hbal : Balances X r p (fun z => -(u z)) u := by
    refine ⟨fun x hx => by have := (mr x).mp hx; linarith, fun x hx => (mp x).mp hx, fun s => ?_, fun c hc => ?_⟩
    · have h1 := hsplit (fun z => u z * w X z s) (fun z hz => by simp only [hz, zero_mul])
      rw [hu.kernel.2 s] at h1
      have h2 : (r.map fun x => -(u x) * X.amt (X.red x.comp) s).sum = -(r.map fun z => u z * w X z s).sum := by
        have e : (fun x : Entry κ => -(u x) * X.amt (X.red x.comp) s) = fun z => (-1) * (u z * w X z s) := by
          funext z; unfold w; ring
        rw [e, List.sum_map_mul_left]; ring
      rw [h2]
      have h3 : (p.map fun x => u x * X.amt (X.red x.comp) s).sum = (p.map fun z => u z * w X z s).sum := rfl
      rw [h3]
      linarith
    · obtain ⟨t, ht⟩ := hu.unique (fun z => if u z = 0 then 0 else c z) (by
        refine ⟨fun i hi => by simp only [hu.kernel.1 i hi, if_true], fun s => ?_⟩
        rw [← hsplit (fun z => (if u z = 0 then 0 else c z) * w X z s) (fun z hz => by simp only [hz, if_true, zero_mul])]
        refine Eq.trans ?_ (hc s)
        congr 1
        · congr 1
          refine List.map_congr_left fun x hx => ?_
          rw [if_neg ((mr x).mp hx).ne]; rfl
        · congr 1
          refine List.map_congr_left fun x hx => ?_
          rw [if_neg ((mp x).mp hx).ne']; rfl) (fun i hi => by simp only [hi, if_true])
      refine ⟨t, fun x hx => ?_, fun x hx => ?_⟩
      · have := ht x
        simp only [if_neg ((mr x).mp hx).ne] at this
        rw [this]; ring
      · have := ht x
        simp only [if_neg ((mp x).mp hx).ne'] at this
        rw [this]; ring
  have hopen : cfg.openEntries = [] := S.plain.closed
  have hsought : Sought X cfg entries n r p (fun z => -(u z)) u := by
    refine ⟨hnd.filter _, hnd.filter _, List.ne_nil_of_mem ((mr zr).mpr hzr), List.ne_nil_of_mem ((mp zp).mpr hzp), ?_, ?_, fun x hx => (List.mem_filter.mp hx).1,
      fun x hx => (List.mem_filter.mp hx).1, ?_, hbal, ⟨?_, ?_, fun h => absurd hA.targets h, fun h => absurd hA.targets h⟩, ⟨?_, ?_⟩, fun h => absurd hA.system h⟩
    · have := hR.two; omega
    · have := hR.room; rw [← hTc] at this; omega
    · intro x hx hx'
      have := (mr x).mp hx
      have := (mp x).mp hx'
      linarith
    · intro hne _ e he _
      rcases hA.precursors with h | ⟨ha, hb⟩
      · exact absurd h hne
      · rcases hneg e ((mr e).mp he) with rfl | rfl
        · exact ha
        · exact hb
    · intro hne _
      refine ⟨zr, (mr zr).mpr hzr, by rw [hopen]; simp, ?_⟩
      rcases hA.precursors with h | ⟨ha, hb⟩
      · exact absurd h hne
      · rcases hneg zr hzr with h | h
        · rw [h]; exact ha
        · rw [h]; exact hb
    · by_contra hlt
      have hle : (r.flatMap fun e => X.elems e.comp).dedup.length ≤ 1 := by omega
      obtain ⟨s, hs⟩ := List.exists_mem_of_ne_nil _ (S.symbols.ne zr)
      have hmm : ∀ y, u y < 0 → ∀ e ∈ X.elems y.comp, e ∈ (r.flatMap fun e => X.elems e.comp).dedup := by
        intro y hy e he
        rw [List.mem_dedup, List.mem_flatMap]
        exact ⟨y, (mr y).mpr hy, he⟩
      have hone : ∀ e ∈ (r.flatMap fun e => X.elems e.comp).dedup, e = s := by
        intro e he
        have hs' := hmm zr hzr s hs
        generalize (r.flatMap fun e => X.elems e.comp).dedup = l at hle he hs'
        match l, hle with
        | [a], _ => rw [List.mem_singleton.mp he, List.mem_singleton.mp hs']
      have : zr = zp := hO zr (hmem zr hzr.ne) zp (hmem zp hzp.ne') s (fun e he => hone e (hmm zr hzr e he)) (fun e he => by
        obtain ⟨y, hy, hey⟩ := hel zp hzp e he
        exact hone e (hmm y hy e hey))
      rw [this] at hzr
      linarith
    · refine le_trans ?_ (hTc ▸ hR.nine : T.card ≤ 9)
      rw [← List.card_toFinset]
      refine Finset.card_le_card fun s hs => ?_
      rw [List.mem_toFinset, List.mem_flatMap] at hs
      obtain ⟨y, hy, hsy⟩ := hs
      exact hrT y ((mr y).mp hy) s hsy
  obtain ⟨x, hx, hxr, hxp⟩ := (C132_exact_partial X S.lawful S.symbols cfg S.plain entries S.distinct S.sharp n out S.run r p (hnd.filter _)
    (hnd.filter _)).1.mpr ⟨_, _, hsought⟩
  have hxr' : ∀ z, z ∈ x.reactants ↔ u z < 0 := fun z => by
    rw [← List.mem_toFinset, hxr, List.mem_toFinset, mr]
  have hxp' : ∀ z, z ∈ x.products ↔ 0 < u z := fun z => by
    rw [← List.mem_toFinset, hxp, List.mem_toFinset, mp]
  have hx' : x ∈ gs.map viewOf := S.between.1.mem_iff.mpr (List.mem_filter.mpr ⟨hx, by
    simp only [decide_eq_true_eq]
    exact fun z hz => hneg z ((hxr' z).mp hz)⟩)
  obtain ⟨g, hg, rfl⟩ := List.mem_map.mp hx'
  have hG := S.between.2 g hg
  obtain ⟨t, ht⟩ := hu.unique (amount g) (genuine_kernel hG) (fun z hz => by
    by_contra hc
    rcases lt_or_gt_of_ne hc with h | h
    · have := (hxr' z).mp ((mem_reactants hG z).mpr h)
      linarith
    · have := (hxp' z).mp ((mem_products hG z).mpr h)
      linarith)
  refine ⟨g, hg, t, ?_, ht⟩
  have h1 := (mem_products hG zp).mp ((hxp' zp).mpr hzp)
  rw [ht zp] at h1
  exact pos_of_mul_pos_left h1 hzp.le

/-! ### Helper lemmas: mixtures -/

theorem mixes_iff (hX : X.Lawful) (hsym : Symbols fun e : Entry κ => X.elems e.comp) (hnd : entries.Nodup) (x e : ℚ) :
    Mixes X entries A B x e ↔ 0 ≤ x ∧ x ≤ 1 ∧ ∃ k : Entry κ → ℚ, (∀ z, 0 ≤ k z) ∧
      (∀ s, ∑ z ∈ entries.toFinset, k z * w X z s = (1 - x) / m X A * w X A s + x / m X B * w X B s) ∧
      e = ∑ z ∈ entries.toFinset, k z * en X z - ((1 - x) / m X A * en X A + x / m X B * en X B) := by
  have hm := m_pos X hX hsym
  unfold Mixes
  refine and_congr_right fun _ => and_congr_right fun _ => ⟨?_, ?_⟩
  · rintro ⟨q, h1, h2, h3⟩
    refine ⟨fun z => q z / m X z, fun z => div_nonneg (h1 z) (hm z).le, fun s => ?_, ?_⟩
    · have := h2 s
      rw [← List.sum_toFinset _ hnd, share_eq X hX, share_eq X hX] at this
      have e1 : ∀ z ∈ entries.toFinset, q z / m X z * w X z s = q z * share X z s := fun z _ => by rw [share_eq X hX]; ring
      rw [Finset.sum_congr rfl e1, this]; ring
    · rw [h3, ← List.sum_toFinset _ hnd, perAtom_eq X hX, perAtom_eq X hX]
      have e1 : ∀ z ∈ entries.toFinset, q z / m X z * en X z = q z * perAtomOf X z := fun z _ => by rw [perAtom_eq X hX]; ring
      rw [Finset.sum_congr rfl e1]; ring
  · rintro ⟨k, h1, h2, h3⟩
    refine ⟨fun z => k z * m X z, fun z => mul_nonneg (h1 z) (hm z).le, fun s => ?_, ?_⟩
    · rw [← List.sum_toFinset _ hnd, share_eq X hX, share_eq X hX]
      have e1 : ∀ z ∈ entries.toFinset, k z * m X z * share X z s = k z * w X z s := fun z _ => by
        rw [share_eq X hX, mul_assoc, mul_div_cancel₀ _ (hm z).ne']
      rw [Finset.sum_congr rfl e1, h2 s]; ring
    · rw [h3, ← List.sum_toFinset _ hnd, perAtom_eq X hX, perAtom_eq X hX]
      have e1 : ∀ z ∈ entries.toFinset, k z * m X z * perAtomOf X z = k z * en X z := fun z _ => by
        rw [perAtom_eq X hX, mul_assoc, mul_div_cancel₀ _ (hm z).ne']
      rw [Finset.sum_congr rfl e1]; ring

theorem mixes_convex {x y e f t : ℚ} (h1 : Mixes X entries A B x e) (h2 : Mixes X entries A B y f) (h0 : 0 ≤ t) (h3 : t ≤ 1) :
    Mixes X entries A B ((1 - t) * x + t * y) ((1 - t) * e + t * f) := by
  obtain ⟨a1, a2, q, q1, q2, q3⟩ := h1
  obtain ⟨b1, b2, k, k1, k2, k3⟩ := h2
  have hsum : ∀ g : Entry κ → ℚ, (entries.map fun z => ((1 - t) * q z + t * k z) * g z).sum
      = (1 - t) * (entries.map fun z => q z * g z).sum + t * (entries.map fun z => k z * g z).sum := by
    intro g
    rw [← List.sum_map_mul_left, ← List.sum_map_mul_left, ← List.sum_map_add]
    congr 1
    exact List.map_congr_left fun z _ => by ring
  refine ⟨by nlinarith, by nlinarith, fun z => (1 - t) * q z + t * k z, fun z => ?_, fun s => ?_, ?_⟩
  · exact add_nonneg (mul_nonneg (by linarith) (q1 z)) (mul_nonneg h0 (k1 z))
  · rw [hsum, q2, k2]; ring
  · rw [hsum, q3, k3]; ring

theorem mixes_ends (hnd : entries.Nodup) (hA : A ∈ entries) (hB : B ∈ entries) : Mixes X entries A B 0 0 ∧ Mixes X entries A B 1 0 := by
  have key : ∀ C ∈ entries, ∀ g : Entry κ → ℚ, (entries.map fun z => (if z = C then 1 else 0) * g z).sum = g C := by
    intro C hC g
    rw [← List.sum_toFinset _ hnd]
    simp [hC]
  constructor
  · refine ⟨le_refl _, by norm_num, fun z => if z = A then 1 else 0, fun z => by dsimp only; split_ifs <;> norm_num, fun s => ?_, ?_⟩
    · rw [key A hA]; ring
    · rw [key A hA]; ring
  · refine ⟨by norm_num, le_refl _, fun z => if z = B then 1 else 0, fun z => by dsimp only; split_ifs <;> norm_num, fun s => ?_, ?_⟩
    · rw [key B hB]; ring
    · rw [key B hB]; ring

/-- Every reaction of `A` and `B` is a mixture at its share of `B`. -/
theorem Setup.point (S : Setup X cfg entries n A B out gs h) (g : CRxn κ) (hg : g ∈ gs) (y : ℚ) (hy : energyPerAtom X g = .ok y) :
    Mixes X entries A B (taken X g B / (taken X g A + taken X g B)) y := by
  have hG := S.between.2 g hg
  obtain ⟨h1, -⟩ := readings X S.lawful entries S.distinct A B S.inA S.inB S.differ g hG (S.only g hg)
  have hm := m_pos X S.lawful S.symbols
  rw [taken_eq hG, taken_eq hG]
  set N := neg (amount g) A * m X A + neg (amount g) B * m X B with hN
  rw [h1] at hy
  unfold perAtom at hy
  simp only at hy
  by_cases hN0 : N = 0
  · rw [if_pos hN0] at hy; cases hy
  rw [if_neg hN0] at hy
  have hy := Except.ok.inj hy
  have hA0 : 0 ≤ neg (amount g) A * m X A := mul_nonneg (le_max_left _ _) (hm A).le
  have hB0 : 0 ≤ neg (amount g) B * m X B := mul_nonneg (le_max_left _ _) (hm B).le
  have hNp : 0 < N := lt_of_le_of_ne (add_nonneg hA0 hB0) (Ne.symm hN0)
  have e1 : 1 - neg (amount g) B * m X B / N = neg (amount g) A * m X A / N := by rw [eq_div_iff hN0, sub_mul, div_mul_cancel₀ _ hN0]; rw [hN]; ring
  have hsum : ∀ f : Entry κ → ℚ, ∑ z ∈ entries.toFinset, max 0 (amount g z) / N * f z
      = (∑ z ∈ entries.toFinset, amount g z * f z) / N + (neg (amount g) A * f A + neg (amount g) B * f B) / N := by
    intro f
    rw [← neg_sum entries.toFinset (amount g) f A B (List.mem_toFinset.mpr S.inA) (List.mem_toFinset.mpr S.inB) S.differ (S.only g hg)]
    rw [Finset.sum_div, Finset.sum_div, ← Finset.sum_add_distrib]
    refine Finset.sum_congr rfl fun z _ => ?_
    rw [pos_sub_neg (amount g) z]
    have : max 0 (max 0 (amount g z) - neg (amount g) z) = max 0 (amount g z) := by rw [← pos_sub_neg]
    rw [this]; ring
  rw [mixes_iff S.lawful S.symbols (List.Nodup.of_map _ S.distinct), e1]
  refine ⟨div_nonneg hB0 hNp.le, by rw [div_le_one hNp, hN]; linarith, fun z => max 0 (amount g z) / N, fun z => div_nonneg (le_max_left _ _) hNp.le, fun s => ?_, ?_⟩
  · rw [hsum fun z => w X z s, (genuine_kernel hG).2 s]
    have := (hm A).ne'
    have := (hm B).ne'
    field_simp
    ring
  · rw [hsum fun z => en X z, ← hy]
    have := (hm A).ne'
    have := (hm B).ne'
    field_simp
    ring

theorem Setup.coords (S : Setup X cfg entries n A B out gs h) :
    (∀ g ∈ gs, ∃ p ∈ h.coords, coordOf X A B g = .ok p.1 ∧ energyPerAtom X g = .ok p.2) ∧ (0, 0) ∈ h.coords ∧ (1, 0) ∈ h.coords ∧
    ∀ p ∈ h.coords, p = (0, 0) ∨ p = (1, 0) ∨ ∃ g ∈ gs, coordOf X A B g = .ok p.1 ∧ energyPerAtom X g = .ok p.2 := by
  obtain ⟨ident, argsort, hs, hh⟩ := S.hull
  obtain ⟨a, b, pts, -, -, -, -, hf, -, -, -, hp, -⟩ := Verif.Props.HullInit.C92_aligned _ _ _ _ _ _ hs _ _ _ h hh
  refine ⟨fun g hg => ?_, by rw [hp.mem_iff]; simp, by rw [hp.mem_iff]; simp, fun p hm => ?_⟩
  · obtain ⟨hl, hfg⟩ := List.forall₂_iff_get.mp hf
    obtain ⟨i, hi, rfl⟩ := List.mem_iff_getElem.mp hg
    exact ⟨pts[i]'(hl ▸ hi), hp.mem_iff.mpr (List.mem_append_left _ (List.getElem_mem _)), hfg i hi (hl ▸ hi)⟩
  · obtain ⟨hl, hfg⟩ := List.forall₂_iff_get.mp hf
    rcases List.mem_append.mp (hp.mem_iff.mp hm) with h' | h'
    · obtain ⟨i, hi, rfl⟩ := List.mem_iff_getElem.mp h'
      exact .inr (.inr ⟨gs[i]'(hl ▸ hi), List.getElem_mem _, hfg i (hl ▸ hi) hi⟩)
    · simp only [List.mem_cons, List.not_mem_nil, or_false] at h'
      rcases h' with rfl | rfl
      · exact .inl rfl
      · exact .inr (.inl rfl)

theorem Setup.near (S : Setup X cfg entries n A B out gs h) {δ : ℚ} (hδ : Off X A B gs δ) (h0 : 0 ≤ δ) (p : ℚ × ℚ) (hp : p ∈ h.coords) :
    ∃ x, |x - p.1| ≤ δ ∧ Mixes X entries A B x p.2 := by
  obtain ⟨e1, e2⟩ := mixes_ends (X := X) (List.Nodup.of_map _ S.distinct) S.inA S.inB
  rcases S.coords.2.2.2 p hp with rfl | rfl | ⟨g, hg, h1, h2⟩
  · exact ⟨0, by simpa using h0, e1⟩
  · exact ⟨1, by simpa using h0, e2⟩
  · exact ⟨_, by rw [abs_sub_comm]; exact hδ g hg _ h1, S.point g hg _ h2⟩

theorem neg_list (L : List (Entry κ → ℚ)) (v : Entry κ → ℚ) (hL : ∀ u ∈ L, Follows u v) (hs : ∀ i, (L.map fun u => u i).sum = v i) (z : Entry κ) :
    (L.map fun u => neg u z).sum = neg v z := by
  by_cases hv : v z < 0
  · have : ∀ u ∈ L, neg u z = (-1) * u z := by
      intro u hu
      have : u z ≤ 0 := by
        by_contra hc
        have h1 := hL u hu z (not_le.mp hc).ne'
        have := mul_neg_of_pos_of_neg (not_le.mp hc) hv
        linarith
      unfold neg
      rw [max_eq_right (by linarith)]; ring
    rw [List.map_congr_left this, List.sum_map_mul_left, hs]
    unfold neg
    rw [max_eq_right (by linarith)]; ring
  · have : ∀ u ∈ L, neg u z = 0 := by
      intro u hu
      have : 0 ≤ u z := by
        by_contra hc
        have h1 := hL u hu z (not_le.mp hc).ne
        have := mul_nonpos_of_nonpos_of_nonneg (not_le.mp hc).le (not_lt.mp hv)
        linarith
      unfold neg
      rw [max_eq_left (by linarith)]
    rw [List.map_congr_left this]
    unfold neg
    rw [max_eq_left (by linarith [not_lt.mp hv])]
    simp

/-- Lines below the hull stay below every mixture. -/
theorem Setup.lower (S : Setup X cfg entries n A B out gs h) (hO : OneEach X entries) (hA : Admits cfg A B) (hR : Roomy X A B n) {δ : ℚ}
    (hδ : Off X A B gs δ) (hδ0 : 0 ≤ δ) (x e : ℚ) (hx : Mixes X entries A B x e) :
    ∃ x', |x' - x| ≤ δ ∧ 0 ≤ x' ∧ x' ≤ 1 ∧ ∀ s t : ℚ, (∀ q ∈ h.coords, s * q.1 + t ≤ q.2) → s * x' + t ≤ e := by
  have hnd : entries.Nodup := List.Nodup.of_map _ S.distinct
  have hm := m_pos X S.lawful S.symbols
  rw [mixes_iff S.lawful S.symbols hnd] at hx
  obtain ⟨hx0, hx1, k, hk, hks, rfl⟩ := hx
  have hAE := List.mem_toFinset.mpr S.inA
  have hBE := List.mem_toFinset.mpr S.inB
  set v : Entry κ → ℚ := fun z => if z ∈ entries.toFinset then k z - (if z = A then (1 - x) / m X A else 0) - (if z = B then x / m X B else 0) else 0 with hv
  have hvsum : ∀ f : Entry κ → ℚ, ∑ z ∈ entries.toFinset, v z * f z
      = ∑ z ∈ entries.toFinset, k z * f z - ((1 - x) / m X A * f A + x / m X B * f B) := by
    intro f
    have e1 : ∀ z ∈ entries.toFinset, v z * f z = k z * f z - (if z = A then (1 - x) / m X A * f z else 0) - (if z = B then x / m X B * f z else 0) := by
      intro z hz
      rw [hv]
      simp only [if_pos hz]
      split_ifs <;> ring
    rw [Finset.sum_congr rfl e1, Finset.sum_sub_distrib, Finset.sum_sub_distrib, Finset.sum_ite_eq', Finset.sum_ite_eq', if_pos hAE, if_pos hBE]
    ring
  have hker : Kernel entries.toFinset (w X) v := by
    refine ⟨fun z hz => by rw [hv]; simp only [if_neg hz], fun s => ?_⟩
    rw [hvsum fun z => w X z s, hks s]; ring
  have hvneg : ∀ z, v z < 0 → z = A ∨ z = B := by
    intro z hz
    by_contra hc
    push Not at hc
    rw [hv] at hz
    simp only [if_neg hc.1, if_neg hc.2] at hz
    have := hk z
    split_ifs at hz <;> linarith
  obtain ⟨L, hL, hLs⟩ := decompose _ v le_rfl hker
  have hLneg : ∀ u ∈ L, ∀ z, u z < 0 → z = A ∨ z = B := by
    intro u hu z hz
    refine hvneg z ?_
    have := (hL u hu).2 z hz.ne
    by_contra hc
    have := mul_nonpos_of_nonpos_of_nonneg hz.le (not_lt.mp hc)
    linarith
  -- the hull point of each part
  have hpt : ∀ u ∈ L, ∃ c : ℚ, 0 ≤ c ∧ c ≤ 1 ∧ |c * (neg u A * m X A + neg u B * m X B) - neg u B * m X B| ≤ δ * (neg u A * m X A + neg u B * m X B) ∧
      0 ≤ neg u A * m X A + neg u B * m X B ∧
      ∀ s t : ℚ, (∀ q ∈ h.coords, s * q.1 + t ≤ q.2) →
        s * (c * (neg u A * m X A + neg u B * m X B)) + t * (neg u A * m X A + neg u B * m X B) ≤ ∑ z ∈ entries.toFinset, u z * en X z := by
    intro u hu
    obtain ⟨g, hg, t, ht, hgu⟩ := S.step hO hA hR u (hL u hu).1 (hLneg u hu)
    have hG := S.between.2 g hg
    obtain ⟨p, hp, hp1, hp2⟩ := S.coords.1 g hg
    obtain ⟨h1, h2⟩ := readings X S.lawful entries S.distinct A B S.inA S.inB S.differ g hG (S.only g hg)
    have hneg : ∀ z, neg (amount g) z = t * neg u z := by
      intro z
      unfold neg
      rw [hgu z, ← mul_neg, mul_max_of_nonneg _ _ ht.le, mul_zero]
    have hoff := hδ g hg _ hp1
    rw [taken_eq hG, taken_eq hG, hneg, hneg] at hoff
    rw [hneg, hneg] at h1 h2
    set N := neg u A * m X A + neg u B * m X B with hN
    have eN : t * neg u A * m X A + t * neg u B * m X B = t * N := by rw [hN]; ring
    rw [eN] at hoff h1 h2
    rw [hp2] at h1
    unfold perAtom at h1
    simp only at h1
    by_cases hN0 : t * N = 0
    · rw [if_pos hN0] at h1; cases h1
    rw [if_neg hN0] at h1
    have h1 := Except.ok.inj h1
    have hN' : N ≠ 0 := right_ne_zero_of_mul hN0
    have hNp : 0 < N := lt_of_le_of_ne (add_nonneg (mul_nonneg (le_max_left _ _) (hm A).le) (mul_nonneg (le_max_left _ _) (hm B).le)) (Ne.symm hN')
    obtain ⟨c, hc, c0, c1, -⟩ := h2 hN0
    rw [hp1] at hc
    have hc := Except.ok.inj hc
    refine ⟨p.1, hc ▸ c0, hc ▸ c1, ?_, hNp.le, fun s t' hst => ?_⟩
    · have e1 : p.1 * N - neg u B * m X B = (p.1 - t * neg u B * m X B / (t * N)) * N := by
        have := ht.ne'
        field_simp
      rw [e1, abs_mul, abs_of_pos hNp]
      exact mul_le_mul_of_nonneg_right hoff hNp.le
    · have h3 := hst p hp
      have e2 : ∑ z ∈ entries.toFinset, u z * en X z = p.2 * N := by
        rw [h1]
        have : ∑ z ∈ entries.toFinset, amount g z * en X z = t * ∑ z ∈ entries.toFinset, u z * en X z := by
          rw [Finset.mul_sum]
          exact Finset.sum_congr rfl fun z _ => by rw [hgu z]; ring
        rw [this]
        have := ht.ne'
        field_simp
      rw [e2]
      have := mul_le_mul_of_nonneg_right h3 hNp.le
      linarith
  choose! c hc0 hc1 hcδ hcN hcl using hpt
  set N : (Entry κ → ℚ) → ℚ := fun u => neg u A * m X A + neg u B * m X B with hN
  set K := (L.map fun u => c u * N u).sum with hK
  have hNsum : (L.map N).sum = neg v A * m X A + neg v B * m X B := by
    have e1 := neg_list L v (fun u hu => (hL u hu).2) hLs A
    have e2 := neg_list L v (fun u hu => (hL u hu).2) hLs B
    rw [← e1, ← e2, ← List.sum_map_mul_right, ← List.sum_map_mul_right, ← List.sum_map_add]
  have hBsum : (L.map fun u => neg u B * m X B).sum = neg v B * m X B := by
    rw [← neg_list L v (fun u hu => (hL u hu).2) hLs B, ← List.sum_map_mul_right]
  have hvA : v A = k A - (1 - x) / m X A := by
    rw [hv]; simp only [if_pos hAE, if_neg S.differ, if_true]; ring
  have hvB : v B = k B - x / m X B := by
    rw [hv]; simp only [if_pos hBE, if_neg (Ne.symm S.differ), if_true]; ring
  have hnA : neg v A * m X A ≤ 1 - x := by
    unfold neg
    rw [max_mul_of_nonneg _ _ (hm A).le, zero_mul]
    refine max_le (by linarith) ?_
    rw [hvA, neg_sub, sub_mul, div_mul_cancel₀ _ (hm A).ne']
    have := mul_nonneg (hk A) (hm A).le
    linarith
  have hnB : neg v B * m X B ≤ x := by
    unfold neg
    rw [max_mul_of_nonneg _ _ (hm B).le, zero_mul]
    refine max_le (by linarith) ?_
    rw [hvB, neg_sub, sub_mul, div_mul_cancel₀ _ (hm B).ne']
    have := mul_nonneg (hk B) (hm B).le
    linarith
  have hKδ : |K - neg v B * m X B| ≤ δ * (L.map N).sum := by
    rw [← hBsum, hK]
    clear_value K
    clear hK hNsum hBsum hLs
    induction L with
    | nil => simp
    | cons u L ih =>
      have ih := ih (fun u hu => hL u (List.mem_cons_of_mem _ hu)) (fun u hu => hLneg u (List.mem_cons_of_mem _ hu)) (fun u hu => hc0 u (List.mem_cons_of_mem _ hu))
        (fun u hu => hc1 u (List.mem_cons_of_mem _ hu)) (fun u hu => hcδ u (List.mem_cons_of_mem _ hu)) (fun u hu => hcN u (List.mem_cons_of_mem _ hu))
        (fun u hu => hcl u (List.mem_cons_of_mem _ hu))
      have h1 := hcδ u List.mem_cons_self
      simp only [List.map_cons, List.sum_cons]
      have e1 : c u * N u + (L.map fun u => c u * N u).sum - (neg u B * m X B + (L.map fun u => neg u B * m X B).sum)
          = (c u * N u - neg u B * m X B) + ((L.map fun u => c u * N u).sum - (L.map fun u => neg u B * m X B).sum) := by ring
      rw [e1]
      refine (abs_add_le _ _).trans ?_
      have h2 := add_le_add h1 ih
      rw [← mul_add] at h2
      exact h2
  have hK0 : 0 ≤ K := List.sum_nonneg (by
    intro y hy
    obtain ⟨u, hu, rfl⟩ := List.mem_map.mp hy
    exact mul_nonneg (hc0 u hu) (hcN u hu))
  have hK1 : K ≤ (L.map N).sum := List.sum_le_sum fun u hu => by
    have := mul_le_mul_of_nonneg_right (hc1 u hu) (hcN u hu)
    rw [one_mul] at this
    exact this
  have hN1 : (L.map N).sum ≤ 1 := by rw [hNsum]; linarith
  refine ⟨K + (x - neg v B * m X B), ?_, by linarith, by rw [hNsum] at hK1; linarith, fun s t hst => ?_⟩
  · have e1 : K + (x - neg v B * m X B) - x = K - neg v B * m X B := by ring
    rw [e1]
    refine hKδ.trans ?_
    have := mul_le_mul_of_nonneg_left hN1 hδ0
    linarith
  · have hsum : s * K + t * (L.map N).sum ≤ ∑ z ∈ entries.toFinset, v z * en X z := by
      have e1 : ∑ z ∈ entries.toFinset, v z * en X z = (L.map fun u => ∑ z ∈ entries.toFinset, u z * en X z).sum := by
        have e2 : ∀ z ∈ entries.toFinset, v z * en X z = (L.map fun u => u z * en X z).sum := fun z _ => by
          rw [List.sum_map_mul_right, hLs]
        rw [Finset.sum_congr rfl e2]
        clear hK1 hKδ hK0 hBsum hNsum e2 hLs hN1
        clear_value K
        clear hK hcl hcN hcδ hc1 hc0 hLneg hL
        induction L with
        | nil => simp
        | cons u L ih => simp only [List.map_cons, List.sum_cons, Finset.sum_add_distrib, ih]
      rw [e1, hK, ← List.sum_map_mul_left, ← List.sum_map_mul_left, ← List.sum_map_add]
      exact List.sum_le_sum fun u hu => hcl u hu s t hst
    rw [hvsum (en X)] at hsum
    have ht0 := hst _ S.coords.2.1
    have ht1 := hst _ S.coords.2.2.1
    simp only [mul_zero, zero_add, mul_one] at ht0 ht1
    rw [hNsum] at hsum
    have h1 : (s + t) * (x - neg v B * m X B) ≤ 0 := mul_nonpos_of_nonpos_of_nonneg ht1 (by linarith)
    have h2 : t * (1 - x - neg v A * m X A) ≤ 0 := mul_nonpos_of_nonpos_of_nonneg ht0 (by linarith)
    linarith

/-! ### Theorems -/

/-- **C136, the reactions between two phases.** What a run returned between `A` and `B` is made of exactly balanced reaction objects of the
given phases, so that a hull can be built of them. -/
theorem C136_between (X : Chem κ Sym) (hX : X.Lawful) (hsym : Symbols fun e : Entry κ => X.elems e.comp) (cfg : Cfg (Entry κ)) (hcfg : Plain cfg)
    (entries : List (Entry κ)) (hn : (entries.map fun e => X.red e.comp).Nodup) (hsharp : Sharp X entries) (n : ℤ) (out : List (Rx (Entry κ)))
    (hrun : Returns X cfg entries n out) (A B : Entry κ) : ∃ gs, Between X entries A B out gs := by
  have key : ∀ x ∈ out, ∃ g, Genuine X entries g ∧ viewOf g = x := by
    intro x hx
    obtain ⟨a, b, hS⟩ := returned_sought X hX hsym cfg hcfg entries hn hsharp n out hrun x hx
    obtain ⟨g, hg, hw, s, hs, hp⟩ := (C132_exact_partial X hX hsym cfg hcfg entries hn hsharp n out hrun x.reactants x.products hS.nodupR hS.nodupP).2 a b hS
    have hxg : x = viewOf g := by
      have : x ∈ out.filter fun z => decide (sides z = (x.reactants.toFinset, x.products.toFinset)) :=
        List.mem_filter.mpr ⟨hx, by simp [sides]⟩
      rw [hg] at this
      exact List.mem_singleton.mp this
    have hent : g.entries = (g.entries.zip g.base.coeffs).map Prod.fst := by rw [List.map_fst_zip hw.2.le]
    have hperm : g.entries.Perm (x.reactants ++ x.products) := by
      rw [hent]
      have := hp.map Prod.fst
      rw [List.map_append, List.map_map, List.map_map] at this
      have e1 : (Prod.fst ∘ fun z : Entry κ => (z, -(a z) * s)) = id := rfl
      have e2 : (Prod.fst ∘ fun z : Entry κ => (z, b z * s)) = id := rfl
      rw [e1, e2, List.map_id, List.map_id] at this
      exact this
    refine ⟨g, ⟨hw, ?_, ?_, fun e => ?_⟩, hxg.symm⟩
    · rw [hperm.nodup_iff, List.nodup_append']
      exact ⟨hS.nodupR, hS.nodupP, fun z h1 h2 => hS.disjoint z h1 h2⟩
    · intro z hz
      rcases List.mem_append.mp (hperm.mem_iff.mp hz) with h | h
      · exact hS.inR z h
      · exact hS.inP z h
    · unfold net
      rw [List.zip_map_left, List.map_map, (hp.map _).sum_eq, List.map_append, List.sum_append, List.map_map, List.map_map]
      have e1 : ∀ l : List (Entry κ), (l.map (((fun q : κ × ℚ => q.2 * X.amt q.1 e) ∘ Prod.map (fun y : Entry κ => X.red y.comp) id) ∘ fun z => (z, -(a z) * s))).sum
          = -s * (l.map fun z => a z * X.amt (X.red z.comp) e).sum := by
        intro l
        rw [← List.sum_map_mul_left]
        congr 1
        refine List.map_congr_left fun z _ => ?_
        simp only [Function.comp, Prod.map, id]
        ring
      have e2 : ∀ l : List (Entry κ), (l.map (((fun q : κ × ℚ => q.2 * X.amt q.1 e) ∘ Prod.map (fun y : Entry κ => X.red y.comp) id) ∘ fun z => (z, b z * s))).sum
          = s * (l.map fun z => b z * X.amt (X.red z.comp) e).sum := by
        intro l
        rw [← List.sum_map_mul_left]
        congr 1
        refine List.map_congr_left fun z _ => ?_
        simp only [Function.comp, Prod.map, id]
        ring
      rw [e1, e2, hS.balances.conserved e]
      ring
  have lift : ∀ l : List (Rx (Entry κ)), (∀ x ∈ l, x ∈ out) → ∃ gs : List (CRxn κ), gs.map viewOf = l ∧ ∀ g ∈ gs, Genuine X entries g := by
    intro l
    induction l with
    | nil => intro _; exact ⟨[], rfl, by simp⟩
    | cons x l ih =>
      intro hl
      obtain ⟨gs, h1, h2⟩ := ih fun y hy => hl y (List.mem_cons_of_mem _ hy)
      obtain ⟨g, hg, hgx⟩ := key x (hl x List.mem_cons_self)
      refine ⟨g :: gs, by rw [List.map_cons, h1, hgx], fun y hy => ?_⟩
      rcases List.mem_cons.mp hy with rfl | hy
      · exact hg
      · exact h2 y hy
  obtain ⟨gs, h1, h2⟩ := lift (out.filter fun x => decide (∀ z ∈ x.reactants, z = A ∨ z = B)) fun x hx => (List.mem_filter.mp hx).1
  exact ⟨gs, by rw [h1], h2⟩

/-- **C136, when there is a hull.** The hull of the returned reactions can be built, unless `A` or `B` is in none of them a reactant. -/
theorem C136_builds (X : Chem κ Sym) (hX : X.Lawful) (hsym : Symbols fun e : Entry κ => X.elems e.comp) (cfg : Cfg (Entry κ)) (hcfg : Plain cfg)
    (entries : List (Entry κ)) (hn : (entries.map fun e => X.red e.comp).Nodup) (hsharp : Sharp X entries) (n : ℤ) (out : List (Rx (Entry κ)))
    (hrun : Returns X cfg entries n out) (A B : Entry κ) (hA : A ∈ entries) (hB : B ∈ entries) (hAB : A ≠ B) (gs : List (CRxn κ))
    (hb : Between X entries A B out gs) :
    (∃ h, HullOf X A B gs h) ↔ (∃ g ∈ gs, A ∈ (viewOf g).reactants) ∧ ∃ g ∈ gs, B ∈ (viewOf g).reactants := by
  have hinj : ∀ y ∈ entries, ∀ z ∈ entries, X.red y.comp = X.red z.comp → y = z := fun y hy z hz h => List.inj_on_of_nodup_map hn hy hz h
  have hin : ∀ g ∈ gs, ∀ z ∈ (viewOf g).reactants, z ∈ entries := by
    intro g hg z hz
    have hG := hb.2 g hg
    refine hG.mem z ?_
    by_contra hc
    have := (mem_reactants hG z).mp hz
    rw [amount, coeffOf_absent _ _ _ hc] at this
    exact lt_irrefl _ this
  have hall : ∀ g ∈ gs, (∃ x, coordOf X A B g = .ok x) ∧ ∃ y, energyPerAtom X g = .ok y := by
    intro g hg
    obtain ⟨ho, hpos⟩ := between_pos hX hsym hcfg hn hsharp hrun hb g hg
    obtain ⟨h1, h2⟩ := readings X hX entries hn A B hA hB hAB g (hb.2 g hg) ho
    obtain ⟨c, hc, -⟩ := h2 hpos.ne'
    refine ⟨⟨c, hc⟩, ?_⟩
    rw [h1]
    unfold perAtom
    simp only [if_neg hpos.ne']
    exact ⟨_, rfl⟩
  have hocc : Verif.Props.HullInit.BothOccur (fun g : CRxn κ => (viewOf g).reactants) (fun e : Entry κ => X.red e.comp) (X.red A.comp) (X.red B.comp) gs ↔
      (∃ g ∈ gs, A ∈ (viewOf g).reactants) ∧ ∃ g ∈ gs, B ∈ (viewOf g).reactants := by
    unfold Verif.Props.HullInit.BothOccur
    constructor
    · rintro ⟨-, ⟨g, hg, e, he, h1⟩, g', hg', e', he', h2⟩
      have := hinj e (hin g hg e he) A hA h1
      have h3 := hinj e' (hin g' hg' e' he') B hB h2
      subst this h3
      exact ⟨⟨g, hg, he⟩, g', hg', he'⟩
    · rintro ⟨⟨g, hg, he⟩, g', hg', he'⟩
      exact ⟨fun h => hAB (hinj A hA B hB h), ⟨g, hg, A, he, rfl⟩, g', hg', B, he', rfl⟩
  rw [← hocc]
  constructor
  · rintro ⟨h, ident, argsort, -, hh⟩
    by_contra hc
    have := (Verif.Props.HullInit.C92_raises _ _ (coordOf X A B) (energyPerAtom X) ident argsort _ _ gs).1 hc
    rw [this] at hh
    cases hh
  · intro ho
    by_cases hne : ∃ g, g ∈ gs
    · obtain ⟨g0, -⟩ := hne
      obtain ⟨h, hh⟩ := ((Verif.Props.HullInit.C92_raises _ _ (coordOf X A B) (energyPerAtom X) (fun _ => g0) Verif.Props.HullInit.exArgsort _ _ gs).2 ho).1.mpr hall
      exact ⟨h, _, _, Verif.Props.HullInit.exArgsort_sorts, hh⟩
    · obtain ⟨-, ⟨g, hg, -⟩, -⟩ := ho
      exact absurd ⟨g, hg⟩ hne

/-- **C136, nothing is missed.** No mixture of `A` and `B` can turn into phases with a lower energy than the lower hull shows at a
coordinate that differs from the mixture by at most 5e-13 (coordinates are rounded to 12 digits). Missing: that this also holds with
fewer phases per side than elements (it does not, see `C136_small_n_violated`). -/
theorem C136_no_lower_partial (S : Setup X cfg entries n A B out gs h) (hO : OneEach X entries) (hA : Admits cfg A B) (hR : Roomy X A B n)
    (x e : ℚ) (hx : Mixes X entries A B x e) :
    ∃ x', |x' - x| ≤ 1 / (2 * 10 ^ 12) ∧ 0 ≤ x' ∧ x' ≤ 1 ∧ ∀ y, Envelope h.coords x' y → y ≤ e := by
  obtain ⟨x', h1, h2, h3, h4⟩ := S.lower hO hA hR S.off (by norm_num) x e hx
  refine ⟨x', h1, h2, h3, fun y hy => ?_⟩
  obtain ⟨⟨s, t, hst, rfl⟩, -⟩ := hy
  exact h4 s t hst

theorem Setup.range (S : Setup X cfg entries n A B out gs h) : ∀ r ∈ gs, ∀ x, coordOf X A B r = .ok x → 0 ≤ x ∧ x ≤ 1 := by
  intro g hg c hc
  have hG := S.between.2 g hg
  obtain ⟨p, hp, hp1, hp2⟩ := S.coords.1 g hg
  obtain ⟨h1, h2⟩ := readings X S.lawful entries S.distinct A B S.inA S.inB S.differ g hG (S.only g hg)
  rw [hp2] at h1
  unfold perAtom at h1
  simp only at h1
  by_cases hN0 : neg (amount g) A * m X A + neg (amount g) B * m X B = 0
  · rw [if_pos hN0] at h1; cases h1
  obtain ⟨c', h3, h4, h5, -⟩ := h2 hN0
  rw [hc] at h3
  cases h3
  exact ⟨h4, h5⟩

theorem Setup.attained (S : Setup X cfg entries n A B out gs h) {δ : ℚ} (hδ : Off X A B gs δ) (hδ0 : 0 ≤ δ) (raw : List ℕ)
    (H : HullIndices h.coords raw) (hap : Apart' h.coords) (x : ℚ) (h0 : 0 ≤ x) (h1 : x ≤ 1)
    (hsep : ∀ p, LowerCorner h.coords p → Verif.Py.isclose x p.1 = true → x = p.1) :
    ∃ y, getHullEnergy ⟨h.coords, raw⟩ x = some y ∧ Envelope h.coords x y ∧ ∃ x', |x' - x| ≤ δ ∧ Mixes X entries A B x' y := by
  obtain ⟨ident, argsort, hs, hh⟩ := S.hull
  obtain ⟨vs, G, hvs⟩ := Verif.Props.HullInit.C92_lower_hull _ _ _ _ _ _ hs _ _ _ h hh S.range raw H hap
  obtain ⟨y, hy, hch⟩ := Verif.Lemmas.Hull.hullEnergy_spec G h0 h1 (fun v hv => hsep v ((hvs v).mp hv))
  obtain ⟨a, b, hab, g1, g2, g3⟩ := hch
  have hlt := Verif.Lemmas.Hull.adjacent_lt G.lower.strict hab
  have ha : a ∈ vs := by obtain ⟨l, r, rfl⟩ := hab; simp
  have hb : b ∈ vs := by obtain ⟨l, r, rfl⟩ := hab; simp
  have hd : 0 < b.1 - a.1 := sub_pos.mpr hlt
  unfold Verif.Spec.Hull.OnLine at g3
  simp only at g1 g2 g3
  have hx : x = (1 - (x - a.1) / (b.1 - a.1)) * a.1 + (x - a.1) / (b.1 - a.1) * b.1 := by field_simp; ring
  have hyv : y = (1 - (x - a.1) / (b.1 - a.1)) * a.2 + (x - a.1) / (b.1 - a.1) * b.2 := by
    field_simp
    linarith
  have t0 : 0 ≤ (x - a.1) / (b.1 - a.1) := div_nonneg (by linarith) hd.le
  have t1 : (x - a.1) / (b.1 - a.1) ≤ 1 := by rw [div_le_one hd]; linarith
  refine ⟨y, hy, ⟨⟨(b.2 - a.2) / (b.1 - a.1), (a.2 * b.1 - b.2 * a.1) / (b.1 - a.1), fun q hq => ?_, ?_⟩, fun s t hst => ?_⟩, ?_⟩
  · have := G.lower.support a b hab q hq
    unfold Verif.Spec.Hull.AboveLine at this
    rw [div_mul_eq_mul_div, ← add_div, div_le_iff₀ hd]
    linarith
  · rw [div_mul_eq_mul_div, ← add_div, div_eq_iff hd.ne']
    linarith
  · have ha' := hst a ((hvs a).mp ha).1
    have hb' := hst b ((hvs b).mp hb).1
    generalize (x - a.1) / (b.1 - a.1) = t' at hx hyv t0 t1
    rw [hyv, hx]
    nlinarith [mul_le_mul_of_nonneg_left ha' (sub_nonneg.mpr t1), mul_le_mul_of_nonneg_left hb' t0]
  · obtain ⟨xa, ea, ma⟩ := S.near hδ hδ0 a ((hvs a).mp ha).1
    obtain ⟨xb, eb, mb⟩ := S.near hδ hδ0 b ((hvs b).mp hb).1
    have hmix := mixes_convex ma mb t0 t1
    rw [← hyv] at hmix
    refine ⟨_, ?_, hmix⟩
    generalize (x - a.1) / (b.1 - a.1) = t' at hx t0 t1
    have e1 : (1 - t') * xa + t' * xb - x = (1 - t') * (xa - a.1) + t' * (xb - b.1) := by
      conv_lhs => rw [hx]
      ring
    rw [e1]
    refine (abs_add_le _ _).trans ?_
    rw [abs_mul, abs_mul, abs_of_nonneg (sub_nonneg.mpr t1), abs_of_nonneg t0]
    have := mul_le_mul_of_nonneg_left ea (sub_nonneg.mpr t1)
    have := mul_le_mul_of_nonneg_left eb t0
    linarith

/-- **C136, the hull is reached.** The hull energy at `x` is the energy of turning a mixture within 5e-13 of `x` into phases. This needs no
condition on the number of phases per side. -/
theorem C136_attained (S : Setup X cfg entries n A B out gs h) (raw : List ℕ)
    (H : HullIndices h.coords raw) (hap : Apart' h.coords) (x : ℚ) (h0 : 0 ≤ x) (h1 : x ≤ 1)
    (hsep : ∀ p, LowerCorner h.coords p → Verif.Py.isclose x p.1 = true → x = p.1) :
    ∃ y, getHullEnergy ⟨h.coords, raw⟩ x = some y ∧ Envelope h.coords x y ∧ ∃ x', |x' - x| ≤ 1 / (2 * 10 ^ 12) ∧ Mixes X entries A B x' y :=
  S.attained S.off (by norm_num) raw H hap x h0 h1 hsep

/-- **C136, the ground state.** If rounding does not change the coordinates, the hull energy at `x` is the lowest energy that a mixture of
`A` and `B` with the share `x` of `B` can reach. -/
theorem C136_ground_state (S : Setup X cfg entries n A B out gs h) (hO : OneEach X entries) (hA : Admits cfg A B) (hR : Roomy X A B n)
    (hex : Off X A B gs 0) (raw : List ℕ) (H : HullIndices h.coords raw) (hap : Apart' h.coords) (x : ℚ) (h0 : 0 ≤ x) (h1 : x ≤ 1)
    (hsep : ∀ p, LowerCorner h.coords p → Verif.Py.isclose x p.1 = true → x = p.1) :
    ∃ y, getHullEnergy ⟨h.coords, raw⟩ x = some y ∧ IsLeast {e | Mixes X entries A B x e} y := by
  obtain ⟨y, hy, ⟨⟨s, t, hst, rfl⟩, -⟩, x', hx', hm⟩ := S.attained hex le_rfl raw H hap x h0 h1 hsep
  have : x' = x := by have := abs_nonpos_iff.mp hx'; linarith
  subst this
  refine ⟨_, hy, hm, fun e he => ?_⟩
  obtain ⟨x'', e1, -, -, e2⟩ := S.lower hO hA hR hex le_rfl x' e he
  have : x'' = x' := by have := abs_nonpos_iff.mp e1; linarith
  subst this
  exact e2 s t hst

/-- **C136, inert interfaces.** Some reaction of the hull releases energy if and only if some mixture of `A` and `B` can release energy.
Rounding does not matter. -/
theorem C136_inert (S : Setup X cfg entries n A B out gs h) (hO : OneEach X entries) (hA : Admits cfg A B) (hR : Roomy X A B n) :
    (∃ p ∈ h.coords, p.2 < 0) ↔ ∃ x e, Mixes X entries A B x e ∧ e < 0 := by
  constructor
  · rintro ⟨p, hp, hlt⟩
    obtain ⟨x, -, hm⟩ := S.near S.off (by norm_num) p hp
    exact ⟨x, p.2, hm, hlt⟩
  · rintro ⟨x, e, hm, hlt⟩
    by_contra hc
    push Not at hc
    obtain ⟨x', -, -, -, h4⟩ := S.lower hO hA hR S.off (by norm_num) x e hm
    have := h4 0 0 fun q hq => by have := hc q hq; linarith
    linarith
end

/-- **C136, pure elements.** Phases with different reduced formulas have at most one phase for each element, if proportional compositions have the
same reduced formula. -/
theorem C136_one_each (X : Chem κ Sym) (hX : X.Lawful) (hC : Canonical X) (hsym : Symbols fun e : Entry κ => X.elems e.comp) (entries : List (Entry κ))
    (hn : (entries.map fun e => X.red e.comp).Nodup) : OneEach X entries := by
  intro x hx z hz s h1 h2
  have key : ∀ y : Entry κ, (∀ e ∈ X.elems y.comp, e = s) → 0 < X.amt y.comp s ∧ ∀ e, e ≠ s → X.amt y.comp e = 0 := by
    intro y hy
    obtain ⟨e, he⟩ := List.exists_mem_of_ne_nil _ (hsym.ne y)
    refine ⟨lt_of_le_of_ne (hX.nonneg _ _) (Ne.symm ?_), fun e' hne => ?_⟩
    · rw [← hy e he]; exact (hX.mem_elems _ _).mp he
    · by_contra hc
      exact hne (hy e' ((hX.mem_elems _ _).mpr hc))
  obtain ⟨x1, x2⟩ := key x h1
  obtain ⟨z1, z2⟩ := key z h2
  refine List.inj_on_of_nodup_map hn hx hz (hC x.comp z.comp (X.amt x.comp s / X.amt z.comp s) (div_pos x1 z1) fun e => ?_)
  by_cases he : e = s
  · rw [he, div_mul_cancel₀ _ z1.ne']
  · rw [x2 e he, z2 e he, mul_zero]

/-! ### Example: A, B and AB -/

def eA : Entry (Fin 4) := ⟨0, -1⟩
def eB : Entry (Fin 4) := ⟨1, -1⟩
def eAB : Entry (Fin 4) := ⟨2, -3⟩

theorem exAdmits : Admits exAll eA eB := ⟨.inl rfl, rfl, rfl⟩
theorem exRoomy : Roomy exChem eA eB 2 := ⟨by decide, by decide +kernel, by decide +kernel⟩

theorem exCanonical : Canonical exChem := by
  intro c d k hk h
  have hA := h ['A']
  have hB := h ['B']
  fin_cases c <;> fin_cases d <;> simp [exChem, EnumComplete.exAmt] at hA hB ⊢ <;> linarith

theorem exOne : OneEach exChem exThree := C136_one_each exChem exLawful exCanonical exSymbols exThree (by decide)

theorem exSum (f : Entry (Fin 4) → ℚ) : ∑ z ∈ exThree.toFinset, f z = f eA + f eB + f eAB := by
  rw [List.sum_toFinset f (by decide +kernel)]
  simp [exThree, eA, eB, eAB]
  ring

/-- Every exactly balanced reaction of A and B makes AB. -/
theorem exAmounts (g : CRxn (Fin 4)) (hg : Genuine exChem exThree g) : amount g eA = -(amount g eAB) ∧ amount g eB = -(amount g eAB) := by
  have hA := (genuine_kernel hg).2 ['A']
  have hB := (genuine_kernel hg).2 ['B']
  rw [exSum] at hA hB
  simp [w, exChem, EnumComplete.exAmt, eA, eB, eAB] at hA hB
  simp only [eA, eB, eAB]
  constructor <;> linarith

theorem exPoint (g : CRxn (Fin 4)) (hg : Genuine exChem exThree g) (hre : ∀ z, amount g z < 0 → z = eA ∨ z = eB)
    (hpos : 0 < neg (amount g) eA * m exChem eA + neg (amount g) eB * m exChem eB) :
    coordOf exChem eA eB g = .ok (1 / 2) ∧ energyPerAtom exChem g = .ok (-1 / 2) ∧ taken exChem g eB / (taken exChem g eA + taken exChem g eB) = 1 / 2 := by
  obtain ⟨h1, h2⟩ := readings exChem exLawful exThree (by decide) eA eB (by decide +kernel) (by decide +kernel) (by decide +kernel) g hg hre
  obtain ⟨c, hc, -, -, -, hr⟩ := h2 hpos.ne'
  obtain ⟨aA, aB⟩ := exAmounts g hg
  have mA : m exChem eA = 1 := by decide +kernel
  have mB : m exChem eB = 1 := by decide +kernel
  have eq : neg (amount g) eB = neg (amount g) eA := by unfold neg; rw [aA, aB]
  rw [taken_eq hg, taken_eq hg]
  rw [mA, mB, eq] at hr h1 hpos ⊢
  have hp : 0 < neg (amount g) eA := by linarith
  have hd : neg (amount g) eA * 1 / (neg (amount g) eA * 1 + neg (amount g) eA * 1) = 1 / 2 := by
    field_simp; norm_num
  rw [hd] at hr ⊢
  have hn : neg (amount g) eA = amount g eAB := by
    unfold neg at hp ⊢
    rw [aA, neg_neg] at hp ⊢
    rcases lt_max_iff.mp hp with h | h
    · exact absurd h (lt_irrefl _)
    · exact max_eq_right h.le
  refine ⟨by rw [hc, hr]; decide +kernel, ?_, rfl⟩
  rw [h1, exSum, aA, aB, hn]
  unfold perAtom
  have hp' : 0 < amount g eAB := hn ▸ hp
  simp only
  rw [if_neg (by linarith)]
  congr 1
  have e1 : en exChem eA = -1 := by decide +kernel
  have e2 : en exChem eB = -1 := by decide +kernel
  have e3 : en exChem eAB = -3 := by decide +kernel
  rw [e1, e2, e3]
  field_simp
  norm_num

/-- There is a run on the three phases, a hull of its reactions between A and B, and the hull has the corners (0, 0), (1/2, -1/2), (1, 0). -/
theorem exSetup : ∃ out gs h, Setup exChem exAll exThree 2 eA eB out gs h ∧ Off exChem eA eB gs 0 ∧ h.coords = [(0, 0), (1 / 2, -1 / 2), (1, 0)] := by
  obtain ⟨out, hrun⟩ := exReturns exThree 2 exAll
  obtain ⟨gs, hb⟩ := C136_between exChem exLawful exSymbols exAll exPlain exThree (by decide) exSharp 2 out hrun eA eB
  have hp := fun g hg => between_pos exLawful exSymbols exPlain (by decide) exSharp hrun hb g hg
  have hpt : ∀ g ∈ gs, _ := fun g hg => exPoint g (hb.2 g hg) (hp g hg).1 (hp g hg).2
  -- the reactions between A and B are those that make AB of A and B
  have hf : out.filter (fun x => decide (∀ z ∈ x.reactants, z = eA ∨ z = eB)) = out.filter fun x => decide (sides x = ([eA, eB].toFinset, [eAB].toFinset)) := by
    apply List.filter_congr
    intro x hx
    rw [decide_eq_decide]
    constructor
    · intro hr
      have hx' : x ∈ gs.map viewOf := hb.1.mem_iff.mpr (List.mem_filter.mpr ⟨hx, by simpa using hr⟩)
      obtain ⟨g, hg, rfl⟩ := List.mem_map.mp hx'
      have hG := hb.2 g hg
      obtain ⟨aA, aB⟩ := exAmounts g hG
      have h3 : 0 < amount g eAB := by
        have := (hp g hg).2
        by_contra hc
        have z1 : neg (amount g) eA = 0 := by unfold neg; rw [aA, neg_neg]; exact max_eq_left (not_lt.mp hc)
        have z2 : neg (amount g) eB = 0 := by unfold neg; rw [aB, neg_neg]; exact max_eq_left (not_lt.mp hc)
        rw [z1, z2] at this
        linarith
      have hin : ∀ z, amount g z ≠ 0 → z = eA ∨ z = eB ∨ z = eAB := by
        intro z hz
        have := hG.mem z (by by_contra hc; exact hz (coeffOf_absent _ _ _ hc))
        simpa [exThree, eA, eB, eAB] using this
      unfold sides
      refine Prod.ext ?_ ?_
      · ext z
        simp only [List.mem_toFinset]
        rw [mem_reactants hG]
        constructor
        · intro h
          rcases hin z h.ne with rfl | rfl | rfl
          · simp
          · simp
          · linarith
        · intro h
          rcases List.mem_cons.mp h with rfl | h
          · linarith
          · rw [List.mem_singleton.mp h]; linarith
      · ext z
        simp only [List.mem_toFinset]
        rw [mem_products hG]
        constructor
        · intro h
          rcases hin z h.ne' with rfl | rfl | rfl
          · linarith
          · linarith
          · simp
        · intro h
          rw [List.mem_singleton.mp h]; exact h3
    · intro h z hz
      have h1 : x.reactants.toFinset = [eA, eB].toFinset := congrArg Prod.fst h
      have := List.mem_toFinset.mpr hz
      rw [h1] at this
      simpa using this
  obtain ⟨g, hg, -⟩ := (C132_exact_partial exChem exLawful exSymbols exAll exPlain exThree (by decide) exSharp 2 out hrun [eA, eB] [eAB]
    (by decide +kernel) (by decide +kernel)).2 _ _ exSought
  have hlen : gs.length = 1 := by
    have := hb.1.length_eq
    rw [hf, hg] at this
    simpa using this
  obtain ⟨g1, rfl⟩ := List.length_eq_one_iff.mp hlen
  have hmem := hpt g1 (by simp)
  have hre : ∀ z, z ∈ (viewOf g1).reactants ↔ z = eA ∨ z = eB := by
    intro z
    have : viewOf g1 ∈ out.filter fun x => decide (sides x = ([eA, eB].toFinset, [eAB].toFinset)) := by
      rw [← hf]; exact hb.1.mem_iff.mp (by simp)
    have h1 := (List.mem_filter.mp this).2
    simp only [decide_eq_true_eq] at h1
    have h2 : (viewOf g1).reactants.toFinset = [eA, eB].toFinset := congrArg Prod.fst h1
    rw [← List.mem_toFinset, h2]
    simp
  obtain ⟨h, hh⟩ := (C136_builds exChem exLawful exSymbols exAll exPlain exThree (by decide) exSharp 2 out hrun eA eB (by decide +kernel) (by decide +kernel)
    (by decide +kernel) [g1] hb).mpr ⟨⟨g1, by simp, (hre _).mpr (.inl rfl)⟩, g1, by simp, (hre _).mpr (.inr rfl)⟩
  refine ⟨out, [g1], h, ⟨exLawful, exSymbols, exPlain, by decide, exSharp, by decide +kernel, by decide +kernel, by decide +kernel, hrun, hb, hh⟩, ?_, ?_⟩
  · intro g hg c hc
    obtain ⟨k1, -, k3⟩ := hpt g hg
    rw [k1] at hc
    cases hc
    rw [k3]
    simp
  · obtain ⟨ident, argsort, hs, hh⟩ := hh
    obtain ⟨a, b, pts, -, -, -, -, hfa, -, -, -, hperm, hsorted⟩ := Verif.Props.HullInit.C92_aligned _ _ _ _ _ _ hs _ _ _ h hh
    have hpts : pts = [(1 / 2, -1 / 2)] := by
      cases hfa with
      | cons hd tl =>
        cases tl
        obtain ⟨d1, d2⟩ := hd
        rw [hmem.1] at d1
        rw [hmem.2.1] at d2
        congr 1
        exact Prod.ext (Except.ok.inj d1).symm (Except.ok.inj d2).symm
    rw [hpts] at hperm
    refine List.Perm.eq_of_pairwise (le := fun p q : ℚ × ℚ => p.1 ≤ q.1) ?_ hsorted (by decide +kernel) (hperm.trans (by decide +kernel))
    intro p q hp hq h1 h2
    have hp' := hperm.mem_iff.mp hp
    revert h1 h2
    simp only [List.singleton_append, List.mem_cons, List.not_mem_nil, or_false] at hp' hq
    rcases hp' with rfl | rfl | rfl <;> rcases hq with rfl | rfl | rfl <;> norm_num

theorem exHull_indices : HullIndices [(0, 0), (1 / 2, -1 / 2), (1, 0)] [0, 1, 2] := by
  refine ⟨by decide, ?_, ?_, by decide +kernel⟩
  · intro i hi
    simp only [List.mem_cons, List.not_mem_nil, or_false] at hi
    rcases hi with rfl | rfl | rfl
    · exact ⟨(0, 0), rfl, by decide +kernel, -1, 0, by decide +kernel⟩
    · exact ⟨(1 / 2, -1 / 2), rfl, by decide +kernel, 0, -1, by decide +kernel⟩
    · exact ⟨(1, 0), rfl, by decide +kernel, 1, 0, by decide +kernel⟩
  · rintro p ⟨hp, -⟩
    simp only [List.mem_cons, List.not_mem_nil, or_false] at hp
    rcases hp with rfl | rfl | rfl
    · exact ⟨0, by decide, rfl⟩
    · exact ⟨1, by decide, rfl⟩
    · exact ⟨2, by decide, rfl⟩

theorem exHull_apart : Apart' [(0, 0), (1 / 2, -1 / 2), (1, 0)] := by
  have h1 : ∀ p ∈ [((0 : ℚ), (0 : ℚ)), (1 / 2, -1 / 2), (1, 0)], ∀ q ∈ [((0 : ℚ), (0 : ℚ)), (1 / 2, -1 / 2), (1, 0)],
      Verif.Py.isclose q.2 p.2 = true → q.1 = p.1 → q.2 = p.2 := by decide +kernel
  have h2 : ∀ p ∈ [((0 : ℚ), (0 : ℚ)), (1 / 2, -1 / 2), (1, 0)], ∀ q ∈ [((0 : ℚ), (0 : ℚ)), (1 / 2, -1 / 2), (1, 0)],
      Verif.Py.isclose p.1 q.1 = true → p.1 = q.1 := by decide +kernel
  exact ⟨fun p q hp hq hx _ hc => h1 p hp.1 q hq hc hx, fun p q hp hq => h2 p hp.1 q hq.1⟩

/-- At a quarter of B the ground state is half AB and half A, 1/4 below the mixture, which is also the hull energy. -/
example : ∃ out gs h, Setup exChem exAll exThree 2 eA eB out gs h ∧
    getHullEnergy ⟨h.coords, [0, 1, 2]⟩ (1 / 4) = some (-1 / 4) ∧ IsLeast {e | Mixes exChem exThree eA eB (1 / 4) e} (-1 / 4) ∧
    (∃ p ∈ h.coords, p.2 < 0) ∧ ∃ x', |x' - 1 / 4| ≤ 1 / (2 * 10 ^ 12) ∧ Mixes exChem exThree eA eB x' (-1 / 4) := by
  obtain ⟨out, gs, h, S, hO, hc⟩ := exSetup
  have he : getHullEnergy ⟨h.coords, [0, 1, 2]⟩ (1 / 4) = some (-1 / 4) := by rw [hc]; decide +kernel
  have hsep : ∀ p, LowerCorner h.coords p → Verif.Py.isclose (1 / 4) p.1 = true → 1 / 4 = p.1 := by
    rintro p ⟨hp, -⟩ hcl
    rw [hc] at hp
    simp only [List.mem_cons, List.not_mem_nil, or_false] at hp
    rcases hp with rfl | rfl | rfl <;> revert hcl <;> decide +kernel
  obtain ⟨y, hy, hl⟩ := C136_ground_state S exOne exAdmits exRoomy hO [0, 1, 2] (hc ▸ exHull_indices) (hc ▸ exHull_apart) (1 / 4) (by norm_num) (by norm_num) hsep
  rw [he] at hy
  cases hy
  obtain ⟨y', hy', -, x', hx', hm⟩ := C136_attained S [0, 1, 2] (hc ▸ exHull_indices) (hc ▸ exHull_apart) (1 / 4) (by norm_num) (by norm_num) hsep
  rw [he] at hy'
  cases hy'
  exact ⟨out, gs, h, S, he, hl, (C136_inert S exOne exAdmits exRoomy).mpr ⟨_, _, hl.1, by norm_num⟩, x', hx', hm⟩

/-- And no mixture does better. -/
example : ∃ out gs h, Setup exChem exAll exThree 2 eA eB out gs h ∧ ∃ x', |x' - 1 / 2| ≤ 1 / (2 * 10 ^ 12) ∧ 0 ≤ x' ∧ x' ≤ 1 ∧ ∀ y, Envelope h.coords x' y → y ≤ 0 := by
  obtain ⟨out, gs, h, S, -, -⟩ := exSetup
  obtain ⟨m1, m2⟩ := mixes_ends (X := exChem) (List.Nodup.of_map _ S.distinct) S.inA S.inB
  have := mixes_convex m1 m2 (t := 1 / 2) (by norm_num) (by norm_num)
  norm_num at this
  refine ⟨out, gs, h, S, C136_no_lower_partial S exOne exAdmits exRoomy (1 / 2) 0 ?_⟩
  norm_num
  exact this

/-! ### Fewer phases per side than elements: A = PQR, B = PQ, P, Q and R -/

/-- The amounts of P, Q and R in PQR, PQ, P, Q and R. -/
def fAmt : Fin 5 → ℚ × ℚ × ℚ
  | 0 => (1, 1, 1)
  | 1 => (1, 1, 0)
  | 2 => (1, 0, 0)
  | 3 => (0, 1, 0)
  | 4 => (0, 0, 1)

def fChem : Chem (Fin 5) Sym where
  amt c s := if s = ['P'] then (fAmt c).1 else if s = ['Q'] then (fAmt c).2.1 else if s = ['R'] then (fAmt c).2.2 else 0
  elems c := (if (fAmt c).1 = 0 then [] else [['P']]) ++ (if (fAmt c).2.1 = 0 then [] else [['Q']]) ++ if (fAmt c).2.2 = 0 then [] else [['R']]
  red c := c
  fac _ := 1

theorem fLawful : fChem.Lawful where
  nonneg c s := by
    unfold fChem
    fin_cases c <;> simp only [fAmt] <;> split_ifs <;> norm_num
  mem_elems c s := by
    unfold fChem
    fin_cases c <;> simp only [fAmt] <;> by_cases h1 : s = ['P'] <;> by_cases h2 : s = ['Q'] <;> by_cases h3 : s = ['R'] <;> simp [h1, h2, h3]
  nodup c := by
    unfold fChem
    fin_cases c <;> decide +kernel
  fac_pos _ := by unfold fChem; norm_num
  red_amt c s := by unfold fChem; simp
  red_red _ := rfl

theorem fSymbols : Symbols fun e : Entry (Fin 5) => fChem.elems e.comp where
  ne x := (by decide +kernel : ∀ c : Fin 5, fChem.elems c ≠ []) x.comp
  dash x := (by decide +kernel : ∀ c : Fin 5, ∀ s ∈ fChem.elems c, '-' ∉ s) x.comp

def fA : Entry (Fin 5) := ⟨0, 3⟩
def fB : Entry (Fin 5) := ⟨1, 3⟩
def fP : Entry (Fin 5) := ⟨2, 0⟩
def fQ : Entry (Fin 5) := ⟨3, 0⟩
def fR : Entry (Fin 5) := ⟨4, 0⟩
def fFive : List (Entry (Fin 5)) := [fA, fB, fP, fQ, fR]
def fAll : Cfg (Entry (Fin 5)) := ⟨[], [], [], false, false, true, true, 1, []⟩

theorem fNe : fA ≠ fB ∧ fA ≠ fP ∧ fA ≠ fQ ∧ fA ≠ fR ∧ fB ≠ fP ∧ fB ≠ fQ ∧ fB ≠ fR ∧ fP ≠ fQ ∧ fP ≠ fR ∧ fQ ≠ fR := by decide +kernel

theorem fSum (f : Entry (Fin 5) → ℚ) : ∑ z ∈ fFive.toFinset, f z = f fA + f fB + f fP + f fQ + f fR := by
  rw [List.sum_toFinset f (by decide +kernel)]
  simp only [fFive, List.map_cons, List.map_nil, List.sum_cons, List.sum_nil]
  ring

theorem fW (f : Entry (Fin 5) → ℚ) (s : Sym) : f fA * w fChem fA s + f fB * w fChem fB s + f fP * w fChem fP s + f fQ * w fChem fQ s + f fR * w fChem fR s
    = if s = ['P'] then f fA + f fB + f fP else if s = ['Q'] then f fA + f fB + f fQ else if s = ['R'] then f fA + f fR else 0 := by
  simp only [w, fChem, fA, fB, fP, fQ, fR, fAmt]
  split_ifs <;> ring

theorem fSharp : Sharp fChem fFive := by
  intro r p hn hin v hr hp hc
  set L := r ++ p with hL
  set u : Entry (Fin 5) → ℚ := fun z => if z ∈ L then v z else 0 with hu
  have hsum : ∀ f : Entry (Fin 5) → ℚ, (L.map f).sum = ∑ z ∈ fFive.toFinset, if z ∈ L then f z else 0 := by
    intro f
    rw [← List.sum_toFinset f hn, ← Finset.sum_filter]
    apply Finset.sum_congr _ fun _ _ => rfl
    ext a
    simp only [List.mem_toFinset, Finset.mem_filter]
    exact ⟨fun h => ⟨hin a h, h⟩, fun h => h.2⟩
  have hcu : ∀ s, |if s = ['P'] then u fA + u fB + u fP else if s = ['Q'] then u fA + u fB + u fQ else if s = ['R'] then u fA + u fR else 0| ≤ 1 / 100000000 := by
    intro s
    have := hc s
    rw [hsum] at this
    have e : ∀ z ∈ fFive.toFinset, (if z ∈ L then v z * fChem.amt (fChem.red z.comp) s else 0) = u z * w fChem z s := by
      intro z _
      simp only [hu, w]
      split_ifs <;> ring
    rw [Finset.sum_congr rfl e, fSum fun z => u z * w fChem z s, fW u s] at this
    exact this
  have hP := hcu ['P']
  have hQ := hcu ['Q']
  have hRr := hcu ['R']
  simp at hP hQ hRr
  rw [abs_le] at hP hQ hRr
  have big : ∀ z, z ∈ L → u z ≤ -(1 / 1000000) ∨ 1 / 1000000 ≤ u z := by
    intro z hz
    simp only [hu, if_pos hz]
    exact (List.mem_append.mp hz).imp (hr z) (hp z)
  have out : ∀ z, z ∉ L → u z = 0 := fun z hz => by simp only [hu, if_neg hz]
  -- R with A; P with Q
  have hRA : fR ∉ L → fA ∉ L := by
    intro h1 h2
    have := out _ h1
    rcases big _ h2 with h | h <;> norm_num at h hRr <;> linarith
  have hAR : fA ∉ L → fR ∉ L := by
    intro h1 h2
    have := out _ h1
    rcases big _ h2 with h | h <;> norm_num at h hRr <;> linarith
  have hPQ : fP ∉ L → fQ ∉ L := by
    intro h1 h2
    have := out _ h1
    rcases big _ h2 with h | h <;> norm_num at h hP hQ <;> linarith
  have hQP : fQ ∉ L → fP ∉ L := by
    intro h1 h2
    have := out _ h1
    rcases big _ h2 with h | h <;> norm_num at h hP hQ <;> linarith
  have hPAB : fP ∉ L → (fA ∈ L ↔ fB ∈ L) := by
    intro h1
    have := out _ h1
    constructor
    · intro h2
      by_contra h3
      have := out _ h3
      rcases big _ h2 with h | h <;> norm_num at h hP hQ <;> linarith
    · intro h2
      by_contra h3
      have := out _ h3
      rcases big _ h2 with h | h <;> norm_num at h hP hQ <;> linarith
  set b := if fP ∈ L then u fB else -(u fA) with hb
  set x : Entry (Fin 5) → ℚ := fun z => if z = fA then u fA else if z = fB then b else if z = fP then -(u fA + b) else if z = fQ then -(u fA + b) else -(u fA) with hx
  obtain ⟨n1, n2, n3, n4, n5, n6, n7, n8, n9, n10⟩ := fNe
  have xA : x fA = u fA := by simp [hx]
  have xB : x fB = b := by simp [hx, n1.symm]
  have xP : x fP = -(u fA + b) := by simp [hx, n2.symm, n5.symm]
  have xQ : x fQ = -(u fA + b) := by simp [hx, n3.symm, n6.symm, n8.symm]
  have xR : x fR = -(u fA) := by simp [hx, n4.symm, n7.symm, n9.symm, n10.symm]
  have close : ∀ z ∈ L, |x z - u z| ≤ 1 / 100000000 := by
    intro z hz
    have hzm := hin z hz
    simp only [fFive, List.mem_cons, List.not_mem_nil, or_false] at hzm
    rw [abs_le]
    rcases hzm with rfl | rfl | rfl | rfl | rfl
    · rw [xA]; norm_num
    · rw [xB, hb]
      split_ifs with h
      · norm_num
      · have := out _ h
        norm_num at hP ⊢
        constructor <;> linarith
    · rw [xP, hb, if_pos hz]
      norm_num at hP ⊢
      constructor <;> linarith
    · have : fP ∈ L := by by_contra h; exact hPQ h hz
      rw [xQ, hb, if_pos this]
      norm_num at hQ ⊢
      constructor <;> linarith
    · rw [xR]
      norm_num at hRr ⊢
      constructor <;> linarith
  have xout : ∀ z ∈ fFive, z ∉ L → x z = 0 := by
    intro z hz hzL
    simp only [fFive, List.mem_cons, List.not_mem_nil, or_false] at hz
    rcases hz with rfl | rfl | rfl | rfl | rfl
    · rw [xA]; exact out _ hzL
    · rw [xB, hb]
      split_ifs with h
      · exact out _ hzL
      · rw [out fA (fun h' => hzL ((hPAB h).mp h'))]; norm_num
    · rw [xP, hb, if_neg hzL]; ring
    · rw [xQ, hb, if_neg (hQP hzL)]; ring
    · rw [xR, out _ (hRA hzL)]; norm_num
  refine ⟨x, fun z hz => ?_, fun z hz => ?_, fun s => ?_⟩
  · have h1 := close z (List.mem_append_left _ hz)
    rw [abs_le] at h1
    have h2 := hr z hz
    have h3 : u z = v z := by simp only [hu, if_pos (show z ∈ L from List.mem_append_left _ hz)]
    norm_num at h1 h2 ⊢
    linarith
  · have h1 := close z (List.mem_append_right _ hz)
    rw [abs_le] at h1
    have h2 := hp z hz
    have h3 : u z = v z := by simp only [hu, if_pos (show z ∈ L from List.mem_append_right _ hz)]
    norm_num at h1 h2 ⊢
    linarith
  · rw [hsum]
    have e : ∀ z ∈ fFive.toFinset, (if z ∈ L then x z * fChem.amt (fChem.red z.comp) s else 0) = x z * w fChem z s := by
      intro z hz
      split_ifs with h
      · rfl
      · rw [xout z (List.mem_toFinset.mp hz) h, zero_mul]
    rw [Finset.sum_congr rfl e, fSum fun z => x z * w fChem z s, fW x s, xA, xB, xP, xQ, xR]
    split_ifs <;> ring

theorem fPlain : Plain fAll := ⟨rfl, rfl, rfl⟩

theorem fOne : OneEach fChem fFive := by
  have h : ∀ x ∈ fFive, ∀ z ∈ fFive, x = z ∨ ∃ e ∈ fChem.elems x.comp ++ fChem.elems z.comp, ∃ f ∈ fChem.elems x.comp ++ fChem.elems z.comp, e ≠ f := by
    decide +kernel
  intro x hx z hz s h1 h2
  rcases h x hx z hz with h | ⟨e, he, f, hf, hne⟩
  · exact h
  · have k : ∀ e ∈ fChem.elems x.comp ++ fChem.elems z.comp, e = s := fun e he => (List.mem_append.mp he).elim (h1 e) (h2 e)
    exact absurd ((k e he).trans (k f hf).symm) hne

theorem fSoughtA : Sought fChem fAll fFive 2 [fA] [fB, fR] (fun _ => 1) fun _ => 1 := by
  refine ⟨by decide +kernel, by decide +kernel, by simp, by simp, by decide, by decide, by decide +kernel, by decide +kernel, by decide +kernel,
    ⟨by decide +kernel, by decide +kernel, fun s => ?_, fun c hc => ?_⟩, ⟨by decide +kernel, by decide +kernel, by decide +kernel, by decide +kernel⟩,
    by decide +kernel, by decide +kernel⟩
  · simp only [fChem, fA, fB, fR, fAmt, List.map_cons, List.map_nil, List.sum_cons, List.sum_nil]
    split_ifs <;> norm_num
  · have h1 := hc ['P']
    have h2 := hc ['R']
    simp only [fChem, fAmt, fA, fB, fR, List.map_cons, List.map_nil, List.sum_cons, List.sum_nil] at h1 h2
    simp at h1 h2
    refine ⟨-(c fA), fun x hx => ?_, fun x hx => ?_⟩
    · rw [List.mem_singleton.mp hx]; ring
    · simp only [List.mem_cons, List.not_mem_nil, or_false] at hx
      simp only [fA, fB, fR] at hx ⊢
      rcases hx with rfl | rfl <;> linarith

theorem fSoughtB : Sought fChem fAll fFive 2 [fB] [fP, fQ] (fun _ => 1) fun _ => 1 := by
  refine ⟨by decide +kernel, by decide +kernel, by simp, by simp, by decide, by decide, by decide +kernel, by decide +kernel, by decide +kernel,
    ⟨by decide +kernel, by decide +kernel, fun s => ?_, fun c hc => ?_⟩, ⟨by decide +kernel, by decide +kernel, by decide +kernel, by decide +kernel⟩,
    by decide +kernel, by decide +kernel⟩
  · simp only [fChem, fB, fP, fQ, fAmt, List.map_cons, List.map_nil, List.sum_cons, List.sum_nil]
    split_ifs <;> norm_num
  · have h1 := hc ['P']
    have h2 := hc ['Q']
    simp only [fChem, fAmt, fB, fP, fQ, List.map_cons, List.map_nil, List.sum_cons, List.sum_nil] at h1 h2
    simp at h1 h2
    refine ⟨-(c fB), fun x hx => ?_, fun x hx => ?_⟩
    · rw [List.mem_singleton.mp hx]; ring
    · simp only [List.mem_cons, List.not_mem_nil, or_false] at hx
      simp only [fB, fP, fQ] at hx ⊢
      rcases hx with rfl | rfl <;> linarith

/-- The reactions between PQR and PQ with at most two phases on a side are PQR → PQ + R and PQ → P + Q. -/
theorem fPoint (g : CRxn (Fin 5)) (hg : Genuine fChem fFive g) (hre : ∀ z, amount g z < 0 → z = fA ∨ z = fB)
    (hpos : 0 < neg (amount g) fA * m fChem fA + neg (amount g) fB * m fChem fB) (hprod : ((viewOf g).products.length : ℤ) ≤ 2) :
    (coordOf fChem fA fB g = .ok 0 ∧ energyPerAtom fChem g = .ok 0) ∨ (coordOf fChem fA fB g = .ok 1 ∧ energyPerAtom fChem g = .ok (-3 / 2)) := by
  obtain ⟨h1, h2⟩ := readings fChem fLawful fFive (by decide) fA fB (by decide +kernel) (by decide +kernel) (by decide +kernel) g hg hre
  obtain ⟨c, hc, -, -, -, hr⟩ := h2 hpos.ne'
  have kP := (genuine_kernel hg).2 ['P']
  have kQ := (genuine_kernel hg).2 ['Q']
  have kR := (genuine_kernel hg).2 ['R']
  rw [fSum fun z => amount g z * w fChem z _, fW] at kP kQ kR
  simp at kP kQ kR
  obtain ⟨n1, n2, n3, n4, n5, n6, n7, n8, n9, n10⟩ := fNe
  have nn : ∀ z, z ≠ fA → z ≠ fB → 0 ≤ amount g z := fun z h1 h2 => by
    by_contra h
    rcases hre z (not_le.mp h) with h | h
    · exact h1 h
    · exact h2 h
  have pP := nn fP n2.symm n5.symm
  have pR := nn fR n4.symm n7.symm
  have mA : m fChem fA = 3 := by decide +kernel
  have mB : m fChem fB = 2 := by decide +kernel
  have eA' : en fChem fA = 3 := by decide +kernel
  have eB' : en fChem fB = 3 := by decide +kernel
  have eP' : en fChem fP = 0 := by decide +kernel
  have eQ' : en fChem fQ = 0 := by decide +kernel
  have eR' : en fChem fR = 0 := by decide +kernel
  rw [fSum fun z => amount g z * en fChem z, eA', eB', eP', eQ', eR', mA, mB] at h1
  rw [mA, mB] at hr hpos
  unfold perAtom at h1
  simp only at h1
  rw [if_neg hpos.ne'] at h1
  by_cases hA : amount g fA < 0
  · -- three products unless P and Q are not made
    have hP0 : amount g fP = 0 := by
      by_contra h
      have h3 : ∀ z ∈ [fP, fQ, fR], z ∈ (viewOf g).products := by
        intro z hz
        rw [mem_products hg]
        have := lt_of_le_of_ne pP (Ne.symm h)
        simp only [List.mem_cons, List.not_mem_nil, or_false] at hz
        rcases hz with rfl | rfl | rfl <;> linarith
      have h4 := (List.subperm_of_subset (l₁ := [fP, fQ, fR]) (by decide +kernel) h3).length_le
      simp only [List.length_cons, List.length_nil] at h4
      omega
    left
    have nA : neg (amount g) fA = -(amount g fA) := max_eq_right (by linarith)
    have nB : neg (amount g) fB = 0 := max_eq_left (by linarith)
    rw [nA, nB] at hr h1
    refine ⟨?_, ?_⟩
    · rw [hc, hr]
      rw [zero_mul, zero_div]
      decide +kernel
    · rw [h1]
      congr 1
      rw [div_eq_zero_iff]
      left
      linarith
  · right
    have hA0 : amount g fA = 0 := by linarith
    have nA : neg (amount g) fA = 0 := max_eq_left (by linarith)
    rw [nA] at hr h1 hpos
    have hB : 0 < neg (amount g) fB := by linarith
    have nB : neg (amount g) fB = -(amount g fB) := by
      rcases lt_max_iff.mp hB with h | h
      · exact absurd h (lt_irrefl _)
      · exact max_eq_right h.le
    have hne : amount g fB ≠ 0 := by rw [nB] at hB; intro h; rw [h] at hB; norm_num at hB
    refine ⟨?_, ?_⟩
    · rw [hc, hr, zero_mul, zero_add, div_self (by linarith)]
      decide +kernel
    · rw [h1, nB, hA0]
      congr 1
      field_simp
      ring

/-- The run, its reactions PQR → PQ + R and PQ → P + Q, and the hull, which shows no reaction of PQR that releases energy. -/
theorem fSetup : ∃ out gs h, Setup fChem fAll fFive 2 fA fB out gs h ∧
    (∃ g ∈ gs, (∀ z, z ∈ (viewOf g).reactants ↔ z ∈ [fA]) ∧ ∀ z, z ∈ (viewOf g).products ↔ z ∈ [fB, fR]) ∧
    (∃ g ∈ gs, (∀ z, z ∈ (viewOf g).reactants ↔ z ∈ [fB]) ∧ ∀ z, z ∈ (viewOf g).products ↔ z ∈ [fP, fQ]) ∧
    ¬ ∃ x', |x' - 0| ≤ 1 / (2 * 10 ^ 12) ∧ 0 ≤ x' ∧ x' ≤ 1 ∧ ∀ y, Envelope h.coords x' y → y ≤ -1 := by
  obtain ⟨pinv, hp⟩ := exact_exists
  obtain ⟨out, ho⟩ := C124_runs fChem (rankFor fChem) (solveFor fChem pinv) (fun e => fChem.elems e.comp) fAll fFive 2 pairs2
    (fun c => c.length.choose 2) (fun _ => ()) 1 10 (by norm_num) (by norm_num) Verif.Props.Utils.lifo Verif.Props.Utils.lifo_spec
  have hrun : Returns fChem fAll fFive 2 out := ⟨Unit, _, _, 1, 10, _, pinv, Verif.Props.Utils.lifo_spec, hp, ho⟩
  obtain ⟨gs, hb⟩ := C136_between fChem fLawful fSymbols fAll fPlain fFive (by decide) fSharp 2 out hrun fA fB
  have hpos := fun g hg => between_pos fLawful fSymbols fPlain (by decide) fSharp hrun hb g hg
  have hpt : ∀ g ∈ gs, _ := fun g hg => fPoint g (hb.2 g hg) (hpos g hg).1 (hpos g hg).2 (by
    obtain ⟨hx, -⟩ := List.mem_filter.mp (hb.1.mem_iff.mp (List.mem_map.mpr ⟨g, hg, rfl⟩))
    obtain ⟨a, b, hS⟩ := returned_sought fChem fLawful fSymbols fAll fPlain fFive (by decide) fSharp 2 out hrun _ hx
    exact hS.sizeP)
  have hfound : ∀ r p a b, r.Nodup → p.Nodup → (∀ z ∈ r, z = fA ∨ z = fB) → Sought fChem fAll fFive 2 r p a b → ∃ g ∈ gs, (∀ z, z ∈ (viewOf g).reactants ↔ z ∈ r) ∧ ∀ z, z ∈ (viewOf g).products ↔ z ∈ p := by
    intro r p a b hr hp hz hS
    obtain ⟨x, hx, hxr, hxp⟩ := (C132_exact_partial fChem fLawful fSymbols fAll fPlain fFive (by decide) fSharp 2 out hrun r p hr hp).1.mpr ⟨a, b, hS⟩
    have hm : ∀ z, z ∈ x.reactants ↔ z ∈ r := fun z => by rw [← List.mem_toFinset, hxr, List.mem_toFinset]
    have hx' : x ∈ gs.map viewOf := hb.1.mem_iff.mpr (List.mem_filter.mpr ⟨hx, by simp only [decide_eq_true_eq]; exact fun z h => hz z ((hm z).mp h)⟩)
    obtain ⟨g, hg, rfl⟩ := List.mem_map.mp hx'
    exact ⟨g, hg, hm, fun z => by rw [← List.mem_toFinset, hxp, List.mem_toFinset]⟩
  obtain ⟨g1, hg1, hr1, hp1⟩ := hfound [fA] [fB, fR] _ _ (by simp) (by decide +kernel) (by simp) fSoughtA
  obtain ⟨g2, hg2, hr2, hp2⟩ := hfound [fB] [fP, fQ] _ _ (by simp) (by decide +kernel) (by simp) fSoughtB
  obtain ⟨h, hh⟩ := (C136_builds fChem fLawful fSymbols fAll fPlain fFive (by decide) fSharp 2 out hrun fA fB (by decide +kernel) (by decide +kernel)
    (by decide +kernel) gs hb).mpr ⟨⟨g1, hg1, (hr1 _).mpr (by simp)⟩, g2, hg2, (hr2 _).mpr (by simp)⟩
  have S : Setup fChem fAll fFive 2 fA fB out gs h :=
    ⟨fLawful, fSymbols, fPlain, by decide, fSharp, by decide +kernel, by decide +kernel, by decide +kernel, hrun, hb, hh⟩
  refine ⟨out, gs, h, S, ⟨g1, hg1, hr1, hp1⟩, ⟨g2, hg2, hr2, hp2⟩, ?_⟩
  · rintro ⟨x', h1, h0, h2, h3⟩
    have hcoords : ∀ q ∈ h.coords, (-3 / 2) * q.1 ≤ q.2 := by
      intro q hq
      rcases S.coords.2.2.2 q hq with rfl | rfl | ⟨g, hg, e1, e2⟩
      · norm_num
      · norm_num
      · rcases hpt g hg with ⟨k1, k2⟩ | ⟨k1, k2⟩
        · rw [k1] at e1; rw [k2] at e2
          rw [← Except.ok.inj e1, ← Except.ok.inj e2]; norm_num
        · rw [k1] at e1; rw [k2] at e2
          rw [← Except.ok.inj e1, ← Except.ok.inj e2]; norm_num
    have hcorner : ((1 : ℚ), (-3 / 2 : ℚ)) ∈ h.coords := by
      obtain ⟨q, hq, e1, e2⟩ := S.coords.1 g2 hg2
      rcases hpt g2 hg2 with ⟨k1, k2⟩ | ⟨k1, k2⟩
      · exfalso
        -- PQ is consumed, so the coordinate is not 0
        obtain ⟨-, hr⟩ := readings fChem fLawful fFive (by decide) fA fB (by decide +kernel) (by decide +kernel) (by decide +kernel) g2 (hb.2 g2 hg2) (hpos g2 hg2).1
        obtain ⟨c, hc, -, -, -, hr⟩ := hr (hpos g2 hg2).2.ne'
        have hA : neg (amount g2) fA = 0 := by
          refine max_eq_left ?_
          by_contra hcon
          have := (hr2 fA).mp ((mem_reactants (hb.2 g2 hg2) fA).mpr (by linarith))
          exact fNe.1 (by simpa using this)
        have hne := (hpos g2 hg2).2
        rw [hA, zero_mul, zero_add] at hne hr
        rw [div_self hne.ne'] at hr
        rw [k1] at hc
        have := Except.ok.inj hc
        rw [hr] at this
        revert this
        decide +kernel
      · rw [k1] at e1; rw [k2] at e2
        have : q = (1, -3 / 2) := Prod.ext (Except.ok.inj e1).symm (Except.ok.inj e2).symm
        exact this ▸ hq
    have := h3 ((-3 / 2) * x') ⟨⟨-3 / 2, 0, fun q hq => by have := hcoords q hq; linarith, by ring⟩, fun s t hst => by
      have a0 := hst _ S.coords.2.1
      have a1 := hst _ hcorner
      simp only at a0 a1
      nlinarith [mul_nonneg h0 (sub_nonneg.mpr h2)]⟩
    rw [sub_zero, abs_of_nonneg h0] at h1
    norm_num at h1
    linarith

/-- **C136 fails with fewer phases per side than elements.** With at most two phases on a side, the enumeration misses PQR → P + Q + R; the hull
between PQR and PQ shows no reaction of PQR that releases energy, although PQR can release 1 per atom. -/
theorem C136_small_n_violated : ∃ out gs h, Setup fChem fAll fFive 2 fA fB out gs h ∧ OneEach fChem fFive ∧ Admits fAll fA fB ∧
    Mixes fChem fFive fA fB 0 (-1) ∧
    ¬ ∃ x', |x' - 0| ≤ 1 / (2 * 10 ^ 12) ∧ 0 ≤ x' ∧ x' ≤ 1 ∧ ∀ y, Envelope h.coords x' y → y ≤ -1 := by
  obtain ⟨out, gs, h, S, -, -, hno⟩ := fSetup
  refine ⟨out, gs, h, S, fOne, ⟨.inl rfl, rfl, rfl⟩, ?_, hno⟩
  · refine ⟨le_rfl, by norm_num, fun z => if z = fP ∨ z = fQ ∨ z = fR then 1 / 3 else 0, fun z => by dsimp only; split_ifs <;> norm_num, fun s => ?_, by decide +kernel⟩
    have hn : fChem.natoms fA.comp = 3 ∧ fChem.natoms fB.comp = 2 ∧ fChem.natoms fP.comp = 1 ∧ fChem.natoms fQ.comp = 1 ∧ fChem.natoms fR.comp = 1 := by decide +kernel
    obtain ⟨-, n2, n3, n4, n5, n6, n7, n8, n9, n10⟩ := fNe
    simp only [fFive, List.map_cons, List.map_nil, List.sum_cons, List.sum_nil, share, hn, n2, n3, n4, n5, n6, n7, n8, n9, n10, n8.symm, n9.symm, n10.symm, or_self, or_true, true_or, if_true, if_false]
    simp only [fChem, fA, fB, fP, fQ, fR, fAmt]
    split_ifs <;> norm_num

end Verif.Props.GroundState
