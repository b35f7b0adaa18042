import Verif.Props.DomainDistance
import Verif.Props.Reference

/-!
C147: what the distances of a chemical potential diagram say about the energies of reactions (src/rxn_network/thermo/chempot_diagram.py and
src/rxn_network/reactions/computed.py).
-/

set_option linter.unusedSectionVars false

namespace Verif.Props.Coexist
open Verif.Py Verif.Model Verif.Model.Reaction Verif.Model.Chempot Verif.Model.Thermo Verif.Spec.Reaction Verif.Lemmas.Dict
  Verif.Props.Reaction Verif.Props.Chempot Verif.Props.DomainDistance Verif.Props.Reference

variable {κ ε φ : Type} [DecidableEq κ] [DecidableEq ε] [DecidableEq φ]

/-! ### Specification -/

/-- Atomic fraction of an element in an entry. -/
def fraction (X : Chem κ ε) (e : Entry κ) (s : ε) : ℚ := X.amt e.comp s / X.natoms e.comp

/-- Energy per atom of an entry. -/
def perAtomEnergy (X : Chem κ ε) (e : Entry κ) : ℚ := e.energy / X.natoms e.comp

/-- All entries and the ground states among them: the diagram has all elements, and for every entry there is a ground state of the same
composition that is not higher in energy. -/
structure Phases (X : Chem κ ε) (elements : List ε) (all mins : List (Entry κ)) : Prop where
  cover : ∀ x ∈ all, ∀ s ∈ X.elems x.comp, s ∈ elements
  ground : ∀ x ∈ all, ∃ m ∈ mins, (∀ s ∈ elements, fraction X x s = fraction X m s) ∧ perAtomEnergy X m ≤ perAtomEnergy X x

/-! ### Helper lemmas -/

/-- A list of potentials as a function on the elements. -/
theorem potentials (elements : List ε) (hn : elements.Nodup) (μ : List ℚ) (hl : μ.length = elements.length) :
    ∃ u : ε → ℚ, ∀ f : ε → ℚ, (List.zipWith (fun s m => f s * m) elements μ).sum = (elements.map fun s => f s * u s).sum := by
  induction elements generalizing μ with
  | nil => exact ⟨fun _ => 0, fun f => by simp⟩
  | cons s elements ih =>
    cases μ with
    | nil => simp at hl
    | cons m μ =>
      rw [List.nodup_cons] at hn
      obtain ⟨u, hu⟩ := ih hn.2 μ (by simpa using hl)
      refine ⟨fun t => if t = s then m else u t, fun f => ?_⟩
      simp only [List.zipWith_cons_cons, List.sum_cons, List.map_cons, if_true, hu f]
      congr 2
      apply List.map_congr_left
      intro t ht
      have : t ≠ s := fun h => hn.1 (h ▸ ht)
      simp [this]

section
variable {X : Chem κ ε} {elements : List ε} {all mins : List (Entry κ)} {formula : Entry κ → φ} {refs : List (ε × Entry κ)}
  {borders : List (List ℚ)} {hsInt : List (List ℚ) → List (List ℚ × List ℕ)} {doms : List (φ × List (List ℚ))}

theorem natoms_pos (hX : X.Lawful) (D : Diagram elements (fraction X) (perAtomEnergy X) formula mins refs borders hsInt doms)
    (P : Phases X elements all mins) (x : Entry κ) (hx : x ∈ all) : 0 < X.natoms x.comp := by
  obtain ⟨m, hm, hf, -⟩ := P.ground x hx
  have ht := D.total m hm
  rw [← List.map_congr_left hf] at ht
  have h0 : 0 ≤ X.natoms x.comp := List.sum_nonneg (by
    intro y hy
    obtain ⟨s, -, rfl⟩ := List.mem_map.mp hy
    exact hX.nonneg _ _)
  rcases h0.lt_or_eq with h | h
  · exact h
  · exfalso
    have : elements.map (fraction X x) = elements.map fun _ => (0 : ℚ) := by
      apply List.map_congr_left
      intro s _
      simp [fraction, ← h]
    rw [this] at ht
    simp at ht

/-- At the potentials of a point of the diagram, no phase has less energy than its atoms. -/
theorem carried_le (hX : X.Lawful) (D : Diagram elements (fraction X) (perAtomEnergy X) formula mins refs borders hsInt doms)
    (P : Phases X elements all mins) (μ : List ℚ)
    (hμ : ∀ m ∈ mins, weighted elements (fraction X) m μ ≤ perAtomEnergy X m) (u : ε → ℚ)
    (hu : ∀ f : ε → ℚ, (List.zipWith (fun s m => f s * m) elements μ).sum = (elements.map fun s => f s * u s).sum) (x : Entry κ) (hx : x ∈ all) :
    carried X u x.comp = X.natoms x.comp * weighted elements (fraction X) x μ ∧ carried X u x.comp ≤ x.energy := by
  have hp := natoms_pos hX D P x hx
  have h1 : carried X u x.comp = X.natoms x.comp * weighted elements (fraction X) x μ := by
    unfold carried weighted
    rw [hu, sum_elems X hX u x.comp elements D.nodup (P.cover x hx), ← List.sum_map_mul_left]
    congr 1
    apply List.map_congr_left
    intro s _
    unfold fraction
    field_simp
  refine ⟨h1, ?_⟩
  obtain ⟨m, hm, hf, he⟩ := P.ground x hx
  have hw : weighted elements (fraction X) x μ = weighted elements (fraction X) m μ := by
    unfold weighted
    rw [hu, hu]
    congr 1
    apply List.map_congr_left
    intro s hs
    rw [hf s hs]
  have := (hw ▸ hμ m hm).trans he
  rw [h1]
  unfold perAtomEnergy at this
  rw [le_div_iff₀ hp] at this
  linarith

/-- How far the potentials of a point are from equilibrium with an entry, per atom. -/
def slack (X : Chem κ ε) (elements : List ε) (μ : List ℚ) (x : Entry κ) : ℚ := perAtomEnergy X x - weighted elements (fraction X) x μ

theorem carried_neg (X : Chem κ ε) (u : ε → ℚ) (c : κ) : carried X (fun s => -u s) c = -carried X u c := by
  show ((X.elems c).map fun s => X.amt c s * -u s).sum = -((X.elems c).map fun s => X.amt c s * u s).sum
  induction X.elems c with
  | nil => simp
  | cons s l ih => simp only [List.map_cons, List.sum_cons, ih]; ring

theorem natoms_red (hX : X.Lawful) (c : κ) : X.natoms c = X.fac c * X.natoms (X.red c) := by
  have h : X.elems c ⊆ X.elems (X.red c) := by
    intro s hs
    rw [hX.mem_elems] at hs ⊢
    intro h0
    exact hs (by rw [hX.red_amt, h0, mul_zero])
  rw [Verif.Lemmas.Reaction.natoms_eq X hX c (X.elems (X.red c)) (hX.nodup _) h]
  unfold Chem.natoms
  rw [← List.sum_map_mul_left]
  congr 1
  apply List.map_congr_left
  intro s _
  exact hX.red_amt c s

/-- The core: at any point of the diagram, a reaction releases at most what its reactants are away from equilibrium there. -/
theorem gain_bound (hX : X.Lawful) (D : Diagram elements (fraction X) (perAtomEnergy X) formula mins refs borders hsInt doms)
    (P : Phases X elements all mins) (μ : List ℚ) (hl : μ.length = elements.length)
    (hμ : ∀ m ∈ mins, weighted elements (fraction X) m μ ≤ perAtomEnergy X m) (entries : List (Entry κ)) (hsub : ∀ x ∈ entries, x ∈ all)
    (coeffs : List ℚ) (hc : Conserved X (entries.map fun e => X.red e.comp) coeffs) (data : List (String × ℚ)) (lne : Option ℕ) :
    ∃ E, energy X (cinit X entries coeffs data lne) = .ok E ∧
      ((entries.zip coeffs).map fun p => if p.2 < 0 then p.2 * (X.natoms (X.red p.1.comp) * slack X elements μ p.1) else 0).sum ≤ E := by
  obtain ⟨u, hu⟩ := potentials elements D.nodup μ hl
  let δ : ε → ℚ := fun s => -u s
  have hδ : ∀ c, carried X δ c = -carried X u c := carried_neg X u
  let sh : Entry κ → Entry κ := fun e => ⟨e.comp, e.energy + carried X δ e.comp⟩
  have hre : List.Forall₂ (Rereferenced X δ) entries (entries.map sh) := by
    rw [List.forall₂_map_right_iff]
    exact List.forall₂_same.mpr fun e _ => rereferenced_shift X hX δ e
  have heq := ((C141_conserving X hX δ entries (entries.map sh) coeffs data lne hre).2 hc).1
  have hcomps : (entries.map sh).map (fun e => X.red e.comp) = entries.map fun e => X.red e.comp := by
    rw [List.map_map]; rfl
  have hsl : ∀ x ∈ all, (sh x).energy = X.natoms x.comp * slack X elements μ x := by
    intro x hx
    have hp := natoms_pos hX D P x hx
    have := (carried_le hX D P μ hμ u hu x hx).1
    show x.energy + carried X δ x.comp = _
    rw [hδ, this]
    unfold slack perAtomEnergy
    field_simp
    ring
  have hsh : ∀ x ∈ all, 0 ≤ (sh x).energy := by
    intro x hx
    have := (carried_le hX D P μ hμ u hu x hx).2
    show 0 ≤ x.energy + carried X δ x.comp
    rw [hδ]; linarith
  have hval : ∀ x ∈ entries, ∃ v, dictGet (calcEnergies X Entry.energy (entries.map sh)) (X.red x.comp) = some v ∧ 0 ≤ v ∧
      v ≤ X.natoms (X.red x.comp) * slack X elements μ x := by
    intro x hx
    obtain ⟨a1, a2⟩ := calc_spec X Entry.energy (entries.map sh) (X.red x.comp)
    cases hd : dictGet (calcEnergies X Entry.energy (entries.map sh)) (X.red x.comp) with
    | none => exact absurd rfl (a1.mp hd (sh x) (List.mem_map.mpr ⟨x, hx, rfl⟩))
    | some v =>
      obtain ⟨⟨y, hy, hyr, hv⟩, hle⟩ := a2 v hd
      obtain ⟨z, hz, rfl⟩ := List.mem_map.mp hy
      refine ⟨v, rfl, ?_, ?_⟩
      · rw [hv]
        exact div_nonneg (hsh z (hsub z hz)) (hX.fac_pos _).le
      · have h1 := hle (sh x) (List.mem_map.mpr ⟨x, hx, rfl⟩) rfl
        rw [hsl x (hsub x hx), natoms_red hX] at h1
        have hf := (hX.fac_pos x.comp).ne'
        have h2 : X.fac x.comp * X.natoms (X.red x.comp) * slack X elements μ x / X.fac x.comp
            = X.natoms (X.red x.comp) * slack X elements μ x := by
          field_simp
        exact h1.trans_eq h2
  have hg : ∀ c ∈ entries.map (fun e => X.red e.comp), dictGet (calcEnergies X Entry.energy (entries.map sh)) c
      = some ((dictGet (calcEnergies X Entry.energy (entries.map sh)) c).getD 0) := by
    intro c hcm
    obtain ⟨x, hx, rfl⟩ := List.mem_map.mp hcm
    obtain ⟨v, hv, -⟩ := hval x hx
    rw [hv]; rfl
  refine ⟨(((entries.map fun e => X.red e.comp).zip coeffs).map fun p =>
    p.2 * (dictGet (calcEnergies X Entry.energy (entries.map sh)) p.1).getD 0).sum, ?_, ?_⟩
  · rw [← heq]
    show sumEnergies (calcEnergies X Entry.energy (entries.map sh)) ((entries.map sh).map fun e => X.red e.comp) coeffs = _
    rw [hcomps]
    exact sumEnergies_eq _ _ coeffs _ hg
  · rw [List.zip_map_left, List.map_map]
    apply List.sum_le_sum
    intro q hq
    obtain ⟨v, hv, hv0, hvz⟩ := hval q.1 (List.of_mem_zip hq).1
    show (if q.2 < 0 then _ else _) ≤ q.2 * (dictGet (calcEnergies X Entry.energy (entries.map sh)) (X.red q.1.comp)).getD 0
    rw [hv]
    show _ ≤ q.2 * v
    split_ifs with hneg
    · exact mul_le_mul_of_nonpos_left hvz hneg.le
    · exact mul_nonneg (not_lt.mp hneg) hv0

/-- Phases that are in equilibrium with each other at some point of the diagram do not react to anything of lower energy. -/
theorem no_gain (hX : X.Lawful) (D : Diagram elements (fraction X) (perAtomEnergy X) formula mins refs borders hsInt doms)
    (P : Phases X elements all mins) (μ : List ℚ) (hl : μ.length = elements.length)
    (hμ : ∀ m ∈ mins, weighted elements (fraction X) m μ ≤ perAtomEnergy X m) (entries : List (Entry κ)) (hsub : ∀ x ∈ entries, x ∈ all)
    (coeffs : List ℚ) (hr : ∀ p ∈ entries.zip coeffs, p.2 < 0 → weighted elements (fraction X) p.1 μ = perAtomEnergy X p.1)
    (hc : Conserved X (entries.map fun e => X.red e.comp) coeffs) (data : List (String × ℚ)) (lne : Option ℕ) :
    ∃ E, energy X (cinit X entries coeffs data lne) = .ok E ∧ 0 ≤ E := by
  obtain ⟨E, hE, hle⟩ := gain_bound hX D P μ hl hμ entries hsub coeffs hc data lne
  refine ⟨E, hE, le_trans (le_of_eq ?_) hle⟩
  symm
  apply List.sum_eq_zero
  intro y hy
  obtain ⟨p, hp, rfl⟩ := List.mem_map.mp hy
  split_ifs with h
  · rw [slack, hr p hp h, sub_self, mul_zero, mul_zero]
  · rfl

/-- Potentials that differ by at most `d` per element give phases energies that differ by at most `d` per atom. -/
theorem weighted_close (elements : List ε) (f : ε → ℚ) (hf : ∀ s ∈ elements, 0 ≤ f s) (d : ℝ) (μ ν : List ℚ) (hl : μ.length = elements.length)
    (hl' : ν.length = elements.length) (hd : ∀ p ∈ μ.zip ν, ((p.1 : ℝ) - p.2) ≤ d) :
    (((List.zipWith (fun s m => f s * m) elements μ).sum : ℚ) : ℝ) - ((List.zipWith (fun s m => f s * m) elements ν).sum : ℚ)
      ≤ ((elements.map f).sum : ℚ) * d := by
  induction elements generalizing μ ν with
  | nil => simp
  | cons s elements ih =>
    cases μ with
    | nil => simp at hl
    | cons m μ => cases ν with
      | nil => simp at hl'
      | cons n ν =>
        have h1 := ih (fun t ht => hf t (List.mem_cons_of_mem _ ht)) μ ν (by simpa using hl) (by simpa using hl')
          (fun p hp => hd p (by simp [hp]))
        have h2 := mul_le_mul_of_nonneg_left (hd (m, n) (by simp)) (show (0:ℝ) ≤ (f s : ℝ) by exact_mod_cast hf s (by simp))
        simp only [List.zipWith_cons_cons, List.sum_cons, List.map_cons]
        rw [Rat.cast_add, Rat.cast_add, Rat.cast_add, Rat.cast_mul, Rat.cast_mul]
        dsimp only at h2
        linarith

theorem coord_le_euclid (μ ν : List ℚ) : ∀ p ∈ μ.zip ν, ((p.1 : ℝ) - p.2) ≤ euclid μ ν := by
  intro p hp
  unfold euclid
  apply Real.le_sqrt_of_sq_le
  have : (p.1 - p.2) ^ 2 ≤ (List.zipWith (fun x y => (x - y) ^ 2) μ ν).sum := by
    rw [← List.map_uncurry_zip_eq_zipWith]
    exact List.single_le_sum (by
      intro y hy
      obtain ⟨q, -, rfl⟩ := List.mem_map.mp hy
      exact sq_nonneg _) _ (List.mem_map.mpr ⟨p, hp, rfl⟩)
  exact_mod_cast this

/-- A phase in equilibrium at `ν` is at most the distance away from equilibrium at `μ`. -/
theorem slack_le (D : Diagram elements (fraction X) (perAtomEnergy X) formula mins refs borders hsInt doms) (e : Entry κ) (he : e ∈ mins)
    (μ ν : List ℚ) (hl : μ.length = elements.length) (hν : ν ∈ Region elements (fraction X) (perAtomEnergy X) mins borders e) :
    (slack X elements μ e : ℝ) ≤ euclid ν μ := by
  have h := weighted_close elements (fraction X e) (D.nonneg e he) (euclid ν μ) ν μ hν.1 hl (coord_le_euclid ν μ)
  rw [D.total e he] at h
  have h2 : (List.zipWith (fun s m => fraction X e s * m) elements ν).sum = perAtomEnergy X e := hν.2.1
  rw [h2] at h
  unfold slack weighted
  push_cast at h ⊢
  linarith

/-- The atoms of a conserving reaction, counted on the side of its reactants. -/
theorem numAtoms_neg (hX : X.Lawful) (entries : List (Entry κ)) (coeffs : List ℚ) (hn : (entries.map fun e => X.red e.comp).Nodup)
    (hc : Conserved X (entries.map fun e => X.red e.comp) coeffs) :
    numAtoms X (Verif.Model.Reaction.elements X (entries.map fun e => X.red e.comp)) (entries.map fun e => X.red e.comp) coeffs
      = ((entries.zip coeffs).map fun p => if p.2 < 0 then -p.2 * X.natoms (X.red p.1.comp) else 0).sum := by
  have hs := Verif.Lemmas.Reaction.sidesNodup_of_nodup _ coeffs hn
  rw [← Verif.Lemmas.Reaction.numAtoms_reactants X _ _ coeffs hs fun e _ => hc e, Verif.Lemmas.Reaction.reactantCoeffs_eq _ _ hs]
  unfold Verif.Lemmas.Reaction.neg
  rw [List.zip_map_left]
  have : ∀ l : List (Entry κ × ℚ), (∀ p ∈ l, p.1 ∈ entries) →
      (((l.map (Prod.map (fun e => X.red e.comp) id)).filter fun p => decide (p.2 < 0)).map fun p =>
        -p.2 * ((Verif.Model.Reaction.elements X (entries.map fun e => X.red e.comp)).map (X.amt p.1)).sum).sum
      = (l.map fun p => if p.2 < 0 then -p.2 * X.natoms (X.red p.1.comp) else 0).sum := by
    intro l hl
    induction l with
    | nil => rfl
    | cons p l ih =>
      have ih := ih fun q hq => hl q (List.mem_cons_of_mem _ hq)
      have hp : X.natoms (X.red p.1.comp)
          = ((Verif.Model.Reaction.elements X (entries.map fun e => X.red e.comp)).map (X.amt (X.red p.1.comp))).sum :=
        Verif.Lemmas.Reaction.natoms_eq X hX _ _ (Verif.Lemmas.Reaction.nodup_elements X _) fun s hs =>
          (Verif.Lemmas.Reaction.mem_elements X _ s).mpr ⟨_, List.mem_map.mpr ⟨p.1, hl p (by simp), rfl⟩, hs⟩
      simp only [List.map_cons, List.sum_cons, ← ih, hp]
      by_cases hneg : p.2 < 0
      · simp [hneg]
      · simp [hneg]
  exact this _ fun p hp => (List.of_mem_zip hp).1

/-! ### C147 -/

/-- **C147.** If the reported distance of two phases is zero, no reaction between them (whatever the products, and with any polymorphs of
them) releases energy. -/
theorem C147_no_reaction (hX : X.Lawful) (D : Diagram elements (fraction X) (perAtomEnergy X) formula mins refs borders hsInt doms)
    (P : Phases X elements all mins) {ι : Type} [DecidableEq ι] (Y : Ext ι φ (List (List ℚ))) (s : CPD ι φ (List (List ℚ)))
    (e e' : Entry κ) (he : e ∈ mins) (he' : e' ∈ mins) (pf pg : List (List ℚ)) (hf : (formula e, pf) ∈ doms) (hg : (formula e', pg) ∈ doms)
    (hz : (shortest Y (dictGet doms) euclid s (formula e) (formula e') 0).2 = .ok 0)
    (entries : List (Entry κ)) (hsub : ∀ x ∈ entries, x ∈ all) (coeffs : List ℚ)
    (hr : ∀ p ∈ entries.zip coeffs, p.2 < 0 → p.1 = e ∨ p.1 = e')
    (hc : Conserved X (entries.map fun e => X.red e.comp) coeffs) (data : List (String × ℚ)) (lne : Option ℕ) :
    ∃ E, energy X (cinit X entries coeffs data lne) = .ok E ∧ 0 ≤ E := by
  obtain ⟨μ, h1, h2⟩ := (C146_neighbours Y s D e e' he he' pf pg hf hg).mp hz
  refine no_gain hX D P μ h1.1 h1.2.2.1 entries hsub coeffs ?_ hc data lne
  intro p hp hneg
  rcases hr p hp hneg with h | h
  · rw [h]; exact h1.2.1
  · rw [h]; exact h2.2.1

/-- **C147, conversely**: two phases with a reaction that releases energy have a positive distance. -/
theorem C147_apart (hX : X.Lawful) (D : Diagram elements (fraction X) (perAtomEnergy X) formula mins refs borders hsInt doms)
    (P : Phases X elements all mins) {ι : Type} [DecidableEq ι] (Y : Ext ι φ (List (List ℚ))) (s : CPD ι φ (List (List ℚ)))
    (e e' : Entry κ) (he : e ∈ mins) (he' : e' ∈ mins) (pf pg : List (List ℚ)) (hf : (formula e, pf) ∈ doms) (hg : (formula e', pg) ∈ doms)
    (entries : List (Entry κ)) (hsub : ∀ x ∈ entries, x ∈ all) (coeffs : List ℚ)
    (hr : ∀ p ∈ entries.zip coeffs, p.2 < 0 → p.1 = e ∨ p.1 = e')
    (hc : Conserved X (entries.map fun e => X.red e.comp) coeffs) (data : List (String × ℚ)) (lne : Option ℕ) (E : ℚ)
    (hE : energy X (cinit X entries coeffs data lne) = .ok E) (hneg : E < 0) :
    ∃ m, (shortest Y (dictGet doms) euclid s (formula e) (formula e') 0).2 = .ok m ∧ 0 < m := by
  obtain ⟨m, h1, p, -, q, -, hm⟩ := C146_attained_partial Y s D e e' he he' pf pg hf hg 0
  rw [add_zero] at h1
  refine ⟨m, by rw [h1], ?_⟩
  rcases (hm ▸ euclid_nonneg p q : 0 ≤ m).lt_or_eq with h | h
  · exact h
  · exfalso
    obtain ⟨E', hE', h0⟩ := C147_no_reaction hX D P Y s e e' he he' pf pg hf hg (by rw [h1, ← h]) entries hsub coeffs hr hc data lne
    rw [hE] at hE'
    cases hE'
    linarith

/-- **C147, the amount**: the energy released per atom by any reaction between two phases is at most half of their reported distance. -/
theorem C147_bound (hX : X.Lawful) (D : Diagram elements (fraction X) (perAtomEnergy X) formula mins refs borders hsInt doms)
    (P : Phases X elements all mins) {ι : Type} [DecidableEq ι] (Y : Ext ι φ (List (List ℚ))) (s : CPD ι φ (List (List ℚ)))
    (e e' : Entry κ) (he : e ∈ mins) (he' : e' ∈ mins) (pf pg : List (List ℚ)) (hf : (formula e, pf) ∈ doms) (hg : (formula e', pg) ∈ doms)
    (m : ℝ) (hm : (shortest Y (dictGet doms) euclid s (formula e) (formula e') 0).2 = .ok m)
    (entries : List (Entry κ)) (hsub : ∀ x ∈ entries, x ∈ all) (coeffs : List ℚ)
    (hr : ∀ p ∈ entries.zip coeffs, p.2 < 0 → p.1 = e ∨ p.1 = e') (hn : (entries.map fun e => X.red e.comp).Nodup)
    (hc : Conserved X (entries.map fun e => X.red e.comp) coeffs) (data : List (String × ℚ)) (lne : Option ℕ) (w : ℚ)
    (hw : energyPerAtom X (cinit X entries coeffs data lne) = .ok w) : -(m / 2) ≤ w := by
  obtain ⟨m', h1, p, hp, q, hq, hpq⟩ := C146_attained_partial Y s D e e' he he' pf pg hf hg 0
  rw [add_zero] at h1
  rw [h1] at hm
  cases hm
  obtain ⟨E, hE, b1⟩ := gain_bound hX D P p hp.1 hp.2.2.1 entries hsub coeffs hc data lne
  obtain ⟨E', hE', b2⟩ := gain_bound hX D P q hq.1 hq.2.2.1 entries hsub coeffs hc data lne
  rw [hE] at hE'
  cases hE'
  unfold energyPerAtom at hw
  rw [hE] at hw
  have hN := numAtoms_neg hX entries coeffs hn hc
  have hN' : numAtoms X (Verif.Model.Reaction.elements X (cinit X entries coeffs data lne).base.comps)
      (cinit X entries coeffs data lne).base.comps (cinit X entries coeffs data lne).base.coeffs = _ := hN
  rw [hN'] at hw
  unfold perAtom at hw
  dsimp only at hw
  split_ifs at hw with h0
  cases hw
  have hm0 : 0 ≤ m := hpq ▸ euclid_nonneg p q
  have hsl : ∀ x ∈ entries.zip coeffs, x.2 < 0 → ((slack X elements p x.1 + slack X elements q x.1 : ℚ) : ℝ) ≤ m := by
    intro x hx hneg
    rw [Rat.cast_add]
    rcases hr x hx hneg with h | h
    · have a1 : slack X elements p x.1 = 0 := by rw [h, slack, hp.2.1, sub_self]
      have a2 := slack_le D e he q p hq.1 hp
      rw [a1, h, ← hpq]; simpa using a2
    · have a1 : slack X elements q x.1 = 0 := by rw [h, slack, hq.2.1, sub_self]
      have a2 := slack_le D e' he' p q hp.1 hq
      rw [a1, h, ← hpq, euclid_symm p q]; simpa using a2
  have hnat : ∀ x ∈ entries, 0 ≤ X.natoms (X.red x.comp) := fun x _ => List.sum_nonneg (by
    intro y hy
    obtain ⟨s, -, rfl⟩ := List.mem_map.mp hy
    exact hX.nonneg _ _)
  have key : ∀ l : List (Entry κ × ℚ), (∀ x ∈ l, x ∈ entries.zip coeffs) →
      0 ≤ (l.map fun p => if p.2 < 0 then -p.2 * X.natoms (X.red p.1.comp) else 0).sum ∧
      -(m * ((l.map fun p => if p.2 < 0 then -p.2 * X.natoms (X.red p.1.comp) else 0).sum : ℚ)) ≤
        (((l.map fun x => if x.2 < 0 then x.2 * (X.natoms (X.red x.1.comp) * slack X elements p x.1) else 0).sum : ℚ) : ℝ) +
        ((l.map fun x => if x.2 < 0 then x.2 * (X.natoms (X.red x.1.comp) * slack X elements q x.1) else 0).sum : ℚ) := by
    intro l hl
    induction l with
    | nil => simp
    | cons x l ih =>
      obtain ⟨i1, i2⟩ := ih fun y hy => hl y (List.mem_cons_of_mem _ hy)
      have hx := hl x (by simp)
      simp only [List.map_cons, List.sum_cons]
      split_ifs with hneg
      · have k0 : 0 ≤ -x.2 * X.natoms (X.red x.1.comp) := mul_nonneg (by linarith) (hnat _ (List.of_mem_zip hx).1)
        refine ⟨add_nonneg k0 i1, ?_⟩
        have k1 := mul_le_mul_of_nonneg_left (hsl x hx hneg)
          (show (0:ℝ) ≤ ((-x.2 * X.natoms (X.red x.1.comp) : ℚ) : ℝ) by exact_mod_cast k0)
        rw [Rat.cast_add, Rat.cast_add, Rat.cast_add]
        have k2 : ((x.2 * (X.natoms (X.red x.1.comp) * slack X elements p x.1) : ℚ) : ℝ) +
            ((x.2 * (X.natoms (X.red x.1.comp) * slack X elements q x.1) : ℚ) : ℝ)
            = -(((-x.2 * X.natoms (X.red x.1.comp) : ℚ) : ℝ) * ((slack X elements p x.1 + slack X elements q x.1 : ℚ) : ℝ)) := by
          push_cast; ring
        rw [mul_add]
        linarith
      · simp only [zero_add]
        exact ⟨i1, i2⟩
  obtain ⟨n0, hsum⟩ := key _ fun _ h => h
  have hpos := lt_of_le_of_ne n0 (Ne.symm h0)
  have b1' : ((((entries.zip coeffs).map fun x => if x.2 < 0 then x.2 * (X.natoms (X.red x.1.comp) * slack X elements p x.1) else 0).sum : ℚ) : ℝ)
      ≤ (E : ℝ) := by exact_mod_cast b1
  have b2' : ((((entries.zip coeffs).map fun x => if x.2 < 0 then x.2 * (X.natoms (X.red x.1.comp) * slack X elements q x.1) else 0).sum : ℚ) : ℝ)
      ≤ (E : ℝ) := by exact_mod_cast b2
  rw [Rat.cast_div, le_div_iff₀ (by exact_mod_cast hpos)]
  linarith

/-- **C147, one phase**: a phase with a domain does not decompose: no reaction with it as the only reactant releases energy. -/
theorem C147_stable (hX : X.Lawful) (D : Diagram elements (fraction X) (perAtomEnergy X) formula mins refs borders hsInt doms)
    (P : Phases X elements all mins) (e : Entry κ) (he : e ∈ mins) (pf : List (List ℚ)) (hf : (formula e, pf) ∈ doms)
    (entries : List (Entry κ)) (hsub : ∀ x ∈ entries, x ∈ all) (coeffs : List ℚ) (hr : ∀ p ∈ entries.zip coeffs, p.2 < 0 → p.1 = e)
    (hc : Conserved X (entries.map fun e => X.red e.comp) coeffs) (data : List (String × ℚ)) (lne : Option ℕ) :
    ∃ E, energy X (cinit X entries coeffs data lne) = .ok E ∧ 0 ≤ E := by
  obtain ⟨p, hp⟩ := List.exists_mem_of_ne_nil _ (found D _ _ hf).2
  have h1 := listed_region D.nodup D.isRefs D.nonneg D.sharp D.built D.inj D.intersects e he pf hf p hp
  refine no_gain hX D P p h1.1 h1.2.2.1 entries hsub coeffs ?_ hc data lne
  intro q hq hneg
  rw [hr q hq hneg]
  exact h1.2.1

end

/-! Concrete case: phases A, B, AB and A3B (above the hull), and a second entry for AB of higher energy. -/

def cMins : List (Entry TComp) := [⟨A, -1⟩, ⟨B1, -2⟩, ⟨AB, -6⟩, ⟨![3, 1, 0], 0⟩]
def cAll : List (Entry TComp) := cMins ++ [⟨![2, 2, 0], -11⟩]
def cRefs : List (Fin 3 × Entry TComp) := [(0, ⟨A, -1⟩), (1, ⟨B1, -2⟩)]
def cDoms : List (Entry TComp × List (List ℚ)) :=
  [(⟨AB, -6⟩, [[-1, -5], [-4, -2]]), (⟨A, -1⟩, [[-1, -5], [-1, -10]]), (⟨B1, -2⟩, [[-4, -2], [-10, -2]])]

theorem cDiagram : Diagram [0, 1] (fraction toy) (perAtomEnergy toy) (fun e => e) cMins cRefs exBorders exInt cDoms where
  nodup := by decide
  isRefs := ⟨by decide +kernel, by decide +kernel⟩
  nonneg := by decide +kernel
  total := by decide +kernel
  inj := fun _ _ _ _ h => h
  sharp := by
    intro x hx vec hvec
    have : vec = [-1, -2] := by
      cases hvec with
      | cons h1 h => cases h with
        | cons h2 h => cases h with
          | nil =>
            obtain ⟨r, hr, rfl⟩ := h1
            obtain ⟨r', hr', rfl⟩ := h2
            simp [cRefs] at hr hr'
            rw [hr, hr']
            decide +kernel
    subst this
    revert x
    decide +kernel
  intersects := exInt_spec
  corners := exCorners
  built := by decide +kernel

theorem cPhases : Phases toy [0, 1] cAll cMins := ⟨by decide +kernel, by decide +kernel⟩

/-- AB and B touch, so `3 AB + 2 B → A3B + 4 B` does not release energy. -/
example (Y : Ext ℕ (Entry TComp) (List (List ℚ))) (s : CPD ℕ (Entry TComp) (List (List ℚ))) :
    (∃ E, energy toy (cinit toy [⟨AB, -6⟩, ⟨B1, -2⟩, ⟨![3, 1, 0], 0⟩, ⟨B1, -2⟩] [-3, -2, 1, 4] [] none) = .ok E ∧ 0 ≤ E) ∧
    energy toy (cinit toy [⟨AB, -6⟩, ⟨B1, -2⟩, ⟨![3, 1, 0], 0⟩, ⟨B1, -2⟩] [-3, -2, 1, 4] [] none) = .ok 14 :=
  ⟨C147_no_reaction toy_lawful cDiagram cPhases Y s ⟨AB, -6⟩ ⟨B1, -2⟩ (by decide +kernel) (by decide +kernel)
    [[-1, -5], [-4, -2]] [[-4, -2], [-10, -2]] (by decide +kernel) (by decide +kernel)
    ((C146_neighbours Y s cDiagram ⟨AB, -6⟩ ⟨B1, -2⟩ (by decide +kernel) (by decide +kernel) [[-1, -5], [-4, -2]] [[-4, -2], [-10, -2]]
      (by decide +kernel) (by decide +kernel)).mpr ⟨[-4, -2], by
        constructor <;> exact ⟨rfl, by decide +kernel, by decide +kernel, by decide +kernel⟩⟩)
    _ (by decide +kernel) _ (by decide +kernel) (fun e => by revert e; decide +kernel) _ _, by decide +kernel⟩

/-- A and B react to AB, so they are apart. -/
example (Y : Ext ℕ (Entry TComp) (List (List ℚ))) (s : CPD ℕ (Entry TComp) (List (List ℚ))) :=
  C147_apart toy_lawful cDiagram cPhases Y s ⟨A, -1⟩ ⟨B1, -2⟩ (by decide +kernel) (by decide +kernel)
    [[-1, -5], [-1, -10]] [[-4, -2], [-10, -2]] (by decide +kernel) (by decide +kernel)
    [⟨A, -1⟩, ⟨B1, -2⟩, ⟨![2, 2, 0], -11⟩] (by decide +kernel) [-2, -2, 2] (by decide +kernel) (fun e => by revert e; decide +kernel) [] none (-5)
    (by decide +kernel) (by norm_num)

/-- The reaction `A + B → AB` releases 1.5 per atom; the distance of A and B is `√18 ≥ 3`. -/
example (Y : Ext ℕ (Entry TComp) (List (List ℚ))) (s : CPD ℕ (Entry TComp) (List (List ℚ))) (m : ℝ)
    (hm : (shortest Y (dictGet cDoms) euclid s ⟨A, -1⟩ ⟨B1, -2⟩ 0).2 = .ok m) : -(m / 2) ≤ ((-3/2 : ℚ) : ℝ) :=
  C147_bound toy_lawful cDiagram cPhases Y s ⟨A, -1⟩ ⟨B1, -2⟩ (by decide +kernel) (by decide +kernel)
    [[-1, -5], [-1, -10]] [[-4, -2], [-10, -2]] (by decide +kernel) (by decide +kernel) m hm
    [⟨A, -1⟩, ⟨B1, -2⟩, ⟨AB, -6⟩] (by decide +kernel) [-2, -2, 2] (by decide +kernel) (by decide +kernel)
    (fun e => by revert e; decide +kernel) [] none (-3/2) (by decide +kernel)

/-- AB does not decompose, `AB → A + B`. -/
example := C147_stable toy_lawful cDiagram cPhases ⟨AB, -6⟩ (by decide +kernel) [[-1, -5], [-4, -2]] (by decide +kernel)
    [⟨AB, -6⟩, ⟨A, -1⟩, ⟨B1, -2⟩] (by decide +kernel) [-1, 1, 1] (by decide +kernel) (fun e => by revert e; decide +kernel) [] none

end Verif.Props.Coexist
