import Verif.Lemmas.Reaction
import Mathlib.Data.Fin.VecNotation
import Mathlib.Algebra.BigOperators.Group.Finset.Piecewise

/-! Properties C08, C09, C13, C14, C15, C17: reactions as stoichiometric objects
(src/rxn_network/reactions/{basic,computed,open,hull}.py). -/

set_option linter.unusedSectionVars false

namespace Verif.Props.Reaction
open Verif.Py Verif.Model Verif.Model.Reaction Verif.Spec.Reaction Verif.Lemmas.Dict Verif.Lemmas.Reaction

variable {κ ε : Type} [DecidableEq κ] [DecidableEq ε]

/-! Concrete phases over three elements, used in the examples. -/
def A : TComp := ![1, 0, 0]
def A2 : TComp := ![2, 0, 0]
def B2 : TComp := ![0, 2, 0]
def AB : TComp := ![1, 1, 0]
def A2B : TComp := ![2, 1, 0]
def B1 : TComp := ![0, 1, 0]
def C1 : TComp := ![0, 0, 1]
def ABC : TComp := ![1, 1, 1]

/-! ### C09 -/

/-- The `balanced` flag computed by the constructor says exactly that every element is conserved up to the tolerance. -/
theorem C09_balanced_iff_conserved (X : Chem κ ε) (hX : X.Lawful) (comps : List κ) (coeffs : List ℚ)
    (data : List (String × ℚ)) (lne : Option ℕ) (h : comps.Nodup) :
    (init X comps coeffs none data lne).balanced = true ↔ ∀ e, |net X comps coeffs e| ≤ 1 / 1000000 :=
  isBalanced_iff X hX comps coeffs (sidesNodup_of_nodup _ _ h)

example : ∀ e, |net toy [A, B2, AB] [-2, -1, 2] e| ≤ 1 / 1000000 :=
  (C09_balanced_iff_conserved toy toy_lawful [A, B2, AB] [-2, -1, 2] [] (some 0) (by decide +kernel)).mp (by decide +kernel)

/-- The same for the computed constructor, whose compositions are the reduced compositions of the entries. -/
theorem C09_computed (X : Chem κ ε) (hX : X.Lawful) (entries : List (Entry κ)) (coeffs : List ℚ)
    (data : List (String × ℚ)) (lne : Option ℕ) (h : (entries.map fun e => X.red e.comp).Nodup) :
    (cinit X entries coeffs data lne).base.balanced = true ↔
      ∀ e, |net X (entries.map fun e => X.red e.comp) coeffs e| ≤ 1 / 1000000 :=
  isBalanced_iff X hX _ coeffs (sidesNodup_of_nodup _ _ h)

example : ∀ e, |net toy (([⟨A2, -2⟩, ⟨B1, -2⟩, ⟨AB, -4⟩] : List (Entry TComp)).map fun e => toy.red e.comp) [-2, -2, 2] e| ≤ 1 / 1000000 :=
  (C09_computed toy toy_lawful [⟨A2, -2⟩, ⟨B1, -2⟩, ⟨AB, -4⟩] [-2, -2, 2] [] none (by decide +kernel)).mp (by decide +kernel)

/-- Distinctness is needed: listing a phase twice on one side loses the first amount, and a conserving reaction
`A + A + B2 -> 2 AB` is reported as unbalanced. -/
theorem C09_duplicate_counterexample :
    Conserved toy [A, A, B2, AB] [-1, -1, -1, 2] ∧ (init toy [A, A, B2, AB] [-1, -1, -1, 2] none [] (some 0)).balanced = false := by
  constructor
  · intro e; revert e; decide +kernel
  · decide +kernel

example : (init toy [A, B2, AB] [-2, -1, 2] none [] (some 0)).balanced = true := by decide +kernel
example : (init toy [A, B2, AB] [-2, -1, 1] none [] (some 0)).balanced = false := by decide +kernel
example : [A, B2, AB].Nodup := by decide +kernel

/-! ### C13 -/

/-- Reversing twice gives back the reaction, in all fields. -/
theorem C13_involution (X : Chem κ ε) (r : Rxn κ) : reverse X (reverse X r) = r := by
  cases r
  simp only [reverse, init, List.map_map, Rxn.mk.injEq, true_and, and_true]
  simp

example : reverse toy (init toy [A, B2, AB] [-2, -1, 2] none [] none) ≠ init toy [A, B2, AB] [-2, -1, 2] none [] none ∧
    reverse toy (reverse toy (init toy [A, B2, AB] [-2, -1, 2] none [] none)) = init toy [A, B2, AB] [-2, -1, 2] none [] none :=
  ⟨by decide +kernel, C13_involution toy _⟩

/-- Reversing exchanges the sides (with the same amounts) and keeps the flags. -/
theorem C13_swaps (X : Chem κ ε) (r : Rxn κ) :
    reactants (reverse X r) = products r ∧ products (reverse X r) = reactants r ∧
      (∀ e, net X (reverse X r).comps (reverse X r).coeffs e = -net X r.comps r.coeffs e) ∧
      (reverse X r).balanced = r.balanced ∧ (reverse X r).data = r.data ∧ (reverse X r).lne = r.lne := by
  refine ⟨?_, ?_, ?_, rfl, rfl, rfl⟩
  · simp only [reactants, products, reverse, init]
    rw [reactantCoeffs_reverse, List.map_map]; rfl
  · simp only [reactants, products, reverse, init]
    rw [productCoeffs_reverse, List.map_map]; rfl
  · intro e
    simp only [reverse, init]
    have h := net_scale X r.comps r.coeffs (-1) e
    have h2 : (r.coeffs.map fun c => -1 * c) = r.coeffs.map fun c => c * -1 := by
      apply List.map_congr_left; intro c _; ring
    rw [h2, h]; ring

example : reactants (reverse toy (init toy [A, B2, AB] [-2, -1, 2] none [] none)) = [AB] :=
  (C13_swaps toy (init toy [A, B2, AB] [-2, -1, 2] none [] none)).1.trans (by decide +kernel)

/-- Computed reactions: reversing twice is the identity, `balanced` is recomputed to the same value, and the energy
changes sign. -/
theorem C13_computed (X : Chem κ ε) (entries : List (Entry κ)) (coeffs : List ℚ) (data : List (String × ℚ))
    (lne : Option ℕ) :
    let r := cinit X entries coeffs data lne
    creverse X (creverse X r) = r ∧ (creverse X r).base.balanced = r.base.balanced ∧
      energy X (creverse X r) = (energy X r).map fun v => -v := by
  refine ⟨?_, ?_, ?_⟩
  · simp only [creverse, cinit, init, List.map_map]
    simp
  · exact isBalanced_reverse X _ _
  · exact sumEnergies_reverse _ _ _

example : energy toy (creverse toy (cinit toy [⟨A2, -2⟩, ⟨B1, -2⟩, ⟨AB, -4⟩] [-2, -2, 2] [] none)) = .ok 2 :=
  (C13_computed toy [⟨A2, -2⟩, ⟨B1, -2⟩, ⟨AB, -4⟩] [-2, -2, 2] [] none).2.2.trans (by decide +kernel)

/-- For reactions that conserve every element, the energy per atom changes sign as well. -/
theorem C13_energy_per_atom (X : Chem κ ε) (entries : List (Entry κ)) (coeffs : List ℚ) (data : List (String × ℚ))
    (lne : Option ℕ) (hd : (entries.map fun e => X.red e.comp).Nodup)
    (hc : Conserved X (entries.map fun e => X.red e.comp) coeffs) :
    energyPerAtom X (creverse X (cinit X entries coeffs data lne))
      = (energyPerAtom X (cinit X entries coeffs data lne)).map fun v => -v := by
  have h1 := numAtoms_reverse X (elements X (entries.map fun e => X.red e.comp)) _ coeffs
    (sidesNodup_of_nodup _ _ hd) (fun e _ => hc e)
  have h2 : energy X (creverse X (cinit X entries coeffs data lne)) = (energy X (cinit X entries coeffs data lne)).map fun v => -v :=
    sumEnergies_reverse _ _ _
  unfold energyPerAtom
  rw [h2, perAtom_neg]
  exact congrArg (fun n => Except.map (fun v => -v) (perAtom _ n)) h1

example : energyPerAtom toy (creverse toy (cinit toy [⟨A2, -2⟩, ⟨B1, -2⟩, ⟨AB, -4⟩] [-2, -2, 2] [] none)) = .ok (1/2) :=
  (C13_energy_per_atom toy [⟨A2, -2⟩, ⟨B1, -2⟩, ⟨AB, -4⟩] [-2, -2, 2] [] none (by decide +kernel)
    (by intro e; revert e; decide +kernel)).trans (by decide +kernel)

/-- Open reactions: reversing is an involution and negates the grand-potential energy and, under conservation, its
per-atom value. -/
theorem C13_open (X : Chem κ ε) (entries : List (Entry κ)) (coeffs : List ℚ) (mu : List (ε × ℚ))
    (data : List (String × ℚ)) (lne : Option ℕ) :
    let r := oinit X entries coeffs mu data lne
    oreverse X (oreverse X r) = r ∧ oenergy X (oreverse X r) = (oenergy X r).map (fun v => -v) ∧
      ((entries.map fun e => X.red e.comp).Nodup → Conserved X (entries.map fun e => X.red e.comp) coeffs →
        oenergyPerAtom X (oreverse X r) = (oenergyPerAtom X r).map fun v => -v) := by
  have h2 : oenergy X (oreverse X (oinit X entries coeffs mu data lne))
      = (oenergy X (oinit X entries coeffs mu data lne)).map fun v => -v := sumEnergies_reverse _ _ _
  refine ⟨?_, h2, ?_⟩
  · simp only [oreverse, oinit, init, List.map_map]
    simp
  · intro hd hc
    have h1 := numAtoms_reverse X (oelements X (oinit X entries coeffs mu data lne)) _ coeffs
      (sidesNodup_of_nodup _ _ hd) (fun e _ => hc e)
    unfold oenergyPerAtom
    rw [h2, perAtom_neg]
    exact congrArg (fun n => Except.map (fun v => -v) (perAtom _ n)) h1

example : oenergy toy (oreverse toy (oinit toy [⟨A, -1⟩, ⟨B2, -4⟩, ⟨AB, -5⟩] [-1, -1, 1] [(1, -3)] [] none)) = .ok (-1) :=
  (C13_open toy [⟨A, -1⟩, ⟨B2, -4⟩, ⟨AB, -5⟩] [-1, -1, 1] [(1, -3)] [] none).2.1.trans (by decide +kernel)

/-- example entries for `2 A + B2 -> 2 AB`, energies per formula unit -1, -2, -4 -/
def exEntries : List (Entry TComp) := [⟨A2, -2⟩, ⟨B1, -2⟩, ⟨AB, -4⟩]

example : (exEntries.map fun e => toy.red e.comp).Nodup := by decide +kernel
example : Conserved toy (exEntries.map fun e => toy.red e.comp) [-2, -2, 2] := by intro e; revert e; decide +kernel
example : energyPerAtom toy (cinit toy exEntries [-2, -2, 2] [] (some 0)) = .ok (-1/2) := by decide +kernel
example : energyPerAtom toy (creverse toy (cinit toy exEntries [-2, -2, 2] [] (some 0))) = .ok (1/2) := by decide +kernel

/-! ### C17 -/

/-- Multiplying all coefficients by a positive number does not change the energy per atom. -/
theorem C17_scale_invariant (X : Chem κ ε) (entries : List (Entry κ)) (coeffs : List ℚ) (data : List (String × ℚ))
    (lne : Option ℕ) (s : ℚ) (hs : 0 < s) :
    energyPerAtom X (cinit X entries (coeffs.map fun c => c * s) data lne) = energyPerAtom X (cinit X entries coeffs data lne) := by
  unfold energyPerAtom
  have h2 : energy X (cinit X entries (coeffs.map fun c => c * s) data lne)
      = (energy X (cinit X entries coeffs data lne)).map fun v => v * s := sumEnergies_scale _ _ _ _
  rw [h2]
  have h1 := numAtoms_scale X (elements X (entries.map fun e => X.red e.comp)) (entries.map fun e => X.red e.comp) coeffs s hs
  exact (congrArg (fun n => perAtom _ n) h1).trans (perAtom_scale _ _ s hs)

example : energyPerAtom toy (cinit toy exEntries ([-2, -2, 2].map fun c => c * (1/3)) [] none) = .ok (-1/2) :=
  (C17_scale_invariant toy exEntries [-2, -2, 2] [] none (1/3) (by norm_num)).trans (by decide +kernel)

/-- The same for open reactions. -/
theorem C17_scale_invariant_open (X : Chem κ ε) (entries : List (Entry κ)) (coeffs : List ℚ) (mu : List (ε × ℚ))
    (data : List (String × ℚ)) (lne : Option ℕ) (s : ℚ) (hs : 0 < s) :
    oenergyPerAtom X (oinit X entries (coeffs.map fun c => c * s) mu data lne)
      = oenergyPerAtom X (oinit X entries coeffs mu data lne) := by
  unfold oenergyPerAtom
  have h2 : oenergy X (oinit X entries (coeffs.map fun c => c * s) mu data lne)
      = (oenergy X (oinit X entries coeffs mu data lne)).map fun v => v * s := sumEnergies_scale _ _ _ _
  rw [h2]
  have h1 := numAtoms_scale X (oelements X (oinit X entries coeffs mu data lne)) (entries.map fun e => X.red e.comp) coeffs s hs
  exact (congrArg (fun n => perAtom _ n) h1).trans (perAtom_scale _ _ s hs)

example : oenergyPerAtom toy (oinit toy exEntries ([-2, -2, 2].map fun c => c * (1/3)) [(1, -3)] [] none)
    = oenergyPerAtom toy (oinit toy exEntries [-2, -2, 2] [(1, -3)] [] none) :=
  C17_scale_invariant_open toy exEntries [-2, -2, 2] [(1, -3)] [] none (1/3) (by norm_num)

/-- Atoms can be counted on either side of a conserving reaction: the total over the consumed phases is `num_atoms`. -/
theorem C17_either_side (X : Chem κ ε) (hX : X.Lawful) (comps : List κ) (coeffs : List ℚ) (h : comps.Nodup)
    (hc : Conserved X comps coeffs) :
    (comps.map fun c => atomsConsumed X comps coeffs c).sum = numAtoms X (elements X comps) comps coeffs := by
  have hs := sidesNodup_of_nodup comps coeffs h
  rw [← numAtoms_reactants X _ comps coeffs hs (fun e _ => hc e), reactantCoeffs_eq _ _ hs]
  have h1 : (neg comps coeffs).map (fun p => -p.2 * ((elements X comps).map (X.amt p.1)).sum)
      = (neg comps coeffs).map (fun p => -p.2 * X.natoms p.1) := by
    apply List.map_congr_left
    intro p hp
    have hm : p.1 ∈ comps := (List.of_mem_zip (a := p.1) (b := p.2) (List.mem_filter.mp hp).1).1
    rw [natoms_eq X hX p.1 _ (nodup_elements X comps) (fun e he => (mem_elements X comps e).mpr ⟨_, hm, he⟩)]
  rw [h1]
  unfold atomsConsumed consumed neg
  clear h1 hs hc
  -- induction on the zipped list, generalising the list of phases summed over
  have key : ∀ (l : List (κ × ℚ)) (cs : List κ), cs.Nodup → (∀ p ∈ l, p.1 ∈ cs) →
      (cs.map fun c => ((l.filter fun p => p.1 = c ∧ p.2 < 0).map fun p => -p.2).sum * X.natoms c).sum
        = ((l.filter fun p => p.2 < 0).map fun p => -p.2 * X.natoms p.1).sum := by
    intro l
    induction l with
    | nil => intro cs _ _; simp
    | cons q l ih =>
      intro cs hcs hm
      by_cases hq : q.2 < 0
      · have h2 : ∀ c, (((q :: l).filter fun p => p.1 = c ∧ p.2 < 0).map fun p => -p.2).sum * X.natoms c
            = (if q.1 = c then -q.2 * X.natoms q.1 else 0)
              + ((l.filter fun p => p.1 = c ∧ p.2 < 0).map fun p => -p.2).sum * X.natoms c := by
          intro c
          by_cases hc : q.1 = c
          · subst hc
            simp [hq, add_mul]
          · simp [hc]
        simp only [h2]
        rw [List.sum_map_add, ih cs hcs (fun p hp => hm p (List.mem_cons_of_mem _ hp))]
        have h3 : (cs.map fun c => if q.1 = c then -q.2 * X.natoms q.1 else 0).sum = -q.2 * X.natoms q.1 := by
          have hq1 : q.1 ∈ cs := hm q List.mem_cons_self
          rw [← List.sum_toFinset _ hcs, Finset.sum_ite_eq]
          simp [hq1]
        rw [h3, List.filter_cons_of_pos (by simpa using hq)]
        simp
      · have h2 : ∀ c, ((q :: l).filter fun p => p.1 = c ∧ p.2 < 0) = l.filter fun p => p.1 = c ∧ p.2 < 0 := by
          intro c
          rw [List.filter_cons_of_neg (by simp [hq])]
        simp only [h2]
        rw [ih cs hcs (fun p hp => hm p (List.mem_cons_of_mem _ hp)), List.filter_cons_of_neg (by simpa using hq)]
  exact key _ comps h (fun p hp => (List.of_mem_zip (a := p.1) (b := p.2) hp).1)

example : ([A, B1, AB].map fun c => atomsConsumed toy [A, B1, AB] [-2, -2, 2] c).sum = 4 :=
  (C17_either_side toy toy_lawful [A, B1, AB] [-2, -2, 2] (by decide +kernel) (by intro e; revert e; decide +kernel)).trans
    (by decide +kernel)

example : energyPerAtom toy (cinit toy exEntries ([-2, -2, 2].map fun c => c * 7) [] (some 0)) = .ok (-1/2) := by decide +kernel
example : numAtoms toy (elements toy [A, B1, AB]) [A, B1, AB] [-2, -2, 2] = 4 := by decide +kernel

end Verif.Props.Reaction
