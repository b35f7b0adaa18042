import Verif.Props.Coexist

/-!
C147 for more than two reactants: phases that meet in one point of the chemical potential diagram do not react with each other, but pairwise
touching is not enough for three (src/rxn_network/thermo/chempot_diagram.py).
-/

set_option linter.unusedSectionVars false

namespace Verif.Props.CoexistMany
open Verif.Py Verif.Model Verif.Model.Reaction Verif.Model.Chempot Verif.Model.Thermo Verif.Spec.Reaction Verif.Lemmas.Dict
  Verif.Props.Reaction Verif.Props.Chempot Verif.Props.DomainDistance Verif.Props.Reference Verif.Props.Coexist

/-- **C147, any number of reactants.** If the domains of all reactants have a point in common, the reaction does not release energy. -/
theorem C147_common_point {κ ε φ : Type} [DecidableEq κ] [DecidableEq ε] [DecidableEq φ] {X : Chem κ ε} {elements : List ε}
    {formula : Entry κ → φ} {all mins : List (Entry κ)} {refs : List (ε × Entry κ)} {borders : List (List ℚ)}
    {hsInt : List (List ℚ) → List (List ℚ × List ℕ)} {doms : List (φ × List (List ℚ))} (hX : X.Lawful)
    (D : Diagram elements (fraction X) (perAtomEnergy X) formula mins refs borders hsInt doms) (P : Phases X elements all mins)
    (entries : List (Entry κ)) (hsub : ∀ x ∈ entries, x ∈ all) (coeffs : List ℚ) (hne : ∃ p ∈ entries.zip coeffs, p.2 < 0) (μ : List ℚ)
    (hr : ∀ p ∈ entries.zip coeffs, p.2 < 0 → μ ∈ Region elements (fraction X) (perAtomEnergy X) mins borders p.1)
    (hc : Conserved X (entries.map fun e => X.red e.comp) coeffs) (data : List (String × ℚ)) (lne : Option ℕ) :
    ∃ E, energy X (cinit X entries coeffs data lne) = .ok E ∧ 0 ≤ E := by
  obtain ⟨q, hq, hneg⟩ := hne
  have h := hr q hq hneg
  exact no_gain hX D P μ h.1 h.2.2.1 entries hsub coeffs (fun p hp hn => (hr p hp hn).2.1) hc data lne

/-! ### A ternary system with one compound -/

def uC : TComp := ![0, 0, 1]
def uMins : List (Entry TComp) := [⟨A, 0⟩, ⟨B1, 0⟩, ⟨uC, 0⟩, ⟨![1, 1, 1], -4⟩]
def uRefs : List (Fin 3 × Entry TComp) := [(0, ⟨A, 0⟩), (1, ⟨B1, 0⟩), (2, ⟨uC, 0⟩)]
def uBorders : List (List ℚ) := [[-1, 0, 0, -10], [0, -1, 0, -10], [0, 0, -1, -10]]
def uH : List (List ℚ) := [[1/3, 1/3, 1/3, 4/3], [1, 0, 0, 0], [0, 1, 0, 0], [0, 0, 1, 0]] ++ uBorders

/-- The corners of the diagram. Half-spaces: 0 ABC, 1 A, 2 B, 3 C, 4–6 the limits. -/
def uPairs : List (List ℚ × List ℕ) :=
  [([0, 0, -4], [0, 1, 2]), ([0, -4, 0], [0, 1, 3]), ([-4, 0, 0], [0, 2, 3]), ([0, 0, -10], [1, 2, 6]), ([0, -10, 0], [1, 3, 5]), ([-10, 0, 0], [2, 3, 4]), ([0, -10, -10], [1, 5, 6]), ([-10, 0, -10], [2, 4, 6]), ([-10, -10, 0], [3, 4, 5]), ([-10, -10, -10], [4, 5, 6])]

def uInt (H : List (List ℚ)) : List (List ℚ × List ℕ) := if H = uH then uPairs else []

def uDoms : List (Entry TComp × List (List ℚ)) :=
  [(⟨![1, 1, 1], -4⟩, [[0, 0, -4], [0, -4, 0], [-4, 0, 0]]),
   (⟨A, 0⟩, [[0, 0, -4], [0, -4, 0], [0, 0, -10], [0, -10, 0], [0, -10, -10]]),
   (⟨B1, 0⟩, [[0, 0, -4], [-4, 0, 0], [0, 0, -10], [-10, 0, 0], [-10, 0, -10]]),
   (⟨uC, 0⟩, [[0, -4, 0], [-4, 0, 0], [0, -10, 0], [-10, 0, 0], [-10, -10, 0]])]

theorem uInt_spec : ∀ H, Intersects 3 H (uInt H) := by
  intro H p hp
  unfold uInt at hp
  split_ifs at hp with h
  · subst h
    have : ∀ p ∈ uPairs, p.1.length = 3 ∧ (∀ row ∈ uH, dot row (p.1 ++ [1]) ≤ 0) ∧
        ∀ v ∈ p.2, ((uH[v]?).map fun row => dot row (p.1 ++ [1])) = some 0 := by decide +kernel
    obtain ⟨h1, h2, h3⟩ := this p hp
    exact ⟨h1, h2, fun v hv => by simpa [Option.map_eq_some_iff] using h3 v hv⟩
  · simp at hp

theorem uCorners : ∀ H, Corners 3 H (uInt H) := by
  intro H
  unfold uInt
  split_ifs with hH
  · subst hH
    constructor
    · rintro v - row hrow c μ hc hμ hall hz
      obtain ⟨c₁, c₂, c₃, rfl⟩ := list3 c hc
      obtain ⟨x, y, z, rfl⟩ := list3 μ hμ
      simp [uH, uBorders, dot] at hall
      obtain ⟨h1, h2, h3, h4, h5, h6, h7⟩ := hall
      have pick : ∀ (a b d : ℚ) (l : List ℕ), ([a, b, d], l) ∈ uPairs → v ∈ l → c₁ * x + c₂ * y + c₃ * z ≤ c₁ * a + c₂ * b + c₃ * d →
          ∃ p ∈ uPairs, v ∈ p.2 ∧ dot [c₁, c₂, c₃] [x, y, z] ≤ dot [c₁, c₂, c₃] p.1 := by
        intro a b d l hm hv hle
        refine ⟨_, hm, hv, ?_⟩
        simp [dot]; linarith
      match v with
      | 0 =>
        simp [uH, uBorders] at hrow; subst hrow; simp [dot] at hz
        obtain rfl : z = -4 - x - y := by linarith
        rcases le_total 0 (c₁ - c₃) with k | k
        · have := up k (show x ≤ 0 by linarith)
          rcases le_total 0 (c₂ - c₃) with k' | k'
          · have := up k' (show y ≤ 0 by linarith)
            exact pick 0 0 (-4) [0, 1, 2] (by simp [uPairs]) (by simp) (by linarith)
          · have := down k' (show -4 - x ≤ y by linarith)
            have := up (show 0 ≤ c₁ - c₂ by linarith) (show x ≤ 0 by linarith)
            exact pick 0 (-4) 0 [0, 1, 3] (by simp [uPairs]) (by simp) (by linarith)
        · have := down k (show -4 - y ≤ x by linarith)
          rcases le_total 0 (c₂ - c₁) with k' | k'
          · have := up k' (show y ≤ 0 by linarith)
            exact pick (-4) 0 0 [0, 2, 3] (by simp [uPairs]) (by simp) (by linarith)
          · have := down k' (show -4 - x ≤ y by linarith)
            have := down (show c₂ - c₁ ≤ 0 by linarith) (show -4 ≤ y by linarith)
            exact pick 0 (-4) 0 [0, 1, 3] (by simp [uPairs]) (by simp) (by linarith)
      | 1 =>
        simp [uH, uBorders] at hrow; subst hrow; simp [dot] at hz
        obtain rfl : x = 0 := by linarith
        rcases le_total 0 c₂ with k | k <;> rcases le_total 0 c₃ with k' | k'
        · rcases le_total 0 (c₂ - c₃) with k'' | k''
          · have := up k'' (show y ≤ 0 by linarith)
            have := up k' (show y + z ≤ -4 by linarith)
            exact pick 0 0 (-4) [0, 1, 2] (by simp [uPairs]) (by simp) (by linarith)
          · have := up (neg_nonneg.mpr k'') (show z ≤ 0 by linarith)
            have := up k (show y + z ≤ -4 by linarith)
            exact pick 0 (-4) 0 [0, 1, 3] (by simp [uPairs]) (by simp) (by linarith)
        · have := up k (show y ≤ 0 by linarith)
          have := down k' (show -10 ≤ z by linarith)
          exact pick 0 0 (-10) [1, 2, 6] (by simp [uPairs]) (by simp) (by linarith)
        · have := down k (show -10 ≤ y by linarith)
          have := up k' (show z ≤ 0 by linarith)
          exact pick 0 (-10) 0 [1, 3, 5] (by simp [uPairs]) (by simp) (by linarith)
        · have := down k (show -10 ≤ y by linarith)
          have := down k' (show -10 ≤ z by linarith)
          exact pick 0 (-10) (-10) [1, 5, 6] (by simp [uPairs]) (by simp) (by linarith)
      | 2 =>
        simp [uH, uBorders] at hrow; subst hrow; simp [dot] at hz
        obtain rfl : y = 0 := by linarith
        rcases le_total 0 c₁ with k | k <;> rcases le_total 0 c₃ with k' | k'
        · rcases le_total 0 (c₁ - c₃) with k'' | k''
          · have := up k'' (show x ≤ 0 by linarith)
            have := up k' (show x + z ≤ -4 by linarith)
            exact pick 0 0 (-4) [0, 1, 2] (by simp [uPairs]) (by simp) (by linarith)
          · have := up (neg_nonneg.mpr k'') (show z ≤ 0 by linarith)
            have := up k (show x + z ≤ -4 by linarith)
            exact pick (-4) 0 0 [0, 2, 3] (by simp [uPairs]) (by simp) (by linarith)
        · have := up k (show x ≤ 0 by linarith)
          have := down k' (show -10 ≤ z by linarith)
          exact pick 0 0 (-10) [1, 2, 6] (by simp [uPairs]) (by simp) (by linarith)
        · have := down k (show -10 ≤ x by linarith)
          have := up k' (show z ≤ 0 by linarith)
          exact pick (-10) 0 0 [2, 3, 4] (by simp [uPairs]) (by simp) (by linarith)
        · have := down k (show -10 ≤ x by linarith)
          have := down k' (show -10 ≤ z by linarith)
          exact pick (-10) 0 (-10) [2, 4, 6] (by simp [uPairs]) (by simp) (by linarith)
      | 3 =>
        simp [uH, uBorders] at hrow; subst hrow; simp [dot] at hz
        obtain rfl : z = 0 := by linarith
        rcases le_total 0 c₁ with k | k <;> rcases le_total 0 c₂ with k' | k'
        · rcases le_total 0 (c₁ - c₂) with k'' | k''
          · have := up k'' (show x ≤ 0 by linarith)
            have := up k' (show x + y ≤ -4 by linarith)
            exact pick 0 (-4) 0 [0, 1, 3] (by simp [uPairs]) (by simp) (by linarith)
          · have := up (neg_nonneg.mpr k'') (show y ≤ 0 by linarith)
            have := up k (show x + y ≤ -4 by linarith)
            exact pick (-4) 0 0 [0, 2, 3] (by simp [uPairs]) (by simp) (by linarith)
        · have := up k (show x ≤ 0 by linarith)
          have := down k' (show -10 ≤ y by linarith)
          exact pick 0 (-10) 0 [1, 3, 5] (by simp [uPairs]) (by simp) (by linarith)
        · have := down k (show -10 ≤ x by linarith)
          have := up k' (show y ≤ 0 by linarith)
          exact pick (-10) 0 0 [2, 3, 4] (by simp [uPairs]) (by simp) (by linarith)
        · have := down k (show -10 ≤ x by linarith)
          have := down k' (show -10 ≤ y by linarith)
          exact pick (-10) (-10) 0 [3, 4, 5] (by simp [uPairs]) (by simp) (by linarith)
      | 4 =>
        simp [uH, uBorders] at hrow; subst hrow; simp [dot] at hz
        obtain rfl : x = -10 := by linarith
        rcases le_total 0 c₂ with k | k <;> rcases le_total 0 c₃ with k' | k'
        · have := up k (show y ≤ 0 by linarith)
          have := up k' (show z ≤ 0 by linarith)
          exact pick (-10) 0 0 [2, 3, 4] (by simp [uPairs]) (by simp) (by linarith)
        · have := up k (show y ≤ 0 by linarith)
          have := down k' (show -10 ≤ z by linarith)
          exact pick (-10) 0 (-10) [2, 4, 6] (by simp [uPairs]) (by simp) (by linarith)
        · have := down k (show -10 ≤ y by linarith)
          have := up k' (show z ≤ 0 by linarith)
          exact pick (-10) (-10) 0 [3, 4, 5] (by simp [uPairs]) (by simp) (by linarith)
        · have := down k (show -10 ≤ y by linarith)
          have := down k' (show -10 ≤ z by linarith)
          exact pick (-10) (-10) (-10) [4, 5, 6] (by simp [uPairs]) (by simp) (by linarith)
      | 5 =>
        simp [uH, uBorders] at hrow; subst hrow; simp [dot] at hz
        obtain rfl : y = -10 := by linarith
        rcases le_total 0 c₁ with k | k <;> rcases le_total 0 c₃ with k' | k'
        · have := up k (show x ≤ 0 by linarith)
          have := up k' (show z ≤ 0 by linarith)
          exact pick 0 (-10) 0 [1, 3, 5] (by simp [uPairs]) (by simp) (by linarith)
        · have := up k (show x ≤ 0 by linarith)
          have := down k' (show -10 ≤ z by linarith)
          exact pick 0 (-10) (-10) [1, 5, 6] (by simp [uPairs]) (by simp) (by linarith)
        · have := down k (show -10 ≤ x by linarith)
          have := up k' (show z ≤ 0 by linarith)
          exact pick (-10) (-10) 0 [3, 4, 5] (by simp [uPairs]) (by simp) (by linarith)
        · have := down k (show -10 ≤ x by linarith)
          have := down k' (show -10 ≤ z by linarith)
          exact pick (-10) (-10) (-10) [4, 5, 6] (by simp [uPairs]) (by simp) (by linarith)
      | 6 =>
        simp [uH, uBorders] at hrow; subst hrow; simp [dot] at hz
        obtain rfl : z = -10 := by linarith
        rcases le_total 0 c₁ with k | k <;> rcases le_total 0 c₂ with k' | k'
        · have := up k (show x ≤ 0 by linarith)
          have := up k' (show y ≤ 0 by linarith)
          exact pick 0 0 (-10) [1, 2, 6] (by simp [uPairs]) (by simp) (by linarith)
        · have := up k (show x ≤ 0 by linarith)
          have := down k' (show -10 ≤ y by linarith)
          exact pick 0 (-10) (-10) [1, 5, 6] (by simp [uPairs]) (by simp) (by linarith)
        · have := down k (show -10 ≤ x by linarith)
          have := up k' (show y ≤ 0 by linarith)
          exact pick (-10) 0 (-10) [2, 4, 6] (by simp [uPairs]) (by simp) (by linarith)
        · have := down k (show -10 ≤ x by linarith)
          have := down k' (show -10 ≤ y by linarith)
          exact pick (-10) (-10) (-10) [4, 5, 6] (by simp [uPairs]) (by simp) (by linarith)
      | n + 7 => simp [uH, uBorders] at hrow
    · have : ∀ p ∈ uPairs, ∀ v < 7, ∀ row ∈ uH[v]?, dot row (p.1 ++ [1]) = 0 → v ∈ p.2 := by decide +kernel
      intro p hp v _ row hrow hz
      have hv : v < 7 := by
        have := (List.getElem?_eq_some_iff.mp hrow).1
        simpa [uH, uBorders] using this
      exact ⟨p, hp, rfl, this p hp v hv row hrow hz⟩
  · exact ⟨fun v ⟨p, hp, _⟩ => by simp at hp, fun p hp => by simp at hp⟩

theorem uDiagram : Diagram [0, 1, 2] (fraction toy) (perAtomEnergy toy) (fun e => e) uMins uRefs uBorders uInt uDoms where
  nodup := by decide
  isRefs := ⟨by decide +kernel, by decide +kernel⟩
  nonneg := by decide +kernel
  total := by decide +kernel
  inj := fun _ _ _ _ h => h
  sharp := by
    intro x hx vec hvec
    have : vec = [0, 0, 0] := by
      cases hvec with
      | cons h1 h => cases h with
        | cons h2 h => cases h with
          | cons h3 h => cases h with
            | nil =>
              obtain ⟨r, hr, rfl⟩ := h1
              obtain ⟨r', hr', rfl⟩ := h2
              obtain ⟨r'', hr'', rfl⟩ := h3
              simp [uRefs] at hr hr' hr''
              subst hr hr' hr''
              decide +kernel
    subst this
    revert x
    decide +kernel
  intersects := uInt_spec
  corners := uCorners
  built := by decide +kernel

theorem uPhases : Phases toy [0, 1, 2] uMins uMins := ⟨by decide +kernel, by decide +kernel⟩

/-- A, B and ABC meet in a point, so `A + B + ABC → 2 A + 2 B + C` does not release energy (it costs 4). -/
example : ∃ E, energy toy (cinit toy [⟨A, 0⟩, ⟨B1, 0⟩, ⟨![1, 1, 1], -4⟩, ⟨uC, 0⟩, ⟨A, 0⟩, ⟨B1, 0⟩] [-1, -1, -1, 1, 2, 2] [] none) = .ok E ∧ 0 ≤ E :=
  C147_common_point toy_lawful uDiagram uPhases _ (by decide +kernel) _ (by decide +kernel) [0, 0, -4]
    (by
      have : ∀ p ∈ ([⟨A, 0⟩, ⟨B1, 0⟩, ⟨![1, 1, 1], -4⟩, ⟨uC, 0⟩, ⟨A, 0⟩, ⟨B1, 0⟩] : List (Entry TComp)).zip ([-1, -1, -1, 1, 2, 2] : List ℚ), p.2 < 0 →
          weighted [0, 1, 2] (fraction toy) p.1 [0, 0, -4] = perAtomEnergy toy p.1 := by decide +kernel
      intro p hp hn
      exact ⟨rfl, this p hp hn, by decide +kernel, by decide +kernel⟩)
    (fun e => by revert e; decide +kernel) _ _

/-- **C147 does not extend to three reactants (violated).** In the system A–B–C with the compound ABC alone, the three elements touch pairwise (all
three reported distances are zero), but `A + B + C → ABC` releases energy. -/
theorem C147_three_violated : ∃ (elements : List (Fin 3)) (mins : List (Entry TComp)) (refs : List (Fin 3 × Entry TComp)) (borders : List (List ℚ))
    (hsInt : List (List ℚ) → List (List ℚ × List ℕ)) (doms : List (Entry TComp × List (List ℚ))),
    Diagram elements (fraction toy) (perAtomEnergy toy) (fun e => e) mins refs borders hsInt doms ∧ Phases toy elements mins mins ∧
    ∃ a ∈ mins, ∃ b ∈ mins, ∃ c ∈ mins, ∃ d ∈ mins,
      (∀ (Y : Ext ℕ (Entry TComp) (List (List ℚ))) (s : CPD ℕ (Entry TComp) (List (List ℚ))),
        (shortest Y (dictGet doms) euclid s a b 0).2 = .ok 0 ∧ (shortest Y (dictGet doms) euclid s a c 0).2 = .ok 0 ∧
        (shortest Y (dictGet doms) euclid s b c 0).2 = .ok 0) ∧
      Conserved toy ([a, b, c, d].map fun e => toy.red e.comp) [-1, -1, -1, 1] ∧
      energy toy (cinit toy [a, b, c, d] [-1, -1, -1, 1] [] none) = .ok (-4) := by
  refine ⟨[0, 1, 2], uMins, uRefs, uBorders, uInt, uDoms, uDiagram, uPhases, ⟨A, 0⟩, by decide +kernel, ⟨B1, 0⟩, by decide +kernel,
    ⟨uC, 0⟩, by decide +kernel, ⟨![1, 1, 1], -4⟩, by decide +kernel, fun Y s => ⟨?_, ?_, ?_⟩, fun e => by revert e; decide +kernel,
    by decide +kernel⟩
  · exact (C146_neighbours Y s uDiagram ⟨A, 0⟩ ⟨B1, 0⟩ (by decide +kernel) (by decide +kernel) ((uDoms.map Prod.snd).getD 1 [])
      ((uDoms.map Prod.snd).getD 2 []) (by decide +kernel) (by decide +kernel)).mpr ⟨[0, 0, -10], by
        constructor <;> exact ⟨rfl, by decide +kernel, by decide +kernel, by decide +kernel⟩⟩
  · exact (C146_neighbours Y s uDiagram ⟨A, 0⟩ ⟨uC, 0⟩ (by decide +kernel) (by decide +kernel) ((uDoms.map Prod.snd).getD 1 [])
      ((uDoms.map Prod.snd).getD 3 []) (by decide +kernel) (by decide +kernel)).mpr ⟨[0, -10, 0], by
        constructor <;> exact ⟨rfl, by decide +kernel, by decide +kernel, by decide +kernel⟩⟩
  · exact (C146_neighbours Y s uDiagram ⟨B1, 0⟩ ⟨uC, 0⟩ (by decide +kernel) (by decide +kernel) ((uDoms.map Prod.snd).getD 2 [])
      ((uDoms.map Prod.snd).getD 3 []) (by decide +kernel) (by decide +kernel)).mpr ⟨[-10, 0, 0], by
        constructor <;> exact ⟨rfl, by decide +kernel, by decide +kernel, by decide +kernel⟩⟩

end Verif.Props.CoexistMany
