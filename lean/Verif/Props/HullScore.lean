import Verif.Props.HullConvex
import Mathlib.Algebra.BigOperators.Field

/-!
The value of the secondary competition (src/rxn_network/reactions/hull.py:202-249) in terms of decomposition trees.
-/

namespace Verif.Props.HullScore
open Verif.Py Verif.Model.Hull Verif.Spec.Hull Verif.Lemmas.Hull Verif.Props.Hull

/-- All decomposition trees of a range of coordinates. -/
abbrev trees (R : List (ℚ × ℚ)) : Finset (BinaryTree Unit) := BinaryTree.treesOfNumNodesEq (R.length - 2)

/-- Energy of one decomposition tree of a range of coordinates. -/
abbrev energyOf (R : List (ℚ × ℚ)) (t : BinaryTree Unit) : ℚ :=
  treeEnergy (fun i j k => calculateAltitude (R.getD i 0) (R.getD j 0) (R.getD k 0)) 0 t

/-- Specification: total energy of all decomposition paths, a path being a tree of the left range and a tree of the right range. -/
def pathsEnergy (L R : List (ℚ × ℚ)) : ℚ := ∑ p ∈ trees L ×ˢ trees R, (energyOf L p.1 + energyOf R p.2)

theorem card_trees_pos (R : List (ℚ × ℚ)) : 0 < (trees R).card := by
  rw [BinaryTree.treesOfNumNodesEq_card_eq_catalan, catalan_eq_centralBinom_div]
  have := Nat.succ_dvd_centralBinom (R.length - 2)
  exact Nat.div_pos (Nat.le_of_dvd (Nat.centralBinom_pos _) this) (Nat.succ_pos _)

/-- **C02, secondary competition.** For any hull object and any reaction with at least two coordinates on both of its sides: the
un-normalized secondary competition is minus the total energy of all decomposition paths, the normalized one is minus the mean over these
paths, and with `include_e_hull` the energy above the hull is added. -/
theorem C02_secondary_value (h : IRH) (idx : ℕ) (c : ℚ × ℚ) (hc : h.coords[idx]? = some c) (L R : List (ℚ × ℚ))
    (hL : getCoordsInRange h 0 c.1 = some L) (hR : getCoordsInRange h c.1 1 = some R) (l2 : 2 ≤ L.length) (r2 : 2 ≤ R.length) :
    getSecondaryCompetition h idx false false = some (-pathsEnergy L R) ∧
    getSecondaryCompetition h idx true false = some (-(pathsEnergy L R / (trees L ×ˢ trees R).card)) ∧
    ∀ e, getEnergyAboveHull h idx = some e →
      getSecondaryCompetition h idx false true = some (-pathsEnergy L R + e) ∧
      getSecondaryCompetition h idx true true = some (-(pathsEnergy L R / (trees L ×ˢ trees R).card) + e) := by
  have eL := C02_any_range h 0 c.1 L hL
  have eR := C02_any_range h c.1 1 R hR
  have cL : count ((L.length : ℤ) - 2) = some (trees L).card := by
    rw [show (L.length : ℤ) - 2 = ((L.length - 2 : ℕ) : ℤ) by omega, C01_count_is_number_of_trees]
  have cR : count ((R.length : ℤ) - 2) = some (trees R).card := by
    rw [show (R.length : ℤ) - 2 = ((R.length - 2 : ℕ) : ℤ) by omega, C01_count_is_number_of_trees]
  have pL := card_trees_pos L
  have pR := card_trees_pos R
  have hsum : (∑ t ∈ trees L, energyOf L t) * (trees R).card + (∑ t ∈ trees R, energyOf R t) * (trees L).card = pathsEnergy L R := by
    unfold pathsEnergy
    rw [Finset.sum_product]
    simp only [Finset.sum_add_distrib, Finset.sum_const, nsmul_eq_mul]
    rw [← Finset.mul_sum]
    ring
  have comb : ∀ n eh, combineSides (∑ t ∈ trees L, energyOf L t) (∑ t ∈ trees R, energyOf R t) (trees L).card (trees R).card n eh
      = -(if n then pathsEnergy L R / (trees L ×ˢ trees R).card else pathsEnergy L R) + eh.getD 0 := by
    intro n eh
    unfold combineSides
    simp only [pL.ne', pR.ne', if_false, hsum, Finset.card_product]
    cases n <;> cases eh <;> simp <;> ring
  unfold getSecondaryCompetition
  simp only [hc, hL, hR, eL, eR, cL, cR, Option.bind_eq_bind, Option.bind_some, comb]
  refine ⟨by simp, by simp, fun e he => ?_⟩
  simp [he]

-- the reaction at 1/2 of the example hull has two coordinates on the left and three on the right
example : getCoordsInRange exHull 0 (1/2) = some [(0, 0), (1/2, -2)] ∧
    getCoordsInRange exHull (1/2) 1 = some [(1/2, -2), (3/4, -3/2), (1, 0)] := by decide +kernel

end Verif.Props.HullScore
