import Verif.Props.RxnSet
import Verif.Props.ReactionEq

/-! Property C115: changing the chemical potential of a reaction set (src/rxn_network/reactions/reaction_set.py:512-528), and the part of C16 about
computed reactions. -/

namespace Verif.Props.RxnSetChempot
open Verif.Py Verif.Model.RxnSet Verif.Lemmas.RxnSet Verif.Props.RxnSet

variable {η δ ε : Type}

/-- The set yields the same reactions in the same order: entries, coefficients and data are unchanged, every reaction carries exactly the given potential
(zero if only the element is given), or none if no element is given. -/
theorem C115_set_chempot [DecidableEq η] [DecidableEq ε] (s : RSet η δ ε) (hs : Built s) (open_ : Option ε) (mu : Option ℚ) :
    ∃ before, getRxns s = .ok before ∧
      getRxns (setChempot s open_ mu) = .ok (before.map fun r => { r with chempots := (open_.map fun e => (e, mu.getD 0)).toList }) ∧
      len (setChempot s open_ mu) = len s ∧ (setChempot s open_ mu).entries = s.entries := by
  refine ⟨stored s, getRxns_ok s (built_wf s hs), ?_, rfl, rfl⟩
  rw [getRxns_ok _ (built_wf _ (.setChempot s open_ mu hs))]
  congr 1
  unfold stored
  rw [List.map_flatMap]
  congr 1
  funext p
  rw [List.map_map]
  congr 1
  funext t
  unfold toRxn setChempot mk muDict
  cases open_ <;> rfl

/-- Only the last of several changes counts, and restoring the old potential restores the set. -/
theorem C115_last (s : RSet η δ ε) (o o' : Option ε) (m m' : Option ℚ) :
    setChempot (setChempot s o m) o' m' = setChempot s o' m' ∧
    setChempot (setChempot s o m) s.openElem (some s.chempot) = s := ⟨rfl, rfl⟩

example : ∃ s : RSet ℕ ℕ ℕ, Built s ∧ len s = 3 ∧
    (getRxns (setChempot s (some 8) (some (-2)))).toOption.map (fun l => l.map fun r => (r.chempots, r.coeffs))
      = some [([(8, -2)], [-1, 1]), ([(8, -2)], [-1, 2]), ([(8, -2)], [-1, -1, 1])] := by
  refine ⟨⟨[1, 3, 2], [(2, [[0, 2], [1, 2]]), (3, [[0, 1, 2]])], [(2, [[-1, 1], [-1, 2]]), (3, [[-1, -1, 1]])],
    [(2, [7, 5]), (3, [9])], none, 0⟩, .fromRxns id List.dedup [closedA, closedB, closedC] none none 0 _ setOrder_dedup ?_, ?_, ?_⟩
  · decide +kernel
  · decide
  · decide +kernel

end Verif.Props.RxnSetChempot

namespace Verif.Props.Reaction
open Verif.Py Verif.Model Verif.Model.Reaction

variable {κ ε : Type} [DecidableEq κ] [DecidableEq ε]

/-- Computed reactions are equal exactly when they are equal as plain reactions and their energies per atom exist and agree within the tolerance of
`numpy.isclose`; unequal plain reactions are never energy-compared. -/
theorem C16_computed (X : Chem κ ε) (a b : CRxn κ) :
    (ceq X a b = .ok true ↔ rxnEq (elements X a.base.comps) (elements X b.base.comps) a.base b.base = .ok true ∧
      ∃ x y, energyPerAtom X a = .ok x ∧ energyPerAtom X b = .ok y ∧ |x - y| ≤ 1 / 100000000 + 1 / 100000 * |y|) ∧
    (rxnEq (elements X a.base.comps) (elements X b.base.comps) a.base b.base = .ok false → ceq X a b = .ok false) := by
  constructor
  · unfold ceq
    rcases h : rxnEq (elements X a.base.comps) (elements X b.base.comps) a.base b.base with e | _ | _
    · simp
    · simp
    · rcases hx : energyPerAtom X a with e | x <;> rcases hy : energyPerAtom X b with e' | y <;> simp [isclose]
  · intro h
    unfold ceq
    rw [h]

end Verif.Props.Reaction
