import Mathlib.Data.Rat.Defs
import Mathlib.Algebra.Order.Ring.Rat
import Mathlib.Data.List.Basic
import Mathlib.Algebra.Field.Rat
import Mathlib.Tactic.FieldSimp
import Mathlib.Tactic.Ring
import Mathlib.Tactic.Positivity
import Mathlib.Tactic.FinCases

/-!
The interface of pymatgen's `Composition` that the repository uses (src/rxn_network/core.py:10-45 subclasses it without
changing these operations). It is external code: a parameter of the model, with the laws it is assumed to obey recorded in
`Chem.Lawful`. `toy` is a concrete instance that satisfies the laws and is used in all examples.
-/

namespace Verif.Model

/-- The operations of pymatgen `Composition` used by the repository (e.g. src/rxn_network/reactions/basic.py:58,373,376). Equality of compositions is exact (pymatgen compares
amounts up to `1e-8`). -/
structure Chem (κ ε : Type) where
  /-- `c[el]` -/
  amt : κ → ε → ℚ
  /-- `c.elements` -/
  elems : κ → List ε
  /-- `c.reduced_composition` -/
  red : κ → κ
  /-- the factor of `c.get_reduced_composition_and_factor()` -/
  fac : κ → ℚ

/-- Assumed laws of pymatgen compositions. -/
structure Chem.Lawful {κ ε : Type} (X : Chem κ ε) : Prop where
  nonneg : ∀ c e, 0 ≤ X.amt c e
  mem_elems : ∀ c e, e ∈ X.elems c ↔ X.amt c e ≠ 0
  nodup : ∀ c, (X.elems c).Nodup
  fac_pos : ∀ c, 0 < X.fac c
  red_amt : ∀ c e, X.amt c e = X.fac c * X.amt (X.red c) e
  red_red : ∀ c, X.red (X.red c) = X.red c

/-- `c.num_atoms` (pymatgen): the total amount over the composition's own elements.
Used at src/rxn_network/reactions/basic.py:233. -/
def Chem.natoms {κ ε : Type} (X : Chem κ ε) (c : κ) : ℚ := ((X.elems c).map (X.amt c)).sum

/-- Concrete compositions over three elements, as integer amounts: a small stand-in for pymatgen's `Composition`
(used at src/rxn_network/reactions/basic.py:233), for examples only. -/
abbrev TComp := Fin 3 → ℕ

/-- Greatest common divisor of the three amounts (1 for the empty composition), the factor of `reduced_composition` of the stand-in
(used at src/rxn_network/reactions/basic.py:233). -/
def tgcd (c : TComp) : ℕ :=
  let g := Nat.gcd (c 0) (Nat.gcd (c 1) (c 2))
  if g = 0 then 1 else g

/-- A concrete lawful instance with three elements, for examples; the code uses pymatgen (src/rxn_network/reactions/basic.py:233). -/
def toy : Chem TComp (Fin 3) where
  amt c e := c e
  elems c := [0, 1, 2].filter fun e => c e ≠ 0
  red c := fun e => c e / tgcd c
  fac c := tgcd c

theorem tgcd_pos (c : TComp) : 0 < tgcd c := by
  unfold tgcd; simp only; split_ifs with h <;> omega

theorem tgcd_dvd (c : TComp) (e : Fin 3) : tgcd c ∣ c e := by
  unfold tgcd
  simp only
  split_ifs with h
  · exact one_dvd _
  · match e with
    | 0 => exact Nat.gcd_dvd_left _ _
    | 1 => exact (Nat.gcd_dvd_right _ _).trans (Nat.gcd_dvd_left _ _)
    | 2 => exact (Nat.gcd_dvd_right _ _).trans (Nat.gcd_dvd_right _ _)

theorem tgcd_red (c : TComp) : tgcd (fun e => c e / tgcd c) = 1 := by
  by_cases h : Nat.gcd (c 0) (Nat.gcd (c 1) (c 2)) = 0
  · have h0 : tgcd c = 1 := by simp [tgcd, h]
    simp only [h0, Nat.div_one]
  · have h0 : tgcd c = Nat.gcd (c 0) (Nat.gcd (c 1) (c 2)) := by simp [tgcd, h]
    have d0 := tgcd_dvd c 0
    have d1 := tgcd_dvd c 1
    have d2 := tgcd_dvd c 2
    have hp := tgcd_pos c
    have : Nat.gcd (c 0 / tgcd c) (Nat.gcd (c 1 / tgcd c) (c 2 / tgcd c)) = 1 := by
      rw [Nat.gcd_div d1 d2, Nat.gcd_div d0 (Nat.dvd_gcd d1 d2), ← h0, Nat.div_self hp]
    show (if _ = 0 then 1 else Nat.gcd (c 0 / tgcd c) (Nat.gcd (c 1 / tgcd c) (c 2 / tgcd c))) = 1
    rw [if_neg (by rw [this]; decide), this]

theorem toy_lawful : toy.Lawful where
  nonneg c e := by simp [toy]
  mem_elems c e := by
    simp only [toy, List.mem_filter, decide_eq_true_eq, ne_eq, Nat.cast_eq_zero, and_iff_right_iff_imp]
    intro _
    fin_cases e <;> simp
  nodup c := (by decide : ([0, 1, 2] : List (Fin 3)).Nodup).sublist List.filter_sublist
  fac_pos c := by simpa [toy] using tgcd_pos c
  red_amt c e := by
    have h := Nat.mul_div_cancel' (tgcd_dvd c e)
    simp only [toy]
    exact_mod_cast h.symm
  red_red c := by
    funext e
    have h := tgcd_red c
    show (c e / tgcd c) / tgcd (fun e => c e / tgcd c) = c e / tgcd c
    rw [h, Nat.div_one]

end Verif.Model
