import Mathlib.Data.Finset.Basic
import Mathlib.Data.Rat.Defs

/-! Specification notions for reaction pathways, independent of the model. -/

namespace Verif.Spec.Pathway

variable {κ ρ : Type} [DecidableEq κ]

/-- With the compositions `avail` at hand, the reactions can be carried out in the given order: each reactant is at hand
or was produced earlier. -/
def Exec (R P : ρ → Finset κ) : Finset κ → List ρ → Prop
  | _, [] => True
  | avail, r :: rs => R r ⊆ avail ∧ Exec R P (avail ∪ P r) rs

instance (R P : ρ → Finset κ) : ∀ avail rs, Decidable (Exec R P avail rs)
  | _, [] => isTrue trivial
  | avail, r :: rs =>
    have := instDecidableExec R P (avail ∪ P r) rs
    inferInstanceAs (Decidable (R r ⊆ avail ∧ Exec R P (avail ∪ P r) rs))

/-- The reactions of a pathway (repetitions ignored) can be carried out in some order. -/
def Executable (R P : ρ → Finset κ) (ps : Finset κ) (reactions : List ρ) : Prop :=
  ∃ l : List ρ, l.Nodup ∧ (∀ r, r ∈ l ↔ r ∈ reactions) ∧ Exec R P ps l

/-- Each reactant that is not a precursor is a product of another reaction of the pathway. -/
def Supplied (R P : ρ → Finset κ) (ps : Finset κ) (reactions : List ρ) : Prop :=
  ∀ r ∈ reactions, ∀ x ∈ R r, x ∉ ps → ∃ r' ∈ reactions, r' ≠ r ∧ x ∈ P r'

end Verif.Spec.Pathway
