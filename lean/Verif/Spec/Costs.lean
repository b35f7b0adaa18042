import Verif.Model.Costs

/-!
Vocabulary for the cost properties, independent of how the model computes anything.
-/

namespace Verif.Spec.Costs

open Verif.Py Verif.Model.Costs

/-- The data dictionary binds `p` to `v`. -/
def InData {α : Type} (r : CRxn α) (p : String) (v : α) : Prop := ∃ d, r.data = some d ∧ (p, v) ∈ d

/-- A Python dictionary has each key once. -/
def DictOk {α : Type} (r : CRxn α) : Prop := ∀ d, r.data = some d → (d.map Prod.fst).Nodup

/-- The value a user expects a parameter to have: the one in the data, or the attribute if the data has none. -/
def Value {α : Type} (r : CRxn α) (p : String) (v : α) : Prop :=
  InData r p v ∨ ((∀ w, ¬ InData r p w) ∧ r.attr p = some v)

/-- Two entries are on opposite sides of the reaction, or both on the product side. -/
def Interface {η : Type} (reactants products : List η) (a b : η) : Prop :=
  (a ∈ reactants ∧ b ∈ products) ∨ (a ∈ products ∧ b ∈ products ∧ a ≠ b)

end Verif.Spec.Costs
