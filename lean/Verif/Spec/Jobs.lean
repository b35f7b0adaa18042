import Verif.Model.Jobs

/-!
Vocabulary for the job properties.
-/

namespace Verif.Spec.Jobs

/-- `m` is the least element of `l`. -/
def Lowest (l : List ℚ) (m : ℚ) : Prop := m ∈ l ∧ ∀ x ∈ l, m ≤ x

/-- Reaction `r` competes with `t` when it can start from the same precursors, the open species being available freely. -/
def Competes {φ : Type} (openF : Option φ) (t r : Verif.Model.Jobs.JRxn φ) : Prop :=
  ∀ f ∈ r.reactants, f ∈ t.reactants ∨ openF = some f

end Verif.Spec.Jobs
