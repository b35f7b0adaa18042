import Verif.Spec.Paths

/-!
# Reaction pathways

Specification vocabulary for C53 and C69: chains of reactions that can be carried out one after
the other, without reference to the graph, and the reactions met along a walk.
-/

namespace Verif.Spec.Pathfinding

open Verif.Model.Network

variable {η ρ : Type} [DecidableEq η]

/-- With `avail` the products of the reaction just carried out: each further reaction uses only
phases of `ps` and products of the reaction right before it, and the last one has made `t`. -/
def Runs (R P : ρ → Finset η) (ps : Finset η) (t : η) : Finset η → List ρ → Prop
  | avail, [] => t ∈ avail
  | avail, r :: rs => R r ⊆ ps ∪ avail ∧ Runs R P ps t (P r) rs

/-- A pathway from `ps` to `t`: a chain that starts from `ps` alone. -/
def Pathway (R P : ρ → Finset η) (ps : Finset η) (t : η) (rs : List ρ) : Prop := Runs R P ps t ∅ rs

instance (R P : ρ → Finset η) (ps : Finset η) (t : η) : ∀ avail rs, Decidable (Runs R P ps t avail rs)
  | avail, [] => inferInstanceAs (Decidable (t ∈ avail))
  | avail, r :: rs =>
    have := instDecidableRuns R P ps t (P r) rs
    inferInstanceAs (Decidable (R r ⊆ ps ∪ avail ∧ Runs R P ps t (P r) rs))

instance (R P : ρ → Finset η) (ps : Finset η) (t : η) (rs : List ρ) : Decidable (Pathway R P ps t rs) :=
  inferInstanceAs (Decidable (Runs R P ps t ∅ rs))

/-- The walk can be taken along edges whose reactions are, in order, `rs`. -/
def Traverses {ν : Type} (g : Graph ν (Edge ρ)) : List ℕ → List ρ → Prop
  | a :: b :: l, rs =>
    (∃ r rs', (a, b, Edge.rxn r) ∈ g.edges ∧ rs = r :: rs' ∧ Traverses g (b :: l) rs') ∨
    (∃ e, (a, b, e) ∈ g.edges ∧ (∀ r, e ≠ Edge.rxn r) ∧ Traverses g (b :: l) rs)
  | _, rs => rs = []

end Verif.Spec.Pathfinding
