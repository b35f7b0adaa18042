import Mathlib.Data.Multiset.Filter
import Mathlib.Data.Multiset.Bind
import Mathlib.Data.Multiset.MapFold
import Mathlib.Data.Finset.Dedup
import Verif.Model.Network

/-!
# What a reaction network should look like

Specification vocabulary for properties C47–C53, written without the construction code: which
nodes and which edges, with multiplicity, the network has to have.  Node indices are internal, so
a graph is described by the multiset of its node payloads and the multiset of its edges with
payloads in place of indices.
-/

namespace Verif.Spec.Network

open Verif.Model.Network

/-- The payloads of the nodes, with multiplicity. -/
def viewN {ν ε : Type} (g : Graph ν ε) : Multiset ν := ↑(g.nodes.map (·.2))

/-- One edge, endpoints replaced by payloads (`none` for a dead endpoint). -/
def viewEdge {ν ε : Type} (g : Graph ν ε) (e : ℕ × ℕ × ε) : Option ν × Option ν × ε :=
  (g.nodeData e.1, g.nodeData e.2.1, e.2.2)

/-- The edges, with multiplicity. -/
def viewE {ν ε : Type} (g : Graph ν ε) : Multiset (Option ν × Option ν × ε) :=
  ↑(g.edges.map (viewEdge g))

/-- Two graphs are the same up to the numbering of their nodes. -/
def SameUpToNumbering {ν ε : Type} (g h : Graph ν ε) : Prop :=
  ∃ f : ℕ → ℕ, (∀ i ∈ g.nodes.map (·.1), ∀ j ∈ g.nodes.map (·.1), f i = f j → i = j) ∧
    (g.nodes.map fun p => (f p.1, p.2)).Perm h.nodes ∧
    (g.edges.map fun e => (f e.1, f e.2.1, e.2.2)).Perm h.edges

section

variable {η ρ : Type} [DecidableEq η]

/-- An edge between payloads. -/
abbrev VEdge (η ρ : Type) := Option (Node η) × Option (Node η) × Edge ρ

/-- The nodes of a freshly built network: one per distinct reactant set, one per distinct product
set. -/
def builtN (R P : ρ → Finset η) (rxns : List ρ) : Multiset (Node η) :=
  ↑((rxns.map R).dedup.map (fun s => (⟨.reactants, s⟩ : Node η)) ++
    (rxns.map P).dedup.map (fun s => (⟨.products, s⟩ : Node η)))

/-- The edges of a freshly built network: one per reaction, and one from each product set to the
equal reactant set. -/
def builtE (R P : ρ → Finset η) (rxns : List ρ) : Multiset (VEdge η ρ) :=
  ↑(rxns.map (fun r => ((some ⟨.reactants, R r⟩, some ⟨.products, P r⟩, Edge.rxn r) : VEdge η ρ)) ++
    ((rxns.map P).dedup.filter (fun s => decide (s ∈ rxns.map R))).map
      (fun s => ((some ⟨.products, s⟩, some ⟨.reactants, s⟩, Edge.loopback) : VEdge η ρ)))

/-- The edges that leave the precursors node: to each reactant set contained in the precursors. -/
def startE (ps : Finset η) (N : Multiset (Node η)) : Multiset (VEdge η ρ) :=
  (N.filter fun q => q.kind = .reactants ∧ q.entries ⊆ ps).map
    fun q => (some ⟨.precursors, ps⟩, some q, Edge.precursor)

/-- The edges from products back to reactants that precursors `ps` make possible: the reactants are
not all precursors, but they are all precursors or products. -/
def returnE (ps : Finset η) (N : Multiset (Node η)) : Multiset (VEdge η ρ) :=
  (N.filter fun p => p.kind = .products).bind fun p =>
    (N.filter fun q => q.kind = .reactants ∧ ¬ q.entries ⊆ ps ∧ q.entries ⊆ ps ∪ p.entries).map
      fun q => (some p, some q, Edge.loopback)

/-- The edges into the target node: from each product set containing the target. -/
def targetE (t : η) (N : Multiset (Node η)) : Multiset (VEdge η ρ) :=
  (N.filter fun p => p.kind = .products ∧ t ∈ p.entries).map
    fun p => (some p, some ⟨.target, {t}⟩, Edge.target)

end

end Verif.Spec.Network
