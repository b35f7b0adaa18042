import Mathlib.Data.Finset.Basic
import Mathlib.Data.Finset.SDiff
import Verif.Model.PyData
import Verif.Model.Utils
import Verif.Model.RxnSet

/-!
Model of reaction pathways, src/rxn_network/pathways/base.py, basic.py, balanced.py and pathway_set.py.
`κ` is the type of compositions, `ρ` of reactions; `R r` and `P r` are `set(r.reactants)` and `set(r.products)`.
-/

namespace Verif.Model.Pathway
open Verif.Py

section Sets

variable {κ ρ : Type} [DecidableEq κ]

/-- `all_reactants`, src/rxn_network/pathways/base.py:27-30. -/
def allReactants (R : ρ → Finset κ) (rs : List ρ) : Finset κ := rs.foldr (fun r s => R r ∪ s) ∅

/-- `all_products`, src/rxn_network/pathways/base.py:32-35. -/
def allProducts (P : ρ → Finset κ) (rs : List ρ) : Finset κ := rs.foldr (fun r s => P r ∪ s) ∅

/-- `compositions` (as a set), src/rxn_network/pathways/base.py:37-40. -/
def compositions (R P : ρ → Finset κ) (rs : List ρ) : Finset κ := allReactants R rs ∪ allProducts P rs

/-- `reactants`, src/rxn_network/pathways/base.py:42-45. -/
def reactants (R P : ρ → Finset κ) (rs : List ρ) : Finset κ := allReactants R rs \ allProducts P rs

/-- `products`, src/rxn_network/pathways/base.py:47-50. -/
def products (R P : ρ → Finset κ) (rs : List ρ) : Finset κ := allProducts P rs \ allReactants R rs

/-- `intermediates`, src/rxn_network/pathways/base.py:52-55. -/
def intermediates (R P : ρ → Finset κ) (rs : List ρ) : Finset κ := allProducts P rs ∩ allReactants R rs

/-- One entry of the matrix of pairs, src/rxn_network/pathways/balanced.py:102-104.  The condition
`overlapping_phases not in other_comp` compares a set with compositions, so it always holds (Python looks a set up as the
frozen set, which equals no composition); it is therefore omitted. -/
def overlapPair (R P : ρ → Finset κ) (ps : Finset κ) (a b : ρ) : Bool :=
  decide (((R a \ ps) ∩ (P b \ ps)) ≠ ∅)

/-- `overlap[i]`, src/rxn_network/pathways/balanced.py:97-104. -/
def overlapAt (R P : ρ → Finset κ) (ps : Finset κ) (combo : List ρ) (i : ℕ) : Bool :=
  (List.range combo.length).any fun j => decide (i ≠ j) &&
    match combo[i]?, combo[j]? with
    | some a, some b => overlapPair R P ps a b
    | _, _ => false

/-- One iteration over the combinations, src/rxn_network/pathways/balanced.py:84-107. -/
def comboFlag (R P : ρ → Finset κ) (ps : Finset κ) (combo : List ρ) : Bool :=
  if (combo.any fun r => decide (R r ⊆ ps)) || decide (combo.length = 1) then false
  else (List.range combo.length).all (overlapAt R P ps combo)

/-- `contains_interdependent_rxns`, src/rxn_network/pathways/balanced.py:68-109.  `order` is the iteration order of
`set(self.reactions)`. -/
def interdependent (order : List ρ → List ρ) (R P : ρ → Finset κ) (ps : Finset κ) (reactions : List ρ) : Bool :=
  let rxns := order reactions
  if rxns.length = 1 then false
  else (Utils.limitedPowerset rxns rxns.length).any (comboFlag R P ps)

end Sets

section Objects

/-- The fields of `BasicPathway` (`coefficients = none`) and `BalancedPathway`,
src/rxn_network/pathways/basic.py:24-29 and src/rxn_network/pathways/balanced.py:24-42. -/
structure Path (ρ : Type) where
  reactions : List ρ
  costs : List ℚ
  coefficients : Option (List ℚ)
  balanced : Bool
  deriving DecidableEq

variable {ρ : Type}

/-- `BasicPathway.__eq__` on two pathways of the same class, src/rxn_network/pathways/basic.py:55-59:
`zip(..., strict=False)` stops at the shorter one.  `eq a b` is `a == b`. -/
def basicEq (eq : ρ → ρ → Bool) (a b : Path ρ) : Bool := (b.reactions.zip a.reactions).all fun p => eq p.1 p.2

/-- `np.allclose` (src/rxn_network/pathways/balanced.py:133) with numpy's broadcasting of one-dimensional arrays: a list of length 1 is stretched; other different
lengths raise `ValueError`. -/
def allcloseB (xs ys : List ℚ) : Except Err Bool :=
  if xs.length = ys.length then .ok ((xs.zip ys).all fun p => isclose p.1 p.2)
  else match xs, ys with
    | [x], _ => .ok (ys.all fun y => isclose x y)
    | _, [y] => .ok (xs.all fun x => isclose x y)
    | _, _ => .error .valueError

/-- `BalancedPathway.__eq__` on two balanced pathways, src/rxn_network/pathways/balanced.py:131-135. -/
def balancedEq (eq : ρ → ρ → Bool) (a b : Path ρ) : Except Err Bool :=
  if basicEq eq a b then allcloseB a.costs b.costs else .ok false

/-- The tuple hashed by `BasicPathway.__hash__`, src/rxn_network/pathways/basic.py:61-62; `h` is the hash of a reaction. -/
def basicHash {υ : Type} (h : ρ → υ) (p : Path ρ) : List υ := p.reactions.map h

/-- The tuple hashed by `BalancedPathway.__hash__`, src/rxn_network/pathways/balanced.py:137-138. -/
def balancedHash {υ : Type} (h : ρ → υ) (p : Path ρ) : List υ × Option (List ℚ) := (p.reactions.map h, p.coefficients)

/-- Whether a member of a set is the pathway looked up, in `set(...)` at src/rxn_network/pathways/solver.py:338: equal hashes, and the same
object or equal. -/
def sameKey {υ : Type} [DecidableEq υ] [DecidableEq ρ] (h : ρ → υ) (eq : ρ → ρ → Bool) (q p : Path ρ) : Except Err Bool :=
  if balancedHash h q = balancedHash h p then (if q = p then .ok true else balancedEq eq q p) else .ok false

/-- Looking a pathway up in a set, src/rxn_network/pathways/solver.py:338. -/
def setHas {υ : Type} [DecidableEq υ] [DecidableEq ρ] (h : ρ → υ) (eq : ρ → ρ → Bool) : List (Path ρ) → Path ρ → Except Err Bool
  | [], _ => .ok false
  | q :: s, p => match sameKey h eq q p with
    | .ok true => .ok true
    | .ok false => setHas h eq s p
    | .error e => .error e

/-- `set(filtered_paths)`, src/rxn_network/pathways/solver.py:338: a pathway is added if it is not in the set yet; `seen` is the set so far. -/
def pathSet {υ : Type} [DecidableEq υ] [DecidableEq ρ] (h : ρ → υ) (eq : ρ → ρ → Bool) : List (Path ρ) → List (Path ρ) → Except Err (List (Path ρ))
  | seen, [] => .ok seen
  | seen, p :: l => match setHas h eq seen p with
    | .ok true => pathSet h eq seen l
    | .ok false => pathSet h eq (seen ++ [p]) l
    | .error e => .error e

/-- `total_cost`, src/rxn_network/pathways/basic.py:36-39. -/
def totalCost (p : Path ρ) : ℚ := p.costs.sum

/-- `average_cost`, src/rxn_network/pathways/balanced.py:126-129: `np.dot` raises `ValueError` for different lengths; the
division by a zero sum of coefficients gives a non-finite number in numpy. -/
def averageCost (coeffs costs : List ℚ) : Except Err ℚ :=
  if coeffs.length ≠ costs.length then .error .valueError
  else if coeffs.sum = 0 then .error .nonFinite
  else .ok ((coeffs.zipWith (· * ·) costs).sum / coeffs.sum)

/-- `rxns.index(r)`, src/rxn_network/pathways/pathway_set.py:99: `list.index` compares `item == r`. -/
def indexOf (eq : ρ → ρ → Bool) (rxns : List ρ) (r : ρ) : Except Err ℕ :=
  match rxns.findIdx? fun x => eq x r with
  | some i => .ok i
  | none => .error .valueError

/-- One row of a `PathwaySet`, src/rxn_network/pathways/pathway_set.py:98-101. -/
structure Row where
  indices : List ℕ
  coefficients : Option (List ℚ)
  costs : List ℚ
  deriving DecidableEq

/-- The loop body of `from_paths`, src/rxn_network/pathways/pathway_set.py:98-101. -/
def rowOf (eq : ρ → ρ → Bool) (rxns : List ρ) (p : Path ρ) : Except Err Row :=
  (p.reactions.mapM (indexOf eq rxns)).map fun is => ⟨is, p.coefficients, p.costs⟩

/-- The loop body of `_get_paths`, src/rxn_network/pathways/pathway_set.py:67-79: `balanced` is left at its default. -/
def pathOf (rxns : List ρ) (row : Row) : Except Err (Path ρ) :=
  (row.indices.mapM (RxnSet.getIdx rxns)).map fun rs => ⟨rs, row.costs, row.coefficients, false⟩

/-- `PathwaySet.from_paths(paths).paths`, src/rxn_network/pathways/pathway_set.py:58-108, with the reaction set given by
`store`: `list(ReactionSet.from_rxns(rxns).get_rxns())`. -/
def roundTrip (eq : ρ → ρ → Bool) (store : List ρ → Except Err (List ρ)) (paths : List (Path ρ)) :
    Except Err (List (Path ρ)) :=
  match store (paths.flatMap fun p => p.reactions) with
  | .error e => .error e
  | .ok rxns => match paths.mapM (rowOf eq rxns) with
    | .error e => .error e
    | .ok rows => rows.mapM (pathOf rxns)

end Objects

section Store

variable {η δ ε υ : Type} [DecidableEq η] [DecidableEq ε] [DecidableEq υ]

/-- The reaction set behind a `PathwaySet`, src/rxn_network/pathways/pathway_set.py:95-96 and 110-115. -/
def storeRxns (uid : η → υ) (setOrder : List η → List η) (rxns : List (RxnSet.SRxn η δ ε)) :
    Except Err (List (RxnSet.SRxn η δ ε)) :=
  match RxnSet.fromRxns uid setOrder rxns none none 0 with
  | .error e => .error e
  | .ok s => RxnSet.getRxns s

end Store

end Verif.Model.Pathway
