import Verif.Model.PyData
import Mathlib.Analysis.SpecialFunctions.Log.Basic

/-!
Model of `src/rxn_network/costs/`: the calculator base class, the two cost functions and the chemical-potential-distance
calculator. Values are exact: `ℝ` for `Softplus` (it needs `log`/`exp`), any commutative ring for `WeightedSum`, `ℚ` for the
distance calculator.
-/

namespace Verif.Model.Costs

open Verif.Py

/-- What the cost code observes of a reaction: its data dictionary (`None` is `none`) and the numeric attributes it answers
`hasattr`/`getattr` for, src/rxn_network/costs/functions.py:61-64. Non-numeric data and attributes are not modelled. -/
structure CRxn (α : Type) where
  data : Option (List (String × α))
  attr : String → Option α

/-- The body of the parameter loop: data dictionary, then attribute, then `ValueError`,
src/rxn_network/costs/functions.py:61-66 and 122-127. `if rxn.data` is false for `None` and for `{}`. -/
def lookup {α : Type} (r : CRxn α) (p : String) : Except Err α :=
  match r.data with
  | some d =>
    match dictGet d p with
    | some v => .ok v
    | none => match r.attr p with
      | some v => .ok v
      | none => .error .valueError
  | none => match r.attr p with
    | some v => .ok v
    | none => .error .valueError

/-- `np.dot(values_arr, self.weights)` on one-dimensional arrays; `ValueError` when the lengths differ,
src/rxn_network/costs/functions.py:69-70 and 130-131. -/
def dot {α : Type} [CommRing α] (v w : List α) : Except Err α :=
  if v.length = w.length then .ok (List.zipWith (· * ·) v w).sum else .error .valueError

/-- `WeightedSum` after construction, src/rxn_network/costs/functions.py:91-109. -/
structure WeightedSum (α : Type) where
  params : List String
  weights : List α

/-- `WeightedSum.__init__`, src/rxn_network/costs/functions.py:91-109. -/
def mkWeightedSum {α : Type} [CommRing α] (params : Option (List String)) (weights : Option (List α)) : WeightedSum α :=
  ⟨params.getD ["energy_per_atom"], weights.getD [1]⟩

/-- `WeightedSum.evaluate`, src/rxn_network/costs/functions.py:111-131. -/
def WeightedSum.evaluate {α : Type} [CommRing α] (c : WeightedSum α) (r : CRxn α) : Except Err α :=
  match c.params.mapM (lookup r) with
  | .error e => .error e
  | .ok vs => dot vs c.weights

/-- `Softplus` after construction, src/rxn_network/costs/functions.py:46-48. -/
structure Softplus where
  temp : ℝ
  params : List String
  weights : List ℝ

/-- `Softplus.__init__`, src/rxn_network/costs/functions.py:23-48. -/
noncomputable def mkSoftplus (temp : ℝ) (params : Option (List String)) (weights : Option (List ℝ)) : Except Err Softplus :=
  if temp ≤ 0 then .error .valueError
  else .ok ⟨temp, params.getD ["energy_per_atom"], weights.getD [1]⟩

/-- `Softplus._softplus`, src/rxn_network/costs/functions.py:74-77, over the reals (no overflow or underflow). -/
noncomputable def softplus (x t : ℝ) : ℝ := Real.log (1 + 273 / t * Real.exp x)

/-- `Softplus.evaluate`, src/rxn_network/costs/functions.py:50-72. -/
noncomputable def Softplus.evaluate (c : Softplus) (r : CRxn ℝ) : Except Err ℝ :=
  match c.params.mapM (lookup r) with
  | .error e => .error e
  | .ok vs => match dot vs c.weights with
    | .error e => .error e
    | .ok total => .ok (softplus total c.temp)

/-- `if not new_rxn.data: new_rxn.data = {}` on the deep copy, src/rxn_network/costs/base.py:47-50. -/
def withData {α : Type} (r : CRxn α) : CRxn α := { r with data := some (r.data.getD []) }

/-- `Calculator.decorate` for a calculator with the given name and `calculate` method, src/rxn_network/costs/base.py:37-53.
The deep copy makes the argument immutable, so a pure function is faithful. -/
def decorate {α : Type} (name : String) (calcF : CRxn α → Except Err α) (r : CRxn α) : Except Err (CRxn α) :=
  match calcF (withData r) with
  | .error e => .error e
  | .ok v => .ok { r with data := some (dictSet (r.data.getD []) name v) }

/-- `Calculator.calculate_many`, src/rxn_network/costs/base.py:22-35. -/
def calculateMany {α : Type} (calcF : CRxn α → Except Err α) (rs : List (CRxn α)) : Except Err (List α) := rs.mapM calcF

/-- `Calculator.decorate_many`, src/rxn_network/costs/base.py:55-68. -/
def decorateMany {α : Type} (name : String) (calcF : CRxn α → Except Err α) (rs : List (CRxn α)) : Except Err (List (CRxn α)) :=
  rs.mapM (decorate name calcF)

/-! ### Chemical potential distance -/

/-- The `mu_func` argument: a string or a callable, src/rxn_network/costs/calculators.py:40. -/
inductive MuArg
  | named (s : String)
  | callable (f : List ℚ → Except Err ℚ)

/-- `sum(distances)`, src/rxn_network/costs/calculators.py:58-59. -/
def aggSum (l : List ℚ) : Except Err ℚ := .ok l.sum

/-- `max(distances)`; `ValueError` on an empty list, src/rxn_network/costs/calculators.py:54-55. -/
def aggMax : List ℚ → Except Err ℚ
  | [] => .error .valueError
  | x :: xs => .ok (xs.foldl max x)

/-- `np.mean(distances)`; `nan` on an empty list, src/rxn_network/costs/calculators.py:56-57. -/
def aggMean (l : List ℚ) : Except Err ℚ :=
  if l = [] then .error .nonFinite else .ok (l.sum / l.length)

/-- The constructor's choice of `self.mu_func`, src/rxn_network/costs/calculators.py:54-61: the outer result is the
constructor's outcome, the inner option is whether the attribute was set at all. -/
def muFunc : MuArg → Except Err (Option (List ℚ → Except Err ℚ))
  | .named s =>
    if s = "max" then .ok (some aggMax)
    else if s = "mean" then .ok (some aggMean)
    else if s = "sum" then .ok (some aggSum)
    else .error .valueError
  | .callable _ => .ok none

/-- The entries of one side of a reaction, src/rxn_network/costs/calculators.py:80-93: plain entries by sign of coefficient
(`reactant_entries`, `product_entries`) or, with `grand_entries`, those of class `GrandPotPDEntry` by sign of coefficient. -/
structure DRxn (η : Type) where
  entries : List (η × ℚ)
  /-- `some isGrand` when the reaction has `grand_entries`; `isGrand e` says the class name test holds. -/
  grand : Option (η → Bool)

/-- `reactant_entries` as used by `calculate`, src/rxn_network/costs/calculators.py:80, 84-88. -/
def DRxn.reactants {η : Type} (r : DRxn η) : List η :=
  (r.entries.filter fun p => decide (p.2 < (0:ℚ)) && (match r.grand with | none => true | some g => g p.1)).map Prod.fst

/-- `product_entries` as used by `calculate`, src/rxn_network/costs/calculators.py:81, 89-93. -/
def DRxn.products {η : Type} (r : DRxn η) : List η :=
  (r.entries.filter fun p => decide ((0:ℚ) < p.2) && (match r.grand with | none => true | some g => g p.1)).map Prod.fst

/-- `combinations(product_entries, 2)` as pairs, src/rxn_network/costs/calculators.py:96. -/
def pairs {η : Type} : List η → List (η × η)
  | [] => []
  | x :: xs => xs.map (fun y => (x, y)) ++ pairs xs

/-- The interfaces considered, src/rxn_network/costs/calculators.py:94-97. -/
def combos {η : Type} (r : DRxn η) : List (η × η) :=
  (r.reactants.flatMap fun a => r.products.map fun b => (a, b)) ++ pairs r.products

/-- `ChempotDistanceCalculator.calculate`, src/rxn_network/costs/calculators.py:67-107. `dist a b` is the domain distance with
both offsets (modelled in `Model.Thermo`); an unset `mu_func` is an `AttributeError`, raised after the distances. -/
def chempotDistance {η : Type} (mu : Option (List ℚ → Except Err ℚ)) (dist : η → η → Except Err ℚ) (r : DRxn η) : Except Err ℚ :=
  match (combos r).mapM fun p => dist p.1 p.2 with
  | .error e => .error e
  | .ok ds => match mu with
    | none => .error .attributeError
    | some f => match f ds with
      | .error e => .error e
      | .ok v => .ok (roundDigits 5 v)

end Verif.Model.Costs
