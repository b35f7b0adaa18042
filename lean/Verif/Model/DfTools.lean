import Verif.Model.Pareto
import Verif.Model.PyData

/-! Model of the helpers on reaction tables, src/rxn_network/reactions/plotting.py. -/

namespace Verif.Model.DfTools
open Verif.Py Verif.Model.Pareto

/-- A cell of a table, a pandas DataFrame as made by src/rxn_network/reactions/reaction_set.py:159-177: a number or a list of formulas
(strings are numbers here, too: only equality matters). -/
inductive Cell (φ : Type) where
  | num (x : ℚ)
  | formulas (l : List φ)
  deriving DecidableEq

/-- A row of a table as used in src/rxn_network/reactions/plotting.py:174-179: its index label, the reactants of the reaction in
column `rxn` (as written in the reaction) and the other columns. -/
structure Row (φ : Type) where
  label : ℤ
  reactants : List φ
  cells : List (String × Cell φ)
  deriving DecidableEq

variable {φ : Type} [DecidableEq φ]

/-- The value of a numeric column, `df[list(metrics)]` at src/rxn_network/costs/pareto.py:31-32. A column that is missing or not numeric is outside the
model; it reads as zero, and all statements about metrics hold whatever is read. -/
def num (r : Row φ) (col : String) : ℚ := match dictGet r.cells col with
  | some (.num x) => x
  | _ => 0

/-- `df["precursors"] = [...]` for one row, src/rxn_network/reactions/plotting.py:177. `reduce` is `reduced_formula`, `sortF` is `sorted`. -/
def withPrecursors (reduce : φ → φ) (sortF : List φ → List φ) (r : Row φ) : Row φ :=
  { r with cells := dictSet r.cells "precursors" (.formulas (sortF (r.reactants.map reduce))) }

/-- The mask of src/rxn_network/reactions/plotting.py:178. -/
def available (precursors : List φ) (r : Row φ) : Bool := match dictGet r.cells "precursors" with
  | some (.formulas x) => x.all fun p => p ∈ precursors
  | _ => false

/-- `selected.drop(columns=["precursors"])` for one row, src/rxn_network/reactions/plotting.py:179. -/
def dropPrecursors (r : Row φ) : Row φ := { r with cells := r.cells.filter fun c => c.1 ≠ "precursors" }

/-- `filter_df_by_precursors`, src/rxn_network/reactions/plotting.py:174-179. On a table without rows `apply` gives an empty series of dtype object,
which pandas takes for an (empty) selection of columns, so that `drop` raises `KeyError`. -/
def filterByPrecursors (reduce : φ → φ) (sortF : List φ → List φ) (df : List (Row φ)) (precursors : List φ) : Except Err (List (Row φ)) :=
  if df = [] then .error .keyError
  else .ok (((df.map (withPrecursors reduce sortF)).filter (available precursors)).map dropPrecursors)

/-- What a scatter plot shows: ordinary points and the trace of the Pareto front, src/rxn_network/reactions/plotting.py:83-147. -/
structure Plot (φ : Type) where
  points : List (Row φ)
  front : Option (List (Row φ))
  deriving DecidableEq

/-- The columns shown, src/rxn_network/reactions/plotting.py:77-81. -/
def columns (x y : String) (z : Option String) : List String := match z with
  | none => [x, y]
  | some z => [x, y, z]

/-- `plot_reaction_scatter` up to presentation (labels, colours, layout), src/rxn_network/reactions/plotting.py:65-153. `none`
would be a failure of the front computation. -/
def plotScatter (x y : String) (z : Option String) (plotPareto : Bool) (df : List (Row φ)) : Option (Plot φ) :=
  if plotPareto then
    (paretoFront (fun r => (columns x y z).map (num r)) false df).map fun front =>
      ⟨df.filter fun r => r.label ∉ front.map Row.label, some front⟩
  else some ⟨df, none⟩

end Verif.Model.DfTools
