import Verif.Model.Table

/-! What the columns of a reaction table mean, one reaction at a time (documentation of `to_dataframe`). -/

namespace Verif.Spec.Table
open Verif.Py Verif.Model.Table

variable {V : Type}

/-- Names with a fixed meaning. -/
def reserved : List String :=
  ["rxn", "energy", "max_e_hull_reactants", "max_e_hull_products", "num_theoretical_reactants", "num_theoretical_products",
   "dE", "added_elems", "separable", "max_num_precursor_elems", "cost"]

/-- The meaning of a column for a reaction: the documented quantity, otherwise the value in the reaction's data (if any). -/
def cellOf (a : Args V) (name : String) (r : TRxn V) : Except Err (Cell V) :=
  if name = "rxn" then .ok (.rxn r.key)
  else if name = "energy" then r.energy.map .num
  else if name = "max_e_hull_reactants" then (pyMaxQ (r.reactantEntries.map hullOf)).map .num
  else if name = "max_e_hull_products" then (pyMaxQ (r.productEntries.map hullOf)).map .num
  else if name = "num_theoretical_reactants" then (numTheoretical r.reactantEntries).map .nat
  else if name = "num_theoretical_products" then (numTheoretical r.productEntries).map .nat
  else if name = "dE" then r.unc.map .num
  else if name = "added_elems" then match a.target with
    | some f => .ok (.str (f r).1)
    | none => .error .keyError
  else if name = "separable" then match a.target with
    | some f => (f r).2.map .bool
    | none => .error .keyError
  else if name = "max_num_precursor_elems" then (pyMaxN r.precursorSizes).map .nat
  else if name = "cost" then (a.cost r).map .num
  else .ok (.any (dictGet r.data name))

/-- The columns of the table, in order, given which optional parts are present. -/
def columns (a : Args V) (hull theo : Bool) (attrs : List String) : List String :=
  ["rxn", "energy"] ++ (if hull then ["max_e_hull_reactants", "max_e_hull_products"] else []) ++
  (if theo then ["num_theoretical_reactants", "num_theoretical_products"] else []) ++
  (if a.unc then ["dE"] else []) ++ (if a.target.isSome then ["added_elems"] else []) ++
  (if a.target.isSome && a.sep then ["separable"] else []) ++ ["max_num_precursor_elems"] ++ attrs ++ ["cost"]

/-- Order of cells by number. -/
def cellLe : Cell V → Cell V → Prop
  | .num p, .num q => p ≤ q
  | _, _ => True

/-- A sorting routine on a column: any permutation of the rows that puts the numbers in order. -/
def Sorts (sortIdx : List (Cell V) → List ℕ) : Prop :=
  ∀ col, (sortIdx col).Perm (List.range col.length) ∧ (pickRows (sortIdx col) col).Pairwise cellLe

end Verif.Spec.Table
