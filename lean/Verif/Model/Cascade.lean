import Verif.Model.PyData

/-!
Model of the energy cascade of a pathway, src/rxn_network/pathways/plotting.py:28-154. Amounts and energies are rational; a value that pandas would leave as
`NaN` is `none`. Matplotlib is not modelled: the result is the series that is drawn.
-/

namespace Verif.Model.Cascade
open Verif.Py

/-- An entry: energy per atom and atomic fractions, src/rxn_network/pathways/plotting.py:92-97. -/
structure Ent (E : Type) where
  energy : ℚ
  frac : E → ℚ

/-- pymatgen's `PhaseDiagram` of the entries at a temperature, src/rxn_network/pathways/plotting.py:86-97: its elements, the energies per atom of the
elemental references, the energy of the ground state of a normalised composition, and the cheapest entry of a (reduced) formula. -/
structure Diagram (F E : Type) where
  els : List E
  ref : E → ℚ
  hull : (E → ℚ) → Except Err ℚ
  lookup : F → Except Err (Ent E)

/-- Formulas as pymatgen reads them: elements, amounts, and the factor by which the amounts are divided in the reduced composition; diagrams by temperature
(src/rxn_network/pathways/plotting.py:86-87, 93, 114, 128). -/
structure Ext (F E T : Type) where
  elems : F → List E
  amt : F → E → ℚ
  factor : F → ℚ
  diagram : T → Except Err (Diagram F E)

variable {F E T : Type} [DecidableEq E] [DecidableEq T]

/-- `median_filter` looks at three values. Called at src/rxn_network/pathways/plotting.py:105. -/
def median (a b c : ℚ) : ℚ := max (min a b) (min (max a b) c)

/-- A column from its second neighbour on; the last value is its own neighbour. Called at src/rxn_network/pathways/plotting.py:105. -/
def smoothFrom (prev : ℚ) : List ℚ → List ℚ
  | [] => []
  | [b] => [median prev b b]
  | b :: c :: l => median prev b c :: smoothFrom b (c :: l)

/-- `median_filter(column, size=3)`; the first value is its own neighbour. Called at src/rxn_network/pathways/plotting.py:105. -/
def smooth : List ℚ → List ℚ
  | [] => []
  | a :: l => smoothFrom a (a :: l)

/-- `_get_phase_df`, src/rxn_network/pathways/plotting.py:101-107: pandas rejects columns that are not as long as the index. -/
def phaseDf (smoothing : Bool) (amounts : List (F × List ℚ)) (temps : List T) : Except Err (List (F × List ℚ)) :=
  if amounts.all fun c => c.2.length == temps.length then
    .ok (if smoothing then amounts.map fun c => (c.1, smooth c.2) else amounts)
  else .error .valueError

/-- The rows of the table made at src/rxn_network/pathways/plotting.py:101-107: temperature, and formulas with amounts. -/
def rowsOf (cols : List (F × List ℚ)) (temps : List T) : List (T × List (F × ℚ)) :=
  temps.zipIdx.map fun t => (t.1, cols.map fun c => (c.1, c.2.getD t.2 0))

/-- `elems`, src/rxn_network/pathways/plotting.py:125-128, in the order of first occurrence (the order of a Python set; only sums depend on it). -/
def elemsOf (X : Ext F E T) (formulas : List F) : List E := (formulas.flatMap X.elems).dedup

/-- A cell of `_get_num_atoms_df`, src/rxn_network/pathways/plotting.py:109-123: the amount of an element in a row. -/
def atoms (X : Ext F E T) (row : List (F × ℚ)) (el : E) : ℚ := (row.map fun p => p.2 * X.amt p.1 el).sum

/-- `num_atoms_df.sum(axis=1)`, src/rxn_network/pathways/plotting.py:63. -/
def total (X : Ext F E T) (els : List E) (row : List (F × ℚ)) : ℚ := (els.map (atoms X row)).sum

/-- One of the `compositions`, src/rxn_network/pathways/plotting.py:145-154; pymatgen rejects negative amounts. -/
def fraction (X : Ext F E T) (els : List E) (row : List (F × ℚ)) : Except Err (E → ℚ) :=
  if els.any fun el => decide (atoms X row el < 0) then .error .valueError
  else .ok fun el => if el ∈ els then atoms X row el / total X els row else 0

/-- `get_form_energy_per_atom`, called at src/rxn_network/pathways/plotting.py:95. -/
def formPerAtom (d : Diagram F E) (e : Ent E) : ℚ := e.energy - (d.els.map fun el => e.frac el * d.ref el).sum

/-- The number of atoms of the reduced composition, src/rxn_network/pathways/plotting.py:93-95. -/
def reducedAtoms (X : Ext F E T) (f : F) : ℚ := ((X.elems f).map fun el => X.amt f el / X.factor f).sum

/-- The energy of a phase, src/rxn_network/pathways/plotting.py:92-97. -/
def phaseEnergy (X : Ext F E T) (d : Diagram F E) (f : F) : Except Err ℚ :=
  (d.lookup f).map fun e => formPerAtom d e * reducedAtoms X f

/-- One temperature of `_get_energies`, src/rxn_network/pathways/plotting.py:83-97: the ground state and the phases. `compositions[temp]` fails if there are no
columns (no rows of atoms) and is a series, not a composition, if the temperature is repeated. -/
def energiesAt (X : Ext F E T) (temps : List T) (row : T × List (F × ℚ)) (comp : E → ℚ) : Except Err (ℚ × List ℚ) := do
  let d ← X.diagram row.1
  if row.2.isEmpty then .error .keyError
  else if temps.count row.1 ≠ 1 then .error .attributeError
  else do
    let g ← d.hull comp
    let es ← row.2.mapM fun p => phaseEnergy X d p.1
    return (g, es)

/-- A value of the plot, src/rxn_network/pathways/plotting.py:63-68. -/
def plotted (X : Ext F E T) (els : List E) (row : List (F × ℚ)) (energies : ℚ × List ℚ) : Option ℚ :=
  if total X els row = 0 then none
  else some (((row.zip energies.2).map fun p => p.1.2 * p.2 / total X els row).sum - energies.1)

/-- The series drawn by `plot_energy_cascade`, src/rxn_network/pathways/plotting.py:52-74. -/
def cascade (X : Ext F E T) (smoothing : Bool) (amounts : List (F × List ℚ)) (temps : List T) : Except Err (List (T × Option ℚ)) := do
  let cols ← phaseDf smoothing amounts temps
  let els := elemsOf X (amounts.map Prod.fst)
  let rows := rowsOf cols temps
  let comps ← rows.mapM fun r => fraction X els r.2
  let energies ← (rows.zip comps).mapM fun r => energiesAt X temps r.1 r.2
  return (rows.zip energies).map fun r => (r.1.1, plotted X els r.1.2 r.2)

end Verif.Model.Cascade
