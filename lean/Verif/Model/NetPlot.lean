import Verif.Model.PyData
import Mathlib.Data.List.Sort
import Mathlib.Data.List.Dedup

/-! Model of `src/rxn_network/network/visualize.py`: the colours of the nodes of a plotted network. The palette (matplotlib's
`get_cmap(name, lut=n)`) is a parameter `cmap : ℕ → ℕ → γ`, number of entries and index; the drawing itself is not modelled. -/

namespace Verif.Model.NetPlot
open Verif.Py

variable {σ γ : Type} [LinearOrder σ]

/-- `np.unique(domain)`: the different values in ascending order, src/rxn_network/network/visualize.py:45. -/
def unique (domain : List σ) : List σ := domain.dedup.insertionSort (· ≤ ·)

/-- `{key: i_str for i_str, key in enumerate(domain_unique)}`, src/rxn_network/network/visualize.py:46. -/
def table (domain : List σ) : List (σ × ℕ) := dictOf ((unique domain).zipIdx)

/-- `_get_cmap_string`, src/rxn_network/network/visualize.py:41-52: the returned function; a value outside the domain is a `KeyError`. -/
def cmapOut (cmap : ℕ → ℕ → γ) (domain : List σ) (x : σ) : Except Err γ :=
  match dictGet (table domain) x with
  | some i => .ok (cmap (unique domain).length i)
  | none => .error .keyError

/-- The `node_color` argument of `plot_network`, src/rxn_network/network/visualize.py:24-28; `chemsys` of every node in order. -/
def vertexColors {ν : Type} (cmap : ℕ → ℕ → γ) (chemsys : ν → σ) (nodes : List ν) : Except Err (List γ) :=
  (nodes.map chemsys).mapM (cmapOut cmap ((nodes.map chemsys).insertionSort (· ≤ ·)))

end Verif.Model.NetPlot
