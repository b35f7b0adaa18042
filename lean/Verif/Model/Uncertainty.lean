import Verif.Model.Reaction
import Mathlib.Analysis.Real.Sqrt

/-! Model of `ComputedReaction.energy_uncertainty`.

The `uncertainties` package is modelled by what it does for linear combinations: every `ufloat(...)` is a new independent variable, a
linear combination of variables has as variance the sum over the variables of the squared total coefficient times the squared
uncertainty, and comparisons (used by `min`) compare nominal values. Each entry comes with its `correction_uncertainty`, `none` for nan. -/

namespace Verif.Model.Uncertainty
open Verif.Py Verif.Model Verif.Model.Reaction

variable {κ ε : Type} [DecidableEq κ] [DecidableEq ε]

/-- An entry with its `correction_uncertainty`; nan counts as zero, src/rxn_network/reactions/computed.py:141-143. -/
abbrev UEntry (κ : Type) := Entry κ × Option ℚ

/-- `energy_ufloat / factor`: nominal value and uncertainty per reduced formula unit, src/rxn_network/reactions/computed.py:139-145. -/
def perUnit (X : Chem κ ε) (e : UEntry κ) : ℚ × ℚ := (e.1.energy / X.fac e.1.comp, e.2.getD 0 / X.fac e.1.comp)

/-- One step of the loop, src/rxn_network/reactions/computed.py:138-145: Python's `min(old, new)` keeps the old value unless the new
one is smaller. -/
def ustep (X : Chem κ ε) (d : List (κ × (ℚ × ℚ))) (e : UEntry κ) : List (κ × (ℚ × ℚ)) :=
  dictSet d (X.red e.1.comp) (match dictGet d (X.red e.1.comp) with
    | none => perUnit X e
    | some m => if (perUnit X e).1 < m.1 then perUnit X e else m)

/-- `calc_energies` of `energy_uncertainty`, src/rxn_network/reactions/computed.py:136-145. -/
def calcU (X : Chem κ ε) (es : List (UEntry κ)) : List (κ × (ℚ × ℚ)) := es.foldl (ustep X) []

/-- The total coefficient of a composition in the sum, src/rxn_network/reactions/computed.py:147-149. -/
def net (z : List (ℚ × κ)) (c : κ) : ℚ := ((z.filter fun p => p.2 = c).map Prod.fst).sum

/-- Square of `energy_uncertainty`, src/rxn_network/reactions/computed.py:131-151: with nothing to add the sum is the integer 0, which has no
attribute `s`; a composition without an entry is a `KeyError`. -/
def variance (X : Chem κ ε) (es : List (UEntry κ)) (comps : List κ) (coeffs : List ℚ) : Except Err ℚ :=
  let d := calcU X es
  let z := coeffs.zip comps
  if z = [] then .error .attributeError
  else if z.all fun p => (dictGet d p.2).isSome then .ok (d.map fun q => (net z q.1) ^ 2 * q.2.2 ^ 2).sum
  else .error .keyError

/-- `energy_uncertainty`, src/rxn_network/reactions/computed.py:131-151. -/
noncomputable def uncertainty (X : Chem κ ε) (es : List (UEntry κ)) (comps : List κ) (coeffs : List ℚ) : Except Err ℝ :=
  (variance X es comps coeffs).map fun v : ℚ => Real.sqrt (v : ℝ)

/-- `energy_uncertainty_per_atom`, src/rxn_network/reactions/computed.py:153-158; numpy yields inf/nan for zero atoms. -/
noncomputable def uncertaintyPerAtom (X : Chem κ ε) (es : List (UEntry κ)) (comps : List κ) (coeffs : List ℚ) : Except Err ℝ :=
  let n := numAtoms X (elements X comps) comps coeffs
  match uncertainty X es comps coeffs with
  | .error e => .error e
  | .ok v => if n = 0 then .error .nonFinite else .ok (v / n)

/-- The compositions of the reaction built from the entries, src/rxn_network/reactions/computed.py:45. -/
def compsOf (X : Chem κ ε) (es : List (UEntry κ)) : List κ := es.map fun e => X.red e.1.comp

end Verif.Model.Uncertainty
