import Verif.Model.Entries
import Verif.Model.Costs

/-! Model of the SISSO correction of `GibbsComputedEntry` and of the two helpers of `GibbsEntrySet` that choose experimental references
and carbonate corrections.

Simplifications: amounts, masses and chemical potentials are rationals; `log` is a parameter; a composition is the list of its
(element, amount) items in the order of `get_el_amt_dict`; class names are compared after lower-casing ASCII letters. -/

namespace Verif.Model.Gibbs
open Verif.Py Verif.Model.Entries

variable {ε : Type}

/-- A composition as its (element, amount) items, `get_el_amt_dict` at src/rxn_network/entries/gibbs.py:200,222. -/
abbrev Amts (ε : Type) := List (ε × ℚ)

/-- `num_atoms` (pymatgen), used at src/rxn_network/entries/gibbs.py:85,154,224. -/
def atoms (a : Amts ε) : ℚ := (a.map Prod.snd).sum

/-- A composition with all amounts multiplied by `k`: pymatgen's `comp * k`, and `comp / factor` inside `reduced_composition`, used at
src/rxn_network/entries/gibbs.py:220. -/
def scale (k : ℚ) (a : Amts ε) : Amts ε := a.map fun p => (p.1, k * p.2)

/-- The sum over pairs of elements, src/rxn_network/entries/gibbs.py:226-235; `m` is the atomic weight. -/
def massSum (m : ε → ℚ) (a : Amts ε) : ℚ :=
  ((Costs.pairs a).map fun p => (p.1.2 + p.2.2) * (m p.1.1 * m p.2.1) / (m p.1.1 + m p.2.1)).sum

/-- `_reduced_mass`, src/rxn_network/entries/gibbs.py:215-237: `factor` is the factor by which pymatgen's `reduced_composition` divides
the amounts; a zero denominator raises. -/
def reducedMass (m : ε → ℚ) (factor : Amts ε → ℚ) (a : Amts ε) : Except Err ℚ :=
  let r := scale (1 / factor a) a
  let den := ((r.length : ℚ) - 1) * atoms r
  if den = 0 then .error .zeroDivision else .ok (1 / den * massSum m r)

/-- `_g_delta_sisso`, src/rxn_network/entries/gibbs.py:176-193: a zero volume raises. -/
def gDelta (log : ℚ → ℚ) (v m t : ℚ) : Except Err ℚ :=
  if v = 0 then .error .zeroDivision
  else .ok ((-(248 / 1000000) * log v - 894 / 10000000 * m / v) * t + 181 / 1000 * log t - 882 / 1000)

/-- `_sum_g_i`, src/rxn_network/entries/gibbs.py:195-213: `mu` gives an element's chemical potential at the temperature
(`Entries.elemMu`), or raises. -/
def sumG (mu : ε → Except Err ℚ) (a : Amts ε) : Except Err ℚ := do
  let l ← a.mapM fun p => (mu p.1).map (p.2 * ·)
  return l.sum

/-- Data used by the correction: atomic weights, logarithm, pymatgen's reduction factor and elemental chemical potentials at each
temperature, src/rxn_network/entries/gibbs.py:177-237. -/
structure Env (ε : Type) where
  m : ε → ℚ
  log : ℚ → ℚ
  factor : Amts ε → ℚ
  mu : ℚ → ε → Except Err ℚ

/-- `gibbs_adjustment`, src/rxn_network/entries/gibbs.py:137-159 (`is_element`: exactly one element). -/
def gibbsAdjustment (X : Env ε) (a : Amts ε) (vol t : ℚ) : Except Err ℚ :=
  if a.length = 1 then .ok 0
  else do
    let rm ← reducedMass X.m X.factor a
    let g ← gDelta X.log vol rm t
    let s ← sumG (X.mu t) a
    return atoms a * g - s

/-- The external facts used by `gibbsInit`, src/rxn_network/entries/gibbs.py:82-120. -/
def thermo (X : Env ε) : Thermo (Amts ε) := ⟨atoms, gibbsAdjustment X⟩

/-! ### Experimental references and carbonates -/

/-- The two reference classes, src/rxn_network/entries/entry_set.py:633-638. -/
inductive Db
  | nist
  | freed
  deriving DecidableEq, Repr

/-- The choice of the class by name, src/rxn_network/entries/entry_set.py:632-638. -/
def clsOf (name : List Char) : Except Err Db :=
  let n := name.map Char.toLower
  if n = "nist".toList ∨ n = "nistreferenceentry".toList then .ok .nist
  else if n = "freed".toList ∨ n = "freedreferenceentry".toList then .ok .freed
  else .error .valueError

/-- The tables of a reference class: `REFERENCES` and `DEPRECATED`, src/rxn_network/entries/nist.py:34-35 and
src/rxn_network/entries/freed.py:29. -/
structure Ref where
  table : List Char → Option (List (ℚ × ℚ))
  deprecated : List Char → Bool

/-- Options and data of `_check_for_experimental`, src/rxn_network/entries/entry_set.py:625-632: the tables, the ignored NIST solids,
pymatgen's `Composition(formula).reduced_formula` and the logarithm of the CO2 pressure. -/
structure Refs where
  refs : Db → Ref
  ignored : List Char → Bool
  red : List Char → List Char
  lnp : ℚ

/-- The energy adjustments given to the new entry, src/rxn_network/entries/entry_set.py:645-647. -/
def co2Adjs (R : Refs) (f : List Char) (t : ℚ) (co2 : Bool) : List Adj :=
  if co2 = true ∧ f = "CO2".toList then [.co2 3 t R.lnp] else []

/-- `_check_for_experimental`, src/rxn_network/entries/entry_set.py:624-656: only `ValueError` is caught. -/
def checkForExperimental (R : Refs) (f cls : List Char) (t : ℚ) (ignoreSolids co2 : Bool) : Except Err (Option (Exper (List Char))) :=
  match clsOf cls with
  | .error x => .error x
  | .ok db =>
    if ((R.refs db).table f).isSome then
      if db = .nist ∧ ignoreSolids = true ∧ R.ignored f = true then .ok none
      else match experInit (fun c => (R.refs db).table (R.red c)) (fun c => (R.refs db).deprecated (R.red c)) f t (co2Adjs R f t co2) with
        | .ok e => .ok (some e)
        | .error .valueError => .ok none
        | .error x => .error x
    else .ok none

/-- `np.isclose(x, 3)` with numpy's default tolerances, src/rxn_network/entries/entry_set.py:682. -/
def isClose3 (x : ℚ) : Bool := |x - 3| ≤ 1 / 100000000 + 1 / 100000 * 3

/-- `_get_carbonate_correction`, src/rxn_network/entries/entry_set.py:658-685, with the default value of
src/rxn_network/entries/corrections.py:9,21. -/
def carbonateCorrection (a : Amts (List Char)) (runType : Option (List Char)) : Option Adj :=
  if ¬ ("C".toList ∈ a.map Prod.fst ∧ "O".toList ∈ a.map Prod.fst) then none
  else if ¬ (runType = some "GGA".toList ∨ runType = some "GGA+U".toList) then none
  else
    let c := (dictGet a "C".toList).getD 0
    let o := (dictGet a "O".toList).getD 0
    if c = 0 ∨ o = 0 then none
    else if isClose3 (o / c) = false then none
    else some (.carbonate c (83 / 100))

end Verif.Model.Gibbs
