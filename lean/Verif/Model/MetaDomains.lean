import Verif.Model.Thermo

/-! The property `metastable_domains` of a chemical potential diagram (src/rxn_network/thermo/chempot_diagram.py:137-147).
`mins` are the reduced formulas of `_min_entries` (line 66), in order; `domains` is the cached dictionary of stable domains.
The single query `_get_metastable_domain` is `Verif.Model.Thermo.metastable` and works on the mutable state `CPD`. -/

namespace Verif.Model.Thermo
open Verif.Py

variable {η φ Dom : Type} [DecidableEq η] [DecidableEq φ]

/-- The dictionary comprehension, entry by entry, src/rxn_network/thermo/chempot_diagram.py:143-147: a formula with a stable domain
is skipped, for any other the query is run (it may raise, which ends the comprehension) and its result stored. -/
def metaLoop (X : Ext η φ Dom) (domains : φ → Option Dom) : CPD η φ Dom → List (φ × Dom) → List φ → CPD η φ Dom × Except Err (List (φ × Dom))
  | s, d, [] => (s, .ok d)
  | s, d, f :: fs => match domains f with
    | some _ => metaLoop X domains s d fs
    | none => match metastable X s f with
      | (s', .ok dom) => metaLoop X domains s' (dictSet d f dom) fs
      | (s', .error x) => (s', .error x)

/-- `metastable_domains`, src/rxn_network/thermo/chempot_diagram.py:137-147. -/
def metastableDomains (X : Ext η φ Dom) (domains : φ → Option Dom) (mins : List φ) (s : CPD η φ Dom) :
    CPD η φ Dom × Except Err (List (φ × Dom)) := metaLoop X domains s [] mins

end Verif.Model.Thermo
