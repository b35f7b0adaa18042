import Verif.Model.Minimize
import Verif.Model.Solver
import Verif.Model.Balance

/-!
Model of `PathwaySolverMaker` (src/rxn_network/jobs/core.py:571-692): the check of the net reaction when the maker is created and the
job that computes the net reaction from entries and runs the solver on it. Formulas are parsed compositions; the solver object stored in
the document is not modelled.
-/

namespace Verif.Model.SolverJob

open Verif.Py Verif.Model.Reaction Verif.Model.RxnSet

variable {κ ε φ δ : Type} [DecidableEq κ] [DecidableEq ε] [DecidableEq φ] [DecidableEq δ]

/-- `__post_init__`, src/rxn_network/jobs/core.py:621-632. `rank`/`solve` are numpy (external). -/
def postInit (X : Chem κ ε) (precursors targets : List κ) (rank : ℕ) (solve : List ℕ → List ℚ) : Except Err (Rxn κ) :=
  if (balanceBasic X precursors targets rank solve []).balanced then .ok (balanceBasic X precursors targets rank solve [])
  else .error .valueError

/-- The fields of the maker used by the job, src/rxn_network/jobs/core.py:607-619. -/
structure Settings (ε : Type) where
  openElem : Option ε
  chempot : ℚ
  maxCombos : ℕ
  findInter : Bool
  filterInter : Bool

/-- `chempots`, src/rxn_network/jobs/core.py:653-655; no open element is the empty list. -/
def potsOf (s : Settings ε) : List (ε × ℚ) := match s.openElem with
  | none => []
  | some o => [(o, s.chempot)]

/-- The document, src/rxn_network/jobs/core.py:676-688 (settings repeated from the maker are left out). -/
structure Doc (κ ε δ : Type) where
  net : CRxn κ
  pots : List (ε × ℚ)
  paths : List (Pathway.Path (SRxn (Entry κ) δ ε))

/-- The net reaction as the solver sees it, src/rxn_network/pathways/solver.py:205. -/
def asS (d : δ) (r : CRxn κ) (pots : List (ε × ℚ)) : SRxn (Entry κ) δ ε := ⟨r.entries, r.base.coeffs, d, pots⟩

/-- The available phases of the interdependence check: `[p.composition for p in precursors]` with
`precursors = net_rxn.reactant_entries`, src/rxn_network/pathways/solver.py:180,330: the entries' own compositions, not reduced. -/
def precursorComps (r : CRxn κ) : Finset κ := ((Enum.viewOf r).reactants.map Entry.comp).toFinset

/-- The solver run on a given net reaction, src/rxn_network/pathways/solver.py:165-340: `find` is `_find_intermediate_rxns` together
with the cost function, given the product entries (:178-188). -/
def run (c : Solver.Config (Entry κ) δ ε κ) (s : Settings ε)
    (find : List (Entry κ) → Except Err (List (SRxn (Entry κ) δ ε × ℚ)))
    (inClean : List (SRxn (Entry κ) δ ε × ℚ) → SRxn (Entry κ) δ ε → Bool)
    (paths : List (Pathway.Path (SRxn (Entry κ) δ ε))) (net : CRxn κ) (pots : List (ε × ℚ)) :
    Except Err (List (Pathway.Path (SRxn (Entry κ) δ ε))) :=
  if net.base.balanced then
    match if s.findInter then find (Enum.viewOf net).products else .ok [] with
    | .error e => .error e
    | .ok inter => Solver.solve { c with mu := potsOf s } net.base.balanced inClean paths inter (asS c.data net pots) (precursorComps net)
        s.maxCombos s.filterInter
  else .error .valueError

/-- `make`, src/rxn_network/jobs/core.py:634-692; `net0` is the reaction stored by `__post_init__`. -/
def make (X : Chem κ ε) (form : κ → φ) (epa : Entry κ → ℚ) (rank : List (Entry κ) → List (Entry κ) → ℕ)
    (solve : List (Entry κ) → List (Entry κ) → List ℕ → List ℚ) (entries : List (Entry κ))
    (c : Solver.Config (Entry κ) δ ε κ) (s : Settings ε)
    (find : List (Entry κ) → Except Err (List (SRxn (Entry κ) δ ε × ℚ)))
    (inClean : List (SRxn (Entry κ) δ ε × ℚ) → SRxn (Entry κ) δ ε → Bool)
    (paths : List (Pathway.Path (SRxn (Entry κ) δ ε))) (net0 : Rxn κ) : Except Err (Doc κ ε δ) :=
  match Minimize.getComputedRxn X form epa rank solve entries net0 (potsOf s) with
  | .error e => .error e
  | .ok (net, pots) => match run c s find inClean paths net pots with
    | .error e => .error e
    | .ok out => .ok ⟨net, pots, out⟩

end Verif.Model.SolverJob
