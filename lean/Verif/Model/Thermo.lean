import Verif.Model.Entries

/-!
Model of `src/rxn_network/thermo/`: division of a chemical system into phase diagrams, and the extended chemical potential
diagram's queries. Phase diagrams, half-space intersections and domains (pymatgen, scipy) are parameters.
-/

namespace Verif.Model.Thermo
open Verif.Py Verif.Model Verif.Model.Entries

variable {η : Type}

/-! ### expand_pd -/

/-- `e.composition.chemical_system`, src/rxn_network/thermo/utils.py:38,52: the sorted symbols joined by dashes. -/
def key (elems : η → List Enum.Sym) (e : η) : List Char := ['-'].intercalate ((elems e).insertionSort (· ≤ ·))

/-- `set(e.composition.chemical_system.split("-")).issubset(chemsys.split("-"))`, src/rxn_network/thermo/utils.py:38. -/
def covers (elems : η → List Enum.Sym) (e : η) (k : List Char) : Bool :=
  ((key elems e).splitOn '-').all fun s => s ∈ k.splitOn '-'

/-- Loop body of `expand_pd`, src/rxn_network/thermo/utils.py:37-52; `build` constructs a (grand potential) phase diagram and may
raise. -/
def expandStep {β : Type} (elems : η → List Enum.Sym) (build : List η → Except Err β) (entries : List η)
    (d : List (List Char × β)) (e : η) : Except Err (List (List Char × β)) :=
  if d.any fun p => covers elems e p.1 then .ok d
  else do
    let pd ← build (entries.filter fun x => (elems x).all fun s => s ∈ elems e)
    return dictSet d (key elems e) pd

/-- `expand_pd`, src/rxn_network/thermo/utils.py:16-54, for a collection that can be traversed repeatedly; `reverse=True` keeps the
order of equal keys. -/
def expandPd {β : Type} (elems : η → List Enum.Sym) (build : List η → Except Err β) (entries : List η) :
    Except Err (List (List Char × β)) :=
  (entries.insertionSort fun a b => (elems b).length ≤ (elems a).length).foldlM (expandStep elems build entries) []

/-! ### Chemical potential diagram -/

variable [DecidableEq η] {φ Dom : Type} [DecidableEq φ]

/-- The mutable part of a diagram: `_entry_set` and `_metastable_domains`,
src/rxn_network/thermo/chempot_diagram.py:62,87. -/
structure CPD (η φ Dom : Type) where
  entries : List η
  cache : List (φ × Dom)
  deriving DecidableEq, Repr

/-- What the queries use (src/rxn_network/thermo/chempot_diagram.py:195-227): ground-state look-up, stabilization of an entry in a set (`true` = the forced variant with the larger
tolerance), and construction of a diagram, which may raise and otherwise gives the domains. -/
structure Ext (η φ Dom : Type) where
  minEntry : List η → φ → Except Err η
  stab : List η → η → Bool → Except Err η
  build : List η → Except Err (φ → Option Dom)

/-- `self._entry_set.remove(new_entry)`: `KeyError` if absent, src/rxn_network/thermo/chempot_diagram.py:212,225. -/
def removeE (l : List η) (e : η) : Except Err (List η) := if e ∈ l then .ok (l.erase e) else .error .keyError

/-- End of `_get_metastable_domain`: store the domain, then remove the entry, src/rxn_network/thermo/chempot_diagram.py:224-227. -/
def finish (s : CPD η φ Dom) (entries : List η) (f : φ) (new : η) (dom : Dom) : CPD η φ Dom × Except Err Dom :=
  match removeE entries new with
  | .error x => (⟨entries, dictSet s.cache f dom⟩, .error x)
  | .ok l => (⟨l, dictSet s.cache f dom⟩, .ok dom)

/-- The second attempt of `_get_metastable_domain`, src/rxn_network/thermo/chempot_diagram.py:212-222, with the first attempt's
entry still in `entries`. -/
def retry (X : Ext η φ Dom) (s : CPD η φ Dom) (entries : List η) (f : φ) (orig new : η) : CPD η φ Dom × Except Err Dom :=
  match removeE entries new with
  | .error x => (⟨entries, s.cache⟩, .error x)
  | .ok l => match X.stab l orig true with
    | .error x => (⟨l, s.cache⟩, .error x)
    | .ok new2 =>
      let l2 := insertE l new2
      match X.build l2 with
      | .error x => (⟨l2, s.cache⟩, .error x)
      | .ok doms => match doms f with
        | none => (⟨l2, s.cache⟩, .error .valueError)
        | some dom => finish s l2 f new2 dom

/-- `_get_metastable_domain`, src/rxn_network/thermo/chempot_diagram.py:195-227. -/
def metastable (X : Ext η φ Dom) (s : CPD η φ Dom) (f : φ) : CPD η φ Dom × Except Err Dom :=
  match dictGet s.cache f with
  | some dom => (s, .ok dom)
  | none => match X.minEntry s.entries f with
    | .error x => (s, .error x)
    | .ok orig => match X.stab s.entries orig false with
      | .error x => (s, .error x)
      | .ok new =>
        let l := insertE s.entries new
        match X.build l with
        | .error x => (⟨l, s.cache⟩, .error x)
        | .ok doms => match doms f with
          | some dom => finish s l f new dom
          | none => retry X s l f orig new

/-- The points of a phase: its domain if stable, else its metastable domain, src/rxn_network/thermo/chempot_diagram.py:103-105;
`domains` is the diagram's cached dictionary of stable domains. -/
def pointsOf (X : Ext η φ Dom) (domains : φ → Option Dom) (s : CPD η φ Dom) (f : φ) : CPD η φ Dom × Except Err Dom :=
  match domains f with
  | some d => (s, .ok d)
  | none => metastable X s f

/-- `KDTree(pts1).query(p)[0]`: distance to the nearest point (scipy), src/rxn_network/thermo/chempot_diagram.py:107-109. -/
def nearest {P R : Type} [LinearOrder R] (dist : P → P → R) (pts1 : List P) (p : P) : Except Err R :=
  match (pts1.map fun q => dist p q).min? with
  | some d => .ok d
  | none => .error .valueError

/-- `min(tree.query(pts2)[0]) + offset`, src/rxn_network/thermo/chempot_diagram.py:107-109. -/
def minDist {P R : Type} [LinearOrder R] [Add R] (dist : P → P → R) (pts1 pts2 : List P) (offset : R) : Except Err R := do
  let ds ← pts2.mapM (nearest dist pts1)
  match ds.min? with
  | some d => .ok (d + offset)
  | none => .error .valueError

/-- `shortest_domain_distance`, src/rxn_network/thermo/chempot_diagram.py:89-109. -/
def shortest {P R : Type} [LinearOrder R] [Add R] (X : Ext η φ (List P)) (domains : φ → Option (List P)) (dist : P → P → R)
    (s : CPD η φ (List P)) (f1 f2 : φ) (offset : R) : CPD η φ (List P) × Except Err R :=
  match pointsOf X domains s f1 with
  | (s1, .error x) => (s1, .error x)
  | (s1, .ok p1) => match pointsOf X domains s1 f2 with
    | (s2, .error x) => (s2, .error x)
    | (s2, .ok p2) => (s2, minDist dist p1 p2 offset)

end Verif.Model.Thermo
