import Verif.Model.PyData
import Verif.Model.Chem
import Mathlib.Data.List.Dedup
import Mathlib.Data.Finset.Basic
import Mathlib.Data.Finset.Dedup

/-!
Model of reactions: src/rxn_network/reactions/{basic,computed,open}.py (balancing is in `Model/Balance.lean`).
Numbers are exact rationals. Compositions are a type `κ` with the interface `Chem κ ε`.
-/

namespace Verif.Model.Reaction
open Verif.Py Verif.Model

variable {κ ε : Type} [DecidableEq κ] [DecidableEq ε]

/-- `TOLERANCE`, src/rxn_network/reactions/basic.py:25. -/
def tol : ℚ := 1 / 1000000

/-- State of a `BasicReaction`, src/rxn_network/reactions/basic.py:59-80. `data` is restricted to numeric values;
`lowest_num_errors = inf` is `none`. The dictionaries are recomputed from these fields (they are never mutated). -/
structure Rxn (κ : Type) where
  comps : List κ
  coeffs : List ℚ
  balanced : Bool
  data : List (String × ℚ)
  lne : Option ℕ
  deriving DecidableEq, Repr

/-- `reactant_coeffs`, src/rxn_network/reactions/basic.py:61-63. -/
def reactantCoeffs (comps : List κ) (coeffs : List ℚ) : List (κ × ℚ) :=
  dictOf ((comps.zip coeffs).filter fun p => p.2 < 0)

/-- `product_coeffs`, src/rxn_network/reactions/basic.py:64-66. -/
def productCoeffs (comps : List κ) (coeffs : List ℚ) : List (κ × ℚ) :=
  dictOf ((comps.zip coeffs).filter fun p => 0 < p.2)

/-- One element of `sum([k * abs(v) for k, v in d.items()], Composition({}))`,
src/rxn_network/reactions/basic.py:72-73. pymatgen drops amounts below `1e-8`; not modelled. -/
def sideAmt (X : Chem κ ε) (d : List (κ × ℚ)) (e : ε) : ℚ := (d.map fun p => X.amt p.1 e * |p.2|).sum

/-- `elements`, src/rxn_network/reactions/base.py:46-49. A Python set; kept as a duplicate-free list. -/
def elements (X : Chem κ ε) (comps : List κ) : List ε := (comps.flatMap X.elems).dedup

/-- The `almost_equals(..., rtol=0, atol=TOLERANCE)` test of src/rxn_network/reactions/basic.py:74. pymatgen compares over
the elements of the two sums; here over all elements of the listed compositions (others are `0 = 0`). -/
def isBalanced (X : Chem κ ε) (comps : List κ) (coeffs : List ℚ) : Bool :=
  (elements X comps).all fun e =>
    |sideAmt X (productCoeffs comps coeffs) e - sideAmt X (reactantCoeffs comps coeffs) e| ≤ tol

/-- `BasicReaction.__init__`, src/rxn_network/reactions/basic.py:59-80. -/
def init (X : Chem κ ε) (comps : List κ) (coeffs : List ℚ) (balanced : Option Bool) (data : List (String × ℚ))
    (lne : Option ℕ) : Rxn κ where
  comps := comps
  coeffs := coeffs
  balanced := match balanced with
    | some b => b
    | none => isBalanced X comps coeffs
  data := data
  lne := lne

/-- `reactants`, src/rxn_network/reactions/basic.py:306-308. -/
def reactants (r : Rxn κ) : List κ := (reactantCoeffs r.comps r.coeffs).map Prod.fst

/-- `products`, src/rxn_network/reactions/basic.py:311-313. -/
def products (r : Rxn κ) : List κ := (productCoeffs r.comps r.coeffs).map Prod.fst

/-- `reverse`, src/rxn_network/reactions/basic.py:179-189. -/
def reverse (X : Chem κ ε) (r : Rxn κ) : Rxn κ :=
  init X r.comps (r.coeffs.map fun c => -1 * c) (some r.balanced) r.data r.lne

/-- The scale factor of `normalize_to`, src/rxn_network/reactions/basic.py:128 and src/rxn_network/reactions/computed.py:184. `list.index` raises
`ValueError`; numpy division by a zero coefficient gives inf (`nonFinite`). -/
def scaleTo (comps : List κ) (coeffs : List ℚ) (comp : κ) (factor : ℚ) : Except Err ℚ :=
  match comps.findIdx? (fun c => c = comp) with
  | none => .error .valueError
  | some i => match coeffs[i]? with
    | none => .error .indexError
    | some c => if c = 0 then .error .nonFinite else .ok |1 / c * factor|

/-- `get_el_amount`, src/rxn_network/reactions/basic.py:148-157, also inlined at :143 and src/rxn_network/reactions/computed.py:199. The code indexes
`range(len(compositions))`; both lists have the same length. -/
def elAmount (X : Chem κ ε) (comps : List κ) (coeffs : List ℚ) (e : ε) : ℚ :=
  ((comps.zip coeffs).map fun p => X.amt p.1 e * |p.2|).sum / 2

/-- The scale factor of `normalize_to_element`, src/rxn_network/reactions/basic.py:143-144 and src/rxn_network/reactions/computed.py:199-200. -/
def scaleToElement (X : Chem κ ε) (comps : List κ) (coeffs : List ℚ) (e : ε) (factor : ℚ) : Except Err ℚ :=
  if elAmount X comps coeffs e = 0 then .error .nonFinite else .ok (factor / elAmount X comps coeffs e)

/-- `BasicReaction.normalize_to`, src/rxn_network/reactions/basic.py:116-130 (data, balanced and lowest_num_errors are not
passed on). -/
def normalizeTo (X : Chem κ ε) (r : Rxn κ) (comp : κ) (factor : ℚ) : Except Err (Rxn κ) :=
  (scaleTo r.comps r.coeffs comp factor).map fun s => init X r.comps (r.coeffs.map fun c => c * s) none [] (some 0)

/-- `BasicReaction.normalize_to_element`, src/rxn_network/reactions/basic.py:132-146. -/
def normalizeToElement (X : Chem κ ε) (r : Rxn κ) (e : ε) (factor : ℚ) : Except Err (Rxn κ) :=
  (scaleToElement X r.comps r.coeffs e factor).map fun s =>
    init X r.comps (r.coeffs.map fun c => c * s) none [] (some 0)

/-- `num_atoms`, src/rxn_network/reactions/basic.py:326-328; `els` is `self.elements` (open reactions override it). -/
def numAtoms (X : Chem κ ε) (els : List ε) (comps : List κ) (coeffs : List ℚ) : ℚ :=
  ((productCoeffs comps coeffs).map fun p => p.2 * (els.map (X.amt p.1)).sum).sum

/-- `_get_is_identity`, src/rxn_network/reactions/basic.py:345-351. Set equality is mutual inclusion; the lookup
`product_coeffs[c]` always succeeds there (`none` is `KeyError`). -/
def isIdentity (r : Rxn κ) : Option Bool :=
  if (reactants r).toFinset ≠ (products r).toFinset then some false
  else if r.balanced = false then some true
  else ((reactantCoeffs r.comps r.coeffs).mapM fun p =>
    (dictGet (productCoeffs r.comps r.coeffs) p.1).map fun v => isclose (p.2 * -1) v).map fun l => l.all id

/-- `reactant_atomic_fractions`, src/rxn_network/reactions/basic.py:227-234 with `w c = c.num_atoms` and
src/rxn_network/reactions/open.py:183-191 with `w c = sum(c[el] for el in self.elements)`; `n` is `self.num_atoms`. -/
def reactantAtomicFractions (X : Chem κ ε) (w : κ → ℚ) (n : ℚ) (r : Rxn κ) : Except Err (List (κ × ℚ)) :=
  if r.balanced = false then .error .valueError
  else .ok (dictOf ((reactantCoeffs r.comps r.coeffs).map fun p => (X.red p.1, -p.2 * w p.1 / n)))

/-- `product_atomic_fractions` of basic and computed reactions, src/rxn_network/reactions/basic.py:237-242. -/
def productAtomicFractions (X : Chem κ ε) (w : κ → ℚ) (n : ℚ) (r : Rxn κ) : Except Err (List (κ × ℚ)) :=
  if r.balanced = false then .error .valueError
  else .ok (dictOf ((productCoeffs r.comps r.coeffs).map fun p => (X.red p.1, p.2 * w p.1 / n)))

/-- `product_atomic_fractions` of open reactions, src/rxn_network/reactions/open.py:194-202 (the coefficient is unused). -/
def openProductAtomicFractions (X : Chem κ ε) (w : κ → ℚ) (n : ℚ) (r : Rxn κ) : Except Err (List (κ × ℚ)) :=
  if r.balanced = false then .error .valueError
  else .ok (dictOf ((productCoeffs r.comps r.coeffs).map fun p => (X.red p.1, w p.1 / n)))

/-- `reactant_molar_fractions`, src/rxn_network/reactions/basic.py:245-252. -/
def reactantMolarFractions (r : Rxn κ) : Except Err (List (κ × ℚ)) :=
  if r.balanced = false then .error .valueError
  else .ok (dictOf ((reactantCoeffs r.comps r.coeffs).map fun p =>
    (p.1, p.2 / ((reactantCoeffs r.comps r.coeffs).map Prod.snd).sum)))

/-- `product_molar_fractions`, src/rxn_network/reactions/basic.py:255-262. -/
def productMolarFractions (r : Rxn κ) : Except Err (List (κ × ℚ)) :=
  if r.balanced = false then .error .valueError
  else .ok (dictOf ((productCoeffs r.comps r.coeffs).map fun p =>
    (p.1, p.2 / ((productCoeffs r.comps r.coeffs).map Prod.snd).sum)))

/-- `set.remove` for a list of keys, src/rxn_network/reactions/basic.py:214-215: `KeyError` when absent. -/
def removeAll : List κ → List κ → Except Err (List κ)
  | ps, [] => .ok ps
  | ps, t :: ts => if t ∈ ps then removeAll (ps.filter fun p => p ≠ t) ts else .error .keyError

/-- `is_separable`, src/rxn_network/reactions/basic.py:191-224. `inGases c` is the value of `c in COMMON_GASES` (line 219;
data file plus pymatgen equality); `target` is already a composition. -/
def isSeparable (X : Chem κ ε) (inGases : κ → Bool) (els : List ε) (r : Rxn κ) (target : κ) : Except Err Bool :=
  let identified := r.comps.filter fun c => X.red c = X.red target
  if identified.length = 0 then .error .valueError
  else
    let added := els.filter fun e => e ∉ X.elems target
    (removeAll (products r).dedup identified).map fun ps =>
      ps.all fun c => inGases c || (X.elems c).all fun e => decide (e ∈ added)

/-- `chemical_system`, src/rxn_network/reactions/basic.py:354-356: the sorted, joined element symbols; kept as a finite set. -/
def chemsys (els : List ε) : Finset ε := els.toFinset

/-- `BasicReaction.__eq__`, src/rxn_network/reactions/basic.py:460-479 (identity shortcut omitted); `els₁`, `els₂` are the
two `elements` properties. -/
def rxnEq (els₁ els₂ : List ε) (a b : Rxn κ) : Except Err Bool :=
  if chemsys els₁ ≠ chemsys els₂ then .ok false
  else if (products a).length ≠ (products b).length then .ok false
  else if (reactants a).length ≠ (reactants b).length then .ok false
  else match allclose (sorted a.coeffs) (sorted b.coeffs) with
    | .error e => .error e
    | .ok false => .ok false
    | .ok true =>
      if (reactants a).toFinset ≠ (reactants b).toFinset then .ok false
      else .ok (decide ((products a).toFinset = (products b).toFinset))

/-- The tuple that `__hash__` hashes, src/rxn_network/reactions/basic.py:481-484. -/
def hashKey (els : List ε) (a : Rxn κ) : Finset ε × List ℚ := (chemsys els, sorted a.coeffs)

/-- A computed entry: the composition and energy read by src/rxn_network/reactions/computed.py:117-119. -/
structure Entry (κ : Type) where
  comp : κ
  energy : ℚ
  deriving DecidableEq, Repr

/-- State of a `ComputedReaction`, src/rxn_network/reactions/computed.py:42-47. -/
structure CRxn (κ : Type) where
  entries : List (Entry κ)
  base : Rxn κ
  deriving DecidableEq, Repr

/-- `ComputedReaction.__init__`, src/rxn_network/reactions/computed.py:28-47: compositions are reduced and `balanced` is
always recomputed. -/
def cinit (X : Chem κ ε) (entries : List (Entry κ)) (coeffs : List ℚ) (data : List (String × ℚ)) (lne : Option ℕ) :
    CRxn κ where
  entries := entries
  base := init X (entries.map fun e => X.red e.comp) coeffs none data lne

/-- The loop building `calc_energies`, src/rxn_network/reactions/computed.py:115-119 and src/rxn_network/reactions/open.py:141-148; `en` gives
`entry.energy`. Keys are reduced compositions, values the lowest energy per reduced formula unit. -/
def calcEnergies (X : Chem κ ε) (en : Entry κ → ℚ) (entries : List (Entry κ)) : List (κ × ℚ) :=
  entries.foldl (fun d e =>
    let v := en e / X.fac e.comp
    dictSet d (X.red e.comp) (match dictGet d (X.red e.comp) with
      | none => v
      | some m => min m v)) []

/-- `sum(amt * calc_energies[c] for amt, c in zip(...))`, src/rxn_network/reactions/computed.py:121 and src/rxn_network/reactions/open.py:150. -/
def sumEnergies (ce : List (κ × ℚ)) (comps : List κ) (coeffs : List ℚ) : Except Err ℚ :=
  match (coeffs.zip comps).mapM fun p => (dictGet ce p.2).map fun v => p.1 * v with
  | none => .error .keyError
  | some l => .ok l.sum

/-- `ComputedReaction.energy`, src/rxn_network/reactions/computed.py:111-121. -/
def energy (X : Chem κ ε) (r : CRxn κ) : Except Err ℚ :=
  sumEnergies (calcEnergies X Entry.energy r.entries) r.base.comps r.base.coeffs

/-- Division of the energy by `num_atoms`, src/rxn_network/reactions/computed.py:129; numpy yields inf/nan for zero atoms. -/
def perAtom (en : Except Err ℚ) (n : ℚ) : Except Err ℚ :=
  match en with
  | .error e => .error e
  | .ok v => if n = 0 then .error .nonFinite else .ok (v / n)

/-- `ComputedReaction.energy_per_atom`, src/rxn_network/reactions/computed.py:124-129. -/
def energyPerAtom (X : Chem κ ε) (r : CRxn κ) : Except Err ℚ :=
  perAtom (energy X r) (numAtoms X (elements X r.base.comps) r.base.comps r.base.coeffs)

/-- `ComputedReaction.reverse`, src/rxn_network/reactions/computed.py:169-171. -/
def creverse (X : Chem κ ε) (r : CRxn κ) : CRxn κ :=
  cinit X r.entries (r.base.coeffs.map fun c => -1 * c) r.base.data r.base.lne

/-- `ComputedReaction.normalize_to`, src/rxn_network/reactions/computed.py:173-186. -/
def cnormalizeTo (X : Chem κ ε) (r : CRxn κ) (comp : κ) (factor : ℚ) : Except Err (CRxn κ) :=
  (scaleTo r.base.comps r.base.coeffs comp factor).map fun s =>
    cinit X r.entries (r.base.coeffs.map fun c => c * s) r.base.data r.base.lne

/-- `ComputedReaction.normalize_to_element`, src/rxn_network/reactions/computed.py:188-202. -/
def cnormalizeToElement (X : Chem κ ε) (r : CRxn κ) (e : ε) (factor : ℚ) : Except Err (CRxn κ) :=
  (scaleToElement X r.base.comps r.base.coeffs e factor).map fun s =>
    cinit X r.entries (r.base.coeffs.map fun c => c * s) r.base.data r.base.lne

/-- `ComputedReaction.__eq__`, src/rxn_network/reactions/computed.py:219-227. -/
def ceq (X : Chem κ ε) (a b : CRxn κ) : Except Err Bool :=
  match rxnEq (elements X a.base.comps) (elements X b.base.comps) a.base b.base with
  | .error e => .error e
  | .ok false => .ok false
  | .ok true => match energyPerAtom X a, energyPerAtom X b with
    | .ok x, .ok y => .ok (isclose x y)
    | .error e, _ => .error e
    | _, .error e => .error e

/-- State of an `OpenComputedReaction`, src/rxn_network/reactions/open.py:46-64; `chempots` is a dict. -/
structure ORxn (κ ε : Type) where
  entries : List (Entry κ)
  base : Rxn κ
  chempots : List (ε × ℚ)

/-- `OpenComputedReaction.__init__`, src/rxn_network/reactions/open.py:28-64. -/
def oinit (X : Chem κ ε) (entries : List (Entry κ)) (coeffs : List ℚ) (chempots : List (ε × ℚ))
    (data : List (String × ℚ)) (lne : Option ℕ) : ORxn κ ε where
  entries := entries
  base := init X (entries.map fun e => X.red e.comp) coeffs none data lne
  chempots := chempots

/-- Energy of a member of `grand_entries`, src/rxn_network/reactions/open.py:56-62: entries of a pure open element keep
their energy, others become `GrandPotPDEntry`, whose energy (pymatgen) is the entry energy minus
`sum(comp[el] * mu)`. -/
def grandEnergy (X : Chem κ ε) (chempots : List (ε × ℚ)) (e : Entry κ) : ℚ :=
  match X.elems (X.red e.comp) with
  | [el] => if el ∈ chempots.map Prod.fst then e.energy
      else e.energy - (chempots.map fun p => X.amt e.comp p.1 * p.2).sum
  | _ => e.energy - (chempots.map fun p => X.amt e.comp p.1 * p.2).sum

/-- `OpenComputedReaction.energy`, src/rxn_network/reactions/open.py:136-150. -/
def oenergy (X : Chem κ ε) (r : ORxn κ ε) : Except Err ℚ :=
  sumEnergies (calcEnergies X (grandEnergy X r.chempots) r.entries) r.base.comps r.base.coeffs

/-- `OpenComputedReaction.elements`, src/rxn_network/reactions/open.py:153-155. -/
def oelements (X : Chem κ ε) (r : ORxn κ ε) : List ε :=
  (elements X r.base.comps).filter fun e => e ∉ r.chempots.map Prod.fst

/-- `energy_per_atom` of an open reaction: inherited (src/rxn_network/reactions/computed.py:124-129), with open elements excluded from `elements`. -/
def oenergyPerAtom (X : Chem κ ε) (r : ORxn κ ε) : Except Err ℚ :=
  perAtom (oenergy X r) (numAtoms X (oelements X r) r.base.comps r.base.coeffs)

/-- `OpenComputedReaction.reverse`, src/rxn_network/reactions/open.py:172-180. -/
def oreverse (X : Chem κ ε) (r : ORxn κ ε) : ORxn κ ε :=
  oinit X r.entries (r.base.coeffs.map fun c => -1 * c) r.chempots r.base.data r.base.lne

/-- `normalize_to` on an open reaction: inherited from `ComputedReaction` (src/rxn_network/reactions/computed.py:173-186; open.py does not override it),
so the result is a *closed* `ComputedReaction`. -/
def onormalizeTo (X : Chem κ ε) (r : ORxn κ ε) (comp : κ) (factor : ℚ) : Except Err (CRxn κ) :=
  cnormalizeTo X ⟨r.entries, r.base⟩ comp factor

/-- `get_coordinate`, src/rxn_network/reactions/hull.py:101-113; `fr` is `reaction.reactant_atomic_fractions`. -/
def coordinate (c1 c2 : κ) (fr : Except Err (List (κ × ℚ))) : Except Err ℚ :=
  match fr with
  | .error e => .error e
  | .ok f =>
    let a1 := (dictGet f c1).getD 0
    let a2 := (dictGet f c2).getD 0
    if a1 + a2 = 0 then .error .valueError else .ok (roundDigits 12 (a2 / (a1 + a2)))

end Verif.Model.Reaction
