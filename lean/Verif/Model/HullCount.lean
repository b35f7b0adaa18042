import Verif.Model.Py

/-!
Model of the counting and decomposition-energy code of
`src/rxn_network/reactions/hull.py` (`InterfaceReactionHull`).
-/

namespace Verif.Model.Hull
open Verif.Py

/-- Model of the literal table in src/rxn_network/reactions/hull.py:402-426. -/
def countTable : List ℕ :=
  [1, 1, 2, 5, 14, 42, 132, 429, 1430, 4862, 16796, 58786, 208012, 742900, 2674440, 9694845,
   35357670, 129644790, 477638700, 1767263190, 6564120420, 24466267020, 91482563640]

/-- Model of `_count_recursive(n, cache)`, src/rxn_network/reactions/hull.py:517-547, for `n ≥ 0`.
`none` models the `IndexError` that `cache[n]` on line 529 would raise. The loop on lines 533-546 is the
left fold; the state is `(total, biggest_cache)`. Python's recursion limit is not modelled. -/
def countRecursive (n : ℕ) (cache : List ℕ) : Option (ℕ × List ℕ) :=
  if n = 0 then some (1, [1])
  else if n = 1 then some (1, [1, 1])
  else if n ≤ cache.length then
    (cache[n]?).map fun v => (v, cache)
  else do
    let r ← (List.range n).attach.foldlM (init := ((0 : ℕ), ([] : List ℕ))) fun st i => do
      let lr ← countRecursive i.1 st.2
      let rr ← countRecursive (n - i.1 - 1) st.2
      let big1 := if lr.2.length > st.2.length then lr.2 else st.2
      let big2 := if rr.2.length > big1.length then rr.2 else big1
      pure (st.1 + lr.1 * rr.1, big2)
    pure (r.1, r.2 ++ [r.1])
termination_by n
decreasing_by
  · have := List.mem_range.mp i.2; omega
  · have := List.mem_range.mp i.2; omega

/-- Model of `count(num)`, src/rxn_network/reactions/hull.py:391-427. `num` is a Python integer, so a negative
argument indexes the table from the end; `none` is `IndexError`. (`num` is always `len(..) - 2` at the call
sites, lines 221, 223 and 515.) -/
def count (num : ℤ) : Option ℕ :=
  if num ≤ 22 then getItem? countTable num
  else (countRecursive num.toNat []).map Prod.fst

/-- Model of `_altitude_multiplicity(n_left, n_right, n)`, src/rxn_network/reactions/hull.py:498-515. -/
def altitudeMultiplicity (nLeft nRight n : ℤ) : Option ℕ :=
  let remainder := n - nLeft - nRight - 1
  if remainder < 0 then some 0
  else do
    let a ← count nLeft
    let b ← count nRight
    let c ← count remainder
    pure (a * b * c)

/-- Model of `_calculate_altitude(c_left, c_mid, c_right)`, src/rxn_network/reactions/hull.py:610-629.
Exact rationals; the division by zero that Python/numpy would signal for `x3 = x1` is Lean's `/ 0 = 0`, and
theorems that depend on it assume `x1 < x3`. -/
def calculateAltitude (l m r : ℚ × ℚ) : ℚ :=
  let xd := (m.1 - l.1) / (r.1 - l.1)
  let yd := l.2 + xd * (r.2 - l.2)
  m.2 - yd

/-- Model of the body of `get_decomposition_energy`, src/rxn_network/reactions/hull.py:293-307, as a function
of the array `coords` returned on line 292. `sorted(c)` on line 297 is the identity because `combinations` of a
range emits increasing tuples. `alt` is the altitude function (line 305 uses `_calculate_altitude`). -/
def decompositionEnergyWith {γ : Type} (alt : γ → γ → γ → ℚ) (coords : List γ) : Option ℚ :=
  let n : ℤ := coords.length - 2
  (combinations (List.range coords.length) 3).foldlM (init := (0 : ℚ)) fun energy c =>
    match c with
    | [iL, iM, iR] => do
        let cL ← coords[iL]?
        let cM ← coords[iM]?
        let cR ← coords[iR]?
        let nL : ℤ := (iM : ℤ) - iL - 1
        let nR : ℤ := (iR : ℤ) - iM - 1
        let k ← altitudeMultiplicity nL nR n
        pure (energy + k * alt cL cM cR)
    | _ => none

/-- `get_decomposition_energy` with the repository's altitude, src/rxn_network/reactions/hull.py:282-307. -/
def decompositionEnergy (coords : List (ℚ × ℚ)) : Option ℚ :=
  decompositionEnergyWith calculateAltitude coords

/-- Model of the body of `get_max_decomposition_energy`, src/rxn_network/reactions/hull.py:322-332, as a
function of the array `coords` returned on line 320. -/
def maxDecompositionEnergy (coords : List (ℚ × ℚ)) : Option ℚ :=
  (combinations (List.range coords.length) 3).foldlM (init := (0 : ℚ)) fun mx c =>
    match c with
    | [iL, iM, iR] => do
        let cL ← coords[iL]?
        let cM ← coords[iM]?
        let cR ← coords[iR]?
        let e := calculateAltitude cL cM cR
        pure (if e < mx then e else mx)
    | _ => none

end Verif.Model.Hull
