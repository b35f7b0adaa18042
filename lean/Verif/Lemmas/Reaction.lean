import Verif.Model.Reaction
import Verif.Spec.Reaction
import Verif.Lemmas.Dict
import Mathlib.Algebra.BigOperators.Group.Finset.Basic
import Mathlib.Algebra.BigOperators.Group.List.Lemmas
import Mathlib.Algebra.Order.BigOperators.Group.List
import Mathlib.Algebra.BigOperators.Ring.List

/-! Helper lemmas about reactions. -/

set_option linter.unusedSectionVars false
set_option linter.unusedSimpArgs false

namespace Verif.Lemmas.Reaction
open Verif.Py Verif.Model Verif.Model.Reaction Verif.Spec.Reaction Verif.Lemmas.Dict

variable {κ ε : Type} [DecidableEq κ] [DecidableEq ε]

/-- the two sides as plain filtered lists -/
abbrev pos (comps : List κ) (coeffs : List ℚ) : List (κ × ℚ) := (comps.zip coeffs).filter fun p => 0 < p.2
abbrev neg (comps : List κ) (coeffs : List ℚ) : List (κ × ℚ) := (comps.zip coeffs).filter fun p => p.2 < 0

/-- No composition is listed twice on the same side. -/
def SidesNodup (comps : List κ) (coeffs : List ℚ) : Prop :=
  ((pos comps coeffs).map Prod.fst).Nodup ∧ ((neg comps coeffs).map Prod.fst).Nodup

theorem map_fst_zip_sublist {α β : Type} (a : List α) (b : List β) : ((a.zip b).map Prod.fst).Sublist a := by
  induction a generalizing b with
  | nil => simp
  | cons x a ih =>
    cases b with
    | nil => simp
    | cons y b => simpa using (ih b)

theorem sidesNodup_of_nodup (comps : List κ) (coeffs : List ℚ) (h : comps.Nodup) : SidesNodup comps coeffs := by
  have h1 := h.sublist (map_fst_zip_sublist comps coeffs)
  exact ⟨h1.sublist (List.filter_sublist.map _), h1.sublist (List.filter_sublist.map _)⟩

theorem productCoeffs_eq (comps : List κ) (coeffs : List ℚ) (h : SidesNodup comps coeffs) :
    productCoeffs comps coeffs = pos comps coeffs := dictOf_eq_self _ h.1

theorem reactantCoeffs_eq (comps : List κ) (coeffs : List ℚ) (h : SidesNodup comps coeffs) :
    reactantCoeffs comps coeffs = neg comps coeffs := dictOf_eq_self _ h.2

omit [DecidableEq κ] in
theorem split_sum (f : κ → ℚ) (l : List (κ × ℚ)) :
    ((l.filter fun p => 0 < p.2).map fun p => p.2 * f p.1).sum + ((l.filter fun p => p.2 < 0).map fun p => p.2 * f p.1).sum
      = (l.map fun p => p.2 * f p.1).sum := by
  induction l with
  | nil => simp
  | cons p l ih =>
    rcases lt_trichotomy p.2 0 with h | h | h
    · have h' : ¬ 0 < p.2 := not_lt.mpr h.le
      simp only [List.filter_cons, h, h', decide_true, decide_false, if_true, Bool.false_eq_true, if_false, List.map_cons,
        List.sum_cons]
      linarith
    · simp [List.filter_cons, h, ih]
    · have h' : ¬ p.2 < 0 := not_lt.mpr h.le
      simp only [List.filter_cons, h, h', decide_true, decide_false, if_true, Bool.false_eq_true, if_false, List.map_cons,
        List.sum_cons]
      linarith

omit [DecidableEq κ] in
theorem abs_pos_sum (f : κ → ℚ) (l : List (κ × ℚ)) :
    ((l.filter fun p => 0 < p.2).map fun p => f p.1 * |p.2|).sum = ((l.filter fun p => 0 < p.2).map fun p => p.2 * f p.1).sum := by
  congr 1
  apply List.map_congr_left
  intro p hp
  have : 0 < p.2 := by simpa using (List.mem_filter.mp hp).2
  rw [abs_of_pos this, mul_comm]

omit [DecidableEq κ] in
theorem abs_neg_sum (f : κ → ℚ) (l : List (κ × ℚ)) :
    ((l.filter fun p => p.2 < 0).map fun p => f p.1 * |p.2|).sum = -((l.filter fun p => p.2 < 0).map fun p => p.2 * f p.1).sum := by
  induction l with
  | nil => simp
  | cons p l ih =>
    by_cases h : p.2 < 0
    · simp only [List.filter_cons, h, decide_true, if_true, List.map_cons, List.sum_cons, ih, abs_of_neg h]
      ring
    · simp only [List.filter_cons, h, decide_false, Bool.false_eq_true, if_false, ih]

theorem side_diff (X : Chem κ ε) (comps : List κ) (coeffs : List ℚ) (h : SidesNodup comps coeffs) (e : ε) :
    sideAmt X (productCoeffs comps coeffs) e - sideAmt X (reactantCoeffs comps coeffs) e = net X comps coeffs e := by
  rw [productCoeffs_eq _ _ h, reactantCoeffs_eq _ _ h]
  unfold sideAmt net
  rw [← split_sum (fun c => X.amt c e), abs_pos_sum (fun c => X.amt c e), abs_neg_sum (fun c => X.amt c e)]
  ring

theorem mem_elements (X : Chem κ ε) (comps : List κ) (e : ε) : e ∈ elements X comps ↔ ∃ c ∈ comps, e ∈ X.elems c := by
  simp [elements]

omit [DecidableEq κ] in
theorem nodup_elements (X : Chem κ ε) (comps : List κ) : (elements X comps).Nodup := List.nodup_dedup _

omit [DecidableEq κ] [DecidableEq ε] in
theorem net_eq_zero_of_not_mem (X : Chem κ ε) (hX : X.Lawful) (comps : List κ) (coeffs : List ℚ) (e : ε)
    (h : ∀ c ∈ comps, e ∉ X.elems c) : net X comps coeffs e = 0 := by
  unfold net
  apply List.sum_eq_zero
  intro x hx
  obtain ⟨p, hp, rfl⟩ := List.mem_map.mp hx
  have : p.1 ∈ comps := (List.of_mem_zip (a := p.1) (b := p.2) hp).1
  have h2 := h _ this
  rw [hX.mem_elems, not_not] at h2
  rw [h2, mul_zero]

theorem isBalanced_iff (X : Chem κ ε) (hX : X.Lawful) (comps : List κ) (coeffs : List ℚ) (h : SidesNodup comps coeffs) :
    isBalanced X comps coeffs = true ↔ ∀ e, |net X comps coeffs e| ≤ tol := by
  unfold isBalanced
  rw [List.all_eq_true]
  constructor
  · intro h1 e
    by_cases he : e ∈ elements X comps
    · have := h1 e he
      rw [side_diff X comps coeffs h] at this
      simpa using this
    · rw [net_eq_zero_of_not_mem X hX comps coeffs e (fun c hc h2 => he ((mem_elements X comps e).mpr ⟨c, hc, h2⟩))]
      simp [tol]
  · intro h1 e _
    rw [side_diff X comps coeffs h]
    simpa using h1 e

/-! ### scaling and reversing -/

omit [DecidableEq κ] in
theorem zip_map_right (comps : List κ) (coeffs : List ℚ) (f : ℚ → ℚ) :
    comps.zip (coeffs.map f) = (comps.zip coeffs).map fun p => (p.1, f p.2) := by
  rw [List.zip_map_right]; rfl

omit [DecidableEq κ] in
theorem pos_scale (comps : List κ) (coeffs : List ℚ) (s : ℚ) (hs : 0 < s) :
    pos comps (coeffs.map fun c => c * s) = (pos comps coeffs).map fun p => (p.1, p.2 * s) := by
  unfold pos
  rw [zip_map_right, List.filter_map]
  congr 1
  apply List.filter_congr
  intro p _
  simp [hs]

omit [DecidableEq κ] in
theorem neg_scale (comps : List κ) (coeffs : List ℚ) (s : ℚ) (hs : 0 < s) :
    neg comps (coeffs.map fun c => c * s) = (neg comps coeffs).map fun p => (p.1, p.2 * s) := by
  unfold neg
  rw [zip_map_right, List.filter_map]
  congr 1
  apply List.filter_congr
  intro p _
  simp only [Function.comp, decide_eq_decide]
  constructor
  · intro h; by_contra h'; push Not at h'; exact absurd h (not_lt.mpr (mul_nonneg h' hs.le))
  · intro h; exact mul_neg_of_neg_of_pos h hs

omit [DecidableEq κ] in
theorem pos_neg (comps : List κ) (coeffs : List ℚ) :
    pos comps (coeffs.map fun c => -1 * c) = (neg comps coeffs).map fun p => (p.1, -1 * p.2) := by
  unfold pos neg
  rw [zip_map_right, List.filter_map]
  congr 1
  apply List.filter_congr
  intro p _
  simp [Function.comp]

omit [DecidableEq κ] in
theorem neg_neg' (comps : List κ) (coeffs : List ℚ) :
    neg comps (coeffs.map fun c => -1 * c) = (pos comps coeffs).map fun p => (p.1, -1 * p.2) := by
  unfold pos neg
  rw [zip_map_right, List.filter_map]
  congr 1
  apply List.filter_congr
  intro p _
  simp [Function.comp]

theorem productCoeffs_scale (comps : List κ) (coeffs : List ℚ) (s : ℚ) (hs : 0 < s) :
    productCoeffs comps (coeffs.map fun c => c * s) = (productCoeffs comps coeffs).map fun p => (p.1, p.2 * s) := by
  have := pos_scale comps coeffs s hs
  unfold pos at this
  unfold productCoeffs
  rw [this, dictOf_map (fun x => x * s)]

theorem reactantCoeffs_scale (comps : List κ) (coeffs : List ℚ) (s : ℚ) (hs : 0 < s) :
    reactantCoeffs comps (coeffs.map fun c => c * s) = (reactantCoeffs comps coeffs).map fun p => (p.1, p.2 * s) := by
  have := neg_scale comps coeffs s hs
  unfold neg at this
  unfold reactantCoeffs
  rw [this, dictOf_map (fun x => x * s)]

theorem productCoeffs_reverse (comps : List κ) (coeffs : List ℚ) :
    productCoeffs comps (coeffs.map fun c => -1 * c) = (reactantCoeffs comps coeffs).map fun p => (p.1, -1 * p.2) := by
  have := pos_neg comps coeffs
  unfold pos neg at this
  unfold productCoeffs reactantCoeffs
  rw [this, dictOf_map (fun x => -1 * x)]

theorem reactantCoeffs_reverse (comps : List κ) (coeffs : List ℚ) :
    reactantCoeffs comps (coeffs.map fun c => -1 * c) = (productCoeffs comps coeffs).map fun p => (p.1, -1 * p.2) := by
  have := neg_neg' comps coeffs
  unfold pos neg at this
  unfold productCoeffs reactantCoeffs
  rw [this, dictOf_map (fun x => -1 * x)]

theorem isBalanced_reverse (X : Chem κ ε) (comps : List κ) (coeffs : List ℚ) :
    isBalanced X comps (coeffs.map fun c => -1 * c) = isBalanced X comps coeffs := by
  unfold isBalanced
  congr 1
  funext e
  rw [productCoeffs_reverse, reactantCoeffs_reverse]
  have h : ∀ d : List (κ × ℚ), sideAmt X (d.map fun p => (p.1, -1 * p.2)) e = sideAmt X d e := by
    intro d
    unfold sideAmt
    rw [List.map_map]
    congr 1
    apply List.map_congr_left
    intro p _
    simp
  rw [h, h, abs_sub_comm]

omit [DecidableEq κ] [DecidableEq ε] in
theorem net_scale (X : Chem κ ε) (comps : List κ) (coeffs : List ℚ) (s : ℚ) (e : ε) :
    net X comps (coeffs.map fun c => c * s) e = net X comps coeffs e * s := by
  unfold net
  rw [zip_map_right, List.map_map, ← List.sum_map_mul_right]
  congr 1
  apply List.map_congr_left
  intro p _
  simp only [Function.comp]
  ring

omit [DecidableEq κ] in
theorem sidesNodup_scale (comps : List κ) (coeffs : List ℚ) (s : ℚ) (hs : 0 < s) (h : SidesNodup comps coeffs) :
    SidesNodup comps (coeffs.map fun c => c * s) := by
  unfold SidesNodup
  rw [pos_scale _ _ _ hs, neg_scale _ _ _ hs, List.map_map, List.map_map]
  exact h

theorem isBalanced_scale (X : Chem κ ε) (hX : X.Lawful) (comps : List κ) (coeffs : List ℚ) (s : ℚ) (hs : 0 < s)
    (h : SidesNodup comps coeffs) (hc : Conserved X comps coeffs) :
    isBalanced X comps (coeffs.map fun c => c * s) = true := by
  rw [isBalanced_iff X hX _ _ (sidesNodup_scale _ _ _ hs h)]
  intro e
  rw [net_scale, hc e]
  simp [tol]

/-! ### number of atoms -/

theorem numAtoms_scale (X : Chem κ ε) (els : List ε) (comps : List κ) (coeffs : List ℚ) (s : ℚ) (hs : 0 < s) :
    numAtoms X els comps (coeffs.map fun c => c * s) = numAtoms X els comps coeffs * s := by
  unfold numAtoms
  rw [productCoeffs_scale _ _ _ hs, List.map_map, ← List.sum_map_mul_right]
  congr 1
  apply List.map_congr_left
  intro p _
  simp only [Function.comp]
  ring

omit [DecidableEq κ] [DecidableEq ε] in
/-- weights summed over all phases vanish when every element is conserved -/
theorem weighted_net (X : Chem κ ε) (els : List ε) (comps : List κ) (coeffs : List ℚ)
    (hc : ∀ e ∈ els, net X comps coeffs e = 0) :
    ((comps.zip coeffs).map fun p => p.2 * (els.map (X.amt p.1)).sum).sum = 0 := by
  have : ((comps.zip coeffs).map fun p => p.2 * (els.map (X.amt p.1)).sum).sum
      = (els.map fun e => net X comps coeffs e).sum := by
    unfold net
    clear hc
    generalize comps.zip coeffs = l
    induction els with
    | nil => simp
    | cons e els ih =>
      simp only [List.map_cons, List.sum_cons]
      rw [← ih, ← List.sum_map_add]
      congr 1
      apply List.map_congr_left
      intro p _
      ring
  rw [this]
  apply List.sum_eq_zero
  intro x hx
  obtain ⟨e, he, rfl⟩ := List.mem_map.mp hx
  exact hc e he

theorem numAtoms_reactants (X : Chem κ ε) (els : List ε) (comps : List κ) (coeffs : List ℚ)
    (h : SidesNodup comps coeffs) (hc : ∀ e ∈ els, net X comps coeffs e = 0) :
    ((reactantCoeffs comps coeffs).map fun p => -p.2 * (els.map (X.amt p.1)).sum).sum = numAtoms X els comps coeffs := by
  unfold numAtoms
  rw [productCoeffs_eq _ _ h, reactantCoeffs_eq _ _ h]
  have h1 := split_sum (fun c => (els.map (X.amt c)).sum) (comps.zip coeffs)
  rw [weighted_net X els comps coeffs hc] at h1
  have h2 : ((neg comps coeffs).map fun p => -p.2 * (els.map (X.amt p.1)).sum).sum
      = - ((neg comps coeffs).map fun p => p.2 * (els.map (X.amt p.1)).sum).sum := by
    generalize neg comps coeffs = l
    induction l with
    | nil => simp
    | cons p l ih => simp only [List.map_cons, List.sum_cons, ih]; ring
  rw [h2]
  linarith

theorem numAtoms_reverse (X : Chem κ ε) (els : List ε) (comps : List κ) (coeffs : List ℚ)
    (h : SidesNodup comps coeffs) (hc : ∀ e ∈ els, net X comps coeffs e = 0) :
    numAtoms X els comps (coeffs.map fun c => -1 * c) = numAtoms X els comps coeffs := by
  rw [← numAtoms_reactants X els comps coeffs h hc]
  unfold numAtoms
  rw [productCoeffs_reverse, List.map_map]
  congr 1
  apply List.map_congr_left
  intro p _
  simp

omit [DecidableEq κ] in
theorem natoms_eq (X : Chem κ ε) (hX : X.Lawful) (c : κ) (els : List ε) (hn : els.Nodup) (hs : ∀ e ∈ X.elems c, e ∈ els) :
    X.natoms c = (els.map (X.amt c)).sum := by
  unfold Chem.natoms
  rw [← List.sum_toFinset _ hn, ← List.sum_toFinset _ (hX.nodup c)]
  apply Finset.sum_subset
  · intro e he; simp at he ⊢; exact hs e he
  · intro e _ he
    simp only [List.mem_toFinset] at he
    rw [hX.mem_elems, not_not] at he
    exact he

/-! ### energies -/

theorem mapM_scale (ce : List (κ × ℚ)) (s : ℚ) (l : List (ℚ × κ)) :
    (l.map fun p => (p.1 * s, p.2)).mapM (fun p => (dictGet ce p.2).map fun v => p.1 * v)
      = (l.mapM fun p => (dictGet ce p.2).map fun v => p.1 * v).map fun o => o.map fun x => x * s := by
  induction l with
  | nil => rfl
  | cons p l ih =>
    simp only [List.map_cons, List.mapM_cons, ih]
    cases dictGet ce p.2 with
    | none => rfl
    | some v =>
      cases hm : List.mapM (fun p => (dictGet ce p.2).map fun v => p.1 * v) l with
      | none => simp
      | some t => simp [mul_right_comm]

theorem sumEnergies_scale (ce : List (κ × ℚ)) (comps : List κ) (coeffs : List ℚ) (s : ℚ) :
    sumEnergies ce comps (coeffs.map fun c => c * s) = (sumEnergies ce comps coeffs).map fun v => v * s := by
  unfold sumEnergies
  have : (coeffs.map fun c => c * s).zip comps = (coeffs.zip comps).map fun p => (p.1 * s, p.2) := by
    rw [List.zip_map_left]; rfl
  rw [this, mapM_scale]
  cases List.mapM (fun p => (dictGet ce p.2).map fun v => p.1 * v) (coeffs.zip comps) with
  | none => rfl
  | some t =>
    simp only [Option.map_some, Except.map]
    rw [List.sum_map_mul_right, List.map_id']

theorem sumEnergies_reverse (ce : List (κ × ℚ)) (comps : List κ) (coeffs : List ℚ) :
    sumEnergies ce comps (coeffs.map fun c => -1 * c) = (sumEnergies ce comps coeffs).map fun v => -v := by
  have h := sumEnergies_scale ce comps coeffs (-1)
  have h2 : (coeffs.map fun c => -1 * c) = coeffs.map fun c => c * -1 := by
    apply List.map_congr_left; intro c _; ring
  rw [h2, h]
  congr 1
  funext v
  ring

theorem perAtom_neg (en : Except Err ℚ) (n : ℚ) : perAtom (en.map fun v => -v) n = (perAtom en n).map fun v => -v := by
  cases en with
  | error e => rfl
  | ok v =>
    simp only [Except.map, perAtom]
    split_ifs
    · rfl
    · rw [neg_div]

theorem perAtom_scale (en : Except Err ℚ) (n s : ℚ) (hs : 0 < s) : perAtom (en.map fun v => v * s) (n * s) = perAtom en n := by
  cases en with
  | error e => rfl
  | ok v =>
    simp only [Except.map, perAtom, mul_eq_zero, hs.ne', or_false]
    rw [mul_div_mul_right _ _ hs.ne']

end Verif.Lemmas.Reaction
