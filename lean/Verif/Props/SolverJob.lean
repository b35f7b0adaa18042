import Verif.Model.SolverJob
import Verif.Props.BalanceLinear
import Verif.Props.Minimize
import Verif.Props.Solver
import Mathlib.Algebra.BigOperators.Ring.Finset
import Mathlib.Algebra.Order.BigOperators.Group.Finset
import Mathlib.Tactic.Linarith
import Mathlib.Tactic.NormNum

/-! C116 and C117: the job that solves balanced pathways. -/

set_option linter.unusedSectionVars false

namespace Verif.Props.SolverJob
open Verif.Py Verif.Model Verif.Model.Reaction Verif.Model.RxnSet Verif.Model.SolverJob Verif.Spec.Reaction Verif.Spec.Solver
open Verif.Lemmas.Reaction Verif.Props.Balance Verif.Props.BalanceLinear Verif.Props.Minimize Verif.Props.EntrySet
open Verif.Props.Solver (WellIndexed InputsIndexed pairs)

variable {κ ε φ δ : Type} [DecidableEq κ] [DecidableEq ε] [DecidableEq φ] [DecidableEq δ]

/-! ### Specification -/

/-- `x` with `n` components is a least-squares solution of the system: the residual is orthogonal to every column. -/
def LeastSquares (n : ℕ) (A : List (List ℚ)) (b x : List ℚ) : Prop :=
  x.length = n ∧ ∀ j < n, ((A.zip b).map fun p => p.1.getD j 0 * (dot p.1 x - p.2)).sum = 0

/-- The phases can be given amounts, not all zero, that conserve every element. -/
def Balanceable (X : Chem κ ε) (comps : List κ) : Prop :=
  ∃ x : List ℚ, x.length = comps.length ∧ Conserved X comps x ∧ ∃ y ∈ x, y ≠ 0

/-- The phases have amounts, one of them at least one half, that conserve every element up to `1e-8`. -/
def NearlyBalanceable (X : Chem κ ε) (comps : List κ) (x : List ℚ) : Prop :=
  x.length = comps.length ∧ (∀ e, |net X comps x e| ≤ 1 / 100000000) ∧ ∃ y ∈ x, 1 / 2 ≤ |y|

/-! ### Least squares -/

theorem dot_range (n : ℕ) (r x : List ℚ) (h : x.length = n) : dot r x = ∑ j ∈ Finset.range n, r.getD j 0 * x.getD j 0 := by
  induction x generalizing r n with
  | nil => subst h; simp [dot]
  | cons a x ih =>
    obtain ⟨m, rfl⟩ : ∃ m, n = m + 1 := ⟨x.length, by simpa using h.symm⟩
    rw [Finset.sum_range_succ']
    cases r with
    | nil => simp [dot]
    | cons c r =>
      have := ih m r (by simpa using h)
      simp only [List.getD_cons_succ, List.getD_cons_zero, ← this]
      simp [dot, add_comm]

theorem normal_dot (n : ℕ) (z : List ℚ) (hz : z.length = n) (l : List (List ℚ × ℚ)) (f : List ℚ × ℚ → ℚ)
    (h : ∀ j < n, (l.map fun p => p.1.getD j 0 * f p).sum = 0) : (l.map fun p => dot p.1 z * f p).sum = 0 := by
  have h1 : (l.map fun p => dot p.1 z * f p).sum
      = ∑ j ∈ Finset.range n, z.getD j 0 * (l.map fun p => p.1.getD j 0 * f p).sum := by
    clear h
    induction l with
    | nil => simp
    | cons p l ih =>
      simp only [List.map_cons, List.sum_cons, ih, mul_add, Finset.sum_add_distrib]
      congr 1
      rw [dot_range n p.1 z hz, Finset.sum_mul]
      exact Finset.sum_congr rfl fun j _ => by ring
  rw [h1]
  exact Finset.sum_eq_zero fun j hj => by rw [h j (Finset.mem_range.mp hj), mul_zero]

theorem dot_sub (n : ℕ) (r x y : List ℚ) (hx : x.length = n) (hy : y.length = n) :
    dot r (x.zipWith (· - ·) y) = dot r x - dot r y := by
  rw [dot_range n r _ (by simp [hx, hy]), dot_range n r x hx, dot_range n r y hy, ← Finset.sum_sub_distrib]
  refine Finset.sum_congr rfl fun j hj => ?_
  have hj := Finset.mem_range.mp hj
  rw [List.getD_eq_getElem (x.zipWith (· - ·) y) _ (by simp [hx, hy, hj]), List.getD_eq_getElem x _ (by omega),
    List.getD_eq_getElem y _ (by omega), List.getElem_zipWith]
  ring

theorem sum_sq_zero (l : List ℚ) (h : (l.map fun a => a * a).sum = 0) : ∀ a ∈ l, a = 0 := by
  induction l with
  | nil => simp
  | cons a l ih =>
    have hnn : 0 ≤ (l.map fun a => a * a).sum := List.sum_nonneg (by
      intro b hb
      obtain ⟨c, _, rfl⟩ := List.mem_map.mp hb
      exact mul_self_nonneg c)
    rw [List.map_cons, List.sum_cons] at h
    have ha := mul_self_nonneg a
    intro b hb
    rcases List.mem_cons.mp hb with rfl | hb
    · exact mul_self_eq_zero.mp (by linarith)
    · exact ih (by linarith) b hb

theorem leastSquares_exact (n : ℕ) (A : List (List ℚ)) (b x : List ℚ) (h : LeastSquares n A b x) (hs : ∃ y, Solution n A b y) :
    Solution n A b x := by
  obtain ⟨hx, hn⟩ := h
  obtain ⟨y, hy, hb⟩ := hs
  subst hb
  refine ⟨hx, ?_⟩
  have hz : ∀ r, dot r (x.zipWith (· - ·) y) = dot r x - dot r y := fun r => dot_sub n r x y hx hy
  have hzip : A.zip (A.map (dot · y)) = A.map fun r => (r, dot r y) := by
    clear hn
    induction A with
    | nil => rfl
    | cons r A ih => simp [ih]
  have h0 := normal_dot n (x.zipWith (· - ·) y) (by simp [hx, hy]) _ _ hn
  rw [hzip, List.map_map] at h0
  have h1 : ((A.map fun r => dot r x - dot r y).map fun a => a * a).sum = 0 := by
    rw [List.map_map, ← h0]
    congr 1
    refine List.map_congr_left fun r _ => ?_
    simp [hz]
  refine List.map_congr_left fun r hr => ?_
  have := sum_sq_zero _ h1 _ (List.mem_map.mpr ⟨r, hr, rfl⟩)
  linarith

theorem zip_const {α : Type} (f : α → List ℚ) (l : List α) (v : ℚ) :
    (l.map f).zip (List.replicate l.length v) = l.map fun a => (f a, v) := by
  induction l with
  | nil => rfl
  | cons a l ih => simp [List.replicate_succ, ih]

theorem unit_sum (x : List ℚ) (k : ℕ) (hk : k < x.length) (v : ℚ) (cs : List ℕ) :
    (cs.map fun i => ((List.replicate x.length (0 : ℚ)).set i 1).getD k 0 * (dot ((List.replicate x.length (0 : ℚ)).set i 1) x - v)).sum
      = (cs.count k : ℚ) * (x.getD k 0 - v) := by
  induction cs with
  | nil => simp
  | cons i cs ih =>
    rw [List.map_cons, List.sum_cons, ih, dot_unit]
    by_cases h : i = k
    · subst h
      rw [List.count_cons_self, List.getD_eq_getElem _ _ (by simpa using hk), List.getElem_set_self]
      push_cast
      simp only [List.getD_eq_getElem?_getD]
      ring
    · rw [List.count_cons_of_ne h, List.getD_eq_getElem _ _ (by simpa using hk), List.getElem_set_ne h]
      simp

theorem abs_sum_le (l : List ε) (a b : ε → ℚ) (B : ℚ) (ha : ∀ e, 0 ≤ a e) (hb : ∀ e, |b e| ≤ B) :
    |(l.map fun e => a e * b e).sum| ≤ B * (l.map a).sum := by
  induction l with
  | nil => simp
  | cons e l ih =>
    rw [List.map_cons, List.sum_cons, List.map_cons, List.sum_cons]
    have h1 : |a e * b e| ≤ B * a e := by
      rw [abs_mul, abs_of_nonneg (ha e), mul_comm B]
      exact mul_le_mul_of_nonneg_left (hb e) (ha e)
    calc |a e * b e + (l.map fun e => a e * b e).sum| ≤ |a e * b e| + |(l.map fun e => a e * b e).sum| := abs_add_le _ _
      _ ≤ B * a e + B * (l.map a).sum := add_le_add h1 ih
      _ = _ := by ring

/-- A least-squares solution of a constrained system that conserves the elements up to `1e-8` nearly satisfies the constraints. -/
theorem near (X : Chem κ ε) (hX : X.Lawful) (reacts prods : List κ) (cs : List ℕ) (x : List ℚ)
    (h : LeastSquares (reacts ++ prods).length (constrainedSystem X reacts prods cs).1 (constrainedSystem X reacts prods cs).2 x)
    (k : ℕ) (hk : k ∈ cs) (hkn : k < (reacts ++ prods).length) (hc : ∀ e, |net X (reacts ++ prods) x e| ≤ 1 / 100000000)
    (hs : X.natoms (reacts ++ prods)[k] ≤ 50000000) : 1 / 2 ≤ |x.getD k 0| := by
  obtain ⟨hx, hn⟩ := h
  have h0 := hn k hkn
  unfold constrainedSystem compRows at h0
  rw [List.zip_append (by simp), zip_const, zip_const, List.map_append, List.sum_append, List.map_map, List.map_map] at h0
  simp only [Function.comp_def, dot_row, sub_zero] at h0
  rw [← hx, unit_sum x k (by omega)] at h0
  have h1 : ∀ e, ((reacts ++ prods).map fun c => X.amt c e).getD k 0 = X.amt (reacts ++ prods)[k] e := by
    intro e
    rw [List.getD_eq_getElem _ _ (by rw [List.length_map]; exact hkn), List.getElem_map]
  simp only [h1] at h0
  have hle := abs_sum_le (elements X (reacts ++ prods)) (X.amt (reacts ++ prods)[k]) (net X (reacts ++ prods) x) (1 / 100000000)
    (hX.nonneg _) hc
  rw [← natoms_eq X hX _ _ (nodup_elements X _)
    (fun e he => (mem_elements X _ e).mpr ⟨_, List.getElem_mem hkn, he⟩)] at hle
  have hcount : (1 : ℚ) ≤ (cs.count k : ℚ) := by exact_mod_cast List.count_pos_iff.mpr hk
  have h2 : |(cs.count k : ℚ) * (x.getD k 0 - constraintValue reacts.length cs)| ≤ 1 / 2 := by
    rw [show (cs.count k : ℚ) * (x.getD k 0 - constraintValue reacts.length cs)
      = -((elements X (reacts ++ prods)).map fun e => X.amt (reacts ++ prods)[k] e * net X (reacts ++ prods) x e).sum by linarith, abs_neg]
    linarith
  rw [abs_mul, abs_of_nonneg (by linarith)] at h2
  have h3 : |x.getD k 0 - constraintValue reacts.length cs| ≤ 1 / 2 := by
    have := abs_nonneg (x.getD k 0 - constraintValue reacts.length cs)
    nlinarith
  have hv : |constraintValue reacts.length cs| = 1 := by unfold constraintValue; split_ifs <;> norm_num
  have h4 := abs_sub_abs_le_abs_sub (constraintValue reacts.length cs) (x.getD k 0)
  rw [abs_sub_comm, hv] at h4
  linarith

/-! ### The guard -/

theorem sets_sublist (n N nc : ℕ) (cs : List ℕ) (hn : n ≤ N) (h : cs ∈ constraintSets n N nc) :
    cs ≠ [] ∧ cs.Sublist (List.range N) := by
  have hp : ∀ l : List ℕ, l.Sublist (List.range N) → (∃ L ∈ (List.range nc).map (fun i => combinations l (nc - i)), cs ∈ L) →
      cs ≠ [] ∧ cs.Sublist (List.range N) := by
    rintro l hl ⟨L, hL, hc⟩
    obtain ⟨i, hi, rfl⟩ := List.mem_map.mp hL
    obtain ⟨h1, h2⟩ := Verif.Lemmas.mem_combinations.mp hc
    have := List.mem_range.mp hi
    exact ⟨by rintro rfl; simp at h2; omega, h1.trans hl⟩
  unfold constraintSets at h
  rw [List.mem_append, List.mem_flatten, List.mem_flatten] at h
  rcases h with h | h
  · exact hp _ (List.drop_sublist _ _) h
  · exact hp _ (List.range_sublist.mpr hn) h

/-- **C116, guard.** For a pseudo-inverse that returns least-squares solutions: the maker is created only if the phases (of reasonable
size) have amounts, not negligible, that conserve every element up to `1e-8`, and then the stored net reaction has them, over exactly the
given precursors and targets; otherwise it raises a `ValueError`, and the phases cannot be balanced at all. -/
theorem C116_guard (X : Chem κ ε) (hX : X.Lawful) (precursors targets : List κ) (rank : ℕ) (solve : List ℕ → List ℚ)
    (hls : ∀ cs, cs.Sublist (List.range (precursors ++ targets).length) → cs ≠ [] → LeastSquares (precursors ++ targets).length
      (constrainedSystem X precursors targets cs).1 (constrainedSystem X precursors targets cs).2 (solve cs))
    (hsize : ∀ c ∈ precursors ++ targets, X.natoms c ≤ 50000000) :
    (∀ r, postInit X precursors targets rank solve = .ok r → r.comps = precursors ++ targets ∧ r.balanced = true ∧
      NearlyBalanceable X (precursors ++ targets) r.coeffs) ∧
    (∀ e, postInit X precursors targets rank solve = .error e → e = .valueError ∧ ¬ Balanceable X (precursors ++ targets)) := by
  have hlt := fun cs => sets_sublist precursors.length (precursors ++ targets).length
    (numConstraints (precursors ++ targets).length rank) cs (by simp)
  have hl0 : (balanceBasic X precursors targets rank solve []).balanced = true ↔
      (balanceCoeffs X precursors targets rank solve).2.1 ≠ none := by
    cases hk : (balanceCoeffs X precursors targets rank solve).2.1 <;> simp [balanceBasic, hk, init]
  refine ⟨?_, ?_⟩
  · intro r hr
    unfold postInit at hr
    by_cases hb : (balanceBasic X precursors targets rank solve []).balanced = true
    · rw [if_pos hb] at hr
      have hr := Except.ok.inj hr
      subst hr
      obtain ⟨k, hk⟩ := Option.ne_none_iff_exists'.mp (hl0.mp hb)
      have hshape : ∀ cs ∈ constraintSets precursors.length (precursors ++ targets).length
          (numConstraints (precursors ++ targets).length rank),
          LeastSquares (precursors ++ targets).length (constrainedSystem X precursors targets cs).1
            (constrainedSystem X precursors targets cs).2 (solve cs) := fun cs hcs => hls cs (hlt cs hcs).2 (hlt cs hcs).1
      obtain ⟨h1, -, cs, hcs, h3⟩ := loop_sound (conservesClose X (precursors ++ targets)) (numErrors precursors.length targets.length) solve
        (constraintSets precursors.length (precursors ++ targets).length (numConstraints (precursors ++ targets).length rank))
        (List.replicate (precursors ++ targets).length 0, none)
        (fun l => ∃ cs ∈ constraintSets precursors.length (precursors ++ targets).length
          (numConstraints (precursors ++ targets).length rank), LeastSquares (precursors ++ targets).length
            (constrainedSystem X precursors targets cs).1 (constrainedSystem X precursors targets cs).2 l)
        (fun cs hcs => ⟨cs, hcs, hshape cs hcs⟩) (by intro k hk; simp at hk) k hk
      have hnet := conserves_net X hX _ _ h1
      have hco : (balanceBasic X precursors targets rank solve []).coeffs = (balanceCoeffs X precursors targets rank solve).1 := by
        simp [balanceBasic, hk, init]
      refine ⟨by simp [balanceBasic, hk, init], hb, ?_⟩
      rw [hco]
      refine ⟨h3.1, hnet, ?_⟩
      obtain ⟨i, hi⟩ := List.exists_mem_of_ne_nil cs (hlt cs hcs).1
      have hin : i < (precursors ++ targets).length := List.mem_range.mp ((hlt cs hcs).2.subset hi)
      have := near X hX precursors targets cs _ h3 i hi hin hnet (hsize _ (List.getElem_mem hin))
      refine ⟨_, ?_, this⟩
      rw [List.getD_eq_getElem _ _ (by rw [h3.1]; exact hin)]
      exact List.getElem_mem _
    · rw [if_neg hb] at hr; cases hr
  · intro e he
    unfold postInit at he
    by_cases hb : (balanceBasic X precursors targets rank solve []).balanced = true
    · rw [if_pos hb] at he; cases he
    · rw [if_neg hb] at he
      refine ⟨(Except.error.inj he).symm, ?_⟩
      rintro ⟨x, hx, hcx, y, hy, hy0⟩
      have hno := (C12_basic_partial X precursors targets rank solve []).2 (by simpa using hb)
      obtain ⟨k, hk, rfl⟩ := List.getElem_of_mem hy
      refine hno.2 k (by rw [List.length_append] at hx; omega) ?_
      have hkn : k < (precursors ++ targets).length := by omega
      have hsol := leastSquares_exact _ _ _ _ (hls [k] (List.singleton_sublist.mpr (List.mem_range.mpr hkn)) (by simp))
        ⟨x.map fun c => c * ((if ∀ j ∈ [k], precursors.length ≤ j then (1 : ℚ) else -1) / x[k]), by
          rw [system_iff X hX]
          refine ⟨by simp [hx], fun e => by rw [net_scale, hcx e]; ring, ?_⟩
          intro j hj
          rw [List.mem_singleton] at hj
          subst hj
          rw [List.getElem?_map, List.getElem?_eq_getElem hk, Option.map_some, mul_div_cancel₀ _ hy0]⟩
      exact ((system_iff X hX precursors targets [k] _).mp hsol).2.1

/-! ### The net reaction -/

/-- Specification: amounts of formulas as given, expressed in reduced formula units. -/
def units (X : Chem κ ε) (comps : List κ) (v : List ℚ) : List ℚ := comps.zipWith (fun c x => x * X.fac c) v

theorem net_units (X : Chem κ ε) (hX : X.Lawful) (comps : List κ) (v : List ℚ) (e : ε) :
    net X (comps.map X.red) (units X comps v) e = net X comps v e := by
  unfold net units
  induction comps generalizing v with
  | nil => simp
  | cons c comps ih =>
    cases v with
    | nil => simp
    | cons x v =>
      simp only [List.map_cons, List.zipWith_cons_cons, List.zip_cons_cons, List.sum_cons, ih v]
      rw [hX.red_amt c e]
      ring

theorem units_inv (X : Chem κ ε) (hX : X.Lawful) (comps : List κ) (y : List ℚ) (h : y.length = comps.length) :
    units X comps (comps.zipWith (fun c x => x / X.fac c) y) = y := by
  unfold units
  induction comps generalizing y with
  | nil => simpa using (List.length_eq_zero_iff.mp h).symm
  | cons c comps ih =>
    cases y with
    | nil => simp at h
    | cons x y =>
      have := (hX.fac_pos c).ne'
      simp only [List.zipWith_cons_cons, ih y (by simpa using h)]
      rw [div_mul_cancel₀ _ this]

theorem units_scale (X : Chem κ ε) (comps : List κ) (v : List ℚ) (t : ℚ) :
    units X comps (v.map fun c => c * t) = (units X comps v).map fun c => c * t := by
  unfold units
  induction comps generalizing v with
  | nil => simp
  | cons c comps ih =>
    cases v with
    | nil => simp
    | cons x v => simp only [List.map_cons, List.zipWith_cons_cons, ih v]; congr 1; ring

theorem units_take (X : Chem κ ε) (a b : List κ) (v : List ℚ) (h : v.length = a.length + b.length) :
    (units X (a ++ b) v).take a.length = units X a (v.take a.length) ∧ (units X (a ++ b) v).drop a.length = units X b (v.drop a.length) := by
  have h1 : units X (a ++ b) v = units X a (v.take a.length) ++ units X b (v.drop a.length) := by
    conv_lhs => rw [← List.take_append_drop a.length v]
    unfold units
    rw [List.zipWith_append (by simp; omega)]
  have h2 : (units X a (v.take a.length)).length = a.length := by simp [units]; omega
  rw [h1]
  exact ⟨by rw [List.take_append_of_le_length (by omega), List.take_of_length_le (by omega)],
    by rw [List.drop_append_of_le_length (by omega), List.drop_of_length_le (by omega), List.nil_append]⟩

theorem mem_units (X : Chem κ ε) (comps : List κ) (v : List ℚ) (y : ℚ) (h : y ∈ units X comps v) :
    ∃ x ∈ v, ∃ c ∈ comps, y = x * X.fac c := by
  unfold units at h
  induction comps generalizing v with
  | nil => simp at h
  | cons c comps ih =>
    cases v with
    | nil => simp at h
    | cons x v =>
      rw [List.zipWith_cons_cons] at h
      rcases List.mem_cons.mp h with rfl | h
      · exact ⟨x, List.mem_cons_self, c, List.mem_cons_self, rfl⟩
      · obtain ⟨x', h1, c', h2, h3⟩ := ih v h
        exact ⟨x', List.mem_cons_of_mem _ h1, c', List.mem_cons_of_mem _ h2, h3⟩

/-- Specification: `v` are amounts of the precursors (consumed) and targets (formed) that conserve every element, and the only ones up to
scale. -/
structure UniqueNet (X : Chem κ ε) (precursors targets : List κ) (v : List ℚ) : Prop where
  len : v.length = precursors.length + targets.length
  conserved : Conserved X (precursors ++ targets) v
  consumed : ∀ x ∈ v.take precursors.length, x < 0
  formed : ∀ x ∈ v.drop precursors.length, 0 < x
  unique : ∀ x : List ℚ, x.length = precursors.length + targets.length → Conserved X (precursors ++ targets) x →
    ∃ t : ℚ, x = v.map fun c => c * t

theorem UniqueNet.red {X : Chem κ ε} (hX : X.Lawful) {a b : List κ} {v : List ℚ} (h : UniqueNet X a b v) :
    UniqueNet X (a.map X.red) (b.map X.red) (units X (a ++ b) v) := by
  have hl : (units X (a ++ b) v).length = a.length + b.length := by simp [units, h.len]
  obtain ⟨ht, hd⟩ := units_take X a b v h.len
  refine ⟨by simp [hl], ?_, ?_, ?_, ?_⟩
  · intro e
    rw [← List.map_append, net_units X hX]
    exact h.conserved e
  · intro x hx
    rw [List.length_map, ht] at hx
    obtain ⟨y, hy, c, -, rfl⟩ := mem_units X _ _ _ hx
    exact mul_neg_of_neg_of_pos (h.consumed y hy) (hX.fac_pos c)
  · intro x hx
    rw [List.length_map, hd] at hx
    obtain ⟨y, hy, c, -, rfl⟩ := mem_units X _ _ _ hx
    exact mul_pos (h.formed y hy) (hX.fac_pos c)
  · intro x hx hc
    rw [List.length_map, List.length_map] at hx
    have hi := units_inv X hX (a ++ b) x (by rw [hx, List.length_append])
    obtain ⟨t, ht⟩ := h.unique ((a ++ b).zipWith (fun c x => x / X.fac c) x) (by simp [hx]) (by
      intro e
      rw [← net_units X hX, hi, List.map_append]
      exact hc e)
    refine ⟨t, ?_⟩
    rw [← units_scale, ← ht, hi]

/-- **C116, net reaction.** If the precursors and targets (distinct phases) determine a net reaction, the maker accepts them and stores it, and the
job's net reaction, computed from any entry set containing the phases, has the lowest-energy entries of exactly the precursors and the
targets, in this order, in the right proportions (per reduced formula), at the maker's chemical potential. -/
theorem C116_net (X : Chem κ ε) (hX : X.Lawful) (form : κ → φ) (hform : ∀ a b, form a = form b → X.red a = X.red b)
    (epa : Entry κ → ℚ) (solve0 : List ℕ → List ℚ) (solve : List (Entry κ) → List (Entry κ) → List ℕ → List ℚ)
    (entries : List (Entry κ)) (pots : List (ε × ℚ)) (precursors targets : List κ)
    (hshape : ∀ cs, (solve0 cs).length = precursors.length + targets.length)
    (hsolve0 : SolvesConsistent X precursors targets solve0)
    (hsolve : ∀ rs ps, SolvesConsistent X (rs.map fun e => X.red e.comp) (ps.map fun e => X.red e.comp) (solve rs ps))
    (hne : precursors ++ targets ≠ []) (hn : (precursors ++ targets).Nodup) (v : List ℚ) (hv : UniqueNet X precursors targets v) :
    ∃ net0, postInit X precursors targets (compMatrix X (precursors ++ targets)).rank solve0 = .ok net0 ∧
      reactants net0 = precursors ∧ products net0 = targets ∧
      (∃ s : ℚ, 0 < s ∧ net0.coeffs = v.map fun c => c * s) ∧
      ((∃ out, Minimize.getComputedRxn X form epa
          (fun rs ps => (compMatrix X ((rs.map fun e => X.red e.comp) ++ ps.map fun e => X.red e.comp)).rank) solve entries net0 pots = .ok out) ↔
        ∀ c ∈ precursors ++ targets, ∃ x ∈ entries, form x.comp = form c) ∧
      ∀ r p, Minimize.getComputedRxn X form epa
          (fun rs ps => (compMatrix X ((rs.map fun e => X.red e.comp) ++ ps.map fun e => X.red e.comp)).rank) solve entries net0 pots = .ok (r, p) →
        p = pots ∧
        (precursors ++ targets).Forall₂ (fun c e => Ground (fun e : Entry κ => form e.comp) epa entries (form c) e) r.entries ∧
        ∃ s : ℚ, 0 < s ∧ r.base.coeffs = (units X (precursors ++ targets) v).map fun c => c * s := by
  obtain ⟨s, hs, h1, h2⟩ := C11_complete X hX precursors targets solve0 hsolve0 v hne hv.len hv.conserved hv.consumed hv.formed hv.unique
  have hlne : (balanceBasic X precursors targets (compMatrix X (precursors ++ targets)).rank solve0 []).lne = some 0 := by
    simp [balanceBasic, h2, init]
  obtain ⟨b1, b2, b3, -⟩ := C10_sides X hX precursors targets _ solve0 [] hshape hn hlne
  refine ⟨_, if_pos b3, b1, b2, ⟨s, hs, by simp [balanceBasic, h2, init, h1]⟩, ?_, ?_⟩
  · rw [(C91_entries_partial X form epa _ solve entries _ pots).2.1, b1, b2]
  · intro r p h
    obtain ⟨hp, rs, ps, he, hr1, hp1⟩ := (C91_entries_partial X form epa _ solve entries _ pots).1 r p h
    rw [b1] at hr1
    rw [b2] at hp1
    refine ⟨hp, by rw [he]; exact List.rel_append hr1 hp1, ?_⟩
    have hu := hv.red hX
    have := C91_stoichiometry X hX form hform epa solve hsolve entries _ pots (units X (precursors ++ targets) v)
      (by rw [b1, b2]; exact hne) (by rw [b1, b2]; simpa using hu.len) (by rw [b1, b2, List.map_append]; exact hu.conserved)
      (by rw [b1]; simpa using hu.consumed) (by rw [b1]; simpa using hu.formed)
      (by rw [b1, b2]; intro x hx hc; rw [List.map_append] at hc; exact hu.unique x (by simpa using hx) hc) r p h
    exact this.2.2

/-! ### The pathways -/

theorem forall₂_map {α β γ : Type} (R : α → β → Prop) (f : α → γ) (g : β → γ) (hR : ∀ a b, R a b → g b = f a) (l : List α) (m : List β)
    (h : l.Forall₂ R m) : m.map g = l.map f := by
  induction h with
  | nil => rfl
  | cons h _ ih => rw [List.map_cons, List.map_cons, ih, hR _ _ h]

theorem make_ok {X : Chem κ ε} {form : κ → φ} {epa : Entry κ → ℚ} {rank : List (Entry κ) → List (Entry κ) → ℕ}
    {solve : List (Entry κ) → List (Entry κ) → List ℕ → List ℚ} {entries : List (Entry κ)}
    {c : Solver.Config (Entry κ) δ ε κ} {s : Settings ε} {find : List (Entry κ) → Except Err (List (SRxn (Entry κ) δ ε × ℚ))}
    {inClean : List (SRxn (Entry κ) δ ε × ℚ) → SRxn (Entry κ) δ ε → Bool} {paths : List (Pathway.Path (SRxn (Entry κ) δ ε))}
    {net0 : Rxn κ} {d : Doc κ ε δ} (h : make X form epa rank solve entries c s find inClean paths net0 = .ok d) :
    Minimize.getComputedRxn X form epa rank solve entries net0 (potsOf s) = .ok (d.net, d.pots) ∧
    ∃ inter, (inter = [] ∨ find (Enum.viewOf d.net).products = .ok inter) ∧
      Solver.solve { c with mu := potsOf s } true inClean paths inter (asS c.data d.net d.pots) (precursorComps d.net)
        s.maxCombos s.filterInter = .ok d.paths := by
  unfold make at h
  cases hg : Minimize.getComputedRxn X form epa rank solve entries net0 (potsOf s) with
  | error e => rw [hg] at h; cases h
  | ok np =>
    obtain ⟨net, pots⟩ := np
    rw [hg] at h
    simp only at h
    cases hr : run c s find inClean paths net pots with
    | error e => rw [hr] at h; cases h
    | ok out =>
      rw [hr] at h
      have h := Except.ok.inj h
      subst h
      refine ⟨rfl, ?_⟩
      unfold run at hr
      by_cases hb : net.base.balanced = true
      · rw [if_pos hb, hb] at hr
        cases hf : (if s.findInter = true then find (Enum.viewOf net).products else .ok []) with
        | error e => rw [hf] at hr; cases hr
        | ok inter =>
          rw [hf] at hr
          refine ⟨inter, ?_, hr⟩
          by_cases hfi : s.findInter = true
          · rw [if_pos hfi] at hf; exact Or.inr hf
          · rw [if_neg hfi] at hf; exact Or.inl (Except.ok.inj hf).symm
      · rw [if_neg hb] at hr; cases hr

/-- **C116, net reaction left out.** A job that succeeds had something to combine besides its own net reaction: some reaction of the given
pathways, or of the intermediate search, differs from the net reaction taken at the chemical potential of the settings. If the net reaction at
that potential is all there is, the job fails. -/
theorem C116_not_net (X : Chem κ ε) (form : κ → φ) (epa : Entry κ → ℚ) (rank : List (Entry κ) → List (Entry κ) → ℕ)
    (solve : List (Entry κ) → List (Entry κ) → List ℕ → List ℚ) (entries : List (Entry κ))
    (c : Solver.Config (Entry κ) δ ε κ) (s : Settings ε) (find : List (Entry κ) → Except Err (List (SRxn (Entry κ) δ ε × ℚ)))
    (inClean : List (SRxn (Entry κ) δ ε × ℚ) → SRxn (Entry κ) δ ε → Bool) (paths : List (Pathway.Path (SRxn (Entry κ) δ ε)))
    (net0 : Rxn κ) (d : Doc κ ε δ) (h : make X form epa rank solve entries c s find inClean paths net0 = .ok d) :
    ∃ r, ((∃ p ∈ paths, r ∈ p.reactions) ∨ ∃ inter k, find (Enum.viewOf d.net).products = .ok inter ∧ (r, k) ∈ inter) ∧
      c.eq r ⟨d.net.entries, d.net.base.coeffs, c.data, (s.openElem.map fun o => (o, s.chempot)).toList⟩ = false := by
  obtain ⟨hg, inter, hi, hs⟩ := make_ok h
  have hp : d.pots = (s.openElem.map fun o => (o, s.chempot)).toList := by
    unfold Minimize.getComputedRxn at hg
    cases h1 : Minimize.pickEntries form epa entries (reactants net0) with
    | error e => rw [h1] at hg; cases hg
    | ok rs =>
      cases h2 : Minimize.pickEntries form epa entries (products net0) with
      | error e => rw [h1, h2] at hg; cases hg
      | ok ps =>
        rw [h1, h2] at hg
        have := (Prod.mk.inj (Except.ok.inj hg)).2
        rw [← this]
        unfold potsOf
        cases s.openElem <;> rfl
  unfold Solver.solve at hs
  simp only [Bool.not_true, Bool.false_eq_true, if_false] at hs
  unfold Solver.clean at hs
  split at hs
  · cases hs
  · rename_i cl hcl
    split at hcl
    · cases hcl
    · rename_i l hne
      obtain ⟨a, ha⟩ := List.exists_mem_of_ne_nil _ hne
      obtain ⟨hm, hq⟩ := List.mem_filter.mp ha
      rw [Bool.and_eq_true] at hq
      have hq : c.eq a.1 (asS c.data d.net d.pots) = false := by simpa using hq.2
      refine ⟨a.1, ?_, by rw [← hp]; exact hq⟩
      rcases Verif.Props.Solver.collectRxns_mem _ _ _ a hm with hm | hm
      · rcases Verif.Props.Solver.collectRxns_mem _ _ _ a hm with hm | hm
        · cases hm
        · obtain ⟨p, hpm, hz⟩ := List.mem_flatMap.mp hm
          exact Or.inl ⟨p, hpm, (List.of_mem_zip hz).1⟩
      · rcases hi with rfl | hi
        · cases hm
        · exact Or.inr ⟨inter, a.2, hi, hm⟩

/-- **C116, pathways.** Every pathway reported for a determined net reaction, with its multiplicities, consumes the precursors and forms
the targets in the proportions of the net reaction, and leaves every other phase as it was, within the solver's tolerance; the phases are
the lowest-energy entries of the given set, at the maker's chemical potential. -/
theorem C116_pathways (X : Chem κ ε) (hX : X.Lawful) (form : κ → φ) (hform : ∀ a b, form a = form b → X.red a = X.red b)
    (epa : Entry κ → ℚ) (solve0 : List ℕ → List ℚ) (solve : List (Entry κ) → List (Entry κ) → List ℕ → List ℚ)
    (entries : List (Entry κ)) (precursors targets : List κ)
    (hshape : ∀ cs, (solve0 cs).length = precursors.length + targets.length)
    (hsolve0 : SolvesConsistent X precursors targets solve0)
    (hsolve : ∀ rs ps, SolvesConsistent X (rs.map fun e => X.red e.comp) (ps.map fun e => X.red e.comp) (solve rs ps))
    (hne : precursors ++ targets ≠ []) (hn : ((precursors ++ targets).map form).Nodup) (v : List ℚ) (hv : UniqueNet X precursors targets v)
    (c : Solver.Config (Entry κ) δ ε κ) (hw₁ : ∀ k, Verif.Props.Utils.WaitSpec (c.wait₁ k)) (hw₂ : ∀ i, Verif.Props.Utils.WaitSpec (c.wait₂ i))
    (hpick : ∀ l, ∀ q ∈ c.pick l, q ∈ l) (hE : c.entries.Nodup) (hidx : ∀ e ∈ entries, c.entries[c.idx e]? = some e)
    (s : Settings ε) (find : List (Entry κ) → Except Err (List (SRxn (Entry κ) δ ε × ℚ)))
    (inClean : List (SRxn (Entry κ) δ ε × ℚ) → SRxn (Entry κ) δ ε → Bool) (paths : List (Pathway.Path (SRxn (Entry κ) δ ε)))
    (hpaths : ∀ q ∈ paths, ∀ r ∈ q.reactions, WellIndexed c r)
    (hfind : ∀ l inter, find l = .ok inter → ∀ i ∈ inter, WellIndexed c i.1)
    (net0 : Rxn κ) (h0 : postInit X precursors targets (compMatrix X (precursors ++ targets)).rank solve0 = .ok net0)
    (d : Doc κ ε δ)
    (h : make X form epa (fun rs ps => (compMatrix X ((rs.map fun e => X.red e.comp) ++ ps.map fun e => X.red e.comp)).rank) solve
      entries c s find inClean paths net0 = .ok d) :
    ((∀ o, s.openElem = some o → d.pots = [(o, s.chempot)]) ∧ (s.openElem = none → d.pots = [])) ∧
    (precursors ++ targets).Forall₂ (fun c e => Ground (fun e : Entry κ => form e.comp) epa entries (form c) e) d.net.entries ∧
    ∃ t : ℚ, 0 < t ∧ ∀ p ∈ d.paths, ∃ ms, p.coefficients = some ms ∧ p.balanced = true ∧ (∀ m ∈ ms, 1 / 10 ^ 6 ≤ m) ∧
      ∀ e, |total (p.reactions.map pairs) ms e - t * amount (d.net.entries.zip (units X (precursors ++ targets) v)) e| ≤
        1 / 10 ^ 8 + 1 / 10 ^ 5 * |t * amount (d.net.entries.zip (units X (precursors ++ targets) v)) e| + 1 / 10 ^ 8 * ms.sum := by
  obtain ⟨net0', h0', -, -, -, -, hnet⟩ := C116_net X hX form hform epa solve0 solve entries (potsOf s) precursors targets hshape hsolve0 hsolve hne
    (List.Nodup.of_map _ hn) v hv
  rw [h0] at h0'
  have := Except.ok.inj h0'
  subst this
  obtain ⟨hg, inter, hinter, hsol⟩ := make_ok h
  obtain ⟨hp, hF, t, ht, hco⟩ := hnet _ _ hg
  refine ⟨⟨fun o ho => by rw [hp]; simp [potsOf, ho], fun ho => by rw [hp]; simp [potsOf, ho]⟩, hF, t, ht, ?_⟩
  have hforms := forall₂_map _ form (fun e : Entry κ => form e.comp) (fun a b hab => hab.2.1) _ _ hF
  have hlen := hF.length_eq
  have hwell : WellIndexed { c with mu := potsOf s } (asS c.data d.net d.pots) := by
    refine ⟨?_, ?_, ?_⟩
    · exact List.Nodup.of_map (fun e : Entry κ => form e.comp) (by show (d.net.entries.map _).Nodup; rw [hforms]; exact hn)
    · show d.net.entries.length = d.net.base.coeffs.length
      rw [hco, List.length_map, ← hlen]
      simp [units, hv.len]
    · intro e he
      obtain ⟨i, hi, rfl⟩ := List.getElem_of_mem (show e ∈ d.net.entries from he)
      exact hidx _ ((List.forall₂_iff_get.mp hF).2 i (by omega) hi).1
  have hC := Verif.Props.Solver.C56_sum { c with mu := potsOf s } hw₁ hw₂ hpick hE true inClean paths inter (asS c.data d.net d.pots)
    (precursorComps d.net) s.maxCombos s.filterInter hwell ⟨hpaths, by
      rcases hinter with rfl | hi
      · simp
      · exact hfind _ _ hi⟩ d.paths hsol
  have hamt : ∀ e, amount (pairs (asS c.data d.net d.pots)) e = t * amount (d.net.entries.zip (units X (precursors ++ targets) v)) e := by
    intro e
    show amount (d.net.entries.zip d.net.base.coeffs) e = _
    rw [hco]
    generalize d.net.entries = es
    generalize units X (precursors ++ targets) v = u
    unfold amount
    induction es generalizing u with
    | nil => simp
    | cons a es ih =>
      cases u with
      | nil => simp
      | cons x u =>
        have := ih u
        rw [List.map_cons, List.zip_cons_cons, List.zip_cons_cons, List.filter_cons, List.filter_cons]
        by_cases hae : a = e
        · simp only [hae, decide_true, if_true, List.map_cons, List.sum_cons, this]
          ring
        · simp only [hae, decide_false, Bool.false_eq_true, if_false, this]
  intro p hp'
  obtain ⟨ms, m1, m2, m3, m4⟩ := hC p hp'
  refine ⟨ms, m1, m2, m3, fun e => ?_⟩
  have := m4 e
  rw [hamt] at this
  exact this

/-! ### The phases available to the interdependence filter -/

/-- **C117.** If the precursors' entries are stored per reduced formula unit, the filter takes exactly the net reaction's reactants as
available. -/
theorem C117_reduced_partial (X : Chem κ ε) (entries : List (Entry κ)) (coeffs : List ℚ) (data : List (String × ℚ)) (lne : Option ℕ)
    (h : ∀ e ∈ (Enum.viewOf (cinit X entries coeffs data lne)).reactants, X.red e.comp = e.comp) :
    precursorComps (cinit X entries coeffs data lne) = (reactants (cinit X entries coeffs data lne).base).toFinset := by
  have hz : ∀ (l : List (Entry κ)) (x : List ℚ), (l.map fun e => X.red e.comp).zip x = (l.zip x).map fun p => (X.red p.1.comp, p.2) := by
    intro l
    induction l with
    | nil => simp
    | cons a l ih =>
      intro x
      cases x with
      | nil => simp
      | cons b x => simp [ih]
  ext c
  have hk := Verif.Lemmas.Dict.mem_keys_dictOf (((entries.map fun e => X.red e.comp).zip coeffs).filter fun p => decide (p.2 < (0:ℚ))) c
  have hr : c ∈ reactants (cinit X entries coeffs data lne).base ↔
      c ∈ (((entries.map fun e => X.red e.comp).zip coeffs).filter fun p => decide (p.2 < (0:ℚ))).map Prod.fst := hk
  unfold precursorComps
  rw [List.mem_toFinset, List.mem_toFinset, hr, hz, List.filter_map, List.map_map, List.mem_map, List.mem_map]
  constructor
  · rintro ⟨e, he, rfl⟩
    have h1 := h e he
    obtain ⟨p, hp, rfl⟩ := List.mem_map.mp he
    exact ⟨p, hp, h1⟩
  · rintro ⟨p, hp, rfl⟩
    exact ⟨p.1, List.mem_map.mpr ⟨p, hp, rfl⟩, (h p.1 (List.mem_map.mpr ⟨p, hp, rfl⟩)).symm⟩

/-- **C117 (violated).** Precursors stored with several formula units per cell are never recognised: none of the compositions of a
reaction (all reduced) is taken as available. -/
theorem C117_unrecognized (X : Chem κ ε) (r : CRxn κ) (h : ∀ e ∈ (Enum.viewOf r).reactants, X.red e.comp ≠ e.comp) (S : Finset κ)
    (hS : ∀ c ∈ S, X.red c = c) : Disjoint (precursorComps r) S := by
  rw [Finset.disjoint_left]
  intro c hc hcS
  obtain ⟨e, he, rfl⟩ := List.mem_map.mp (List.mem_toFinset.mp hc)
  exact h e he (hS _ hcS)

/-! ### Examples: `A + B -> AB` by way of `A2B` -/

section examples
open Verif.Props.Reaction (A A2 B1 AB A2B C1)
open Verif.Props.Utils (lifo lifo_spec)
open Verif.Props.Solver (exactPinv)

/-- Entries of `B`, `AB`, `A2B` -/
def eB : Entry TComp := ⟨B1, 0⟩
def eAB : Entry TComp := ⟨AB, -2⟩
def eA2B : Entry TComp := ⟨A2B, -2⟩

/-- `2 A + B -> A2B` and `A2B -> A + AB`, for a given entry of `A` -/
def step1 (a : Entry TComp) : SRxn (Entry TComp) Unit (Fin 3) := ⟨[a, eB, eA2B], [-2, -1, 1], (), []⟩
def step2 (a : Entry TComp) : SRxn (Entry TComp) Unit (Fin 3) := ⟨[eA2B, a, eAB], [-1, 1, 1], (), []⟩

/-- The two steps each once, a computable stand-in for the pseudo-inverse -/
def exPinv (m : Verif.Model.Solver.Mat) (_ : List ℚ) : Except Err (List ℚ) :=
  if m = [[-2, -1, 0, 1], [1, 0, 1, -1]] then .ok [1, 1] else .ok (List.replicate m.length 0)

/-- Entries in the order `A, B, AB, A2B` -/
def exIdx (e : Entry TComp) : ℕ := if e = eB then 1 else if e = eAB then 2 else if e = eA2B then 3 else 0

/-- Configuration with reduced compositions of the reactions -/
def exCfg (a : Entry TComp) (pinv : Verif.Model.Solver.Mat → List ℚ → Except Err (List ℚ)) :
    Verif.Model.Solver.Config (Entry TComp) Unit (Fin 3) TComp where
  eq := fun r s => [a, eB, eAB, eA2B].all fun e => decide (amount (pairs r) e = amount (pairs s) e)
  idx := exIdx
  entries := [a, eB, eAB, eA2B]
  data := ()
  mu := []
  chunk := 3
  batch := none
  cpus := 2
  pinv := pinv
  wait₁ := fun _ => lifo
  wait₂ := fun _ => lifo
  order := List.dedup
  R := fun r => (((pairs r).filter fun p => decide (p.2 < 0)).map fun p => toy.red p.1.comp).toFinset
  P := fun r => (((pairs r).filter fun p => decide (0 < p.2)).map fun p => toy.red p.1.comp).toFinset
  pick := fun l => l.dedup

/-- Exact coefficients of `A + B -> AB` -/
def exSolve0 (_ : List ℕ) : List ℚ := [-1, -1, 1]

def exSet : Settings (Fin 3) := ⟨none, 0, 2, false, true⟩

def exPath (a : Entry TComp) : Verif.Model.Pathway.Path (SRxn (Entry TComp) Unit (Fin 3)) := ⟨[step1 a, step2 a], [3, 5], none, false⟩

def exNet0 : Rxn TComp := balanceBasic toy [A, B1] [AB] 2 exSolve0 []

/-- The job on a network pathway, `A` stored as entry `a` -/
def exMake (a : Entry TComp) := make toy (fun c => toy.red c) Verif.Props.Minimize.exEpa (fun _ _ => 2) (fun _ _ => exSolve0)
  [a, eB, eAB, eA2B] (exCfg a exPinv) exSet (fun _ => .ok []) (fun _ _ => true) [exPath a] exNet0

/-- least-squares solutions for all sets of fixed coefficients of `A + B -> AB` -/
def exLs (cs : List ℕ) : List ℚ :=
  if cs = [0, 2] then [-1/3, 1/3, -1/3] else if cs = [1, 2] then [1/3, -1/3, -1/3] else if cs = [0, 1, 2] then [-1/2, -1/2, 0] else [-1, -1, 1]

/-- Example for `C116_guard`: its hypotheses are met and the reaction is accepted. -/
example : NearlyBalanceable toy ([A, B1] ++ [AB]) [-1, -1, 1] :=
  ((C116_guard toy toy_lawful [A, B1] [AB] 2 exLs
    (by
      intro cs hcs
      have : ∀ cs ∈ (List.range ([A, B1] ++ [AB]).length).sublists, cs ≠ [] → LeastSquares ([A, B1] ++ [AB]).length
          (constrainedSystem toy [A, B1] [AB] cs).1 (constrainedSystem toy [A, B1] [AB] cs).2 (exLs cs) := by
        unfold LeastSquares
        decide +kernel
      exact this cs (List.mem_sublists.mpr hcs))
    (by decide +kernel)).1 (init toy [A, B1, AB] [-1, -1, 1] (some true) [("num_constraints", 1)] (some 0)) (by decide +kernel)).2.2

/-- Phases that cannot be balanced are rejected. -/
example : postInit toy [A] [B1] 2 (fun _ => [-1/2, 1/2]) = .error .valueError := by decide +kernel

theorem ex_unique : UniqueNet toy [A, B1] [AB] [-1, -1, 1] where
  len := rfl
  conserved := by intro e; revert e; decide +kernel
  consumed := by decide +kernel
  formed := by decide +kernel
  unique := by
    intro x hx hc
    match x, hx with
    | [a, b, c], _ =>
      have h0 := hc 0
      have h1 := hc 1
      simp [net, toy, A, B1, AB] at h0 h1
      refine ⟨c, ?_⟩
      simp only [List.map_cons, List.map_nil, List.cons.injEq, and_true]
      refine ⟨?_, ?_, ?_⟩ <;> linarith

theorem ex_solves : SolvesConsistent toy [A, B1] [AB] exSolve0 := by
  rintro cs ⟨x, hx, hc, hk⟩
  obtain ⟨t, rfl⟩ := ex_unique.unique x hx hc
  refine ⟨rfl, ex_unique.conserved, ?_⟩
  intro k hkc
  have h := hk k hkc
  by_cases hall : ∀ j ∈ cs, [A, B1].length ≤ j
  · rw [if_pos hall] at h ⊢
    have h2 : 2 ≤ k := hall k hkc
    have h3 : k < 3 := by
      by_contra hcon
      rw [List.getElem?_eq_none (by simpa using hcon)] at h
      cases h
    obtain rfl : k = 2 := by omega
    rfl
  · rw [if_neg hall] at h ⊢
    push Not at hall
    obtain ⟨j, hj, hj2⟩ := hall
    have hj' := hk j hj
    rw [if_neg (by push Not; exact ⟨j, hj, hj2⟩)] at hj'
    have ht : t = 1 := by
      have : j = 0 ∨ j = 1 := by simp at hj2; omega
      rcases this with rfl | rfl <;> simpa using hj'
    subst ht
    simpa [exSolve0] using h

open Classical in
/-- exact solutions for all sides; those of `A + B -> AB` are the computable ones -/
noncomputable def exSolveAll (a : Entry TComp) (rs ps : List (Entry TComp)) : List ℕ → List ℚ :=
  if rs = [a, eB] ∧ ps = [eAB] then exSolve0
  else fun cs => if h : ∃ x : List ℚ, x.length = ((rs.map fun e => toy.red e.comp) ++ ps.map fun e => toy.red e.comp).length ∧
      Conserved toy ((rs.map fun e => toy.red e.comp) ++ ps.map fun e => toy.red e.comp) x ∧
      ∀ k ∈ cs, x[k]? = some (if ∀ j ∈ cs, (rs.map fun e => toy.red e.comp).length ≤ j then 1 else -1) then h.choose else []

theorem exSolveAll_spec (a : Entry TComp) (ha : toy.red a.comp = A) (rs ps : List (Entry TComp)) :
    SolvesConsistent toy (rs.map fun e => toy.red e.comp) (ps.map fun e => toy.red e.comp) (exSolveAll a rs ps) := by
  unfold exSolveAll
  split_ifs with h
  · obtain ⟨rfl, rfl⟩ := h
    have h1 : ([a, eB].map fun e => toy.red e.comp) = [A, B1] := by
      rw [List.map_cons, ha]
      exact congrArg (A :: ·) (by decide +kernel)
    have h2 : ([eAB].map fun e => toy.red e.comp) = [AB] := by decide +kernel
    rw [h1, h2]
    exact ex_solves
  · intro cs hx
    simp only [dif_pos hx]
    exact hx.choose_spec

theorem ex_rank : 2 ≤ (compMatrix toy [A, B1, AB]).rank := by
  have := rank_ge toy toy_lawful [A, B1, AB] [-1, -1, 1] ex_unique.unique
  simp only [List.length_cons, List.length_nil] at this
  omega

theorem ex_coeffs (rank : ℕ) (h : 2 ≤ rank) (solve : List ℕ → List ℚ) :
    balanceCoeffs toy [A, B1] [AB] rank solve = balanceCoeffs toy [A, B1] [AB] 2 solve := by
  unfold balanceCoeffs
  have : numConstraints ([A, B1] ++ [AB]).length rank = numConstraints ([A, B1] ++ [AB]).length 2 := by
    show numConstraints 3 rank = numConstraints 3 2
    unfold numConstraints
    rw [if_neg (by omega), if_neg (by omega)]
  simp only [this]

theorem ex_post : postInit toy [A, B1] [AB] (compMatrix toy ([A, B1] ++ [AB])).rank exSolve0 = .ok exNet0 := by
  have h : balanceBasic toy [A, B1] [AB] (compMatrix toy ([A, B1] ++ [AB])).rank exSolve0 [] = exNet0 := by
    unfold exNet0 balanceBasic
    rw [ex_coeffs _ (show 2 ≤ (compMatrix toy ([A, B1] ++ [AB])).rank from ex_rank)]
  unfold postInit
  rw [h]
  exact if_pos (by decide +kernel)

/-- With exact rank and solutions, the job of the example is the computable one. -/
theorem ex_make (a : Entry TComp) (ha : a = ⟨A, 0⟩ ∨ a = ⟨A2, 0⟩) :
    make toy (fun c => toy.red c) Verif.Props.Minimize.exEpa
      (fun rs ps => (compMatrix toy ((rs.map fun e => toy.red e.comp) ++ ps.map fun e => toy.red e.comp)).rank) (exSolveAll a)
      [a, eB, eAB, eA2B] (exCfg a exPinv) exSet (fun _ => .ok []) (fun _ _ => true) [exPath a] exNet0 = exMake a := by
  have hr : Minimize.pickEntries (fun c => toy.red c) Verif.Props.Minimize.exEpa [a, eB, eAB, eA2B] (reactants exNet0) = .ok [a, eB] := by
    rcases ha with rfl | rfl <;> decide +kernel
  have hp : Minimize.pickEntries (fun c => toy.red c) Verif.Props.Minimize.exEpa [a, eB, eAB, eA2B] (products exNet0) = .ok [eAB] := by
    rcases ha with rfl | rfl <;> decide +kernel
  have h1 : ([a, eB].map fun e => toy.red e.comp) = [A, B1] := by rcases ha with rfl | rfl <;> decide +kernel
  have h2 : ([eAB].map fun e => toy.red e.comp) = [AB] := by decide +kernel
  have hc : Minimize.getComputedRxn toy (fun c => toy.red c) Verif.Props.Minimize.exEpa
      (fun rs ps => (compMatrix toy ((rs.map fun e => toy.red e.comp) ++ ps.map fun e => toy.red e.comp)).rank) (exSolveAll a)
      [a, eB, eAB, eA2B] exNet0 (potsOf exSet)
      = Minimize.getComputedRxn toy (fun c => toy.red c) Verif.Props.Minimize.exEpa (fun _ _ => 2) (fun _ _ => exSolve0)
      [a, eB, eAB, eA2B] exNet0 (potsOf exSet) := by
    unfold Minimize.getComputedRxn
    rw [hr, hp]
    show Except.ok (balanceComputed _ _ _ _ _ _, _) = Except.ok (balanceComputed _ _ _ _ _ _, _)
    unfold balanceComputed
    have h3 : 2 ≤ (compMatrix toy (([a, eB].map fun e => toy.red e.comp) ++ [eAB].map fun e => toy.red e.comp)).rank := by
      rw [h1, h2]; exact ex_rank
    simp only [exSolveAll, and_self, if_true]
    rw [h1, h2]
    rw [h1, h2] at h3
    rw [ex_coeffs _ h3]
  unfold exMake make
  rw [hc]

/-- Example for `C116_net` and `C116_pathways`: the job finds the pathway, and the theorem applies to it. -/
example : ∃ d, make toy (fun c => toy.red c) Verif.Props.Minimize.exEpa
      (fun rs ps => (compMatrix toy ((rs.map fun e => toy.red e.comp) ++ ps.map fun e => toy.red e.comp)).rank) (exSolveAll ⟨A, 0⟩)
      [⟨A, 0⟩, eB, eAB, eA2B] (exCfg ⟨A, 0⟩ exPinv) exSet (fun _ => .ok []) (fun _ _ => true) [exPath ⟨A, 0⟩] exNet0 = .ok d ∧
    (d.paths.map fun p => (p.coefficients, p.costs)) = [(some [1, 1], [3, 5])] ∧
    [A, B1, AB].Forall₂ (fun c e => Ground (fun e : Entry TComp => toy.red e.comp) Verif.Props.Minimize.exEpa
      [⟨A, 0⟩, eB, eAB, eA2B] (toy.red c) e) d.net.entries := by
  have hd : ∃ d, exMake ⟨A, 0⟩ = .ok d ∧ (d.paths.map fun p => (p.coefficients, p.costs)) = [(some [1, 1], [3, 5])] := by
    have : (exMake ⟨A, 0⟩).map (fun d => d.paths.map fun p => (p.coefficients, p.costs)) = .ok [(some [1, 1], [3, 5])] := by decide +kernel
    cases h : exMake ⟨A, 0⟩ with
    | error e => rw [h] at this; cases this
    | ok d => rw [h] at this; exact ⟨d, rfl, Except.ok.inj this⟩
  obtain ⟨d, hd, hp⟩ := hd
  rw [← ex_make _ (Or.inl rfl)] at hd
  refine ⟨d, hd, hp, ?_⟩
  exact (C116_pathways toy toy_lawful (fun c => toy.red c) (fun _ _ h => h) Verif.Props.Minimize.exEpa exSolve0 (exSolveAll ⟨A, 0⟩)
    [⟨A, 0⟩, eB, eAB, eA2B] [A, B1] [AB] (fun _ => rfl) ex_solves (exSolveAll_spec _ (by decide +kernel)) (by simp) (by decide +kernel) _ ex_unique
    (exCfg ⟨A, 0⟩ exPinv) (fun _ => lifo_spec) (fun _ => lifo_spec) (fun _ _ h => List.mem_dedup.mp h) (by decide +kernel) (by decide +kernel)
    exSet (fun _ => .ok []) (fun _ _ => true) [exPath ⟨A, 0⟩]
    (by
      intro q hq r hr
      rw [List.mem_singleton] at hq
      subst hq
      rcases List.mem_cons.mp hr with rfl | hr
      · exact ⟨by decide +kernel, rfl, by decide +kernel⟩
      · rw [List.mem_singleton.mp hr]
        exact ⟨by decide +kernel, rfl, by decide +kernel⟩)
    (by
      intro l inter h i hi
      have := Except.ok.inj h
      subst this
      cases hi)
    exNet0 ex_post d hd).2.1

/-- Example for `C116_not_net`: the job of the example succeeds, so a step of its pathway differs from the net reaction; when the pathway is the
net reaction alone the job fails, and at a chemical potential the net reaction compared is the open one. -/
example : (∃ d, exMake ⟨A, 0⟩ = .ok d ∧ ∃ r ∈ (exPath ⟨A, 0⟩).reactions,
      (exCfg ⟨A, 0⟩ exPinv).eq r ⟨d.net.entries, d.net.base.coeffs, (), []⟩ = false) ∧
    (∀ o : Option (Fin 3), (o = none ∨ o = some 2) →
      (make toy (fun c => toy.red c) Verif.Props.Minimize.exEpa (fun _ _ => 2) (fun _ _ => exSolve0)
        [⟨A, 0⟩, eB, eAB, eA2B] { exCfg ⟨A, 0⟩ exPinv with eq := fun a b => decide (a = b) } ⟨o, -1, 2, false, true⟩ (fun _ => .ok [])
        (fun _ _ => true) [⟨[⟨[⟨A, 0⟩, eB, eAB], [-1, -1, 1], (), (o.map fun e => (e, -1)).toList⟩], [3], none, false⟩] exNet0).map
          (fun d => d.pots) = .error .valueError) := by
  constructor
  · have : ∃ d, exMake ⟨A, 0⟩ = .ok d := by
      cases h : exMake ⟨A, 0⟩ with
      | error e =>
        have h2 : (exMake ⟨A, 0⟩).map (fun d => d.paths.length) = .ok 1 := by decide +kernel
        rw [h] at h2; cases h2
      | ok d => exact ⟨d, rfl⟩
    obtain ⟨d, hd⟩ := this
    obtain ⟨r, hr, he⟩ := C116_not_net _ _ _ _ _ _ _ _ _ _ _ _ d hd
    refine ⟨d, hd, r, ?_, he⟩
    rcases hr with ⟨p, hp, hr⟩ | ⟨inter, k, hf, hm⟩
    · rw [List.mem_singleton] at hp; subst hp; exact hr
    · have := Except.ok.inj hf
      subst this
      cases hm
  · rintro o (rfl | rfl) <;> decide +kernel

/-- **C116 (violated).** Being accepted does not mean that the precursors react to the targets. For the precursors `A`, `AB` and the target
`B` the accepted reaction is `AB -> A + B`: the precursor `A` is a product. A precursor that takes no part at all is accepted as well. All
solutions used are exact. -/
theorem C116_misplaced_violated :
    ((∀ cs ∈ [[0], [1], [2]], LeastSquares 3 (constrainedSystem toy [A, AB] [B1] cs).1 (constrainedSystem toy [A, AB] [B1] cs).2
        (if cs = [0] then [-1, 1, -1] else [1, -1, 1])) ∧
      (postInit toy [A, AB] [B1] 2 (fun cs => if cs = [0] then [-1, 1, -1] else [1, -1, 1])).map
        (fun r => (reactants r, products r)) = .ok ([AB], [A, B1])) ∧
    ((∀ cs ∈ [[0], [1], [2], [3]], LeastSquares 4 (constrainedSystem toy [A, C1, B1] [AB] cs).1 (constrainedSystem toy [A, C1, B1] [AB] cs).2
        (if cs = [1] then [0, -1/2, 0, 0] else [-1, 0, -1, 1])) ∧
      (postInit toy [A, C1, B1] [AB] 3 (fun cs => if cs = [1] then [0, -1/2, 0, 0] else [-1, 0, -1, 1])).map
        (fun r => (reactants r, products r)) = .ok ([A, B1], [AB])) := by
  unfold LeastSquares
  decide +kernel

/-- **C117 (violated).** The same chemistry, the same pathway: with the entry of `A` stored with one atom per cell the pathway is
returned; stored with two atoms per cell it is dropped as interdependent. -/
theorem C117_cell_violated :
    ((exMake ⟨A, 0⟩).map fun d => d.paths.map fun p => p.coefficients) = .ok [some [1, 1]] ∧
    ((exMake ⟨A2, 0⟩).map fun d => d.paths.map fun p => p.coefficients) = .ok [] := by
  constructor <;> decide +kernel

/-- Example for `C117_reduced_partial`: `A`, `B` are already reduced. -/
example : precursorComps (cinit toy [⟨A, 0⟩, eB, eAB] [-1, -1, 1] [] none) = {A, B1} := by
  rw [C117_reduced_partial toy _ _ _ _ (by decide +kernel)]
  decide +kernel

/-- Example for `C117_unrecognized`: `A` stored as `A2`. -/
example : Disjoint (precursorComps (cinit toy [⟨A2, 0⟩, eAB] [-1, 1] [] none)) {A, AB, A2B} :=
  C117_unrecognized toy _ (by decide +kernel) _ (by decide +kernel)

end examples

end Verif.Props.SolverJob
