import Verif.Props.Balance

/-!
C11 and C12 down to the linear system that is handed to numpy (src/rxn_network/reactions/basic.py:396-407): the only assumption left about the
linear algebra is that the pseudo-inverse solves every solvable system.
-/

set_option linter.unusedSectionVars false

namespace Verif.Props.BalanceLinear
open Verif.Py Verif.Model Verif.Model.Reaction Verif.Spec.Reaction Verif.Lemmas.Reaction Verif.Props.Balance

variable {κ ε : Type} [DecidableEq κ] [DecidableEq ε]

/-- Specification: scalar product of a row with a vector. -/
def dot (r x : List ℚ) : ℚ := ((r.zip x).map fun p => p.1 * p.2).sum

/-- Specification: `x` with `n` components solves the linear system. -/
def Solution (n : ℕ) (A : List (List ℚ)) (b x : List ℚ) : Prop := x.length = n ∧ A.map (dot · x) = b

/-- Specification of an exact pseudo-inverse (for systems of `n` columns): it solves every solvable system. -/
def ExactPinv (n : ℕ) (pinvMul : List (List ℚ) → List ℚ → List ℚ) : Prop :=
  ∀ A b, (∃ x, Solution n A b x) → Solution n A b (pinvMul A b)

theorem dot_unit (x : List ℚ) (k : ℕ) : dot ((List.replicate x.length 0).set k 1) x = (x[k]?).getD 0 := by
  have zero : ∀ y : List ℚ, dot (List.replicate y.length 0) y = 0 := by
    intro y
    induction y with
    | nil => rfl
    | cons a y ih =>
      unfold dot at ih ⊢
      simp only [List.length_cons, List.replicate_succ, List.zip_cons_cons, List.map_cons, List.sum_cons, ih]
      ring
  induction x generalizing k with
  | nil => simp [dot]
  | cons a x ih =>
    cases k with
    | zero =>
      have := zero x
      unfold dot at this ⊢
      simp only [List.length_cons, List.replicate_succ, List.set_cons_zero, List.zip_cons_cons, List.map_cons, List.sum_cons, this]
      simp
    | succ k =>
      have := ih k
      unfold dot at this ⊢
      simp only [List.length_cons, List.replicate_succ, List.set_cons_succ, List.zip_cons_cons, List.map_cons, List.sum_cons, this]
      simp

theorem dot_row (X : Chem κ ε) (comps : List κ) (x : List ℚ) (e : ε) : dot (comps.map fun c => X.amt c e) x = net X comps x e := by
  unfold dot net
  induction comps generalizing x with
  | nil => simp
  | cons c comps ih =>
    cases x with
    | nil => simp
    | cons a x =>
      simp only [List.map_cons, List.zip_cons_cons, List.sum_cons, ih x]
      ring

theorem conserved_iff (X : Chem κ ε) (hX : X.Lawful) (comps : List κ) (x : List ℚ) :
    Conserved X comps x ↔ ∀ e ∈ elements X comps, net X comps x e = 0 := by
  refine ⟨fun h e _ => h e, fun h e => ?_⟩
  by_cases he : e ∈ elements X comps
  · exact h e he
  · exact net_eq_zero_of_not_mem X hX comps x e (fun c hc h2 => he ((mem_elements X comps e).mpr ⟨c, hc, h2⟩))

theorem map_eq_replicate {α : Type} (f : α → ℚ) (l : List α) (v : ℚ) : l.map f = List.replicate l.length v ↔ ∀ a ∈ l, f a = v := by
  induction l with
  | nil => simp
  | cons a l ih => simp [List.replicate_succ, ih]

/-- The system handed to numpy says what it should: conservation of every element, and the constrained coefficients are `1` if only
products are constrained, `-1` otherwise. -/
theorem system_iff (X : Chem κ ε) (hX : X.Lawful) (reacts prods : List κ) (cs : List ℕ) (x : List ℚ) :
    Solution (reacts ++ prods).length (constrainedSystem X reacts prods cs).1 (constrainedSystem X reacts prods cs).2 x ↔
      x.length = (reacts ++ prods).length ∧ Conserved X (reacts ++ prods) x ∧
        ∀ k ∈ cs, x[k]? = some (if ∀ j ∈ cs, reacts.length ≤ j then 1 else -1) := by
  unfold Solution
  refine and_congr_right fun hl => ?_
  unfold constrainedSystem compRows
  rw [List.map_append]
  have h1 : ∀ a b c d : List ℚ, a.length = c.length → (a ++ b = c ++ d ↔ a = c ∧ b = d) := by
    intro a b c d h
    exact ⟨fun h' => List.append_inj h' h, fun h' => by rw [h'.1, h'.2]⟩
  rw [h1 _ _ _ _ (by simp), List.map_map, List.map_map]
  rw [map_eq_replicate, map_eq_replicate, conserved_iff X hX]
  refine and_congr ?_ ?_
  · refine forall_congr' fun e => ?_
    rw [Function.comp_apply, dot_row]
  · refine forall_congr' fun k => forall_congr' fun hk => ?_
    rw [Function.comp_apply, ← hl, dot_unit]
    have hv : constraintValue reacts.length cs ≠ 0 := by unfold constraintValue; split_ifs <;> norm_num
    change (x[k]?).getD 0 = constraintValue reacts.length cs ↔ x[k]? = some (constraintValue reacts.length cs)
    cases hx : x[k]? with
    | none => simp [hv.symm]
    | some a => simp

theorem solves (X : Chem κ ε) (hX : X.Lawful) (reacts prods : List κ) (pinvMul : List (List ℚ) → List ℚ → List ℚ)
    (hp : ExactPinv (reacts ++ prods).length pinvMul) : SolvesConsistent X reacts prods (constrainedSolve X reacts prods pinvMul) := by
  rintro cs ⟨x, hx⟩
  exact (system_iff X hX reacts prods cs _).mp (hp _ _ ⟨x, (system_iff X hX reacts prods cs x).mpr hx⟩)

/-- **C11.** If the phases admit a balanced reaction `v` with the stated signs, unique up to scaling, `balance()` returns a positive
multiple of it without errors, for every pseudo-inverse that solves solvable systems. -/
theorem C11_complete_linear (X : Chem κ ε) (hX : X.Lawful) (reacts prods : List κ) (pinvMul : List (List ℚ) → List ℚ → List ℚ)
    (hp : ExactPinv (reacts ++ prods).length pinvMul) (v : List ℚ) (hne : reacts ++ prods ≠ [])
    (hlen : v.length = reacts.length + prods.length) (hcons : Conserved X (reacts ++ prods) v)
    (hneg : ∀ x ∈ v.take reacts.length, x < 0) (hpos : ∀ x ∈ v.drop reacts.length, 0 < x)
    (huniq : ∀ x : List ℚ, x.length = reacts.length + prods.length → Conserved X (reacts ++ prods) x →
      ∃ t : ℚ, x = v.map fun c => c * t) :
    ∃ s : ℚ, 0 < s ∧
      (balanceCoeffs X reacts prods (compMatrix X (reacts ++ prods)).rank (constrainedSolve X reacts prods pinvMul)).1
        = v.map (fun c => c * s) ∧
      (balanceCoeffs X reacts prods (compMatrix X (reacts ++ prods)).rank (constrainedSolve X reacts prods pinvMul)).2.1 = some 0 :=
  C11_complete X hX reacts prods _ (solves X hX reacts prods pinvMul hp) v hne hlen hcons hneg hpos huniq

/-- **C12.** A failed `BasicReaction.balance` means that the phases admit no balanced stoichiometry at all. -/
theorem C12_basic_linear_partial (X : Chem κ ε) (hX : X.Lawful) (reacts prods : List κ) (rank : ℕ)
    (pinvMul : List (List ℚ) → List ℚ → List ℚ) (hp : ExactPinv (reacts ++ prods).length pinvMul) (data : List (String × ℚ))
    (h : (balanceBasic X reacts prods rank (constrainedSolve X reacts prods pinvMul) data).balanced = false) (x : List ℚ)
    (hx : x.length = reacts.length + prods.length) (hc : Conserved X (reacts ++ prods) x) : ∀ y ∈ x, y = 0 :=
  C12_basic_exact_partial X reacts prods rank _ data (solves X hX reacts prods pinvMul hp) h x hx hc

/-- Exact pseudo-inverses exist for every number of columns. -/
example (n : ℕ) : ∃ p, ExactPinv n p := by
  classical
  refine ⟨fun A b => if h : ∃ x, Solution n A b x then h.choose else [], fun A b h => ?_⟩
  simp only [dif_pos h]
  exact h.choose_spec

open Verif.Props.Reaction (A B2 AB) in
/-- `2 A + B2 -> 2 AB` with the product fixed to one: `-1 A - 1/2 B2 + AB`. -/
example : Solution 3 (constrainedSystem toy [A, B2] [AB] [2]).1 (constrainedSystem toy [A, B2] [AB] [2]).2 [-1, -1/2, 1] := by
  constructor <;> decide +kernel

theorem exists_pinv (n : ℕ) : ∃ p, ExactPinv n p := by
  classical
  refine ⟨fun A b => if h : ∃ x, Solution n A b x then h.choose else [], fun A b h => ?_⟩
  simp only [dif_pos h]
  exact h.choose_spec

open Verif.Props.Reaction in
example : ∃ p, ExactPinv 3 p ∧ ∃ s : ℚ, 0 < s ∧
    (balanceCoeffs toy [A, B2] [AB] (compMatrix toy ([A, B2] ++ [AB])).rank (constrainedSolve toy [A, B2] [AB] p)).1
      = [-2, -1, 2].map (fun c => c * s) := by
  obtain ⟨p, h⟩ := exists_pinv 3
  obtain ⟨s, hs, he, -⟩ := C11_complete_linear toy toy_lawful [A, B2] [AB] p h [-2, -1, 2] (by simp) rfl
    (by intro e; revert e; decide +kernel) (by decide +kernel) (by decide +kernel) AB_unique
  exact ⟨p, h, s, hs, he⟩

end Verif.Props.BalanceLinear
