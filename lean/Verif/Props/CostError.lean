import Verif.Props.Costs
import Verif.Props.Search
import Verif.Props.SolverGrow

/-!
Property C160: how costs and the pathways chosen by them respond to errors of the parameters and to the temperature of the cost function.
-/

set_option linter.unusedSectionVars false

namespace Verif.Props.CostError
open Verif.Py

section Reactions
open Verif.Model.Costs Verif.Spec.Costs Verif.Props.Costs Verif.Lemmas

theorem softplus_step (x y t : ℝ) (ht : 0 < t) (h : x ≤ y) : softplus y t ≤ softplus x t + (y - x) := by
  unfold softplus
  have h1 : 0 < 273 / t := by positivity
  have hx := Real.exp_pos x
  have h2 : 1 + 273 / t * Real.exp y ≤ (1 + 273 / t * Real.exp x) * Real.exp (y - x) := by
    have h3 : Real.exp x * Real.exp (y - x) = Real.exp y := by rw [← Real.exp_add]; ring_nf
    have h4 : 1 ≤ Real.exp (y - x) := Real.one_le_exp (by linarith)
    calc 1 + 273 / t * Real.exp y ≤ Real.exp (y - x) + 273 / t * (Real.exp x * Real.exp (y - x)) := by rw [h3]; linarith
      _ = _ := by ring
  calc Real.log (1 + 273 / t * Real.exp y) ≤ Real.log ((1 + 273 / t * Real.exp x) * Real.exp (y - x)) :=
        Real.log_le_log (by positivity) h2
    _ = _ := by rw [Real.log_mul (by positivity) (Real.exp_pos _).ne', Real.log_exp]

theorem softplus_error (x y t : ℝ) (ht : 0 < t) : |softplus y t - softplus x t| ≤ |y - x| := by
  rcases le_total x y with h | h
  · have h1 := softplus_step x y t ht h
    have h2 : softplus x t ≤ softplus y t := by
      rcases h.eq_or_lt with rfl | h
      · exact le_refl _
      · exact (softplus_lt x y t ht h).le
    rw [abs_of_nonneg (by linarith), abs_of_nonneg (by linarith)]; linarith
  · have h1 := softplus_step y x t ht h
    have h2 : softplus y t ≤ softplus x t := by
      rcases h.eq_or_lt with rfl | h
      · exact le_refl _
      · exact (softplus_lt y x t ht h).le
    rw [abs_of_nonpos (by linarith), abs_of_nonpos (by linarith)]; linarith

theorem softplus_le_iff (x y t : ℝ) (ht : 0 < t) : softplus x t ≤ softplus y t ↔ x ≤ y :=
  ⟨fun h => not_lt.mp fun h' => absurd h (not_le.mpr (softplus_lt y x t ht h')), fun h => by
    rcases h.eq_or_lt with rfl | h
    · exact le_refl _
    · exact (softplus_lt x y t ht h).le⟩

theorem sum_error {α : Type} [CommRing α] [LinearOrder α] [IsStrictOrderedRing α] (r r' : CRxn α) (err : String → α) {ps : List String} {vs vs' ws : List α}
    (hf : List.Forall₂ (Value r) ps vs) (hf' : List.Forall₂ (Value r') ps vs')
    (he : ∀ q ∈ ps, ∀ v v', Value r q v → Value r' q v' → |v' - v| ≤ err q) :
    |(List.zipWith (· * ·) vs' ws).sum - (List.zipWith (· * ·) vs ws).sum| ≤ (List.zipWith (fun q w => err q * |w|) ps ws).sum := by
  induction hf generalizing vs' ws with
  | nil => cases hf'; simp
  | @cons q v ps vs h1 h2 ih =>
    rcases hf' with _ | ⟨h1', h2'⟩
    rename_i v' vs'
    rcases ws with _ | ⟨w, ws⟩
    · simp
    · have h3 := ih (ws := ws) h2' fun q hq => he q (List.mem_cons_of_mem _ hq)
      have h4 := mul_le_mul_of_nonneg_right (he q List.mem_cons_self v v' h1 h1') (abs_nonneg w)
      rw [← abs_mul] at h4
      simp only [List.zipWith_cons_cons, List.sum_cons]
      calc |v' * w + (List.zipWith (· * ·) vs' ws).sum - (v * w + (List.zipWith (· * ·) vs ws).sum)|
          = |(v' - v) * w + ((List.zipWith (· * ·) vs' ws).sum - (List.zipWith (· * ·) vs ws).sum)| := by congr 1; ring
        _ ≤ |(v' - v) * w| + |(List.zipWith (· * ·) vs' ws).sum - (List.zipWith (· * ·) vs ws).sum| := abs_add_le _ _
        _ ≤ _ := add_le_add h4 h3

/-- **C160, weighted sums.** If every parameter `q` is wrong by at most `err q`, the cost is wrong by at most the sum of these errors
weighted with the sizes of the weights. -/
theorem C160_weighted {α : Type} [CommRing α] [LinearOrder α] [IsStrictOrderedRing α] (c : WeightedSum α) (r r' : CRxn α) (hr : DictOk r) (hr' : DictOk r')
    (err : String → α) (he : ∀ q ∈ c.params, ∀ v v', Value r q v → Value r' q v' → |v' - v| ≤ err q) (y y' : α)
    (hy : c.evaluate r = .ok y) (hy' : c.evaluate r' = .ok y') :
    |y' - y| ≤ (List.zipWith (fun q w => err q * |w|) c.params c.weights).sum := by
  obtain ⟨vs, hf, -, rfl⟩ := ((C62_weighted_sum c r hr).1 y).1 hy
  obtain ⟨vs', hf', -, rfl⟩ := ((C62_weighted_sum c r' hr').1 y').1 hy'
  exact sum_error r r' err hf hf' he

/-- **C160, Softplus.** The same bound holds for `Softplus` at every temperature: it amplifies no error. -/
theorem C160_softplus (t : ℝ) (ps : Option (List String)) (ws : Option (List ℝ)) (c : Softplus) (hc : mkSoftplus t ps ws = .ok c)
    (r r' : CRxn ℝ) (hr : DictOk r) (hr' : DictOk r') (err : String → ℝ)
    (he : ∀ q ∈ c.params, ∀ v v', Value r q v → Value r' q v' → |v' - v| ≤ err q) (y y' : ℝ)
    (hy : c.evaluate r = .ok y) (hy' : c.evaluate r' = .ok y') :
    |y' - y| ≤ (List.zipWith (fun q w => err q * |w|) c.params c.weights).sum := by
  obtain ⟨ht, hct⟩ := mkSoftplus_temp t ps ws c hc
  rw [softplus_eq_weighted, Exc.map_ok] at hy hy'
  obtain ⟨x, hx, rfl⟩ := hy
  obtain ⟨x', hx', rfl⟩ := hy'
  rw [hct]
  exact (softplus_error x x' t ht).trans (C160_weighted _ r r' hr hr' err he x x' hx hx')

/-- Two cost functions that differ in temperature only. -/
theorem mk_same (t t' : ℝ) (ps : Option (List String)) (ws : Option (List ℝ)) (c c' : Softplus)
    (hc : mkSoftplus t ps ws = .ok c) (hc' : mkSoftplus t' ps ws = .ok c') : c'.params = c.params ∧ c'.weights = c.weights := by
  unfold mkSoftplus at hc hc'
  split_ifs at hc hc'
  cases hc; cases hc'
  exact ⟨rfl, rfl⟩

/-- **C160, order of reactions.** Which of two reactions is cheaper does not depend on the temperature of the cost function, and is the
same for `Softplus` as for the weighted sum of the same parameters and weights. -/
theorem C160_order (t t' : ℝ) (ps : Option (List String)) (ws : Option (List ℝ)) (c c' : Softplus) (hc : mkSoftplus t ps ws = .ok c)
    (hc' : mkSoftplus t' ps ws = .ok c') (r s : CRxn ℝ) (y z y' z' : ℝ) (hy : c.evaluate r = .ok y) (hz : c.evaluate s = .ok z)
    (hy' : c'.evaluate r = .ok y') (hz' : c'.evaluate s = .ok z') :
    (y ≤ z ↔ y' ≤ z') ∧ ∃ a b, (⟨c.params, c.weights⟩ : WeightedSum ℝ).evaluate r = .ok a ∧
      (⟨c.params, c.weights⟩ : WeightedSum ℝ).evaluate s = .ok b ∧ (y ≤ z ↔ a ≤ b) := by
  obtain ⟨ht, hct⟩ := mkSoftplus_temp t ps ws c hc
  obtain ⟨ht', hct'⟩ := mkSoftplus_temp t' ps ws c' hc'
  obtain ⟨h1, h2⟩ := mk_same t t' ps ws c c' hc hc'
  rw [softplus_eq_weighted, Exc.map_ok] at hy hz hy' hz'
  rw [h1, h2] at hy' hz'
  obtain ⟨a, ha, rfl⟩ := hy
  obtain ⟨b, hb, rfl⟩ := hz
  obtain ⟨a', ha', rfl⟩ := hy'
  obtain ⟨b', hb', rfl⟩ := hz'
  rw [ha] at ha'; cases ha'
  rw [hb] at hb'; cases hb'
  rw [hct, hct', softplus_le_iff _ _ _ ht, softplus_le_iff _ _ _ ht']
  exact ⟨Iff.rfl, a, b, ha, hb, Iff.rfl⟩

/-- **C160, temperature.** Raising the temperature of the cost function from `t` to `t'` lowers the cost of a reaction by at most
`log (t' / t)`, whatever the reaction. -/
theorem C160_temperature (t t' : ℝ) (htt : t ≤ t') (ps : Option (List String)) (ws : Option (List ℝ)) (c c' : Softplus)
    (hc : mkSoftplus t ps ws = .ok c) (hc' : mkSoftplus t' ps ws = .ok c') (r : CRxn ℝ) (y y' : ℝ) (hy : c.evaluate r = .ok y)
    (hy' : c'.evaluate r = .ok y') : 0 ≤ y - y' ∧ y - y' ≤ Real.log (t' / t) := by
  constructor
  · rcases htt.eq_or_lt with rfl | hlt
    · rw [hc] at hc'; cases hc'; rw [hy] at hy'; cases hy'; simp
    · linarith [C61_decreasing t t' ps ws c c' hc hc' hlt r y y' hy hy']
  obtain ⟨ht, hct⟩ := mkSoftplus_temp t ps ws c hc
  obtain ⟨ht', hct'⟩ := mkSoftplus_temp t' ps ws c' hc'
  obtain ⟨h1, h2⟩ := mk_same t t' ps ws c c' hc hc'
  rw [softplus_eq_weighted, Exc.map_ok] at hy hy'
  rw [h1, h2] at hy'
  obtain ⟨a, ha, rfl⟩ := hy
  obtain ⟨a', ha', rfl⟩ := hy'
  rw [ha] at ha'; cases ha'
  rw [hct, hct']
  unfold softplus
  have hx := Real.exp_pos a
  rw [sub_le_iff_le_add, ← Real.log_mul (by positivity) (by positivity)]
  apply Real.log_le_log (by positivity)
  have h3 : 1 ≤ t' / t := (one_le_div ht).mpr htt
  have h4 : t' / t * (273 / t' * Real.exp a) = 273 / t * Real.exp a := by field_simp
  rw [mul_add, h4]
  linarith

/-- **C160, size.** The cost is the larger of 0 and the weighted sum shifted by `log (273 / t)`, up to `log 2`. -/
theorem C160_size (t : ℝ) (ps : Option (List String)) (ws : Option (List ℝ)) (c : Softplus) (hc : mkSoftplus t ps ws = .ok c)
    (r : CRxn ℝ) (y : ℝ) (hy : c.evaluate r = .ok y) :
    ∃ a, (⟨c.params, c.weights⟩ : WeightedSum ℝ).evaluate r = .ok a ∧
      max 0 (a + Real.log (273 / t)) ≤ y ∧ y ≤ max 0 (a + Real.log (273 / t)) + Real.log 2 := by
  obtain ⟨ht, hct⟩ := mkSoftplus_temp t ps ws c hc
  rw [softplus_eq_weighted, Exc.map_ok] at hy
  obtain ⟨a, ha, rfl⟩ := hy
  refine ⟨a, ha, ?_, ?_⟩
  · rw [hct]
    refine max_le (softplus_pos a t ht).le ?_
    have h1 : a + Real.log (273 / t) = Real.log (273 / t * Real.exp a) := by
      rw [Real.log_mul (by positivity) (Real.exp_pos a).ne', Real.log_exp, add_comm]
    rw [h1]
    unfold softplus
    have := Real.exp_pos a
    exact Real.log_le_log (by positivity) (by linarith)
  · rw [hct]
    unfold softplus
    have hx := Real.exp_pos a
    have h1 : a + Real.log (273 / t) = Real.log (273 / t * Real.exp a) := by
      rw [Real.log_mul (by positivity) (Real.exp_pos a).ne', Real.log_exp, add_comm]
    rw [h1]
    have h2 : 0 < 273 / t * Real.exp a := by positivity
    rcases le_total (273 / t * Real.exp a) 1 with h | h
    · calc Real.log (1 + 273 / t * Real.exp a) ≤ Real.log 2 := Real.log_le_log (by positivity) (by linarith)
        _ ≤ _ := by linarith [le_max_left 0 (Real.log (273 / t * Real.exp a))]
    · calc Real.log (1 + 273 / t * Real.exp a) ≤ Real.log ((273 / t * Real.exp a) * 2) := Real.log_le_log (by positivity) (by linarith)
        _ = Real.log (273 / t * Real.exp a) + Real.log 2 := Real.log_mul h2.ne' (by norm_num)
        _ ≤ _ := by linarith [le_max_right 0 (Real.log (273 / t * Real.exp a))]

/-- The hypotheses can be met: the default cost function at 300 K, and energies of −1 and −9/10. -/
example : ∃ (c : Softplus) (y y' : ℝ), mkSoftplus 300 none none = .ok c ∧
    c.evaluate ⟨none, fun p => if p = "energy_per_atom" then some (-1) else none⟩ = .ok y ∧
    c.evaluate ⟨none, fun p => if p = "energy_per_atom" then some (-9/10) else none⟩ = .ok y' ∧ |y' - y| ≤ 1/10 := by
  have ev : ∀ v : ℝ, (⟨300, ["energy_per_atom"], [1]⟩ : Softplus).evaluate ⟨none, fun p => if p = "energy_per_atom" then some v else none⟩ =
      .ok (softplus v 300) := fun v => by
    unfold Softplus.evaluate
    rw [Exc.mapM_cons, Exc.mapM_nil]
    simp [lookup, dot]
  have hc : mkSoftplus 300 none none = .ok ⟨300, ["energy_per_atom"], [1]⟩ := by
    unfold mkSoftplus
    rw [if_neg (by norm_num)]
    rfl
  refine ⟨_, _, _, hc, ev _, ev _, ?_⟩
  have h := C160_softplus 300 none none _ hc ⟨none, fun p => if p = "energy_per_atom" then some (-1) else none⟩
    ⟨none, fun p => if p = "energy_per_atom" then some (-9/10) else none⟩ (fun d hd => by cases hd) (fun d hd => by cases hd)
    (fun _ => 1/10) (fun q hq v v' hv hv' => by
      rw [List.mem_singleton.mp hq] at hv hv'
      rcases hv with ⟨d, hd, -⟩ | ⟨-, hv⟩
      · cases hd
      · rcases hv' with ⟨d, hd, -⟩ | ⟨-, hv'⟩
        · cases hd
        · simp only [if_true, Option.some.injEq] at hv hv'
          rw [← hv, ← hv']; norm_num [abs_le]) _ _ (ev _) (ev _)
  simpa using h

end Reactions

section Network
open Verif.Model.Network Verif.Spec.Network Verif.Spec.Paths Verif.Spec.Pathfinding
open Verif.Props.Network Verif.Props.Pathfinding Verif.Lemmas.Paths Verif.Props.Search

variable {η ρ : Type} [DecidableEq η] [DecidableEq ρ]

/-- What a reported pathway costs with the costs `c` of its reactions. -/
def costWith (c : ρ → ℚ) (p : List (Edge ρ × ℚ)) : ℚ := (p.map fun x => weightOf c x.1).sum

theorem sum_close (c c' : ρ → ℚ) (δ : ℚ) : ∀ rs : List ρ, (∀ r ∈ rs, |c' r - c r| ≤ δ) →
    |(rs.map c').sum - (rs.map c).sum| ≤ δ * rs.length
  | [], _ => by simp
  | r :: rs, h => by
    have h1 := abs_le.mp (sum_close c c' δ rs fun x hx => h x (List.mem_cons_of_mem _ hx))
    have h2 := abs_le.mp (h r List.mem_cons_self)
    rw [List.map_cons, List.sum_cons, List.map_cons, List.sum_cons, List.length_cons]
    push_cast
    rw [abs_le]
    constructor <;> linarith [h1.1, h1.2, h2.1, h2.2]

theorem costWith_asPath (c c' : ρ → ℚ) (rs : List ρ) : costWith c (asPath c' rs) = (rs.map c).sum := by
  unfold costWith asPath
  rw [List.map_map]
  rfl

/-- **C160, pathways.** If no cost of a reaction is wrong by more than `δ`, a pathway is found with the wrong costs exactly if one is
found with the right ones; the cost reported for the first pathway is wrong by at most `δ` per step; and what the pathway chosen really
costs exceeds the least possible cost by at most `δ` per step of both (reactions between the same phases costing the same, see C143). -/
theorem C160_pathway_partial {R P : ρ → Finset η} {rxns : List ρ} {c c' : ρ → ℚ} {ps : List η} {t : η} {k k' : ℕ}
    {out out' : List (List (Edge ρ × ℚ))} (δ : ℚ) (hc : ∀ r ∈ rxns, 0 ≤ c r) (hc' : ∀ r ∈ rxns, 0 ≤ c' r) (hps : ps ≠ [])
    (h : Finds R P rxns c ps t k out) (h' : Finds R P rxns c' ps t k' out') (hpar : NoRivals R P rxns c) (hpar' : NoRivals R P rxns c')
    (hδ : ∀ r ∈ rxns, |c' r - c r| ≤ δ) :
    (out = [] ↔ out' = []) ∧ ∀ p p', out.head? = some p → out'.head? = some p' →
      |total p' - total p| ≤ δ * max p.length p'.length ∧ total p ≤ costWith c p' ∧
      costWith c p' ≤ total p + δ * (p.length + p'.length) := by
  obtain ⟨Ls, rfl, A⟩ := finds_answer hc hps h
  obtain ⟨Ls', rfl, A'⟩ := finds_answer hc' hps h'
  refine ⟨by rw [List.map_eq_nil_iff, List.map_eq_nil_iff, A.none, A'.none], fun p p' hp hp' => ?_⟩
  rw [List.head?_map] at hp hp'
  cases hL : Ls.head? with
  | none => simp [hL] at hp
  | some rs =>
    cases hL' : Ls'.head? with
    | none => simp [hL'] at hp'
    | some rs' =>
      obtain rfl : asPath c rs = p := by simpa [hL] using hp
      obtain rfl : asPath c' rs' = p' := by simpa [hL'] using hp'
      have s1 := A.sound rs (List.mem_of_head? hL)
      have s2 := A'.sound rs' (List.mem_of_head? hL')
      have e1 := A.first hpar rs hL rs' s2.1 s2.2
      have e2 := A'.first hpar' rs' hL' rs s1.1 s1.2
      have d1 := abs_le.mp (sum_close c c' δ rs fun r hr => hδ r (s1.1 r hr))
      have d2 := abs_le.mp (sum_close c c' δ rs' fun r hr => hδ r (s2.1 r hr))
      have l1 : (asPath c rs).length = rs.length := by unfold asPath; simp
      have l2 : (asPath c' rs').length = rs'.length := by unfold asPath; simp
      rw [costWith_asPath, l1, l2]
      unfold total
      rw [asPath_cost, asPath_cost]
      have hδ0 : 0 ≤ δ ∨ rs.length = 0 ∧ rs'.length = 0 := by
        by_cases hr : ∃ r, r ∈ rs ∨ r ∈ rs'
        · obtain ⟨r, hr | hr⟩ := hr
          · exact Or.inl ((abs_nonneg _).trans (hδ r (s1.1 r hr)))
          · exact Or.inl ((abs_nonneg _).trans (hδ r (s2.1 r hr)))
        · push Not at hr
          refine Or.inr ⟨?_, ?_⟩
          · rw [List.length_eq_zero_iff]; exact List.eq_nil_iff_forall_not_mem.mpr fun r h => (hr r).1 h
          · rw [List.length_eq_zero_iff]; exact List.eq_nil_iff_forall_not_mem.mpr fun r h => (hr r).2 h
      have m1 : δ * rs.length ≤ δ * ((max rs.length rs'.length : ℕ) : ℚ) := by
        rcases hδ0 with h0 | ⟨h0, h1⟩
        · exact mul_le_mul_of_nonneg_left (by exact_mod_cast le_max_left _ _) h0
        · rw [h0, h1]; simp
      have m2 : δ * rs'.length ≤ δ * ((max rs.length rs'.length : ℕ) : ℚ) := by
        rcases hδ0 with h0 | ⟨h0, h1⟩
        · exact mul_le_mul_of_nonneg_left (by exact_mod_cast le_max_right _ _) h0
        · rw [h0, h1]; simp
      refine ⟨?_, e1, ?_⟩
      · rw [abs_le]
        constructor <;> linarith [d1.1, d1.2, d2.1, d2.2]
      · linarith [d1.1, d1.2, d2.1, d2.2]

/-- Wrong costs for `0 → 1` (17/4 instead of 5), `0 → 2` and `2 → 1` (5/2 instead of 2). -/
def wrongC : ℕ → ℚ
  | 0 => 17/4
  | _ => 5/2

theorem rWrong : Finds rR rP [0, 1, 2] wrongC [0] 1 1 [[(.rxn 0, 17/4)]] :=
  finds_of _ _ _ {0, 1, 2} _ _ _ _ (by decide) _ (by decide +kernel)

/-- The hypotheses can be met: costs wrong by up to 3/4; another pathway is chosen, which really costs 5 instead of 4. -/
example : costWith rC [(.rxn 0, 17/4)] = 5 ∧ total [((.rxn 1 : Edge ℕ), (2 : ℚ)), (.rxn 2, 2)] = 4 ∧
    (costWith rC [(.rxn 0, 17/4)] ≤ total [((.rxn 1 : Edge ℕ), (2 : ℚ)), (.rxn 2, 2)] + 3/4 * (2 + 1)) := by
  refine ⟨by decide +kernel, by decide +kernel, ?_⟩
  have h := ((C160_pathway_partial (3/4) (by decide +kernel) (by decide +kernel) (by decide) rAll rWrong (by unfold NoRivals; decide +kernel)
    (by unfold NoRivals; decide +kernel) (by decide +kernel)).2 _ _ rfl rfl).2.2
  simpa using h

end Network

section Solver
open Verif.Model.RxnSet Verif.Model.Pathway Verif.Model.Solver Verif.Lemmas.Exc Verif.Lemmas.Solver
  Verif.Props.Utils Verif.Props.Solver Verif.Props.SolverChunks Verif.Lemmas Verif.Props.SolverGrow

variable {η δ ε κ : Type} [DecidableEq η] [DecidableEq κ]

/-- The same reaction, with costs that differ by at most `d`. -/
def Close {ρ : Type} (d : ℚ) (a b : ρ × ℚ) : Prop := a.1 = b.1 ∧ |b.2 - a.2| ≤ d

/-- Two inputs of the solver that differ in the costs only, by at most `d`; the duplicate filter, which compares reactions, treats both
alike. -/
structure Recosted (c : Config η δ ε κ) (d : ℚ) (i j : Input η δ ε) : Prop where
  offered : List.Forall₂ (Close d) i.offered j.offered
  combos : i.maxCombos = j.maxCombos
  filter : i.filterInter = j.filterInter
  keep : ∀ r, i.keep (collectRxns c.eq [] i.offered) r = j.keep (collectRxns c.eq [] j.offered) r

theorem any_close {ρ : Type} (eq : ρ → ρ → Bool) (d : ℚ) (r : ρ) : ∀ {acc acc' : List (ρ × ℚ)}, List.Forall₂ (Close d) acc acc' →
    (acc.any fun a => eq a.1 r) = acc'.any fun a => eq a.1 r
  | _, _, .nil => rfl
  | _, _, .cons h t => by rw [List.any_cons, List.any_cons, h.1, any_close eq d r t]

theorem collect_close {ρ : Type} (eq : ρ → ρ → Bool) (d : ℚ) : ∀ {l l' acc acc' : List (ρ × ℚ)}, List.Forall₂ (Close d) l l' →
    List.Forall₂ (Close d) acc acc' → List.Forall₂ (Close d) (collectRxns eq acc l) (collectRxns eq acc' l')
  | _, _, _, _, .nil, ha => ha
  | a :: l, b :: l', acc, acc', .cons h t, ha => by
    unfold collectRxns
    rw [h.1, any_close eq d b.1 ha]
    split
    · exact collect_close eq d t ha
    · exact collect_close eq d t (List.rel_append ha (.cons h .nil))

theorem filter_close {ρ : Type} (d : ℚ) (f g : ρ → Bool) (hfg : ∀ r, f r = g r) : ∀ {l l' : List (ρ × ℚ)}, List.Forall₂ (Close d) l l' →
    List.Forall₂ (Close d) (l.filter fun a => f a.1) (l'.filter fun a => g a.1)
  | _, _, .nil => .nil
  | a :: l, b :: l', .cons h t => by
    rw [List.filter_cons, List.filter_cons, h.1, hfg]
    split
    · exact .cons h (filter_close d f g hfg t)
    · exact filter_close d f g hfg t

theorem fst_close {ρ : Type} (d : ℚ) : ∀ {l l' : List (ρ × ℚ)}, List.Forall₂ (Close d) l l' → l.map Prod.fst = l'.map Prod.fst
  | _, _, .nil => rfl
  | _, _, .cons h t => by rw [List.map_cons, List.map_cons, h.1, fst_close d t]

theorem cost_close {ρ : Type} (eq : ρ → ρ → Bool) (d : ℚ) (r : ρ) : ∀ {l l' : List (ρ × ℚ)}, List.Forall₂ (Close d) l l' → ∀ {v : ℚ},
    costOf eq l r = some v → ∃ v', costOf eq l' r = some v' ∧ |v' - v| ≤ d
  | _, _, .nil, _, h => by cases h
  | a :: l, b :: l', .cons h t, v, hv => by
    unfold costOf at hv ⊢
    rw [List.find?_cons] at hv ⊢
    rw [h.1] at hv
    cases hb : eq b.1 r with
    | true =>
      rw [hb] at hv
      simp only [Option.map_some, Option.some.injEq] at hv ⊢
      exact ⟨b.2, rfl, hv ▸ h.2⟩
    | false =>
      rw [hb] at hv
      exact cost_close eq d r t hv

theorem costs_close {ρ : Type} (eq : ρ → ρ → Bool) (d : ℚ) {l l' : List (ρ × ℚ)} (h : List.Forall₂ (Close d) l l') : ∀ rs : List ρ,
    (rs.filterMap (costOf eq l)).length = rs.length →
    List.Forall₂ (fun v v' => |v' - v| ≤ d) (rs.filterMap (costOf eq l)) (rs.filterMap (costOf eq l'))
  | [], _ => .nil
  | r :: rs, hall => by
    cases hb : costOf eq l r with
    | none =>
      rw [List.filterMap_cons_none hb, List.length_cons] at hall
      have := List.length_filterMap_le (costOf eq l) rs
      omega
    | some v =>
      obtain ⟨v', hv', hd⟩ := cost_close eq d r h hb
      rw [List.filterMap_cons_some hb] at hall ⊢
      rw [List.filterMap_cons_some hv']
      exact .cons hd (costs_close eq d h rs (by simpa using hall))

/-- Means with the same positive multiplicities of costs that differ by at most `d`. -/
theorem mean_close (d : ℚ) : ∀ (w a b : List ℚ), (∀ x ∈ w, 0 ≤ x) → w.length = a.length → List.Forall₂ (fun v v' => |v' - v| ≤ d) a b →
    |(w.zipWith (· * ·) b).sum - (w.zipWith (· * ·) a).sum| ≤ d * w.sum
  | [], _, _, _, _, _ => by simp
  | x :: w, [], _, _, hl, _ => by simp at hl
  | x :: w, v :: a, v' :: b, hw, hl, .cons h t => by
    have h1 := abs_le.mp (mean_close d w a b (fun y hy => hw y (List.mem_cons_of_mem _ hy)) (by simpa using hl) t)
    have h2 := abs_le.mp h
    have h3 := hw x List.mem_cons_self
    have h4 := mul_le_mul_of_nonneg_left h2.1 h3
    have h5 := mul_le_mul_of_nonneg_left h2.2 h3
    simp only [List.zipWith_cons_cons, List.sum_cons]
    rw [abs_le]
    constructor <;> linarith [h1.1, h1.2]

/-- **C160, the mean cost of a pathway.** If no cost of a step is wrong by more than `d`, neither is the mean cost, whatever the
multiplicities. -/
theorem C160_mean (d : ℚ) (w a b : List ℚ) (hw : ∀ x ∈ w, 0 < x) (h : List.Forall₂ (fun v v' => |v' - v| ≤ d) a b) (m m' : ℚ)
    (hm : averageCost w a = .ok m) (hm' : averageCost w b = .ok m') : |m' - m| ≤ d := by
  unfold averageCost at hm hm'
  split_ifs at hm hm' with h1 h2 h3
  cases hm; cases hm'
  have h4 := mean_close d w a b (fun x hx => (hw x hx).le) (not_not.mp h1) h
  have h5 : 0 < w.sum := lt_of_le_of_ne (List.sum_nonneg fun x hx => (hw x hx).le) (Ne.symm h2)
  rw [← sub_div, abs_div, abs_of_pos h5, div_le_iff₀ h5]
  exact h4

/-- Solutions have one positive multiplicity per reaction. -/
theorem solution_pos (c : Config η δ ε κ) (hu : Usable c) (hpinv : ∀ m v w, c.pinv m v = .ok w → w.length = m.length) (net : SRxn η δ ε)
    (k : ℕ) (rxns : List (SRxn η δ ε)) (sols : List (Mat × List ℚ)) (h : solutions c net k rxns = .ok sols) (x : Mat × List ℚ) (hx : x ∈ sols) :
    x.2.length = x.1.length ∧ ∀ m ∈ x.2, 0 < m := by
  obtain ⟨netV, -, -, hperm⟩ := solutions_ok c hu net _ _ _ h
  have hx2 := hperm.mem_iff.mp hx
  unfold accOf at hx2
  obtain ⟨o, ho, hox⟩ := List.mem_filterMap.mp hx2
  obtain ⟨m, -, hm⟩ := List.mem_filterMap.mp ho
  rw [opt_ok] at hm
  have hox : o = some x := hox
  subst hox
  unfold balanceOne at hm
  split_ifs at hm
  · split at hm
    · cases hm
    · rename_i mult hmult
      rw [Except.ok.injEq] at hm
      split_ifs at hm with hacc
      rw [Option.some.injEq] at hm
      subst hm
      refine ⟨hpinv _ _ _ hmult, fun y hy => ?_⟩
      unfold accepted at hacc
      rw [Bool.and_eq_true, Bool.not_eq_true', List.any_eq_false] at hacc
      have h1 := hacc.1 y hy
      simp only [decide_eq_true_eq, not_lt] at h1
      exact lt_of_lt_of_le (by norm_num) h1
  · cases hm

theorem Recosted.symm {c c' : Config η δ ε κ} (hs : SameTask c c') {d : ℚ} {i j : Input η δ ε} (h : Recosted c d i j) : Recosted c' d j i where
  offered := (h.offered.imp fun _ _ hab => ⟨hab.1.symm, by rw [abs_sub_comm]; exact hab.2⟩ : List.Forall₂ (fun a b => Close d b a) i.offered j.offered).flip
  combos := h.combos.symm
  filter := h.filter.symm
  keep r := by rw [← hs.eq]; exact (h.keep r).symm

/-- **C160, the solver.** Two successful runs with the same task and candidates whose costs differ by at most `d`: every pathway of one
is represented in the other by one with the same multiplicities and equal steps, whose costs, step by step and on average, differ by at
most `d`. -/
theorem C160_solver (c c' : Config η δ ε κ) (hs : SameTask c c') (hu : Usable c) (hu' : Usable c') (hsub : ∀ l, ∀ q ∈ c.pick l, q ∈ l)
    (hpick : PickSpec c'.eq c'.pick) (he : Equivalence fun a b => c.eq a b = true)
    (hpinv : ∀ m v w, c.pinv m v = .ok w → w.length = m.length) (d : ℚ) (i j : Input η δ ε) (hw : Recosted c d i j) (net : SRxn η δ ε)
    (precursors : Finset κ) (out out' : List (Path (SRxn η δ ε))) (h : i.run c net precursors = .ok out) (h' : j.run c' net precursors = .ok out') :
    ∀ p ∈ out, ∃ q ∈ out', q.coefficients = p.coefficients ∧ List.Forall₂ (fun v v' => |v' - v| ≤ d) p.costs q.costs ∧
      List.Forall₂ (fun a b => a = b ∨ c.eq a b = true) q.reactions p.reactions ∧
      ∃ m m', MeanCost p m ∧ MeanCost q m' ∧ |m' - m| ≤ d := by
  obtain ⟨cl, sols, ps, ks, hcl, hsol, hps, hks, rfl⟩ := run_parts h
  obtain ⟨cl', sols', ps', ks', hcl', hsol', hps', hks', rfl⟩ := run_parts h'
  have hclose : List.Forall₂ (Close d) cl cl' := by
    rw [hcl, hcl', ← hs.eq]
    exact filter_close d (fun r => i.keep (collectRxns c.eq [] i.offered) r && !c.eq r net)
      (fun r => j.keep (collectRxns c.eq [] j.offered) r && !c.eq r net) (fun r => by rw [hw.keep r]) (collect_close c.eq d hw.offered .nil)
  have hin : ∀ x ∈ sols, x ∈ sols' := by
    obtain ⟨netV, hn, -, hp⟩ := solutions_ok c hu net _ _ _ hsol
    obtain ⟨netV', hn', -, hp'⟩ := solutions_ok c' hu' net _ _ _ hsol'
    rw [← hs.idx, ← hs.entries, hn] at hn'
    cases hn'
    intro x hx
    rw [hp'.mem_iff, ← hs.pinv]
    refine accOf_mem _ _ ?_ x (hp.mem_iff.mp hx)
    intro m hm
    have h1 : allMats c' netV j.maxCombos (cl'.map Prod.fst) = allMats c netV i.maxCombos (cl.map Prod.fst) := by
      unfold allMats
      rw [← hs.idx, ← hs.entries, hw.combos, fst_close d hclose]
    rw [h1]; exact hm
  intro p hp
  rw [out_mem hks] at hp
  obtain ⟨y, -, hky⟩ := mapM_at _ _ _ hks p hp
  obtain ⟨w, hw1, hw2, hw3, hw4⟩ := keyed_mean hky
  have hp := hsub _ _ hp
  have hpm : p ∈ ps ∧ (i.filterInter = true → interdependent c.order c.R c.P precursors p.reactions = false) := by
    split_ifs at hp with hf
    · have := List.mem_filter.mp hp
      exact ⟨this.1, fun _ => by simpa using this.2⟩
    · exact ⟨hp, fun hf' => absurd hf' hf⟩
  obtain ⟨x, hx, hxp⟩ := mapM_mem _ _ _ hps p hpm.1
  obtain ⟨p', hp', hxp'⟩ := mapM_at _ _ _ hps' x (hin x hx)
  obtain ⟨rs, hrs, rfl⟩ := pathFrom_parts hxp
  rw [← hs.eq, ← hs.entries, ← hs.data, ← hs.mu] at hxp'
  obtain ⟨rs', hrs', rfl⟩ := pathFrom_parts hxp'
  rw [hrs] at hrs'
  cases hrs'
  have hl : (⟨rs, rs.filterMap (costOf c.eq cl'), some x.2, true⟩ : Path (SRxn η δ ε)) ∈
      (if j.filterInter then ps'.filter fun p => !interdependent c'.order c'.R c'.P precursors p.reactions else ps') := by
    rw [← hs.order, ← hs.R, ← hs.P]
    split_ifs with hf
    · exact List.mem_filter.mpr ⟨hp', by simpa using hpm.2 (hw.filter.trans hf)⟩
    · exact hp'
  obtain ⟨q, hq, hq1, hq2⟩ := hpick.rep _ _ hl
  rw [← hs.eq] at hq2
  -- the representative has the costs of the steps it stands for
  have hqm := hpick.sub _ _ hq
  have hqp : q ∈ ps' := by
    split_ifs at hqm
    · exact (List.mem_filter.mp hqm).1
    · exact hqm
  obtain ⟨x', -, hxq⟩ := mapM_mem _ _ _ hps' q hqp
  rw [← hs.eq, ← hs.entries, ← hs.data, ← hs.mu] at hxq
  obtain ⟨rs', -, hqe⟩ := pathFrom_parts hxq
  obtain ⟨hlen, hpos⟩ := solution_pos c hu hpinv net _ _ _ hsol x hx
  have hwx : w = x.2 := (Option.some.inj hw1).symm
  have hall : (rs.filterMap (costOf c.eq cl)).length = rs.length := by
    rw [← hw2, hwx, hlen]
    rw [mapM_ok] at hrs
    exact hrs.length_eq
  have hcosts := costs_close c.eq d hclose rs hall
  have hqc : q.costs = rs.filterMap (costOf c.eq cl') := by
    rw [hqe] at hq2 ⊢
    refine costs_same he (List.Sublist.refl cl') ?_ hq2 (by rw [← hcosts.length_eq]; exact hall)
    rw [hcl', ← hs.eq]
    exact (collectRxns_pairwise c.eq _ [] List.Pairwise.nil).filter _
  obtain ⟨y', -, hky'⟩ := mapM_at _ _ _ hks' q hq
  obtain ⟨w', hw1', hw2', hw3', hw4'⟩ := keyed_mean hky'
  refine ⟨q, (out_mem hks' q).mpr hq, hq1, by rw [hqc]; exact hcosts, hq2, y.1, y'.1, ⟨w, hw1, hw2, hw3, hw4⟩, ⟨w', hw1', hw2', hw3', hw4'⟩, ?_⟩
  have hww : w' = w := by
    rw [hq1] at hw1'
    exact Option.some.inj (hw1'.symm.trans hw1)
  subst hww
  rw [hqc] at hw4'
  have h5 : 0 < w'.sum := lt_of_le_of_ne (List.sum_nonneg fun x hx => (hpos x (hwx ▸ hx)).le) (Ne.symm hw3)
  have h6 := mean_close d w' _ _ (fun x hx => (hpos x (hwx ▸ hx)).le) hw2 hcosts
  rw [← hw4, ← hw4', ← sub_mul, abs_mul, abs_of_pos h5] at h6
  exact le_of_mul_le_mul_right h6 h5

theorem mean_unique {ρ : Type} {p : Path ρ} {m m' : ℚ} (h : MeanCost p m) (h' : MeanCost p m') : m = m' := by
  obtain ⟨w, h1, -, h3, h4⟩ := h
  obtain ⟨w', h1', -, -, h4'⟩ := h'
  rw [h1] at h1'
  cases h1'
  exact mul_right_cancel₀ h3 (h4.trans h4'.symm)

/-- The first pathway has the least mean cost. -/
theorem head_least (c : Config η δ ε κ) (i : Input η δ ε) (net : SRxn η δ ε) (precursors : Finset κ) (out : List (Path (SRxn η δ ε)))
    (h : i.run c net precursors = .ok out) (b : Path (SRxn η δ ε)) (hb : out.head? = some b) (p : Path (SRxn η δ ε)) (hp : p ∈ out) (m m' : ℚ)
    (hm : MeanCost b m) (hm' : MeanCost p m') : m ≤ m' := by
  obtain ⟨cl, sols, ps, ks, -, -, -, hks, rfl⟩ := run_parts h
  obtain ⟨x, hx, rfl⟩ := List.mem_map.mp hp
  have key : ∀ x ∈ ks.insertionSort (fun a b => a.1 ≤ b.1), MeanCost x.2 x.1 := by
    intro x hx
    rw [List.mem_insertionSort] at hx
    obtain ⟨p, hp, hkp⟩ := mapM_mem _ _ _ hks x hx
    rw [(keyed_ok p x hkp).1]
    exact keyed_mean hkp
  have pw : (ks.insertionSort fun a b => a.1 ≤ b.1).Pairwise fun a b => a.1 ≤ b.1 := by
    have : Std.Total (fun a b : ℚ × Path (SRxn η δ ε) => a.1 ≤ b.1) := ⟨fun a b => le_total a.1 b.1⟩
    have : IsTrans (ℚ × Path (SRxn η δ ε)) (fun a b => a.1 ≤ b.1) := ⟨fun a b c => le_trans⟩
    exact List.pairwise_insertionSort _ _
  generalize ks.insertionSort (fun a b => a.1 ≤ b.1) = l at hx key pw hb
  cases l with
  | nil => simp at hx
  | cons a l =>
    obtain rfl : a.2 = b := by simpa using hb
    rw [mean_unique hm (key a List.mem_cons_self), mean_unique hm' (key x hx)]
    rcases List.mem_cons.mp hx with rfl | hx
    · exact le_refl _
    · exact (List.pairwise_cons.mp pw).1 x hx

/-- **C160, the best pathway of the solver.** With costs wrong by at most `d`, the solver returns something exactly if it does so with the
right ones; the mean cost of the first pathway is wrong by at most `d`, and with the right costs this pathway (a returned one with the
same multiplicities and equal steps) is at most `2 * d` more expensive on average than the best. -/
theorem C160_solver_best (c c' : Config η δ ε κ) (hs : SameTask c c') (hu : Usable c) (hu' : Usable c') (hpick : PickSpec c.eq c.pick)
    (hpick' : PickSpec c'.eq c'.pick) (he : Equivalence fun a b => c.eq a b = true)
    (hpinv : ∀ m v w, c.pinv m v = .ok w → w.length = m.length) (d : ℚ) (i j : Input η δ ε) (hw : Recosted c d i j) (net : SRxn η δ ε)
    (precursors : Finset κ) (out out' : List (Path (SRxn η δ ε))) (h : i.run c net precursors = .ok out) (h' : j.run c' net precursors = .ok out') :
    (out = [] ↔ out' = []) ∧ ∀ b b', out.head? = some b → out'.head? = some b' → ∃ m m', MeanCost b m ∧ MeanCost b' m' ∧ |m' - m| ≤ d ∧
      ∃ p ∈ out, p.coefficients = b'.coefficients ∧ List.Forall₂ (fun a b => a = b ∨ c.eq a b = true) p.reactions b'.reactions ∧
        ∃ mp, MeanCost p mp ∧ mp ≤ m + 2 * d := by
  have k1 := C160_solver c c' hs hu hu' hpick.sub hpick' he hpinv d i j hw net precursors out out' h h'
  have hs' : SameTask c' c := ⟨hs.eq.symm, hs.idx.symm, hs.entries.symm, hs.data.symm, hs.mu.symm, hs.pinv.symm, hs.order.symm, hs.R.symm, hs.P.symm⟩
  have k2 := C160_solver c' c hs' hu' hu hpick'.sub hpick (by rw [← hs.eq]; exact he) (by rw [← hs.pinv]; exact hpinv) d j i (hw.symm hs) net
    precursors out' out h' h
  refine ⟨⟨fun h0 => ?_, fun h0 => ?_⟩, fun b b' hb hb' => ?_⟩
  · refine List.eq_nil_iff_forall_not_mem.mpr fun p hp => ?_
    obtain ⟨q, hq, -⟩ := k2 p hp
    rw [h0] at hq; cases hq
  · refine List.eq_nil_iff_forall_not_mem.mpr fun p hp => ?_
    obtain ⟨q, hq, -⟩ := k1 p hp
    rw [h0] at hq; cases hq
  · obtain ⟨q, hq, -, -, -, m, mq, hm, hmq, hd⟩ := k1 b (List.mem_of_head? hb)
    obtain ⟨p, hp, hp1, -, hp3, m', mp, hm', hmp, hd'⟩ := k2 b' (List.mem_of_head? hb')
    have e1 := head_least c' j net precursors out' h' b' hb' q hq m' mq hm' hmq
    have e2 := head_least c i net precursors out h b hb p hp m mp hm hmp
    have d1 := abs_le.mp hd
    have d2 := abs_le.mp hd'
    refine ⟨m, m', hm, hm', abs_le.mpr ⟨by linarith [d2.1, d2.2], by linarith [d1.1, d1.2]⟩, p, hp, hp1, by rw [hs.eq]; exact hp3, mp, hmp, ?_⟩
    linarith [d1.1, d1.2, d2.1, d2.2]

/-- The wider example of C153 with other costs, wrong by 1. -/
def recosted : Input ℕ Unit ℕ := ⟨[⟨[stepA, stepB], [2, 4], none, false⟩], [(stepD, 2)], 3, false, fun _ _ => true⟩

theorem recosted_run : recosted.run (exConfig widePinv 2) netAB {0} = .ok [⟨[stepA, stepB], [2, 4], some [1, 1], true⟩,
    ⟨[stepB, stepD], [4, 2], some [1, 1 / 2], true⟩] := by decide +kernel

theorem recosted_ok : Recosted (exConfig widePinv 2) 1 wide recosted :=
  ⟨by
    have h1 : wide.offered = [(stepA, 3), (stepB, 5), (stepD, 1)] := rfl
    have h2 : recosted.offered = [(stepA, 2), (stepB, 4), (stepD, 2)] := rfl
    rw [h1, h2]
    exact .cons ⟨rfl, by norm_num [abs_le]⟩ (.cons ⟨rfl, by norm_num [abs_le]⟩ (.cons ⟨rfl, by norm_num [abs_le]⟩ .nil)), rfl, rfl, fun _ => rfl⟩

/-- The hypotheses can be met: with the wrong costs the two pathways change places, and the one now in front (mean cost 4 with the right
costs) is less than 2 above the best (11/3). -/
example := (C160_solver_best _ _ same wide_usable wide_usable ex_pick ex_pick ex_equiv wide_pinv 1 wide recosted recosted_ok netAB {0} _ _
  wide_run recosted_run).2 _ _ rfl rfl

end Solver

end Verif.Props.CostError
