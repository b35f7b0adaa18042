import Verif.Props.CostChoice
import Verif.Props.ScoreTemp
import Mathlib.Analysis.Convex.SpecificFunctions.Basic

/-!
Property C167: costs of reactions and pathways between two conditions (src/rxn_network/costs/functions.py, src/rxn_network/network/network.py,
src/rxn_network/pathways/balanced.py).
-/

set_option linter.unusedSectionVars false

namespace Verif.Props.CostBetween
open Verif.Py

section Reactions
open Verif.Model.Costs Verif.Spec.Costs Verif.Props.Costs Verif.Lemmas Verif.Props.CostError

/-! ### Specification -/

/-- A value between two conditions that is their interpolation, or, if it counts as a cost, at most that. -/
def Between {α : Type} [CommRing α] [LE α] (s w v1 v2 v : α) : Prop :=
  v = (1 - s) * v1 + s * v2 ∨ 0 ≤ w ∧ v ≤ (1 - s) * v1 + s * v2

/-! ### Helper lemmas -/

theorem log_mid {a b s : ℝ} (ha : 0 < a) (hb : 0 < b) (hs0 : 0 ≤ s) (hs1 : s ≤ 1) :
    (1 - s) * Real.log a + s * Real.log b ≤ Real.log ((1 - s) * a + s * b) := by
  have := strictConcaveOn_log_Ioi.concaveOn.2 (Set.mem_Ioi.mpr ha) (Set.mem_Ioi.mpr hb) (sub_nonneg.mpr hs1) hs0 (by ring)
  simpa [smul_eq_mul] using this

theorem mid_pos {a b s : ℝ} (ha : 0 < a) (hb : 0 < b) (hs0 : 0 ≤ s) (hs1 : s ≤ 1) : 0 < (1 - s) * a + s * b := by
  rcases hs0.eq_or_lt with rfl | h
  · simpa using ha
  · exact add_pos_of_nonneg_of_pos (mul_nonneg (sub_nonneg.mpr hs1) ha.le) (mul_pos h hb)

/-- The tangent of `log (1 + exp)` lies below it. -/
theorem tangent (z w : ℝ) : Real.log (1 + Real.exp z) + Real.exp z / (1 + Real.exp z) * (w - z) ≤ Real.log (1 + Real.exp w) := by
  have hz := Real.exp_pos z
  have hd : 0 < 1 + Real.exp z := by linarith
  set p := Real.exp z / (1 + Real.exp z) with hp
  have hp0 : 0 ≤ p := by positivity
  have hp1 : p ≤ 1 := by rw [hp, div_le_one hd]; linarith
  have h := log_mid (a := 1) (b := Real.exp (w - z)) one_pos (Real.exp_pos _) hp0 hp1
  rw [Real.log_one, Real.log_exp, mul_zero, zero_add] at h
  have he : 1 + Real.exp w = (1 + Real.exp z) * ((1 - p) * 1 + p * Real.exp (w - z)) := by
    rw [hp, Real.exp_sub]
    field_simp
    ring
  rw [he, Real.log_mul hd.ne' (mid_pos one_pos (Real.exp_pos _) hp0 hp1).ne']
  linarith

theorem softplus_shift (x t : ℝ) (ht : 0 < t) : softplus x t = Real.log (1 + Real.exp (x + Real.log 273 - Real.log t)) := by
  unfold softplus
  rw [Real.exp_sub, Real.exp_add, Real.exp_log (by norm_num), Real.exp_log ht]
  congr 2
  ring

theorem softplus_mid {x1 x2 x t1 t2 s : ℝ} (h1 : 0 < t1) (h2 : 0 < t2) (hs0 : 0 ≤ s) (hs1 : s ≤ 1) (hx : x ≤ (1 - s) * x1 + s * x2) :
    softplus x ((1 - s) * t1 + s * t2) ≤ (1 - s) * softplus x1 t1 + s * softplus x2 t2 := by
  have ht := mid_pos h1 h2 hs0 hs1
  rw [softplus_shift _ _ h1, softplus_shift _ _ h2, softplus_shift _ _ ht]
  have hl := log_mid h1 h2 hs0 hs1
  set z := x + Real.log 273 - Real.log ((1 - s) * t1 + s * t2)
  set z1 := x1 + Real.log 273 - Real.log t1
  set z2 := x2 + Real.log 273 - Real.log t2
  have hz : z ≤ (1 - s) * z1 + s * z2 := by simp only [z, z1, z2]; linarith
  have k1 := mul_le_mul_of_nonneg_left (tangent z z1) (sub_nonneg.mpr hs1)
  have k2 := mul_le_mul_of_nonneg_left (tangent z z2) hs0
  have hd : 0 < 1 + Real.exp z := by have := Real.exp_pos z; linarith
  have hp0 : 0 ≤ Real.exp z / (1 + Real.exp z) := by positivity
  have := mul_nonneg hp0 (sub_nonneg.mpr hz)
  nlinarith

theorem sum_between {α : Type} [CommRing α] [LinearOrder α] [IsStrictOrderedRing α] (s : α) (r1 r2 r : CRxn α) {ps : List String} {a b d ws : List α}
    (h1 : List.Forall₂ (Value r1) ps a) (h2 : List.Forall₂ (Value r2) ps b) (h : List.Forall₂ (Value r) ps d)
    (hp : ∀ x ∈ ps.zip ws, ∀ v1 v2 v, Value r1 x.1 v1 → Value r2 x.1 v2 → Value r x.1 v → Between s x.2 v1 v2 v) :
    (List.zipWith (· * ·) d ws).sum ≤ (1 - s) * (List.zipWith (· * ·) a ws).sum + s * (List.zipWith (· * ·) b ws).sum := by
  induction h1 generalizing b d ws with
  | nil => cases h2; cases h; simp
  | @cons q v1 ps a k1 _ ih =>
    cases h2 with
    | @cons _ v2 _ b k2 h2 =>
    cases h with
    | @cons _ v _ d k h =>
    cases ws with
    | nil => simp
    | cons w ws =>
      have i := ih (ws := ws) h2 h fun x hx => hp x (by simp [hx])
      have j := hp (q, w) (by simp) v1 v2 v k1 k2 k
      simp only [List.zipWith_cons_cons, List.sum_cons]
      have hv : v * w ≤ (1 - s) * (v1 * w) + s * (v2 * w) := by
        rcases j with rfl | ⟨hw, hv⟩
        · exact le_of_eq (by ring)
        · exact (mul_le_mul_of_nonneg_right hv hw).trans (le_of_eq (by ring))
      calc _ ≤ _ := add_le_add hv i
        _ = _ := by ring

/-! ### C167: reactions -/

/-- **C167, weighted sums.** If every parameter between two conditions is the interpolation of its values at both, or at most that where the weight is not
negative, the weighted sum is at most the interpolation of the sums. -/
theorem C167_weighted {α : Type} [CommRing α] [LinearOrder α] [IsStrictOrderedRing α] (c : WeightedSum α) (s : α) (r1 r2 r : CRxn α) (d1 : DictOk r1)
    (d2 : DictOk r2) (d : DictOk r)
    (hp : ∀ x ∈ c.params.zip c.weights, ∀ v1 v2 v, Value r1 x.1 v1 → Value r2 x.1 v2 → Value r x.1 v → Between s x.2 v1 v2 v) (y1 y2 y : α)
    (h1 : c.evaluate r1 = .ok y1) (h2 : c.evaluate r2 = .ok y2) (h : c.evaluate r = .ok y) : y ≤ (1 - s) * y1 + s * y2 := by
  obtain ⟨a, ha, -, rfl⟩ := ((C62_weighted_sum c r1 d1).1 y1).1 h1
  obtain ⟨b, hb, -, rfl⟩ := ((C62_weighted_sum c r2 d2).1 y2).1 h2
  obtain ⟨e, he, -, rfl⟩ := ((C62_weighted_sum c r d).1 y).1 h
  exact sum_between s r1 r2 r ha hb he hp

/-- **C167, Softplus.** The same holds for Softplus, with its temperature fixed or changed along with the conditions. -/
theorem C167_softplus (t1 t2 s : ℝ) (hs0 : 0 ≤ s) (hs1 : s ≤ 1) (ps : Option (List String)) (ws : Option (List ℝ)) (c1 c2 c : Softplus)
    (m1 : mkSoftplus t1 ps ws = .ok c1) (m2 : mkSoftplus t2 ps ws = .ok c2) (m : mkSoftplus ((1 - s) * t1 + s * t2) ps ws = .ok c) (r1 r2 r : CRxn ℝ)
    (d1 : DictOk r1) (d2 : DictOk r2) (d : DictOk r)
    (hp : ∀ x ∈ c.params.zip c.weights, ∀ v1 v2 v, Value r1 x.1 v1 → Value r2 x.1 v2 → Value r x.1 v → Between s x.2 v1 v2 v) (y1 y2 y : ℝ)
    (h1 : c1.evaluate r1 = .ok y1) (h2 : c2.evaluate r2 = .ok y2) (h : c.evaluate r = .ok y) : y ≤ (1 - s) * y1 + s * y2 := by
  obtain ⟨p1, e1⟩ := mkSoftplus_temp t1 ps ws c1 m1
  obtain ⟨p2, e2⟩ := mkSoftplus_temp t2 ps ws c2 m2
  obtain ⟨p, e⟩ := mkSoftplus_temp _ ps ws c m
  obtain ⟨q1, w1⟩ := mk_same _ _ ps ws c c1 m m1
  obtain ⟨q2, w2⟩ := mk_same _ _ ps ws c c2 m m2
  rw [softplus_eq_weighted, Exc.map_ok] at h1 h2 h
  obtain ⟨x1, k1, rfl⟩ := h1
  obtain ⟨x2, k2, rfl⟩ := h2
  obtain ⟨x, k, rfl⟩ := h
  rw [q1, w1] at k1
  rw [q2, w2] at k2
  rw [e1, e2, e]
  exact softplus_mid p1 p2 hs0 hs1 (C167_weighted _ s r1 r2 r d1 d2 d hp x1 x2 x k1 k2 k)

/-- Energy and a score of a reaction. -/
def exRxn {α : Type} (e v : α) : CRxn α := ⟨some [("score", v)], fun p => if p = "energy" then some e else none⟩

theorem exDict {α : Type} (e v : α) : DictOk (exRxn e v) := by
  intro d h
  cases h
  simp

theorem exValue {α : Type} (e v : α) : (∀ x, Value (exRxn e v) "energy" x → x = e) ∧ ∀ x, Value (exRxn e v) "score" x → x = v := by
  constructor
  · rintro x (⟨d, h, hx⟩ | ⟨-, h⟩)
    · cases h
      simp at hx
    · simpa [exRxn, eq_comm] using h
  · rintro x (⟨d, h, hx⟩ | ⟨h, -⟩)
    · cases h
      simpa using hx
    · exact absurd ⟨_, rfl, by simp⟩ (h v)

/-- The energy is interpolated and may have a negative weight; the score is lower than the interpolation. -/
theorem exBetween (α : Type) [Field α] [LinearOrder α] [IsStrictOrderedRing α] : ∀ x ∈ (["energy", "score"].zip [(-1 : α), 2]), ∀ v1 v2 v,
    Value (exRxn 1 5) x.1 v1 → Value (exRxn 3 1) x.1 v2 → Value (exRxn 2 (2 : α)) x.1 v → Between (1/2) x.2 v1 v2 v := by
  intro x hx v1 v2 v h1 h2 h
  simp only [List.zip_cons_cons, List.zip_nil_right, List.mem_cons, List.not_mem_nil, or_false] at hx
  rcases hx with rfl | rfl
  · rw [(exValue _ _).1 _ h1, (exValue _ _).1 _ h2, (exValue _ _).1 _ h]
    left; norm_num
  · rw [(exValue _ _).2 _ h1, (exValue _ _).2 _ h2, (exValue _ _).2 _ h]
    right; norm_num

example := C167_weighted (α := ℚ) ⟨["energy", "score"], [-1, 2]⟩ (1/2) (exRxn 1 5) (exRxn 3 1) (exRxn 2 2) (exDict _ _) (exDict _ _) (exDict _ _)
  (exBetween ℚ) 9 (-1) 2 (by decide +kernel) (by decide +kernel) (by decide +kernel)

theorem exEval (t e v : ℝ) (ht : 0 < t) : ∃ c y, mkSoftplus t (some ["energy", "score"]) (some [-1, 2]) = .ok c ∧ c.evaluate (exRxn e v) = .ok y := by
  refine ⟨⟨t, ["energy", "score"], [-1, 2]⟩, softplus (-e + v * 2) t, ?_, ?_⟩
  · unfold mkSoftplus
    rw [if_neg (not_le.mpr ht)]
    rfl
  · unfold Softplus.evaluate
    rw [Exc.mapM_cons, Exc.mapM_cons, Exc.mapM_nil]
    simp [lookup, dot, exRxn, dictGet]

/-- From 300 K to 500 K. -/
example : ∃ y1 y2 y : ℝ, y ≤ (1 - 1/2) * y1 + 1/2 * y2 := by
  obtain ⟨c1, y1, m1, h1⟩ := exEval 300 1 5 (by norm_num)
  obtain ⟨c2, y2, m2, h2⟩ := exEval 500 3 1 (by norm_num)
  obtain ⟨c, y, m, h⟩ := exEval ((1 - 1/2) * 300 + 1/2 * 500) 2 2 (by norm_num)
  refine ⟨y1, y2, y, C167_softplus 300 500 (1/2) (by norm_num) (by norm_num) _ _ c1 c2 c m1 m2 m _ _ _ (exDict _ _) (exDict _ _) (exDict _ _) ?_ y1 y2 y h1 h2 h⟩
  have hc : c.params.zip c.weights = ["energy", "score"].zip [(-1 : ℝ), 2] := by
    unfold mkSoftplus at m
    split_ifs at m
    cases m
    rfl
  rw [hc]
  exact exBetween ℝ
end Reactions

section Compounds
open Verif.Model Verif.Model.Reaction Verif.Spec.Reaction Verif.Props.TempLine Verif.Props.CostChoice
open Verif.Model.Entries (Gibbs)
open Verif.Model.Gibbs (Env)
variable {κ ε : Type} [DecidableEq κ] [DecidableEq ε]

/-- **C167, computed compounds.** The default cost of a conserving reaction between different computed compounds at a temperature between two others is at
most the interpolation of the costs at both, the temperature of the cost function being that of the entries or any interpolation of the two used. -/
theorem C167_temperature (X : Chem κ ε) (hX : X.Lawful) (G : Env ε) (es : List (Gibbs κ)) (ks : List ℚ) (hn : (es.map fun e => X.red e.comp).Nodup)
    (hc : ∀ e ∈ es, Compound X e) (hk : Conserved X (es.map fun e => X.red e.comp) ks) (t1 t2 s : ℚ) (ht : t1 < t2) (hs0 : 0 ≤ s) (hs1 : s ≤ 1)
    (e1 e2 e : List (Gibbs κ)) (g1 : At X G t1 es e1) (g2 : At X G t2 es e2) (g : At X G ((1 - s) * t1 + s * t2) es e) (T1 T2 y1 y2 y : ℝ)
    (h1 : Costs X T1 (e1.map (seen X G)) ks y1) (h2 : Costs X T2 (e2.map (seen X G)) ks y2)
    (h : Costs X ((1 - s) * T1 + s * T2) (e.map (seen X G)) ks y) : y ≤ (1 - s) * y1 + s * y2 := by
  obtain ⟨p1, v1, k1, rfl⟩ := (C163_reads X _ _ _ _).mp h1
  obtain ⟨p2, v2, k2, rfl⟩ := (C163_reads X _ _ _ _).mp h2
  obtain ⟨p, v, k, rfl⟩ := (C163_reads X _ _ _ _).mp h
  have hv : v = (1 - s) * v1 + s * v2 := by
    have := (C162_line X hX G es ks [] none hn hc hk t1 t2 _ e1 e2 e g1 g2 g).2 v1 v2 v k1 k2 k
    apply mul_left_cancel₀ (sub_ne_zero.mpr ht.ne')
    rw [this]
    ring
  have := Verif.Props.CostBetween.softplus_mid (x1 := v1) (x2 := v2) (x := v) p1 p2 (s := s) (by exact_mod_cast hs0) (by exact_mod_cast hs1)
    (le_of_eq (by rw [hv]; push_cast; ring))
  simpa [Verif.Model.Costs.softplus] using this

/-- AB + BC → AB₂C at 300 K, 400 K and 500 K, with the cost function at the same temperature. -/
example : ∃ y1 y2 y : ℝ, Costs toy 300 ((exAt 300).map (seen toy exG)) [-1, -1, 1] y1 ∧ Costs toy 500 ((exAt 500).map (seen toy exG)) [-1, -1, 1] y2 ∧
    Costs toy ((1 - (1/2 : ℚ)) * 300 + (1/2 : ℚ) * 500) ((exAt 400).map (seen toy exG)) [-1, -1, 1] y ∧ y ≤ (1 - (1/2 : ℚ)) * y1 + (1/2 : ℚ) * y2 := by
  have y1 := (C163_reads toy 300 _ _ _).mpr ⟨by norm_num, _, ex_values.1, rfl⟩
  have y2 := (C163_reads toy 500 _ _ _).mpr ⟨by norm_num, _, ex_values.2.2, rfl⟩
  have y := (C163_reads toy ((1 - (1/2 : ℚ)) * 300 + (1/2 : ℚ) * 500) _ _ _).mpr ⟨by norm_num, _, ex_values.2.1, rfl⟩
  exact ⟨_, _, _, y1, y2, y, C167_temperature toy toy_lawful exG _ _ ex_nodup ex_compound ex_conserved 300 500 (1/2) (by norm_num) (by norm_num)
    (by norm_num) _ _ _ (ex_at 300 (by simp)) (ex_at 500 (by simp))
    (by rw [show ((1 - 1/2) * 300 + 1/2 * 500 : ℚ) = 400 from by norm_num]; exact ex_at 400 (by simp)) _ _ _ _ _ y1 y2 y⟩
end Compounds

section Network
open Verif.Model.Network Verif.Spec.Network Verif.Spec.Paths Verif.Spec.Pathfinding
open Verif.Props.Network Verif.Props.Pathfinding Verif.Lemmas.Paths Verif.Props.Search Verif.Props.CostError
variable {η ρ : Type} [DecidableEq η] [DecidableEq ρ]

theorem sum_mid (s : ℚ) (c1 c2 c : ρ → ℚ) : ∀ rs : List ρ, (∀ r ∈ rs, c r ≤ (1 - s) * c1 r + s * c2 r) →
    (rs.map c).sum ≤ (1 - s) * (rs.map c1).sum + s * (rs.map c2).sum
  | [], _ => by simp
  | r :: rs, h => by
    have h1 := sum_mid s c1 c2 c rs fun x hx => h x (List.mem_cons_of_mem _ hx)
    have h2 := h r List.mem_cons_self
    simp only [List.map_cons, List.sum_cons]
    linarith

/-- **C167, pathways.** With costs that are at most the interpolation of those at two conditions: for every pathway found at one of them, the search in
between finds a pathway, and the first one costs at most the interpolation of what the given one costs at both conditions. Missing for the full statement:
reactions between the same phases that cost differently (see C143). -/
theorem C167_pathway_partial {R P : ρ → Finset η} {rxns : List ρ} {c1 c2 c : ρ → ℚ} {ps : List η} {t : η} {k1 k : ℕ}
    {out1 out : List (List (Edge ρ × ℚ))} (s : ℚ) (hc1 : ∀ r ∈ rxns, 0 ≤ c1 r) (hc : ∀ r ∈ rxns, 0 ≤ c r) (hps : ps ≠ [])
    (h1 : Finds R P rxns c1 ps t k1 out1) (h : Finds R P rxns c ps t k out) (hpar : NoRivals R P rxns c)
    (hm : ∀ r ∈ rxns, c r ≤ (1 - s) * c1 r + s * c2 r) (p1 : List (Edge ρ × ℚ)) (hp1 : p1 ∈ out1) :
    ∃ p, out.head? = some p ∧ total p ≤ (1 - s) * total p1 + s * costWith c2 p1 := by
  obtain ⟨Ls, rfl, A⟩ := finds_answer hc hps h
  obtain ⟨Ls1, rfl, A1⟩ := finds_answer hc1 hps h1
  obtain ⟨rs1, hrs1, rfl⟩ := List.mem_map.mp hp1
  have s1 := A1.sound rs1 hrs1
  have hne : Ls ≠ [] := fun hn => by
    have := A1.none.mpr (A.none.mp hn)
    rw [this] at hrs1
    simp at hrs1
  obtain ⟨rs, tl, hL⟩ := List.exists_cons_of_ne_nil hne
  have hh : Ls.head? = some rs := by rw [hL]; rfl
  refine ⟨asPath c rs, by rw [List.head?_map, hh]; rfl, ?_⟩
  have e1 := A.first hpar rs hh rs1 s1.1 s1.2
  rw [costWith_asPath]
  unfold total
  rw [asPath_cost, asPath_cost]
  exact e1.trans (sum_mid s c1 c2 c rs1 fun r hr => hm r (s1.1 r hr))

/-- What is cheapest in between can cost more than what is cheapest at either condition, if these are different pathways. -/
theorem C167_best_violated : ∃ (R P : ℕ → Finset ℕ) (rxns : List ℕ) (c1 c2 c : ℕ → ℚ) (out1 out2 out : List (List (Edge ℕ × ℚ)))
    (p1 p2 p : List (Edge ℕ × ℚ)), (∀ r ∈ rxns, c r = (1 - 1/2) * c1 r + 1/2 * c2 r) ∧ Finds R P rxns c1 [0] 1 1 out1 ∧ Finds R P rxns c2 [0] 1 1 out2 ∧
      Finds R P rxns c [0] 1 1 out ∧ out1.head? = some p1 ∧ out2.head? = some p2 ∧ out.head? = some p ∧ total p1 < total p ∧ total p2 < total p := by
  refine ⟨rR, rP, [0, 1, 2], fun r => if r = 0 then 1 else 3, fun r => if r = 0 then 9 else 1/2, fun r => if r = 0 then 5 else 7/4,
    [[(.rxn 0, 1)]], [[(.rxn 1, 1/2), (.rxn 2, 1/2)]], [[(.rxn 1, 7/4), (.rxn 2, 7/4)]], _, _, _, by decide +kernel,
    finds_of _ _ _ {0, 1, 2} _ _ _ _ (by decide) _ (by decide +kernel), finds_of _ _ _ {0, 1, 2} _ _ _ _ (by decide) _ (by decide +kernel),
    finds_of _ _ _ {0, 1, 2} _ _ _ _ (by decide) _ (by decide +kernel), rfl, rfl, rfl, by decide +kernel, by decide +kernel⟩

/-- The pathway with one step costs 5 and 3, the one with two steps 4 and 5; in between the first one is found. -/
def exC2 : ℕ → ℚ
  | 0 => 3
  | _ => 5/2
def exC : ℕ → ℚ
  | 0 => 4
  | _ => 9/4
theorem exFinds : Finds rR rP [0, 1, 2] exC [0] 1 1 [[(.rxn 0, 4)]] := finds_of _ _ _ {0, 1, 2} _ _ _ _ (by decide) _ (by decide +kernel)
example := C167_pathway_partial (1/2) (c2 := exC2) (by decide +kernel) (by decide +kernel) (by decide) rAll exFinds (by unfold NoRivals; decide +kernel)
  (by decide +kernel) [(.rxn 0, 5)] (by decide +kernel)
end Network

section Mean
open Verif.Model.Pathway

/-- **C167, average costs.** The average cost of a balanced pathway with positive multiplicities is at most the interpolation. -/
theorem C167_mean (s : ℚ) (w a b d : List ℚ) (hw : ∀ x ∈ w, 0 < x) (hab : a.length = b.length)
    (h : List.Forall₂ (fun v x => v ≤ (1 - s) * x.1 + s * x.2) d (a.zip b)) (m1 m2 m : ℚ) (h1 : averageCost w a = .ok m1) (h2 : averageCost w b = .ok m2)
    (hm : averageCost w d = .ok m) : m ≤ (1 - s) * m1 + s * m2 := by
  unfold averageCost at h1 h2 hm
  split_ifs at h1 h2 hm with _ hz
  cases h1; cases h2; cases hm
  have h0 : 0 ≤ w.sum := List.sum_nonneg fun x hx => (hw x hx).le
  have key : ∀ (w a b d : List ℚ), (∀ x ∈ w, 0 < x) → a.length = b.length → List.Forall₂ (fun v x => v ≤ (1 - s) * x.1 + s * x.2) d (a.zip b) →
      (w.zipWith (· * ·) d).sum ≤ (1 - s) * (w.zipWith (· * ·) a).sum + s * (w.zipWith (· * ·) b).sum := by
    intro w
    induction w with
    | nil => intros; simp
    | cons x w ih =>
      intro a b d hw hab h
      cases a with
      | nil =>
        cases b with
        | nil => cases h; simp
        | cons _ _ => simp at hab
      | cons u a =>
        cases b with
        | nil => simp at hab
        | cons u' b =>
          rw [List.zip_cons_cons] at h
          cases h with
          | @cons v _ d _ hv h =>
          have i := ih a b d (fun y hy => hw y (by simp [hy])) (by simpa using hab) h
          have j := mul_le_mul_of_nonneg_left hv (hw x (by simp)).le
          simp only [List.zipWith_cons_cons, List.sum_cons]
          dsimp only at j
          linarith
  have k := div_le_div_of_nonneg_right (key w a b d hw hab h) h0
  refine k.trans (le_of_eq ?_)
  ring

example := C167_mean (1/4) [2, 1/2] [1, 3] [5, -1] [2, 1] (by decide +kernel) rfl (.cons (by norm_num) (.cons (by norm_num) .nil)) (7/5) (19/5) (9/5)
  (by decide +kernel) (by decide +kernel) (by decide +kernel)
end Mean

end Verif.Props.CostBetween
