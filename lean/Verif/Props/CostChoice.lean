import Verif.Props.TempLine
import Verif.Props.CostError

/-!
C163: which reaction is cheaper, by the energies of the phases (src/rxn_network/costs/functions.py, src/rxn_network/reactions/computed.py,
src/rxn_network/entries/gibbs.py).
-/

set_option linter.unusedSectionVars false

namespace Verif.Props.CostChoice
open Verif.Py Verif.Model Verif.Model.Reaction Verif.Spec.Reaction Verif.Props.Reaction Verif.Props.TempLine
open Verif.Model.Entries (Gibbs)
open Verif.Model.Gibbs (Env)
open Verif.Model.Costs (Softplus mkSoftplus softplus lookup dot)
open Verif.Props.EnergyError (Within)

variable {κ ε : Type} [DecidableEq κ] [DecidableEq ε]

/-! ### Specification -/

/-- What a cost function sees of a computed reaction: no data, and the energies as attributes, src/rxn_network/costs/functions.py:61-66. -/
noncomputable def observed (X : Chem κ ε) (r : Reaction.CRxn κ) : Costs.CRxn ℝ :=
  ⟨some [], fun p => if p = "energy_per_atom" then (energyPerAtom X r).toOption.map fun v : ℚ => (v : ℝ)
    else if p = "energy" then (energy X r).toOption.map fun v : ℚ => (v : ℝ) else none⟩

/-- The default cost of the reaction of some phases, with the cost function at temperature `T`. -/
def Costs (X : Chem κ ε) (T : ℝ) (es : List (Entry κ)) (ks : List ℚ) (y : ℝ) : Prop :=
  ∃ c, mkSoftplus T none none = .ok c ∧ c.evaluate (observed X (cinit X es ks [] none)) = .ok y

/-! ### Helper lemmas -/

theorem mk_default {T : ℝ} {c : Softplus} (h : mkSoftplus T none none = .ok c) : 0 < T ∧ c = ⟨T, ["energy_per_atom"], [1]⟩ := by
  unfold mkSoftplus at h
  split_ifs at h with hT
  cases h
  exact ⟨not_le.mp hT, rfl⟩

/-! ### C163 -/

/-- **C163, what is read.** The default cost of a reaction is Softplus of its energy per atom. -/
theorem C163_reads (X : Chem κ ε) (T : ℝ) (es : List (Entry κ)) (ks : List ℚ) (y : ℝ) :
    Costs X T es ks y ↔ 0 < T ∧ ∃ v : ℚ, energyPerAtom X (cinit X es ks [] none) = .ok v ∧ y = Real.log (1 + 273 / T * Real.exp v) := by
  constructor
  · rintro ⟨c, hc, h⟩
    obtain ⟨hT, rfl⟩ := mk_default hc
    refine ⟨hT, ?_⟩
    cases he : energyPerAtom X (cinit X es ks [] none) with
    | error e =>
      unfold Softplus.evaluate at h
      simp only [Verif.Lemmas.Exc.mapM_cons, Verif.Lemmas.Exc.mapM_nil, lookup, observed, he, dictGet] at h
      simp [Except.toOption] at h
    | ok v =>
      refine ⟨v, rfl, ?_⟩
      unfold Softplus.evaluate at h
      simp only [Verif.Lemmas.Exc.mapM_cons, Verif.Lemmas.Exc.mapM_nil, lookup, observed, he, dictGet] at h
      simp [Except.toOption, dot, softplus] at h
      exact h.symm
  · rintro ⟨hT, v, he, rfl⟩
    refine ⟨⟨T, ["energy_per_atom"], [1]⟩, ?_, ?_⟩
    · unfold mkSoftplus
      rw [if_neg (not_le.mpr hT)]
      rfl
    · unfold Softplus.evaluate
      simp only [Verif.Lemmas.Exc.mapM_cons, Verif.Lemmas.Exc.mapM_nil, lookup, observed, he, dictGet]
      simp [Except.toOption, dot, softplus]

/-- **C163, order.** Which of two reactions is cheaper is decided by the energies per atom, at every temperature of the cost function. -/
theorem C163_order (X : Chem κ ε) (T : ℝ) (es fs : List (Entry κ)) (ks ls : List ℚ) (y z : ℝ) (hy : Costs X T es ks y) (hz : Costs X T fs ls z) :
    ∃ v w, energyPerAtom X (cinit X es ks [] none) = .ok v ∧ energyPerAtom X (cinit X fs ls [] none) = .ok w ∧ (y ≤ z ↔ v ≤ w) := by
  obtain ⟨hT, v, hv, rfl⟩ := (C163_reads X T es ks y).mp hy
  obtain ⟨-, w, hw, rfl⟩ := (C163_reads X T fs ls z).mp hz
  refine ⟨v, w, hv, hw, ?_⟩
  have := Verif.Props.CostError.softplus_le_iff (v : ℝ) (w : ℝ) T hT
  unfold softplus at this
  rw [this]
  exact_mod_cast Iff.rfl

/-- **C163, wrong energies.** If the energies per atom of all phases are wrong by at most `δ`, the cost of a conserving reaction between different phases
is wrong by at most `2 δ`; so of two reactions whose costs differ by more than `4 δ`, the cheaper one is cheaper with the wrong energies too. -/
theorem C163_error (X : Chem κ ε) (hX : X.Lawful) (δ : ℚ) (T : ℝ) (es es' : List (Entry κ)) (ks : List ℚ) (h : List.Forall₂ (Within X δ) es es')
    (hn : (es.map fun e => X.red e.comp).Nodup) (hc : Conserved X (es.map fun e => X.red e.comp) ks) (y : ℝ) (hy : Costs X T es ks y) :
    (∃ y', Costs X T es' ks y' ∧ |y' - y| ≤ 2 * δ) ∧
    ∀ (fs fs' : List (Entry κ)) (ls : List ℚ), List.Forall₂ (Within X δ) fs fs' → (fs.map fun e => X.red e.comp).Nodup →
      Conserved X (fs.map fun e => X.red e.comp) ls → ∀ z y' z', Costs X T fs ls z → Costs X T es' ks y' → Costs X T fs' ls z' → y + 4 * δ < z → y' < z' := by
  have one : ∀ (es es' : List (Entry κ)) (ks : List ℚ), List.Forall₂ (Within X δ) es es' → (es.map fun e => X.red e.comp).Nodup →
      Conserved X (es.map fun e => X.red e.comp) ks → ∀ y y', Costs X T es ks y → Costs X T es' ks y' → |y' - y| ≤ 2 * (δ : ℝ) := by
    intro es es' ks h hn hc y y' hy hy'
    obtain ⟨hT, v, hv, rfl⟩ := (C163_reads X T es ks y).mp hy
    obtain ⟨-, w, hw, rfl⟩ := (C163_reads X T es' ks y').mp hy'
    have h1 := (Verif.Props.EnergyError.C158_reaction X hX δ es es' ks [] none h hn hc).2.2 v w hv hw
    have h2 := Verif.Props.CostError.softplus_error (v : ℝ) (w : ℝ) T hT
    have h3 : |(w : ℝ) - v| ≤ 2 * (δ : ℝ) := by exact_mod_cast h1
    exact h2.trans h3
  constructor
  · obtain ⟨hT, v, hv, rfl⟩ := (C163_reads X T es ks y).mp hy
    obtain ⟨-, he, -⟩ := Verif.Props.EnergyError.C158_reaction X hX δ es es' ks [] none h hn hc
    cases hw : energyPerAtom X (cinit X es' ks [] none) with
    | error e =>
      rw [(he e).mp hw] at hv
      cases hv
    | ok w =>
      have hy' : Costs X T es' ks (Real.log (1 + 273 / T * Real.exp w)) := (C163_reads X T es' ks _).mpr ⟨hT, w, hw, rfl⟩
      exact ⟨_, hy', one es es' ks h hn hc _ _ hy hy'⟩
  · intro fs fs' ls hf hfn hfc z y' z' hz hy' hz' hlt
    have h1 := abs_le.mp (one es es' ks h hn hc y y' hy hy')
    have h2 := abs_le.mp (one fs fs' ls hf hfn hfc z z' hz hz')
    linarith [h1.2, h2.1]

/-- **C163, temperature.** Take two conserving reactions, each between different computed compounds. If one is not more expensive than the other at two
temperatures, it is not more expensive at any temperature in between; and if it is at the lower one but the other is cheaper at the higher one, the other
stays cheaper above. The temperatures of the cost functions may be chosen freely. -/
theorem C163_temperature (X : Chem κ ε) (hX : X.Lawful) (G : Env ε) (es fs : List (Gibbs κ)) (ks ls : List ℚ)
    (hen : (es.map fun e => X.red e.comp).Nodup) (hec : ∀ e ∈ es, Compound X e) (hek : Conserved X (es.map fun e => X.red e.comp) ks)
    (hfn : (fs.map fun e => X.red e.comp).Nodup) (hfc : ∀ e ∈ fs, Compound X e) (hfk : Conserved X (fs.map fun e => X.red e.comp) ls)
    (t1 t2 t : ℚ) (ht : t1 < t2) (e1 e2 e f1 f2 f : List (Gibbs κ)) (he1 : At X G t1 es e1) (he2 : At X G t2 es e2) (he : At X G t es e)
    (hf1 : At X G t1 fs f1) (hf2 : At X G t2 fs f2) (hf : At X G t fs f) (T1 T2 T : ℝ) (y1 y2 y z1 z2 z : ℝ)
    (hy1 : Costs X T1 (e1.map (seen X G)) ks y1) (hy2 : Costs X T2 (e2.map (seen X G)) ks y2) (hy : Costs X T (e.map (seen X G)) ks y)
    (hz1 : Costs X T1 (f1.map (seen X G)) ls z1) (hz2 : Costs X T2 (f2.map (seen X G)) ls z2) (hz : Costs X T (f.map (seen X G)) ls z) :
    (t1 ≤ t → t ≤ t2 → y1 ≤ z1 → y2 ≤ z2 → y ≤ z) ∧ (t2 ≤ t → y1 ≤ z1 → z2 < y2 → z < y) := by
  obtain ⟨a1, b1, ha1, hb1, o1⟩ := C163_order X T1 _ _ _ _ y1 z1 hy1 hz1
  obtain ⟨a2, b2, ha2, hb2, o2⟩ := C163_order X T2 _ _ _ _ y2 z2 hy2 hz2
  obtain ⟨a, b, ha, hb, o⟩ := C163_order X T _ _ _ _ y z hy hz
  have l1 := (C162_line X hX G es ks [] none hen hec hek t1 t2 t e1 e2 e he1 he2 he).2 a1 a2 a ha1 ha2 ha
  have l2 := (C162_line X hX G fs ls [] none hfn hfc hfk t1 t2 t f1 f2 f hf1 hf2 hf).2 b1 b2 b hb1 hb2 hb
  rw [o1, o, o2, ← not_le, ← not_le, o, o2, not_le, not_le]
  have hpos : 0 < t2 - t1 := sub_pos.mpr ht
  constructor
  · intro h1 h2 k1 k2
    have c1 := mul_nonneg (sub_nonneg.mpr h2) (sub_nonneg.mpr k1)
    have c2 := mul_nonneg (sub_nonneg.mpr h1) (sub_nonneg.mpr k2)
    by_contra hv
    have c3 := mul_pos hpos (sub_pos.mpr (not_le.mp hv))
    linarith
  · intro h2 k1 k2
    have c1 := mul_nonneg (sub_nonneg.mpr h2) (sub_nonneg.mpr k1)
    have c2 := mul_pos (sub_pos.mpr (ht.trans_le h2)) (sub_pos.mpr k2)
    by_contra hv
    have c3 := mul_nonneg hpos.le (sub_nonneg.mpr (not_lt.mp hv))
    linarith

/-- **C163, pathways.** Two networks of the same conserving reactions, with costs `f` of their energies per atom, where `f` amplifies nothing. If the
energies per atom of all phases are wrong by at most `δ`: a pathway is found with the wrong energies exactly if one is found with the right ones; the cost
of the first one is wrong by at most `2 δ` per step, and the pathway chosen really costs at most `2 δ` per step of both more than the best. Missing for the
full statement: reactions between the same phases that cost differently (see C143). -/
theorem C163_pathway_partial {η ρ : Type} [DecidableEq η] [DecidableEq ρ] (X : Chem κ ε) (hX : X.Lawful) (δ : ℚ) {R P : ρ → Finset η} {rxns : List ρ}
    (es es' : ρ → List (Entry κ)) (ks : ρ → List ℚ) (v v' : ρ → ℚ) (f : ℚ → ℚ) (hf0 : ∀ x, 0 ≤ f x) (hf : ∀ x y, |f y - f x| ≤ |y - x|)
    (hw : ∀ r ∈ rxns, List.Forall₂ (Within X δ) (es r) (es' r)) (hn : ∀ r ∈ rxns, ((es r).map fun e => X.red e.comp).Nodup)
    (hk : ∀ r ∈ rxns, Conserved X ((es r).map fun e => X.red e.comp) (ks r))
    (hv : ∀ r ∈ rxns, energyPerAtom X (cinit X (es r) (ks r) [] none) = .ok (v r))
    (hv' : ∀ r ∈ rxns, energyPerAtom X (cinit X (es' r) (ks r) [] none) = .ok (v' r)) {ps : List η} {t : η} {k k' : ℕ}
    {out out' : List (List (Verif.Model.Network.Edge ρ × ℚ))} (hps : ps ≠ [])
    (h : Verif.Props.Search.Finds R P rxns (fun r => f (v r)) ps t k out) (h' : Verif.Props.Search.Finds R P rxns (fun r => f (v' r)) ps t k' out')
    (hpar : Verif.Props.Search.NoRivals R P rxns fun r => f (v r)) (hpar' : Verif.Props.Search.NoRivals R P rxns fun r => f (v' r)) :
    (out = [] ↔ out' = []) ∧ ∀ p p', out.head? = some p → out'.head? = some p' →
      |Verif.Props.Search.total p' - Verif.Props.Search.total p| ≤ 2 * δ * max p.length p'.length ∧
      Verif.Props.Search.total p ≤ Verif.Props.CostError.costWith (fun r => f (v r)) p' ∧
      Verif.Props.CostError.costWith (fun r => f (v r)) p' ≤ Verif.Props.Search.total p + 2 * δ * (p.length + p'.length) :=
  Verif.Props.CostError.C160_pathway_partial (2 * δ) (fun _ _ => hf0 _) (fun _ _ => hf0 _) hps h h' hpar hpar' fun r hr =>
    (hf _ _).trans ((Verif.Props.EnergyError.C158_reaction X hX δ (es r) (es' r) (ks r) [] none (hw r hr) (hn r hr) (hk r hr)).2.2 _ _ (hv r hr) (hv' r hr))

/-! ### Examples -/

theorem ex_cost (T : ℝ) (hT : 0 < T) : Costs toy T [⟨A, 0⟩, ⟨B1, 0⟩, ⟨AB, -3⟩] [-1, -1, 1] (Real.log (1 + 273 / T * Real.exp ((-3 / 2 : ℚ) : ℝ))) :=
  (C163_reads toy T _ _ _).mpr ⟨hT, -3 / 2, by decide +kernel, rfl⟩

theorem ex_cost2 (T : ℝ) (hT : 0 < T) : Costs toy T [⟨A, 0⟩, ⟨B1, 0⟩, ⟨AB, 4⟩] [-1, -1, 1] (Real.log (1 + 273 / T * Real.exp ((2 : ℚ) : ℝ))) :=
  (C163_reads toy T _ _ _).mpr ⟨hT, 2, by decide +kernel, rfl⟩

example := C163_order toy 500 _ _ _ _ _ _ (ex_cost 500 (by norm_num)) (ex_cost2 500 (by norm_num))
example := (C163_error toy toy_lawful (1 / 10) 500 [⟨A, 0⟩, ⟨B1, 0⟩, ⟨AB, -3⟩] [⟨A, 1 / 10⟩, ⟨B1, 1 / 10⟩, ⟨AB, -32 / 10⟩] [-1, -1, 1]
  (.cons ⟨by decide +kernel, by decide +kernel⟩ (.cons ⟨by decide +kernel, by decide +kernel⟩ (.cons ⟨by decide +kernel, by decide +kernel⟩ .nil)))
  (by decide +kernel) (by unfold Conserved; decide +kernel) _ (ex_cost 500 (by norm_num))).1

/-- AB + BC → AB₂C and its reverse: the first is cheaper at 300 K, the second at 400 K and so also at 500 K. -/
example : ∃ y z : ℝ, Costs toy 300 ((exAt 500).map (seen toy exG)) [-1, -1, 1] y ∧ Costs toy 300 ((exAt 500).map (seen toy exG)) [1, 1, -1] z ∧ z < y := by
  have cost : ∀ (t : ℚ) (ks : List ℚ) (v : ℚ), energyPerAtom toy (cinit toy ((exAt t).map (seen toy exG)) ks [] none) = .ok v →
      Costs toy 300 ((exAt t).map (seen toy exG)) ks (Real.log (1 + 273 / 300 * Real.exp v)) :=
    fun t ks v h => (C163_reads toy 300 _ _ _).mpr ⟨by norm_num, v, h, rfl⟩
  have back : energyPerAtom toy (cinit toy ((exAt 300).map (seen toy exG)) [1, 1, -1] [] none) = .ok (47827 / 2000000) ∧
      energyPerAtom toy (cinit toy ((exAt 400).map (seen toy exG)) [1, 1, -1] [] none) = .ok (-4891 / 500000) ∧
      energyPerAtom toy (cinit toy ((exAt 500).map (seen toy exG)) [1, 1, -1] [] none) = .ok (-17391 / 400000) := by decide +kernel
  have y1 := cost 300 _ _ ex_values.1
  have y2 := cost 400 _ _ ex_values.2.1
  have y3 := cost 500 _ _ ex_values.2.2
  have z1 := cost 300 _ _ back.1
  have z2 := cost 400 _ _ back.2.1
  have z3 := cost 500 _ _ back.2.2
  refine ⟨_, _, y3, z3, (C163_temperature toy toy_lawful exG _ _ _ _ ex_nodup ex_compound ex_conserved ex_nodup ex_compound
    (by unfold Conserved; decide +kernel) 300 400 500 (by norm_num) _ _ _ _ _ _ (ex_at 300 (by simp)) (ex_at 400 (by simp)) (ex_at 500 (by simp))
    (ex_at 300 (by simp)) (ex_at 400 (by simp)) (ex_at 500 (by simp)) 300 300 300 _ _ _ _ _ _ y1 y2 y3 z1 z2 z3).2 (by norm_num) ?_ ?_⟩
  · obtain ⟨v, w, hv, hw, h⟩ := C163_order toy 300 _ _ _ _ _ _ y1 z1
    rw [ex_values.1] at hv
    rw [back.1] at hw
    cases hv
    cases hw
    exact h.mpr (by norm_num)
  · obtain ⟨v, w, hv, hw, h⟩ := C163_order toy 300 _ _ _ _ _ _ y2 z2
    rw [ex_values.2.1] at hv
    rw [back.2.1] at hw
    cases hv
    cases hw
    exact not_le.mp fun hle => absurd (h.mp hle) (by norm_num)

/-- Phases whose reactions cost `rC`, and phases whose energies per atom are wrong by up to 3/8 so that they cost `wrongC`. -/
def exRight (r : ℕ) : List (Entry TComp) := [⟨A, 0⟩, ⟨B1, 0⟩, ⟨AB, 2 * Verif.Props.Search.rC r⟩]
def exWrong (r : ℕ) : List (Entry TComp) :=
  let d := Verif.Props.CostError.wrongC r - Verif.Props.Search.rC r
  [⟨A, -d / 2⟩, ⟨B1, -d / 2⟩, ⟨AB, 2 * Verif.Props.Search.rC r + d⟩]

/-- With the wrong energies the direct route is chosen, which costs 5 instead of 4: less than 3/4 per step more. -/
example := (C163_pathway_partial toy toy_lawful (3 / 8) (R := Verif.Props.Search.rR) (P := Verif.Props.Search.rP) (rxns := [0, 1, 2]) exRight exWrong
  (fun _ => [-1, -1, 1]) Verif.Props.Search.rC Verif.Props.CostError.wrongC (fun x => max 0 x) (fun _ => le_max_left _ _)
  (fun x y => by
    have := abs_max_sub_max_le_max 0 y 0 x
    simpa using this)
  (by
    intro r hr
    have : ∀ r ∈ [0, 1, 2], ∀ p ∈ (exRight r).zip (exWrong r), toy.red p.2.comp = toy.red p.1.comp ∧
        |p.2.energy / toy.fac p.2.comp - p.1.energy / toy.fac p.1.comp| ≤ 3 / 8 * toy.natoms (toy.red p.1.comp) := by decide +kernel
    have h := this r hr
    exact .cons ⟨rfl, (h (⟨A, 0⟩, _) (by simp [exRight, exWrong])).2⟩
      (.cons ⟨rfl, (h (⟨B1, 0⟩, _) (by simp [exRight, exWrong])).2⟩ (.cons ⟨rfl, (h (⟨AB, _⟩, _) (by simp [exRight, exWrong])).2⟩ .nil)))
  (by decide +kernel) (by unfold Conserved; decide +kernel) (by decide +kernel) (by decide +kernel) (by decide)
  (Verif.Props.Search.finds_of _ _ _ {0, 1, 2} _ _ _ _ (by decide) [[(.rxn 1, 2), (.rxn 2, 2)], [(.rxn 0, 5)]] (by decide +kernel) :
    Verif.Props.Search.Finds _ _ _ _ [0] 1 3 _)
  (Verif.Props.Search.finds_of _ _ _ {0, 1, 2} _ _ _ _ (by decide) [[(.rxn 0, 17/4)]] (by decide +kernel) : Verif.Props.Search.Finds _ _ _ _ [0] 1 1 _)
  (by unfold Verif.Props.Search.NoRivals; decide +kernel) (by unfold Verif.Props.Search.NoRivals; decide +kernel)).2 _ _ rfl rfl

end Verif.Props.CostChoice
