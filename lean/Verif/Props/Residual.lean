import Verif.Props.Coexist
import Verif.Props.Costs

/-!
C148: what the chemical potential distance of a reaction says about the interfaces it creates (src/rxn_network/costs/calculators.py).
-/

set_option linter.unusedSectionVars false

namespace Verif.Props.Residual
open Verif.Py Verif.Model Verif.Model.Reaction Verif.Model.Chempot Verif.Model.Thermo Verif.Model.Costs Verif.Spec.Reaction Verif.Lemmas.Dict
  Verif.Props.Reaction Verif.Props.Chempot Verif.Props.DomainDistance Verif.Props.Coexist

variable {κ ε φ : Type} [DecidableEq κ] [DecidableEq ε] [DecidableEq φ]

/-- The distance of one interface with both offsets, src/rxn_network/costs/calculators.py:98-105. `fl` turns the real number into a float,
`eAbove` is `get_e_above_hull` and `fr` gives the fractions of an entry. -/
noncomputable def pairDistance {ι : Type} [DecidableEq ι] (fl : ℝ → ℚ) (Y : Ext ι φ (List (List ℚ))) (s : CPD ι φ (List (List ℚ)))
    (doms : List (φ × List (List ℚ))) (formula : Entry κ → φ) (mins : List (Entry κ)) (eAbove : Entry κ → Except Err ℝ)
    (fr : Entry κ → List ℝ) (a b : Entry κ) : Except Err ℚ := do
  let oa ← getOffset mins (dictGet doms (formula a)).isSome eAbove fr a
  let ob ← getOffset mins (dictGet doms (formula b)).isSome eAbove fr b
  ((shortest Y (dictGet doms) euclid s (formula a) (formula b) (oa + ob)).2).map fl

/-- Specification of the float arithmetic: distances are represented with an error of at most `δ` and stay non-negative. -/
def Rounds (fl : ℝ → ℚ) (δ : ℝ) : Prop := ∀ x, 0 ≤ x → 0 ≤ fl x ∧ |(fl x : ℝ) - x| ≤ δ

/-! ### Helper lemmas -/

theorem roundDigits5 (v : ℚ) : v ≤ roundDigits 5 v + 1 / 200000 := by
  unfold roundDigits
  have := (round_bounds (v * 10 ^ 5)).2
  rw [div_add' _ _ _ (by norm_num), le_div_iff₀ (by norm_num)]
  linarith

theorem mem_le_agg (mu : List ℚ → Except Err ℚ) (hmu : mu = aggSum ∨ mu = aggMax) (ds : List ℚ) (h0 : ∀ d ∈ ds, 0 ≤ d) (v : ℚ) (hv : mu ds = .ok v)
    (d : ℚ) (hd : d ∈ ds) : d ≤ v := by
  rcases hmu with rfl | rfl
  · cases hv
    exact List.single_le_sum h0 d hd
  · cases ds with
    | nil => simp at hd
    | cons x xs =>
      cases hv
      have key : ∀ (l : List ℚ) (y : ℚ), y ≤ l.foldl max y ∧ ∀ z ∈ l, z ≤ l.foldl max y := by
        intro l
        induction l with
        | nil => simp
        | cons w l ih =>
          intro y
          obtain ⟨i1, i2⟩ := ih (max y w)
          refine ⟨(le_max_left y w).trans i1, fun z hz => ?_⟩
          rcases List.mem_cons.mp hz with rfl | hz
          · exact (le_max_right y z).trans i1
          · exact i2 z hz
      rcases List.mem_cons.mp hd with rfl | hd
      · exact (key xs d).1
      · exact (key xs x).2 d hd

section
variable {X : Chem κ ε} {elements : List ε} {all mins : List (Entry κ)} {formula : Entry κ → φ} {refs : List (ε × Entry κ)}
  {borders : List (List ℚ)} {hsInt : List (List ℚ) → List (List ℚ × List ℕ)} {doms : List (φ × List (List ℚ))}

/-- For stable phases the distance of an interface is the domain distance up to the float error. -/
theorem pair_stable (D : Diagram elements (fraction X) (perAtomEnergy X) formula mins refs borders hsInt doms)
    {ι : Type} [DecidableEq ι] (fl : ℝ → ℚ) (δ : ℝ) (hfl : Rounds fl δ) (Y : Ext ι φ (List (List ℚ))) (s : CPD ι φ (List (List ℚ)))
    (eAbove : Entry κ → Except Err ℝ) (fr : Entry κ → List ℝ) (a b : Entry κ) (ha : a ∈ mins) (hb : b ∈ mins)
    (pa pb : List (List ℚ)) (ha' : (formula a, pa) ∈ doms) (hb' : (formula b, pb) ∈ doms) :
    ∃ m d, (shortest Y (dictGet doms) euclid s (formula a) (formula b) 0).2 = .ok m ∧
      pairDistance fl Y s doms formula mins eAbove fr a b = .ok d ∧ 0 ≤ d ∧ m - δ ≤ d := by
  obtain ⟨m, h1, p, -, q, -, hm⟩ := C146_attained_partial Y s D a b ha hb pa pb ha' hb' 0
  rw [add_zero] at h1
  have hm0 : 0 ≤ m := hm ▸ euclid_nonneg p q
  obtain ⟨g1, g2⟩ := hfl m hm0
  refine ⟨m, fl m, by rw [h1], ?_, g1, by linarith [abs_le.mp g2]⟩
  unfold pairDistance
  have o : ∀ (e : Entry κ) (pe : List (List ℚ)), e ∈ mins → (formula e, pe) ∈ doms →
      getOffset mins (dictGet doms (formula e)).isSome eAbove fr e = .ok 0 := by
    intro e pe he hd
    unfold getOffset
    rw [(found D _ _ hd).1, if_pos ⟨he, rfl⟩]
  rw [o a pa ha ha', o b pb hb hb']
  show ((shortest Y (dictGet doms) euclid s (formula a) (formula b) (0 + 0)).2).map fl = _
  rw [add_zero, h1]
  rfl

/-! ### C148 -/

/-- **C148.** At every interface a reaction creates (reactant with product, or two products), no further reaction releases more energy per
atom than half of the reaction's chemical potential distance (aggregated with `sum` or `max`; up to the rounding to five digits and the
float error). -/
theorem C148_interfaces (hX : X.Lawful) (D : Diagram elements (fraction X) (perAtomEnergy X) formula mins refs borders hsInt doms)
    (P : Phases X elements all mins) {ι : Type} [DecidableEq ι] (fl : ℝ → ℚ) (δ : ℝ) (hfl : Rounds fl δ) (Y : Ext ι φ (List (List ℚ)))
    (s : CPD ι φ (List (List ℚ))) (eAbove : Entry κ → Except Err ℝ) (fr : Entry κ → List ℝ) (mu : List ℚ → Except Err ℚ)
    (hmu : mu = aggSum ∨ mu = aggMax) (r : DRxn (Entry κ)) (hst : ∀ p ∈ r.entries, p.1 ∈ mins ∧ ∃ pts, (formula p.1, pts) ∈ doms) :
    (combos r ≠ [] → ∃ v, chempotDistance (some mu) (pairDistance fl Y s doms formula mins eAbove fr) r = .ok v) ∧
    ∀ v, chempotDistance (some mu) (pairDistance fl Y s doms formula mins eAbove fr) r = .ok v →
      ∀ a b, (a ∈ r.reactants ∧ b ∈ r.products ∨ (a, b) ∈ pairs r.products) →
        ∀ (entries : List (Entry κ)) (_ : ∀ x ∈ entries, x ∈ all) (coeffs : List ℚ)
          (_ : ∀ p ∈ entries.zip coeffs, p.2 < 0 → p.1 = a ∨ p.1 = b) (_ : (entries.map fun e => X.red e.comp).Nodup)
          (_ : Conserved X (entries.map fun e => X.red e.comp) coeffs) (data : List (String × ℚ)) (lne : Option ℕ) (w : ℚ)
          (_ : energyPerAtom X (cinit X entries coeffs data lne) = .ok w), -((v + 1 / 200000 + δ) / 2) ≤ w := by
  have hside : ∀ e, (e ∈ r.reactants ∨ e ∈ r.products) → e ∈ mins ∧ ∃ pts, (formula e, pts) ∈ doms := by
    intro e he
    rcases he with he | he <;>
    · obtain ⟨p, hp, rfl⟩ := List.mem_map.mp he
      exact hst p (List.mem_filter.mp hp).1
  have hpairs : ∀ (l : List (Entry κ)) (p : Entry κ × Entry κ), p ∈ pairs l → p.1 ∈ l ∧ p.2 ∈ l := by
    intro l
    induction l with
    | nil => simp [pairs]
    | cons x l ih =>
      intro p hp
      rcases List.mem_append.mp hp with h | h
      · obtain ⟨y, hy, rfl⟩ := List.mem_map.mp h
        exact ⟨by simp, List.mem_cons_of_mem _ hy⟩
      · obtain ⟨h1, h2⟩ := ih p h
        exact ⟨List.mem_cons_of_mem _ h1, List.mem_cons_of_mem _ h2⟩
  have hcomb : ∀ p ∈ combos r, (p.1 ∈ mins ∧ ∃ pts, (formula p.1, pts) ∈ doms) ∧ (p.2 ∈ mins ∧ ∃ pts, (formula p.2, pts) ∈ doms) := by
    intro p hp
    rcases List.mem_append.mp hp with h | h
    · obtain ⟨a, ha, h⟩ := List.mem_flatMap.mp h
      obtain ⟨b, hb, rfl⟩ := List.mem_map.mp h
      exact ⟨hside a (.inl ha), hside b (.inr hb)⟩
    · obtain ⟨h1, h2⟩ := hpairs _ p h
      exact ⟨hside _ (.inr h1), hside _ (.inr h2)⟩
  have hdist : ∀ p ∈ combos r, ∃ m d, (shortest Y (dictGet doms) euclid s (formula p.1) (formula p.2) 0).2 = .ok m ∧
      pairDistance fl Y s doms formula mins eAbove fr p.1 p.2 = .ok d ∧ 0 ≤ d ∧ m - δ ≤ d := by
    intro p hp
    obtain ⟨⟨h1, pa, h2⟩, h3, pb, h4⟩ := hcomb p hp
    exact pair_stable D fl δ hfl Y s eAbove fr p.1 p.2 h1 h3 pa pb h2 h4
  let dv : Entry κ × Entry κ → ℚ := fun p => match pairDistance fl Y s doms formula mins eAbove fr p.1 p.2 with | .ok d => d | .error _ => 0
  have hmap : (combos r).mapM (fun p => pairDistance fl Y s doms formula mins eAbove fr p.1 p.2) = .ok ((combos r).map dv) := by
    apply Verif.Lemmas.Exc.mapM_eq_map
    intro p hp
    obtain ⟨m, d, -, h, -⟩ := hdist p hp
    show _ = Except.ok (dv p)
    simp only [dv, h]
  unfold chempotDistance
  simp only [hmap]
  constructor
  · intro hne
    rcases hmu with rfl | rfl
    · exact ⟨_, rfl⟩
    · cases hc : (combos r).map dv with
      | nil => exact absurd (List.map_eq_nil_iff.mp hc) hne
      | cons x xs => exact ⟨_, rfl⟩
  · intro v hv a b hab entries hsub coeffs hr hn hc data lne w hw
    have hin : (a, b) ∈ combos r := by
      rcases hab with ⟨h1, h2⟩ | h
      · exact List.mem_append.mpr (.inl (List.mem_flatMap.mpr ⟨a, h1, List.mem_map.mpr ⟨b, h2, rfl⟩⟩))
      · exact List.mem_append.mpr (.inr h)
    cases hagg : mu ((combos r).map dv) with
    | error x => rw [hagg] at hv; cases hv
    | ok t =>
      rw [hagg] at hv
      cases hv
      obtain ⟨m, d, h1, h2, h3, h4⟩ := hdist _ hin
      have hdv : dv (a, b) = d := by simp only [dv, h2]
      have hle := mem_le_agg mu hmu _ (by
        intro y hy
        obtain ⟨p, hp, rfl⟩ := List.mem_map.mp hy
        obtain ⟨_, d', -, h2', h3', -⟩ := hdist p hp
        show 0 ≤ dv p
        simp only [dv, h2']
        exact h3') t hagg d (List.mem_map.mpr ⟨(a, b), hin, hdv⟩)
      have h5 := hle.trans (roundDigits5 t)
      have h5' : (d : ℝ) ≤ (roundDigits 5 t : ℚ) + 1 / 200000 := by
        have : ((d : ℚ) : ℝ) ≤ ((roundDigits 5 t + 1 / 200000 : ℚ) : ℝ) := by exact_mod_cast h5
        simpa using this
      obtain ⟨⟨k1, pa, k2⟩, k3, pb, k4⟩ := hcomb _ hin
      have := C147_bound hX D P Y s a b k1 k3 pa pb k2 k4 m h1 entries hsub coeffs hr hn hc data lne w hw
      linarith

end

/-! Concrete case: the phases of C147 with floats of six decimals. -/

noncomputable def fl6 (x : ℝ) : ℚ := (⌊x * 10 ^ 6⌋ : ℚ) / 10 ^ 6

theorem fl6_rounds : Rounds fl6 (1 / 10 ^ 6) := by
  intro x hx
  have h0 : (0 : ℤ) ≤ ⌊x * 10 ^ 6⌋ := Int.floor_nonneg.mpr (by positivity)
  refine ⟨div_nonneg (by exact_mod_cast h0) (by norm_num), ?_⟩
  have h1 := Int.floor_le (x * 10 ^ 6)
  have h2 := Int.lt_floor_add_one (x * 10 ^ 6)
  unfold fl6
  push_cast
  rw [abs_le]
  constructor
  · rw [neg_le_sub_iff_le_add, ← add_div, le_div_iff₀ (by norm_num)]
    linarith
  · rw [sub_le_iff_le_add, div_le_iff₀ (by norm_num), add_mul, one_div_mul_cancel (by norm_num)]
    linarith

/-- `AB → A + B`, the reverse of what happens when A and B meet. -/
def dRxn : DRxn (Entry TComp) := ⟨[(⟨AB, -6⟩, -1), (⟨A, -1⟩, 1), (⟨B1, -2⟩, 1)], none⟩

example (Y : Ext ℕ (Entry TComp) (List (List ℚ))) (s : CPD ℕ (Entry TComp) (List (List ℚ))) (eAbove : Entry TComp → Except Err ℝ)
    (fr : Entry TComp → List ℝ) :
    ∃ v, chempotDistance (some aggSum) (pairDistance fl6 Y s cDoms (fun e => e) cMins eAbove fr) dRxn = .ok v ∧
      -(((v : ℝ) + 1 / 200000 + 1 / 10 ^ 6) / 2) ≤ ((-3/2 : ℚ) : ℝ) := by
  obtain ⟨h1, h2⟩ := C148_interfaces toy_lawful cDiagram cPhases fl6 (1 / 10 ^ 6) fl6_rounds Y s eAbove fr aggSum (.inl rfl) dRxn (by
    intro p hp
    simp only [dRxn, List.mem_cons, List.not_mem_nil, or_false] at hp
    rcases hp with rfl | rfl | rfl
    · exact ⟨by decide +kernel, _, List.mem_cons_self ..⟩
    · exact ⟨by decide +kernel, _, List.mem_cons_of_mem _ (List.mem_cons_self ..)⟩
    · exact ⟨by decide +kernel, _, List.mem_cons_of_mem _ (List.mem_cons_of_mem _ (List.mem_cons_self ..))⟩)
  obtain ⟨v, hv⟩ := h1 (by decide +kernel)
  exact ⟨v, hv, h2 v hv ⟨A, -1⟩ ⟨B1, -2⟩ (.inr (by decide +kernel)) [⟨A, -1⟩, ⟨B1, -2⟩, ⟨AB, -6⟩] (by decide +kernel) [-2, -2, 2]
    (by decide +kernel) (by decide +kernel) (fun e => by revert e; decide +kernel) [] none (-3/2) (by decide +kernel)⟩

/-- **Violated for `mean`**: averaging over the interfaces hides the reactive one. The products A and B of `AB → A + B` react with a release
of 1.5 per atom, more than the whole mean distance. -/
theorem C148_mean_violated (Y : Ext ℕ (Entry TComp) (List (List ℚ))) (s : CPD ℕ (Entry TComp) (List (List ℚ)))
    (eAbove : Entry TComp → Except Err ℝ) (fr : Entry TComp → List ℝ) :
    ∃ v : ℚ, chempotDistance (some aggMean) (pairDistance fl6 Y s cDoms (fun e => e) cMins eAbove fr) dRxn = .ok v ∧
      ((⟨A, -1⟩, ⟨B1, -2⟩) : Entry TComp × Entry TComp) ∈ pairs dRxn.products ∧
      Conserved toy ([(⟨A, -1⟩ : Entry TComp), ⟨B1, -2⟩, ⟨AB, -6⟩].map fun e => toy.red e.comp) [-2, -2, 2] ∧
      energyPerAtom toy (cinit toy [⟨A, -1⟩, ⟨B1, -2⟩, ⟨AB, -6⟩] [-2, -2, 2] [] none) = .ok (-3/2) ∧ (-3/2 : ℚ) < -v := by
  have mAB : ((⟨AB, -6⟩, [[-1, -5], [-4, -2]]) : Entry TComp × List (List ℚ)) ∈ cDoms := List.mem_cons_self ..
  have mA : ((⟨A, -1⟩, [[-1, -5], [-1, -10]]) : Entry TComp × List (List ℚ)) ∈ cDoms := List.mem_cons_of_mem _ (List.mem_cons_self ..)
  have mB : ((⟨B1, -2⟩, [[-4, -2], [-10, -2]]) : Entry TComp × List (List ℚ)) ∈ cDoms :=
    List.mem_cons_of_mem _ (List.mem_cons_of_mem _ (List.mem_cons_self ..))
  have off : ∀ (e : Entry TComp) (pe : List (List ℚ)), e ∈ cMins → (e, pe) ∈ cDoms →
      getOffset cMins (dictGet cDoms e).isSome eAbove fr e = .ok 0 := by
    intro e pe he hd
    unfold getOffset
    rw [(found cDiagram e pe hd).1, if_pos ⟨he, rfl⟩]
  have pd : ∀ (a b : Entry TComp) (pa pb : List (List ℚ)), a ∈ cMins → b ∈ cMins → (a, pa) ∈ cDoms → (b, pb) ∈ cDoms →
      ∃ m, pairDistance fl6 Y s cDoms (fun e => e) cMins eAbove fr a b = .ok (fl6 m) ∧ Verif.Props.Thermo.IsMinDist euclid pa pb m := by
    intro a b pa pb ha hb da db
    obtain ⟨f1, f2⟩ := found cDiagram a pa da
    obtain ⟨g1, g2⟩ := found cDiagram b pb db
    obtain ⟨m, h1, h2⟩ := reported Y s a b pa pb f1 g1 f2 g2 0
    refine ⟨m, ?_, h2⟩
    unfold pairDistance
    rw [off a pa ha da, off b pb hb db]
    show ((shortest Y (dictGet cDoms) euclid s a b (0 + 0)).2).map fl6 = _
    rw [add_zero, h1]
    simp [Except.map]
  obtain ⟨m1, e1, -, l1⟩ := pd ⟨AB, -6⟩ ⟨A, -1⟩ _ _ (by decide +kernel) (by decide +kernel) mAB mA
  obtain ⟨m2, e2, -, l2⟩ := pd ⟨AB, -6⟩ ⟨B1, -2⟩ _ _ (by decide +kernel) (by decide +kernel) mAB mB
  obtain ⟨m3, e3, -, l3⟩ := pd ⟨A, -1⟩ ⟨B1, -2⟩ _ _ (by decide +kernel) (by decide +kernel) mA mB
  have fle : ∀ (x : ℝ) (q : ℚ), x ≤ q → fl6 x ≤ q := by
    intro x q hx
    have h1 := Int.floor_le (x * 10 ^ 6)
    have h2 : ((fl6 x : ℚ) : ℝ) ≤ (q : ℝ) := by
      unfold fl6
      push_cast
      rw [div_le_iff₀ (by norm_num)]
      have := mul_le_mul_of_nonneg_right hx (show (0:ℝ) ≤ 10 ^ 6 by norm_num)
      linarith
    exact_mod_cast h2
  have b1 := fle m1 0 (by
    have := l1 [-1, -5] (by simp) [-1, -5] (by simp)
    rw [euclid_self] at this
    simpa using this)
  have b2 := fle m2 0 (by
    have := l2 [-4, -2] (by simp) [-4, -2] (by simp)
    rw [euclid_self] at this
    simpa using this)
  have b3 := fle m3 (43/10) (by
    refine (l3 [-1, -5] (by simp) [-4, -2] (by simp)).trans ?_
    unfold euclid
    rw [Real.sqrt_le_left (by norm_num)]
    norm_num)
  have hcombo : combos dRxn = [(⟨AB, -6⟩, ⟨A, -1⟩), (⟨AB, -6⟩, ⟨B1, -2⟩), (⟨A, -1⟩, ⟨B1, -2⟩)] := by decide +kernel
  refine ⟨roundDigits 5 ((fl6 m1 + (fl6 m2 + (fl6 m3 + 0))) / 3), ?_, by decide +kernel, fun e => by revert e; decide +kernel, by decide +kernel, ?_⟩
  · unfold chempotDistance
    rw [hcombo]
    simp only [List.mapM_cons, List.mapM_nil, e1, e2, e3]
    rfl
  · have h := (round_bounds ((fl6 m1 + (fl6 m2 + (fl6 m3 + 0))) / 3 * 10 ^ 5)).1
    unfold roundDigits
    rw [lt_neg, div_lt_iff₀ (by norm_num)]
    linarith

end Verif.Props.Residual
