import Verif.Lemmas.HullExample

/-!
Properties C01-C07 and C65: the interface reaction hull
(`InterfaceReactionHull`, src/rxn_network/reactions/hull.py).

`GoodHull h vs` collects what is assumed of the external `scipy.spatial.ConvexHull`: the filtered vertices are the
points `vs` of the lower hull, and neighbouring vertices are further apart than numpy's `isclose` tolerance.
`Sep vs x`: `x` is not within that tolerance of a vertex other than itself.
-/

namespace Verif.Props.Hull
open Verif.Py Verif.Model.Hull Verif.Spec.Hull Verif.Lemmas Verif.Lemmas.Hull

theorem sep_zero {h : IRH} {vs} (G : GoodHull h vs) : Sep vs 0 := by
  obtain ⟨y, hy, _⟩ := first_mem G
  have := sep_of_mem G hy
  exact this

theorem sep_one {h : IRH} {vs} (G : GoodHull h vs) : Sep vs 1 := by
  obtain ⟨y, hy, _⟩ := last_mem G
  have := sep_of_mem G hy
  exact this

/-! ### C01 -/

/-- `count(n)` is the number of decomposition trees (binary trees with `n` inner nodes), for every `n ≥ 0`. -/
theorem C01_count_is_number_of_trees (n : ℕ) :
    count (n : ℤ) = some (BinaryTree.treesOfNumNodesEq n).card := by
  rw [count_eq, BinaryTree.treesOfNumNodesEq_card_eq_catalan]

/-- The recursive branch never indexes its cache out of range and counts trees as well (for every `n`, not only
those above the table). -/
theorem C01_recursive_branch (n : ℕ) :
    ∃ cache, countRecursive n [] = some ((BinaryTree.treesOfNumNodesEq n).card, cache) := by
  rw [BinaryTree.treesOfNumNodesEq_card_eq_catalan]
  exact ⟨_, countRecursive_nil n⟩

example : count 22 = some 91482563640 := by decide
example : count 4 = some (BinaryTree.treesOfNumNodesEq 4).card := C01_count_is_number_of_trees 4
-- recursive branch
example : count ((30 : ℕ) : ℤ) = some 3814986502092304 := by
  rw [count_eq, catalan_eq_centralBinom_div]; decide +kernel

/-! ### C02 -/

/-- The triple loop with Catalan multiplicities computes the sum, over all decomposition trees, of the altitudes of
their steps; for any type of points and any altitude function. -/
theorem C02_triple_loop_is_tree_sum {γ : Type} (alt : γ → γ → γ → ℚ) (pt : ℕ → γ) (n : ℕ) :
    decompositionEnergyWith alt ((List.range (n + 2)).map pt)
      = some (∑ t ∈ BinaryTree.treesOfNumNodesEq n, treeEnergy (fun i j k => alt (pt i) (pt j) (pt k)) 0 t) :=
  decompositionEnergyWith_eq alt pt n

example := C02_triple_loop_is_tree_sum (calculateAltitude) (fun i => ((i : ℚ), (i : ℚ) * ((i : ℚ) - 5))) 4

/-- `_calculate_altitude` is the signed vertical distance of the middle point from the line through the outer two. -/
theorem C02_altitude_is_vertical_distance (l m r : ℚ × ℚ) (h : l.1 < r.1) :
    OnLine l r (m.1, m.2 - calculateAltitude l m r) := by
  have : r.1 - l.1 ≠ 0 := by linarith
  simp only [OnLine, calculateAltitude]
  field_simp
  ring

example : OnLine (0, 0) (1, 4) (1/2, 2) := by
  have := C02_altitude_is_vertical_distance (0, 0) (1/2, -1) (1, 4) (by norm_num)
  rwa [show ((1/2, -1) : ℚ × ℚ).2 - calculateAltitude (0, 0) (1/2, -1) (1, 4) = 2 by decide +kernel] at this

theorem range_as_map (R : List (ℚ × ℚ)) : R = (List.range R.length).map (fun i => R.getD i 0) := by
  apply List.ext_getElem?
  intro i
  by_cases h : i < R.length
  · simp [h, List.getD_eq_getElem?_getD]
  · simp [h]

/-- For any hull object and any interval, the decomposition energy is the sum over all trees of the coordinates in that
range (with one coordinate or none there is nothing to decompose and the energy is zero). -/
theorem C02_any_range (h : IRH) (x1 x2 : ℚ) (R : List (ℚ × ℚ)) (hR : getCoordsInRange h x1 x2 = some R) :
    getDecompositionEnergy h x1 x2 = some (∑ t ∈ BinaryTree.treesOfNumNodesEq (R.length - 2),
      treeEnergy (fun i j k => calculateAltitude (R.getD i 0) (R.getD j 0) (R.getD k 0)) 0 t) := by
  simp only [getDecompositionEnergy, hR, Option.bind_eq_bind, Option.bind_some]
  by_cases h2 : 2 ≤ R.length
  · unfold decompositionEnergy
    conv_lhs => rw [range_as_map R, show R.length = (R.length - 2) + 2 by omega]
    rw [decompositionEnergyWith_eq]
    rfl
  · rw [show R.length - 2 = 0 by omega]
    have := decompositionEnergyWith_short calculateAltitude R (by omega)
    unfold decompositionEnergy
    rw [this]
    have := total_zero (fun i j k => calculateAltitude (R.getD i 0) (R.getD j 0) (R.getD k 0)) 0
    unfold totalTreeEnergy at this
    rw [this]

example := C02_any_range exHull 0 1 [(0, 0), (1/2, -2), (3/4, -3/2), (1, 0)] (by decide +kernel)

/-- On a hull whose end members do not decompose, `get_decomposition_energy(x1, x2)` is the sum over all
decomposition trees of the hull vertices strictly between `x1` and `x2`, and the recursive procedure returns that
same energy together with the number of trees. -/
theorem C02_decomposition_energy {h : IRH} {vs} (G : GoodHull h vs) (F : FlatEnds vs) {x1 x2 : ℚ} (h0 : 0 ≤ x1)
    (hx : x1 < x2) (h1 : x2 ≤ 1) (s1 : Sep vs x1) (s2 : Sep vs x2) :
    ∃ (y1 y2 : ℚ) (E : ℚ) (I R : List (ℚ × ℚ)), OnChain vs (x1, y1) ∧ OnChain vs (x2, y2) ∧
      I = vs.filter (fun c => decide (x1 < c.1 ∧ c.1 < x2)) ∧ R = (x1, y1) :: (I ++ [(x2, y2)]) ∧
      E = ∑ t ∈ BinaryTree.treesOfNumNodesEq I.length,
            treeEnergy (fun i j k => calculateAltitude (R.getD i 0) (R.getD j 0) (R.getD k 0)) 0 t ∧
      getDecompositionEnergy h x1 x2 = some E ∧
      ∀ fuel, I.length < fuel →
        recDecomp h fuel x1 x2 true true = some (E, (BinaryTree.treesOfNumNodesEq I.length).card) := by
  obtain ⟨y1, y2, c1, c2, hR⟩ := range_flat G F h0 hx.le h1 s1 s2
  have hend : endPt x1 x2 y2 = [(x2, y2)] := by unfold endPt; rw [if_pos (ne_of_gt hx)]
  rw [hend] at hR
  refine ⟨y1, y2, _, interior vs x1 x2, (x1, y1) :: (interior vs x1 x2 ++ [(x2, y2)]), c1, c2, rfl, rfl, rfl, ?_, ?_⟩
  · simp only [getDecompositionEnergy, hR, Option.bind_eq_bind, Option.bind_some, decompositionEnergy]
    conv_lhs => rw [range_as_map ((x1, y1) :: (interior vs x1 x2 ++ [(x2, y2)]))]
    rw [show ((x1, y1) :: (interior vs x1 x2 ++ [(x2, y2)])).length = (interior vs x1 x2).length + 2 by simp]
    rw [decompositionEnergyWith_eq]
    rfl
  · intro fuel hf
    rw [recDecomp_flat G F _ x1 x2 h0 hx.le h1 s1 s2 rfl fuel hf _ hR,
      BinaryTree.treesOfNumNodesEq_card_eq_catalan]
    rfl

-- hypotheses are satisfiable on a hull with two interior vertices (and both procedures give -5, 2 trees)
example : getDecompositionEnergy exHull 0 1 = some (-5) ∧ recDecomp exHull 5 0 1 true true = some (-5, 2) := by
  decide +kernel
example := C02_decomposition_energy exHull_good exHull_flat (x1 := 0) (x2 := 1) (by norm_num) (by norm_num) (by norm_num)
  (by decide +kernel) (by decide +kernel)

/-! ### C65 -/

/-- The two implementations of the decomposition energy disagree when a reactant itself decomposes (a hull vertex
with negative energy at `x = 0`): `use_x_min_ref` is changed inside the loop and stays changed. -/
theorem C65_recursive_counterexample :
    ∃ (h : IRH) (vs : List (ℚ × ℚ)), GoodHull h vs ∧ getDecompositionEnergy h 0 1 = some (-11/2) ∧
      recDecomp h 10 0 1 true true = some (-9/2, 2) :=
  ⟨⟨[(0, 0), (0, -1), (1/2, -2), (1, 0)], [1, 2, 3, 0]⟩, [(0, -1), (1/2, -2), (1, 0)],
    ⟨by decide +kernel, lowerHull_of (by decide +kernel) (by decide +kernel) (by decide +kernel) (by decide +kernel)
      (by decide +kernel), by decide +kernel, by decide +kernel⟩, by decide +kernel, by decide +kernel⟩

/-- When neither reactant decomposes, both implementations of the secondary competition agree at every interior
coordinate, for all option settings.  Missing for the full claim: hulls with a negative vertex at `x = 0` or
`x = 1` (refuted above), and un-normalized values at the end points (see C04). -/
theorem C65_secondary_recursive_partial {h : IRH} {vs} (G : GoodHull h vs) (F : FlatEnds vs) (idx : ℕ) (c : ℚ × ℚ)
    (hc : h.coords[idx]? = some c) (h0 : 0 < c.1) (h1 : c.1 < 1) (s : Sep vs c.1) (normalize eHull : Bool)
    (fuel : ℕ) (hf : vs.length < fuel) :
    getSecondaryCompetition h idx normalize eHull = getSecondaryCompetitionRec h fuel idx normalize eHull := by
  have s0 := sep_zero G
  have s1 := sep_one G
  obtain ⟨y1, y2, c1, c2, hR⟩ := range_flat G F (le_refl 0) h0.le h1.le s0 s
  obtain ⟨z1, z2, d1, d2, hR'⟩ := range_flat G F h0.le h1.le (le_refl 1) s s1
  obtain ⟨_, _, E, I, R, _, _, hI, hRR, _, hE, hrec⟩ := C02_decomposition_energy G F (le_refl 0) h0 h1.le s0 s
  obtain ⟨_, _, E', I', R', _, _, hI', hRR', _, hE', hrec'⟩ := C02_decomposition_energy G F h0.le h1 (le_refl 1) s s1
  have hend : endPt 0 c.1 y2 = [(c.1, y2)] := by unfold endPt; rw [if_pos (ne_of_gt h0)]
  have hend' : endPt c.1 1 z2 = [(1, z2)] := by unfold endPt; rw [if_pos (ne_of_gt h1)]
  rw [hend] at hR
  rw [hend'] at hR'
  have hl : I.length ≤ vs.length := by rw [hI]; exact List.length_filter_le _ _
  have hl' : I'.length ≤ vs.length := by rw [hI']; exact List.length_filter_le _ _
  unfold getSecondaryCompetition getSecondaryCompetitionRec
  simp only [hc, Option.bind_eq_bind, Option.bind_some, hE, hE', hrec fuel (by omega), hrec' fuel (by omega), hR, hR']
  have e1 : ((((0, y1) :: (interior vs 0 c.1 ++ [(c.1, y2)])).length : ℤ) - 2) = ((I.length : ℕ) : ℤ) := by
    rw [hI]; simp [interior]; ring
  have e2 : ((((c.1, z1) :: (interior vs c.1 1 ++ [(1, z2)])).length : ℤ) - 2) = ((I'.length : ℕ) : ℤ) := by
    rw [hI']; simp [interior]; ring
  rw [e1, e2, C01_count_is_number_of_trees, C01_count_is_number_of_trees]
  simp only [Option.bind_some]

example : getSecondaryCompetition exHull 2 true true = getSecondaryCompetitionRec exHull 5 2 true true :=
  C65_secondary_recursive_partial exHull_good exHull_flat 2 (1/2, -2) (by decide +kernel) (by norm_num) (by norm_num)
    (by decide +kernel) true true 5 (by decide)
example : getSecondaryCompetition exHull 2 true false = some (1/2) := by decide +kernel

/-! ### C03 -/

/-- On a lower hull the decomposition energy and the most negative single step exist and are `≤ 0`. -/
theorem C03_decomposition_nonpos {h : IRH} {vs} (G : GoodHull h vs) {x1 x2 : ℚ} (h0 : 0 ≤ x1) (hx : x1 ≤ x2)
    (h1 : x2 ≤ 1) (s1 : Sep vs x1) (s2 : Sep vs x2) :
    (∃ e, getDecompositionEnergy h x1 x2 = some e ∧ e ≤ 0) ∧
    (∃ e, getMaxDecompositionEnergy h x1 x2 = some e ∧ e ≤ 0) := by
  obtain ⟨R, hR, _, halt⟩ := range_altitudes G h0 hx h1 s1 s2
  constructor
  · obtain ⟨e, he, hle⟩ := decomp_nonpos R halt
    exact ⟨e, by simp [getDecompositionEnergy, hR, he], hle⟩
  · obtain ⟨e, he, hle, _⟩ := foldlM_max (combinations (List.range R.length) 3) R 0 (le_refl _)
      (fun c hc => mem_comb3_range hc)
    refine ⟨e, ?_, hle⟩
    simp only [getMaxDecompositionEnergy, hR, Option.bind_eq_bind, Option.bind_some]
    exact he

example := C03_decomposition_nonpos exHull_good (x1 := 0) (x2 := 1) (by norm_num) (by norm_num) (by norm_num) (by decide +kernel)
  (by decide +kernel)

theorem combineSides_nonneg {l r : ℚ} (hl : l ≤ 0) (hr : r ≤ 0) (m n : ℕ) (b : Bool) (e : Option ℚ)
    (he : ∀ v ∈ e, 0 ≤ v) : 0 ≤ combineSides l r m n b e := by
  unfold combineSides
  set lN : ℕ := if m = 0 then 1 else m
  set rN : ℕ := if n = 0 then 1 else n
  have h1 : l * rN + r * lN ≤ 0 := by
    have a := mul_nonpos_of_nonpos_of_nonneg hl (Nat.cast_nonneg (α := ℚ) rN)
    have b := mul_nonpos_of_nonpos_of_nonneg hr (Nat.cast_nonneg (α := ℚ) lN)
    linarith
  have h2 : (if b then (l * rN + r * lN) / ((lN * rN : ℕ) : ℚ) else (l * rN + r * lN)) ≤ 0 := by
    split_ifs
    · exact div_nonpos_of_nonpos_of_nonneg h1 (by positivity)
    · exact h1
  cases e with
  | none => simp only; linarith
  | some v => have := he v (by simp); simp only; linarith

/-- Energy above hull exists and is non-negative for every reaction of the hull, and zero for stable ones. -/
theorem C07_energy_above_hull {h : IRH} {vs} (G : GoodHull h vs) (idx : ℕ) (c : ℚ × ℚ)
    (hc : h.coords[idx]? = some c) (h0 : 0 ≤ c.1) (h1 : c.1 ≤ 1) (s : Sep vs c.1) :
    ∃ e, getEnergyAboveHull h idx = some e ∧ 0 ≤ e ∧ (idx ∈ hullVertices h → e = 0) := by
  obtain ⟨y, hy, hch⟩ := hullEnergy_spec G h0 h1 s
  refine ⟨c.2 - y, by simp [getEnergyAboveHull, hc, hy], ?_, ?_⟩
  · obtain ⟨a, b, hab, g1, g2, g3⟩ := hch
    have hlt := adjacent_lt G.lower.strict hab
    have hs := G.lower.support a b hab c (List.mem_of_getElem? hc)
    simp only [AboveLine, OnLine] at hs g3
    have : y * (b.1 - a.1) ≤ c.2 * (b.1 - a.1) := by rw [g3]; exact hs
    have := le_of_mul_le_mul_right this (by linarith)
    linarith
  · intro hmem
    have hm : idx ∈ sortedVertices h := by
      unfold sortedVertices; rw [(List.perm_insertionSort _ _).mem_iff]; exact hmem
    have : h.coords[idx]? ∈ vs.map some := by
      rw [← G.verts]; exact List.mem_map.mpr ⟨idx, hm, rfl⟩
    rw [hc, List.mem_map] at this
    obtain ⟨v, hv, hvc⟩ := this
    cases hvc
    have hv' := onChain_vertex (two_le_length G) G.lower.strict hv
    have := onChain_unique G.lower hch hv'
    linarith

example := C07_energy_above_hull exHull_good 1 (1/4, -1/2) (by decide +kernel) (by norm_num) (by norm_num) (by decide +kernel)

example : getEnergyAboveHull exHull 1 = some (1/2) ∧ getEnergyAboveHull exHull 4 = some 0 := by decide +kernel

/-- The secondary competition (all option settings) and its max-energy variant exist and are non-negative for every
reaction of the hull. -/
theorem C03_secondary_competition_nonneg {h : IRH} {vs} (G : GoodHull h vs) (idx : ℕ) (c : ℚ × ℚ)
    (hc : h.coords[idx]? = some c) (h0 : 0 ≤ c.1) (h1 : c.1 ≤ 1) (s : Sep vs c.1) (normalize eHull : Bool) :
    (∃ v, getSecondaryCompetition h idx normalize eHull = some v ∧ 0 ≤ v) ∧
    (∃ v, getSecondaryCompetitionMaxEnergy h idx = some v ∧ 0 ≤ v) := by
  have s0 := sep_zero G
  have s1 := sep_one G
  obtain ⟨⟨l, hl, hl0⟩, ⟨ml, hml, hml0⟩⟩ := C03_decomposition_nonpos G (le_refl 0) h0 h1 s0 s
  obtain ⟨⟨r, hr, hr0⟩, ⟨mr, hmr, hmr0⟩⟩ := C03_decomposition_nonpos G h0 h1 (le_refl 1) s s1
  obtain ⟨R, hR, hRne, _⟩ := range_altitudes G (le_refl 0) h0 h1 s0 s
  obtain ⟨R', hR', hRne', _⟩ := range_altitudes G h0 h1 (le_refl 1) s s1
  obtain ⟨e, he, he0, _⟩ := C07_energy_above_hull G idx c hc h0 h1 s
  have hcount : ∀ R : List (ℚ × ℚ), R ≠ [] → ∃ k, count ((R.length : ℤ) - 2) = some k := by
    intro R hne
    have hpos := List.length_pos_iff.mpr hne
    by_cases h2 : 2 ≤ R.length
    · exact ⟨_, by rw [show (R.length : ℤ) - 2 = ((R.length - 2 : ℕ) : ℤ) by omega]; exact count_eq _⟩
    · have : R.length = 1 := by omega
      rw [this]; exact ⟨91482563640, by decide⟩
  obtain ⟨k, hk⟩ := hcount R hRne
  obtain ⟨k', hk'⟩ := hcount R' hRne'
  constructor
  · unfold getSecondaryCompetition
    cases eHull
    · refine ⟨combineSides l r k k' normalize none, ?_, combineSides_nonneg hl0 hr0 _ _ _ _ (by simp)⟩
      simp [hc, hl, hr, hR, hR', hk, hk']
    · refine ⟨combineSides l r k k' normalize (some e), ?_, combineSides_nonneg hl0 hr0 _ _ _ _ (by simpa using he0)⟩
      simp [hc, hl, hr, hR, hR', hk, hk', he]
  · exact ⟨-1 * (ml + mr), by simp [getSecondaryCompetitionMaxEnergy, hc, hml, hmr], by linarith⟩

example : ∃ v, getSecondaryCompetition exHull 1 true true = some v ∧ 0 ≤ v :=
  (C03_secondary_competition_nonneg exHull_good 1 (1/4, -1/2) (by decide +kernel) (by norm_num) (by norm_num)
    (by decide +kernel) true true).1
example : getSecondaryCompetitionMaxEnergy exHull 1 = some (4/3) := by decide +kernel

/-- `get_max_decomposition_energy` is the most negative altitude of any step (or 0): nothing is overlooked and the
value is attained. -/
theorem C03_max_is_extremal (coords : List (ℚ × ℚ)) :
    ∃ e, maxDecompositionEnergy coords = some e ∧
      (∀ (i j k : ℕ) cl cm cr, i < j → j < k → coords[i]? = some cl → coords[j]? = some cm → coords[k]? = some cr →
        e ≤ calculateAltitude cl cm cr) ∧
      (e = 0 ∨ ∃ (i j k : ℕ) (cl cm cr : ℚ × ℚ), i < j ∧ j < k ∧ coords[i]? = some cl ∧ coords[j]? = some cm ∧
        coords[k]? = some cr ∧ e = calculateAltitude cl cm cr) := by
  obtain ⟨e, he, _, h2, h3⟩ := foldlM_max (combinations (List.range coords.length) 3) coords 0 (le_refl _)
      (fun c hc => mem_comb3_range hc)
  refine ⟨e, he, ?_, ?_⟩
  · intro i j k cl cm cr hij hjk gi gj gk
    have hk := (List.getElem?_eq_some_iff.mp gk).1
    refine h2 i j k cl cm cr ?_ gi gj gk
    rw [mem_combinations]
    refine ⟨?_, rfl⟩
    have hsub : [i, j, k].Sublist (List.range coords.length) := by
      apply List.sublist_of_subperm_of_pairwise (r := (· < ·))
      · apply List.subperm_of_subset
        · simp; omega
        · intro a ha; simp at ha; rw [List.mem_range]; omega
      · simp; omega
      · exact List.pairwise_lt_range
    exact hsub
  · rcases h3 with h3 | ⟨i, j, k, cl, cm, cr, hmem, g1, g2, g3, g4⟩
    · exact Or.inl h3
    · obtain ⟨i', j', k', heq, h1, h2, _⟩ := mem_comb3_range hmem
      simp only [List.cons.injEq, and_true] at heq
      obtain ⟨rfl, rfl, rfl⟩ := heq
      exact Or.inr ⟨i, j, k, cl, cm, cr, h1, h2, g1, g2, g3, g4⟩

example := C03_max_is_extremal [(0, 0), (1/2, -2), (3/4, -3/2), (1, 0)]
example : maxDecompositionEnergy [(0, 0), (1/2, -2), (3/4, -3/2), (1, 0)] = some (-2) := by decide +kernel

/-! ### C04 -/

/-- An end-member reaction gets a wrong number of paths: the interval on its left consists of one coordinate, the
code evaluates `count(-1)`, which is the *last* entry of the table, and the un-normalized secondary competition is off
by a factor of about `9·10^10`. -/
theorem C04_degenerate_counterexample :
    GoodHull exHull exVs ∧ getSecondaryCompetition exHull 0 false false = some 457412818200 ∧
      getSecondaryCompetitionRec exHull 5 0 false false = some 5 :=
  ⟨exHull_good, by decide +kernel, by decide +kernel⟩

/-- With normalization the spurious factor cancels, so at both end points the two variants agree (hulls whose end
members do not decompose). Missing: un-normalized values, refuted above. -/
theorem C04_degenerate_normalized_partial {h : IRH} {vs} (G : GoodHull h vs) (F : FlatEnds vs) (idx : ℕ) (c : ℚ × ℚ)
    (hc : h.coords[idx]? = some c) (hend : c.1 = 0 ∨ c.1 = 1) (eHull : Bool) (fuel : ℕ) (hf : vs.length < fuel) :
    getSecondaryCompetition h idx true eHull = getSecondaryCompetitionRec h fuel idx true eHull := by
  have s0 := sep_zero G
  have s1 := sep_one G
  obtain ⟨y1, y2, E, I, R, cc1, cc2, hI, hRR, _, hE, hrec⟩ := C02_decomposition_energy G F (le_refl 0) zero_lt_one (le_refl 1) s0 s1
  have hl : I.length ≤ vs.length := by rw [hI]; exact List.length_filter_le _ _
  obtain ⟨y1', y2', _, _, hR⟩ := range_flat G F (le_refl 0) zero_le_one (le_refl 1) s0 s1
  have hend' : endPt 0 1 y2' = [(1, y2')] := by unfold endPt; rw [if_pos one_ne_zero]
  rw [hend'] at hR
  have e1 : ((((0, y1') :: (interior vs 0 1 ++ [(1, y2')])).length : ℤ) - 2) = ((I.length : ℕ) : ℤ) := by
    rw [hI]; simp [interior]; ring
  have degen : ∀ x : ℚ, 0 ≤ x → x ≤ 1 → Sep vs x → ∃ R, getCoordsInRange h x x = some R ∧ R.length = 1 ∧
      getDecompositionEnergy h x x = some 0 ∧ recDecomp h fuel x x true true = some (0, 1) := by
    intro x h0 h1 s
    obtain ⟨y, y', _, _, hR⟩ := range_flat G F h0 (le_refl x) h1 s s
    have hI0 : interior vs x x = [] := by
      unfold interior; rw [List.filter_eq_nil_iff]; intro a _; simp; intro h; linarith
    have hR1 : getCoordsInRange h x x = some [(x, y)] := by rw [hR, hI0]; simp [endPt]
    refine ⟨_, hR1, rfl, ?_, ?_⟩
    · simp only [getDecompositionEnergy, hR1, Option.bind_eq_bind, Option.bind_some]
      exact decompositionEnergyWith_short _ _ (by simp)
    · rw [recDecomp_flat G F 0 x x h0 (le_refl x) h1 s s (by rw [hI0]; rfl) fuel (by omega) _ hR1, total_zero]
      simp
  have hcnt : count ((1 : ℕ) - 2 : ℤ) = some 91482563640 := by decide
  have hcard : ((BinaryTree.treesOfNumNodesEq I.length).card : ℚ) ≠ 0 := by
    rw [BinaryTree.treesOfNumNodesEq_card_eq_catalan]
    have : 0 < catalan I.length := by
      rw [catalan_eq_centralBinom_div]
      have := Nat.succ_dvd_centralBinom I.length
      exact Nat.div_pos (Nat.le_of_dvd (Nat.centralBinom_pos _) this) (Nat.succ_pos _)
    exact_mod_cast this.ne'
  have hcard' : (BinaryTree.treesOfNumNodesEq I.length).card ≠ 0 := by exact_mod_cast hcard
  rcases hend with hx | hx
  · obtain ⟨R0, hR0, hlen0, hE0, hrec0⟩ := degen 0 (le_refl _) zero_le_one s0
    unfold getSecondaryCompetition getSecondaryCompetitionRec
    simp only [hc, Option.bind_eq_bind, Option.bind_some, hx, hE, hrec fuel (by omega), hR, hR0, hE0, hrec0, hlen0, hcnt]
    rw [e1, C01_count_is_number_of_trees]
    simp only [Option.bind_some]
    have hcomb : ∀ eh, combineSides 0 E 91482563640 (BinaryTree.treesOfNumNodesEq I.length).card true eh
        = combineSides 0 E 1 (BinaryTree.treesOfNumNodesEq I.length).card true eh := by
      intro eh
      simp only [combineSides, hcard', if_false, if_true]
      have : ∀ n : ℕ, n ≠ 0 → (0 * ((BinaryTree.treesOfNumNodesEq I.length).card : ℚ) + E * (n : ℚ)) / ((n * (BinaryTree.treesOfNumNodesEq I.length).card : ℕ) : ℚ) = E / (BinaryTree.treesOfNumNodesEq I.length).card := by
        intro n hn
        have : (n : ℚ) ≠ 0 := by exact_mod_cast hn
        push_cast; field_simp; ring
      simp only [OfNat.ofNat_ne_zero, one_ne_zero, if_false]
      rw [this _ (by norm_num), this _ (by norm_num)]
    simp only [hcomb]
  · obtain ⟨R0, hR0, hlen0, hE0, hrec0⟩ := degen 1 zero_le_one (le_refl _) s1
    unfold getSecondaryCompetition getSecondaryCompetitionRec
    simp only [hc, Option.bind_eq_bind, Option.bind_some, hx, hE, hrec fuel (by omega), hR, hR0, hE0, hrec0, hlen0, hcnt]
    rw [e1, C01_count_is_number_of_trees]
    simp only [Option.bind_some]
    have hcomb : ∀ eh, combineSides E 0 (BinaryTree.treesOfNumNodesEq I.length).card 91482563640 true eh
        = combineSides E 0 (BinaryTree.treesOfNumNodesEq I.length).card 1 true eh := by
      intro eh
      simp only [combineSides, hcard', if_false, if_true]
      have : ∀ n : ℕ, n ≠ 0 → (E * (n : ℚ) + 0 * ((BinaryTree.treesOfNumNodesEq I.length).card : ℚ)) / (((BinaryTree.treesOfNumNodesEq I.length).card * n : ℕ) : ℚ) = E / (BinaryTree.treesOfNumNodesEq I.length).card := by
        intro n hn
        have : (n : ℚ) ≠ 0 := by exact_mod_cast hn
        push_cast; field_simp; ring
      simp only [OfNat.ofNat_ne_zero, one_ne_zero, if_false]
      rw [this _ (by norm_num), this _ (by norm_num)]
    simp only [hcomb]

example : getSecondaryCompetition exHull 0 true false = some (5/2) := by decide +kernel
example : getSecondaryCompetition exHull 0 true true = getSecondaryCompetitionRec exHull 5 0 true true :=
  C04_degenerate_normalized_partial exHull_good exHull_flat 0 (0, 0) (by decide +kernel) (Or.inl rfl) true 5 (by decide)

/-! ### C05 -/

/-- Weighted sum of a quantity over a lookup result. -/
def weighted (coords : List (ℚ × ℚ)) (f : ℚ × ℚ → ℚ) (res : List (ℕ × ℚ)) : ℚ :=
  (res.map fun r => r.2 * ((coords[r.1]?).elim 0 f)).sum

/-- For every `x` in `[0,1]` the lookup succeeds; it returns existing hull vertices with non-negative weights that sum
to one, whose weighted coordinate is `x` up to the `np.isclose` tolerance, and exactly `x` unless a different vertex is
within that tolerance; the hull energy is the same combination of vertex energies. -/
theorem C05_lever_rule {h : IRH} {vs} (G : GoodHull h vs) {x : ℚ} (h0 : 0 ≤ x) (h1 : x ≤ 1) :
    ∃ res, getReactionsByCoordinate h x = some res ∧
      (∀ r ∈ res, r.1 ∈ hullVertices h ∧ (∃ c, h.coords[r.1]? = some c) ∧ 0 ≤ r.2) ∧
      (res.map Prod.snd).sum = 1 ∧
      |x - weighted h.coords Prod.fst res| ≤ 1 / 100000000 + 1 / 100000 ∧
      (Sep vs x → weighted h.coords Prod.fst res = x) ∧
      getHullEnergy h x = some (weighted h.coords Prod.snd res) := by
  obtain ⟨y0, _, hy⟩ := first_mem G
  obtain ⟨y1, _, hz⟩ := last_mem G
  obtain ⟨res, e1, e2⟩ := lookup_shape h.coords x (sortedVertices h) vs G.verts (two_le_length G)
    (by intro v hv; rw [hy] at hv; cases hv; exact h0) (by intro v hv; rw [hz] at hv; cases hv; exact h1)
  have hmem : ∀ i, i ∈ sortedVertices h → i ∈ hullVertices h := by
    intro i hi; unfold sortedVertices at hi; rwa [(List.perm_insertionSort _ _).mem_iff] at hi
  have hvs : ∀ i v, i ∈ sortedVertices h → h.coords[i]? = some v → v ∈ vs := by
    intro i v hi hv
    have : h.coords[i]? ∈ vs.map some := by rw [← G.verts]; exact List.mem_map.mpr ⟨i, hi, rfl⟩
    rw [hv, List.mem_map] at this
    obtain ⟨w, hw, hwv⟩ := this
    cases hwv; exact hw
  have hle1 : ∀ v ∈ vs, 0 ≤ v.1 ∧ v.1 ≤ 1 := by
    intro v hv
    constructor
    · have := G.lower.strict
      match vs, hy, hv, this with
      | a :: r, hy, hv, hp =>
        simp only [List.head?_cons, Option.some.injEq] at hy
        rcases List.mem_cons.mp hv with rfl | hv
        · rw [hy]
        · have := (List.pairwise_cons.mp hp).1 v hv; rw [hy] at this; exact this.le
    · obtain ⟨l, hl⟩ : ∃ l, vs = l ++ [(1, y1)] := by
        obtain rfl | ⟨l, a, hla⟩ := List.eq_nil_or_concat vs
        · simp at hz
        · rw [List.concat_eq_append] at hla
          rw [hla] at hz
          simp at hz
          exact ⟨l, by rw [hla, hz]⟩
      have := G.lower.strict
      rw [hl, List.pairwise_append] at this
      rw [hl] at hv
      rcases List.mem_append.mp hv with hv | hv
      · exact (this.2.2 v hv (1, y1) (by simp)).le
      · simp at hv; rw [hv]
  refine ⟨res, e1, ?_⟩
  rcases e2 with ⟨i, v, hi, hv, hclose, rfl⟩ | ⟨i, j, a, b, hi, hj, ha, hb, _, _, g1, g2, rfl⟩
  · refine ⟨?_, by simp, ?_, ?_, ?_⟩
    · intro r hr; simp at hr; subst hr; exact ⟨hmem i hi, ⟨v, hv⟩, by norm_num⟩
    · simp only [weighted, List.map_cons, List.map_nil, List.sum_cons, List.sum_nil, hv, Option.elim_some, one_mul, add_zero]
      have := of_decide_eq_true hclose
      have hb := hle1 v (hvs i v hi hv)
      rw [abs_of_nonneg hb.1] at this
      linarith [hb.2]
    · intro s
      have := s v (hvs i v hi hv) hclose
      simp [weighted, hv, this]
    · simp only [getHullEnergy, show getReactionsByCoordinate h x = some _ from e1, Option.bind_eq_bind, Option.bind_some, List.foldlM_cons, List.foldlM_nil, hv,
        Option.pure_def, weighted]
      simp [hv]
  · have hpos : 0 < b.1 - a.1 := by linarith
    have hsum : weighted h.coords Prod.fst [(i, (b.1 - x) / (b.1 - a.1)), (j, (x - a.1) / (b.1 - a.1))] = x := by
      simp only [weighted, List.map_cons, List.map_nil, List.sum_cons, List.sum_nil, ha, hb, Option.elim_some]
      field_simp; ring
    refine ⟨?_, ?_, ?_, fun _ => hsum, ?_⟩
    · intro r hr
      simp at hr
      rcases hr with rfl | rfl
      · exact ⟨hmem i hi, ⟨a, ha⟩, div_nonneg (by linarith) hpos.le⟩
      · exact ⟨hmem j hj, ⟨b, hb⟩, div_nonneg (by linarith) hpos.le⟩
    · simp only [List.map_cons, List.map_nil, List.sum_cons, List.sum_nil]
      field_simp; ring
    · rw [hsum]; norm_num
    · simp only [getHullEnergy, show getReactionsByCoordinate h x = some _ from e1, Option.bind_eq_bind, Option.bind_some, List.foldlM_cons, List.foldlM_nil, ha, hb,
        Option.pure_def, weighted]
      simp [ha, hb]

/-- At a vertex the lookup returns exactly that vertex with weight one. -/
theorem C05_vertex {h : IRH} {vs} (G : GoodHull h vs) {v : ℚ × ℚ} (hv : v ∈ vs) (h0 : 0 ≤ v.1) (h1 : v.1 ≤ 1) :
    ∃ i, h.coords[i]? = some v ∧ getReactionsByCoordinate h v.1 = some [(i, 1)] := by
  obtain ⟨y0, _, hy⟩ := first_mem G
  obtain ⟨y1, _, hz⟩ := last_mem G
  have hvs : ∀ i w, i ∈ sortedVertices h → h.coords[i]? = some w → w ∈ vs := by
    intro i v hi hv
    have : h.coords[i]? ∈ vs.map some := by rw [← G.verts]; exact List.mem_map.mpr ⟨i, hi, rfl⟩
    rw [hv, List.mem_map] at this
    obtain ⟨w, hw, hwv⟩ := this
    cases hwv; exact hw
  have hs := sep_of_mem G hv
  obtain ⟨res, y, e1, e2, e3⟩ := lookup_spec h.coords v.1 (sortedVertices h) vs G.verts G.lower.strict hs (two_le_length G)
    (by intro v hv; rw [hy] at hv; cases hv; exact h0) (by intro v hv; rw [hz] at hv; cases hv; exact h1)
  obtain ⟨res', e1', e2'⟩ := lookup_shape h.coords v.1 (sortedVertices h) vs G.verts (two_le_length G)
    (by intro v hv; rw [hy] at hv; cases hv; exact h0) (by intro v hv; rw [hz] at hv; cases hv; exact h1)
  rw [e1] at e1'; cases e1'
  rcases e2' with ⟨i, w, hi, hw, hclose, rfl⟩ | ⟨i, j, a, b, hi, hj, ha, hb, n1, n2, g1, g2, rfl⟩
  · have hwv := hvs i w hi hw
    have := strict_inj G.lower.strict hv hwv (hs w hwv hclose)
    subst this
    exact ⟨i, hw, e1⟩
  · -- impossible: the vertex itself would lie strictly between two consecutive vertices
    exfalso
    have key : ∀ (is : List ℕ) (us : List (ℚ × ℚ)), is.map (fun i => h.coords[i]?) = us.map some →
        us.Pairwise (fun a b => a.1 < b.1) → v ∈ us → ∀ res, lookup h.coords v.1 is = some res → res.length = 1 := by
      intro is
      induction is with
      | nil => intro us hu _ hvu; have : us = [] := by simpa using hu.symm
               simp [this] at hvu
      | cons i is ih =>
        intro us hu hp hvu res hres
        obtain _ | ⟨a, us⟩ := us
        · simp at hvu
        obtain _ | ⟨j, is⟩ := is
        · simp [lookup] at hres
        obtain _ | ⟨b, us⟩ := us
        · simp at hu
        simp only [List.map_cons, List.cons.injEq] at hu
        obtain ⟨ha, hb, hrest⟩ := hu
        simp only [lookup, ha, hb] at hres
        split_ifs at hres with q1 q2 q3
        · cases hres; rfl
        · cases hres; rfl
        · exfalso
          rw [List.pairwise_cons, List.pairwise_cons] at hp
          rcases List.mem_cons.mp hvu with rfl | hvu
          · linarith [q3.1]
          rcases List.mem_cons.mp hvu with rfl | hvu
          · linarith [q3.2]
          · have := hp.2.1 v hvu; linarith [q3.2]
        · refine ih (b :: us) (by simp [hb, hrest]) (List.pairwise_cons.mp hp).2 ?_ res hres
          rcases List.mem_cons.mp hvu with rfl | hvu
          · exact absurd (isclose_self _) q1
          · exact hvu
    have := key (sortedVertices h) vs G.verts G.lower.strict hv _ e1
    simp at this

example : getReactionsByCoordinate exHull (5/8) = some [(2, 1/2), (4, 1/2)] ∧ getHullEnergy exHull (5/8) = some (-7/4) := by
  decide +kernel
example := C05_lever_rule exHull_good (x := 5/8) (by norm_num) (by norm_num)
example := C05_vertex exHull_good (v := (3/4, -3/2)) (by decide +kernel) (by norm_num) (by norm_num)

/-! ### C06 -/

/-- For every reaction of the hull, the primary competition is its energy minus the least energy of the reactions at a
different coordinate (including both end members). -/
theorem C06_primary_competition (rs : List (ℚ × ℚ)) (V : List ℕ) (x e : ℚ)
    (hmem : (x, e) ∈ rs ∨ (x, e) = (0, 0) ∨ (x, e) = (1, 0)) :
    ∃ m, getPrimaryCompetition ⟨mkCoords rs, V⟩ e x = some (e - m) ∧
      IsLeast {y | ∃ x', x' ≠ x ∧ ((x', y) ∈ rs ∨ (x', y) = (0, 0) ∨ (x', y) = (1, 0))} m := by
  rw [primary_eq _ (mkCoords_sorted rs) x e ⟨(x, e), mem_mkCoords.mpr hmem, rfl⟩]
  obtain ⟨m, hm⟩ : ∃ m, (((mkCoords rs).filter fun c => decide (c.1 ≠ x)).map Prod.snd).min? = some m := by
    rw [← Option.isSome_iff_exists, List.isSome_min?_iff]
    by_cases hx : x = 0
    · apply List.ne_nil_of_mem (a := (0 : ℚ))
      rw [List.mem_map]
      exact ⟨(1, 0), List.mem_filter.mpr ⟨mem_mkCoords.mpr (by simp), by simp [hx]⟩, rfl⟩
    · apply List.ne_nil_of_mem (a := (0 : ℚ))
      rw [List.mem_map]
      exact ⟨(0, 0), List.mem_filter.mpr ⟨mem_mkCoords.mpr (by simp), by simpa using Ne.symm hx⟩, rfl⟩
  refine ⟨m, by rw [hm]; rfl, ?_⟩
  rw [List.min?_eq_some_iff] at hm
  obtain ⟨h1, h2⟩ := hm
  constructor
  · rw [List.mem_map] at h1
    obtain ⟨c, hc, rfl⟩ := h1
    rw [List.mem_filter] at hc
    exact ⟨c.1, by simpa using hc.2, mem_mkCoords.mp hc.1⟩
  · rintro y ⟨x', hx', hy⟩
    apply h2
    rw [List.mem_map]
    exact ⟨(x', y), List.mem_filter.mpr ⟨mem_mkCoords.mpr hy, by simpa using hx'⟩, rfl⟩

example := C06_primary_competition [(1/2, -2), (1/4, -1/2), (3/4, -3/2)] [] (1/4) (-1/2) (by decide +kernel)

example : getPrimaryCompetition exHull (-2) (1/2) = some (-1/2) ∧ getPrimaryCompetition exHull (-1/2) (1/4) = some (3/2) := by
  decide +kernel

/-! ### C07 -/

/-- `stable_reactions` and `unstable_reactions` together list every reaction exactly once (as multisets, so also with
repeated reactions), each in its original order. -/
theorem C07_partition {ρ : Type} (h : IRH) (reactions : List ρ) :
    (stableReactions h reactions ++ unstableReactions h reactions).Perm reactions ∧
      (stableReactions h reactions).Sublist reactions ∧ (unstableReactions h reactions).Sublist reactions := by
  have hz : reactions.zipIdx.map Prod.fst = reactions := List.zipIdx_map_fst 0 reactions
  refine ⟨?_, ?_, ?_⟩
  · have := List.filter_append_perm (fun p : ρ × ℕ => decide (p.2 ∈ hullVertices h)) reactions.zipIdx
    have := this.map Prod.fst
    rw [List.map_append, hz] at this
    unfold stableReactions unstableReactions
    simpa using this
  · conv_rhs => rw [← hz]
    exact List.filter_sublist.map _
  · conv_rhs => rw [← hz]
    exact List.filter_sublist.map _

example := C07_partition exHull ["P", "a", "b", "c", "d", "Q"]

/-- A position is stable iff it is a hull vertex: a reaction name that occurs once is in exactly one of the lists. -/
theorem C07_disjoint {ρ : Type} (h : IRH) (reactions : List ρ) (hnd : reactions.Nodup) (r : ρ) :
    ¬ (r ∈ stableReactions h reactions ∧ r ∈ unstableReactions h reactions) := by
  rintro ⟨h1, h2⟩
  have hp := (C07_partition h reactions).1
  have hnd' := hp.nodup_iff.mpr hnd
  exact (List.nodup_append.mp hnd').2.2 r h1 r h2 rfl

example : stableReactions exHull ["P", "a", "b", "c", "d", "Q"] = ["P", "b", "d", "Q"] ∧
    unstableReactions exHull ["P", "a", "b", "c", "d", "Q"] = ["a", "c"] := by decide +kernel

end Verif.Props.Hull
