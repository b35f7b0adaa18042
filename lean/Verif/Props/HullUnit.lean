import Verif.Props.HullMirror

/-! Property C144: the scores on an interface do not depend on the unit of energy (src/rxn_network/reactions/hull.py). -/

set_option linter.unusedSectionVars false

namespace Verif.Props.HullUnit
open Verif.Py Verif.Model.Hull Verif.Spec.Hull Verif.Lemmas Verif.Lemmas.Hull Verif.Lemmas.HullConvex Verif.Lemmas.HullMirror
open Verif.Props.Hull Verif.Props.HullConvex Verif.Props.HullMirror

/-! ### Specification -/

/-- The points with all energies in another unit. -/
def inUnit (a : ℚ) (pts : List (ℚ × ℚ)) : List (ℚ × ℚ) := pts.map fun p => (p.1, a * p.2)

/-- No decomposition of an end member has an energy that is nonzero but within numpy's tolerance of zero. -/
def ClearEnds (pts : List (ℚ × ℚ)) : Prop := ∀ p ∈ pts, p.1 = 0 ∨ p.1 = 1 → isclose p.2 0 = true → p.2 = 0

/-! ### Helper lemmas -/

/-- One point in another unit. -/
def sc (a : ℚ) (p : ℚ × ℚ) : ℚ × ℚ := (p.1, a * p.2)

theorem sc_inj {a : ℚ} (ha : 0 < a) {p q : ℚ × ℚ} (h : sc a p = sc a q) : p = q := by
  unfold sc at h
  obtain ⟨h1, h2⟩ := Prod.mk.inj h
  exact Prod.ext h1 (mul_left_cancel₀ ha.ne' h2)

theorem mem_sc {P Q : List (ℚ × ℚ)} {h h' : IRH} {a : ℚ} (H : IsHullOf P h) (H' : IsHullOf Q h') (hp : Q.Perm (inUnit a P)) (p : ℚ × ℚ) :
    p ∈ h'.coords ↔ ∃ q ∈ h.coords, sc a q = p := by
  rw [H'.perm.mem_iff, List.mem_append, hp.mem_iff]
  unfold inUnit
  rw [List.mem_map]
  constructor
  · rintro (⟨q, hq, rfl⟩ | hp)
    · exact ⟨q, H.perm.mem_iff.mpr (List.mem_append_left _ hq), rfl⟩
    · refine ⟨p, H.perm.mem_iff.mpr (List.mem_append_right _ hp), ?_⟩
      simp only [List.mem_cons, List.not_mem_nil, or_false] at hp
      rcases hp with rfl | rfl <;> simp [sc]
  · rintro ⟨q, hq, rfl⟩
    rcases List.mem_append.mp (H.perm.mem_iff.mp hq) with hq | hq
    · exact Or.inl ⟨q, hq, rfl⟩
    · right
      simp only [List.mem_cons, List.not_mem_nil, or_false] at hq
      rcases hq with rfl | rfl <;> simp [sc]

theorem lowerCorner_sc {P Q : List (ℚ × ℚ)} {a : ℚ} (ha : 0 < a) (h : ∀ p, p ∈ Q ↔ ∃ q ∈ P, sc a q = p) (p : ℚ × ℚ) :
    LowerCorner Q (sc a p) ↔ LowerCorner P p := by
  constructor
  · rintro ⟨hp, s, hs⟩
    obtain ⟨q, hq, he⟩ := (h _).mp hp
    obtain rfl := sc_inj ha he
    refine ⟨hq, s / a, fun r hr hne => ?_⟩
    have := hs (sc a r) ((h _).mpr ⟨r, hr, rfl⟩) fun e => hne (sc_inj ha e)
    simp only [sc] at this
    have e : a * (q.2 + s / a * (r.1 - q.1)) = a * q.2 + s * (r.1 - q.1) := by field_simp
    rw [← e] at this
    exact lt_of_mul_lt_mul_left this ha.le
  · rintro ⟨hp, s, hs⟩
    refine ⟨(h _).mpr ⟨p, hp, rfl⟩, a * s, fun r hr hne => ?_⟩
    obtain ⟨q, hq, rfl⟩ := (h _).mp hr
    have := mul_lt_mul_of_pos_left (hs q hq fun e => hne (by rw [e])) ha
    simp only [sc]
    linarith

theorem altitude_sc (a : ℚ) (l m r : ℚ × ℚ) : calculateAltitude (sc a l) (sc a m) (sc a r) = a * calculateAltitude l m r := by
  unfold calculateAltitude sc
  ring

theorem foldlM_sc (a : ℚ) (f g : ℚ → List ℕ → Option ℚ) (h : ∀ e c, f (a * e) c = (g e c).map fun v => a * v) :
    ∀ (l : List (List ℕ)) (e : ℚ), l.foldlM f (a * e) = (l.foldlM g e).map fun v => a * v
  | [], e => rfl
  | c :: l, e => by
    rw [List.foldlM_cons, List.foldlM_cons, h]
    cases g e c with
    | none => rfl
    | some v => exact foldlM_sc a f g h l v

theorem decomp_sc (a : ℚ) (R : List (ℚ × ℚ)) : decompositionEnergy (R.map (sc a)) = (decompositionEnergy R).map fun e => a * e := by
  unfold decompositionEnergy decompositionEnergyWith
  rw [List.length_map]
  conv_lhs => rw [show (0 : ℚ) = a * 0 from (mul_zero a).symm]
  refine foldlM_sc a _ _ (fun e c => ?_) _ 0
  match c with
  | [] => rfl
  | [_] => rfl
  | [_, _] => rfl
  | _ :: _ :: _ :: _ :: _ => rfl
  | [i, j, k] =>
    simp only [List.getElem?_map]
    cases R[i]? with
    | none => rfl
    | some x =>
      cases R[j]? with
      | none => rfl
      | some y =>
        cases R[k]? with
        | none => rfl
        | some z =>
          simp only [Option.map_some, Option.bind_eq_bind, Option.bind_some]
          cases altitudeMultiplicity ((j : ℤ) - i - 1) ((k : ℤ) - j - 1) ((R.length : ℤ) - 2) with
          | none => rfl
          | some m =>
            simp only [Option.bind_some, Option.pure_def, altitude_sc, Option.map_some]
            congr 1
            ring

theorem maxDecomp_sc {a : ℚ} (ha : 0 < a) (R : List (ℚ × ℚ)) :
    maxDecompositionEnergy (R.map (sc a)) = (maxDecompositionEnergy R).map fun e => a * e := by
  unfold maxDecompositionEnergy
  rw [List.length_map]
  conv_lhs => rw [show (0 : ℚ) = a * 0 from (mul_zero a).symm]
  refine foldlM_sc a _ _ (fun e c => ?_) _ 0
  match c with
  | [] => rfl
  | [_] => rfl
  | [_, _] => rfl
  | _ :: _ :: _ :: _ :: _ => rfl
  | [i, j, k] =>
    simp only [List.getElem?_map]
    cases R[i]? with
    | none => rfl
    | some x =>
      cases R[j]? with
      | none => rfl
      | some y =>
        cases R[k]? with
        | none => rfl
        | some z =>
          simp only [Option.map_some, Option.bind_eq_bind, Option.bind_some, Option.pure_def, altitude_sc, mul_lt_mul_iff_right₀ ha, mul_ite]

theorem fanArea_sc (a : ℚ) : ∀ R : List (ℚ × ℚ), fanArea (R.map (sc a)) = a * fanArea R
  | [] => by simp [fanArea]
  | p :: R => by
    have key : ∀ R : List (ℚ × ℚ), fanFrom (sc a p) (R.map (sc a)) = a * fanFrom p R := by
      intro R
      induction R with
      | nil => simp [fanFrom]
      | cons b R ih =>
        cases R with
        | nil => simp [fanFrom]
        | cons c R =>
          rw [List.map_cons, List.map_cons, fanFrom, ← List.map_cons, ih, fanFrom]
          unfold cross2 sc
          ring
    exact key R

theorem onChain_sc {vs : List (ℚ × ℚ)} (a : ℚ) {x y : ℚ} (h : OnChain vs (x, y)) : OnChain (vs.map (sc a)) (x, a * y) := by
  obtain ⟨p, q, ⟨l, r, rfl⟩, h1, h2, h3⟩ := h
  refine ⟨sc a p, sc a q, ⟨l.map (sc a), r.map (sc a), by simp⟩, h1, h2, ?_⟩
  unfold OnLine at h3 ⊢
  simp only [sc] at h3 ⊢
  rw [mul_assoc, h3]
  ring

theorem sep_sc {vs : List (ℚ × ℚ)} (a : ℚ) {x : ℚ} (h : Sep vs x) : Sep (vs.map (sc a)) x := by
  intro v hv
  obtain ⟨w, hw, rfl⟩ := List.mem_map.mp hv
  exact h w hw

theorem interior_sc (vs : List (ℚ × ℚ)) (a x1 x2 : ℚ) : interior (vs.map (sc a)) x1 x2 = (interior vs x1 x2).map (sc a) := by
  unfold interior
  rw [List.filter_map]
  rfl

theorem clear_iff {a y : ℚ} (ha : 0 < a) (h1 : isclose y 0 = true → y = 0) (h2 : isclose (a * y) 0 = true → a * y = 0) :
    isclose (a * y) 0 = isclose y 0 := by
  by_cases hy : y = 0
  · rw [hy, mul_zero]
  · have e1 : isclose y 0 = false := by
      rw [← Bool.not_eq_true]; exact fun h => hy (h1 h)
    have e2 : isclose (a * y) 0 = false := by
      rw [← Bool.not_eq_true]; exact fun h => mul_ne_zero ha.ne' hy (h2 h)
    rw [e1, e2]

theorem range_sc {h h' : IRH} {vs} {a : ℚ} (ha : 0 < a) (G : GoodHull h vs) (G' : GoodHull h' (vs.map (sc a))) (C : ClearEnds h.coords)
    (C' : ClearEnds h'.coords) {x1 x2 : ℚ} (h0 : 0 ≤ x1) (hx : x1 ≤ x2) (h1 : x2 ≤ 1) (s1 : Sep vs x1) (s2 : Sep vs x2) :
    ∃ R, getCoordsInRange h x1 x2 = some R ∧ getCoordsInRange h' x1 x2 = some (R.map (sc a)) := by
  obtain ⟨y1, y2, c1, c2, -, -, hR⟩ := range_form G h0 hx h1 s1 s2
  obtain ⟨z1, z2, d1, d2, -, -, hR'⟩ := range_form G' h0 hx h1 (sep_sc a s1) (sep_sc a s2)
  obtain rfl : a * y1 = z1 := onChain_unique G'.lower (onChain_sc a c1) d1
  obtain rfl : a * y2 = z2 := onChain_unique G'.lower (onChain_sc a c2) d2
  refine ⟨_, hR, ?_⟩
  rw [hR']
  have q1 : isclose x1 0 = true → isclose (a * y1) 0 = isclose y1 0 := by
    intro hc
    obtain ⟨w, hw, -⟩ := first_mem G
    have hx0 : x1 = 0 := isclose_zero_eq G s1 hc
    rw [hx0] at c1
    have hyw : y1 = w := onChain_unique G.lower c1 (onChain_vertex (two_le_length G) G.lower.strict hw)
    rw [hyw]
    have m1 := G.lower.sub _ hw
    have m2 : ((0 : ℚ), a * w) ∈ h'.coords := G'.lower.sub _ (List.mem_map_of_mem (f := sc a) hw)
    have e1 : isclose w 0 = true → w = 0 := C (0, w) m1 (Or.inl rfl)
    have e2 : isclose (a * w) 0 = true → a * w = 0 := C' (0, a * w) m2 (Or.inl rfl)
    exact clear_iff ha e1 e2
  have q2 : isclose x2 1 = true → isclose (a * y2) 0 = isclose y2 0 := by
    intro hc
    obtain ⟨w, hw, -⟩ := last_mem G
    have hx0 : x2 = 1 := isclose_one_eq G s2 hc
    rw [hx0] at c2
    have hyw : y2 = w := onChain_unique G.lower c2 (onChain_vertex (two_le_length G) G.lower.strict hw)
    rw [hyw]
    have m1 := G.lower.sub _ hw
    have m2 : ((1 : ℚ), a * w) ∈ h'.coords := G'.lower.sub _ (List.mem_map_of_mem (f := sc a) hw)
    have e1 : isclose w 0 = true → w = 0 := C (1, w) m1 (Or.inr rfl)
    have e2 : isclose (a * w) 0 = true → a * w = 0 := C' (1, a * w) m2 (Or.inr rfl)
    exact clear_iff ha e1 e2
  have p1 : preRef x1 (a * y1) = (preRef x1 y1).map (sc a) := by
    unfold preRef
    by_cases hc : isclose x1 0 = true
    · rw [q1 hc]
      split_ifs <;> simp [sc]
    · simp [hc]
  have p2 : postRef x2 (a * y2) = (postRef x2 y2).map (sc a) := by
    unfold postRef
    by_cases hc : isclose x2 1 = true
    · rw [q2 hc]
      split_ifs <;> simp [sc]
    · simp [hc]
  have p3 : endPt x1 x2 (a * y2) = (endPt x1 x2 y2).map (sc a) := by
    unfold endPt
    split_ifs <;> simp [sc]
  rw [p1, p2, p3, interior_sc]
  simp [sc]

theorem combine_sc (a l r : ℚ) (m n : ℕ) (nz : Bool) (e : Option ℚ) :
    combineSides (a * l) (a * r) m n nz (e.map fun v => a * v) = a * combineSides l r m n nz e := by
  unfold combineSides
  cases e <;> cases nz <;> simp only [Option.map_none, Option.map_some, if_true, Bool.false_eq_true, if_false] <;> ring

theorem min?_sc {a : ℚ} (ha : 0 < a) (l m : List ℚ) (h : ∀ y, y ∈ m ↔ ∃ x ∈ l, a * x = y) : m.min? = l.min?.map fun x => a * x := by
  cases hl : l.min? with
  | none =>
    rw [List.min?_eq_none_iff] at hl
    subst hl
    have : m = [] := List.eq_nil_iff_forall_not_mem.mpr fun y hy => by simpa using (h y).mp hy
    rw [this]; rfl
  | some v =>
    obtain ⟨h1, h2⟩ := List.min?_eq_some_iff.mp hl
    rw [Option.map_some, List.min?_eq_some_iff]
    refine ⟨(h _).mpr ⟨v, h1, rfl⟩, fun y hy => ?_⟩
    obtain ⟨x, hx, rfl⟩ := (h y).mp hy
    exact mul_le_mul_of_nonneg_left (h2 x hx) ha.le

/-! ### Theorems -/

/-- **C144, primary competition.** In another unit of energy, the primary competition is the same energy in the new unit. No tolerance is
involved. -/
theorem C144_primary {P Q : List (ℚ × ℚ)} {h h' : IRH} {a : ℚ} (ha : 0 < a) (H : IsHullOf P h) (H' : IsHullOf Q h') (hp : Q.Perm (inUnit a P))
    (e x : ℚ) (hx : ∃ c ∈ h.coords, c.1 = x) :
    getPrimaryCompetition h' (a * e) x = (getPrimaryCompetition h e x).map fun v => a * v := by
  have hm := mem_sc H H' hp
  obtain ⟨c, hc, hcx⟩ := hx
  rw [primary_eq h H.sorted x e ⟨c, hc, hcx⟩, primary_eq h' H'.sorted x (a * e) ⟨sc a c, (hm _).mpr ⟨c, hc, rfl⟩, hcx⟩]
  rw [min?_sc ha ((h.coords.filter fun c => decide (c.1 ≠ x)).map Prod.snd)]
  · cases ((h.coords.filter fun c => decide (c.1 ≠ x)).map Prod.snd).min? with
    | none => rfl
    | some m =>
      show some (a * e - a * m) = some (a * (e - m))
      congr 1
      ring
  · intro y
    simp only [List.mem_map, List.mem_filter, hm, decide_eq_true_eq]
    constructor
    · rintro ⟨_, ⟨⟨q, hq, rfl⟩, hne⟩, rfl⟩
      exact ⟨q.2, ⟨q, ⟨hq, hne⟩, rfl⟩, rfl⟩
    · rintro ⟨_, ⟨q, ⟨hq, hne⟩, rfl⟩, rfl⟩
      exact ⟨sc a q, ⟨⟨q, hq, rfl⟩, hne⟩, rfl⟩

/-- **C144, stability and hull scores.** In another unit of energy the same reactions are stable, and the energy above the hull, the secondary
competition (all options), its maximum-energy variant and its area variant are the same energies in the new unit, as long as numpy's tolerances
confuse no two points in either unit. Missing for the full claim: energies within the tolerance (`C144_tolerance_violated`). -/
theorem C144_scores_partial {P Q : List (ℚ × ℚ)} {h h' : IRH} {a : ℚ} (ha : 0 < a) (H : IsHullOf P h) (H' : IsHullOf Q h')
    (hp : Q.Perm (inUnit a P)) (hr : ∀ p ∈ P, 0 ≤ p.1 ∧ p.1 ≤ 1) (A : Apart' h.coords) (A' : Apart' h'.coords) (C : ClearEnds h.coords)
    (C' : ClearEnds h'.coords) (i j : ℕ) (c : ℚ × ℚ) (hi : h.coords[i]? = some c) (hj : h'.coords[j]? = some (c.1, a * c.2))
    (s : Apart1 h.coords c.1) :
    ((∃ i ∈ hullVertices h, h.coords[i]? = some c) ↔ ∃ j ∈ hullVertices h', h'.coords[j]? = some (c.1, a * c.2)) ∧
    getEnergyAboveHull h' j = (getEnergyAboveHull h i).map (fun v => a * v) ∧
    (∀ normalize eHull, getSecondaryCompetition h' j normalize eHull = (getSecondaryCompetition h i normalize eHull).map fun v => a * v) ∧
    getSecondaryCompetitionMaxEnergy h' j = (getSecondaryCompetitionMaxEnergy h i).map (fun v => a * v) ∧
    getSecondaryCompetitionArea h' j = (getSecondaryCompetitionArea h i).map fun v => a * v := by
  have hm := mem_sc H H' hp
  have hr' : ∀ p ∈ Q, 0 ≤ p.1 ∧ p.1 ≤ 1 := by
    intro p h
    obtain ⟨q, hq, rfl⟩ := List.mem_map.mp (hp.mem_iff.mp h)
    exact hr q hq
  obtain ⟨vs, G, hv⟩ := chain_of H hr A
  obtain ⟨vs', G', hv'⟩ := chain_of H' hr' A'
  have hst : (vs.map (sc a)).Pairwise fun a b => a.1 < b.1 := by
    rw [List.pairwise_map]
    exact G.lower.strict
  obtain rfl : vs' = vs.map (sc a) := eq_of_strict G'.lower.strict hst fun p => by
    rw [hv', List.mem_map]
    constructor
    · intro hl
      obtain ⟨q, -, rfl⟩ := (hm p).mp hl.1
      exact ⟨q, (hv q).mpr ((lowerCorner_sc ha hm q).mp hl), rfl⟩
    · rintro ⟨q, hq, rfl⟩
      exact (lowerCorner_sc ha hm q).mpr ((hv q).mp hq)
  have b := (coords_of H hr).range c (List.mem_of_getElem? hi)
  have t : Sep vs c.1 := fun v hv1 => s v ((hv v).mp hv1)
  have z0 := sep_zero G
  have z1 := sep_one G
  obtain ⟨L, hL, hL'⟩ := range_sc ha G G' C C' (x1 := 0) (x2 := c.1) (le_refl 0) b.1 b.2 z0 t
  obtain ⟨R, hR, hR'⟩ := range_sc ha G G' C C' (x1 := c.1) (x2 := 1) b.1 b.2 (le_refl 1) t z1
  obtain ⟨y, ey, cy⟩ := hullEnergy_spec G b.1 b.2 t
  obtain ⟨z, ez, cz⟩ := hullEnergy_spec G' b.1 b.2 (sep_sc a t)
  obtain rfl : a * y = z := onChain_unique G'.lower (onChain_sc a cy) cz
  have eh : getEnergyAboveHull h' j = (getEnergyAboveHull h i).map fun v => a * v := by
    unfold getEnergyAboveHull
    simp only [hi, hj, ey, ez, Option.bind_eq_bind, Option.bind_some]
    show some (a * c.2 - a * y) = some (a * (c.2 - y))
    congr 1
    ring
  have stab : ∀ {P : List (ℚ × ℚ)} {h : IRH} (H : IsHullOf P h) (hr : ∀ p ∈ P, 0 ≤ p.1 ∧ p.1 ≤ 1) (A : Apart' h.coords) (c : ℚ × ℚ),
      (∃ j ∈ hullVertices h, h.coords[j]? = some c) ↔ LowerCorner h.coords c := by
    intro P h H hr A c
    constructor
    · rintro ⟨j, hj, hjc⟩
      obtain ⟨-, p, hp, hl⟩ := (mem_hullVertices H.corners (apart_of A) j).mp hj
      rw [hjc] at hp
      cases hp
      exact (low_iff (coords_of H hr) c).mp hl
    · intro hl
      have hlow := (low_iff (coords_of H hr) c).mpr hl
      obtain ⟨i, hi, hic⟩ := H.corners.complete c hlow.1
      exact ⟨i, (mem_hullVertices H.corners (apart_of A) i).mpr ⟨hi, c, hic, hlow⟩, hic⟩
  refine ⟨?_, eh, fun n b => ?_, ?_, ?_⟩
  · rw [stab H hr A, stab H' hr' A']
    exact (lowerCorner_sc ha hm c).symm
  · unfold getSecondaryCompetition getDecompositionEnergy
    simp only [hi, hj, Option.bind_eq_bind, Option.bind_some, hL, hL', hR, hR', eh, decomp_sc, List.length_map]
    cases decompositionEnergy L <;> cases decompositionEnergy R <;> cases count ((L.length : ℤ) - 2) <;> cases count ((R.length : ℤ) - 2) <;>
      simp only [Option.bind_some, Option.bind_none, Option.map_none, Option.map_some]
    cases b
    · show some (combineSides _ _ _ _ n ((none : Option ℚ).map fun v => a * v)) = some _
      rw [combine_sc]
    · cases getEnergyAboveHull h i with
      | none => rfl
      | some v =>
        show some (combineSides _ _ _ _ n ((some v).map fun v => a * v)) = some _
        rw [combine_sc]
  · unfold getSecondaryCompetitionMaxEnergy getMaxDecompositionEnergy
    simp only [hi, hj, Option.bind_eq_bind, Option.bind_some, hL, hL', hR, hR', maxDecomp_sc ha]
    cases maxDecompositionEnergy L <;> cases maxDecompositionEnergy R <;>
      simp only [Option.bind_some, Option.bind_none, Option.map_none, Option.map_some]
    show some _ = some _
    congr 1
    ring
  · unfold getSecondaryCompetitionArea getDecompositionArea
    simp only [hi, hj, Option.bind_eq_bind, Option.bind_some, hL, hL', hR, hR', List.length_map, fanArea_sc]
    split_ifs <;> simp only [Option.pure_def, Option.bind_some, Option.bind_none, Option.map_none, Option.map_some] <;>
      first | rfl | (congr 1; ring)

/-! ### Cases -/

/-- The hull of Props/HullMirror with energies in a unit of `a`. -/
def exU (a : ℚ) : IRH := ⟨[(0, 0), (0, a * -1), (1/4, a * -2), (1/2, a * (-5/2)), (3/4, a * -2), (1, 0)], List.range 6⟩

theorem exU_hull {a : ℚ} (ha : 0 < a) : IsHullOf (inUnit a exP) (exU a) := by
  have hi : (exU a).coords = exA.coords.map (sc a) := by simp [exU, exA, sc]
  refine ⟨?_, ?_, ?_⟩
  · have := exA_hull.perm.map (sc a)
    rw [← hi] at this
    rw [List.map_append] at this
    have e : [((0 : ℚ), (0 : ℚ)), (1, 0)].map (sc a) = [(0, 0), (1, 0)] := by simp [sc]
    rw [e] at this
    exact this
  · rw [hi, List.pairwise_map]
    exact exA_hull.sorted
  · have hc := exA_hull.corners
    rw [hi]
    have hr : (exU a).rawVertices = exA.rawVertices := rfl
    rw [hr]
    have inj : ∀ {p q : ℚ × ℚ}, sc a p = sc a q → p = q := fun h => sc_inj ha h
    have corner : ∀ p, Corner exA.coords p ↔ Corner (exA.coords.map (sc a)) (sc a p) := by
      intro p
      constructor
      · rintro ⟨hp, u, w, hs⟩
        refine ⟨List.mem_map_of_mem hp, u, w / a, fun q hq hne => ?_⟩
        obtain ⟨q', hq', rfl⟩ := List.mem_map.mp hq
        have := hs q' hq' fun e => hne (by rw [e])
        simp only [sc]
        have e : ∀ y : ℚ, w / a * (a * y) = w * y := fun y => by field_simp
        rw [e, e]
        exact this
      · rintro ⟨hp, u, w, hs⟩
        obtain ⟨q, hq, he⟩ := List.mem_map.mp hp
        obtain rfl := inj he
        refine ⟨hq, u, w * a, fun r hr hne => ?_⟩
        have := hs (sc a r) (List.mem_map_of_mem hr) fun e => hne (inj e)
        simp only [sc] at this
        rw [mul_assoc, mul_assoc]
        exact this
    refine ⟨hc.nodup, fun i hi => ?_, fun p hp => ?_, fun i hi j hj h => ?_⟩
    · obtain ⟨p, h1, h2⟩ := hc.sound i hi
      exact ⟨sc a p, by rw [List.getElem?_map, h1]; rfl, (corner p).mp h2⟩
    · obtain ⟨q, hq, rfl⟩ := List.mem_map.mp hp.1
      obtain ⟨i, h1, h2⟩ := hc.complete q ((corner q).mpr hp)
      exact ⟨i, h1, by rw [List.getElem?_map, h2]; rfl⟩
    · rw [List.getElem?_map, List.getElem?_map] at h
      exact hc.once i hi j hj (Option.map_injective (fun _ _ => inj) h)

/-- **C144, tolerance.** With energies in a large unit, the decomposition of the first reactant counts as zero (`np.isclose(y, 0)` has an absolute
tolerance), and the secondary competition of the reaction at 1/2 is another energy. -/
theorem C144_tolerance_violated :
    ∃ (P : List (ℚ × ℚ)) (h h' : IRH) (a : ℚ), 0 < a ∧ IsHullOf P h ∧ IsHullOf (inUnit a P) h' ∧
      h.coords[3]? = some ((1/2 : ℚ), (-5/2 : ℚ)) ∧ h'.coords[3]? = some ((1/2 : ℚ), a * (-5/2 : ℚ)) ∧
      ∃ v v', getSecondaryCompetition h 3 true true = some v ∧ getSecondaryCompetition h' 3 true true = some v' ∧ v' ≠ a * v :=
  ⟨exP, exA, exU (1 / 10 ^ 9), 1 / 10 ^ 9, by norm_num, exA_hull, exU_hull (by norm_num), by decide +kernel, by decide +kernel, by
    cases h1 : getSecondaryCompetition exA 3 true true with
    | none => exact absurd h1 (by decide +kernel)
    | some v =>
      cases h2 : getSecondaryCompetition (exU (1 / 10 ^ 9)) 3 true true with
      | none => exact absurd h2 (by decide +kernel)
      | some v' =>
        refine ⟨v, v', rfl, rfl, fun he => ?_⟩
        have : getSecondaryCompetition (exU (1 / 10 ^ 9)) 3 true true = (getSecondaryCompetition exA 3 true true).map fun v => 1 / 10 ^ 9 * v := by
          rw [h1, h2, he]; rfl
        exact absurd this (by decide +kernel)⟩

-- from eV to kJ/mol (96485/1000), with a reactant that decomposes
example := C144_scores_partial (by norm_num : (0 : ℚ) < 96485/1000) exA_hull (exU_hull (by norm_num)) (List.Perm.refl _) (by decide +kernel)
  (apart_of_list (by decide +kernel) (by decide +kernel)) (apart_of_list (by decide +kernel) (by decide +kernel))
  (by unfold ClearEnds; decide +kernel) (by unfold ClearEnds; decide +kernel) 3 3 (1/2, -5/2) (by decide +kernel) (by decide +kernel)
  (fun p hp => (by decide +kernel : ∀ q ∈ exA.coords, isclose (1/2) q.1 = true → 1/2 = q.1) p hp.1)
example : getSecondaryCompetition (exU (96485/1000)) 3 true true = some (96485/1000 * (9/4)) := by decide +kernel
example := C144_primary (by norm_num : (0 : ℚ) < 96485/1000) exA_hull (exU_hull (by norm_num)) (List.Perm.refl _) (-2) (1/4)
  ⟨(1/4, -2), by decide +kernel, rfl⟩

end Verif.Props.HullUnit
