import Verif.Lemmas.HullConvex
import Verif.Props.Hull

/-!
C05 and C07 from what the convex hull routine returns (all corners, upper and lower), so that the filtering of its vertices at
src/rxn_network/reactions/hull.py:581-593 is part of the claim and not an assumption.
-/

namespace Verif.Props.HullConvex
open Verif.Py Verif.Model.Hull Verif.Spec.Hull Verif.Lemmas.Hull Verif.Lemmas.HullConvex Verif.Props.Hull

/-- Specification: a corner of the lower hull, i.e. some line through `p` has every other point strictly above it. -/
def LowerCorner (pts : List (ℚ × ℚ)) (p : ℚ × ℚ) : Prop :=
  p ∈ pts ∧ ∃ s : ℚ, ∀ q ∈ pts, q ≠ p → p.2 + s * (q.1 - p.1) < q.2

/-- Specification: `y` is the lower envelope of `pts` at `x`: the largest value at `x` of a line with no point below it. -/
def Envelope (pts : List (ℚ × ℚ)) (x y : ℚ) : Prop :=
  (∃ s t : ℚ, (∀ q ∈ pts, s * q.1 + t ≤ q.2) ∧ s * x + t = y) ∧
  ∀ s t : ℚ, (∀ q ∈ pts, s * q.1 + t ≤ q.2) → s * x + t ≤ y

theorem low_iff {pts : List (ℚ × ℚ)} (C : Coords pts) (p : ℚ × ℚ) : Low pts p ↔ LowerCorner pts p := by
  constructor
  · rintro ⟨hc, hy, hmin⟩
    have hp := hc.1
    have hx := C.range p hp
    refine ⟨hp, ?_⟩
    -- a strict minimum of `a x + e y` with `e > 0` gives the slope `- a / e`
    have ends : ∀ a : ℚ, (∀ q ∈ pts, q ≠ p → a * p.1 < a * q.1 ∨ (a * p.1 = a * q.1 ∧ p.2 < q.2)) →
        ∃ s : ℚ, ∀ q ∈ pts, q ≠ p → p.2 + s * (q.1 - p.1) < q.2 := by
      intro a ha
      obtain ⟨e, he, h⟩ := exists_eps (fun q : ℚ × ℚ => a * q.1) (fun q => q.2) p pts ha
      refine ⟨-(a / e), fun q hq hqp => ?_⟩
      have h := h e he (le_refl _) q hq hqp
      have : e * (p.2 + -(a / e) * (q.1 - p.1)) < e * q.2 := by
        have e1 : e * (p.2 + -(a / e) * (q.1 - p.1)) = e * p.2 - a * (q.1 - p.1) := by field_simp; ring
        rw [e1]; linarith
      exact lt_of_mul_lt_mul_left this he.le
    have same : ∀ q ∈ pts, q ≠ p → q.1 = p.1 → p.2 < q.2 := by
      intro q hq hqp hqx
      rcases lt_or_eq_of_le (hmin q hq hqx) with h | h
      · exact h
      · exact absurd (Prod.ext hqx h.symm) hqp
    rcases lt_or_eq_of_le hx.1 with h0 | h0
    · rcases lt_or_eq_of_le hx.2 with h1 | h1
      · obtain ⟨-, u, w, h⟩ := hc
        have e0 := h _ C.zero (by rintro rfl; exact lt_irrefl _ h0)
        have e1 := h _ C.one (by rintro rfl; exact lt_irrefl _ h1)
        simp only [mul_zero, add_zero, mul_one] at e0 e1
        have f0 := mul_lt_mul_of_pos_right e0 (sub_pos.mpr h1)
        have f1 := mul_lt_mul_of_pos_right e1 h0
        have hw : 0 < w * p.2 := by nlinarith
        have hw' : w < 0 := by
          by_contra hc
          have := mul_nonpos_of_nonneg_of_nonpos (not_lt.mp hc) hy
          linarith
        refine ⟨-(u / w), fun q hq hqp => ?_⟩
        have hq := h q hq hqp
        have e2 : w * (p.2 + -(u / w) * (q.1 - p.1)) = w * p.2 - u * (q.1 - p.1) := by
          have := hw'.ne
          field_simp
          ring
        by_contra hcon
        have := mul_le_mul_of_nonpos_left (not_lt.mp hcon) hw'.le
        rw [e2] at this
        linarith
      · refine ends (-1) fun q hq hqp => ?_
        rcases lt_or_eq_of_le (C.range q hq).2 with h | h
        · left; rw [h1]; linarith
        · right; exact ⟨by rw [h1, h], same q hq hqp (h.trans h1.symm)⟩
    · refine ends 1 fun q hq hqp => ?_
      rcases lt_or_eq_of_le (C.range q hq).1 with h | h
      · left; rw [← h0]; linarith
      · right; exact ⟨by rw [← h0, ← h], same q hq hqp (h.symm.trans h0)⟩
  · rintro ⟨hp, s, h⟩
    have hx := C.range p hp
    refine ⟨⟨hp, s, -1, fun q hq hqp => by have := h q hq hqp; linarith⟩, ?_, fun q hq hqx => ?_⟩
    · by_cases h0 : (0, 0) = p
      · rw [← h0]
      · by_cases h1 : (1, 0) = p
        · rw [← h1]
        · have e0 := h _ C.zero h0
          have e1 := h _ C.one h1
          simp only at e0 e1
          have f0 := mul_le_mul_of_nonneg_right e0.le (sub_nonneg.mpr hx.2)
          have f1 := mul_le_mul_of_nonneg_right e1.le hx.1
          nlinarith
    · by_cases hqp : q = p
      · rw [hqp]
      · have := h q hq hqp
        rw [hqx, sub_self, mul_zero, add_zero] at this
        exact this.le

/-- The tolerances do not confuse different points of a lower hull: at the coordinate of a corner no higher corner has an energy close to
the lowest one, and different coordinates of corners are not close. -/
structure Apart' (pts : List (ℚ × ℚ)) : Prop where
  energy : ∀ p q, Corner pts p → q ∈ pts → q.1 = p.1 → (∀ r ∈ pts, r.1 = p.1 → q.2 ≤ r.2) → isclose q.2 p.2 = true → q.2 = p.2
  coord : ∀ p q, Corner pts p → Corner pts q → isclose p.1 q.1 = true → p.1 = q.1

theorem apart_of {pts : List (ℚ × ℚ)} (A : Apart' pts) : Apart pts := by
  refine ⟨fun p hp m hm hcl => ?_, A.coord⟩
  obtain ⟨m', hm', hmem, hmin⟩ := minAt_spec pts p hp.1
  rw [hm'] at hm
  cases hm
  exact A.energy p (p.1, m) hp hmem rfl hmin hcl

/-- **C05/C07, lower hull.** For every list of interface reactions with coordinates in `[0, 1]` and whatever complete list of corners the
convex hull routine returns: the vertices kept by the code form the lower convex hull, they are exactly the corners of the lower hull. All
claims stated for good hulls therefore hold for it. -/
theorem C05_lower_hull (rs : List (ℚ × ℚ)) (hrs : ∀ p ∈ rs, 0 ≤ p.1 ∧ p.1 ≤ 1) (raw : List ℕ)
    (H : HullIndices (mkCoords rs) raw) (A : Apart' (mkCoords rs)) :
    ∃ vs, GoodHull ⟨mkCoords rs, raw⟩ vs ∧ ∀ p, p ∈ vs ↔ LowerCorner (mkCoords rs) p := by
  have C := coords_mk rs hrs
  obtain ⟨vs, G, h⟩ := goodHull_of_indices (h := ⟨mkCoords rs, raw⟩) C H (apart_of A)
  exact ⟨vs, G, fun p => (h p).trans (low_iff C p)⟩

/-- **C07, stability.** A reaction is stable iff the hull routine reports its point and the point is a corner of the lower hull; every
corner of the lower hull is represented by exactly one stable reaction. -/
theorem C07_stable_iff (rs : List (ℚ × ℚ)) (hrs : ∀ p ∈ rs, 0 ≤ p.1 ∧ p.1 ≤ 1) (raw : List ℕ)
    (H : HullIndices (mkCoords rs) raw) (A : Apart' (mkCoords rs)) :
    (∀ i, i ∈ hullVertices ⟨mkCoords rs, raw⟩ ↔ i ∈ raw ∧ ∃ p, (mkCoords rs)[i]? = some p ∧ LowerCorner (mkCoords rs) p) ∧
    ∀ p, LowerCorner (mkCoords rs) p → ∃! i, i ∈ hullVertices ⟨mkCoords rs, raw⟩ ∧ (mkCoords rs)[i]? = some p := by
  have C := coords_mk rs hrs
  have h1 : ∀ i, i ∈ hullVertices ⟨mkCoords rs, raw⟩ ↔ i ∈ raw ∧ ∃ p, (mkCoords rs)[i]? = some p ∧ LowerCorner (mkCoords rs) p := by
    intro i
    rw [mem_hullVertices (h := ⟨mkCoords rs, raw⟩) H (apart_of A)]
    simp only [low_iff C]
  refine ⟨h1, fun p hp => ?_⟩
  obtain ⟨i, hi, hip⟩ := H.complete p ((low_iff C p).mpr hp).1
  refine ⟨i, ⟨(h1 i).mpr ⟨hi, p, hip, hp⟩, hip⟩, fun j hj => ?_⟩
  exact H.once j ((h1 j).mp hj.1).1 i hi (hj.2.trans hip.symm)

/-- **C07, energy above the hull** is the distance to the lower envelope of the reactions, for every coordinate that is not within
tolerance of a different vertex. It is non-negative, zero for stable reactions, and positive for every reaction above the envelope. -/
theorem C07_envelope (rs : List (ℚ × ℚ)) (hrs : ∀ p ∈ rs, 0 ≤ p.1 ∧ p.1 ≤ 1) (raw : List ℕ)
    (H : HullIndices (mkCoords rs) raw) (A : Apart' (mkCoords rs)) (i : ℕ) (c : ℚ × ℚ) (hc : (mkCoords rs)[i]? = some c)
    (hsep : ∀ p, LowerCorner (mkCoords rs) p → isclose c.1 p.1 = true → c.1 = p.1) :
    ∃ y, Envelope (mkCoords rs) c.1 y ∧ getHullEnergy ⟨mkCoords rs, raw⟩ c.1 = some y ∧
      getEnergyAboveHull ⟨mkCoords rs, raw⟩ i = some (c.2 - y) ∧ y ≤ c.2 ∧
      (i ∈ hullVertices ⟨mkCoords rs, raw⟩ → c.2 = y) := by
  have C := coords_mk rs hrs
  obtain ⟨vs, G, hvs⟩ := C05_lower_hull rs hrs raw H A
  have hr := C.range c (List.mem_of_getElem? hc)
  have s : Sep vs c.1 := fun v hv => hsep v ((hvs v).mp hv)
  obtain ⟨e, he, he0, hez⟩ := C07_energy_above_hull G i c hc hr.1 hr.2 s
  obtain ⟨y, hy, hch⟩ := hullEnergy_spec G hr.1 hr.2 s
  have hey : getEnergyAboveHull ⟨mkCoords rs, raw⟩ i = some (c.2 - y) := by simp [getEnergyAboveHull, hc, hy]
  rw [hey] at he
  have he : c.2 - y = e := Option.some.inj he
  refine ⟨y, ⟨?_, ?_⟩, hy, hey, by linarith, fun hm => by have := hez hm; linarith⟩
  · obtain ⟨a, b, hab, g1, g2, g3⟩ := hch
    have hlt := Verif.Lemmas.Hull.adjacent_lt G.lower.strict hab
    have hd : 0 < b.1 - a.1 := sub_pos.mpr hlt
    refine ⟨(b.2 - a.2) / (b.1 - a.1), (a.2 * b.1 - b.2 * a.1) / (b.1 - a.1), fun q hq => ?_, ?_⟩
    · have := G.lower.support a b hab q hq
      unfold AboveLine at this
      rw [div_mul_eq_mul_div, ← add_div, div_le_iff₀ hd]
      linarith
    · unfold OnLine at g3
      rw [div_mul_eq_mul_div, ← add_div, div_eq_iff hd.ne']
      simp only at g3
      linarith
  · intro s t hst
    obtain ⟨a, b, hab, g1, g2, g3⟩ := hch
    have hlt := Verif.Lemmas.Hull.adjacent_lt G.lower.strict hab
    have hd : 0 < b.1 - a.1 := sub_pos.mpr hlt
    have ha : a ∈ vs := by obtain ⟨l, r, rfl⟩ := hab; simp
    have hb : b ∈ vs := by obtain ⟨l, r, rfl⟩ := hab; simp
    have ea := mul_le_mul_of_nonneg_right (hst a (G.lower.sub a ha)) (sub_nonneg.mpr g2)
    have eb := mul_le_mul_of_nonneg_right (hst b (G.lower.sub b hb)) (sub_nonneg.mpr g1)
    unfold OnLine at g3
    simp only at g3 ea eb
    have : (s * c.1 + t) * (b.1 - a.1) ≤ y * (b.1 - a.1) := by rw [g3]; nlinarith
    exact le_of_mul_le_mul_right this hd

/-! The example hull meets the hypotheses. -/

theorem exIndices : HullIndices exHull.coords exHull.rawVertices := by
  have hco : exHull.coords = [(0, 0), (1/4, -1/2), (1/2, -2), (1/2, 3), (3/4, -3/2), (1, 0)] := by decide +kernel
  rw [hco]
  refine ⟨by decide, ?_, ?_, by decide +kernel⟩
  · intro i hi
    have hi : i ∈ [0, 3, 4, 5, 2] := hi
    simp only [List.mem_cons, List.not_mem_nil, or_false] at hi
    rcases hi with rfl | rfl | rfl | rfl | rfl
    · exact ⟨(0, 0), rfl, by decide +kernel, -1, 0, by decide +kernel⟩
    · exact ⟨(1/2, 3), rfl, by decide +kernel, 0, 1, by decide +kernel⟩
    · exact ⟨(3/4, -3/2), rfl, by decide +kernel, 4, -1, by decide +kernel⟩
    · exact ⟨(1, 0), rfl, by decide +kernel, 1, 0, by decide +kernel⟩
    · exact ⟨(1/2, -2), rfl, by decide +kernel, 0, -1, by decide +kernel⟩
  · rintro p ⟨hp, u, w, h⟩
    simp only [List.mem_cons, List.not_mem_nil, or_false] at hp
    rcases hp with rfl | rfl | rfl | rfl | rfl | rfl
    · exact ⟨0, by decide, rfl⟩
    · exfalso
      have h1 := h (0, 0) (by decide +kernel) (by decide +kernel)
      have h2 := h (1/2, -2) (by decide +kernel) (by decide +kernel)
      have h3 := h (1/2, 3) (by decide +kernel) (by decide +kernel)
      simp only at h1 h2 h3
      linarith
    · exact ⟨2, by decide, rfl⟩
    · exact ⟨3, by decide, rfl⟩
    · exact ⟨4, by decide, rfl⟩
    · exact ⟨5, by decide, rfl⟩

example : Apart' exHull.coords := by
  have h1 : ∀ p ∈ exHull.coords, ∀ q ∈ exHull.coords, isclose q.2 p.2 = true → q.1 = p.1 → q.2 = p.2 := by decide +kernel
  have h2 : ∀ p ∈ exHull.coords, ∀ q ∈ exHull.coords, isclose p.1 q.1 = true → p.1 = q.1 := by decide +kernel
  exact ⟨fun p q hp hq hx _ hc => h1 p hp.1 q hq hc hx, fun p q hp hq => h2 p hp.1 q hq.1⟩

example : LowerCorner exHull.coords (1/2, -2) := ⟨by decide +kernel, 0, by decide +kernel⟩
example : getEnergyAboveHull exHull 1 = some (1/2) ∧ getEnergyAboveHull exHull 3 = some 5 := by decide +kernel

theorem exApart : Apart' exHull.coords := by
  have h1 : ∀ p ∈ exHull.coords, ∀ q ∈ exHull.coords, isclose q.2 p.2 = true → q.1 = p.1 → q.2 = p.2 := by decide +kernel
  have h2 : ∀ p ∈ exHull.coords, ∀ q ∈ exHull.coords, isclose p.1 q.1 = true → p.1 = q.1 := by decide +kernel
  exact ⟨fun p q hp hq hx _ hc => h1 p hp.1 q hq hc hx, fun p q hp hq => h2 p hp.1 q hq.1⟩

example := C05_lower_hull [(1/2, -2), (1/4, -1/2), (3/4, -3/2), (1/2, 3)] (by decide +kernel) [0, 3, 4, 5, 2] exIndices exApart
example := C07_stable_iff [(1/2, -2), (1/4, -1/2), (3/4, -3/2), (1/2, 3)] (by decide +kernel) [0, 3, 4, 5, 2] exIndices exApart
example := C07_envelope [(1/2, -2), (1/4, -1/2), (3/4, -3/2), (1/2, 3)] (by decide +kernel) [0, 3, 4, 5, 2] exIndices exApart 1
  (1/4, -1/2) (by decide +kernel)
  (fun p hp => (by decide +kernel : ∀ q ∈ exHull.coords, isclose (1/4) q.1 = true → 1/4 = q.1) p hp.1)

end Verif.Props.HullConvex
