import Verif.Lemmas.HullGeom
import Mathlib.Tactic.Linarith

/-! The filtered corners reported by a convex hull routine are the lower hull. -/

namespace Verif.Lemmas.HullConvex
open Verif.Py Verif.Model.Hull Verif.Spec.Hull Verif.Lemmas.Hull

theorem exists_lexmin {α : Type} (f g : α → ℚ) (l : List α) (hl : l ≠ []) :
    ∃ m ∈ l, ∀ q ∈ l, f m < f q ∨ (f m = f q ∧ g m ≤ g q) := by
  induction l with
  | nil => exact absurd rfl hl
  | cons a l ih =>
    by_cases h : l = []
    · subst h
      exact ⟨a, List.mem_cons_self, by intro q hq; rw [List.mem_singleton.mp hq]; exact Or.inr ⟨rfl, le_refl _⟩⟩
    · obtain ⟨m, hm, hmin⟩ := ih h
      by_cases hc : f m < f a ∨ (f m = f a ∧ g m ≤ g a)
      · refine ⟨m, List.mem_cons_of_mem _ hm, fun q hq => ?_⟩
        rcases List.mem_cons.mp hq with rfl | hq
        · exact hc
        · exact hmin q hq
      · have hc' : f a < f m ∨ (f a = f m ∧ g a ≤ g m) := by
          push Not at hc
          obtain ⟨h1, h2⟩ := hc
          rcases lt_or_eq_of_le h1 with h | h
          · exact Or.inl h
          · exact Or.inr ⟨h, (h2 h.symm).le⟩
        refine ⟨a, List.mem_cons_self, fun q hq => ?_⟩
        rcases List.mem_cons.mp hq with rfl | hq
        · exact Or.inr ⟨rfl, le_refl _⟩
        · rcases hc' with h1 | ⟨h1, h2⟩ <;> rcases hmin q hq with h3 | ⟨h3, h4⟩
          · exact Or.inl (h1.trans h3)
          · exact Or.inl (h3 ▸ h1)
          · exact Or.inl (h1 ▸ h3)
          · exact Or.inr ⟨h1.trans h3, h2.trans h4⟩

/-- A strict lexicographic minimum of two functions is a strict minimum of a combination. -/
theorem exists_eps {α : Type} (f g : α → ℚ) (m : α) (l : List α)
    (h : ∀ q ∈ l, q ≠ m → f m < f q ∨ (f m = f q ∧ g m < g q)) :
    ∃ e0 : ℚ, 0 < e0 ∧ ∀ e, 0 < e → e ≤ e0 → ∀ q ∈ l, q ≠ m → f m + e * g m < f q + e * g q := by
  induction l with
  | nil => exact ⟨1, one_pos, by simp⟩
  | cons a l ih =>
    obtain ⟨e1, he1, h1⟩ := ih fun q hq => h q (List.mem_cons_of_mem _ hq)
    by_cases ham : a = m
    · refine ⟨e1, he1, fun e he hle q hq hqm => ?_⟩
      rcases List.mem_cons.mp hq with rfl | hq
      · exact absurd ham hqm
      · exact h1 e he hle q hq hqm
    rcases h a List.mem_cons_self ham with hlt | ⟨heq, hlt⟩
    · have hd : 0 < 1 + |g m - g a| := by positivity
      have hn : 0 < f a - f m := sub_pos.mpr hlt
      refine ⟨min e1 ((f a - f m) / (1 + |g m - g a|) / 2), by positivity, fun e he hle q hq hqm => ?_⟩
      rcases List.mem_cons.mp hq with rfl | hq
      · have h2 : e ≤ (f q - f m) / (1 + |g m - g q|) / 2 := hle.trans (min_le_right _ _)
        have h3 : e * (1 + |g m - g q|) ≤ (f q - f m) / 2 := by
          have := mul_le_mul_of_nonneg_right h2 hd.le
          have e2 : (f q - f m) / (1 + |g m - g q|) / 2 * (1 + |g m - g q|) = (f q - f m) / 2 := by
            field_simp
          rwa [e2] at this
        have h4 : e * (g m - g q) ≤ e * |g m - g q| := mul_le_mul_of_nonneg_left (le_abs_self _) he.le
        nlinarith
      · exact h1 e he (hle.trans (min_le_left _ _)) q hq hqm
    · refine ⟨e1, he1, fun e he hle q hq hqm => ?_⟩
      rcases List.mem_cons.mp hq with rfl | hq
      · rw [heq]
        have := mul_lt_mul_of_pos_left hlt he
        linarith
      · exact h1 e he hle q hq hqm

theorem corner_of_lex {pts : List (ℚ × ℚ)} {m : ℚ × ℚ} (hm : m ∈ pts) (a b c d : ℚ)
    (h : ∀ q ∈ pts, q ≠ m → a * m.1 + b * m.2 < a * q.1 + b * q.2 ∨
      (a * m.1 + b * m.2 = a * q.1 + b * q.2 ∧ c * m.1 + d * m.2 < c * q.1 + d * q.2)) : Corner pts m := by
  obtain ⟨e, he, h1⟩ := exists_eps (fun q : ℚ × ℚ => a * q.1 + b * q.2) (fun q => c * q.1 + d * q.2) m pts h
  refine ⟨hm, -(a + e * c), -(b + e * d), fun q hq hqm => ?_⟩
  have := h1 e he (le_refl _) q hq hqm
  linarith

/-- A corner at or below zero, strictly between the end points, is below every segment over it. -/
theorem corner_below {pts : List (ℚ × ℚ)} (hx : ∀ p ∈ pts, 0 ≤ p.1 ∧ p.1 ≤ 1) (h0 : (0, 0) ∈ pts) (h1 : (1, 0) ∈ pts)
    {a p q : ℚ × ℚ} (ha : Corner pts a) (hy : a.2 ≤ 0) (hp : p ∈ pts) (hq : q ∈ pts) (hpa : p.1 < a.1) (haq : a.1 < q.1) :
    a.2 * (q.1 - p.1) < p.2 * (q.1 - a.1) + q.2 * (a.1 - p.1) := by
  obtain ⟨-, u, w, h⟩ := ha
  have key : ∀ r s : ℚ × ℚ, r ∈ pts → s ∈ pts → r.1 < a.1 → a.1 < s.1 →
      w * (r.2 * (s.1 - a.1) + s.2 * (a.1 - r.1)) < w * (a.2 * (s.1 - r.1)) := by
    intro r s hr hs hra has
    have e1 := h r hr (by rintro rfl; exact lt_irrefl _ hra)
    have e2 := h s hs (by rintro rfl; exact lt_irrefl _ has)
    have f1 := mul_lt_mul_of_pos_right e1 (sub_pos.mpr has)
    have f2 := mul_lt_mul_of_pos_right e2 (sub_pos.mpr hra)
    nlinarith
  have k1 := key p q hp hq hpa haq
  have k0 := key (0, 0) (1, 0) h0 h1 (lt_of_le_of_lt (hx p hp).1 hpa) (lt_of_lt_of_le haq (hx q hq).2)
  simp only [zero_mul, add_zero, mul_zero, sub_zero, mul_one] at k0
  have hw : w < 0 := by
    by_contra hw
    have : w * a.2 ≤ 0 := mul_nonpos_of_nonneg_of_nonpos (not_lt.mp hw) hy
    linarith
  by_contra hc
  have := mul_le_mul_of_nonpos_left (not_lt.mp hc) hw.le
  linarith

/-- What the constructor guarantees about the coordinates: sorted, inside `[0, 1]`, with both end points. -/
structure Coords (pts : List (ℚ × ℚ)) : Prop where
  sorted : pts.Pairwise fun a b => a.1 ≤ b.1
  range : ∀ p ∈ pts, 0 ≤ p.1 ∧ p.1 ≤ 1
  zero : (0, 0) ∈ pts
  one : (1, 0) ∈ pts

theorem coords_mk (rs : List (ℚ × ℚ)) (h : ∀ p ∈ rs, 0 ≤ p.1 ∧ p.1 ≤ 1) : Coords (mkCoords rs) := by
  have hp : (mkCoords rs).Perm (rs ++ [(0, 0), (1, 0)]) := List.perm_insertionSort _ _
  refine ⟨?_, ?_, ?_, ?_⟩
  · have : Std.Total (fun a b : ℚ × ℚ => a.1 ≤ b.1) := ⟨fun _ _ => le_total _ _⟩
    have : IsTrans (ℚ × ℚ) (fun a b : ℚ × ℚ => a.1 ≤ b.1) := ⟨fun _ _ _ => le_trans⟩
    exact List.pairwise_insertionSort _ _
  · intro p hm
    rcases List.mem_append.mp (hp.mem_iff.mp hm) with h' | h'
    · exact h p h'
    · simp only [List.mem_cons, List.not_mem_nil, or_false] at h'
      rcases h' with rfl | rfl <;> norm_num
  · rw [hp.mem_iff]; simp
  · rw [hp.mem_iff]; simp

theorem minAt_spec (pts : List (ℚ × ℚ)) (p : ℚ × ℚ) (hp : p ∈ pts) :
    ∃ m, minAt pts p.1 = some m ∧ (p.1, m) ∈ pts ∧ ∀ q ∈ pts, q.1 = p.1 → m ≤ q.2 := by
  unfold minAt
  have hne : ((pts.filter fun c => decide (c.1 = p.1)).map Prod.snd) ≠ [] := by
    have : p ∈ pts.filter fun c => decide (c.1 = p.1) := List.mem_filter.mpr ⟨hp, by simp⟩
    intro h
    rw [List.map_eq_nil_iff] at h
    rw [h] at this; cases this
  cases hm : ((pts.filter fun c => decide (c.1 = p.1)).map Prod.snd).min? with
  | none => rw [List.min?_eq_none_iff] at hm; exact absurd hm hne
  | some m =>
    rw [List.min?_eq_some_iff] at hm
    obtain ⟨h1, h2⟩ := hm
    obtain ⟨q, hq, rfl⟩ := List.mem_map.mp h1
    obtain ⟨hq, hqx⟩ := List.mem_filter.mp hq
    have hqx := of_decide_eq_true hqx
    refine ⟨q.2, rfl, by rw [← hqx]; exact hq, fun r hr hrx => h2 r.2 (List.mem_map.mpr ⟨r, List.mem_filter.mpr ⟨hr, by simpa using hrx⟩, rfl⟩)⟩

/-- The tolerances do not confuse different points: at one coordinate only the lowest energy is close to the lowest energy, and different
coordinates of corners are not close. -/
structure Apart (pts : List (ℚ × ℚ)) : Prop where
  energy : ∀ p, Corner pts p → ∀ m, minAt pts p.1 = some m → isclose m p.2 = true → m = p.2
  coord : ∀ p q, Corner pts p → Corner pts q → isclose p.1 q.1 = true → p.1 = q.1

/-- a stable corner -/
def Low (pts : List (ℚ × ℚ)) (p : ℚ × ℚ) : Prop := Corner pts p ∧ p.2 ≤ 0 ∧ ∀ q ∈ pts, q.1 = p.1 → p.2 ≤ q.2

theorem mem_hullVertices {h : IRH} (H : HullIndices h.coords h.rawVertices) (A : Apart h.coords) (i : ℕ) :
    i ∈ hullVertices h ↔ i ∈ h.rawVertices ∧ ∃ p, h.coords[i]? = some p ∧ Low h.coords p := by
  unfold hullVertices
  rw [List.mem_filter]
  refine and_congr_right fun hi => ?_
  obtain ⟨p, hp, hc⟩ := H.sound i hi
  obtain ⟨m, hm, hmem, hmin⟩ := minAt_spec h.coords p hc.1
  simp only [hp, hm, Bool.and_eq_true, decide_eq_true_eq, Option.some.injEq, exists_eq_left']
  constructor
  · rintro ⟨h1, h2⟩
    have := A.energy p hc m hm h2
    exact ⟨hc, h1, fun q hq hqx => this ▸ hmin q hq hqx⟩
  · rintro ⟨-, h1, h2⟩
    refine ⟨h1, ?_⟩
    have : m = p.2 := le_antisymm (hmin p hc.1 rfl) (h2 (p.1, m) hmem rfl)
    rw [this]; exact isclose_self _

theorem getElem_sorted {pts : List (ℚ × ℚ)} (hs : pts.Pairwise fun a b => a.1 ≤ b.1) {i j : ℕ} {p q : ℚ × ℚ} (hp : pts[i]? = some p)
    (hq : pts[j]? = some q) (hij : i < j) : p.1 ≤ q.1 := by
  obtain ⟨hi, rfl⟩ := List.getElem?_eq_some_iff.mp hp
  obtain ⟨hj, rfl⟩ := List.getElem?_eq_some_iff.mp hq
  exact List.pairwise_iff_getElem.mp hs i j hi hj hij

theorem low_unique {pts : List (ℚ × ℚ)} {p q : ℚ × ℚ} (hp : Low pts p) (hq : Low pts q) (hx : p.1 = q.1) : p = q :=
  Prod.ext hx (le_antisymm (hp.2.2 q hq.1.1 hx.symm) (hq.2.2 p hp.1.1 hx))

theorem adjacent_between {vs : List (ℚ × ℚ)} (hs : vs.Pairwise fun a b => a.1 < b.1) {a b m : ℚ × ℚ} (hab : Adjacent vs a b)
    (hm : m ∈ vs) : m.1 ≤ a.1 ∨ b.1 ≤ m.1 := by
  obtain ⟨l, r, rfl⟩ := hab
  rw [List.pairwise_append] at hs
  obtain ⟨-, h2, h3⟩ := hs
  rcases List.mem_append.mp hm with hm | hm
  · exact Or.inl (h3 m hm a List.mem_cons_self).le
  · rcases List.mem_cons.mp hm with rfl | hm
    · exact Or.inl (le_refl _)
    · rcases List.mem_cons.mp hm with rfl | hm
      · exact Or.inr (le_refl _)
      · have := (List.pairwise_cons.mp h2).2
        exact Or.inr ((List.pairwise_cons.mp this).1 m hm).le

/-- The support line of two neighbouring stable corners. -/
theorem support {pts vs : List (ℚ × ℚ)} (C : Coords pts) (hvs : ∀ p, p ∈ vs ↔ Low pts p)
    (hs : vs.Pairwise fun a b => a.1 < b.1) {a b : ℚ × ℚ} (hab : Adjacent vs a b) : ∀ p ∈ pts, AboveLine a b p := by
  have hav : a ∈ vs := by obtain ⟨l, r, rfl⟩ := hab; simp
  have hbv : b ∈ vs := by obtain ⟨l, r, rfl⟩ := hab; simp
  have hlt : a.1 < b.1 := by
    obtain ⟨l, r, rfl⟩ := hab
    exact (List.pairwise_cons.mp (List.pairwise_append.mp hs).2.1).1 b List.mem_cons_self
  have hla := (hvs a).mp hav
  have hlb := (hvs b).mp hbv
  -- the functional vanishing on the line, as coefficients
  have hf : ∀ p : ℚ × ℚ, p.2 * (b.1 - a.1) - (a.2 * (b.1 - p.1) + b.2 * (p.1 - a.1))
      = (a.2 - b.2) * p.1 + (b.1 - a.1) * p.2 - (a.2 * b.1 - b.2 * a.1) := by intro p; ring
  obtain ⟨m, hm, hmin⟩ := exists_lexmin (fun p : ℚ × ℚ => (a.2 - b.2) * p.1 + (b.1 - a.1) * p.2) (fun p => p.1) pts
    (List.ne_nil_of_mem C.zero)
  have hle : ∀ q ∈ pts, (a.2 - b.2) * m.1 + (b.1 - a.1) * m.2 ≤ (a.2 - b.2) * q.1 + (b.1 - a.1) * q.2 := by
    intro q hq
    rcases hmin q hq with h | ⟨h, -⟩
    · exact h.le
    · exact h.le
  have hd : 0 < b.1 - a.1 := sub_pos.mpr hlt
  by_contra hno
  push Not at hno
  obtain ⟨p, hp, hpb⟩ := hno
  unfold AboveLine at hpb
  have hneg : m.2 * (b.1 - a.1) < a.2 * (b.1 - m.1) + b.2 * (m.1 - a.1) := by
    have h1 := hf m
    have h2 := hf p
    have h3 := hle p hp
    have h4 : p.2 * (b.1 - a.1) - (a.2 * (b.1 - p.1) + b.2 * (p.1 - a.1)) < 0 := by linarith
    linarith
  -- `m` is a corner
  have hcm : Corner pts m := by
    refine corner_of_lex hm (a.2 - b.2) (b.1 - a.1) 1 0 fun q hq hqm => ?_
    rcases hmin q hq with h | ⟨h, hx⟩
    · exact Or.inl h
    · refine Or.inr ⟨h, ?_⟩
      have hx : m.1 ≤ q.1 := hx
      rcases lt_or_eq_of_le hx with h' | h'
      · linarith
      · exfalso
        apply hqm
        have h : (a.2 - b.2) * m.1 + (b.1 - a.1) * m.2 = (a.2 - b.2) * q.1 + (b.1 - a.1) * q.2 := h
        rw [h'] at h
        have : (b.1 - a.1) * m.2 = (b.1 - a.1) * q.2 := by linarith
        exact Prod.ext h'.symm (mul_left_cancel₀ hd.ne' this).symm
  have hmx := C.range m hm
  have hm0 : m.2 ≤ 0 := by
    have h0 := hle _ C.zero
    have h1 := hle _ C.one
    simp only [mul_zero, add_zero, mul_one] at h0 h1
    have e0 := mul_le_mul_of_nonneg_right h0 (sub_nonneg.mpr hmx.2)
    have e1 := mul_le_mul_of_nonneg_right h1 hmx.1
    have : (b.1 - a.1) * m.2 ≤ 0 := by nlinarith
    by_contra hc
    have := mul_pos hd (not_le.mp hc)
    linarith
  have hlm : Low pts m := by
    refine ⟨hcm, hm0, fun q hq hqx => ?_⟩
    have := hle q hq
    rw [hqx] at this
    have : (b.1 - a.1) * m.2 ≤ (b.1 - a.1) * q.2 := by linarith
    exact le_of_mul_le_mul_left this hd
  rcases adjacent_between hs hab ((hvs m).mpr hlm) with h | h
  · rcases lt_or_eq_of_le h with h | h
    · have := corner_below C.range C.zero C.one hla.1 hla.2.1 hm hlb.1.1 h hlt
      nlinarith
    · have := low_unique hlm hla h
      rw [this] at hneg
      nlinarith
  · rcases lt_or_eq_of_le h with h | h
    · have := corner_below C.range C.zero C.one hlb.1 hlb.2.1 hla.1.1 hm hlt h
      nlinarith
    · have := low_unique hlm hlb h.symm
      rw [this] at hneg
      nlinarith

/-- **From the convex hull routine to the lower hull.** -/
theorem goodHull_of_indices {h : IRH} (C : Coords h.coords) (H : HullIndices h.coords h.rawVertices) (A : Apart h.coords) :
    ∃ vs, GoodHull h vs ∧ ∀ p, p ∈ vs ↔ Low h.coords p := by
  have hperm : (sortedVertices h).Perm (hullVertices h) := List.perm_insertionSort _ _
  have hmem : ∀ i ∈ sortedVertices h, i ∈ h.rawVertices ∧ ∃ p, h.coords[i]? = some p ∧ Low h.coords p := fun i hi =>
    (mem_hullVertices H A i).mp (hperm.mem_iff.mp hi)
  have hnd : (sortedVertices h).Nodup := hperm.nodup_iff.mpr (H.nodup.filter _)
  have hsort : (sortedVertices h).Pairwise (· ≤ ·) := by
    have : Std.Total (fun a b : ℕ => a ≤ b) := ⟨le_total⟩
    have : IsTrans ℕ (fun a b : ℕ => a ≤ b) := ⟨fun _ _ _ => le_trans⟩
    exact List.pairwise_insertionSort _ _
  have hlt : (sortedVertices h).Pairwise (· < ·) :=
    (hsort.and hnd).imp fun h => lt_of_le_of_ne h.1 h.2
  set vs := (sortedVertices h).filterMap fun i => h.coords[i]? with hvs
  have hverts : (sortedVertices h).map (fun i => h.coords[i]?) = vs.map some := by
    rw [hvs]
    generalize sortedVertices h = l at hmem
    induction l with
    | nil => rfl
    | cons i l ih =>
      obtain ⟨-, p, hp, -⟩ := hmem i List.mem_cons_self
      rw [List.map_cons, ih (fun j hj => hmem j (List.mem_cons_of_mem _ hj)), List.filterMap_cons, hp]
      rfl
  have hlow : ∀ p, p ∈ vs ↔ Low h.coords p := by
    intro p
    rw [hvs, List.mem_filterMap]
    constructor
    · rintro ⟨i, hi, hip⟩
      obtain ⟨-, q, hq, hl⟩ := hmem i hi
      rw [hq] at hip
      cases hip
      exact hl
    · intro hl
      obtain ⟨i, hi, hip⟩ := H.complete p hl.1
      exact ⟨i, hperm.mem_iff.mpr ((mem_hullVertices H A i).mpr ⟨hi, p, hip, hl⟩), hip⟩
  have hstrict : vs.Pairwise fun a b => a.1 < b.1 := by
    rw [hvs, List.pairwise_filterMap]
    refine List.Pairwise.imp_of_mem ?_ hlt
    intro i j hi hj hij p hp q hq
    obtain ⟨ri, p', hp', hlp⟩ := hmem i hi
    obtain ⟨rj, q', hq', hlq⟩ := hmem j hj
    rw [hp'] at hp; cases hp
    rw [hq'] at hq; cases hq
    rcases lt_or_eq_of_le (getElem_sorted C.sorted hp' hq' hij) with hx | hx
    · exact hx
    · have := low_unique hlp hlq hx
      subst this
      exact absurd (H.once i ri j rj (hp'.trans hq'.symm)) hij.ne
  -- the two ends
  have hz : ∃ p ∈ vs, p.1 = 0 := by
    obtain ⟨m, hm, hmin⟩ := exists_lexmin (fun p : ℚ × ℚ => p.1) (fun p => p.2) h.coords (List.ne_nil_of_mem C.zero)
    have hm1 : m.1 = 0 := by
      refine le_antisymm ?_ (C.range m hm).1
      rcases hmin _ C.zero with h | ⟨h, -⟩
      · exact h.le
      · exact h.le
    have hmy : ∀ q ∈ h.coords, q.1 = 0 → m.2 ≤ q.2 := by
      intro q hq hqx
      rcases hmin q hq with h | ⟨-, h⟩
      · rw [hqx, hm1] at h; exact absurd h (lt_irrefl _)
      · exact h
    refine ⟨m, (hlow m).mpr ⟨?_, hmy _ C.zero rfl, fun q hq hqx => hmy q hq (hqx.trans hm1)⟩, hm1⟩
    refine corner_of_lex hm 1 0 0 1 fun q hq hqm => ?_
    have hq0 := (C.range q hq).1
    rcases lt_or_eq_of_le hq0 with h | h
    · left; rw [hm1]; linarith
    · right
      refine ⟨by rw [hm1, ← h]; ring, ?_⟩
      have := hmy q hq h.symm
      rcases lt_or_eq_of_le this with h' | h'
      · linarith
      · exact absurd (Prod.ext (h.symm.trans hm1.symm) h'.symm) hqm
  have ho : ∃ p ∈ vs, p.1 = 1 := by
    obtain ⟨m, hm, hmin⟩ := exists_lexmin (fun p : ℚ × ℚ => -p.1) (fun p => p.2) h.coords (List.ne_nil_of_mem C.zero)
    have hm1 : m.1 = 1 := by
      refine le_antisymm (C.range m hm).2 ?_
      rcases hmin _ C.one with h | ⟨h, -⟩
      · simp only at h; linarith
      · simp only at h; linarith
    have hmy : ∀ q ∈ h.coords, q.1 = 1 → m.2 ≤ q.2 := by
      intro q hq hqx
      rcases hmin q hq with h | ⟨-, h⟩
      · simp only [hqx, hm1] at h; exact absurd h (lt_irrefl _)
      · exact h
    refine ⟨m, (hlow m).mpr ⟨?_, hmy _ C.one rfl, fun q hq hqx => hmy q hq (hqx.trans hm1)⟩, hm1⟩
    refine corner_of_lex hm (-1) 0 0 1 fun q hq hqm => ?_
    have hq0 := (C.range q hq).2
    rcases lt_or_eq_of_le hq0 with h | h
    · left; rw [hm1]; linarith
    · right
      refine ⟨by rw [hm1, h]; ring, ?_⟩
      have := hmy q hq h
      rcases lt_or_eq_of_le this with h' | h'
      · linarith
      · exact absurd (Prod.ext (h.trans hm1.symm) h'.symm) hqm
  refine ⟨vs, ⟨hverts, ⟨hstrict, fun v hv => ((hlow v).mp hv).1.1, ?_, ?_, fun a b hab => support C hlow hstrict hab⟩, ⟨C.zero, C.one⟩, ?_⟩, hlow⟩
  · obtain ⟨p, hp, hp0⟩ := hz
    cases hv : vs with
    | nil => rw [hv] at hp; cases hp
    | cons v l =>
      rw [hv] at hp hstrict
      simp only [List.head?_cons, Option.map_some, Option.some.injEq]
      rcases List.mem_cons.mp hp with rfl | hp
      · exact hp0
      · have := (List.pairwise_cons.mp hstrict).1 p hp
        have hv0 := (C.range v ((hlow v).mp (by rw [hv]; exact List.mem_cons_self)).1.1).1
        linarith
  · obtain ⟨p, hp, hp1⟩ := ho
    obtain hv | ⟨l, v, hv⟩ := List.eq_nil_or_concat vs
    · rw [hv] at hp; cases hp
    · rw [List.concat_eq_append] at hv
      rw [hv] at hp hstrict
      rw [hv, List.getLast?_concat]
      simp only [Option.map_some, Option.some.injEq]
      rcases List.mem_append.mp hp with hp | hp
      · have := (List.pairwise_append.mp hstrict).2.2 p hp v (List.mem_singleton.mpr rfl)
        have hv1 := (C.range v ((hlow v).mp (by rw [hv]; simp)).1.1).2
        linarith
      · rw [← List.mem_singleton.mp hp]; exact hp1
  · refine List.Pairwise.imp_of_mem ?_ hstrict
    intro a b ha hb hab
    have hca := ((hlow a).mp ha).1
    have hcb := ((hlow b).mp hb).1
    constructor
    · by_contra hc
      exact hab.ne (A.coord a b hca hcb (by simpa using hc))
    · by_contra hc
      exact hab.ne' (A.coord b a hcb hca (by simpa using hc))

end Verif.Lemmas.HullConvex
