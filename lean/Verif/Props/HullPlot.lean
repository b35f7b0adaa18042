import Verif.Model.HullPlot
import Verif.Props.HullInit

/-! Property C135: the plot of an interface reaction hull shows every reaction at its place, and the lower hull. -/

namespace Verif.Props.HullPlot
open Verif.Py Verif.Model.Hull Verif.Spec.Hull Verif.Lemmas.Hull Verif.Lemmas.HullConvex Verif.Props.Hull Verif.Props.HullConvex Verif.Props.HullInit

/-! ### Specification -/

/-- An edge of the convex hull: two different corners at which the same linear functional, not constantly zero, is largest. -/
def Edge (pts : List (ℚ × ℚ)) (p q : ℚ × ℚ) : Prop :=
  Corner pts p ∧ Corner pts q ∧ p ≠ q ∧ ∃ u w : ℚ, (u ≠ 0 ∨ w ≠ 0) ∧ u * p.1 + w * p.2 = u * q.1 + w * q.2 ∧
    ∀ r ∈ pts, u * r.1 + w * r.2 ≤ u * p.1 + w * p.2

/-- What a planar convex hull routine returns as facets: the index pairs of the edges, each edge in one of its two directions. -/
structure HullEdges (pts : List (ℚ × ℚ)) (simplices : List (ℕ × ℕ)) : Prop where
  sound : ∀ s ∈ simplices, ∃ p q, pts[s.1]? = some p ∧ pts[s.2]? = some q ∧ Edge pts p q
  complete : ∀ p q, Edge pts p q → ∃ s ∈ simplices, (pts[s.1]? = some p ∧ pts[s.2]? = some q) ∨ (pts[s.1]? = some q ∧ pts[s.2]? = some p)

/-- An edge of the lower hull, from left to right: two corners of the lower hull and no point below the line through them. -/
def LowerEdge (pts : List (ℚ × ℚ)) (p q : ℚ × ℚ) : Prop :=
  LowerCorner pts p ∧ LowerCorner pts q ∧ p.1 < q.1 ∧ ∀ r ∈ pts, AboveLine p q r

/-- A line between the two points is drawn, in one of the directions. -/
def Drawn (f : HullFigure) (p q : ℚ × ℚ) : Prop := (p, q) ∈ f.lines ∨ (q, p) ∈ f.lines

/-- `p` is on the segment between `a` and `b`, from left to right. -/
def OnSegment (a b p : ℚ × ℚ) : Prop := a.1 ≤ p.1 ∧ p.1 ≤ b.1 ∧ OnLine a b p

/-- An edge that goes straight down at one of the two ends. -/
def Drop (pts : List (ℚ × ℚ)) (p q : ℚ × ℚ) : Prop := Edge pts p q ∧ p.1 = q.1 ∧ (p.1 = 0 ∨ p.1 = 1) ∧ p.2 ≤ 0 ∧ q.2 ≤ 0

/-! ### Helper lemmas -/

theorem Edge.symm {pts : List (ℚ × ℚ)} {p q : ℚ × ℚ} (h : Edge pts p q) : Edge pts q p := by
  obtain ⟨h1, h2, h3, u, w, h4, h5, h6⟩ := h
  exact ⟨h2, h1, h3.symm, u, w, h4, h5.symm, fun r hr => h5 ▸ h6 r hr⟩

theorem edge_of_lower {pts : List (ℚ × ℚ)} (C : Coords pts) {p q : ℚ × ℚ} (h : LowerEdge pts p q) : Edge pts p q := by
  obtain ⟨h1, h2, h3, h4⟩ := h
  refine ⟨((low_iff C p).mpr h1).1, ((low_iff C q).mpr h2).1, fun e => by rw [e] at h3; exact lt_irrefl _ h3, q.2 - p.2, -(q.1 - p.1), ?_, by ring, ?_⟩
  · right
    linarith
  · intro r hr
    have := h4 r hr
    unfold AboveLine at this
    linarith

/-- An edge below the zero line that is not vertical belongs to the lower hull. -/
theorem lower_of_edge {pts : List (ℚ × ℚ)} (C : Coords pts) {p q : ℚ × ℚ} (h : Edge pts p q) (hp : p.2 ≤ 0) (hq : q.2 ≤ 0)
    (h0 : ¬ (p.2 = 0 ∧ q.2 = 0)) (hlt : p.1 < q.1) : LowerEdge pts p q := by
  obtain ⟨h1, h2, h3, u, w, h4, h5, h6⟩ := h
  have e0 := h6 _ C.zero
  have e1 := h6 _ C.one
  simp only [mul_zero, add_zero, mul_one] at e0 e1
  have rp := C.range p h1.1
  have rq := C.range q h2.1
  have hw : w < 0 := by
    by_contra hc
    have hw0 : 0 ≤ w := not_lt.mp hc
    have up : u * p.1 ≤ max 0 u := by
      rcases le_total 0 u with hu | hu
      · exact (mul_le_of_le_one_right hu rp.2).trans (le_max_right _ _)
      · exact (mul_nonpos_of_nonpos_of_nonneg hu rp.1).trans (le_max_left _ _)
    have uq : u * q.1 ≤ max 0 u := by
      rcases le_total 0 u with hu | hu
      · exact (mul_le_of_le_one_right hu rq.2).trans (le_max_right _ _)
      · exact (mul_nonpos_of_nonpos_of_nonneg hu rq.1).trans (le_max_left _ _)
    have hm : max 0 u ≤ u * p.1 + w * p.2 := max_le e0 e1
    have wp : w * p.2 ≤ 0 := mul_nonpos_of_nonneg_of_nonpos hw0 hp
    have wq : w * q.2 ≤ 0 := mul_nonpos_of_nonneg_of_nonpos hw0 hq
    rcases eq_or_lt_of_le hw0 with hw1 | hw1
    · rw [← hw1] at h5 h4
      have hu : u ≠ 0 := h4.resolve_right (fun h => h rfl)
      have : u * p.1 = u * q.1 := by linarith
      exact absurd (mul_left_cancel₀ hu this) hlt.ne
    · have zp : w * p.2 = 0 := by linarith
      have zq : w * q.2 = 0 := by linarith
      exact h0 ⟨(mul_eq_zero.mp zp).resolve_left hw1.ne', (mul_eq_zero.mp zq).resolve_left hw1.ne'⟩
  have above : ∀ r ∈ pts, AboveLine p q r := by
    intro r hr
    have := h6 r hr
    unfold AboveLine
    have hd : 0 < q.1 - p.1 := sub_pos.mpr hlt
    have k1 : u * (q.1 - p.1) = -w * (q.2 - p.2) := by linarith
    have k2 : (u * (r.1 - p.1) + w * (r.2 - p.2)) * (q.1 - p.1) ≤ 0 := mul_nonpos_of_nonpos_of_nonneg (by linarith) hd.le
    have k3 : (u * (r.1 - p.1) + w * (r.2 - p.2)) * (q.1 - p.1) = -w * ((q.2 - p.2) * (r.1 - p.1) - (r.2 - p.2) * (q.1 - p.1)) := by
      have : (u * (r.1 - p.1) + w * (r.2 - p.2)) * (q.1 - p.1) = u * (q.1 - p.1) * (r.1 - p.1) + w * (r.2 - p.2) * (q.1 - p.1) := by ring
      rw [this, k1]
      ring
    rw [k3] at k2
    have k4 : (q.2 - p.2) * (r.1 - p.1) - (r.2 - p.2) * (q.1 - p.1) ≤ 0 := by
      by_contra hc
      have := mul_pos (neg_pos.mpr hw) (not_le.mp hc)
      linarith
    linarith
  refine ⟨(low_iff C p).mp ⟨h1, hp, fun r hr hx => ?_⟩, (low_iff C q).mp ⟨h2, hq, fun r hr hx => ?_⟩, hlt, above⟩
  · have := above r hr
    unfold AboveLine at this
    rw [hx, sub_self, mul_zero, add_zero] at this
    exact le_of_mul_le_mul_right this (sub_pos.mpr hlt)
  · have := above r hr
    unfold AboveLine at this
    rw [hx, sub_self, mul_zero, zero_add] at this
    exact le_of_mul_le_mul_right this (sub_pos.mpr hlt)

/-- A vertical edge is at one of the ends. -/
theorem vertical_end {pts : List (ℚ × ℚ)} (C : Coords pts) {p q : ℚ × ℚ} (h : Edge pts p q) (hx : p.1 = q.1) : p.1 = 0 ∨ p.1 = 1 := by
  obtain ⟨h1, h2, h3, u, w, h4, h5, h6⟩ := h
  have hw : w = 0 := by
    by_contra hw
    rw [hx] at h5
    have : w * p.2 = w * q.2 := by linarith
    exact h3 (Prod.ext hx (mul_left_cancel₀ hw this))
  subst hw
  have e0 := h6 _ C.zero
  have e1 := h6 _ C.one
  simp only [mul_zero, add_zero, mul_one, zero_mul] at e0 e1
  have hu : u ≠ 0 := h4.resolve_right (fun h => h rfl)
  have rp := C.range p h1.1
  rcases lt_or_gt_of_ne hu with hu | hu
  · left
    by_contra hc
    have : 0 < p.1 := lt_of_le_of_ne rp.1 (Ne.symm hc)
    have := mul_neg_of_neg_of_pos hu this
    linarith
  · right
    by_contra hc
    have : p.1 < 1 := lt_of_le_of_ne rp.2 hc
    have := mul_lt_mul_of_pos_left this hu
    linarith

theorem mem_edgePoints {coords : List (ℚ × ℚ)} {simplices : List (ℕ × ℕ)} {cs} (h : edgePoints coords simplices = .ok cs) (c : (ℚ × ℚ) × (ℚ × ℚ)) :
    c ∈ cs ↔ ∃ s ∈ simplices, coords[s.1]? = some c.1 ∧ coords[s.2]? = some c.2 := by
  unfold edgePoints at h
  induction simplices generalizing cs with
  | nil => rw [List.mapM_nil] at h; cases h; simp
  | cons s l ih =>
    rw [List.mapM_cons, Verif.Lemmas.Exc.bind_ok] at h
    obtain ⟨v, hv, h⟩ := h
    rw [Verif.Lemmas.Exc.bind_ok] at h
    obtain ⟨vs, hvs, h⟩ := h
    cases h
    rw [List.mem_cons, ih hvs]
    have key : c = v ↔ coords[s.1]? = some c.1 ∧ coords[s.2]? = some c.2 := by
      cases ha : coords[s.1]? with
      | none => simp only [ha] at hv; cases hv
      | some a =>
        cases hb : coords[s.2]? with
        | none => simp only [ha, hb] at hv; cases hv
        | some b =>
          simp only [ha, hb] at hv
          cases hv
          rw [Prod.ext_iff]
          simp only [Option.some.injEq]
          constructor <;> rintro ⟨h1, h2⟩ <;> exact ⟨h1.symm, h2.symm⟩
    rw [key]
    simp

theorem mem_getLines {coords : List (ℚ × ℚ)} {simplices : List (ℕ × ℕ)} {ls} (h : getLines coords simplices = .ok ls) (c : (ℚ × ℚ) × (ℚ × ℚ)) :
    c ∈ ls ↔ (∃ s ∈ simplices, coords[s.1]? = some c.1 ∧ coords[s.2]? = some c.2) ∧ c.1.2 ≤ 0 ∧ c.2.2 ≤ 0 ∧ ¬ (c.1.2 = 0 ∧ c.2.2 = 0) := by
  unfold getLines at h
  rw [Verif.Lemmas.Exc.bind_ok] at h
  obtain ⟨cs, hcs, h⟩ := h
  cases h
  rw [List.mem_filter, List.mem_filter, List.mem_filter, mem_edgePoints hcs]
  simp
  tauto

variable {ρ η κ : Type} [DecidableEq κ]

theorem coords_init (reactants : ρ → List η) (red : η → κ) (coord epa : ρ → Except Err ℚ) (ident : η → ρ) (argsort : List ℚ → List ℕ)
    (hsort : SortsBy argsort) (c1 c2 : κ) (rs : List ρ) (h : Built ρ)
    (hh : hullInit reactants red coord epa ident argsort c1 c2 rs = .ok h)
    (hx : ∀ r ∈ rs, ∀ x, coord r = .ok x → 0 ≤ x ∧ x ≤ 1) :
    Coords h.coords ∧ ∀ p ∈ h.coords, p = (0, 0) ∨ p = (1, 0) ∨ ∃ r ∈ rs, coord r = .ok p.1 ∧ epa r = .ok p.2 := by
  obtain ⟨a, b, pts, -, -, -, -, hf, -, -, -, hp, hs⟩ :=
    C92_aligned reactants red coord epa ident argsort hsort c1 c2 rs h hh
  have hr : ∀ p ∈ pts, ∃ r ∈ rs, coord r = .ok p.1 ∧ epa r = .ok p.2 := by
    intro p hp
    obtain ⟨r, hr, h⟩ := (List.forall₂_iff_get.mp hf |> fun ⟨hl, hg⟩ => by
      obtain ⟨i, hi, rfl⟩ := List.mem_iff_getElem.mp hp
      exact ⟨rs[i]'(hl ▸ hi), List.getElem_mem _, hg i (hl ▸ hi) hi⟩ : ∃ r ∈ rs, coord r = .ok p.1 ∧ epa r = .ok p.2)
    exact ⟨r, hr, h⟩
  have hall : ∀ p ∈ h.coords, p = (0, 0) ∨ p = (1, 0) ∨ ∃ r ∈ rs, coord r = .ok p.1 ∧ epa r = .ok p.2 := by
    intro p hm
    rcases List.mem_append.mp (hp.mem_iff.mp hm) with h' | h'
    · exact .inr (.inr (hr p h'))
    · simp only [List.mem_cons, List.not_mem_nil, or_false] at h'
      rcases h' with rfl | rfl
      · exact .inl rfl
      · exact .inr (.inl rfl)
  refine ⟨⟨hs, fun p hm => ?_, by rw [hp.mem_iff]; simp, by rw [hp.mem_iff]; simp⟩, hall⟩
  rcases hall p hm with rfl | rfl | ⟨r, hr, h1, -⟩
  · norm_num
  · norm_num
  · exact hx r hr _ h1

theorem plot_parts {name : ρ → String} {h : Built ρ} {simplices : List (ℕ × ℕ)} {yMax : ℚ} {f : HullFigure}
    (hf : plotHull name h simplices yMax = .ok f) :
    getScatter h.coords (h.reactions.map name) = .ok f.points ∧ getLines h.coords simplices = .ok f.lines ∧
      ∃ m, (h.coords.map Prod.snd).min? = some m ∧ f.yRange = (m - 1 / 100, yMax) := by
  unfold plotHull at hf
  rw [Verif.Lemmas.Exc.bind_ok] at hf
  obtain ⟨pts, h1, hf⟩ := hf
  rw [Verif.Lemmas.Exc.bind_ok] at hf
  obtain ⟨ls, h2, hf⟩ := hf
  cases hm : (h.coords.map Prod.snd).min? with
  | none => rw [hm] at hf; cases hf
  | some m =>
    rw [hm] at hf
    cases hf
    exact ⟨h1, h2, m, rfl, rfl⟩

theorem drawn_iff {h : Built ρ} {simplices : List (ℕ × ℕ)} {f : HullFigure} (H : HullEdges h.coords simplices)
    (hl : getLines h.coords simplices = .ok f.lines) (p q : ℚ × ℚ) :
    Drawn f p q ↔ Edge h.coords p q ∧ p.2 ≤ 0 ∧ q.2 ≤ 0 ∧ ¬ (p.2 = 0 ∧ q.2 = 0) := by
  unfold Drawn
  rw [mem_getLines hl, mem_getLines hl]
  constructor
  · rintro (⟨⟨s, hs, a, b⟩, c, d, e⟩ | ⟨⟨s, hs, a, b⟩, c, d, e⟩)
    · obtain ⟨p', q', a', b', E⟩ := H.sound s hs
      rw [a] at a'; rw [b] at b'
      cases a'; cases b'
      exact ⟨E, c, d, e⟩
    · obtain ⟨p', q', a', b', E⟩ := H.sound s hs
      rw [a] at a'; rw [b] at b'
      cases a'; cases b'
      exact ⟨E.symm, d, c, fun h => e h.symm⟩
  · rintro ⟨E, c, d, e⟩
    obtain ⟨s, hs, ⟨a, b⟩ | ⟨a, b⟩⟩ := H.complete p q E
    · exact .inl ⟨⟨s, hs, a, b⟩, c, d, e⟩
    · exact .inr ⟨⟨s, hs, a, b⟩, d, c, fun h => e h.symm⟩

theorem drawn_lines {h : Built ρ} {simplices : List (ℕ × ℕ)} {f : HullFigure} (C : Coords h.coords) (H : HullEdges h.coords simplices)
    (hl : getLines h.coords simplices = .ok f.lines) (p q : ℚ × ℚ) :
    Drawn f p q ↔ (LowerEdge h.coords p q ∨ LowerEdge h.coords q p ∨ Drop h.coords p q) ∧ ¬ (p.2 = 0 ∧ q.2 = 0) := by
  rw [drawn_iff H hl]
  constructor
  · rintro ⟨E, c, d, e⟩
    refine ⟨?_, e⟩
    rcases lt_trichotomy p.1 q.1 with hx | hx | hx
    · exact .inl (lower_of_edge C E c d e hx)
    · exact .inr (.inr ⟨E, hx, vertical_end C E hx, c, d⟩)
    · exact .inr (.inl (lower_of_edge C E.symm d c (fun h => e h.symm) hx))
  · rintro ⟨hL | hL | hL, e⟩
    · exact ⟨edge_of_lower C hL, ((low_iff C p).mpr hL.1).2.1, ((low_iff C q).mpr hL.2.1).2.1, e⟩
    · exact ⟨(edge_of_lower C hL).symm, ((low_iff C p).mpr hL.2.1).2.1, ((low_iff C q).mpr hL.1).2.1, e⟩
    · exact ⟨hL.1, hL.2.2.2.1, hL.2.2.2.2, e⟩

/-! ### C135 -/

section
variable (reactants : ρ → List η) (red : η → κ) (coord epa : ρ → Except Err ℚ) (ident : η → ρ) (argsort : List ℚ → List ℕ)
  (hsort : SortsBy argsort) (c1 c2 : κ) (rs : List ρ) (h : Built ρ)
  (hh : hullInit reactants red coord epa ident argsort c1 c2 rs = .ok h)
  (hx : ∀ r ∈ rs, ∀ x, coord r = .ok x → 0 ≤ x ∧ x ≤ 1)
  (name : ρ → String) (simplices : List (ℕ × ℕ)) (yMax : ℚ)
include hsort hh hx

/-- **C135, a figure is made.** For every constructed hull with the edges of its points the plot does not raise. -/
theorem C135_runs (H : HullEdges h.coords simplices) : ∃ f, plotHull name h simplices yMax = .ok f := by
  obtain ⟨C, -⟩ := coords_init reactants red coord epa ident argsort hsort c1 c2 rs h hh hx
  obtain ⟨a, b, pts, -, -, -, -, -, -, hlen, -⟩ := C92_aligned reactants red coord epa ident argsort hsort c1 c2 rs h hh
  have hc : ∃ cs, edgePoints h.coords simplices = .ok cs := by
    cases he : edgePoints h.coords simplices with
    | ok cs => exact ⟨cs, rfl⟩
    | error e =>
      obtain ⟨s, hs, he⟩ := Verif.Lemmas.Exc.mapM_error _ _ _ he
      obtain ⟨p, q, hp, hq, -⟩ := H.sound s hs
      simp only [hp, hq] at he
      cases he
  obtain ⟨cs, hcs⟩ := hc
  have hm : ∃ m, (h.coords.map Prod.snd).min? = some m := by
    cases hm : (h.coords.map Prod.snd).min? with
    | some m => exact ⟨m, rfl⟩
    | none =>
      rw [List.min?_eq_none_iff, List.map_eq_nil_iff] at hm
      have := C.zero
      rw [hm] at this
      cases this
  obtain ⟨m, hm⟩ := hm
  unfold plotHull getLines getScatter
  rw [List.length_map, if_pos hlen, hcs, hm]
  exact ⟨_, rfl⟩

/-- **C135, lines.** The drawn lines are exactly the edges of the lower hull and the vertical edges at the two ends, without edges on the
zero line. -/
theorem C135_lines (H : HullEdges h.coords simplices) (f : HullFigure) (hf : plotHull name h simplices yMax = .ok f) (p q : ℚ × ℚ) :
    Drawn f p q ↔ (LowerEdge h.coords p q ∨ LowerEdge h.coords q p ∨ Drop h.coords p q) ∧ ¬ (p.2 = 0 ∧ q.2 = 0) := by
  obtain ⟨C, -⟩ := coords_init reactants red coord epa ident argsort hsort c1 c2 rs h hh hx
  exact drawn_lines C H (plot_parts hf).2.1 p q

/-- **C135, only the lower hull is drawn**, when no reaction at one of the two ends has a negative energy. Without this the plot has vertical
lines (`C135_vertical_violated`). -/
theorem C135_lower_partial (H : HullEdges h.coords simplices) (f : HullFigure) (hf : plotHull name h simplices yMax = .ok f)
    (hend : ∀ r ∈ rs, coord r = .ok 0 ∨ coord r = .ok 1 → ∀ e, epa r = .ok e → 0 ≤ e) (p q : ℚ × ℚ) :
    Drawn f p q ↔ (LowerEdge h.coords p q ∨ LowerEdge h.coords q p) ∧ ¬ (p.2 = 0 ∧ q.2 = 0) := by
  obtain ⟨C, hall⟩ := coords_init reactants red coord epa ident argsort hsort c1 c2 rs h hh hx
  rw [drawn_lines C H (plot_parts hf).2.1 p q]
  have flat : ∀ v ∈ h.coords, v.1 = 0 ∨ v.1 = 1 → v.2 ≤ 0 → v.2 = 0 := by
    intro v hv hv1 hv2
    rcases hall v hv with rfl | rfl | ⟨r, hr, e1, e2⟩
    · rfl
    · rfl
    · exact le_antisymm hv2 (hend r hr (by rcases hv1 with k | k <;> rw [k] at e1 <;> simp [e1]) _ e2)
  constructor
  · rintro ⟨hL | hL | ⟨E, a, b, c, d⟩, e⟩
    · exact ⟨.inl hL, e⟩
    · exact ⟨.inr hL, e⟩
    · exact absurd ⟨flat p E.1.1 b c, flat q E.2.1.1 (a ▸ b) d⟩ e
  · rintro ⟨hL | hL, e⟩
    · exact ⟨.inl hL, e⟩
    · exact ⟨.inr (.inl hL), e⟩

/-- **C135, the drawn curve is the hull energy.** Wherever the hull energy reported by the object is negative, the point of that energy is on a
drawn line; and every point of a drawn line that is not vertical has the reported hull energy. -/
theorem C135_hull_energy (raw : List ℕ) (I : HullIndices h.coords raw) (A : Apart' h.coords) (H : HullEdges h.coords simplices)
    (f : HullFigure) (hf : plotHull name h simplices yMax = .ok f) (x : ℚ) (h0 : 0 ≤ x) (h1 : x ≤ 1)
    (hsep : ∀ p, LowerCorner h.coords p → isclose x p.1 = true → x = p.1) :
    ∃ y, getHullEnergy ⟨h.coords, raw⟩ x = some y ∧
      (y < 0 → ∃ p q, Drawn f p q ∧ p.1 < q.1 ∧ OnSegment p q (x, y)) ∧
      ∀ p q y', Drawn f p q → p.1 < q.1 → OnSegment p q (x, y') → y' = y := by
  obtain ⟨C, -⟩ := coords_init reactants red coord epa ident argsort hsort c1 c2 rs h hh hx
  obtain ⟨vs, G, hvs⟩ := C92_lower_hull reactants red coord epa ident argsort hsort c1 c2 rs h hh hx raw I A
  obtain ⟨y, hy, hch⟩ := hullEnergy_spec G h0 h1 (fun v hv => hsep v ((hvs v).mp hv))
  obtain ⟨a, b, hab, g1, g2, g3⟩ := hch
  have hlt := Verif.Lemmas.Hull.adjacent_lt G.lower.strict hab
  have ha : a ∈ vs := by obtain ⟨l, r, rfl⟩ := hab; simp
  have hb : b ∈ vs := by obtain ⟨l, r, rfl⟩ := hab; simp
  have hd : 0 < b.1 - a.1 := sub_pos.mpr hlt
  have key := drawn_lines C H (plot_parts hf).2.1
  refine ⟨y, hy, fun hneg => ⟨a, b, ?_, hlt, g1, g2, g3⟩, ?_⟩
  · rw [key]
    refine ⟨.inl ⟨(hvs a).mp ha, (hvs b).mp hb, hlt, G.lower.support a b hab⟩, ?_⟩
    rintro ⟨za, zb⟩
    unfold OnLine at g3
    simp only [za, zb, zero_mul, add_zero] at g3
    exact hneg.ne ((mul_eq_zero.mp g3).resolve_right hd.ne')
  · rintro p q y' hD hpq ⟨k1, k2, k3⟩
    have hL : LowerEdge h.coords p q := by
      rcases ((key p q).mp hD).1 with hL | hL | hL
      · exact hL
      · exact absurd hL.2.2.1 (not_lt.mpr hpq.le)
      · exact absurd hL.2.1 hpq.ne
    have hd' : 0 < q.1 - p.1 := sub_pos.mpr hpq
    have pm : p ∈ h.coords := hL.1.1
    have qm : q ∈ h.coords := hL.2.1.1
    have am := G.lower.sub a ha
    have bm := G.lower.sub b hb
    -- the hull point is above the drawn line and the drawn point is above the hull line
    have e1 := hL.2.2.2 a am
    have e2 := hL.2.2.2 b bm
    have e3 := G.lower.support a b hab p pm
    have e4 := G.lower.support a b hab q qm
    unfold AboveLine at e1 e2 e3 e4
    unfold OnLine at g3 k3
    simp only at g1 g2 g3 k1 k2 k3
    refine le_antisymm ?_ ?_
    · have m1 := mul_le_mul_of_nonneg_right e1 (sub_nonneg.mpr g2)
      have m2 := mul_le_mul_of_nonneg_right e2 (sub_nonneg.mpr g1)
      have : y' * ((q.1 - p.1) * (b.1 - a.1)) ≤ y * ((q.1 - p.1) * (b.1 - a.1)) := by
        have t1 : y' * ((q.1 - p.1) * (b.1 - a.1)) = (p.2 * (q.1 - x) + q.2 * (x - p.1)) * (b.1 - a.1) := by rw [← k3]; ring
        have t2 : y * ((q.1 - p.1) * (b.1 - a.1)) = (a.2 * (b.1 - x) + b.2 * (x - a.1)) * (q.1 - p.1) := by rw [← g3]; ring
        rw [t1, t2]
        linarith
      exact le_of_mul_le_mul_right this (mul_pos hd' hd)
    · have m1 := mul_le_mul_of_nonneg_right e3 (sub_nonneg.mpr k2)
      have m2 := mul_le_mul_of_nonneg_right e4 (sub_nonneg.mpr k1)
      have : y * ((q.1 - p.1) * (b.1 - a.1)) ≤ y' * ((q.1 - p.1) * (b.1 - a.1)) := by
        have t1 : y' * ((q.1 - p.1) * (b.1 - a.1)) = (p.2 * (q.1 - x) + q.2 * (x - p.1)) * (b.1 - a.1) := by rw [← k3]; ring
        have t2 : y * ((q.1 - p.1) * (b.1 - a.1)) = (a.2 * (b.1 - x) + b.2 * (x - a.1)) * (q.1 - p.1) := by rw [← g3]; ring
        rw [t1, t2]
        linarith
      exact le_of_mul_le_mul_right this (mul_pos hd' hd)

omit hx in
/-- **C135, points.** The plot has one point for each given reaction, at its own coordinate and energy and with its own label, and one for each
end, and nothing else. -/
theorem C135_points (f : HullFigure) (hf : plotHull name h simplices yMax = .ok f) :
    ∃ a b, ∃ pts : List (ℚ × ℚ), red a = c1 ∧ red b = c2 ∧ List.Forall₂ (fun r p => coord r = .ok p.1 ∧ epa r = .ok p.2) rs pts ∧
      f.points.Perm (pts.zip (rs.map name) ++ [((0, 0), name (ident a)), ((1, 0), name (ident b))]) := by
  obtain ⟨a, b, pts, ha, hb, -, -, hF, -, hlen, hz, -⟩ := C92_aligned reactants red coord epa ident argsort hsort c1 c2 rs h hh
  refine ⟨a, b, pts, ha, hb, hF, ?_⟩
  obtain ⟨hs, -⟩ := plot_parts hf
  unfold getScatter at hs
  rw [List.length_map, if_pos hlen] at hs
  rw [← Except.ok.inj hs]
  have := hz.map (Prod.map id name)
  rw [List.map_append, ← List.zip_map_right, ← List.zip_map_right] at this
  exact this

/-- **C135, the visible part.** The lower end of the axis is below every point, and a point is inside the visible range exactly when its energy
is at most the given limit; with a limit of zero or more the range is not empty and holds the whole drawn curve. -/
theorem C135_visible (H : HullEdges h.coords simplices) (f : HullFigure) (hf : plotHull name h simplices yMax = .ok f) :
    (∀ p ∈ f.points, f.yRange.1 < p.1.2 ∧ (p.1.2 ≤ f.yRange.2 ↔ p.1.2 ≤ yMax)) ∧
      (0 ≤ yMax → f.yRange.1 < f.yRange.2 ∧
        ∀ p q, Drawn f p q → (f.yRange.1 < p.2 ∧ p.2 ≤ f.yRange.2) ∧ f.yRange.1 < q.2 ∧ q.2 ≤ f.yRange.2) := by
  obtain ⟨C, -⟩ := coords_init reactants red coord epa ident argsort hsort c1 c2 rs h hh hx
  obtain ⟨hs, hl, m, hm, hr⟩ := plot_parts hf
  have low : ∀ p ∈ h.coords, f.yRange.1 < p.2 := by
    intro p hp
    have := (List.min?_eq_some_iff.mp hm).2 p.2 (List.mem_map_of_mem hp)
    rw [hr]
    show m - 1 / 100 < p.2
    linarith
  refine ⟨fun p hp => ⟨low _ ?_, by rw [hr]⟩, fun h0 => ⟨(low _ C.zero).trans_le (by rw [hr]; exact h0), fun p q hD => ?_⟩⟩
  · unfold getScatter at hs
    split at hs
    · rw [← Except.ok.inj hs] at hp
      exact (List.of_mem_zip hp).1
    · cases hs
  · obtain ⟨E, a, b, -⟩ := (drawn_iff H hl p q).mp hD
    have h2 : f.yRange.2 = yMax := by rw [hr]
    exact ⟨⟨low _ E.1.1, by linarith⟩, low _ E.2.1.1, by linarith⟩

end

/-! ### Concrete cases -/

def exPlotInit (rs : List (ℚ × ℚ)) : Except Err (Built (ℚ × ℚ)) :=
  hullInit (fun _ : ℚ × ℚ => [0, 1]) (fun n : ℕ => n) (fun r => .ok r.1) (fun r => .ok r.2) (fun n => (n, 0)) exArgsort 0 1 rs

def exName (r : ℚ × ℚ) : String := if r.1 = 0 then "A" else if r.1 = 1 then "B" else "AB"

def exBuilt : Built (ℚ × ℚ) := ⟨[(0, 0), (1/4, -1/2), (1/2, -2), (1, 0)], [(0, 0), (1/4, -1/2), (1/2, -2), (1, 0)], [(0, 0), (1, 0)]⟩

def exDrop : Built (ℚ × ℚ) := ⟨[(0, 0), (1/2, -2), (1, 0), (1, -1)], [(0, 0), (1/2, -2), (1, 0), (1, -1)], [(0, 0), (1, 0)]⟩

theorem exBuilt_init : exPlotInit [(1/2, -2), (1/4, -1/2)] = .ok exBuilt := by decide +kernel

theorem exDrop_init : exPlotInit [(1/2, -2), (1, -1)] = .ok exDrop := by decide +kernel

theorem exBuilt_edges : HullEdges exBuilt.coords [(0, 3), (2, 0), (2, 3)] := by
  have c0 : Corner exBuilt.coords (0, 0) := ⟨by decide +kernel, -1, 0, by decide +kernel⟩
  have c2 : Corner exBuilt.coords (1/2, -2) := ⟨by decide +kernel, 0, -1, by decide +kernel⟩
  have c3 : Corner exBuilt.coords (1, 0) := ⟨by decide +kernel, 1, 0, by decide +kernel⟩
  refine ⟨?_, ?_⟩
  · intro s hs
    simp only [List.mem_cons, List.not_mem_nil, or_false] at hs
    rcases hs with rfl | rfl | rfl
    · exact ⟨(0, 0), (1, 0), rfl, rfl, c0, c3, by decide +kernel, 0, 1, by decide +kernel⟩
    · exact ⟨(1/2, -2), (0, 0), rfl, rfl, c2, c0, by decide +kernel, -4, -1, by decide +kernel⟩
    · exact ⟨(1/2, -2), (1, 0), rfl, rfl, c2, c3, by decide +kernel, 4, -1, by decide +kernel⟩
  · rintro p q ⟨⟨hp, u, w, hc⟩, ⟨hq, u', w', hc'⟩, hne, -⟩
    have no : ∀ u w : ℚ, ¬ ∀ q ∈ exBuilt.coords, q ≠ (1/4, -1/2) → u * q.1 + w * q.2 < u * (1/4) + w * (-1/2) := by
      intro u w h
      have h1 := h (0, 0) (by decide +kernel) (by decide +kernel)
      have h2 := h (1/2, -2) (by decide +kernel) (by decide +kernel)
      have h3 := h (1, 0) (by decide +kernel) (by decide +kernel)
      simp only at h1 h2 h3
      linarith
    simp only [exBuilt, List.mem_cons, List.not_mem_nil, or_false] at hp hq
    rcases hp with rfl | rfl | rfl | rfl <;> rcases hq with rfl | rfl | rfl | rfl <;>
      first
        | exact absurd rfl hne
        | exact absurd hc (no u w)
        | exact absurd hc' (no u' w')
        | decide +kernel

theorem exDrop_edges : HullEdges exDrop.coords [(0, 2), (1, 0), (1, 3), (2, 3)] := by
  have c0 : Corner exDrop.coords (0, 0) := ⟨by decide +kernel, -1, 0, by decide +kernel⟩
  have c1 : Corner exDrop.coords (1/2, -2) := ⟨by decide +kernel, 0, -1, by decide +kernel⟩
  have c2 : Corner exDrop.coords (1, 0) := ⟨by decide +kernel, 1, 1, by decide +kernel⟩
  have c3 : Corner exDrop.coords (1, -1) := ⟨by decide +kernel, 3, -1, by decide +kernel⟩
  refine ⟨?_, ?_⟩
  · intro s hs
    simp only [List.mem_cons, List.not_mem_nil, or_false] at hs
    rcases hs with rfl | rfl | rfl | rfl
    · exact ⟨(0, 0), (1, 0), rfl, rfl, c0, c2, by decide +kernel, 0, 1, by decide +kernel⟩
    · exact ⟨(1/2, -2), (0, 0), rfl, rfl, c1, c0, by decide +kernel, -4, -1, by decide +kernel⟩
    · exact ⟨(1/2, -2), (1, -1), rfl, rfl, c1, c3, by decide +kernel, 2, -1, by decide +kernel⟩
    · exact ⟨(1, 0), (1, -1), rfl, rfl, c2, c3, by decide +kernel, 1, 0, by decide +kernel⟩
  · rintro p q ⟨⟨hp, -⟩, ⟨hq, -⟩, hne, u, w, h0, he, hm⟩
    have no : (u * 0 + w * 0 = u * 1 + w * (-1)) ∧ (∀ r ∈ exDrop.coords, u * r.1 + w * r.2 ≤ 0) ∨
        (u * (1/2) + w * (-2) = u * 1 + w * 0) ∧ (∀ r ∈ exDrop.coords, u * r.1 + w * r.2 ≤ u) → False := by
      intro h
      have : u = 0 ∧ w = 0 := by
        rcases h with ⟨e, h⟩ | ⟨e, h⟩
        · have h1 := h (1/2, -2) (by decide +kernel)
          have h2 := h (1, 0) (by decide +kernel)
          simp only at h1 h2
          constructor <;> linarith
        · have h1 := h (0, 0) (by decide +kernel)
          have h2 := h (1, -1) (by decide +kernel)
          simp only at h1 h2
          constructor <;> linarith
      exact h0.elim (fun h => h this.1) (fun h => h this.2)
    simp only [exDrop, List.mem_cons, List.not_mem_nil, or_false] at hp hq
    rcases hp with rfl | rfl | rfl | rfl <;> rcases hq with rfl | rfl | rfl | rfl <;>
      first
        | exact absurd rfl hne
        | decide +kernel
        | exact (no (.inl ⟨by simp only at he; linarith, fun r hr => (hm r hr).trans (by simp only at he ⊢; linarith)⟩)).elim
        | exact (no (.inr ⟨by simp only at he; linarith, fun r hr => (hm r hr).trans (by simp only at he ⊢; linarith)⟩)).elim

theorem exUnit (rs : List (ℚ × ℚ)) (hrs : ∀ r ∈ rs, 0 ≤ r.1 ∧ r.1 ≤ 1) :
    ∀ r ∈ rs, ∀ x, (Except.ok r.1 : Except Err ℚ) = .ok x → 0 ≤ x ∧ x ≤ 1 := by
  intro r hr x h
  cases h
  exact hrs r hr

/-- The figure of three points of the lower hull and one above it: two lines, four labelled points. -/
example : plotHull exName exBuilt [(0, 3), (2, 0), (2, 3)] (1/5) = .ok ⟨[((1/2, -2), (0, 0)), ((1/2, -2), (1, 0))],
    [((0, 0), "A"), ((1/4, -1/2), "AB"), ((1/2, -2), "AB"), ((1, 0), "B")], (-201/100, 1/5)⟩ := by decide +kernel

example := C135_runs _ _ _ _ _ _ exArgsort_sorts _ _ _ _ exBuilt_init (exUnit _ (by decide +kernel)) exName _ (1/5) exBuilt_edges
example := C135_lines _ _ _ _ _ _ exArgsort_sorts _ _ _ _ exDrop_init (exUnit _ (by decide +kernel)) exName _ (1/5) exDrop_edges
example := C135_lower_partial _ _ _ _ _ _ exArgsort_sorts _ _ _ _ exBuilt_init (exUnit _ (by decide +kernel)) exName _ (1/5) exBuilt_edges

theorem exBuilt_apart : Apart' exBuilt.coords := by
  have h1 : ∀ p ∈ exBuilt.coords, ∀ q ∈ exBuilt.coords, isclose q.2 p.2 = true → q.1 = p.1 → q.2 = p.2 := by decide +kernel
  have h2 : ∀ p ∈ exBuilt.coords, ∀ q ∈ exBuilt.coords, isclose p.1 q.1 = true → p.1 = q.1 := by decide +kernel
  exact ⟨fun p q hp hq hx _ hc => h1 p hp.1 q hq hc hx, fun p q hp hq => h2 p hp.1 q hq.1⟩

theorem exBuilt_indices : HullIndices exBuilt.coords [0, 2, 3] := by
  refine ⟨by decide, ?_, ?_, by decide +kernel⟩
  · intro i hi
    simp only [List.mem_cons, List.not_mem_nil, or_false] at hi
    rcases hi with rfl | rfl | rfl
    · exact ⟨(0, 0), rfl, by decide +kernel, -1, 0, by decide +kernel⟩
    · exact ⟨(1/2, -2), rfl, by decide +kernel, 0, -1, by decide +kernel⟩
    · exact ⟨(1, 0), rfl, by decide +kernel, 1, 0, by decide +kernel⟩
  · rintro p ⟨hp, u, w, h⟩
    simp only [exBuilt, List.mem_cons, List.not_mem_nil, or_false] at hp
    rcases hp with rfl | rfl | rfl | rfl
    · exact ⟨0, by decide, rfl⟩
    · exfalso
      have h1 := h (0, 0) (by decide +kernel) (by decide +kernel)
      have h2 := h (1/2, -2) (by decide +kernel) (by decide +kernel)
      have h3 := h (1, 0) (by decide +kernel) (by decide +kernel)
      simp only at h1 h2 h3
      linarith
    · exact ⟨2, by decide, rfl⟩
    · exact ⟨3, by decide, rfl⟩

example := C135_hull_energy _ _ _ _ _ _ exArgsort_sorts _ _ _ _ exBuilt_init (exUnit _ (by decide +kernel)) exName _ (1/5) _ exBuilt_indices
  exBuilt_apart exBuilt_edges
example : getHullEnergy ⟨exBuilt.coords, [0, 2, 3]⟩ (1/4) = some (-1) ∧ OnSegment (0, 0) (1/2, -2) (1/4, -1) := by
  refine ⟨by decide +kernel, ?_⟩
  unfold OnSegment OnLine
  norm_num
example := C135_points _ _ _ _ _ _ exArgsort_sorts _ _ _ _ exBuilt_init exName [(0, 3), (2, 0), (2, 3)] (1/5)
example := C135_visible _ _ _ _ _ _ exArgsort_sorts _ _ _ _ exBuilt_init (exUnit _ (by decide +kernel)) exName _ (1/5) exBuilt_edges

/-- **C135 is violated** by a reaction at one of the two ends with a negative energy, for example the decomposition of an unstable reactant: the
plot has a vertical line down from the end point, which no line of the lower hull is; the end point itself is not on the lower hull. -/
theorem C135_vertical_violated :
    exPlotInit [(1/2, -2), (1, -1)] = .ok exDrop ∧ HullEdges exDrop.coords [(0, 2), (1, 0), (1, 3), (2, 3)] ∧
      ∃ f, plotHull exName exDrop [(0, 2), (1, 0), (1, 3), (2, 3)] (1/5) = .ok f ∧ Drawn f (1, 0) (1, -1) ∧
        ¬ LowerEdge exDrop.coords (1, 0) (1, -1) ∧ ¬ LowerEdge exDrop.coords (1, -1) (1, 0) ∧ ¬ LowerCorner exDrop.coords (1, 0) := by
  refine ⟨exDrop_init, exDrop_edges, ⟨[((1/2, -2), (0, 0)), ((1/2, -2), (1, -1)), ((1, 0), (1, -1))],
    [((0, 0), "A"), ((1/2, -2), "AB"), ((1, 0), "B"), ((1, -1), "B")], (-201/100, 1/5)⟩, by decide +kernel, .inl (by decide +kernel), ?_, ?_, ?_⟩
  · exact fun h => absurd h.2.2.1 (by norm_num)
  · exact fun h => absurd h.2.2.1 (by norm_num)
  · rintro ⟨-, s, h⟩
    have := h (1, -1) (by decide +kernel) (by decide +kernel)
    norm_num at this

end Verif.Props.HullPlot
