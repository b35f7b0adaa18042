import Verif.Model.Hull
import Verif.Spec.Hull
import Verif.Lemmas.HullEnergy
import Mathlib.Tactic.FieldSimp
import Mathlib.Tactic.Positivity

namespace Verif.Lemmas.Hull
open Verif.Py Verif.Model.Hull Verif.Spec.Hull Verif.Lemmas

/-- The vertices reported for `h` (external `ConvexHull`, filtered by the code) are the points `vs`, they form the
lower hull of the coordinates, and distinct vertices are not within `np.isclose` tolerance of each other. -/
structure GoodHull (h : IRH) (vs : List (ℚ × ℚ)) : Prop where
  verts : (sortedVertices h).map (fun i => h.coords[i]?) = vs.map some
  lower : LowerHull h.coords vs
  ends : (0, 0) ∈ h.coords ∧ (1, 0) ∈ h.coords
  sep : vs.Pairwise fun a b => isclose a.1 b.1 = false ∧ isclose b.1 a.1 = false

/-- `x` is not confused with a different vertex by the tolerance. -/
def Sep (vs : List (ℚ × ℚ)) (x : ℚ) : Prop := ∀ v ∈ vs, isclose x v.1 = true → x = v.1

theorem isclose_self (x : ℚ) : isclose x x = true := by
  simp only [isclose, sub_self, abs_zero, decide_eq_true_eq]
  positivity

/-- energy of a lookup result -/
def lookupEnergy (coords : List (ℚ × ℚ)) (rs : List (ℕ × ℚ)) : Option ℚ :=
  rs.foldlM (init := (0 : ℚ)) fun acc r => do
    let c ← coords[r.1]?
    pure (acc + r.2 * c.2)

theorem adjacent_tail {v a b : ℚ × ℚ} {vs} (h : Adjacent vs a b) : Adjacent (v :: vs) a b := by
  obtain ⟨l, r, rfl⟩ := h; exact ⟨v :: l, r, rfl⟩

theorem onChain_tail {v p : ℚ × ℚ} {vs} (h : OnChain vs p) : OnChain (v :: vs) p := by
  obtain ⟨a, b, h1, h2⟩ := h; exact ⟨a, b, adjacent_tail h1, h2⟩

theorem lookup_spec (coords : List (ℚ × ℚ)) (x : ℚ) (is : List ℕ) (vs : List (ℚ × ℚ))
    (hv : is.map (fun i => coords[i]?) = vs.map some)
    (hs : vs.Pairwise fun a b => a.1 < b.1) (hsep : Sep vs x) (hlen : 2 ≤ vs.length)
    (hlo : ∀ v ∈ vs.head?, v.1 ≤ x) (hhi : ∀ v ∈ vs.getLast?, x ≤ v.1) :
    ∃ res y, lookup coords x is = some res ∧ lookupEnergy coords res = some y ∧ OnChain vs (x, y) := by
  induction is generalizing vs with
  | nil =>
    have : vs = [] := by simpa using hv.symm
    simp [this] at hlen
  | cons i is ih =>
    obtain _ | ⟨a, vs⟩ := vs
    · simp at hlen
    obtain _ | ⟨b, rest⟩ := vs
    · simp at hlen
    obtain _ | ⟨j, is⟩ := is
    · simp at hv
    simp only [List.map_cons, List.cons.injEq] at hv
    obtain ⟨ha, hb, hrest⟩ := hv
    simp only [lookup, ha, hb]
    have hax : a.1 ≤ x := hlo a (by simp)
    have hab : a.1 < b.1 := by
      have := (List.pairwise_cons.mp hs).1 b (by simp); exact this
    by_cases h1 : isclose x a.1 = true
    · have := hsep a (by simp) h1
      refine ⟨[(i, 1)], a.2, by simp [h1], by simp [lookupEnergy, ha], a, b, ⟨[], rest, rfl⟩, ?_, ?_, ?_⟩
      · simp [this]
      · simp only; linarith
      · simp only [OnLine]; rw [this]; ring
    by_cases h2 : isclose x b.1 = true
    · have := hsep b (by simp) h2
      refine ⟨[(j, 1)], b.2, by simp [h1, h2], by simp [lookupEnergy, hb], a, b, ⟨[], rest, rfl⟩, ?_, ?_, ?_⟩
      · simp only; linarith
      · simp [this]
      · simp only [OnLine]; rw [this]; ring
    by_cases h3 : a.1 < x ∧ x < b.1
    · refine ⟨[(i, (b.1 - x) / (b.1 - a.1)), (j, (x - a.1) / (b.1 - a.1))],
        (b.1 - x) / (b.1 - a.1) * a.2 + (x - a.1) / (b.1 - a.1) * b.2, by simp [h1, h2, h3],
        by simp [lookupEnergy, ha, hb], a, b, ⟨[], rest, rfl⟩, h3.1.le, h3.2.le, ?_⟩
      have hne : b.1 - a.1 ≠ 0 := by linarith
      simp only [OnLine]
      field_simp
    · have hxa : x ≠ a.1 := by rintro rfl; exact h1 (isclose_self _)
      have hxb : x ≠ b.1 := by rintro rfl; exact h2 (isclose_self _)
      have hax' : a.1 < x := lt_of_le_of_ne hax (Ne.symm hxa)
      have hbx : b.1 < x := by
        have : ¬ x < b.1 := fun h => h3 ⟨hax', h⟩
        exact lt_of_le_of_ne (not_lt.mp this) (Ne.symm hxb)
      have hrestne : rest ≠ [] := by
        rintro rfl
        have := hhi b (by simp)
        linarith
      simp only [h1, h2, h3, if_false, Bool.false_eq_true]
      obtain ⟨res, y, e1, e2, e3⟩ := ih (b :: rest) (by simp [hb, hrest]) (List.pairwise_cons.mp hs).2
        (fun v hv => hsep v (List.mem_cons_of_mem _ hv))
        (by
          have := List.length_pos_iff.mpr hrestne
          simp only [List.length_cons]; omega)
        (by intro v hv; simp at hv; subst hv; exact hbx.le)
        (by intro v hv; exact hhi v (by simpa [List.getLast?_cons_cons] using hv))
      exact ⟨res, y, e1, e2, onChain_tail e3⟩

theorem adjacent_mem {vs a b} (h : Adjacent vs a b) : a ∈ vs ∧ b ∈ vs := by
  obtain ⟨l, r, rfl⟩ := h; simp

theorem adjacent_lt {vs} (hs : vs.Pairwise fun a b : ℚ × ℚ => a.1 < b.1) {a b} (h : Adjacent vs a b) : a.1 < b.1 := by
  obtain ⟨l, r, rfl⟩ := h
  have := (List.pairwise_append.mp hs).2.1
  exact (List.pairwise_cons.mp this).1 b (by simp)

/-- points of the chain lie above every edge line -/
theorem onChain_above {pts vs} (L : LowerHull pts vs) {p} (hp : OnChain vs p) {a b} (hab : Adjacent vs a b) :
    AboveLine a b p := by
  obtain ⟨c, d, hcd, h1, h2, h3⟩ := hp
  have hc := L.support a b hab c (L.sub c (adjacent_mem hcd).1)
  have hd := L.support a b hab d (L.sub d (adjacent_mem hcd).2)
  have hlt := adjacent_lt L.strict hcd
  have hw1 : 0 ≤ d.1 - p.1 := by linarith
  have hw2 : 0 ≤ p.1 - c.1 := by linarith
  have m1 := mul_le_mul_of_nonneg_right hc hw1
  have m2 := mul_le_mul_of_nonneg_right hd hw2
  have hpos : 0 < d.1 - c.1 := by linarith
  simp only [AboveLine, OnLine] at *
  have key : (a.2 * (b.1 - p.1) + b.2 * (p.1 - a.1)) * (d.1 - c.1) ≤ p.2 * (b.1 - a.1) * (d.1 - c.1) := by
    have : p.2 * (b.1 - a.1) * (d.1 - c.1) = (c.2 * (d.1 - p.1) + d.2 * (p.1 - c.1)) * (b.1 - a.1) := by
      rw [← h3]; ring
    rw [this]
    nlinarith [m1, m2]
  exact le_of_mul_le_mul_right key hpos

theorem altitude_nonpos {a b l m r : ℚ × ℚ} (hab : a.1 < b.1) (hm : OnLine a b m) (hl : AboveLine a b l)
    (hr : AboveLine a b r) (h1 : l.1 ≤ m.1) (h2 : m.1 ≤ r.1) (h3 : l.1 < r.1) :
    calculateAltitude l m r ≤ 0 := by
  have hpos : 0 < r.1 - l.1 := by linarith
  have hab' : 0 < b.1 - a.1 := by linarith
  have e : calculateAltitude l m r * (r.1 - l.1) = m.2 * (r.1 - l.1) - (l.2 * (r.1 - m.1) + r.2 * (m.1 - l.1)) := by
    simp only [calculateAltitude]; field_simp; ring
  have key : (m.2 * (r.1 - l.1) - (l.2 * (r.1 - m.1) + r.2 * (m.1 - l.1))) * (b.1 - a.1) ≤ 0 := by
    simp only [AboveLine, OnLine] at *
    have m1 := mul_le_mul_of_nonneg_right hl (show 0 ≤ r.1 - m.1 by linarith)
    have m2 := mul_le_mul_of_nonneg_right hr (show 0 ≤ m.1 - l.1 by linarith)
    have : m.2 * (r.1 - l.1) * (b.1 - a.1) = (a.2 * (b.1 - m.1) + b.2 * (m.1 - a.1)) * (r.1 - l.1) := by
      rw [← hm]; ring
    nlinarith [m1, m2]
  have key2 : calculateAltitude l m r * ((r.1 - l.1) * (b.1 - a.1)) ≤ 0 := by
    rw [← mul_assoc, e]; exact key
  by_contra hneg
  push Not at hneg
  have : 0 < calculateAltitude l m r * ((r.1 - l.1) * (b.1 - a.1)) := by positivity
  linarith

theorem list_sum_nonpos (l : List ℚ) (h : ∀ x ∈ l, x ≤ 0) : l.sum ≤ 0 := by
  induction l with
  | nil => simp
  | cons a l ih =>
    have h1 := h a (by simp)
    have h2 := ih (fun x hx => h x (by simp [hx]))
    simp only [List.sum_cons]; linarith

/-- list-level: if all triples have nonpositive altitude the decomposition energy exists and is nonpositive -/
theorem decomp_nonpos (coords : List (ℚ × ℚ))
    (h : ∀ (i j k : ℕ) cl cm cr, i < j → j < k → coords[i]? = some cl → coords[j]? = some cm → coords[k]? = some cr →
      calculateAltitude cl cm cr ≤ 0) :
    ∃ e, decompositionEnergy coords = some e ∧ e ≤ 0 := by
  by_cases hlen : coords.length ≤ 2
  · exact ⟨0, decompositionEnergyWith_short _ _ hlen, le_refl _⟩
  · unfold decompositionEnergy decompositionEnergyWith
    rw [foldlM_sum (f := fun c => match c with
      | [i, j, k] => ((catalan (j - i - 1) * catalan (k - j - 1) * catalan (coords.length + i - 1 - k) : ℕ) : ℚ)
          * calculateAltitude (coords.getD i 0) (coords.getD j 0) (coords.getD k 0)
      | _ => 0)]
    · refine ⟨_, rfl, ?_⟩
      rw [zero_add]
      apply list_sum_nonpos
      intro x hx
      rw [List.mem_map] at hx
      obtain ⟨c, hc, rfl⟩ := hx
      obtain ⟨i, j, k, rfl, hij, hjk, hk⟩ := mem_comb3_range hc
      simp only
      apply mul_nonpos_of_nonneg_of_nonpos (by positivity)
      apply h i j k _ _ _ hij hjk
      · simp [List.getD_eq_getElem?_getD, List.getElem?_eq_getElem (show i < coords.length by omega)]
      · simp [List.getD_eq_getElem?_getD, List.getElem?_eq_getElem (show j < coords.length by omega)]
      · simp [List.getD_eq_getElem?_getD, List.getElem?_eq_getElem hk]
    · intro c hc acc
      obtain ⟨i, j, k, rfl, hij, hjk, hk⟩ := mem_comb3_range hc
      have gi : coords[i]? = some (coords.getD i 0) := by
        simp [List.getD_eq_getElem?_getD, List.getElem?_eq_getElem (show i < coords.length by omega)]
      have gj : coords[j]? = some (coords.getD j 0) := by
        simp [List.getD_eq_getElem?_getD, List.getElem?_eq_getElem (show j < coords.length by omega)]
      have gk : coords[k]? = some (coords.getD k 0) := by
        simp [List.getD_eq_getElem?_getD, List.getElem?_eq_getElem hk]
      simp only [gi, gj, gk, Option.bind_eq_bind, Option.bind_some]
      have e1 : (j : ℤ) - i - 1 = ((j - i - 1 : ℕ) : ℤ) := by omega
      have e2 : (k : ℤ) - j - 1 = ((k - j - 1 : ℕ) : ℤ) := by omega
      have e3 : (coords.length : ℤ) - 2 = ((coords.length - 2 : ℕ) : ℤ) := by omega
      rw [e1, e2, e3, altitudeMultiplicity_eq _ _ _ (by omega), Option.bind_some]
      rw [show coords.length - 2 - (j - i - 1) - (k - j - 1) - 1 = coords.length + i - 1 - k by omega]
      rfl

theorem foldlM_max (l : List (List ℕ)) (coords : List (ℚ × ℚ)) (mx : ℚ) (hmx : mx ≤ 0)
    (hl : ∀ c ∈ l, ∃ i j k, c = [i, j, k] ∧ i < j ∧ j < k ∧ k < coords.length) :
    ∃ e, (l.foldlM (init := mx) fun mx c =>
      match c with
      | [iL, iM, iR] => do
        let cL ← coords[iL]?
        let cM ← coords[iM]?
        let cR ← coords[iR]?
        let e := calculateAltitude cL cM cR
        pure (if e < mx then e else mx)
      | _ => none) = some e ∧ e ≤ mx ∧ (∀ (i j k : ℕ) cl cm cr, [i, j, k] ∈ l → coords[i]? = some cl →
        coords[j]? = some cm → coords[k]? = some cr → e ≤ calculateAltitude cl cm cr) ∧
      (e = mx ∨ ∃ (i j k : ℕ) (cl cm cr : ℚ × ℚ), [i, j, k] ∈ l ∧ coords[i]? = some cl ∧
        coords[j]? = some cm ∧ coords[k]? = some cr ∧ e = calculateAltitude cl cm cr) := by
  induction l generalizing mx with
  | nil => exact ⟨mx, rfl, le_refl _, by simp, Or.inl rfl⟩
  | cons c l ih =>
    obtain ⟨i, j, k, rfl, hij, hjk, hk⟩ := hl c (by simp)
    obtain ⟨cl, hcl⟩ : ∃ cl, coords[i]? = some cl := ⟨_, List.getElem?_eq_getElem (by omega)⟩
    obtain ⟨cm, hcm⟩ : ∃ cm, coords[j]? = some cm := ⟨_, List.getElem?_eq_getElem (by omega)⟩
    obtain ⟨cr, hcr⟩ : ∃ cr, coords[k]? = some cr := ⟨_, List.getElem?_eq_getElem hk⟩
    simp only [List.foldlM_cons, hcl, hcm, hcr, Option.bind_eq_bind, Option.bind_some]
    set m' := (if calculateAltitude cl cm cr < mx then calculateAltitude cl cm cr else mx) with hm'
    have hm'le : m' ≤ mx := by rw [hm']; split_ifs with h; exacts [h.le, le_refl _]
    have hm'alt : m' ≤ calculateAltitude cl cm cr := by
      rw [hm']; split_ifs with h; exacts [le_refl _, not_lt.mp h]
    obtain ⟨e, he, h1, h2, h3⟩ := ih m' (hm'le.trans hmx) (fun c hc => hl c (by simp [hc]))
    refine ⟨e, ?_, h1.trans hm'le, ?_, ?_⟩
    · simpa [Option.bind_eq_bind] using he
    · intro i' j' k' cl' cm' cr' hmem g1 g2 g3
      rcases List.mem_cons.mp hmem with heq | hmem
      · simp only [List.cons.injEq, and_true] at heq
        obtain ⟨rfl, rfl, rfl⟩ := heq
        rw [hcl] at g1; rw [hcm] at g2; rw [hcr] at g3
        cases g1; cases g2; cases g3
        exact h1.trans hm'alt
      · exact h2 _ _ _ _ _ _ hmem g1 g2 g3
    · rcases h3 with h3 | ⟨i', j', k', cl', cm', cr', hmem, g⟩
      · rw [hm'] at h3
        split_ifs at h3 with hh
        · exact Or.inr ⟨i, j, k, cl, cm, cr, by simp, hcl, hcm, hcr, h3⟩
        · exact Or.inl h3
      · exact Or.inr ⟨i', j', k', cl', cm', cr', by simp [hmem], g⟩

end Verif.Lemmas.Hull
