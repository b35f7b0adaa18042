import Verif.Lemmas.HullRec

namespace Verif.Lemmas.Hull
open Verif.Py Verif.Model.Hull Verif.Spec.Hull Verif.Lemmas

/-- Shape of a successful lookup. -/
def LookupShape (coords : List (ℚ × ℚ)) (x : ℚ) (is : List ℕ) (res : List (ℕ × ℚ)) : Prop :=
  (∃ i v, i ∈ is ∧ coords[i]? = some v ∧ isclose x v.1 = true ∧ res = [(i, 1)]) ∨
  (∃ i j a b, i ∈ is ∧ j ∈ is ∧ coords[i]? = some a ∧ coords[j]? = some b ∧ isclose x a.1 = false ∧
    isclose x b.1 = false ∧ a.1 < x ∧ x < b.1 ∧
    res = [(i, (b.1 - x) / (b.1 - a.1)), (j, (x - a.1) / (b.1 - a.1))])

theorem lookupShape_cons {coords x is i res} (h : LookupShape coords x is res) : LookupShape coords x (i :: is) res := by
  rcases h with ⟨k, v, h1, h2⟩ | ⟨k, l, a, b, h1, h2, h3⟩
  · exact Or.inl ⟨k, v, List.mem_cons_of_mem _ h1, h2⟩
  · exact Or.inr ⟨k, l, a, b, List.mem_cons_of_mem _ h1, List.mem_cons_of_mem _ h2, h3⟩

theorem lookup_shape (coords : List (ℚ × ℚ)) (x : ℚ) (is : List ℕ) (vs : List (ℚ × ℚ))
    (hv : is.map (fun i => coords[i]?) = vs.map some) (hlen : 2 ≤ vs.length)
    (hlo : ∀ v ∈ vs.head?, v.1 ≤ x) (hhi : ∀ v ∈ vs.getLast?, x ≤ v.1) :
    ∃ res, lookup coords x is = some res ∧ LookupShape coords x is res := by
  induction is generalizing vs with
  | nil =>
    have : vs = [] := by simpa using hv.symm
    simp [this] at hlen
  | cons i is ih =>
    obtain _ | ⟨a, vs⟩ := vs
    · simp at hlen
    obtain _ | ⟨b, rest⟩ := vs
    · simp at hlen
    obtain _ | ⟨j, is⟩ := is
    · simp at hv
    simp only [List.map_cons, List.cons.injEq] at hv
    obtain ⟨ha, hb, hrest⟩ := hv
    simp only [lookup, ha, hb]
    have hax : a.1 ≤ x := hlo a (by simp)
    by_cases h1 : isclose x a.1 = true
    · exact ⟨[(i, 1)], by simp [h1], Or.inl ⟨i, a, by simp, ha, h1, rfl⟩⟩
    by_cases h2 : isclose x b.1 = true
    · exact ⟨[(j, 1)], by simp [h1, h2], Or.inl ⟨j, b, by simp, hb, h2, rfl⟩⟩
    by_cases h3 : a.1 < x ∧ x < b.1
    · exact ⟨[(i, (b.1 - x) / (b.1 - a.1)), (j, (x - a.1) / (b.1 - a.1))], by simp [h1, h2, h3],
        Or.inr ⟨i, j, a, b, by simp, by simp, ha, hb, by simpa using h1, by simpa using h2, h3.1, h3.2, rfl⟩⟩
    · have hxa : x ≠ a.1 := by rintro rfl; exact h1 (isclose_self _)
      have hxb : x ≠ b.1 := by rintro rfl; exact h2 (isclose_self _)
      have hax' : a.1 < x := lt_of_le_of_ne hax (Ne.symm hxa)
      have hbx : b.1 < x := by
        have : ¬ x < b.1 := fun h => h3 ⟨hax', h⟩
        exact lt_of_le_of_ne (not_lt.mp this) (Ne.symm hxb)
      have hrestne : rest ≠ [] := by
        rintro rfl
        have := hhi b (by simp)
        linarith
      simp only [h1, h2, h3, if_false, Bool.false_eq_true]
      obtain ⟨res, e1, e2⟩ := ih (b :: rest) (by simp [hb, hrest])
        (by
          have := List.length_pos_iff.mpr hrestne
          simp only [List.length_cons]; omega)
        (by intro v hv; simp at hv; subst hv; exact hbx.le)
        (by intro v hv; exact hhi v (by simpa [List.getLast?_cons_cons] using hv))
      exact ⟨res, e1, lookupShape_cons e2⟩

/-- A list sorted by first component splits into the parts before, at and after `x`. -/
theorem sorted_split (cs : List (ℚ × ℚ)) (hs : cs.Pairwise fun a b => a.1 ≤ b.1) (x : ℚ) :
    cs = cs.filter (fun c => decide (c.1 < x)) ++ (cs.filter (fun c => decide (c.1 = x)) ++ cs.filter (fun c => decide (x < c.1))) := by
  induction cs with
  | nil => rfl
  | cons c cs ih =>
    rw [List.pairwise_cons] at hs
    rcases lt_trichotomy c.1 x with h | h | h
    · rw [List.filter_cons_of_pos (by simpa using h), List.filter_cons_of_neg (by simpa using ne_of_lt h),
        List.filter_cons_of_neg (by simpa using h.le), List.cons_append, ← ih hs.2]
    · have hE : cs.filter (fun c => decide (c.1 < x)) = [] := by
        rw [List.filter_eq_nil_iff]; intro a ha; have := hs.1 a ha; simp; linarith
      rw [List.filter_cons_of_neg (by simp [h]), List.filter_cons_of_pos (by simpa using h),
        List.filter_cons_of_neg (by simp [h]), hE, List.nil_append, List.cons_append]
      congr 1
      have := ih hs.2
      rw [hE, List.nil_append] at this
      exact this
    · have hE : cs.filter (fun c => decide (c.1 < x)) = [] := by
        rw [List.filter_eq_nil_iff]; intro a ha; have := hs.1 a ha; simp; linarith
      have hM : cs.filter (fun c => decide (c.1 = x)) = [] := by
        rw [List.filter_eq_nil_iff]; intro a ha; have := hs.1 a ha; simp; intro hh; linarith
      have hR : cs.filter (fun c => decide (x < c.1)) = cs := by
        rw [List.filter_eq_self]; intro a ha; have := hs.1 a ha; simp; linarith
      rw [List.filter_cons_of_neg (by simpa using h.le), List.filter_cons_of_neg (by simpa using ne_of_gt h),
        List.filter_cons_of_pos (by simpa using h), hE, hM, hR]; rfl

theorem mkCoords_sorted (rs : List (ℚ × ℚ)) : (mkCoords rs).Pairwise fun a b => a.1 ≤ b.1 := by
  have : Std.Total (fun a b : ℚ × ℚ => a.1 ≤ b.1) := ⟨fun a b => le_total _ _⟩
  have : IsTrans (ℚ × ℚ) (fun a b => a.1 ≤ b.1) := ⟨fun _ _ _ => le_trans⟩
  exact List.pairwise_insertionSort (fun a b : ℚ × ℚ => a.1 ≤ b.1) _

theorem mem_mkCoords {rs : List (ℚ × ℚ)} {c} : c ∈ mkCoords rs ↔ c ∈ rs ∨ c = (0, 0) ∨ c = (1, 0) := by
  unfold mkCoords
  rw [(List.perm_insertionSort _ _).mem_iff]; simp

theorem primary_eq (h : IRH) (hs : h.coords.Pairwise fun a b => a.1 ≤ b.1) (x e : ℚ) (hx : ∃ c ∈ h.coords, c.1 = x) :
    getPrimaryCompetition h e x
      = (((h.coords.filter fun c => decide (c.1 ≠ x)).map Prod.snd).min?).map fun m => e - m := by
  have hsplit := sorted_split h.coords hs x
  set L := h.coords.filter (fun c => decide (c.1 < x)) with hL
  set M := h.coords.filter (fun c => decide (c.1 = x)) with hM
  set R := h.coords.filter (fun c => decide (x < c.1)) with hR
  have hMne : M ≠ [] := by
    obtain ⟨c, hc, hcx⟩ := hx
    exact List.ne_nil_of_mem (show c ∈ M by rw [hM, List.mem_filter]; exact ⟨hc, by simpa using hcx⟩)
  have hMlen := List.length_pos_iff.mpr hMne
  have hmatch : ∀ i, i ∈ (matchingIdx h x) ↔ L.length ≤ i ∧ i < L.length + M.length := by
    intro i
    rw [matchingIdx, List.mem_filter, List.mem_range]
    have hlen : h.coords.length = L.length + (M.length + R.length) := by
      conv_lhs => rw [hsplit]
      simp
    constructor
    · rintro ⟨hi, hc⟩
      obtain ⟨c, hget⟩ : ∃ c, h.coords[i]? = some c := ⟨_, List.getElem?_eq_getElem hi⟩
      rw [hget] at hc
      simp only [decide_eq_true_eq] at hc
      by_contra hcon
      rw [hsplit] at hget
      by_cases h1 : i < L.length
      · rw [List.getElem?_append_left h1] at hget
        have := List.mem_of_getElem? hget
        rw [hL, List.mem_filter] at this
        have := of_decide_eq_true this.2
        linarith
      · rw [List.getElem?_append_right (by omega), List.getElem?_append_right (by omega)] at hget
        have := List.mem_of_getElem? hget
        rw [hR, List.mem_filter] at this
        have := of_decide_eq_true this.2
        linarith
    · rintro ⟨h1, h2⟩
      have hi : i < h.coords.length := by omega
      refine ⟨hi, ?_⟩
      obtain ⟨c, hget⟩ : ∃ c, h.coords[i]? = some c := ⟨_, List.getElem?_eq_getElem hi⟩
      rw [hget]
      rw [hsplit, List.getElem?_append_right h1, List.getElem?_append_left (by omega)] at hget
      have := List.mem_of_getElem? hget
      rw [hM, List.mem_filter] at this
      exact this.2
  have hmin : (matchingIdx h x).min? = some L.length := by
    rw [List.min?_eq_some_iff]
    exact ⟨(hmatch _).mpr ⟨le_refl _, by omega⟩, fun b hb => ((hmatch b).mp hb).1⟩
  have hmax : (matchingIdx h x).max? = some (L.length + M.length - 1) := by
    rw [List.max?_eq_some_iff]
    exact ⟨(hmatch _).mpr ⟨by omega, by omega⟩, fun b hb => by have := ((hmatch b).mp hb).2; omega⟩
  have hcomp : h.coords.take L.length ++ h.coords.drop (L.length + M.length - 1 + 1)
      = h.coords.filter fun c => decide (c.1 ≠ x) := by
    have e1 : h.coords.take L.length = L := by
      conv_lhs => rw [hsplit]
      simp
    have e2 : h.coords.drop (L.length + M.length - 1 + 1) = R := by
      conv_lhs => rw [hsplit]
      rw [show L.length + M.length - 1 + 1 = (L ++ M).length by simp; omega, ← List.append_assoc]
      simp
    rw [e1, e2]
    conv_rhs => rw [hsplit]
    rw [List.filter_append, List.filter_append]
    have f1 : L.filter (fun c => decide (c.1 ≠ x)) = L := by
      rw [List.filter_eq_self]; intro a ha; rw [hL, List.mem_filter] at ha
      have := of_decide_eq_true ha.2; simpa using ne_of_lt this
    have f2 : M.filter (fun c => decide (c.1 ≠ x)) = [] := by
      rw [List.filter_eq_nil_iff]; intro a ha; rw [hM, List.mem_filter] at ha
      have := of_decide_eq_true ha.2; simpa using this
    have f3 : R.filter (fun c => decide (c.1 ≠ x)) = R := by
      rw [List.filter_eq_self]; intro a ha; rw [hR, List.mem_filter] at ha
      have := of_decide_eq_true ha.2; simpa using ne_of_gt this
    rw [f1, f2, f3]; rfl
  unfold getPrimaryCompetition
  simp only [hmin, hmax, Option.bind_eq_bind, Option.bind_some, hcomp, Option.pure_def]
  cases (List.map Prod.snd (List.filter (fun c => decide (c.1 ≠ x)) h.coords)).min? <;> rfl

end Verif.Lemmas.Hull
