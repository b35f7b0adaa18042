import Verif.Props.HullUnit

/-! Property C144 for the recursive variant of the secondary competition (src/rxn_network/reactions/hull.py:430-495). -/

set_option linter.unusedSectionVars false

namespace Verif.Props.HullUnitRec
open Verif.Py Verif.Model.Hull Verif.Spec.Hull Verif.Lemmas Verif.Lemmas.Hull Verif.Lemmas.HullConvex Verif.Lemmas.HullMirror
open Verif.Props.Hull Verif.Props.HullConvex Verif.Props.HullMirror Verif.Props.HullUnit

/-! ### Helper lemmas -/

/-- The energy in another unit, the number of pathways unchanged. -/
def scR (a : ℚ) (r : ℚ × ℕ) : ℚ × ℕ := (a * r.1, r.2)

/-- The state of the loop in another unit. -/
def scS (a : ℚ) (r : ℚ × ℕ × Bool × Bool) : ℚ × ℕ × Bool × Bool := (a * r.1, r.2)

theorem foldlM_map {σ α β : Type} (f : σ → β → Option σ) (g : σ → α → Option σ) (φ : σ → σ) (ψ : α → β) :
    ∀ (l : List α) (_ : ∀ c ∈ l, ∀ s, f (φ s) (ψ c) = (g s c).map φ) (s : σ), (l.map ψ).foldlM f (φ s) = (l.foldlM g s).map φ
  | [], _, s => rfl
  | c :: l, h, s => by
    rw [List.map_cons, List.foldlM_cons, List.foldlM_cons, h c (List.mem_cons_self ..)]
    cases g s c with
    | none => rfl
    | some v => exact foldlM_map f g φ ψ l (fun c hc => h c (List.mem_cons_of_mem _ hc)) v

/-- What the recursion needs to know of a list of points in a range. -/
structure Fine (vs : List (ℚ × ℚ)) (a : ℚ) (R : List (ℚ × ℚ)) : Prop where
  sorted : R.Pairwise fun p q => p.1 ≤ q.1
  pt : ∀ c ∈ R, 0 ≤ c.1 ∧ c.1 ≤ 1 ∧ Lemmas.Hull.Sep vs c.1 ∧ (c.1 = 0 ∨ c.1 = 1 → isclose (a * c.2) 0 = isclose c.2 0)

theorem Fine.sub {vs : List (ℚ × ℚ)} {a : ℚ} {R S : List (ℚ × ℚ)} (h : Fine vs a R) (hs : S.Sublist R) : Fine vs a S :=
  ⟨h.sorted.sublist hs, fun c hc => h.pt c (hs.subset hc)⟩

theorem fine_range {h h' : IRH} {vs} {a : ℚ} (ha : 0 < a) (G : GoodHull h vs) (G' : GoodHull h' (vs.map (sc a))) (C : ClearEnds h.coords)
    (C' : ClearEnds h'.coords) {x1 x2 : ℚ} (h0 : 0 ≤ x1) (hx : x1 ≤ x2) (h1 : x2 ≤ 1) (s1 : Lemmas.Hull.Sep vs x1) (s2 : Lemmas.Hull.Sep vs x2) :
    ∃ R, getCoordsInRange h x1 x2 = some R ∧ getCoordsInRange h' x1 x2 = some (R.map (sc a)) ∧ Fine vs a R := by
  obtain ⟨R, hR, hR'⟩ := range_sc ha G G' C C' h0 hx h1 s1 s2
  refine ⟨R, hR, hR', ?_⟩
  obtain ⟨y1, y2, c1, c2, -, -, hf⟩ := range_form G h0 hx h1 s1 s2
  have vert : ∀ v ∈ vs, (v.1 = 0 ∨ v.1 = 1) → isclose (a * v.2) 0 = isclose v.2 0 := fun v hv hz =>
    clear_iff ha (C v (G.lower.sub _ hv) hz) (C' (sc a v) (G'.lower.sub _ (List.mem_map_of_mem hv)) hz)
  have chain : ∀ x y, OnChain vs (x, y) → (x = 0 ∨ x = 1) → isclose (a * y) 0 = isclose y 0 := by
    intro x y hc hz
    have : ∃ w, (x, w) ∈ vs := by
      rcases hz with rfl | rfl
      · obtain ⟨w, hw, -⟩ := first_mem G; exact ⟨w, hw⟩
      · obtain ⟨w, hw, -⟩ := last_mem G; exact ⟨w, hw⟩
    obtain ⟨w, hw⟩ := this
    obtain rfl : y = w := onChain_unique G.lower hc (onChain_vertex (two_le_length G) G.lower.strict hw)
    exact vert (x, y) hw hz
  constructor
  · unfold getCoordsInRange at hR
    cases e1 : getHullEnergy h (min x1 x2) with
    | none => simp [e1] at hR
    | some z1 =>
      cases e2 : getHullEnergy h (max x1 x2) with
      | none => simp [e1, e2] at hR
      | some z2 =>
        simp only [e1, e2, Option.bind_eq_bind, Option.bind_some, Option.pure_def, Option.some.injEq] at hR
        rw [← hR]
        exact List.pairwise_insertionSort (fun a b : ℚ × ℚ => a.1 ≤ b.1) _
  · rw [hf] at hR
    cases hR
    intro c hc
    simp only [List.mem_append, List.mem_cons] at hc
    have z0 := sep_zero G
    have z1 := sep_one G
    rcases hc with (hc | rfl | hc | hc) | hc
    · unfold preRef at hc
      split_ifs at hc
      · rw [List.mem_singleton] at hc
        subst hc
        exact ⟨le_refl _, zero_le_one, z0, fun _ => by simp⟩
      · simp at hc
    · exact ⟨h0, hx.trans h1, s1, chain _ _ c1⟩
    · unfold interior at hc
      obtain ⟨hv, hb⟩ := List.mem_filter.mp hc
      have hb := of_decide_eq_true hb
      exact ⟨h0.trans hb.1.le, hb.2.le.trans h1, sep_of_mem G hv, vert c hv⟩
    · unfold endPt at hc
      split_ifs at hc
      · rw [List.mem_singleton] at hc
        subst hc
        exact ⟨h0.trans hx, h1, s2, chain _ _ c2⟩
      · simp at hc
    · unfold postRef at hc
      split_ifs at hc
      · rw [List.mem_singleton] at hc
        subst hc
        exact ⟨zero_le_one, le_refl _, z1, fun _ => by simp⟩
      · simp at hc

/-- The last part of the recursion: what is done with the points left. -/
def core (h : IRH) (fuel : ℕ) (useMin useMax : Bool) (all2 : List (ℚ × ℚ)) : Option (ℚ × ℕ) := do
    let cMin ← all2.head?
    let cMax ← all2.getLast?
    let coords := all2.tail.dropLast
    match coords with
    | [] => pure (0, 1)
    | [c] => pure (calculateAltitude cMin c cMax, 1)
    | _ =>
      let st ← coords.foldlM (init := ((0 : ℚ), (0 : ℕ), useMin, useMax)) fun st c => do
        let (val, total, uMin, uMax) := st
        let cond0 : Bool := decide (c.1 = 0) && !isclose c.2 0
        let cond1 : Bool := decide (c.1 = 1) && !isclose c.2 0
        let uMin' := if cond0 then false else uMin
        let uMax' := if cond0 then uMax else if cond1 then false else uMax
        let height := calculateAltitude cMin c cMax
        let (ld, lt) ← recDecomp h fuel cMin.1 c.1 uMin' uMax'
        let (rd, rt) ← recDecomp h fuel c.1 cMax.1 uMin' uMax'
        pure (val + (height * (lt * rt) + ld * rt + rd * lt), total + lt * rt, uMin', uMax')
      pure (st.1, st.2.1)

/-- The points left after the first reference is dropped. -/
def trimMin (useMin : Bool) (R : List (ℚ × ℚ)) : Option (List (ℚ × ℚ)) :=
  if useMin then some R else R[1]?.map fun r => if r.1 = 0 then R.drop 1 else R

/-- The points left after the last reference is dropped. -/
def trimMax (useMax : Bool) (R : List (ℚ × ℚ)) : Option (List (ℚ × ℚ)) :=
  if useMax then some R else R.getLast?.map fun r => if r.1 = 1 then R.dropLast else R

theorem recDecomp_eq (h : IRH) (fuel : ℕ) (x1 x2 : ℚ) (um uM : Bool) :
    recDecomp h (fuel + 1) x1 x2 um uM =
      (getCoordsInRange h x1 x2).bind fun R => (trimMin um R).bind fun S => (trimMax uM S).bind (core h fuel um uM) := by
  rw [recDecomp]
  cases getCoordsInRange h x1 x2 with
  | none => rfl
  | some R =>
    rw [Option.bind_some]
    cases um
    · cases h1 : R[1]? with
      | none => simp [trimMin, h1]
      | some r =>
        simp only [trimMin, h1, Bool.not_false, if_true, Bool.false_eq_true, if_false, Option.map_some, Option.bind_eq_bind, Option.bind_some,
          Option.pure_def]
        generalize (if r.1 = 0 then List.drop 1 R else R) = T
        cases uM
        · cases h2 : T.getLast? with
          | none => simp [trimMax, h2]
          | some q =>
            simp only [trimMax, h2, Bool.not_false, if_true, Bool.false_eq_true, if_false, Option.map_some, Option.bind_some]
            rfl
        · rfl
    · cases uM
      · cases h2 : R.getLast? with
        | none => simp [trimMin, trimMax, h2]
        | some q =>
          simp only [trimMin, trimMax, h2, Bool.not_false, Bool.not_true, if_true, Bool.false_eq_true, if_false, Option.map_some, Option.bind_eq_bind,
            Option.bind_some, Option.pure_def]
          rfl
      · rfl

theorem trimMin_sc (a : ℚ) (u : Bool) (R : List (ℚ × ℚ)) : trimMin u (R.map (sc a)) = (trimMin u R).map (List.map (sc a)) := by
  unfold trimMin
  cases u
  · rw [List.getElem?_map]
    cases R[1]? with
    | none => rfl
    | some r =>
      show some (if r.1 = 0 then _ else _) = some (List.map _ (if r.1 = 0 then _ else _))
      split_ifs <;> simp
  · rfl

theorem trimMax_sc (a : ℚ) (u : Bool) (R : List (ℚ × ℚ)) : trimMax u (R.map (sc a)) = (trimMax u R).map (List.map (sc a)) := by
  unfold trimMax
  cases u
  · rw [List.getLast?_map]
    cases R.getLast? with
    | none => rfl
    | some r =>
      show some (if r.1 = 1 then _ else _) = some (List.map _ (if r.1 = 1 then _ else _))
      split_ifs <;> simp
  · rfl

theorem trimMin_sub (u : Bool) (R S : List (ℚ × ℚ)) (h : trimMin u R = some S) : S.Sublist R := by
  unfold trimMin at h
  cases u
  · simp only [Bool.false_eq_true, if_false] at h
    obtain ⟨r, -, rfl⟩ := Option.map_eq_some_iff.mp h
    split_ifs
    · exact List.drop_sublist 1 R
    · exact List.Sublist.refl _
  · cases h; exact List.Sublist.refl _

theorem trimMax_sub (u : Bool) (R S : List (ℚ × ℚ)) (h : trimMax u R = some S) : S.Sublist R := by
  unfold trimMax at h
  cases u
  · simp only [Bool.false_eq_true, if_false] at h
    obtain ⟨r, -, rfl⟩ := Option.map_eq_some_iff.mp h
    split_ifs
    · exact List.dropLast_sublist R
    · exact List.Sublist.refl _
  · cases h; exact List.Sublist.refl _

theorem core_sc {h h' : IRH} {vs} {a : ℚ} (fuel : ℕ)
    (ih : ∀ x1 x2 um uM, 0 ≤ x1 → x1 ≤ x2 → x2 ≤ 1 → Lemmas.Hull.Sep vs x1 → Lemmas.Hull.Sep vs x2 →
      recDecomp h' fuel x1 x2 um uM = (recDecomp h fuel x1 x2 um uM).map (scR a))
    (um uM : Bool) (S : List (ℚ × ℚ)) (F : Fine vs a S) : core h' fuel um uM (S.map (sc a)) = (core h fuel um uM S).map (scR a) := by
  unfold core
  rw [List.head?_map, List.getLast?_map, ← List.map_tail, ← List.map_dropLast]
  cases hh : S.head? with
  | none => rfl
  | some p =>
    cases hl : S.getLast? with
    | none => rfl
    | some q =>
      simp only [Option.map_some, Option.bind_eq_bind, Option.bind_some]
      have hmem : ∀ c ∈ S.tail.dropLast, c ∈ S ∧ p.1 ≤ c.1 ∧ c.1 ≤ q.1 := by
        intro c hc
        have hc1 : c ∈ S.tail := List.mem_of_mem_dropLast hc
        have hc2 : c ∈ S := List.mem_of_mem_tail hc1
        refine ⟨hc2, ?_, ?_⟩
        · cases S with
          | nil => simp at hh
          | cons s S =>
            cases hh
            exact (List.pairwise_cons.mp F.sorted).1 c hc1
        · obtain ⟨T, hT⟩ := List.getLast?_eq_some_iff.mp hl
          have hs := F.sorted
          rw [hT, List.pairwise_append] at hs
          rw [hT] at hc2
          rcases List.mem_append.mp hc2 with h | h
          · exact hs.2.2 c h q (by simp)
          · rw [List.mem_singleton] at h; rw [h]
      have hp := F.pt p (List.mem_of_head? hh)
      have hq := F.pt q (List.mem_of_getLast? hl)
      have hfold : ∀ l : List (ℚ × ℚ), (∀ c ∈ l, c ∈ S.tail.dropLast) → ∀ s,
          (l.map (sc a)).foldlM (fun (st : ℚ × ℕ × Bool × Bool) (c : ℚ × ℚ) =>
            (recDecomp h' fuel (sc a p).1 c.1 (if (decide (c.1 = 0) && !isclose c.2 0) = true then false else st.2.2.1)
              (if (decide (c.1 = 0) && !isclose c.2 0) = true then st.2.2.2 else
                if (decide (c.1 = 1) && !isclose c.2 0) = true then false else st.2.2.2)).bind fun l =>
            (recDecomp h' fuel c.1 (sc a q).1 (if (decide (c.1 = 0) && !isclose c.2 0) = true then false else st.2.2.1)
              (if (decide (c.1 = 0) && !isclose c.2 0) = true then st.2.2.2 else
                if (decide (c.1 = 1) && !isclose c.2 0) = true then false else st.2.2.2)).bind fun r =>
            some (st.1 + (calculateAltitude (sc a p) c (sc a q) * (l.2 * r.2) + l.1 * r.2 + r.1 * l.2), st.2.1 + l.2 * r.2,
              (if (decide (c.1 = 0) && !isclose c.2 0) = true then false else st.2.2.1),
              (if (decide (c.1 = 0) && !isclose c.2 0) = true then st.2.2.2 else
                if (decide (c.1 = 1) && !isclose c.2 0) = true then false else st.2.2.2))) (scS a s)
          = (l.foldlM (fun (st : ℚ × ℕ × Bool × Bool) (c : ℚ × ℚ) =>
            (recDecomp h fuel p.1 c.1 (if (decide (c.1 = 0) && !isclose c.2 0) = true then false else st.2.2.1)
              (if (decide (c.1 = 0) && !isclose c.2 0) = true then st.2.2.2 else
                if (decide (c.1 = 1) && !isclose c.2 0) = true then false else st.2.2.2)).bind fun l =>
            (recDecomp h fuel c.1 q.1 (if (decide (c.1 = 0) && !isclose c.2 0) = true then false else st.2.2.1)
              (if (decide (c.1 = 0) && !isclose c.2 0) = true then st.2.2.2 else
                if (decide (c.1 = 1) && !isclose c.2 0) = true then false else st.2.2.2)).bind fun r =>
            some (st.1 + (calculateAltitude p c q * (l.2 * r.2) + l.1 * r.2 + r.1 * l.2), st.2.1 + l.2 * r.2,
              (if (decide (c.1 = 0) && !isclose c.2 0) = true then false else st.2.2.1),
              (if (decide (c.1 = 0) && !isclose c.2 0) = true then st.2.2.2 else
                if (decide (c.1 = 1) && !isclose c.2 0) = true then false else st.2.2.2))) s).map (scS a) := by
        intro l hl s
        refine foldlM_map _ _ (scS a) (sc a) l (fun c hc s => ?_) s
        obtain ⟨hcS, hpc, hcq⟩ := hmem c (hl c hc)
        have hc' := F.pt c hcS
        have i0 : (decide ((sc a c).1 = 0) && !isclose (sc a c).2 0) = (decide (c.1 = 0) && !isclose c.2 0) := by
          show (decide (c.1 = 0) && !isclose (a * c.2) 0) = _
          by_cases hz : c.1 = 0
          · rw [hc'.2.2.2 (Or.inl hz)]
          · simp [hz]
        have i1 : (decide ((sc a c).1 = 1) && !isclose (sc a c).2 0) = (decide (c.1 = 1) && !isclose c.2 0) := by
          show (decide (c.1 = 1) && !isclose (a * c.2) 0) = _
          by_cases hz : c.1 = 1
          · rw [hc'.2.2.2 (Or.inr hz)]
          · simp [hz]
        simp only [i0, i1, altitude_sc]
        simp only [scS]
        generalize (if (decide (c.1 = 0) && !isclose c.2 0) = true then false else s.2.2.1) = u1
        generalize (if (decide (c.1 = 0) && !isclose c.2 0) = true then s.2.2.2 else
                if (decide (c.1 = 1) && !isclose c.2 0) = true then false else s.2.2.2) = u2
        have r1 := ih p.1 c.1 u1 u2 hp.1 hpc hc'.2.1 hp.2.2.1 hc'.2.2.1
        have r2 := ih c.1 q.1 u1 u2 hc'.1 hcq hq.2.1 hc'.2.2.1 hq.2.2.1
        rw [show (sc a p).1 = p.1 from rfl, show (sc a c).1 = c.1 from rfl, show (sc a q).1 = q.1 from rfl, r1, r2]
        cases recDecomp h fuel p.1 c.1 u1 u2 with
        | none => rfl
        | some l =>
          cases recDecomp h fuel c.1 q.1 u1 u2 with
          | none => rfl
          | some r =>
            simp only [Option.map_some, Option.bind_some, scR]
            congr 2
            ring
      have hz : scS a ((0 : ℚ), (0 : ℕ), um, uM) = (0, 0, um, uM) := by simp [scS]
      have main := hfold S.tail.dropLast (fun c hc => hc) (0, 0, um, uM)
      rw [hz] at main
      match hm : S.tail.dropLast with
      | [] => simp [scR]
      | [c] => simp [scR, altitude_sc]
      | c :: d :: l =>
        rw [hm] at main
        simp only [List.map_cons] at main ⊢
        refine (congrArg (fun o : Option (ℚ × ℕ × Bool × Bool) => o.bind fun st => some (st.1, st.2.1)) main).trans ?_
        simp only [Option.bind_map, Option.map_bind, Option.pure_def]
        rfl

/-- The recursive decomposition energy in another unit. -/
theorem rec_sc {h h' : IRH} {vs} {a : ℚ} (ha : 0 < a) (G : GoodHull h vs) (G' : GoodHull h' (vs.map (sc a))) (C : ClearEnds h.coords)
    (C' : ClearEnds h'.coords) : ∀ (fuel : ℕ) (x1 x2 : ℚ) (um uM : Bool), 0 ≤ x1 → x1 ≤ x2 → x2 ≤ 1 → Lemmas.Hull.Sep vs x1 → Lemmas.Hull.Sep vs x2 →
      recDecomp h' fuel x1 x2 um uM = (recDecomp h fuel x1 x2 um uM).map (scR a)
  | 0, _, _, _, _ => fun _ _ _ _ _ => rfl
  | fuel + 1, x1, x2, um, uM => fun h0 hx h1 s1 s2 => by
    rw [recDecomp_eq, recDecomp_eq]
    obtain ⟨R, hR, hR', F⟩ := fine_range ha G G' C C' h0 hx h1 s1 s2
    rw [hR, hR', Option.bind_some, Option.bind_some, trimMin_sc]
    cases ht : trimMin um R with
    | none => rfl
    | some S =>
      rw [Option.map_some, Option.bind_some, Option.bind_some, trimMax_sc]
      cases hs : trimMax uM S with
      | none => rfl
      | some T =>
        exact core_sc fuel (rec_sc ha G G' C C' fuel) um uM T (F.sub ((trimMax_sub uM S T hs).trans (trimMin_sub um R S ht)))

/-- **C144, recursive variant.** The secondary competition computed by the recursive function, with all options, is the same energy in the
new unit, as long as numpy's tolerances confuse no two points in either unit; the recursion ends at the same depth. -/
theorem C144_recursive_partial {P Q : List (ℚ × ℚ)} {h h' : IRH} {a : ℚ} (ha : 0 < a) (H : IsHullOf P h) (H' : IsHullOf Q h')
    (hp : Q.Perm (inUnit a P)) (hr : ∀ p ∈ P, 0 ≤ p.1 ∧ p.1 ≤ 1) (A : Apart' h.coords) (A' : Apart' h'.coords) (C : ClearEnds h.coords)
    (C' : ClearEnds h'.coords) (i j : ℕ) (c : ℚ × ℚ) (hi : h.coords[i]? = some c) (hj : h'.coords[j]? = some (c.1, a * c.2))
    (s : Apart1 h.coords c.1) (fuel : ℕ) (normalize eHull : Bool) :
    getSecondaryCompetitionRec h' fuel j normalize eHull = (getSecondaryCompetitionRec h fuel i normalize eHull).map fun v => a * v := by
  obtain ⟨-, eh, -⟩ := C144_scores_partial ha H H' hp hr A A' C C' i j c hi hj s
  have hm := mem_sc H H' hp
  have hr' : ∀ p ∈ Q, 0 ≤ p.1 ∧ p.1 ≤ 1 := by
    intro p h
    obtain ⟨q, hq, rfl⟩ := List.mem_map.mp (hp.mem_iff.mp h)
    exact hr q hq
  obtain ⟨vs, G, hv⟩ := chain_of H hr A
  obtain ⟨vs', G', hv'⟩ := chain_of H' hr' A'
  have hst : (vs.map (sc a)).Pairwise fun a b => a.1 < b.1 := by
    rw [List.pairwise_map]
    exact G.lower.strict
  obtain rfl : vs' = vs.map (sc a) := eq_of_strict G'.lower.strict hst fun p => by
    rw [hv', List.mem_map]
    constructor
    · intro hl
      obtain ⟨q, -, rfl⟩ := (hm p).mp hl.1
      exact ⟨q, (hv q).mpr ((lowerCorner_sc ha hm q).mp hl), rfl⟩
    · rintro ⟨q, hq, rfl⟩
      exact (lowerCorner_sc ha hm q).mpr ((hv q).mp hq)
  have b := (coords_of H hr).range c (List.mem_of_getElem? hi)
  have t : Lemmas.Hull.Sep vs c.1 := fun v hv1 => s v ((hv v).mp hv1)
  have z0 := sep_zero G
  have z1 := sep_one G
  unfold getSecondaryCompetitionRec
  rw [hi, hj]
  simp only [Option.bind_eq_bind, Option.bind_some]
  rw [rec_sc ha G G' C C' fuel 0 c.1 true true (le_refl 0) b.1 b.2 z0 t, rec_sc ha G G' C C' fuel c.1 1 true true b.1 b.2 (le_refl 1) t z1]
  cases recDecomp h fuel 0 c.1 true true with
  | none => rfl
  | some l =>
    cases recDecomp h fuel c.1 1 true true with
    | none => rfl
    | some r =>
      simp only [Option.map_some, Option.bind_some, scR, eh]
      cases eHull
      · show some (combineSides _ _ _ _ normalize ((none : Option ℚ).map fun v => a * v)) = some _
        rw [combine_sc]
      · cases getEnergyAboveHull h i with
        | none => rfl
        | some v =>
          show some (combineSides _ _ _ _ normalize ((some v).map fun v => a * v)) = some _
          rw [combine_sc]

-- the case of Props/HullUnit, with a reactant that decomposes; the recursion ends
example := C144_recursive_partial (by norm_num : (0 : ℚ) < 96485/1000) exA_hull (exU_hull (by norm_num)) (List.Perm.refl _) (by decide +kernel)
  (apart_of_list (by decide +kernel) (by decide +kernel)) (apart_of_list (by decide +kernel) (by decide +kernel))
  (by unfold ClearEnds; decide +kernel) (by unfold ClearEnds; decide +kernel) 3 3 (1/2, -5/2) (by decide +kernel) (by decide +kernel)
  (fun p hp => (by decide +kernel : ∀ q ∈ exA.coords, isclose (1/2) q.1 = true → 1/2 = q.1) p hp.1) 10 true true
example : (getSecondaryCompetitionRec (exU (96485/1000)) 10 3 true true).isSome = true := by decide +kernel

end Verif.Props.HullUnitRec
