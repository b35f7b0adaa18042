import Verif.Props.HullMirror

/-!
C142: how the scores of a reaction respond to its competition: to further reactions on the interface and to lower energies of the present ones
(src/rxn_network/reactions/hull.py).
-/

set_option linter.unusedSectionVars false

namespace Verif.Props.HullGrow
open Verif.Py Verif.Model.Hull Verif.Spec.Hull Verif.Lemmas.Hull Verif.Lemmas.HullConvex Verif.Props.Hull Verif.Props.HullConvex
  Verif.Props.HullMirror

/-! ### Specification -/

/-- `Q` is a tougher competition than `P`: every reaction of `P` is still there, possibly with a lower energy, and there may be more. -/
def Tougher (P Q : List (ℚ × ℚ)) : Prop := ∀ p ∈ P, ∃ q ∈ Q, q.1 = p.1 ∧ q.2 ≤ p.2

/-- Adding reactions is one way to make the competition tougher, lowering energies another. -/
theorem tougher_subset {P Q : List (ℚ × ℚ)} (h : P ⊆ Q) : Tougher P Q := fun p hp => ⟨p, h hp, rfl, le_refl _⟩

theorem tougher_lower (P : List (ℚ × ℚ)) (f : ℚ × ℚ → ℚ) (hf : ∀ p, 0 ≤ f p) : Tougher P (P.map fun p => (p.1, p.2 - f p)) :=
  fun p hp => ⟨_, List.mem_map_of_mem hp, rfl, sub_le_self _ (hf p)⟩

/-! ### Helper lemmas -/

theorem tougher_coords {P Q : List (ℚ × ℚ)} {h h' : IRH} (H : IsHullOf P h) (H' : IsHullOf Q h') (T : Tougher P Q) :
    Tougher h.coords h'.coords := by
  intro p hp
  rcases List.mem_append.mp (H.perm.mem_iff.mp hp) with hp | hp
  · obtain ⟨q, hq, h1, h2⟩ := T p hp
    exact ⟨q, H'.perm.mem_iff.mpr (List.mem_append_left _ hq), h1, h2⟩
  · exact ⟨p, H'.perm.mem_iff.mpr (List.mem_append_right _ hp), rfl, le_refl _⟩

theorem lowerCorner_tougher {P Q : List (ℚ × ℚ)} (T : Tougher P Q) {c : ℚ × ℚ} (hc : c ∈ P) (hl : LowerCorner Q c) : LowerCorner P c := by
  obtain ⟨-, s, hs⟩ := hl
  refine ⟨hc, s, fun q hq hne => ?_⟩
  obtain ⟨q', hq', h1, h2⟩ := T q hq
  by_cases he : q' = c
  · subst he
    have : q'.2 ≠ q.2 := fun h => hne (Prod.ext h1.symm h.symm)
    rw [← h1, sub_self, mul_zero, add_zero]
    exact lt_of_le_of_ne h2 this
  · have := hs q' hq' he
    rw [h1] at this
    exact lt_of_lt_of_le this h2

/-- Energy above the hull, measured from the lower envelope. -/
theorem above_eq {P : List (ℚ × ℚ)} {h : IRH} (H : IsHullOf P h) (hr : ∀ p ∈ P, 0 ≤ p.1 ∧ p.1 ≤ 1) (A : Apart' h.coords) (i : ℕ) (c : ℚ × ℚ)
    (hi : h.coords[i]? = some c) (s : Apart1 h.coords c.1) :
    ∃ y a b, getEnergyAboveHull h i = some (c.2 - y) ∧ a ∈ h.coords ∧ b ∈ h.coords ∧ a.1 ≤ c.1 ∧ c.1 ≤ b.1 ∧ a.1 < b.1 ∧ OnLine a b (c.1, y) ∧
      ∀ p ∈ h.coords, AboveLine a b p := by
  obtain ⟨vs, G, hvs⟩ := chain_of H hr A
  have hc := (coords_of H hr).range c (List.mem_of_getElem? hi)
  obtain ⟨y, hy, a, b, hab, h1, h2, h3⟩ := hullEnergy_spec G hc.1 hc.2 (fun v hv => s v ((hvs v).mp hv))
  exact ⟨y, a, b, by simp [getEnergyAboveHull, hi, hy], G.lower.sub a (adjacent_mem hab).1, G.lower.sub b (adjacent_mem hab).2, h1, h2,
    adjacent_lt G.lower.strict hab, h3, G.lower.support a b hab⟩

/-- Depth below the straight line from `l` to `r`, as a linear function of the point. -/
theorem altitude_linear (l m r : ℚ × ℚ) : calculateAltitude l m r = m.2 - l.2 - (r.2 - l.2) / (r.1 - l.1) * (m.1 - l.1) := by
  unfold calculateAltitude
  ring

/-- `get_max_decomposition_energy` between two corners of a hull with idle ends is the largest depth of a corner below the straight line between
them. -/
theorem side_spec {h : IRH} {vs : List (ℚ × ℚ)} (G : GoodHull h vs) (F : FlatEnds vs) {p1 p2 : ℚ × ℚ} (m1 : p1 ∈ vs) (m2 : p2 ∈ vs) (h0 : 0 ≤ p1.1)
    (hx : p1.1 < p2.1) (h1 : p2.1 ≤ 1) :
    ∃ e, getMaxDecompositionEnergy h p1.1 p2.1 = some e ∧ e ≤ 0 ∧ (∀ v ∈ vs, p1.1 < v.1 → v.1 < p2.1 → e ≤ calculateAltitude p1 v p2) ∧
      (e = 0 ∨ ∃ v ∈ vs, p1.1 < v.1 ∧ v.1 < p2.1 ∧ calculateAltitude p1 v p2 ≤ e) := by
  have s1 := sep_of_mem G m1
  have s2 := sep_of_mem G m2
  obtain ⟨y1, y2, c1, c2, hR⟩ := range_flat G F h0 hx.le h1 s1 s2
  have e1 : (p1.1, y1) = p1 := Prod.ext rfl (onChain_unique G.lower c1 (onChain_vertex (two_le_length G) G.lower.strict m1))
  have e2 : (p2.1, y2) = p2 := Prod.ext rfl (onChain_unique G.lower c2 (onChain_vertex (two_le_length G) G.lower.strict m2))
  rw [e1] at hR
  have hend : endPt p1.1 p2.1 y2 = [p2] := by
    unfold endPt
    rw [if_pos hx.ne', e2]
  rw [hend] at hR
  obtain ⟨R, hR', -, halt⟩ := range_altitudes G h0 hx.le h1 s1 s2
  rw [hR] at hR'
  cases hR'
  set I := interior vs p1.1 p2.1 with hI
  have hmI : ∀ v, v ∈ I ↔ v ∈ vs ∧ p1.1 < v.1 ∧ v.1 < p2.1 := by
    intro v
    rw [hI]
    unfold interior
    rw [List.mem_filter]
    simp
  -- the coordinates increase strictly
  have hpw : (p1 :: (I ++ [p2])).Pairwise fun a b => a.1 < b.1 := by
    rw [List.pairwise_cons, List.pairwise_append]
    refine ⟨fun v hv => ?_, ?_, List.pairwise_singleton _ _, fun a ha b hb => ?_⟩
    · rcases List.mem_append.mp hv with hv | hv
      · exact ((hmI v).mp hv).2.1
      · rw [List.mem_singleton.mp hv]; exact hx
    · rw [hI]; exact G.lower.strict.filter _
    · rw [List.mem_singleton.mp hb]; exact ((hmI a).mp ha).2.2
  have hlast : (p1 :: (I ++ [p2]))[I.length + 1]? = some p2 := by simp
  have hD : 0 < p2.1 - p1.1 := by linarith
  -- every point is on or below the straight line
  have hbelow : ∀ v ∈ p1 :: (I ++ [p2]), calculateAltitude p1 v p2 ≤ 0 := by
    intro v hv
    rcases List.mem_cons.mp hv with rfl | hv
    · rw [altitude_linear]; simp
    · rcases List.mem_append.mp hv with hv | hv
      · obtain ⟨j, hj, rfl⟩ := List.getElem_of_mem hv
        refine halt 0 (j + 1) (I.length + 1) _ _ _ (by omega) (by omega) rfl ?_ hlast
        rw [List.getElem?_cons_succ, List.getElem?_append_left hj, List.getElem?_eq_getElem hj]
      · rw [List.mem_singleton.mp hv, altitude_linear, div_mul_cancel₀ _ hD.ne']; simp
  obtain ⟨e, he, hall, hatt⟩ := C03_max_is_extremal (p1 :: (I ++ [p2]))
  obtain ⟨e', he', hle, -⟩ := foldlM_max (combinations (List.range (p1 :: (I ++ [p2])).length) 3) (p1 :: (I ++ [p2])) 0 (le_refl _)
    (fun c hc => Verif.Lemmas.mem_comb3_range hc)
  have hee : maxDecompositionEnergy (p1 :: (I ++ [p2])) = some e' := he'
  rw [he] at hee
  cases hee
  have hget : getMaxDecompositionEnergy h p1.1 p2.1 = some e := by
    unfold getMaxDecompositionEnergy
    rw [hR]
    exact he
  refine ⟨e, hget, hle, fun v hv a1 a2 => ?_, ?_⟩
  · obtain ⟨j, hj, hjv⟩ := List.getElem_of_mem ((hmI v).mpr ⟨hv, a1, a2⟩)
    refine hall 0 (j + 1) (I.length + 1) _ _ _ (by omega) (by omega) rfl ?_ hlast
    rw [List.getElem?_cons_succ, List.getElem?_append_left hj, List.getElem?_eq_getElem hj, hjv]
  · rcases hatt with h' | ⟨i, j, k, l, m, r, hij, hjk, gi, gj, gk, hem⟩
    · exact Or.inl h'
    · right
      have hl := List.mem_of_getElem? gi
      have hr := List.mem_of_getElem? gk
      have hord : ∀ (a b : ℕ) (u w : ℚ × ℚ), a < b → (p1 :: (I ++ [p2]))[a]? = some u → (p1 :: (I ++ [p2]))[b]? = some w → u.1 < w.1 := by
        intro a b u w hab ga gb
        obtain ⟨ha, rfl⟩ := List.getElem?_eq_some_iff.mp ga
        obtain ⟨hb, rfl⟩ := List.getElem?_eq_some_iff.mp gb
        exact List.pairwise_iff_getElem.mp hpw a b ha hb hab
      have hlm := hord i j l m hij gi gj
      have hmr := hord j k m r hjk gj gk
      have hmem : m ∈ I := by
        rcases List.mem_cons.mp (List.mem_of_getElem? gj) with rfl | hm
        · rcases List.mem_cons.mp hl with rfl | hl
          · exact absurd hlm (lt_irrefl _)
          · exact absurd ((List.pairwise_cons.mp hpw).1 l hl) (not_lt.mpr hlm.le)
        · rcases List.mem_append.mp hm with hm | hm
          · exact hm
          · have hm := List.mem_singleton.mp hm
            subst hm
            exfalso
            rcases List.mem_cons.mp hr with rfl | hr
            · exact absurd (hmr.trans hx) (lt_irrefl _)
            · rcases List.mem_append.mp hr with hr | hr
              · exact absurd ((hmI r).mp hr).2.2 (not_lt.mpr hmr.le)
              · rw [List.mem_singleton.mp hr] at hmr; exact lt_irrefl _ hmr
      refine ⟨m, ((hmI m).mp hmem).1, ((hmI m).mp hmem).2.1, ((hmI m).mp hmem).2.2, ?_⟩
      have bl := hbelow l hl
      have br := hbelow r hr
      rw [hem]
      rw [altitude_linear] at bl br ⊢
      rw [altitude_linear]
      set k0 := (p2.2 - p1.2) / (p2.1 - p1.1)
      have hd : 0 < r.1 - l.1 := by linarith
      have t0 : 0 ≤ (m.1 - l.1) / (r.1 - l.1) := div_nonneg (by linarith) hd.le
      have t1 : (m.1 - l.1) / (r.1 - l.1) ≤ 1 := by rw [div_le_one hd]; linarith
      have tq : (r.2 - l.2) / (r.1 - l.1) * (m.1 - l.1) = (r.2 - l.2) * ((m.1 - l.1) / (r.1 - l.1)) := by ring
      have tx : (r.1 - l.1) * ((m.1 - l.1) / (r.1 - l.1)) = m.1 - l.1 := by field_simp
      rw [tq]
      set t := (m.1 - l.1) / (r.1 - l.1)
      have q1 := mul_le_mul_of_nonneg_right bl (sub_nonneg.mpr t1)
      have q2 := mul_le_mul_of_nonneg_right br t0
      have tk : k0 * (m.1 - l.1) = k0 * (r.1 * t) - k0 * (l.1 * t) := by rw [← tx]; ring
      nlinarith

/-- The largest depth below the straight line between two points that are corners of both hulls does not become smaller. -/
theorem side_grows {h h' : IRH} {vs vs' : List (ℚ × ℚ)} (G : GoodHull h vs) (G' : GoodHull h' vs') (F : FlatEnds vs) (F' : FlatEnds vs')
    (T : Tougher h.coords h'.coords) {p1 p2 : ℚ × ℚ} (m1 : p1 ∈ vs) (m2 : p2 ∈ vs) (n1 : p1 ∈ vs') (n2 : p2 ∈ vs') (h0 : 0 ≤ p1.1)
    (hx : p1.1 < p2.1) (h1 : p2.1 ≤ 1) :
    ∃ e e', getMaxDecompositionEnergy h p1.1 p2.1 = some e ∧ getMaxDecompositionEnergy h' p1.1 p2.1 = some e' ∧ e' ≤ e := by
  obtain ⟨e, he, -, -, hatt⟩ := side_spec G F m1 m2 h0 hx h1
  obtain ⟨e', he', hle', hall', -⟩ := side_spec G' F' n1 n2 h0 hx h1
  refine ⟨e, e', he, he', ?_⟩
  rcases hatt with rfl | ⟨v, hv, v1, v2, hva⟩
  · exact hle'
  refine le_trans ?_ hva
  obtain ⟨q, hq, hqx, hqy⟩ := T v (G.lower.sub v hv)
  -- the edge of the new hull under `v`
  have hchain : ∃ a b, Adjacent vs' a b ∧ a.1 ≤ v.1 ∧ v.1 ≤ b.1 := by
    have hf : ∃ y, vs'.head? = some (0, y) := (first_mem G').imp fun _ hh => hh.2
    have hl : ∃ y, vs'.getLast? = some (1, y) := (last_mem G').imp fun _ hh => hh.2
    obtain ⟨y0, hf⟩ := hf
    obtain ⟨y1, hl⟩ := hl
    have key : ∀ (l : List (ℚ × ℚ)) (a : ℚ × ℚ), a.1 ≤ v.1 → (∀ b ∈ (a :: l).getLast?, v.1 < b.1) → ∃ u w, Adjacent (a :: l) u w ∧ u.1 ≤ v.1 ∧ v.1 ≤ w.1 := by
      intro l
      induction l with
      | nil =>
        intro a ha hb
        exact absurd (hb a (by simp)) (not_lt.mpr ha)
      | cons b l ih =>
        intro a ha hb
        by_cases hbv : b.1 ≤ v.1
        · obtain ⟨u, w, hadj, r1, r2⟩ := ih b hbv (by simpa using hb)
          exact ⟨u, w, adjacent_tail hadj, r1, r2⟩
        · exact ⟨a, b, ⟨[], l, rfl⟩, ha, (not_le.mp hbv).le⟩
    cases hvs : vs' with
    | nil => rw [hvs] at hf; simp at hf
    | cons a l =>
      rw [hvs] at hf hl
      refine key l a ?_ ?_
      · simp only [List.head?_cons, Option.some.injEq] at hf
        rw [hf]
        exact (h0.trans v1.le)
      · intro b hb
        rw [hl] at hb
        cases hb
        exact lt_of_lt_of_le v2 h1
  obtain ⟨a, b, hab, a1, b1⟩ := hchain
  have ⟨ma, mb⟩ := adjacent_mem hab
  have hlt := adjacent_lt G'.lower.strict hab
  have inj : ∀ u ∈ vs', ∀ w ∈ vs', u.1 = w.1 → u = w := by
    intro u hu w hw he
    exact Prod.ext he (onChain_unique G'.lower (x := u.1) (onChain_vertex (two_le_length G') G'.lower.strict hu)
      (he ▸ onChain_vertex (two_le_length G') G'.lower.strict hw))
  have hD : 0 < p2.1 - p1.1 := by linarith
  have bound : ∀ u ∈ vs', p1.1 ≤ u.1 → u.1 ≤ p2.1 → e' ≤ calculateAltitude p1 u p2 := by
    intro u hu u1 u2
    rcases u1.lt_or_eq with u1 | u1
    · rcases u2.lt_or_eq with u2 | u2
      · exact hall' u hu u1 u2
      · rw [inj u hu p2 n2 u2, altitude_linear, div_mul_cancel₀ _ hD.ne']
        simpa using hle'
    · rw [inj u hu p1 n1 u1.symm, altitude_linear]
      simpa using hle'
  have pa : p1.1 ≤ a.1 := by
    rcases adjacent_between G'.lower.strict hab n1 with h | h
    · exact h
    · linarith
  have pb : b.1 ≤ p2.1 := by
    rcases adjacent_between G'.lower.strict hab n2 with h | h
    · linarith
    · exact h
  have ba := bound a ma pa (by linarith)
  have bb := bound b mb (by linarith) pb
  have hs := G'.lower.support a b hab q hq
  unfold AboveLine at hs
  rw [hqx] at hs
  have hd : 0 < b.1 - a.1 := by linarith
  have hs' := hs.trans (mul_le_mul_of_nonneg_right hqy hd.le)
  rw [altitude_linear] at ba bb ⊢
  set k0 := (p2.2 - p1.2) / (p2.1 - p1.1)
  have q1 := mul_le_mul_of_nonneg_right ba (sub_nonneg.mpr b1)
  have q2 := mul_le_mul_of_nonneg_right bb (sub_nonneg.mpr a1)
  have : e' * (b.1 - a.1) ≤ (v.2 - p1.2 - k0 * (v.1 - p1.1)) * (b.1 - a.1) := by nlinarith
  exact le_of_mul_le_mul_right this hd

/-! ### Theorems -/

/-- **C142, primary competition** never decreases when the competition becomes tougher. When the energy of the reaction itself is lowered, its
primary competition is lowered by the same amount. -/
theorem C142_primary {P Q : List (ℚ × ℚ)} {h h' : IRH} (H : IsHullOf P h) (H' : IsHullOf Q h') (T : Tougher P Q) (e x : ℚ)
    (hx : ∃ c ∈ h.coords, c.1 = x) :
    (∃ v v', getPrimaryCompetition h e x = some v ∧ getPrimaryCompetition h' e x = some v' ∧ v ≤ v') ∧
    ∀ d, getPrimaryCompetition h (e - d) x = (getPrimaryCompetition h e x).map fun v => v - d := by
  have T' := tougher_coords H H' T
  have hx' : ∃ c ∈ h'.coords, c.1 = x := by
    obtain ⟨c, hc, hcx⟩ := hx
    obtain ⟨q, hq, h1, -⟩ := T' c hc
    exact ⟨q, hq, h1.trans hcx⟩
  rw [primary_eq h H.sorted x e hx, primary_eq h' H'.sorted x e hx']
  -- one of the end members is elsewhere
  have hne : ((h.coords.filter fun c => decide (c.1 ≠ x)).map Prod.snd) ≠ [] := by
    have : ∃ c ∈ h.coords, c.1 ≠ x := by
      by_cases h0 : x = 0
      · exact ⟨(1, 0), H.perm.mem_iff.mpr (by simp), by rw [h0]; norm_num⟩
      · exact ⟨(0, 0), H.perm.mem_iff.mpr (by simp), fun hh => h0 hh.symm⟩
    obtain ⟨c, hc, hcx⟩ := this
    exact List.ne_nil_of_mem (List.mem_map_of_mem (List.mem_filter.mpr ⟨hc, by simpa using hcx⟩))
  cases hm : ((h.coords.filter fun c => decide (c.1 ≠ x)).map Prod.snd).min? with
  | none => exact absurd (List.min?_eq_none_iff.mp hm) hne
  | some m =>
    obtain ⟨hmem, hmin⟩ := List.min?_eq_some_iff.mp hm
    refine ⟨?_, fun d => ?_⟩
    · obtain ⟨c, hc, rfl⟩ := List.mem_map.mp hmem
      obtain ⟨hc, hcx⟩ := List.mem_filter.mp hc
      have hcx : c.1 ≠ x := by simpa using hcx
      obtain ⟨q, hq, h1, h2⟩ := T' c hc
      have hqm : q.2 ∈ (h'.coords.filter fun c => decide (c.1 ≠ x)).map Prod.snd :=
        List.mem_map_of_mem (List.mem_filter.mpr ⟨hq, by simpa [h1] using hcx⟩)
      cases hm' : ((h'.coords.filter fun c => decide (c.1 ≠ x)).map Prod.snd).min? with
      | none => rw [List.min?_eq_none_iff.mp hm'] at hqm; simp at hqm
      | some m' =>
        have := (List.min?_eq_some_iff.mp hm').2 q.2 hqm
        exact ⟨_, _, rfl, rfl, by linarith⟩
    · rw [primary_eq h H.sorted x (e - d) hx, hm]
      show some (e - d - m) = some (e - m - d)
      congr 1
      ring

/-- **C142, energy above the hull** never decreases when the competition becomes tougher, for a reaction that stays as it is. -/
theorem C142_above_hull {P Q : List (ℚ × ℚ)} {h h' : IRH} (H : IsHullOf P h) (H' : IsHullOf Q h') (hr : ∀ p ∈ P, 0 ≤ p.1 ∧ p.1 ≤ 1)
    (hr' : ∀ p ∈ Q, 0 ≤ p.1 ∧ p.1 ≤ 1) (A : Apart' h.coords) (A' : Apart' h'.coords) (T : Tougher P Q) (i j : ℕ) (c : ℚ × ℚ)
    (hi : h.coords[i]? = some c) (hj : h'.coords[j]? = some c) (s : Apart1 h.coords c.1) (s' : Apart1 h'.coords c.1) :
    ∃ v v', getEnergyAboveHull h i = some v ∧ getEnergyAboveHull h' j = some v' ∧ 0 ≤ v ∧ v ≤ v' := by
  have T' := tougher_coords H H' T
  obtain ⟨y, a, b, hy, ha, hb, a1, b1, hab, hline, hall⟩ := above_eq H hr A i c hi s
  obtain ⟨y', a', b', hy', -, -, a1', b1', hab', hline', hall'⟩ := above_eq H' hr' A' j c hj s'
  refine ⟨_, _, hy, hy', ?_, ?_⟩
  · have := hall c (List.mem_of_getElem? hi)
    unfold AboveLine at this
    unfold OnLine at hline
    dsimp only at hline
    have : y * (b.1 - a.1) ≤ c.2 * (b.1 - a.1) := by linarith
    linarith [le_of_mul_le_mul_right this (by linarith)]
  · have key : ∀ p ∈ h.coords, a'.2 * (b'.1 - p.1) + b'.2 * (p.1 - a'.1) ≤ p.2 * (b'.1 - a'.1) := by
      intro p hp
      obtain ⟨q, hq, h1, h2⟩ := T' p hp
      have := hall' q hq
      unfold AboveLine at this
      rw [h1] at this
      exact this.trans (mul_le_mul_of_nonneg_right h2 (by linarith))
    have ka := mul_le_mul_of_nonneg_right (key a ha) (sub_nonneg.mpr b1)
    have kb := mul_le_mul_of_nonneg_right (key b hb) (sub_nonneg.mpr a1)
    unfold OnLine at hline hline'
    dsimp only at hline hline'
    have h1 : y' * (b'.1 - a'.1) * (b.1 - a.1) ≤ y * (b'.1 - a'.1) * (b.1 - a.1) := by
      have e1 : y' * (b'.1 - a'.1) * (b.1 - a.1) = (a'.2 * (b'.1 - a.1) + b'.2 * (a.1 - a'.1)) * (b.1 - c.1)
          + (a'.2 * (b'.1 - b.1) + b'.2 * (b.1 - a'.1)) * (c.1 - a.1) := by rw [hline']; ring
      have e2 : y * (b'.1 - a'.1) * (b.1 - a.1) = a.2 * (b'.1 - a'.1) * (b.1 - c.1) + b.2 * (b'.1 - a'.1) * (c.1 - a.1) := by
        rw [mul_right_comm, hline]; ring
      rw [e1, e2]
      linarith
    have h2 := le_of_mul_le_mul_right h1 (by linarith)
    have h3 := le_of_mul_le_mul_right h2 (by linarith)
    linarith

/-- **C142, stability.** A reaction that is stable in a tougher competition is stable in the original one. -/
theorem C142_stable {P Q : List (ℚ × ℚ)} {h h' : IRH} (H : IsHullOf P h) (H' : IsHullOf Q h') (hr : ∀ p ∈ P, 0 ≤ p.1 ∧ p.1 ≤ 1)
    (hr' : ∀ p ∈ Q, 0 ≤ p.1 ∧ p.1 ≤ 1) (A : Apart' h.coords) (A' : Apart' h'.coords) (T : Tougher P Q) (c : ℚ × ℚ) (hc : c ∈ h.coords)
    (hs : ∃ j ∈ hullVertices h', h'.coords[j]? = some c) : ∃ i ∈ hullVertices h, h.coords[i]? = some c := by
  obtain ⟨j, hj, hjc⟩ := hs
  obtain ⟨-, p, hp, hl⟩ := (mem_hullVertices H'.corners (apart_of A') j).mp hj
  rw [hjc] at hp
  cases hp
  have hl' := lowerCorner_tougher (tougher_coords H H' T) hc ((low_iff (coords_of H' hr') c).mp hl)
  have hlow := (low_iff (coords_of H hr) c).mpr hl'
  obtain ⟨i, hi, hic⟩ := H.corners.complete c hlow.1
  exact ⟨i, (mem_hullVertices H.corners (apart_of A) i).mpr ⟨hi, c, hic, hlow⟩, hic⟩

/-- **C142, maximum-energy variant of the secondary competition** never decreases when the competition becomes tougher, for a reaction of both
reactants that stays stable, if no reactant decomposes. -/
theorem C142_secondary_max_partial {P Q : List (ℚ × ℚ)} {h h' : IRH} (H : IsHullOf P h) (H' : IsHullOf Q h')
    (hr : ∀ p ∈ P, 0 ≤ p.1 ∧ p.1 ≤ 1) (hr' : ∀ p ∈ Q, 0 ≤ p.1 ∧ p.1 ≤ 1) (A : Apart' h.coords) (A' : Apart' h'.coords) (T : Tougher P Q)
    (hends : ∀ p ∈ Q, p.1 = 0 ∨ p.1 = 1 → 0 ≤ p.2) (i j : ℕ) (c : ℚ × ℚ) (hi : h.coords[i]? = some c) (hj : h'.coords[j]? = some c)
    (c0 : 0 < c.1) (c1 : c.1 < 1) (hs : ∃ j ∈ hullVertices h', h'.coords[j]? = some c) :
    ∃ v v', getSecondaryCompetitionMaxEnergy h i = some v ∧ getSecondaryCompetitionMaxEnergy h' j = some v' ∧ v ≤ v' := by
  have T' := tougher_coords H H' T
  have hs0 := C142_stable H H' hr hr' A A' T c (List.mem_of_getElem? hi) hs
  obtain ⟨vs, G, hvs⟩ := chain_of H hr A
  obtain ⟨vs', G', hvs'⟩ := chain_of H' hr' A'
  have stab : ∀ {P : List (ℚ × ℚ)} {h : IRH} (H : IsHullOf P h) (hr : ∀ p ∈ P, 0 ≤ p.1 ∧ p.1 ≤ 1) (A : Apart' h.coords),
      (∃ j ∈ hullVertices h, h.coords[j]? = some c) → LowerCorner h.coords c := by
    rintro P h H hr A ⟨j, hj, hjc⟩
    obtain ⟨-, p, hp, hl⟩ := (mem_hullVertices H.corners (apart_of A) j).mp hj
    rw [hjc] at hp
    cases hp
    exact (low_iff (coords_of H hr) c).mp hl
  have mc : c ∈ vs := (hvs c).mpr (stab H hr A hs0)
  have mc' : c ∈ vs' := (hvs' c).mpr (stab H' hr' A' hs)
  have flat : ∀ {h : IRH} {vs : List (ℚ × ℚ)} (G : GoodHull h vs), (∀ p ∈ h.coords, p.1 = 0 ∨ p.1 = 1 → 0 ≤ p.2) → FlatEnds vs := by
    intro h vs G hz
    -- the first and the last corner are not above the idle end members
    have low : ∀ v ∈ vs, ∀ q ∈ h.coords, q.1 = v.1 → v.2 ≤ q.2 := by
      intro v hv q hq hqv
      obtain ⟨a, b, hab, g1, g2, g3⟩ := onChain_vertex (two_le_length G) G.lower.strict hv
      have := G.lower.support a b hab q hq
      unfold AboveLine at this
      unfold OnLine at g3
      rw [hqv, ← g3] at this
      exact le_of_mul_le_mul_right this (by linarith [adjacent_lt G.lower.strict hab])
    obtain ⟨y0, my0, -⟩ := first_mem G
    obtain ⟨y1, my1, -⟩ := last_mem G
    have a0 : y0 = 0 := le_antisymm (low _ my0 _ G.ends.1 rfl) (hz _ (G.lower.sub _ my0) (Or.inl rfl))
    have a1 : y1 = 0 := le_antisymm (low _ my1 _ G.ends.2 rfl) (hz _ (G.lower.sub _ my1) (Or.inr rfl))
    exact ⟨a0 ▸ my0, a1 ▸ my1⟩
  have hz' : ∀ p ∈ h'.coords, p.1 = 0 ∨ p.1 = 1 → 0 ≤ p.2 := by
    intro p hp he
    rcases List.mem_append.mp (H'.perm.mem_iff.mp hp) with hp | hp
    · exact hends p hp he
    · simp only [List.mem_cons, List.not_mem_nil, or_false] at hp
      rcases hp with rfl | rfl <;> exact le_refl _
  have hz : ∀ p ∈ h.coords, p.1 = 0 ∨ p.1 = 1 → 0 ≤ p.2 := by
    intro p hp he
    obtain ⟨q, hq, h1, h2⟩ := T' p hp
    exact (hz' q hq (h1 ▸ he)).trans h2
  have F := flat G hz
  have F' := flat G' hz'
  obtain ⟨l, l', hl, hl', hll⟩ := side_grows G G' F F' T' F.1 mc F'.1 mc' (le_refl _) c0 c1.le
  obtain ⟨r, r', hr1, hr1', hrr⟩ := side_grows G G' F F' T' mc F.2 mc' F'.2 c0.le c1 (le_refl _)
  refine ⟨-1 * (l + r), -1 * (l' + r'), ?_, ?_, by linarith⟩
  · unfold getSecondaryCompetitionMaxEnergy
    simp only [hi, Option.bind_eq_bind, Option.bind_some]
    rw [show getMaxDecompositionEnergy h 0 c.1 = some l from hl, show getMaxDecompositionEnergy h c.1 1 = some r from hr1]
    rfl
  · unfold getSecondaryCompetitionMaxEnergy
    simp only [hj, Option.bind_eq_bind, Option.bind_some]
    rw [show getMaxDecompositionEnergy h' 0 c.1 = some l' from hl', show getMaxDecompositionEnergy h' c.1 1 = some r' from hr1']
    rfl

/-! ### Cases: what does not hold -/

def exA : IRH := ⟨[(0, 0), (3/20, -11), (7/20, -10), (9/10, -7), (1, 0)], [0, 1, 2, 3, 4]⟩

theorem exA_corners : HullIndices exA.coords exA.rawVertices := by
  refine ⟨by decide, ?_, ?_, by decide +kernel⟩
  · intro i hi
    have hi : i ∈ [0, 1, 2, 3, 4] := hi
    simp only [List.mem_cons, List.not_mem_nil, or_false] at hi
    rcases hi with rfl | rfl | rfl | rfl | rfl
    · exact ⟨(0, 0), rfl, by decide +kernel, -1, 0, by decide +kernel⟩
    · exact ⟨(3/20, -11), rfl, by decide +kernel, 0, -1, by decide +kernel⟩
    · exact ⟨(7/20, -10), rfl, by decide +kernel, 26/5, -1, by decide +kernel⟩
    · exact ⟨(9/10, -7), rfl, by decide +kernel, 10, -1, by decide +kernel⟩
    · exact ⟨(1, 0), rfl, by decide +kernel, 1, 0, by decide +kernel⟩
  · rintro p ⟨hp, u, w, h⟩
    have hp : p ∈ [((0 : ℚ), (0 : ℚ)), (3/20, -11), (7/20, -10), (9/10, -7), (1, 0)] := hp
    simp only [List.mem_cons, List.not_mem_nil, or_false] at hp
    rcases hp with rfl | rfl | rfl | rfl | rfl
    · exact ⟨0, by decide, rfl⟩
    · exact ⟨1, by decide, rfl⟩
    · exact ⟨2, by decide, rfl⟩
    · exact ⟨3, by decide, rfl⟩
    · exact ⟨4, by decide, rfl⟩

def exA' : IRH := ⟨[(0, 0), (1/10, -12), (3/20, -11), (7/20, -10), (9/10, -7), (1, 0)], [0, 1, 4, 5]⟩

theorem exA'_corners : HullIndices exA'.coords exA'.rawVertices := by
  refine ⟨by decide, ?_, ?_, by decide +kernel⟩
  · intro i hi
    have hi : i ∈ [0, 1, 4, 5] := hi
    simp only [List.mem_cons, List.not_mem_nil, or_false] at hi
    rcases hi with rfl | rfl | rfl | rfl
    · exact ⟨(0, 0), rfl, by decide +kernel, -1, 0, by decide +kernel⟩
    · exact ⟨(1/10, -12), rfl, by decide +kernel, 0, -1, by decide +kernel⟩
    · exact ⟨(9/10, -7), rfl, by decide +kernel, 10, -1, by decide +kernel⟩
    · exact ⟨(1, 0), rfl, by decide +kernel, 1, 0, by decide +kernel⟩
  · rintro p ⟨hp, u, w, h⟩
    have hp : p ∈ [((0 : ℚ), (0 : ℚ)), (1/10, -12), (3/20, -11), (7/20, -10), (9/10, -7), (1, 0)] := hp
    simp only [List.mem_cons, List.not_mem_nil, or_false] at hp
    rcases hp with rfl | rfl | rfl | rfl | rfl | rfl
    · exact ⟨0, by decide, rfl⟩
    · exact ⟨1, by decide, rfl⟩
    · exfalso
      have h0 := h (1/10, -12) (by decide +kernel) (by decide +kernel)
      have h1 := h (9/10, -7) (by decide +kernel) (by decide +kernel)
      have h2 := h (0, 0) (by decide +kernel) (by decide +kernel)
      have h3 := h (1, 0) (by decide +kernel) (by decide +kernel)
      simp only at h0 h1 h2 h3
      linarith
    · exfalso
      have h0 := h (1/10, -12) (by decide +kernel) (by decide +kernel)
      have h1 := h (9/10, -7) (by decide +kernel) (by decide +kernel)
      have h2 := h (0, 0) (by decide +kernel) (by decide +kernel)
      have h3 := h (1, 0) (by decide +kernel) (by decide +kernel)
      simp only at h0 h1 h2 h3
      linarith
    · exact ⟨4, by decide, rfl⟩
    · exact ⟨5, by decide, rfl⟩

def exB : IRH := ⟨[(0, 0), (3/20, -5), (1/4, -8), (3/5, -12), (1, 0)], [0, 1, 2, 3, 4]⟩

theorem exB_corners : HullIndices exB.coords exB.rawVertices := by
  refine ⟨by decide, ?_, ?_, by decide +kernel⟩
  · intro i hi
    have hi : i ∈ [0, 1, 2, 3, 4] := hi
    simp only [List.mem_cons, List.not_mem_nil, or_false] at hi
    rcases hi with rfl | rfl | rfl | rfl | rfl
    · exact ⟨(0, 0), rfl, by decide +kernel, -1, 0, by decide +kernel⟩
    · exact ⟨(3/20, -5), rfl, by decide +kernel, -32, -1, by decide +kernel⟩
    · exact ⟨(1/4, -8), rfl, by decide +kernel, -20, -1, by decide +kernel⟩
    · exact ⟨(3/5, -12), rfl, by decide +kernel, 0, -1, by decide +kernel⟩
    · exact ⟨(1, 0), rfl, by decide +kernel, 1, 0, by decide +kernel⟩
  · rintro p ⟨hp, u, w, h⟩
    have hp : p ∈ [((0 : ℚ), (0 : ℚ)), (3/20, -5), (1/4, -8), (3/5, -12), (1, 0)] := hp
    simp only [List.mem_cons, List.not_mem_nil, or_false] at hp
    rcases hp with rfl | rfl | rfl | rfl | rfl
    · exact ⟨0, by decide, rfl⟩
    · exact ⟨1, by decide, rfl⟩
    · exact ⟨2, by decide, rfl⟩
    · exact ⟨3, by decide, rfl⟩
    · exact ⟨4, by decide, rfl⟩

def exB' : IRH := ⟨[(0, 0), (3/20, -5), (1/5, -8), (1/4, -8), (3/5, -12), (1, 0)], [0, 2, 4, 5]⟩

theorem exB'_corners : HullIndices exB'.coords exB'.rawVertices := by
  refine ⟨by decide, ?_, ?_, by decide +kernel⟩
  · intro i hi
    have hi : i ∈ [0, 2, 4, 5] := hi
    simp only [List.mem_cons, List.not_mem_nil, or_false] at hi
    rcases hi with rfl | rfl | rfl | rfl
    · exact ⟨(0, 0), rfl, by decide +kernel, -1, 0, by decide +kernel⟩
    · exact ⟨(1/5, -8), rfl, by decide +kernel, -20, -1, by decide +kernel⟩
    · exact ⟨(3/5, -12), rfl, by decide +kernel, 0, -1, by decide +kernel⟩
    · exact ⟨(1, 0), rfl, by decide +kernel, 1, 0, by decide +kernel⟩
  · rintro p ⟨hp, u, w, h⟩
    have hp : p ∈ [((0 : ℚ), (0 : ℚ)), (3/20, -5), (1/5, -8), (1/4, -8), (3/5, -12), (1, 0)] := hp
    simp only [List.mem_cons, List.not_mem_nil, or_false] at hp
    rcases hp with rfl | rfl | rfl | rfl | rfl | rfl
    · exact ⟨0, by decide, rfl⟩
    · exfalso
      have h0 := h (1/5, -8) (by decide +kernel) (by decide +kernel)
      have h1 := h (3/5, -12) (by decide +kernel) (by decide +kernel)
      have h2 := h (0, 0) (by decide +kernel) (by decide +kernel)
      have h3 := h (1, 0) (by decide +kernel) (by decide +kernel)
      simp only at h0 h1 h2 h3
      linarith
    · exact ⟨2, by decide, rfl⟩
    · exfalso
      have h0 := h (1/5, -8) (by decide +kernel) (by decide +kernel)
      have h1 := h (3/5, -12) (by decide +kernel) (by decide +kernel)
      have h2 := h (0, 0) (by decide +kernel) (by decide +kernel)
      have h3 := h (1, 0) (by decide +kernel) (by decide +kernel)
      simp only at h0 h1 h2 h3
      linarith
    · exact ⟨4, by decide, rfl⟩
    · exact ⟨5, by decide, rfl⟩

def exC : IRH := ⟨[(0, 0), (1/4, -4), (1/2, -1), (1, 0)], [0, 1, 3]⟩

theorem exC_corners : HullIndices exC.coords exC.rawVertices := by
  refine ⟨by decide, ?_, ?_, by decide +kernel⟩
  · intro i hi
    have hi : i ∈ [0, 1, 3] := hi
    simp only [List.mem_cons, List.not_mem_nil, or_false] at hi
    rcases hi with rfl | rfl | rfl
    · exact ⟨(0, 0), rfl, by decide +kernel, -1, 0, by decide +kernel⟩
    · exact ⟨(1/4, -4), rfl, by decide +kernel, 0, -1, by decide +kernel⟩
    · exact ⟨(1, 0), rfl, by decide +kernel, 1, 0, by decide +kernel⟩
  · rintro p ⟨hp, u, w, h⟩
    have hp : p ∈ [((0 : ℚ), (0 : ℚ)), (1/4, -4), (1/2, -1), (1, 0)] := hp
    simp only [List.mem_cons, List.not_mem_nil, or_false] at hp
    rcases hp with rfl | rfl | rfl | rfl
    · exact ⟨0, by decide, rfl⟩
    · exact ⟨1, by decide, rfl⟩
    · exfalso
      have h0 := h (0, 0) (by decide +kernel) (by decide +kernel)
      have h1 := h (1/4, -4) (by decide +kernel) (by decide +kernel)
      have h2 := h (1, 0) (by decide +kernel) (by decide +kernel)
      simp only at h0 h1 h2
      linarith
    · exact ⟨3, by decide, rfl⟩

def exC' : IRH := ⟨[(0, 0), (1/4, -4), (1/2, -9), (1/2, -1), (1, 0)], [0, 2, 4]⟩

theorem exC'_corners : HullIndices exC'.coords exC'.rawVertices := by
  refine ⟨by decide, ?_, ?_, by decide +kernel⟩
  · intro i hi
    have hi : i ∈ [0, 2, 4] := hi
    simp only [List.mem_cons, List.not_mem_nil, or_false] at hi
    rcases hi with rfl | rfl | rfl
    · exact ⟨(0, 0), rfl, by decide +kernel, -1, 0, by decide +kernel⟩
    · exact ⟨(1/2, -9), rfl, by decide +kernel, 0, -1, by decide +kernel⟩
    · exact ⟨(1, 0), rfl, by decide +kernel, 1, 0, by decide +kernel⟩
  · rintro p ⟨hp, u, w, h⟩
    have hp : p ∈ [((0 : ℚ), (0 : ℚ)), (1/4, -4), (1/2, -9), (1/2, -1), (1, 0)] := hp
    simp only [List.mem_cons, List.not_mem_nil, or_false] at hp
    rcases hp with rfl | rfl | rfl | rfl | rfl
    · exact ⟨0, by decide, rfl⟩
    · exfalso
      have h0 := h (0, 0) (by decide +kernel) (by decide +kernel)
      have h1 := h (1/2, -9) (by decide +kernel) (by decide +kernel)
      have h2 := h (1, 0) (by decide +kernel) (by decide +kernel)
      simp only at h0 h1 h2
      linarith
    · exact ⟨2, by decide, rfl⟩
    · exfalso
      have h0 := h (0, 0) (by decide +kernel) (by decide +kernel)
      have h1 := h (1/2, -9) (by decide +kernel) (by decide +kernel)
      have h2 := h (1, 0) (by decide +kernel) (by decide +kernel)
      simp only at h0 h1 h2
      linarith
    · exact ⟨4, by decide, rfl⟩

/-- **C142, the default secondary competition does fall.** A further reaction makes the secondary competition of an unchanged stable reaction
smaller, both when the energies of the two sides are averaged over the reaction sequences (`normalize=True`) and when they are not. -/
theorem C142_secondary_violated :
    (∃ (P Q : List (ℚ × ℚ)) (h h' : IRH) (i j : ℕ) (c : ℚ × ℚ), P ⊆ Q ∧ IsHullOf P h ∧ IsHullOf Q h' ∧ Apart' h.coords ∧ Apart' h'.coords ∧
      h.coords[i]? = some c ∧ h'.coords[j]? = some c ∧ i ∈ hullVertices h ∧ j ∈ hullVertices h' ∧
      getSecondaryCompetition h i true true = some (3763/315) ∧ getSecondaryCompetition h' j true true = some (101/9)) ∧
    (∃ (P Q : List (ℚ × ℚ)) (h h' : IRH) (i j : ℕ) (c : ℚ × ℚ), P ⊆ Q ∧ IsHullOf P h ∧ IsHullOf Q h' ∧ Apart' h.coords ∧ Apart' h'.coords ∧
      h.coords[i]? = some c ∧ h'.coords[j]? = some c ∧ i ∈ hullVertices h ∧ j ∈ hullVertices h' ∧
      getSecondaryCompetition h i false true = some (299/45) ∧ getSecondaryCompetition h' j false true = some 4) :=
  ⟨⟨[(3/20, -11), (7/20, -10), (9/10, -7)], [(1/10, -12), (3/20, -11), (7/20, -10), (9/10, -7)], exA, exA', 3, 4, (9/10, -7),
    List.subset_cons_self _ _, ⟨by decide +kernel, by decide +kernel, exA_corners⟩, ⟨by decide +kernel, by decide +kernel, exA'_corners⟩,
    apart_of_list (by decide +kernel) (by decide +kernel), apart_of_list (by decide +kernel) (by decide +kernel), by decide +kernel,
    by decide +kernel, by decide +kernel, by decide +kernel, by decide +kernel, by decide +kernel⟩,
   ⟨[(3/20, -5), (1/4, -8), (3/5, -12)], [(1/5, -8), (3/20, -5), (1/4, -8), (3/5, -12)], exB, exB', 3, 4, (3/5, -12),
    List.subset_cons_self _ _, ⟨by decide +kernel, by decide +kernel, exB_corners⟩, ⟨by decide +kernel, by decide +kernel, exB'_corners⟩,
    apart_of_list (by decide +kernel) (by decide +kernel), apart_of_list (by decide +kernel) (by decide +kernel), by decide +kernel,
    by decide +kernel, by decide +kernel, by decide +kernel, by decide +kernel, by decide +kernel⟩⟩

/-- **C142, the maximum-energy variant falls for an unstable reaction.** A further reaction with the same ratio of the reactants takes the score of
an unchanged metastable reaction from `8/3` to `0`. -/
theorem C142_secondary_max_violated :
    ∃ (P Q : List (ℚ × ℚ)) (h h' : IRH) (i j : ℕ) (c : ℚ × ℚ), P ⊆ Q ∧ IsHullOf P h ∧ IsHullOf Q h' ∧ Apart' h.coords ∧ Apart' h'.coords ∧
      h.coords[i]? = some c ∧ h'.coords[j]? = some c ∧
      getSecondaryCompetitionMaxEnergy h i = some (8/3) ∧ getSecondaryCompetitionMaxEnergy h' j = some 0 :=
  ⟨[(1/4, -4), (1/2, -1)], [(1/2, -9), (1/4, -4), (1/2, -1)], exC, exC', 2, 3, (1/2, -1),
    List.subset_cons_self _ _, ⟨by decide +kernel, by decide +kernel, exC_corners⟩, ⟨by decide +kernel, by decide +kernel, exC'_corners⟩,
    apart_of_list (by decide +kernel) (by decide +kernel), apart_of_list (by decide +kernel) (by decide +kernel), by decide +kernel,
    by decide +kernel, by decide +kernel, by decide +kernel⟩

/-! The hypotheses of the theorems hold for these hulls. -/

theorem exA_hull : IsHullOf [(3/20, -11), (7/20, -10), (9/10, -7)] exA := ⟨by decide +kernel, by decide +kernel, exA_corners⟩
theorem exA'_hull : IsHullOf [(1/10, -12), (3/20, -11), (7/20, -10), (9/10, -7)] exA' := ⟨by decide +kernel, by decide +kernel, exA'_corners⟩

example := C142_primary exA_hull exA'_hull (tougher_subset (List.subset_cons_self _ _)) (-7) (9/10) ⟨(9/10, -7), by decide +kernel, rfl⟩
example : getPrimaryCompetition exA (-7) (9/10) = some 4 ∧ getPrimaryCompetition exA' (-7) (9/10) = some 5 ∧
    getPrimaryCompetition exA (-7 - 2) (9/10) = some 2 := by decide +kernel

example := C142_above_hull exA_hull exA'_hull (by decide +kernel) (by decide +kernel) (apart_of_list (by decide +kernel) (by decide +kernel))
  (apart_of_list (by decide +kernel) (by decide +kernel)) (tougher_subset (List.subset_cons_self _ _)) 2 3 (7/20, -10) (by decide +kernel)
  (by decide +kernel) (fun p hp => (by decide +kernel : ∀ q ∈ exA.coords, isclose (7/20) q.1 = true → 7/20 = q.1) p hp.1)
  (fun p hp => (by decide +kernel : ∀ q ∈ exA'.coords, isclose (7/20) q.1 = true → 7/20 = q.1) p hp.1)
example : getEnergyAboveHull exA 2 = some 0 ∧ getEnergyAboveHull exA' 3 = some (7/16) := by decide +kernel

example := C142_stable exA_hull exA'_hull (by decide +kernel) (by decide +kernel) (apart_of_list (by decide +kernel) (by decide +kernel))
  (apart_of_list (by decide +kernel) (by decide +kernel)) (tougher_subset (List.subset_cons_self _ _)) (9/10, -7) (by decide +kernel)
  ⟨4, by decide +kernel, by decide +kernel⟩
-- the converse fails: the reaction at 7/20 is stable in the first hull only
example : 2 ∈ hullVertices exA ∧ 3 ∉ hullVertices exA' ∧ exA.coords[2]? = exA'.coords[3]? := by decide +kernel

example := C142_secondary_max_partial exA_hull exA'_hull (by decide +kernel) (by decide +kernel)
  (apart_of_list (by decide +kernel) (by decide +kernel)) (apart_of_list (by decide +kernel) (by decide +kernel))
  (tougher_subset (List.subset_cons_self _ _)) (by decide +kernel) 3 4 (9/10, -7) (by decide +kernel) (by decide +kernel) (by norm_num) (by norm_num)
  ⟨4, by decide +kernel, by decide +kernel⟩
example : getSecondaryCompetitionMaxEnergy exA 3 = some (59/6) ∧ getSecondaryCompetitionMaxEnergy exA' 4 = some (101/9) := by decide +kernel

end Verif.Props.HullGrow
