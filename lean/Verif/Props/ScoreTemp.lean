import Verif.Props.EnergyError
import Verif.Props.TempLine

/-!
Property C165: stability and competition scores of a reaction between two temperatures (src/rxn_network/reactions/hull.py and
src/rxn_network/entries/gibbs.py).
-/

set_option linter.unusedSectionVars false

namespace Verif.Props.ScoreTemp
open Verif.Py Verif.Model Verif.Model.Reaction Verif.Spec.Reaction
open Verif.Model.Entries (Gibbs)
open Verif.Model.Gibbs (Env)
open Verif.Model.Hull Verif.Spec.Hull Verif.Lemmas.Hull Verif.Lemmas.HullConvex Verif.Props.Hull Verif.Props.HullConvex Verif.Props.HullMirror
  Verif.Props.HullGrow
open Verif.Props.TempLine (Blend Compound At rxnsAt C162_points C162_hull)
open Verif.Props.EnergyError (above_envelope side_below flat_of)
open Verif.Props.Written (closedPlace reactantEntries)

variable {κ ε : Type} [DecidableEq κ] [DecidableEq ε]
variable {s : ℚ} {P Q R : List (ℚ × ℚ)} {h1 h2 h : IRH}

/-! ### Specification -/

/-- A reaction at three temperatures: at the same place, with interpolated energy. -/
def Same (s : ℚ) (c1 c2 c : ℚ × ℚ) : Prop := c1.1 = c.1 ∧ c2.1 = c.1 ∧ c.2 = (1 - s) * c1.2 + s * c2.2

/-! ### Helper lemmas -/

theorem from_ends (H1 : IsHullOf P h1) (H2 : IsHullOf Q h2) (H : IsHullOf R h) (B : Blend s P Q R) (r : ℚ × ℚ) (hr : r ∈ h.coords) :
    ∃ p ∈ h1.coords, ∃ q ∈ h2.coords, Same s p q r := by
  rcases List.mem_append.mp (H.perm.mem_iff.mp hr) with hr | hr
  · obtain ⟨i, hi⟩ := List.mem_iff_getElem?.mp hr
    obtain ⟨p, q, hp, hq, k⟩ := B.2.2 i r hi
    exact ⟨p, H1.perm.mem_iff.mpr (List.mem_append_left _ (List.mem_of_getElem? hp)), q,
      H2.perm.mem_iff.mpr (List.mem_append_left _ (List.mem_of_getElem? hq)), k⟩
  · exact ⟨r, H1.perm.mem_iff.mpr (List.mem_append_right _ hr), r, H2.perm.mem_iff.mpr (List.mem_append_right _ hr), rfl, rfl, by ring⟩

theorem other_min (H : IsHullOf P h) (x : ℚ) : ∃ m, ((h.coords.filter fun c => decide (c.1 ≠ x)).map Prod.snd).min? = some m := by
  have : ∃ c ∈ h.coords, c.1 ≠ x := by
    by_cases h0 : x = 0
    · exact ⟨(1, 0), H.perm.mem_iff.mpr (by simp), by rw [h0]; norm_num⟩
    · exact ⟨(0, 0), H.perm.mem_iff.mpr (by simp), fun hh => h0 hh.symm⟩
  obtain ⟨c, hc, hcx⟩ := this
  cases hm : ((h.coords.filter fun c => decide (c.1 ≠ x)).map Prod.snd).min? with
  | none =>
    exact absurd (List.min?_eq_none_iff.mp hm)
      (List.ne_nil_of_mem (List.mem_map_of_mem (List.mem_filter.mpr ⟨hc, by simpa using hcx⟩)))
  | some m => exact ⟨m, rfl⟩

/-- The largest depth between two corners of all three hulls. -/
theorem side_blend {vs1 vs2 vs : List (ℚ × ℚ)} (hs0 : 0 ≤ s) (hs1 : s ≤ 1) (T : ∀ r ∈ h.coords, ∃ p ∈ h1.coords, ∃ q ∈ h2.coords, Same s p q r)
    (G1 : GoodHull h1 vs1) (G2 : GoodHull h2 vs2) (G : GoodHull h vs) (F1 : FlatEnds vs1) (F2 : FlatEnds vs2) (F : FlatEnds vs) {a1 a2 a b1 b2 b : ℚ × ℚ}
    (m1 : a1 ∈ vs1) (m2 : a2 ∈ vs2) (m : a ∈ vs) (n1 : b1 ∈ vs1) (n2 : b2 ∈ vs2) (n : b ∈ vs) (A : Same s a1 a2 a) (B : Same s b1 b2 b) (h0 : 0 ≤ a.1)
    (hx : a.1 < b.1) (hb : b.1 ≤ 1) :
    ∃ e1 e2 e, getMaxDecompositionEnergy h1 a.1 b.1 = some e1 ∧ getMaxDecompositionEnergy h2 a.1 b.1 = some e2 ∧
      getMaxDecompositionEnergy h a.1 b.1 = some e ∧ (1 - s) * e1 + s * e2 ≤ e := by
  obtain ⟨e, he, -, -, hatt⟩ := side_spec G F m n h0 hx hb
  obtain ⟨e1, he1, hle1, hall1⟩ := side_below G1 F1 m1 n1 (A.1 ▸ h0) (by rw [A.1, B.1]; exact hx) (B.1 ▸ hb)
  obtain ⟨e2, he2, hle2, hall2⟩ := side_below G2 F2 m2 n2 (A.2.1 ▸ h0) (by rw [A.2.1, B.2.1]; exact hx) (B.2.1 ▸ hb)
  rw [A.1, B.1] at he1
  rw [A.2.1, B.2.1] at he2
  refine ⟨e1, e2, e, he1, he2, he, ?_⟩
  have k1 := sub_nonneg.mpr hs1
  rcases hatt with rfl | ⟨v, hv, v1, v2, hva⟩
  · have := mul_nonneg k1 (neg_nonneg.mpr hle1)
    have := mul_nonneg hs0 (neg_nonneg.mpr hle2)
    linarith
  obtain ⟨p, hp, q, hq, V⟩ := T v (G.lower.sub v hv)
  have c1 := hall1 p hp (by rw [A.1, V.1]; exact v1) (by rw [B.1, V.1]; exact v2)
  have c2 := hall2 q hq (by rw [A.2.1, V.2.1]; exact v1) (by rw [B.2.1, V.2.1]; exact v2)
  rw [altitude_linear] at hva c1 c2
  rw [A.1, B.1, V.1] at c1
  rw [A.2.1, B.2.1, V.2.1] at c2
  have d1 := mul_le_mul_of_nonneg_left c1 k1
  have d2 := mul_le_mul_of_nonneg_left c2 hs0
  refine le_trans ?_ hva
  rw [A.2.2, B.2.2, V.2.2]
  refine (add_le_add d1 d2).trans (le_of_eq ?_)
  ring

/-! ### C165 -/

/-- **C165, primary competition** is nowhere above the interpolation of its values at two temperatures. -/
theorem C165_primary (hs0 : 0 ≤ s) (hs1 : s ≤ 1) (H1 : IsHullOf P h1) (H2 : IsHullOf Q h2) (H : IsHullOf R h) (B : Blend s P Q R) (c1 c2 c : ℚ × ℚ)
    (m1 : c1 ∈ h1.coords) (m2 : c2 ∈ h2.coords) (m : c ∈ h.coords) (hc : Same s c1 c2 c) :
    ∃ v1 v2 v, getPrimaryCompetition h1 c1.2 c1.1 = some v1 ∧ getPrimaryCompetition h2 c2.2 c2.1 = some v2 ∧ getPrimaryCompetition h c.2 c.1 = some v ∧
      v ≤ (1 - s) * v1 + s * v2 := by
  rw [primary_eq h1 H1.sorted _ _ ⟨c1, m1, rfl⟩, primary_eq h2 H2.sorted _ _ ⟨c2, m2, rfl⟩, primary_eq h H.sorted _ _ ⟨c, m, rfl⟩]
  obtain ⟨n1, hn1⟩ := other_min H1 c1.1
  obtain ⟨n2, hn2⟩ := other_min H2 c2.1
  obtain ⟨n, hn⟩ := other_min H c.1
  rw [hn1, hn2, hn]
  refine ⟨_, _, _, rfl, rfl, rfl, ?_⟩
  obtain ⟨hmem, -⟩ := List.min?_eq_some_iff.mp hn
  obtain ⟨r, hr, rfl⟩ := List.mem_map.mp hmem
  obtain ⟨hr, hrx⟩ := List.mem_filter.mp hr
  obtain ⟨p, hp, q, hq, V⟩ := from_ends H1 H2 H B r hr
  have k1 := (List.min?_eq_some_iff.mp hn1).2 p.2 (List.mem_map_of_mem (List.mem_filter.mpr ⟨hp, by rw [V.1, hc.1]; exact hrx⟩))
  have k2 := (List.min?_eq_some_iff.mp hn2).2 q.2 (List.mem_map_of_mem (List.mem_filter.mpr ⟨hq, by rw [V.2.1, hc.2.1]; exact hrx⟩))
  have d1 := mul_le_mul_of_nonneg_left k1 (sub_nonneg.mpr hs1)
  have d2 := mul_le_mul_of_nonneg_left k2 hs0
  rw [V.2.2, hc.2.2]
  linarith

/-- **C165, energy above the hull** is nowhere above the interpolation. -/
theorem C165_above_hull (hs0 : 0 ≤ s) (hs1 : s ≤ 1) (H1 : IsHullOf P h1) (H2 : IsHullOf Q h2) (H : IsHullOf R h) (r1 : ∀ p ∈ P, 0 ≤ p.1 ∧ p.1 ≤ 1)
    (r2 : ∀ p ∈ Q, 0 ≤ p.1 ∧ p.1 ≤ 1) (r : ∀ p ∈ R, 0 ≤ p.1 ∧ p.1 ≤ 1) (A1 : Apart' h1.coords) (A2 : Apart' h2.coords) (A : Apart' h.coords) (B : Blend s P Q R)
    (i1 i2 i : ℕ) (c1 c2 c : ℚ × ℚ) (j1 : h1.coords[i1]? = some c1) (j2 : h2.coords[i2]? = some c2) (j : h.coords[i]? = some c) (hc : Same s c1 c2 c)
    (a1 : Apart1 h1.coords c.1) (a2 : Apart1 h2.coords c.1) (a : Apart1 h.coords c.1) :
    ∃ v1 v2 v, getEnergyAboveHull h1 i1 = some v1 ∧ getEnergyAboveHull h2 i2 = some v2 ∧ getEnergyAboveHull h i = some v ∧ v ≤ (1 - s) * v1 + s * v2 := by
  obtain ⟨y1, hy1, e1⟩ := above_envelope H1 r1 A1 i1 c1 j1 (hc.1.symm ▸ a1)
  obtain ⟨y2, hy2, e2⟩ := above_envelope H2 r2 A2 i2 c2 j2 (hc.2.1.symm ▸ a2)
  obtain ⟨y, hy, e⟩ := above_envelope H r A i c j a
  rw [hc.1] at e1
  rw [hc.2.1] at e2
  have := (C162_hull hs0 hs1 H1.perm H2.perm H.perm B).1 c.1 y1 y2 y e1 e2 e
  refine ⟨_, _, _, hy1, hy2, hy, ?_⟩
  rw [hc.2.2]
  linarith

/-- **C165, stability.** A reaction that is a corner of the hull at two temperatures is one in between. -/
theorem C165_stable (hs0 : 0 ≤ s) (hs1 : s ≤ 1) (H1 : IsHullOf P h1) (H2 : IsHullOf Q h2) (H : IsHullOf R h) (B : Blend s P Q R) (c1 c2 c : ℚ × ℚ)
    (m : c ∈ h.coords) (hc : Same s c1 c2 c) (l1 : LowerCorner h1.coords c1) (l2 : LowerCorner h2.coords c2) : LowerCorner h.coords c := by
  obtain ⟨-, u1, g1⟩ := l1
  obtain ⟨-, u2, g2⟩ := l2
  refine ⟨m, (1 - s) * u1 + s * u2, fun r hr hne => ?_⟩
  obtain ⟨p, hp, q, hq, V⟩ := from_ends H1 H2 H B r hr
  have k1 : c1.2 + u1 * (p.1 - c1.1) ≤ p.2 := by
    by_cases e : p = c1
    · rw [e]; linarith
    · exact (g1 p hp e).le
  have k2 : c2.2 + u2 * (q.1 - c2.1) ≤ q.2 := by
    by_cases e : q = c2
    · rw [e]; linarith
    · exact (g2 q hq e).le
  have k1' : p ≠ c1 → c1.2 + u1 * (r.1 - c.1) < p.2 := fun e => by
    have := g1 p hp e
    rwa [V.1, hc.1] at this
  have k2' : q ≠ c2 → c2.2 + u2 * (r.1 - c.1) < q.2 := fun e => by
    have := g2 q hq e
    rwa [V.2.1, hc.2.1] at this
  rw [V.1, hc.1] at k1
  rw [V.2.1, hc.2.1] at k2
  have d1 := mul_le_mul_of_nonneg_left k1 (sub_nonneg.mpr hs1)
  have d2 := mul_le_mul_of_nonneg_left k2 hs0
  have hle : c.2 + ((1 - s) * u1 + s * u2) * (r.1 - c.1) ≤ r.2 := by rw [V.2.2, hc.2.2]; linarith
  refine lt_of_le_of_ne hle fun heq => hne ?_
  -- no part of the point is strictly above its line
  have z1 : (1 - s) * (c1.2 + u1 * (r.1 - c.1)) = (1 - s) * p.2 := by rw [V.2.2, hc.2.2] at heq; linarith
  have z2 : s * (c2.2 + u2 * (r.1 - c.1)) = s * q.2 := by rw [V.2.2, hc.2.2] at heq; linarith
  have w1 : 1 - s = 0 ∨ p = c1 := by
    by_contra hcon
    push Not at hcon
    exact absurd (mul_left_cancel₀ hcon.1 z1) (k1' hcon.2).ne
  have w2 : s = 0 ∨ q = c2 := by
    by_contra hcon
    push Not at hcon
    exact absurd (mul_left_cancel₀ hcon.1 z2) (k2' hcon.2).ne
  have hx : r.1 = c.1 := by
    rcases w1 with w1 | w1
    · rcases w2 with w2 | w2
      · rw [w2] at w1; norm_num at w1
      · rw [← V.2.1, w2, hc.2.1]
    · rw [← V.1, w1, hc.1]
  refine Prod.ext hx ?_
  rw [V.2.2, hc.2.2]
  congr 1
  · rcases w1 with w1 | w1
    · rw [w1]; ring
    · rw [w1]
  · rcases w2 with w2 | w2
    · rw [w2]; ring
    · rw [w2]

/-- **C165, secondary competition by maximum energies** of a reaction that is stable at both temperatures is nowhere above the interpolation, if no reactant
decomposes. -/
theorem C165_secondary_max_partial (hs0 : 0 ≤ s) (hs1 : s ≤ 1) (H1 : IsHullOf P h1) (H2 : IsHullOf Q h2) (H : IsHullOf R h) (r1 : ∀ p ∈ P, 0 ≤ p.1 ∧ p.1 ≤ 1)
    (r2 : ∀ p ∈ Q, 0 ≤ p.1 ∧ p.1 ≤ 1) (r : ∀ p ∈ R, 0 ≤ p.1 ∧ p.1 ≤ 1) (A1 : Apart' h1.coords) (A2 : Apart' h2.coords) (A : Apart' h.coords) (B : Blend s P Q R)
    (z1 : ∀ p ∈ P, p.1 = 0 ∨ p.1 = 1 → 0 ≤ p.2) (z2 : ∀ p ∈ Q, p.1 = 0 ∨ p.1 = 1 → 0 ≤ p.2)
    (i1 i2 i : ℕ) (c1 c2 c : ℚ × ℚ) (j1 : h1.coords[i1]? = some c1) (j2 : h2.coords[i2]? = some c2) (j : h.coords[i]? = some c) (hc : Same s c1 c2 c)
    (h0 : 0 < c.1) (hb : c.1 < 1) (l1 : LowerCorner h1.coords c1) (l2 : LowerCorner h2.coords c2) :
    ∃ v1 v2 v, getSecondaryCompetitionMaxEnergy h1 i1 = some v1 ∧ getSecondaryCompetitionMaxEnergy h2 i2 = some v2 ∧
      getSecondaryCompetitionMaxEnergy h i = some v ∧ v ≤ (1 - s) * v1 + s * v2 := by
  have T := from_ends H1 H2 H B
  have l := C165_stable hs0 hs1 H1 H2 H B c1 c2 c (List.mem_of_getElem? j) hc l1 l2
  obtain ⟨vs1, G1, g1⟩ := chain_of H1 r1 A1
  obtain ⟨vs2, G2, g2⟩ := chain_of H2 r2 A2
  obtain ⟨vs, G, g⟩ := chain_of H r A
  have hz : ∀ {P : List (ℚ × ℚ)} {h : IRH}, IsHullOf P h → (∀ p ∈ P, p.1 = 0 ∨ p.1 = 1 → 0 ≤ p.2) → ∀ p ∈ h.coords, p.1 = 0 ∨ p.1 = 1 → 0 ≤ p.2 := by
    intro P h H hends p hp he
    rcases List.mem_append.mp (H.perm.mem_iff.mp hp) with hp | hp
    · exact hends p hp he
    · simp only [List.mem_cons, List.not_mem_nil, or_false] at hp
      rcases hp with rfl | rfl <;> exact le_refl _
  have F1 := flat_of G1 (hz H1 z1)
  have F2 := flat_of G2 (hz H2 z2)
  have F := flat_of G fun p hp he => by
    obtain ⟨x, hx, y, hy, V⟩ := T p hp
    rw [V.2.2]
    exact add_nonneg (mul_nonneg (sub_nonneg.mpr hs1) (hz H1 z1 x hx (by rw [V.1]; exact he))) (mul_nonneg hs0 (hz H2 z2 y hy (by rw [V.2.1]; exact he)))
  have n1 := (g1 c1).mpr l1
  have n2 := (g2 c2).mpr l2
  have n := (g c).mpr l
  obtain ⟨e1, e2, e, k1, k2, k, hk⟩ := side_blend hs0 hs1 T G1 G2 G F1 F2 F F1.1 F2.1 F.1 n1 n2 n ⟨rfl, rfl, by simp⟩ hc (le_refl _) h0 hb.le
  obtain ⟨f1, f2, f, q1, q2, q, hq⟩ := side_blend hs0 hs1 T G1 G2 G F1 F2 F n1 n2 n F1.2 F2.2 F.2 hc ⟨rfl, rfl, by simp⟩ h0.le hb (le_refl _)
  dsimp only at k1 k2 k q1 q2 q
  refine ⟨-1 * (e1 + f1), -1 * (e2 + f2), -1 * (e + f), ?_, ?_, ?_, by linarith⟩
  · unfold getSecondaryCompetitionMaxEnergy
    simp only [j1, Option.bind_eq_bind, Option.bind_some, hc.1]
    rw [k1, q1]
    rfl
  · unfold getSecondaryCompetitionMaxEnergy
    simp only [j2, Option.bind_eq_bind, Option.bind_some, hc.2.1]
    rw [k2, q2]
    rfl
  · unfold getSecondaryCompetitionMaxEnergy
    simp only [j, Option.bind_eq_bind, Option.bind_some]
    rw [k, q]
    rfl

/-- **C165, end to end.** For the hulls of the same conserving reactions between compounds at three temperatures: the primary competition of each reaction
in between is at most the interpolation, and a reaction that is stable at the outer temperatures is stable in between. -/
theorem C165_temperature (X : Chem κ ε) (hX : X.Lawful) (G : Env ε) (ident : Entry κ → CRxn κ) (argsort : List ℚ → List ℕ)
    (hsort : Verif.Props.HullInit.SortsBy argsort) (d1 d2 : κ) (rs : List (List (Gibbs κ) × List ℚ))
    (hrs : ∀ r ∈ rs, (r.1.map fun e => X.red e.comp).Nodup ∧ (∀ e ∈ r.1, Compound X e) ∧ Conserved X (r.1.map fun e => X.red e.comp) r.2)
    (t1 t2 t : ℚ) (ht : t1 < t2) (ht1 : t1 ≤ t) (ht2 : t ≤ t2) (o1 o2 o : List (List (Gibbs κ))) (g1 : List.Forall₂ (fun r x => At X G t1 r.1 x) rs o1)
    (g2 : List.Forall₂ (fun r x => At X G t2 r.1 x) rs o2) (g : List.Forall₂ (fun r x => At X G t r.1 x) rs o) (H1 H2 H : Built (CRxn κ))
    (k1 : hullInit reactantEntries (fun e => X.red e.comp) (closedPlace X d1 d2) (energyPerAtom X) ident argsort d1 d2 (rxnsAt X G o1 rs) = .ok H1)
    (k2 : hullInit reactantEntries (fun e => X.red e.comp) (closedPlace X d1 d2) (energyPerAtom X) ident argsort d1 d2 (rxnsAt X G o2 rs) = .ok H2)
    (k : hullInit reactantEntries (fun e => X.red e.comp) (closedPlace X d1 d2) (energyPerAtom X) ident argsort d1 d2 (rxnsAt X G o rs) = .ok H)
    (w1 w2 w : List ℕ) (q1 : HullIndices H1.coords w1) (q2 : HullIndices H2.coords w2) (q : HullIndices H.coords w) (n : ℕ) (x1 x2 x : CRxn κ)
    (n1 : (rxnsAt X G o1 rs)[n]? = some x1) (n2 : (rxnsAt X G o2 rs)[n]? = some x2) (n3 : (rxnsAt X G o rs)[n]? = some x) :
    ∃ c1 c2 c : ℚ × ℚ, (closedPlace X d1 d2 x1 = .ok c1.1 ∧ energyPerAtom X x1 = .ok c1.2) ∧ (closedPlace X d1 d2 x2 = .ok c2.1 ∧ energyPerAtom X x2 = .ok c2.2) ∧
      (closedPlace X d1 d2 x = .ok c.1 ∧ energyPerAtom X x = .ok c.2) ∧
      (∃ v1 v2 v, getPrimaryCompetition ⟨H1.coords, w1⟩ c1.2 c1.1 = some v1 ∧ getPrimaryCompetition ⟨H2.coords, w2⟩ c2.2 c2.1 = some v2 ∧
        getPrimaryCompetition ⟨H.coords, w⟩ c.2 c.1 = some v ∧ v ≤ (1 - (t - t1) / (t2 - t1)) * v1 + (t - t1) / (t2 - t1) * v2) ∧
      (LowerCorner H1.coords c1 → LowerCorner H2.coords c2 → LowerCorner H.coords c) := by
  obtain ⟨P, Q, R, B, p1, p2, p3, s1, s2, s3, f1, f2, f3⟩ := C162_points X hX G ident argsort hsort d1 d2 rs hrs t1 t2 t ht o1 o2 o g1 g2 g H1 H2 H k1 k2 k
  have hD : 0 < t2 - t1 := sub_pos.mpr ht
  have hs0 : 0 ≤ (t - t1) / (t2 - t1) := div_nonneg (by linarith) hD.le
  have hs1 : (t - t1) / (t2 - t1) ≤ 1 := by rw [div_le_one hD]; linarith
  have I1 : IsHullOf P ⟨H1.coords, w1⟩ := ⟨p1, s1, q1⟩
  have I2 : IsHullOf Q ⟨H2.coords, w2⟩ := ⟨p2, s2, q2⟩
  have I : IsHullOf R ⟨H.coords, w⟩ := ⟨p3, s3, q⟩
  have pick : ∀ {l : List (CRxn κ)} {P : List (ℚ × ℚ)}, List.Forall₂ (fun r p => closedPlace X d1 d2 r = .ok p.1 ∧ energyPerAtom X r = .ok p.2) l P →
      ∀ (n : ℕ) (x : CRxn κ), l[n]? = some x → ∃ c : ℚ × ℚ, P[n]? = some c ∧ closedPlace X d1 d2 x = .ok c.1 ∧ energyPerAtom X x = .ok c.2 := by
    intro l P f
    induction f with
    | nil => intro n x hx; simp at hx
    | @cons y p l P hy _ ih =>
      intro n x hx
      cases n with
      | zero =>
        have hx : y = x := by simpa using hx
        subst hx
        exact ⟨p, by simp, hy⟩
      | succ n =>
        obtain ⟨c, hc, hp⟩ := ih n x (by simpa using hx)
        exact ⟨c, by simpa using hc, hp⟩
  obtain ⟨c, hc, hx⟩ := pick f3 n x n3
  obtain ⟨c1, hc1, hx1⟩ := pick f1 n x1 n1
  obtain ⟨c2, hc2, hx2⟩ := pick f2 n x2 n2
  obtain ⟨c1', c2', e1, e2, hS⟩ := B.2.2 n c hc
  rw [hc1] at e1
  rw [hc2] at e2
  rw [← Option.some.inj e1, ← Option.some.inj e2] at hS
  have m1 : c1 ∈ H1.coords := p1.mem_iff.mpr (List.mem_append_left _ (List.mem_of_getElem? hc1))
  have m2 : c2 ∈ H2.coords := p2.mem_iff.mpr (List.mem_append_left _ (List.mem_of_getElem? hc2))
  have m : c ∈ H.coords := p3.mem_iff.mpr (List.mem_append_left _ (List.mem_of_getElem? hc))
  exact ⟨c1, c2, c, hx1, hx2, hx, C165_primary hs0 hs1 I1 I2 I B c1 c2 c m1 m2 m hS, C165_stable hs0 hs1 I1 I2 I B c1 c2 c m hS⟩

/-! ### What does not hold, and examples -/

open Verif.Props.EnergyError (exS exU exS_hull exU_hull exApartS exApartU)

/-- In between: another reaction is still on the hull. -/
def exM : IRH := ⟨[(0, 0), (1/8, -8), (1/2, -8 - 1/(2 * 10^9)), (7/8, -8), (1, 0)], [0, 1, 2, 3, 4]⟩

theorem exM_hull : IsHullOf [(1/8, -8), (1/2, -8 - 1/(2 * 10^9)), (7/8, -8)] exM := by
  refine ⟨by decide +kernel, by decide +kernel, by decide, ?_, ?_, by decide +kernel⟩
  · intro i hi
    have hi : i ∈ [0, 1, 2, 3, 4] := hi
    simp only [List.mem_cons, List.not_mem_nil, or_false] at hi
    rcases hi with rfl | rfl | rfl | rfl | rfl
    · exact ⟨(0, 0), rfl, by decide +kernel, -1, 0, by decide +kernel⟩
    · exact ⟨(1/8, -8), rfl, by decide +kernel, -10, -1, by decide +kernel⟩
    · exact ⟨(1/2, -8 - 1/(2 * 10^9)), rfl, by decide +kernel, 0, -1, by decide +kernel⟩
    · exact ⟨(7/8, -8), rfl, by decide +kernel, 10, -1, by decide +kernel⟩
    · exact ⟨(1, 0), rfl, by decide +kernel, 1, 0, by decide +kernel⟩
  · rintro p ⟨hp, u, w, h⟩
    have hp : p ∈ [((0 : ℚ), (0 : ℚ)), (1/8, -8), (1/2, -8 - 1/(2 * 10^9)), (7/8, -8), (1, 0)] := hp
    simp only [List.mem_cons, List.not_mem_nil, or_false] at hp
    rcases hp with rfl | rfl | rfl | rfl | rfl
    · exact ⟨0, by decide, rfl⟩
    · exact ⟨1, by decide, rfl⟩
    · exact ⟨2, by decide, rfl⟩
    · exact ⟨3, by decide, rfl⟩
    · exact ⟨4, by decide, rfl⟩

theorem exM_apart : Apart' exM.coords := apart_of_list (by decide +kernel) (by decide +kernel)

theorem exBlend : Blend (1 / 4) [(1/8, -8), (1/2, -8 - 1/10^9), (7/8, -8)] [(1/8, -8), (1/2, -8 + 1/10^9), (7/8, -8)]
    [(1/8, -8), (1/2, -8 - 1/(2 * 10^9)), (7/8, -8)] := by
  refine ⟨rfl, rfl, fun i r hi => ?_⟩
  match i with
  | 0 => cases hi; exact ⟨_, _, rfl, rfl, rfl, rfl, by norm_num⟩
  | 1 => cases hi; exact ⟨_, _, rfl, rfl, rfl, rfl, by norm_num⟩
  | 2 => cases hi; exact ⟨_, _, rfl, rfl, rfl, rfl, by norm_num⟩
  | n + 3 => simp at hi

/-- The default secondary competition, averaged or not, can be above the interpolation of its values at two temperatures, since it jumps when another
reaction leaves the hull. -/
theorem C165_secondary_violated : ∃ (P Q R : List (ℚ × ℚ)) (h1 h2 h : IRH) (s : ℚ) (i : ℕ) (c : ℚ × ℚ), 0 ≤ s ∧ s ≤ 1 ∧ Blend s P Q R ∧ IsHullOf P h1 ∧
    IsHullOf Q h2 ∧ IsHullOf R h ∧ h1.coords[i]? = some c ∧ h2.coords[i]? = some c ∧ h.coords[i]? = some c ∧
    ∀ avg, ∃ v1 v2 v, getSecondaryCompetition h1 i avg true = some v1 ∧ getSecondaryCompetition h2 i avg true = some v2 ∧
      getSecondaryCompetition h i avg true = some v ∧ (1 - s) * v1 + s * v2 < v := by
  refine ⟨_, _, _, exS, exU, exM, 1 / 4, 3, (7/8, -8), by norm_num, by norm_num, exBlend, exS_hull, exU_hull, exM_hull, rfl, rfl, rfl, fun avg => ?_⟩
  refine ⟨(getSecondaryCompetition exS 3 avg true).getD 0, (getSecondaryCompetition exU 3 avg true).getD 0, (getSecondaryCompetition exM 3 avg true).getD 0, ?_⟩
  cases avg <;> decide +kernel

example := C165_primary (s := 1 / 4) (by norm_num) (by norm_num) exS_hull exU_hull exM_hull exBlend (1/2, -8 - 1/10^9) (1/2, -8 + 1/10^9) (1/2, -8 - 1/(2 * 10^9))
  (by decide +kernel) (by decide +kernel) (by decide +kernel) ⟨rfl, rfl, by norm_num⟩
example := C165_above_hull (s := 1 / 4) (by norm_num) (by norm_num) exS_hull exU_hull exM_hull (by decide +kernel) (by decide +kernel) (by decide +kernel) exApartS
  exApartU exM_apart exBlend 2 2 2 (1/2, -8 - 1/10^9) (1/2, -8 + 1/10^9) (1/2, -8 - 1/(2 * 10^9)) rfl rfl rfl ⟨rfl, rfl, by norm_num⟩
  (fun p hp => (by decide +kernel : ∀ q ∈ exS.coords, isclose (1/2) q.1 = true → 1/2 = q.1) p hp.1)
  (fun p hp => (by decide +kernel : ∀ q ∈ exU.coords, isclose (1/2) q.1 = true → 1/2 = q.1) p hp.1)
  (fun p hp => (by decide +kernel : ∀ q ∈ exM.coords, isclose (1/2) q.1 = true → 1/2 = q.1) p hp.1)
example : getEnergyAboveHull exS 2 = some 0 ∧ getEnergyAboveHull exU 2 = some (1 / 10 ^ 9) ∧ getEnergyAboveHull exM 2 = some 0 := by decide +kernel
example := C165_stable (s := 1 / 4) (by norm_num) (by norm_num) exS_hull exU_hull exM_hull exBlend (7/8, -8) (7/8, -8) (7/8, -8) (by decide +kernel)
  ⟨rfl, rfl, by norm_num⟩ ⟨by decide +kernel, 10, by decide +kernel⟩ ⟨by decide +kernel, 10, by decide +kernel⟩
example := C165_secondary_max_partial (s := 1 / 4) (by norm_num) (by norm_num) exS_hull exU_hull exM_hull (by decide +kernel) (by decide +kernel) (by decide +kernel)
  exApartS exApartU exM_apart exBlend (by decide +kernel) (by decide +kernel) 3 3 3 (7/8, -8) (7/8, -8) (7/8, -8) rfl rfl rfl ⟨rfl, rfl, by norm_num⟩
  (by norm_num) (by norm_num) ⟨by decide +kernel, 10, by decide +kernel⟩ ⟨by decide +kernel, 10, by decide +kernel⟩

open Verif.Props.TempLine (exG exAt exAB exBC exABC ex_at ex_nodup ex_compound ex_conserved)

/-- All corners of a triangle. -/
theorem triangle (x y : ℚ) (hx0 : 0 < x) (hx1 : x < 1) (hy : y ≠ 0) : HullIndices [((0 : ℚ), (0 : ℚ)), (x, y), (1, 0)] [0, 1, 2] := by
  refine ⟨by decide, ?_, ?_, ?_⟩
  · intro i hi
    simp only [List.mem_cons, List.not_mem_nil, or_false] at hi
    rcases hi with rfl | rfl | rfl
    · exact ⟨(0, 0), rfl, by simp, -1, 0, by simp; intros; linarith⟩
    · refine ⟨(x, y), rfl, by simp, 0, y, ?_⟩
      have : 0 < y * y := mul_self_pos.mpr hy
      simp [hy]
    · exact ⟨(1, 0), rfl, by simp, 1, 0, by simp; intros; linarith⟩
  · rintro p ⟨hp, -⟩
    simp only [List.mem_cons, List.not_mem_nil, or_false] at hp
    rcases hp with rfl | rfl | rfl
    · exact ⟨0, by simp, rfl⟩
    · exact ⟨1, by simp, rfl⟩
    · exact ⟨2, by simp, rfl⟩
  · intro i hi j hj h
    simp only [List.mem_cons, List.not_mem_nil, or_false] at hi hj
    rcases hi with rfl | rfl | rfl <;> rcases hj with rfl | rfl | rfl <;> simp_all

theorem ex_built (t : ℚ) (ht : t ∈ [(300 : ℚ), 400, 500]) : ∃ H, hullInit reactantEntries (fun e : Entry TComp => toy.red e.comp)
    (closedPlace toy ![1, 1, 0] ![0, 1, 1]) (energyPerAtom toy) (fun e => cinit toy [e] [1] [] none) Verif.Props.HullInit.exArgsort ![1, 1, 0] ![0, 1, 1]
    (rxnsAt toy exG [exAt t] [([exAB, exBC, exABC], [-1, -1, 1])]) = .ok H ∧ HullIndices H.coords [0, 1, 2] := by
  obtain ⟨H, h, hp⟩ := Verif.Props.Gibbs.ok_of (x := hullInit reactantEntries (fun e : Entry TComp => toy.red e.comp)
    (closedPlace toy ![1, 1, 0] ![0, 1, 1]) (energyPerAtom toy) (fun e => cinit toy [e] [1] [] none) Verif.Props.HullInit.exArgsort ![1, 1, 0] ![0, 1, 1]
    (rxnsAt toy exG [exAt t] [([exAB, exBC, exABC], [-1, -1, 1])]))
    (fun H => decide (H.coords = [(0, 0), (1 / 2, (H.coords.getD 1 (0, 0)).2), (1, 0)] ∧ (H.coords.getD 1 (0, 0)).2 ≠ 0)) (by
      revert t
      decide +kernel)
  have hp := of_decide_eq_true hp
  refine ⟨H, h, ?_⟩
  rw [hp.1]
  exact triangle _ _ (by norm_num) (by norm_num) hp.2

/-- The reaction AB + BC -> AB2C at 300 K, 400 K and 500 K. -/
example : ∃ x1 x2 x : CRxn TComp, ∃ c1 c2 c : ℚ × ℚ, energyPerAtom toy x1 = .ok c1.2 ∧ energyPerAtom toy x2 = .ok c2.2 ∧ energyPerAtom toy x = .ok c.2 ∧
    ∃ H1 H2 H : IRH, ∃ v1 v2 v, getPrimaryCompetition H1 c1.2 c1.1 = some v1 ∧ getPrimaryCompetition H2 c2.2 c2.1 = some v2 ∧
      getPrimaryCompetition H c.2 c.1 = some v ∧ v ≤ (1 - (400 - 300) / (500 - 300)) * v1 + (400 - 300) / (500 - 300) * v2 := by
  obtain ⟨H1, k1, q1⟩ := ex_built 300 (by simp)
  obtain ⟨H2, k2, q2⟩ := ex_built 500 (by simp)
  obtain ⟨H, k, q⟩ := ex_built 400 (by simp)
  obtain ⟨c1, c2, c, e1, e2, e3, ⟨v1, v2, v, hv⟩, -⟩ := C165_temperature toy toy_lawful exG _ _ Verif.Props.HullInit.exArgsort_sorts _ _
    [([exAB, exBC, exABC], [-1, -1, 1])]
    (by
      intro r hr
      rw [List.mem_singleton.mp hr]
      exact ⟨ex_nodup, ex_compound, ex_conserved⟩) 300 500 400 (by norm_num) (by norm_num) (by norm_num) [exAt 300] [exAt 500] [exAt 400]
    (.cons (ex_at 300 (by simp)) .nil) (.cons (ex_at 500 (by simp)) .nil) (.cons (ex_at 400 (by simp)) .nil) H1 H2 H k1 k2 k _ _ _ q1 q2 q 0 _ _ _ rfl rfl rfl
  exact ⟨_, _, _, c1, c2, c, e1.2, e2.2, e3.2, _, _, _, v1, v2, v, hv⟩

end Verif.Props.ScoreTemp
