import Verif.Lemmas.HullMirror
import Verif.Model.Reaction
import Mathlib.Algebra.Order.Floor.Ring

/-!
Property C127: the scores of a reaction on an interface do not depend on the order in which the reactions are listed, nor on which of the
two reactants is called the first one (src/rxn_network/reactions/hull.py; the jobs take the two reactants from a Python set,
src/rxn_network/jobs/core.py:739-752, so both orders occur).
-/

namespace Verif.Props.HullMirror
open Verif.Py Verif.Model.Hull Verif.Spec.Hull Verif.Lemmas.Hull Verif.Lemmas.HullConvex Verif.Lemmas.HullMirror
open Verif.Props.Hull Verif.Props.HullConvex Verif.Props.HullInit

/-- Specification: `h` is a hull object made from the points `pts` of the reactions: the points and the two end members in some order sorted by
coordinate (numpy's `argsort` may break ties in any way), and the corners found by the convex hull routine, in any order. -/
structure IsHullOf (pts : List (ℚ × ℚ)) (h : IRH) : Prop where
  perm : h.coords.Perm (pts ++ [(0, 0), (1, 0)])
  sorted : h.coords.Pairwise fun a b => a.1 ≤ b.1
  corners : HullIndices h.coords h.rawVertices

/-- Specification: the points with the two reactants exchanged. -/
def exchanged (pts : List (ℚ × ℚ)) : List (ℚ × ℚ) := pts.map fun p => (1 - p.1, p.2)

/-- Specification: the coordinate `x` is not within numpy's tolerance of the coordinate of a different corner of the lower hull. -/
def Apart1 (pts : List (ℚ × ℚ)) (x : ℚ) : Prop := ∀ p, LowerCorner pts p → isclose x p.1 = true → x = p.1

theorem coords_of {pts : List (ℚ × ℚ)} {h : IRH} (H : IsHullOf pts h) (hr : ∀ p ∈ pts, 0 ≤ p.1 ∧ p.1 ≤ 1) : Coords h.coords := by
  refine ⟨H.sorted, ?_, by rw [H.perm.mem_iff]; simp, by rw [H.perm.mem_iff]; simp⟩
  intro p hp
  rcases List.mem_append.mp (H.perm.mem_iff.mp hp) with h' | h'
  · exact hr p h'
  · simp only [List.mem_cons, List.not_mem_nil, or_false] at h'
    rcases h' with rfl | rfl <;> norm_num

theorem chain_of {pts : List (ℚ × ℚ)} {h : IRH} (H : IsHullOf pts h) (hr : ∀ p ∈ pts, 0 ≤ p.1 ∧ p.1 ≤ 1) (A : Apart' h.coords) :
    ∃ vs, GoodHull h vs ∧ ∀ p, p ∈ vs ↔ LowerCorner h.coords p := by
  obtain ⟨vs, G, hv⟩ := goodHull_of_indices (coords_of H hr) H.corners (apart_of A)
  exact ⟨vs, G, fun p => (hv p).trans (low_iff (coords_of H hr) p)⟩

theorem lowerCorner_congr {P Q : List (ℚ × ℚ)} (h : ∀ p, p ∈ P ↔ p ∈ Q) (p : ℚ × ℚ) : LowerCorner P p ↔ LowerCorner Q p := by
  unfold LowerCorner
  simp only [h]

theorem corner_congr {P Q : List (ℚ × ℚ)} (h : ∀ p, p ∈ P ↔ p ∈ Q) (p : ℚ × ℚ) : Corner P p ↔ Corner Q p := by
  unfold Corner
  simp only [h]

theorem apart_congr {P Q : List (ℚ × ℚ)} (h : ∀ p, p ∈ P ↔ p ∈ Q) (A : Apart' P) : Apart' Q :=
  ⟨fun p q hp hq hx hm => A.energy p q ((corner_congr h p).mpr hp) ((h q).mpr hq) hx fun r hr => hm r ((h r).mp hr),
    fun p q hp hq => A.coord p q ((corner_congr h p).mpr hp) ((corner_congr h q).mpr hq)⟩

theorem lowerCorner_mir {P Q : List (ℚ × ℚ)} (h : ∀ p, p ∈ Q ↔ mir p ∈ P) (p : ℚ × ℚ) : LowerCorner Q p ↔ LowerCorner P (mir p) := by
  constructor
  · rintro ⟨hp, s, hs⟩
    refine ⟨(h p).mp hp, -s, fun q hq hne => ?_⟩
    have := hs (mir q) ((h _).mpr (by simpa using hq)) (by rintro rfl; simp at hne)
    simp only [mir] at this ⊢
    linarith
  · rintro ⟨hp, s, hs⟩
    refine ⟨(h p).mpr hp, -s, fun q hq hne => ?_⟩
    have := hs (mir q) ((h q).mp hq) (by intro he; apply hne; have := congrArg mir he; simpa using this)
    simp only [mir] at this ⊢
    linarith

theorem mem_exchanged {P Q : List (ℚ × ℚ)} {h h' : IRH} (H : IsHullOf P h) (H' : IsHullOf Q h') (hp : Q.Perm (exchanged P)) (p : ℚ × ℚ) :
    p ∈ h'.coords ↔ mir p ∈ h.coords := by
  rw [H'.perm.mem_iff, H.perm.mem_iff, List.mem_append, List.mem_append, hp.mem_iff]
  unfold exchanged
  rw [List.mem_map]
  have e1 : (∃ a ∈ P, (1 - a.1, a.2) = p) ↔ mir p ∈ P := by
    constructor
    · rintro ⟨a, ha, rfl⟩
      have : mir (mir a) ∈ P := by simpa using ha
      exact this
    · intro hm; exact ⟨mir p, hm, by have := mir_mir p; unfold mir at this ⊢; exact this⟩
  rw [e1]
  obtain ⟨x, y⟩ := p
  simp only [mir, List.mem_cons, List.not_mem_nil, or_false, Prod.mk.injEq]
  constructor
  · rintro (h | ⟨rfl, rfl⟩ | ⟨rfl, rfl⟩)
    · exact Or.inl h
    · right; right; simp
    · right; left; simp
  · rintro (h | ⟨h, rfl⟩ | ⟨h, rfl⟩)
    · exact Or.inl h
    · right; right; exact ⟨by linarith, rfl⟩
    · right; left; exact ⟨by linarith, rfl⟩

/-! ### primary competition -/

/-- **C127, primary competition.** Listing the reactions in another order, or exchanging the two reactants, changes the primary competition of
no reaction. No tolerance is involved. -/
theorem C127_primary {P Q : List (ℚ × ℚ)} {h h' : IRH} (H : IsHullOf P h) (H' : IsHullOf Q h') (e x : ℚ) (hx : ∃ c ∈ h.coords, c.1 = x) :
    (Q.Perm P → getPrimaryCompetition h' e x = getPrimaryCompetition h e x) ∧
    (Q.Perm (exchanged P) → getPrimaryCompetition h' e (1 - x) = getPrimaryCompetition h e x) := by
  constructor
  · intro hp
    have hm : ∀ p, p ∈ h'.coords ↔ p ∈ h.coords := fun p => by
      rw [H'.perm.mem_iff, H.perm.mem_iff, List.mem_append, List.mem_append, hp.mem_iff]
    obtain ⟨c, hc, hcx⟩ := hx
    rw [primary_eq h H.sorted x e ⟨c, hc, hcx⟩, primary_eq h' H'.sorted x e ⟨c, (hm c).mpr hc, hcx⟩]
    congr 1
    apply min?_congr
    intro y
    simp only [List.mem_map, List.mem_filter, hm]
  · intro hp
    have hm := mem_exchanged H H' hp
    obtain ⟨c, hc, hcx⟩ := hx
    rw [primary_eq h H.sorted x e ⟨c, hc, hcx⟩,
      primary_eq h' H'.sorted (1 - x) e ⟨mir c, (hm _).mpr (by simpa using hc), by simp [mir, hcx]⟩]
    congr 1
    apply min?_congr
    intro y
    simp only [List.mem_map, List.mem_filter, hm, decide_eq_true_eq]
    constructor
    · rintro ⟨p, ⟨hp1, hp2⟩, rfl⟩
      exact ⟨mir p, ⟨hp1, fun hh => hp2 (by simp only [mir] at hh; linarith)⟩, rfl⟩
    · rintro ⟨p, ⟨hp1, hp2⟩, rfl⟩
      exact ⟨mir p, ⟨by simpa using hp1, fun hh => hp2 (by simp only [mir] at hh; linarith)⟩, rfl⟩

/-! ### order of the reactions -/

/-- **C127, order of the reactions.** Two hull objects made from the same reactions in different orders (and whatever order the hull routine
returns its corners in) give every reaction the same energy above the hull, and the same secondary competition in all variants. -/
theorem C127_order {P Q : List (ℚ × ℚ)} {h h' : IRH} (H : IsHullOf P h) (H' : IsHullOf Q h') (hp : Q.Perm P)
    (hr : ∀ p ∈ P, 0 ≤ p.1 ∧ p.1 ≤ 1) (A : Apart' h.coords) (i j : ℕ) (c : ℚ × ℚ) (hi : h.coords[i]? = some c)
    (hj : h'.coords[j]? = some c) (s : Apart1 h.coords c.1) :
    getEnergyAboveHull h' j = getEnergyAboveHull h i ∧
    (∀ normalize eHull, getSecondaryCompetition h' j normalize eHull = getSecondaryCompetition h i normalize eHull) ∧
    (∀ fuel normalize eHull, getSecondaryCompetitionRec h' fuel j normalize eHull = getSecondaryCompetitionRec h fuel i normalize eHull) ∧
    getSecondaryCompetitionMaxEnergy h' j = getSecondaryCompetitionMaxEnergy h i ∧
    getSecondaryCompetitionArea h' j = getSecondaryCompetitionArea h i := by
  have hm : ∀ p, p ∈ h.coords ↔ p ∈ h'.coords := fun p => by
    rw [H'.perm.mem_iff, H.perm.mem_iff, List.mem_append, List.mem_append, hp.mem_iff]
  obtain ⟨vs, G, hv⟩ := chain_of H hr A
  obtain ⟨vs', G', hv'⟩ := chain_of H' (fun p h => hr p (hp.mem_iff.mp h)) (apart_congr hm A)
  obtain rfl : vs' = vs := eq_of_strict G'.lower.strict G.lower.strict fun p => by
    rw [hv, hv', lowerCorner_congr hm]
  have a := (coords_of H hr).range c (List.mem_of_getElem? hi)
  have s' : Sep vs' c.1 := fun v hv1 => s v ((hv v).mp hv1)
  have l := range_same G G' (x1 := 0) (x2 := c.1) ⟨le_refl 0, zero_le_one⟩ a (sep_zero G) s'
  have r := range_same G G' (x1 := c.1) (x2 := 1) a ⟨zero_le_one, le_refl 1⟩ s' (sep_one G)
  have e := hullEnergy_same G G' a s'
  have eh : getEnergyAboveHull h' j = getEnergyAboveHull h i := by unfold getEnergyAboveHull; simp only [hi, hj, e, Option.bind_eq_bind, Option.bind_some]
  refine ⟨eh, fun n b => ?_, fun fuel n b => ?_, ?_, ?_⟩
  · unfold getSecondaryCompetition getDecompositionEnergy
    simp only [hi, hj, Option.bind_eq_bind, Option.bind_some, l, r, eh]
  · unfold getSecondaryCompetitionRec
    simp only [hi, hj, Option.bind_eq_bind, Option.bind_some, eh,
      rec_same G G' fuel (x1 := 0) (x2 := c.1) ⟨le_refl 0, zero_le_one⟩ a (sep_zero G) s',
      rec_same G G' fuel (x1 := c.1) (x2 := 1) a ⟨zero_le_one, le_refl 1⟩ s' (sep_one G)]
  · unfold getSecondaryCompetitionMaxEnergy getMaxDecompositionEnergy
    simp only [hi, hj, Option.bind_eq_bind, Option.bind_some, l, r]
  · unfold getSecondaryCompetitionArea getDecompositionArea
    simp only [hi, hj, Option.bind_eq_bind, Option.bind_some, l, r]

/-! ### exchanging the reactants -/

theorem option_bind_comm {α β γ : Type} (a : Option α) (b : Option β) (f : α → β → Option γ) :
    (a.bind fun x => b.bind fun y => f x y) = b.bind fun y => a.bind fun x => f x y := by
  cases a <;> cases b <;> rfl

/-- **C127, exchanging the reactants.** When the two reactants are exchanged, every reaction keeps its energy above the hull and its secondary
competition (all options, the maximum-energy variant and the area variant), if on both hulls no coordinate is within numpy's tolerance of a
different corner. Missing for the full claim: coordinates within the tolerance (`C127_tolerance_violated`) and the recursive variant
(`C127_recursive_violated`). -/
theorem C127_exchange_partial {P Q : List (ℚ × ℚ)} {h h' : IRH} (H : IsHullOf P h) (H' : IsHullOf Q h') (hp : Q.Perm (exchanged P))
    (hr : ∀ p ∈ P, 0 ≤ p.1 ∧ p.1 ≤ 1) (A : Apart' h.coords) (A' : Apart' h'.coords) (i j : ℕ) (c : ℚ × ℚ) (hi : h.coords[i]? = some c)
    (hj : h'.coords[j]? = some (1 - c.1, c.2)) (s : Apart1 h.coords c.1) (s' : Apart1 h'.coords (1 - c.1)) :
    getEnergyAboveHull h' j = getEnergyAboveHull h i ∧
    (∀ normalize eHull, getSecondaryCompetition h' j normalize eHull = getSecondaryCompetition h i normalize eHull) ∧
    getSecondaryCompetitionMaxEnergy h' j = getSecondaryCompetitionMaxEnergy h i ∧
    getSecondaryCompetitionArea h' j = getSecondaryCompetitionArea h i := by
  have hm := mem_exchanged H H' hp
  have hr' : ∀ p ∈ Q, 0 ≤ p.1 ∧ p.1 ≤ 1 := by
    intro p h
    obtain ⟨q, hq, rfl⟩ := List.mem_map.mp (hp.mem_iff.mp h)
    have := hr q hq
    exact ⟨by linarith, by linarith⟩
  obtain ⟨vs, G, hv⟩ := chain_of H hr A
  obtain ⟨vs', G', hv'⟩ := chain_of H' hr' A'
  have hst : (mirL vs).Pairwise fun a b => a.1 < b.1 := by
    unfold mirL
    rw [List.pairwise_reverse, List.pairwise_map]
    exact G.lower.strict.imp fun {a b} h => by simp only [mir]; linarith
  obtain rfl : vs' = mirL vs := eq_of_strict G'.lower.strict hst fun p => by
    rw [hv', mem_mirL, hv, lowerCorner_mir hm]
  have a := (coords_of H hr).range c (List.mem_of_getElem? hi)
  have t : Sep vs c.1 := fun v hv1 => s v ((hv v).mp hv1)
  have t' : Sep (mirL vs) (1 - c.1) := fun v hv1 => s' v ((hv' v).mp hv1)
  have z0 := sep_zero G
  have z1 := sep_one G
  have z0' := sep_zero G'
  have z1' := sep_one G'
  obtain ⟨L, hL, hL', wL⟩ := range_mirL G G' (x1 := 0) (x2 := c.1) (le_refl 0) a.1 a.2 z0 t (by simpa using z1') t'
  obtain ⟨R, hR, hR', wR⟩ := range_mirL G G' (x1 := c.1) (x2 := 1) a.1 a.2 (le_refl 1) t z1 t' (by simpa using z0')
  rw [sub_zero] at hL'
  rw [sub_self] at hR'
  have e := hullEnergy_mirL G G' a t t'
  have eh : getEnergyAboveHull h' j = getEnergyAboveHull h i := by unfold getEnergyAboveHull; simp only [hi, hj, e, Option.bind_eq_bind, Option.bind_some]
  refine ⟨eh, fun n b => ?_, ?_, ?_⟩
  · unfold getSecondaryCompetition getDecompositionEnergy
    simp only [hi, hj, Option.bind_eq_bind, Option.bind_some, hL, hL', hR, hR', eh, decomp_mirL L wL, decomp_mirL R wR, length_mirL]
    cases decompositionEnergy L <;> cases decompositionEnergy R <;> cases count ((L.length : ℤ) - 2) <;> cases count ((R.length : ℤ) - 2) <;>
      simp only [Option.bind_some, Option.bind_none]
    simp only [combineSides_comm]
  · unfold getSecondaryCompetitionMaxEnergy getMaxDecompositionEnergy
    simp only [hi, hj, Option.bind_eq_bind, Option.bind_some, hL, hL', hR, hR', maxDecomp_mirL L wL, maxDecomp_mirL R wR]
    rw [option_bind_comm]
    congr 1
    funext l
    congr 1
    funext r
    rw [add_comm]
  · have area : ∀ S : List (ℚ × ℚ), (if (mirL S).length = 2 then pure 0 else if (mirL S).length < 3 then none else pure (fanArea (mirL S)) : Option ℚ)
        = if S.length = 2 then pure 0 else if S.length < 3 then none else pure (fanArea S) := by
      intro S; rw [length_mirL, fanArea_mirL]
    unfold getSecondaryCompetitionArea getDecompositionArea
    simp only [hi, hj, Option.bind_eq_bind, Option.bind_some, hL, hL', hR, hR', area]
    rw [option_bind_comm]
    congr 1
    funext l
    congr 1
    funext r
    rw [add_comm]

/-! ### where the exchange is caused: the coordinate and the constructor -/

theorem roundHalfEven_reflect (y : ℚ) (n : ℤ) (hn : n % 2 = 0) : roundHalfEven (n - y) = n - roundHalfEven y := by
  by_cases hy : y = ⌊y⌋
  · have e : (n : ℚ) - y = ((n - ⌊y⌋ : ℤ) : ℚ) := by rw [Int.cast_sub, ← hy]
    have f1 : ⌊(n : ℚ) - y⌋ = n - ⌊y⌋ := by rw [e, Int.floor_intCast]
    unfold roundHalfEven
    have h1 : (n : ℚ) - y - ⌊(n : ℚ) - y⌋ < 1 / 2 := by rw [f1, e]; simp
    have h2 : y - ⌊y⌋ < 1 / 2 := by rw [← hy]; simp
    rw [if_pos h1, if_pos h2, f1]
  · have l1 := Int.floor_le y
    have l2 := Int.lt_floor_add_one y
    have l3 : (⌊y⌋ : ℚ) < y := lt_of_le_of_ne l1 (Ne.symm hy)
    have f1 : ⌊(n : ℚ) - y⌋ = n - ⌊y⌋ - 1 := by
      rw [Int.floor_eq_iff]
      push_cast
      constructor <;> linarith
    unfold roundHalfEven
    rw [f1]
    push_cast
    by_cases h1 : y - ⌊y⌋ < 1 / 2
    · rw [if_pos h1, if_neg (by linarith), if_pos (by linarith)]
      ring
    · by_cases h2 : 1 / 2 < y - ⌊y⌋
      · rw [if_neg h1, if_pos h2, if_pos (by linarith)]
        ring
      · have h3 : y - ⌊y⌋ = 1 / 2 := le_antisymm (not_lt.mp h2) (not_lt.mp h1)
        rw [if_neg h1, if_neg h2, if_neg (by linarith), if_neg (by linarith)]
        by_cases h4 : ⌊y⌋ % 2 = 0
        · rw [if_pos h4, if_neg (by omega)]; ring
        · rw [if_neg h4, if_pos (by omega)]; ring

/-- **C127, coordinate.** Exchanging the two reactants turns the coordinate `x` of a reaction into `1 - x`, including the rounding to twelve
digits; where one has no coordinate, the other has none. -/
theorem C127_coordinate {κ : Type} [DecidableEq κ] (c1 c2 : κ) (fr : Except Err (List (κ × ℚ))) :
    Verif.Model.Reaction.coordinate c2 c1 fr = (Verif.Model.Reaction.coordinate c1 c2 fr).map fun x => 1 - x := by
  unfold Verif.Model.Reaction.coordinate
  cases fr with
  | error e => rfl
  | ok f =>
    simp only
    set a := (dictGet f c1).getD 0
    set b := (dictGet f c2).getD 0
    by_cases h : a + b = 0
    · rw [if_pos h, if_pos (by rw [add_comm]; exact h)]; rfl
    · rw [if_neg h, if_neg (by rw [add_comm]; exact h)]
      show _ = Except.ok _
      congr 1
      have e : a / (b + a) * 10 ^ 12 = (((10 : ℤ) ^ 12 : ℤ) : ℚ) - b / (a + b) * 10 ^ 12 := by
        push_cast
        rw [add_comm b a]
        field_simp
        ring
      unfold roundDigits
      rw [e, roundHalfEven_reflect _ _ (by decide)]
      rw [Int.cast_sub, sub_div]
      congr 1
      norm_num

theorem forall₂_perm {ρ α : Type} (R : ρ → α → Prop) (hR : ∀ r a b, R r a → R r b → a = b) :
    ∀ {rs rs' : List ρ} {ps ps' : List α}, rs'.Perm rs → List.Forall₂ R rs ps → List.Forall₂ R rs' ps' → ps'.Perm ps := by
  have uniq : ∀ {rs : List ρ} {ps ps' : List α}, List.Forall₂ R rs ps → List.Forall₂ R rs ps' → ps' = ps := by
    intro rs ps ps' h1
    induction h1 generalizing ps' with
    | nil => intro h; cases h; rfl
    | cons h _ ih => intro h'; cases h' with
      | cons h3 h4 => rw [hR _ _ _ h h3, ih h4]
  intro rs rs' ps ps' hp
  induction hp generalizing ps ps' with
  | nil => intro h1 h2; cases h1; cases h2; exact List.Perm.refl _
  | cons x _ ih =>
    intro h1 h2
    cases h1 with
    | cons a b => cases h2 with
      | cons a' b' => rw [hR _ _ _ a a']; exact (ih b b').cons _
  | swap x y l =>
    intro h1 h2
    cases h1 with
    | cons a b => cases b with
      | cons b c => cases h2 with
        | cons a' b' => cases b' with
          | cons b' c' =>
            rw [hR _ _ _ a b', hR _ _ _ b a', uniq c c']
            exact List.Perm.swap _ _ _
  | @trans l1 l2 l3 hp1 hp2 ih1 ih2 =>
    intro h1 h2
    -- the middle list has its own values
    obtain ⟨q, hq⟩ : ∃ q, List.Forall₂ R l2 q := by
      have hall : ∀ r ∈ l2, ∃ a, R r a := fun r hr => by
        have : ∃ a ∈ ps, R r a := by
          have hr' := hp2.subset hr
          clear hp1 hp2 ih1 ih2 h2 hr
          induction h1 with
          | nil => simp at hr'
          | cons h _ ih =>
            rcases List.mem_cons.mp hr' with rfl | hr'
            · exact ⟨_, by simp, h⟩
            · obtain ⟨a, ha, hr⟩ := ih hr'; exact ⟨a, by simp [ha], hr⟩
        obtain ⟨a, _, h⟩ := this
        exact ⟨a, h⟩
      clear hp1 hp2 ih1 ih2 h1 h2
      induction l2 with
      | nil => exact ⟨[], List.Forall₂.nil⟩
      | cons r l2 ih =>
        obtain ⟨a, ha⟩ := hall r (by simp)
        obtain ⟨q, hq⟩ := ih fun r hr => hall r (by simp [hr])
        exact ⟨a :: q, List.Forall₂.cons ha hq⟩
    exact (ih1 hq h2).trans (ih2 h1 hq)

/-- **C127, construction.** Building the hull with the two reactants exchanged and the reactions listed in another order succeeds under the same
conditions, and the two objects are made from exchanged points. So the theorems above apply to them. -/
theorem C127_constructed {ρ η κ : Type} [DecidableEq κ] (reactants : ρ → List η) (red : η → κ) (coord epa : ρ → Except Err ℚ)
    (ident : η → ρ) (argsort : List ℚ → List ℕ) (hsort : SortsBy argsort) (c1 c2 : κ) (rs rs' : List ρ) (hp : rs'.Perm rs) :
    ((∃ h, hullInit reactants red coord epa ident argsort c1 c2 rs = .ok h) ↔
      ∃ h, hullInit reactants red (fun r => (coord r).map fun x => 1 - x) epa ident argsort c2 c1 rs' = .ok h) ∧
    ∀ h h', hullInit reactants red coord epa ident argsort c1 c2 rs = .ok h →
      hullInit reactants red (fun r => (coord r).map fun x => 1 - x) epa ident argsort c2 c1 rs' = .ok h' →
      ∃ P Q, Q.Perm (exchanged P) ∧ ∀ raw raw', HullIndices h.coords raw → HullIndices h'.coords raw' →
        IsHullOf P ⟨h.coords, raw⟩ ∧ IsHullOf Q ⟨h'.coords, raw'⟩ := by
  constructor
  · obtain ⟨n1, n2⟩ := C92_raises reactants red coord epa ident argsort c1 c2 rs
    obtain ⟨m1, m2⟩ := C92_raises reactants red (fun r => (coord r).map fun x => 1 - x) epa ident argsort c2 c1 rs'
    have hb : BothOccur reactants red c2 c1 rs' ↔ BothOccur reactants red c1 c2 rs := by
      unfold BothOccur
      simp only [hp.mem_iff]
      exact ⟨fun h => ⟨fun e => h.1 e.symm, h.2.2, h.2.1⟩, fun h => ⟨fun e => h.1 e.symm, h.2.2, h.2.1⟩⟩
    have hco : ∀ r, (∃ x, (coord r).map (fun x => 1 - x) = .ok x) ↔ ∃ x, coord r = .ok x := by
      intro r
      cases coord r with
      | error e => simp [Except.map]
      | ok x => simp [Except.map]
    by_cases h : BothOccur reactants red c1 c2 rs
    · rw [(n2 h).1, (m2 (hb.mpr h)).1]
      simp only [hp.mem_iff, hco]
    · rw [n1 h, m1 (fun h' => h (hb.mp h'))]
  · intro h h' e1 e2
    obtain ⟨_, _, P, _, _, _, _, f1, _, _, _, q1, t1⟩ := C92_aligned reactants red coord epa ident argsort hsort c1 c2 rs h e1
    obtain ⟨_, _, Q, _, _, _, _, f2, _, _, _, q2, t2⟩ :=
      C92_aligned reactants red (fun r => (coord r).map fun x => 1 - x) epa ident argsort hsort c2 c1 rs' h' e2
    refine ⟨P, Q, ?_, fun raw raw' r1 r2 => ⟨⟨q1, t1, r1⟩, ⟨q2, t2, r2⟩⟩⟩
    have f1' : List.Forall₂ (fun r (p : ℚ × ℚ) => (coord r).map (fun x => 1 - x) = .ok p.1 ∧ epa r = .ok p.2) rs (exchanged P) := by
      clear q1
      unfold exchanged
      rw [List.forall₂_map_right_iff]
      exact f1.imp fun {r p} h => ⟨by rw [h.1]; rfl, h.2⟩
    refine forall₂_perm _ ?_ hp f1' f2
    rintro r ⟨a, b⟩ ⟨a', b'⟩ ⟨g1, g2⟩ ⟨g3, g4⟩
    rw [g1] at g3
    rw [g2] at g4
    cases g3
    cases g4
    rfl

/-! ### violations and examples -/

/-- every listed point is a corner, so the hull routine returns all indices -/
theorem indices_of_corners {pts : List (ℚ × ℚ)} (hn : pts.Nodup)
    (hc : ∀ p ∈ pts, ∃ u w : ℚ, ∀ q ∈ pts, q ≠ p → u * q.1 + w * q.2 < u * p.1 + w * p.2) :
    HullIndices pts (List.range pts.length) := by
  refine ⟨List.nodup_range, fun i hi => ?_, fun p hp => ?_, fun i hi j hj h => ?_⟩
  · rw [List.mem_range] at hi
    exact ⟨pts[i], List.getElem?_eq_getElem hi, List.getElem_mem hi, hc _ (List.getElem_mem hi)⟩
  · obtain ⟨i, hi, rfl⟩ := List.getElem_of_mem hp.1
    exact ⟨i, by simpa using hi, List.getElem?_eq_getElem hi⟩
  · rw [List.mem_range] at hi hj
    rw [List.getElem?_eq_getElem hi, List.getElem?_eq_getElem hj] at h
    exact hn.getElem_inj_iff.mp (Option.some.inj h)

/-- A hull on which the first reactant decomposes, with three reactions of both reactants. -/
def exP : List (ℚ × ℚ) := [(0, -1), (1/4, -2), (1/2, -5/2), (3/4, -2)]
def exA : IRH := ⟨[(0, 0), (0, -1), (1/4, -2), (1/2, -5/2), (3/4, -2), (1, 0)], List.range 6⟩
def exB : IRH := ⟨[(0, 0), (1/4, -2), (1/2, -5/2), (3/4, -2), (1, -1), (1, 0)], List.range 6⟩

theorem exA_hull : IsHullOf exP exA :=
  ⟨by decide +kernel, by decide +kernel, indices_of_corners (pts := exA.coords) (by decide +kernel) (by
    intro p hp
    have hp : p ∈ [((0 : ℚ), (0 : ℚ)), (0, -1), (1/4, -2), (1/2, -5/2), (3/4, -2), (1, 0)] := hp
    simp only [List.mem_cons, List.not_mem_nil, or_false] at hp
    rcases hp with rfl | rfl | rfl | rfl | rfl | rfl
    · exact ⟨-1, 1, by decide +kernel⟩
    · exact ⟨-5, -1, by decide +kernel⟩
    · exact ⟨-3, -1, by decide +kernel⟩
    · exact ⟨0, -1, by decide +kernel⟩
    · exact ⟨5, -1, by decide +kernel⟩
    · exact ⟨10, 1, by decide +kernel⟩)⟩

theorem exB_hull : IsHullOf (exchanged exP) exB :=
  ⟨by decide +kernel, by decide +kernel, indices_of_corners (pts := exB.coords) (by decide +kernel) (by
    intro p hp
    have hp : p ∈ [((0 : ℚ), (0 : ℚ)), (1/4, -2), (1/2, -5/2), (3/4, -2), (1, -1), (1, 0)] := hp
    simp only [List.mem_cons, List.not_mem_nil, or_false] at hp
    rcases hp with rfl | rfl | rfl | rfl | rfl | rfl
    · exact ⟨-10, 1, by decide +kernel⟩
    · exact ⟨-5, -1, by decide +kernel⟩
    · exact ⟨0, -1, by decide +kernel⟩
    · exact ⟨3, -1, by decide +kernel⟩
    · exact ⟨5, -1, by decide +kernel⟩
    · exact ⟨1, 1, by decide +kernel⟩)⟩

theorem apart_of_list {pts : List (ℚ × ℚ)} (h1 : ∀ p ∈ pts, ∀ q ∈ pts, isclose q.2 p.2 = true → q.1 = p.1 → q.2 = p.2)
    (h2 : ∀ p ∈ pts, ∀ q ∈ pts, isclose p.1 q.1 = true → p.1 = q.1) : Apart' pts :=
  ⟨fun p q hp hq hx _ hc => h1 p hp.1 q hq hc hx, fun p q hp hq => h2 p hp.1 q hq.1⟩

-- the hypotheses of the partial theorem hold for the reaction at 1/2 of this pair of hulls, and its scores agree
example := C127_exchange_partial exA_hull exB_hull (List.Perm.refl _) (by decide +kernel)
  (apart_of_list (by decide +kernel) (by decide +kernel)) (apart_of_list (by decide +kernel) (by decide +kernel)) 3 2 (1/2, -5/2)
  (by decide +kernel) (by decide +kernel)
  (fun p hp => (by decide +kernel : ∀ q ∈ exA.coords, isclose (1/2) q.1 = true → 1/2 = q.1) p hp.1)
  (fun p hp => (by decide +kernel : ∀ q ∈ exB.coords, isclose (1 - 1/2) q.1 = true → 1 - 1/2 = q.1) p hp.1)
example : getSecondaryCompetition exA 3 true true = some (9/4) ∧ getSecondaryCompetition exB 2 true true = some (9/4) := by decide +kernel
example : getPrimaryCompetition exA (-2) (1/4) = some (1/2) ∧ getPrimaryCompetition exB (-2) (3/4) = some (1/2) := by decide +kernel

-- the same reactions listed in another order
example := C127_order exA_hull (h' := exA) (Q := [(3/4, -2), (0, -1), (1/2, -5/2), (1/4, -2)])
  ⟨by decide +kernel, exA_hull.sorted, exA_hull.corners⟩ (by decide +kernel) (by decide +kernel)
  (apart_of_list (by decide +kernel) (by decide +kernel)) 3 3 (1/2, -5/2) (by decide +kernel) (by decide +kernel)
  (fun p hp => (by decide +kernel : ∀ q ∈ exA.coords, isclose (1/2) q.1 = true → 1/2 = q.1) p hp.1)

/-- **C127, the recursive variant.** When one of the reactants decomposes, the recursive form of the secondary competition depends on which
reactant is called the first one: the same reaction scores `7/4` in one order and `9/4` in the other. -/
theorem C127_recursive_violated :
    ∃ (P : List (ℚ × ℚ)) (h h' : IRH), IsHullOf P h ∧ IsHullOf (exchanged P) h' ∧ Apart' h.coords ∧ Apart' h'.coords ∧
      h.coords[3]? = some ((1/2 : ℚ), (-5/2 : ℚ)) ∧ h'.coords[2]? = some ((1 - 1/2 : ℚ), (-5/2 : ℚ)) ∧
      getSecondaryCompetitionRec h 10 3 true true = some (7/4) ∧ getSecondaryCompetitionRec h' 10 2 true true = some (9/4) :=
  ⟨exP, exA, exB, exA_hull, exB_hull, apart_of_list (by decide +kernel) (by decide +kernel),
    apart_of_list (by decide +kernel) (by decide +kernel), by decide +kernel, by decide +kernel, by decide +kernel, by decide +kernel⟩

def tolA : IRH := ⟨[(0, 0), (1/2, -1), (199999/200000, 1), (1, 0)], List.range 4⟩
def tolB : IRH := ⟨[(0, 0), (1/200000, 1), (1/2, -1), (1, 0)], List.range 4⟩

/-- **C127, tolerance.** `np.isclose` allows 1e-8 near 0 and 1e-5 near 1. So a reaction with a trace of one reactant has a different energy above
the hull when the reactants are exchanged. -/
theorem C127_tolerance_violated :
    ∃ (P : List (ℚ × ℚ)) (h h' : IRH) (c : ℚ × ℚ), IsHullOf P h ∧ IsHullOf (exchanged P) h' ∧
      h.coords[2]? = some c ∧ h'.coords[1]? = some (1 - c.1, c.2) ∧
      getEnergyAboveHull h 2 = some 1 ∧ getEnergyAboveHull h' 1 = some (100001/100000) := by
  refine ⟨[(1/2, -1), (199999/200000, 1)], tolA, tolB, (199999/200000, 1),
    ⟨by decide +kernel, by decide +kernel, indices_of_corners (pts := tolA.coords) (by decide +kernel) ?_⟩,
    ⟨by decide +kernel, by decide +kernel, indices_of_corners (pts := tolB.coords) (by decide +kernel) ?_⟩,
    by decide +kernel, by decide +kernel, by decide +kernel, by decide +kernel⟩
  · intro p hp
    have hp : p ∈ [((0 : ℚ), (0 : ℚ)), (1/2, -1), (199999/200000, 1), (1, 0)] := hp
    simp only [List.mem_cons, List.not_mem_nil, or_false] at hp
    rcases hp with rfl | rfl | rfl | rfl
    · exact ⟨-1, 0, by decide +kernel⟩
    · exact ⟨0, -1, by decide +kernel⟩
    · exact ⟨0, 1, by decide +kernel⟩
    · exact ⟨1, 0, by decide +kernel⟩
  · intro p hp
    have hp : p ∈ [((0 : ℚ), (0 : ℚ)), (1/200000, 1), (1/2, -1), (1, 0)] := hp
    simp only [List.mem_cons, List.not_mem_nil, or_false] at hp
    rcases hp with rfl | rfl | rfl | rfl
    · exact ⟨-1, 0, by decide +kernel⟩
    · exact ⟨0, 1, by decide +kernel⟩
    · exact ⟨0, -1, by decide +kernel⟩
    · exact ⟨1, 0, by decide +kernel⟩

-- a reaction of 1 part `A` and 3 parts `B` (by atoms) has coordinate 3/4 or 1/4
example : Verif.Model.Reaction.coordinate 1 2 (.ok [(1, (1/4 : ℚ)), (2, 3/4)]) = .ok (3/4) ∧
    Verif.Model.Reaction.coordinate 2 1 (.ok [(1, (1/4 : ℚ)), (2, 3/4)]) = .ok (1/4) := by decide +kernel

example := C127_primary exA_hull exB_hull (-2) (1/4) ⟨(1/4, -2), by decide +kernel, rfl⟩
example := C127_coordinate 1 2 (.ok [(1, (1/4 : ℚ)), (2, 3/4)])
example := C127_constructed (fun _ : ℚ × ℚ => [0, 1]) (fun n : ℕ => n) (fun r => .ok r.1) (fun r => .ok r.2) (fun n => (n, 0))
  Verif.Props.HullInit.exArgsort Verif.Props.HullInit.exArgsort_sorts 0 1 [(1/2, -2), (1/4, -1/2)] [(1/4, -1/2), (1/2, -2)] (by decide +kernel)

end Verif.Props.HullMirror
