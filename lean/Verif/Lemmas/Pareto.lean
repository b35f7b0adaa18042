import Verif.Model.Pareto
import Verif.Spec.Pareto
import Mathlib.Tactic.Linarith

namespace Verif.Lemmas.Pareto
open Verif.Model.Pareto Verif.Spec.Pareto

theorem le_iff {a b : List ℚ} (h : a.length = b.length) : AtLeastAsGood a b ↔ anyLt b a = false := by
  unfold AtLeastAsGood anyLt
  induction a generalizing b with
  | nil => cases b with
    | nil => simp
    | cons => simp at h
  | cons x a ih =>
    cases b with
    | nil => simp at h
    | cons y b =>
      simp only [List.length_cons, Nat.add_right_cancel_iff] at h
      simp [ih h]

theorem alg_refl (a : List ℚ) : AtLeastAsGood a a := List.forall₂_same.mpr fun _ _ => le_refl _

theorem alg_trans {a b c : List ℚ} (h : AtLeastAsGood a b) (h' : AtLeastAsGood b c) : AtLeastAsGood a c := by
  unfold AtLeastAsGood at *
  induction h generalizing c with
  | nil => cases h'; exact .nil
  | cons hxy _ ih => cases h' with
    | cons hyz h2 => exact .cons (hxy.trans hyz) (ih h2)

theorem alg_antisymm {a b : List ℚ} (h : AtLeastAsGood a b) (h' : AtLeastAsGood b a) : a = b := by
  unfold AtLeastAsGood at *
  induction h with
  | nil => rfl
  | cons hxy _ ih => cases h' with
    | cons hyx h2 => rw [le_antisymm hxy hyx, ih h2]

theorem zip_filter_map {α : Type*} (l : List α) (f : α → Bool) :
    ((l.zip (l.map f)).filter fun q => q.2).map Prod.fst = l.filter f := by
  induction l with
  | nil => rfl
  | cons a l ih => cases h : f a <;> simp [h, ih]

theorem step_spec (A B : List (ℕ × List ℚ)) (p : ℕ × List ℚ) :
    step (A ++ p :: B) A.length
      = some (A.filter (fun q => anyLt q.2 p.2) ++ p :: B.filter (fun q => anyLt q.2 p.2),
          (A.filter (fun q => anyLt q.2 p.2)).length + 1) := by
  have hp : (A ++ p :: B)[A.length]? = some p := by simp
  have hmaskA : ∀ (A : List (ℕ × List ℚ)) (k n : ℕ), k + A.length ≤ n →
      (A.zipIdx k).map (fun qi => decide (qi.2 = n) || anyLt qi.1.2 p.2) = A.map fun q => anyLt q.2 p.2 := by
    intro A
    induction A with
    | nil => intros; rfl
    | cons a A ih =>
      intro k n hk
      simp only [List.length_cons] at hk
      simp only [List.zipIdx_cons, List.map_cons]
      rw [ih (k + 1) n (by omega)]
      have : decide (k = n) = false := by simp; omega
      simp [this]
  have hmaskB : ∀ (A : List (ℕ × List ℚ)) (k n : ℕ), n < k →
      (A.zipIdx k).map (fun qi => decide (qi.2 = n) || anyLt qi.1.2 p.2) = A.map fun q => anyLt q.2 p.2 := by
    intro A
    induction A with
    | nil => intros; rfl
    | cons a A ih =>
      intro k n hk
      simp only [List.zipIdx_cons, List.map_cons]
      rw [ih (k + 1) n (by omega)]
      have : decide (k = n) = false := by simp; omega
      simp [this]
  have hmask : (A ++ p :: B).zipIdx.map (fun qi => decide (qi.2 = A.length) || anyLt qi.1.2 p.2)
      = A.map (fun q => anyLt q.2 p.2) ++ true :: B.map (fun q => anyLt q.2 p.2) := by
    rw [List.zipIdx_append, List.map_append, hmaskA A 0 A.length (by omega), List.zipIdx_cons, List.map_cons,
      hmaskB B _ _ (by omega)]
    simp
  simp only [step, hp, Option.bind_eq_bind, Option.bind_some, hmask, Option.pure_def, Option.some.injEq, Prod.mk.injEq]
  constructor
  · rw [List.zip_append (by simp), List.filter_append, List.map_append, zip_filter_map]
    congr 1
    simp [zip_filter_map]
  · rw [List.take_left' (by simp), List.filter_map, List.length_map]
    rfl

/-- Loop invariant: `orig` is the whole table with indices. -/
structure Inv (orig A B : List (ℕ × List ℚ)) : Prop where
  sub : (A ++ B).Sublist orig
  good : ∀ p ∈ A, ∀ q ∈ A ++ B, q ≠ p → ¬ AtLeastAsGood p.2 q.2
  removed : ∀ q ∈ orig, q ∉ A ++ B → ∃ p ∈ A ++ B, AtLeastAsGood p.2 q.2 ∧ (p.2 = q.2 → p.1 < q.1)

theorem inv_step {orig A B : List (ℕ × List ℚ)} {p} (d : ℕ) (hd : ∀ q ∈ orig, q.2.length = d)
    (hs : orig.Pairwise fun a b => a.1 < b.1) (I : Inv orig A (p :: B)) :
    Inv orig (A.filter (fun q => anyLt q.2 p.2) ++ [p]) (B.filter (fun q => anyLt q.2 p.2)) := by
  have hmem : ∀ q, q ∈ A ++ p :: B → q ∈ orig := fun q hq => I.sub.subset hq
  have hpo := hmem p (by simp)
  have hsub : (A.filter (fun q => anyLt q.2 p.2) ++ [p] ++ B.filter (fun q => anyLt q.2 p.2)).Sublist (A ++ p :: B) := by
    rw [List.append_assoc]
    exact List.filter_sublist.append (by simp)
  have hpw := hs.sublist I.sub
  refine ⟨hsub.trans I.sub, ?_, ?_⟩
  · intro r hr q hq hne hle
    rcases List.mem_append.mp hr with hr | hr
    · exact I.good r (List.mem_of_mem_filter hr) q (hsub.subset hq) hne hle
    · simp only [List.mem_singleton] at hr
      subst hr
      have hq' : q ∈ A.filter (fun q => anyLt q.2 r.2) ∨ q ∈ B.filter (fun q => anyLt q.2 r.2) := by
        simp only [List.mem_append, List.mem_singleton] at hq
        rcases hq with (h | h) | h
        · exact Or.inl h
        · exact absurd h hne
        · exact Or.inr h
      have hlt : anyLt q.2 r.2 = true := by
        rcases hq' with h | h <;> exact (List.mem_filter.mp h).2
      have hlen : r.2.length = q.2.length := by rw [hd r hpo, hd q (hmem q (hsub.subset hq))]
      rw [le_iff hlen, hlt] at hle
      exact absurd hle (by simp)
  · -- removed elements
    -- first: an element of the old list that was filtered out is covered by p
    have hcov : ∀ q ∈ A ++ p :: B, q ∉ A.filter (fun q => anyLt q.2 p.2) ++ [p] ++ B.filter (fun q => anyLt q.2 p.2) →
        AtLeastAsGood p.2 q.2 ∧ (p.2 = q.2 → p.1 < q.1) := by
      intro q hq hnq
      simp only [List.mem_append, List.mem_singleton, List.mem_filter, not_or, not_and] at hnq
      obtain ⟨⟨hA, hp⟩, hB⟩ := hnq
      have hlen : p.2.length = q.2.length := by rw [hd p hpo, hd q (hmem q hq)]
      have hno : anyLt q.2 p.2 = false := by
        rcases List.mem_append.mp hq with h | h
        · simpa using hA h
        · rcases List.mem_cons.mp h with h | h
          · exact absurd h hp
          · simpa using hB h
      refine ⟨(le_iff hlen).mpr hno, ?_⟩
      intro heq
      rw [List.pairwise_append] at hpw
      rcases List.mem_append.mp hq with h | h
      · exfalso
        refine I.good q h p (by simp) (Ne.symm hp) ?_
        rw [heq]; exact alg_refl _
      · rcases List.mem_cons.mp h with h | h
        · exact absurd h hp
        · exact (List.pairwise_cons.mp hpw.2.1).1 q h
    intro q hq hnq
    by_cases hin : q ∈ A ++ p :: B
    · exact ⟨p, by simp, hcov q hin hnq⟩
    · obtain ⟨r, hr, h1, h2⟩ := I.removed q hq hin
      by_cases hr' : r ∈ A.filter (fun q => anyLt q.2 p.2) ++ [p] ++ B.filter (fun q => anyLt q.2 p.2)
      · exact ⟨r, hr', h1, h2⟩
      · obtain ⟨h3, h4⟩ := hcov r hr hr'
        refine ⟨p, by simp, alg_trans h3 h1, ?_⟩
        intro heq
        have e : r.2 = q.2 := by
          apply alg_antisymm h1
          rw [← heq]; exact h3
        exact (h4 (heq.trans e.symm)).trans (h2 e)

theorem loop_spec {orig : List (ℕ × List ℚ)} (d : ℕ) (hd : ∀ q ∈ orig, q.2.length = d)
    (hs : orig.Pairwise fun a b => a.1 < b.1) (fuel : ℕ) (A B : List (ℕ × List ℚ)) (I : Inv orig A B)
    (hf : B.length ≤ fuel) : ∃ R, loop fuel (A ++ B) A.length = some R ∧ Inv orig R [] := by
  induction fuel generalizing A B with
  | zero =>
    have : B = [] := List.length_eq_zero_iff.mp (by omega)
    subst this
    exact ⟨A, by simp [loop], I⟩
  | succ f ih =>
    cases B with
    | nil => exact ⟨A, by simp [loop], I⟩
    | cons p B =>
      have I' := inv_step d hd hs I
      have hl : (B.filter (fun q => anyLt q.2 p.2)).length ≤ f := by
        have := List.length_filter_le (fun q : ℕ × List ℚ => anyLt q.2 p.2) B
        simp only [List.length_cons] at hf
        omega
      obtain ⟨R, h1, h2⟩ := ih _ _ I' hl
      refine ⟨R, ?_, h2⟩
      have hlt : A.length < (A ++ p :: B).length := by simp
      rw [loop, if_pos hlt, step_spec]
      simp only [Option.bind_eq_bind, Option.bind_some]
      rw [← h1]
      simp

theorem indexed_get (costs : List (List ℚ)) (i : ℕ) (p : List ℚ) :
    (i, p) ∈ (List.range costs.length).zip costs ↔ costs[i]? = some p := by
  rw [List.mem_iff_getElem?]
  constructor
  · rintro ⟨k, hk⟩
    rw [List.getElem?_zip_eq_some] at hk
    obtain ⟨h1, h2⟩ := hk
    rw [List.getElem?_eq_some_iff] at h1
    obtain ⟨_, h1⟩ := h1
    simp only [List.getElem_range] at h1
    rw [← h1]; exact h2
  · intro h
    refine ⟨i, ?_⟩
    rw [List.getElem?_zip_eq_some]
    have := (List.getElem?_eq_some_iff.mp h).1
    exact ⟨by simp [this], h⟩

theorem zip_pairwise (costs : List (List ℚ)) :
    ((List.range costs.length).zip costs).Pairwise fun a b => a.1 < b.1 := by
  have hp : (((List.range costs.length).zip costs).map Prod.fst).Pairwise (· < ·) := by
    rw [List.map_fst_zip (by simp)]; exact List.pairwise_lt_range
  rwa [List.pairwise_map] at hp

/-- Main characterisation. -/
theorem efficient_spec (costs : List (List ℚ)) (d : ℕ) (hd : ∀ p ∈ costs, p.length = d) :
    ∃ is, efficientIdx costs = some is ∧ is.Pairwise (· < ·) ∧ ∀ i, i ∈ is ↔ Kept costs i := by
  set orig := (List.range costs.length).zip costs with ho
  have hs : orig.Pairwise fun a b => a.1 < b.1 := zip_pairwise _
  have hd' : ∀ q ∈ orig, q.2.length = d := by
    intro q hq
    have := (indexed_get costs q.1 q.2).mp hq
    exact hd _ (List.mem_of_getElem? this)
  have I0 : Inv orig [] orig := ⟨by simp, by simp, by intro q hq hn; exact absurd (by simpa using hq) hn⟩
  obtain ⟨R, hR, I⟩ := loop_spec d hd' hs costs.length [] orig I0 (by rw [ho]; simp)
  refine ⟨R.map Prod.fst, ?_, ?_, ?_⟩
  · have hR' : loop costs.length ((List.range costs.length).zip costs) 0 = some R := hR
    simp [efficientIdx, hR']
  · have := hs.sublist I.sub
    rw [List.append_nil] at this
    rwa [List.pairwise_map]
  · intro i
    have hsub : ∀ q ∈ R, q ∈ orig := fun q hq => I.sub.subset (by simpa using hq)
    constructor
    · intro hi
      obtain ⟨p, hp, rfl⟩ := List.mem_map.mp hi
      have hpo := hsub p hp
      refine ⟨p.2, (indexed_get _ _ _).mp hpo, ?_⟩
      intro j q hq hne hle
      have hqo : (j, q) ∈ orig := (indexed_get _ _ _).mpr hq
      by_cases hqR : (j, q) ∈ R
      · exact absurd hle (I.good (j, q) hqR p (by simpa using hp) (by rintro rfl; exact hne rfl))
      · obtain ⟨r, hr, h1, h2⟩ := I.removed (j, q) hqo (by simpa using hqR)
        rw [List.append_nil] at hr
        have hrp : r = p := by
          by_contra hrp
          exact I.good r hr p (by simpa using hp) (Ne.symm hrp) (alg_trans h1 hle)
        subst hrp
        have := alg_antisymm hle h1
        exact ⟨this, h2 this.symm⟩
    · rintro ⟨p, hp, hk⟩
      have hpo : (i, p) ∈ orig := (indexed_get _ _ _).mpr hp
      by_contra hni
      have hnR : (i, p) ∉ R := fun h => hni (List.mem_map.mpr ⟨_, h, rfl⟩)
      obtain ⟨r, hr, h1, h2⟩ := I.removed (i, p) hpo (by simpa using hnR)
      rw [List.append_nil] at hr
      have hro := (indexed_get _ _ _).mp (hsub r hr)
      have hne : r.1 ≠ i := by
        intro he
        exact hni (List.mem_map.mpr ⟨r, hr, he⟩)
      obtain ⟨h3, h4⟩ := hk r.1 r.2 hro hne h1
      have := h2 h3
      simp only at this
      omega

end Verif.Lemmas.Pareto
