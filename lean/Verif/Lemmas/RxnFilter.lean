import Verif.Lemmas.RxnSet
import Mathlib.Data.List.GetD
import Mathlib.Tactic.Linarith
import Mathlib.Tactic.Positivity
import Mathlib.Tactic.FieldSimp

/-! Helper lemmas about duplicate filtering. -/

set_option linter.unusedSectionVars false

namespace Verif.Lemmas.RxnFilter
open Verif.Py Verif.Model.RxnSet Verif.Spec.RxnSet Verif.Lemmas.Dict Verif.Lemmas.Exc Verif.Lemmas.RxnSet

/-! ### The loop over the rows of one group -/

/-- Row `j` counts as a multiple of row `i`. -/
def D (rows : List (List ℚ)) (i j : ℕ) : Bool := dupTest (rows.getD i []) (rows.getD j [])

/-- The rows that the loop keeps. -/
def Kept (rows : List (List ℚ)) (order ens : List ℕ) (k : ℕ) : Prop :=
  if ∃ j ∈ order, D rows k j = true ∧ j ∈ ens then k ∈ ens else (order.filter fun j => D rows k j).head? = some k

structure Eqv (rows : List (List ℚ)) (order : List ℕ) : Prop where
  refl : ∀ i ∈ order, D rows i i = true
  symm : ∀ i ∈ order, ∀ j ∈ order, D rows i j = true → D rows j i = true
  trans : ∀ i ∈ order, ∀ j ∈ order, ∀ k ∈ order, D rows i j = true → D rows j k = true → D rows i k = true

theorem class_eq (rows : List (List ℚ)) (order : List ℕ) (h : Eqv rows order) (i j : ℕ) (hi : i ∈ order) (hj : j ∈ order)
    (hij : D rows i j = true) : ∀ k ∈ order, D rows i k = D rows j k := by
  intro k hk
  rw [Bool.eq_iff_iff]
  exact ⟨fun hik => h.trans j hj i hi k hk (h.symm i hi j hj hij) hik, fun hjk => h.trans i hi j hj k hk hij hjk⟩

theorem filter_class_eq (rows : List (List ℚ)) (order : List ℕ) (h : Eqv rows order) (i j : ℕ) (hi : i ∈ order) (hj : j ∈ order)
    (hij : D rows i j = true) : (order.filter fun k => D rows i k) = order.filter fun k => D rows j k :=
  List.filter_congr fun k hk => class_eq rows order h i j hi hj hij k hk

/-- What the loop has established after the prefix `done`. -/
structure Inv (rows : List (List ℚ)) (order ens done kp rm : List ℕ) : Prop where
  keep : ∀ k, k ∈ kp ↔ k ∈ order ∧ (∃ i ∈ done, D rows i k = true) ∧ Kept rows order ens k
  rem : ∀ k, k ∈ rm ↔ k ∈ order ∧ (∃ i ∈ done, D rows i k = true) ∧ ¬ Kept rows order ens k
  nodup : kp.Nodup

theorem keepLoop_ok (rows : List (List ℚ)) (order ens : List ℕ) (h : Eqv rows order) (hn : order.Nodup) :
    ∀ (rest done keep rem : List ℕ), order = done ++ rest → Inv rows order ens done keep rem →
    ∃ keep' rem', keepLoop rows order ens rest (keep, rem) = .ok (keep', rem') ∧ Inv rows order ens order keep' rem' := by
  intro rest
  induction rest with
  | nil =>
    intro done keep rem hsplit hinv
    rw [List.append_nil] at hsplit
    refine ⟨keep, rem, rfl, ?_⟩
    rw [hsplit] at hinv ⊢
    exact hinv
  | cons idx rest ih =>
    intro done keep rem hsplit hinv
    have hidx : idx ∈ order := by rw [hsplit]; simp
    have hdone : ∀ i ∈ done, i ∈ order := by intro i hi; rw [hsplit]; simp [hi]
    have hsplit' : order = (done ++ [idx]) ++ rest := by rw [hsplit]; simp
    have hext : ∀ k ∈ order, (∃ i ∈ done ++ [idx], D rows i k = true) ↔ (∃ i ∈ done, D rows i k = true) ∨ D rows idx k = true := by
      intro k _
      constructor
      · rintro ⟨i, hi, hik⟩
        rcases List.mem_append.mp hi with hi | hi
        · exact Or.inl ⟨i, hi, hik⟩
        · rw [List.mem_singleton] at hi; subst hi; exact Or.inr hik
      · rintro (⟨i, hi, hik⟩ | hik)
        · exact ⟨i, List.mem_append_left _ hi, hik⟩
        · exact ⟨idx, by simp, hik⟩
    -- nothing changes when the class of `idx` is already covered
    have hcov : (∃ i ∈ done, D rows i idx = true) → Inv rows order ens (done ++ [idx]) keep rem := by
      rintro ⟨i, hi, hii⟩
      have hsame : ∀ k ∈ order, ((∃ i ∈ done ++ [idx], D rows i k = true) ↔ ∃ i ∈ done, D rows i k = true) := by
        intro k hk
        rw [hext k hk]
        constructor
        · rintro (h1 | h1)
          · exact h1
          · exact ⟨i, hi, h.trans i (hdone i hi) idx hidx k hk hii h1⟩
        · exact Or.inl
      refine ⟨fun k => ?_, fun k => ?_, hinv.nodup⟩
      · rw [hinv.keep k]
        constructor
        · rintro ⟨h1, h2, h3⟩; exact ⟨h1, (hsame k h1).mpr h2, h3⟩
        · rintro ⟨h1, h2, h3⟩; exact ⟨h1, (hsame k h1).mp h2, h3⟩
      · rw [hinv.rem k]
        constructor
        · rintro ⟨h1, h2, h3⟩; exact ⟨h1, (hsame k h1).mpr h2, h3⟩
        · rintro ⟨h1, h2, h3⟩; exact ⟨h1, (hsame k h1).mp h2, h3⟩
    -- a fresh class is added completely
    have hfresh : ∀ add del : List ℕ, (¬ ∃ i ∈ done, D rows i idx = true) → add.Nodup →
        (∀ k, k ∈ add ↔ k ∈ order ∧ D rows idx k = true ∧ Kept rows order ens k) →
        (∀ k, k ∈ del ↔ k ∈ order ∧ D rows idx k = true ∧ ¬ Kept rows order ens k) →
        Inv rows order ens (done ++ [idx]) (keep ++ add) (rem ++ del) := by
      intro add del hnc hna hadd hdel
      refine ⟨fun k => ?_, fun k => ?_, ?_⟩
      · rw [List.mem_append, hinv.keep k, hadd k]
        constructor
        · rintro (⟨h1, h2, h3⟩ | ⟨h1, h2, h3⟩)
          · exact ⟨h1, (hext k h1).mpr (Or.inl h2), h3⟩
          · exact ⟨h1, (hext k h1).mpr (Or.inr h2), h3⟩
        · rintro ⟨h1, h2, h3⟩
          rcases (hext k h1).mp h2 with h2 | h2
          · exact Or.inl ⟨h1, h2, h3⟩
          · exact Or.inr ⟨h1, h2, h3⟩
      · rw [List.mem_append, hinv.rem k, hdel k]
        constructor
        · rintro (⟨h1, h2, h3⟩ | ⟨h1, h2, h3⟩)
          · exact ⟨h1, (hext k h1).mpr (Or.inl h2), h3⟩
          · exact ⟨h1, (hext k h1).mpr (Or.inr h2), h3⟩
        · rintro ⟨h1, h2, h3⟩
          rcases (hext k h1).mp h2 with h2 | h2
          · exact Or.inl ⟨h1, h2, h3⟩
          · exact Or.inr ⟨h1, h2, h3⟩
      · rw [List.nodup_append]
        refine ⟨hinv.nodup, hna, ?_⟩
        rintro a ha b hb rfl
        obtain ⟨h1, ⟨i, hi, hik⟩, _⟩ := (hinv.keep a).mp ha
        have h2 := ((hadd a).mp hb).2.1
        exact hnc ⟨i, hi, h.trans i (hdone i hi) a h1 idx hidx hik (h.symm idx hidx a h1 h2)⟩
    -- being kept is a property of the class
    have hens : ∀ k ∈ order, D rows idx k = true →
        ((∃ j ∈ order, D rows k j = true ∧ j ∈ ens) ↔ ∃ j ∈ order, D rows idx j = true ∧ j ∈ ens) := by
      intro k hk hik
      constructor
      · rintro ⟨j, hj, h1, h2⟩
        exact ⟨j, hj, by rw [class_eq rows order h idx k hidx hk hik j hj]; exact h1, h2⟩
      · rintro ⟨j, hj, h1, h2⟩
        exact ⟨j, hj, by rw [← class_eq rows order h idx k hidx hk hik j hj]; exact h1, h2⟩
    by_cases hrem : idx ∈ rem
    · have := hcov ((hinv.rem idx).mp hrem).2.1
      obtain ⟨k', r', h1, h2⟩ := ih (done ++ [idx]) keep rem hsplit' this
      refine ⟨k', r', ?_, h2⟩
      unfold keepLoop
      rw [if_pos hrem]
      exact h1
    · set group := order.filter fun j => dupTest (rows.getD idx []) (rows.getD j []) with hgroup
      have hgr : ∀ j, j ∈ group ↔ j ∈ order ∧ D rows idx j = true := by
        intro j; rw [hgroup, List.mem_filter]; rfl
      have hgn : group.Nodup := hn.filter _
      set overlap := group.filter fun j => decide (j ∈ ens) with hoverlap
      have hov : ∀ j, j ∈ overlap ↔ (j ∈ order ∧ D rows idx j = true) ∧ j ∈ ens := by
        intro j; rw [hoverlap, List.mem_filter, hgr, decide_eq_true_iff]
      by_cases hne : overlap = []
      · have hnoens : ¬ ∃ j ∈ order, D rows idx j = true ∧ j ∈ ens := by
          rintro ⟨j, h1, h2, h3⟩
          have := (hov j).mpr ⟨⟨h1, h2⟩, h3⟩
          rw [hne] at this; simp at this
        have hkept : ∀ k ∈ order, D rows idx k = true → (Kept rows order ens k ↔ group.head? = some k) := by
          intro k hk hik
          unfold Kept
          rw [if_neg (fun hc => hnoens ((hens k hk hik).mp hc)), ← filter_class_eq rows order h idx k hidx hk hik]
          rfl
        obtain ⟨g, gs, hg⟩ : ∃ g gs, group = g :: gs := by
          cases hgc : group with
          | nil =>
            have := (hgr idx).mpr ⟨hidx, h.refl idx hidx⟩
            rw [hgc] at this; simp at this
          | cons g gs => exact ⟨g, gs, rfl⟩
        have hnc : ¬ ∃ i ∈ done, D rows i idx = true := by
          rintro ⟨i, hi, hii⟩
          have hk : Kept rows order ens idx := by
            by_contra hk
            exact hrem ((hinv.rem idx).mpr ⟨hidx, ⟨i, hi, hii⟩, hk⟩)
          rw [hkept idx hidx (h.refl idx hidx)] at hk
          have hk2 : group = (done.filter fun j => D rows idx j) ++ ((idx :: rest).filter fun j => D rows idx j) := by
            rw [hgroup, hsplit, List.filter_append]; rfl
          have himem : i ∈ done.filter fun j => D rows idx j :=
            List.mem_filter.mpr ⟨hi, h.symm i (hdone i hi) idx hidx hii⟩
          cases hd : done.filter fun j => D rows idx j with
          | nil => rw [hd] at himem; simp at himem
          | cons x xs =>
            rw [hk2, hd] at hk
            simp only [List.cons_append, List.head?_cons, Option.some.injEq] at hk
            have hx : x ∈ done := (List.mem_filter.mp (by rw [hd]; exact List.mem_cons_self)).1
            rw [hsplit, List.nodup_append] at hn
            exact hn.2.2 x hx idx List.mem_cons_self hk
        have hgg := (hgr g).mp (by rw [hg]; exact List.mem_cons_self)
        have hinv' := hfresh [g] gs hnc (List.nodup_singleton g)
          (by
            intro k
            rw [List.mem_singleton]
            constructor
            · rintro rfl
              exact ⟨hgg.1, hgg.2, (hkept k hgg.1 hgg.2).mpr (by rw [hg]; rfl)⟩
            · rintro ⟨h1, h2, h3⟩
              have := (hkept k h1 h2).mp h3
              rw [hg] at this
              simpa using this.symm)
          (by
            intro k
            constructor
            · intro hk
              have h1 := (hgr k).mp (by rw [hg]; exact List.mem_cons_of_mem _ hk)
              refine ⟨h1.1, h1.2, fun h3 => ?_⟩
              have := (hkept k h1.1 h1.2).mp h3
              rw [hg] at this hgn
              simp only [List.head?_cons, Option.some.injEq] at this
              subst this
              exact (List.nodup_cons.mp hgn).1 hk
            · rintro ⟨h1, h2, h3⟩
              have hk := (hgr k).mpr ⟨h1, h2⟩
              rw [hg] at hk
              rcases List.mem_cons.mp hk with rfl | hk
              · exact absurd ((hkept k h1 h2).mpr (by rw [hg]; rfl)) h3
              · exact hk)
        obtain ⟨k', r', h1, h2⟩ := ih (done ++ [idx]) _ _ hsplit' hinv'
        refine ⟨k', r', ?_, h2⟩
        unfold keepLoop
        rw [if_neg hrem]
        simp only
        rw [if_neg (by rintro ⟨_, hc⟩; exact hc hne)]
        rw [← hgroup, hg]
        exact h1
      · have hex : ∃ j ∈ order, D rows idx j = true ∧ j ∈ ens := by
          obtain ⟨j, hj⟩ := List.exists_mem_of_ne_nil _ hne
          have := (hov j).mp hj
          exact ⟨j, this.1.1, this.1.2, this.2⟩
        have hensne : ens ≠ [] := by
          obtain ⟨j, _, _, hj⟩ := hex
          exact List.ne_nil_of_mem hj
        have hkept : ∀ k ∈ order, D rows idx k = true → (Kept rows order ens k ↔ k ∈ ens) := by
          intro k hk hik
          unfold Kept
          rw [if_pos ((hens k hk hik).mpr hex)]
        by_cases hall : (overlap.all fun j => decide (j ∈ keep)) = true
        · have hinv' : Inv rows order ens (done ++ [idx]) keep rem := by
            apply hcov
            obtain ⟨j, hj⟩ := List.exists_mem_of_ne_nil _ hne
            rw [List.all_eq_true] at hall
            have hjk := of_decide_eq_true (hall j hj)
            obtain ⟨h1, ⟨i, hi, hij⟩, _⟩ := (hinv.keep j).mp hjk
            have h2 := ((hov j).mp hj).1.2
            exact ⟨i, hi, h.trans i (hdone i hi) j h1 idx hidx hij (h.symm idx hidx j h1 h2)⟩
          obtain ⟨k', r', h1, h2⟩ := ih (done ++ [idx]) _ _ hsplit' hinv'
          refine ⟨k', r', ?_, h2⟩
          unfold keepLoop
          rw [if_neg hrem]
          simp only
          rw [if_pos ⟨hensne, hne⟩, if_pos hall]
          exact h1
        · have hnc : ¬ ∃ i ∈ done, D rows i idx = true := by
            rintro ⟨i, hi, hii⟩
            apply hall
            rw [List.all_eq_true]
            intro j hj
            have hj' := (hov j).mp hj
            exact decide_eq_true ((hinv.keep j).mpr ⟨hj'.1.1, ⟨i, hi, h.trans i (hdone i hi) idx hidx j hj'.1.1 hii hj'.1.2⟩,
              (hkept j hj'.1.1 hj'.1.2).mpr hj'.2⟩)
          have hinv' := hfresh overlap (group.filter fun j => decide (j ∉ ens)) hnc (hgn.filter _)
            (by
              intro k
              rw [hov k]
              constructor
              · rintro ⟨⟨h1, h2⟩, h3⟩; exact ⟨h1, h2, (hkept k h1 h2).mpr h3⟩
              · rintro ⟨h1, h2, h3⟩; exact ⟨⟨h1, h2⟩, (hkept k h1 h2).mp h3⟩)
            (by
              intro k
              rw [List.mem_filter, hgr k, decide_eq_true_iff]
              constructor
              · rintro ⟨⟨h1, h2⟩, h3⟩; exact ⟨h1, h2, fun hc => h3 ((hkept k h1 h2).mp hc)⟩
              · rintro ⟨h1, h2, h3⟩; exact ⟨⟨h1, h2⟩, fun hc => h3 ((hkept k h1 h2).mpr hc)⟩)
          obtain ⟨k', r', h1, h2⟩ := ih (done ++ [idx]) _ _ hsplit' hinv'
          refine ⟨k', r', ?_, h2⟩
          unfold keepLoop
          rw [if_neg hrem]
          simp only
          rw [if_pos ⟨hensne, hne⟩, if_neg hall]
          exact h1

/-- Result of `_get_idxs_to_keep` when "counts as a multiple" is an equivalence relation on the rows. -/
theorem idxsToKeep_ok (argsort : List ℚ → List ℕ) (ha : ArgSort argsort) (rows : List (List ℚ)) (ens : List ℕ)
    (h : Eqv rows (List.range rows.length)) :
    ∃ keep, idxsToKeep argsort rows ens = .ok keep ∧ keep.Nodup ∧ (∀ k ∈ keep, k < rows.length) ∧
      (∀ i < rows.length, ∃ k ∈ keep, D rows k i = true) ∧
      (∀ k ∈ keep, (∃ j < rows.length, D rows k j = true ∧ j ∈ ens) ∨
        ∀ j < rows.length, D rows k j = true → absSum (rows.getD k []) ≤ absSum (rows.getD j [])) ∧
      (∀ k ∈ keep, ∀ k' ∈ keep, D rows k k' = true → k = k' ∨ (k ∈ ens ∧ k' ∈ ens)) ∧
      (∀ i ∈ ens, i < rows.length → i ∈ keep) ∧
      (∀ k ∈ keep, (∃ j < rows.length, D rows k j = true ∧ j ∈ ens) → k ∈ ens) := by
  set order := argsort (rows.map absSum) with horder
  obtain ⟨hperm, hsort⟩ := ha (rows.map absSum)
  rw [← horder, List.length_map] at hperm
  rw [← horder] at hsort
  have hmem : ∀ i, i ∈ order ↔ i < rows.length := by
    intro i; rw [hperm.mem_iff, List.mem_range]
  have hn : order.Nodup := hperm.nodup_iff.mpr List.nodup_range
  have h' : Eqv rows order := by
    refine ⟨fun i hi => h.refl i ?_, fun i hi j hj => h.symm i ?_ j ?_, fun i hi j hj k hk => h.trans i ?_ j ?_ k ?_⟩ <;>
      (rw [← hperm.mem_iff]; assumption)
  obtain ⟨keep, rem, hrun, hinv⟩ := keepLoop_ok rows order ens h' hn order [] [] [] rfl
    ⟨fun k => by simp, fun k => by simp, List.nodup_nil⟩
  have hkeep : ∀ k, k ∈ keep ↔ k ∈ order ∧ Kept rows order ens k := by
    intro k
    rw [hinv.keep k]
    constructor
    · rintro ⟨h1, _, h3⟩; exact ⟨h1, h3⟩
    · rintro ⟨h1, h3⟩; exact ⟨h1, ⟨k, h1, h'.refl k h1⟩, h3⟩
  have hfin : ∀ k, k ∈ keep.insertionSort (· ≤ ·) ↔ k ∈ order ∧ Kept rows order ens k := by
    intro k; rw [(List.perm_insertionSort _ _).mem_iff, hkeep]
  refine ⟨keep.insertionSort (· ≤ ·), ?_, ?_, ?_, ?_, ?_, ?_, ?_, ?_⟩
  · unfold idxsToKeep
    simp only
    rw [← horder, hrun]
    rfl
  · exact (List.perm_insertionSort _ _).nodup_iff.mpr hinv.nodup
  · intro k hk
    exact (hmem k).mp ((hfin k).mp hk).1
  · intro i hi
    have hio := (hmem i).mpr hi
    by_cases hex : ∃ j ∈ order, D rows i j = true ∧ j ∈ ens
    · obtain ⟨j, hj, hij, hje⟩ := hex
      refine ⟨j, (hfin j).mpr ⟨hj, ?_⟩, h'.symm i hio j hj hij⟩
      unfold Kept
      rw [if_pos ⟨j, hj, h'.refl j hj, hje⟩]
      exact hje
    · cases hc : order.filter fun j => D rows i j with
      | nil =>
        have := List.mem_filter.mpr (⟨hio, h'.refl i hio⟩ : i ∈ order ∧ (fun j => D rows i j) i = true)
        rw [hc] at this; simp at this
      | cons g gs =>
        have hg := List.mem_filter.mp (by rw [hc]; exact List.mem_cons_self : g ∈ order.filter fun j => D rows i j)
        refine ⟨g, (hfin g).mpr ⟨hg.1, ?_⟩, h'.symm i hio g hg.1 hg.2⟩
        unfold Kept
        rw [if_neg, ← filter_class_eq rows order h' i g hio hg.1 hg.2, hc]
        · rfl
        · rintro ⟨j, hj, h1, h2⟩
          exact hex ⟨j, hj, by rw [class_eq rows order h' i g hio hg.1 hg.2 j hj]; exact h1, h2⟩
  · intro k hk
    obtain ⟨hko, hkk⟩ := (hfin k).mp hk
    by_cases hex : ∃ j ∈ order, D rows k j = true ∧ j ∈ ens
    · obtain ⟨j, hj, h1, h2⟩ := hex
      exact Or.inl ⟨j, (hmem j).mp hj, h1, h2⟩
    · right
      unfold Kept at hkk
      rw [if_neg hex] at hkk
      intro j hj hkj
      have hjm : j ∈ order.filter fun j => D rows k j := List.mem_filter.mpr ⟨(hmem j).mpr hj, hkj⟩
      cases hc : order.filter fun j => D rows k j with
      | nil => rw [hc] at hjm; simp at hjm
      | cons g gs =>
        rw [hc] at hkk hjm
        simp only [List.head?_cons, Option.some.injEq] at hkk
        subst hkk
        have hs := hsort.sublist (List.filter_sublist (p := fun j => D rows g j))
        rw [hc, List.pairwise_cons] at hs
        rcases List.mem_cons.mp hjm with rfl | hjm
        · exact le_refl _
        · have := hs.1 j hjm
          have hgl := (hmem g).mp hko
          simp only [List.getD_eq_getElem?_getD, List.getElem?_map, List.getElem?_eq_getElem hj, List.getElem?_eq_getElem hgl,
            Option.map_some, Option.getD_some] at this ⊢
          exact this
  · intro k hk k' hk' hkk'
    obtain ⟨hko, h1⟩ := (hfin k).mp hk
    obtain ⟨hko', h2⟩ := (hfin k').mp hk'
    unfold Kept at h1 h2
    by_cases hex : ∃ j ∈ order, D rows k j = true ∧ j ∈ ens
    · rw [if_pos hex] at h1
      have hex' : ∃ j ∈ order, D rows k' j = true ∧ j ∈ ens := ⟨k, hko, h'.symm k hko k' hko' hkk', h1⟩
      rw [if_pos hex'] at h2
      exact Or.inr ⟨h1, h2⟩
    · have hex' : ¬ ∃ j ∈ order, D rows k' j = true ∧ j ∈ ens := by
        rintro ⟨j, hj, h3, h4⟩
        exact hex ⟨j, hj, by rw [class_eq rows order h' k k' hko hko' hkk' j hj]; exact h3, h4⟩
      rw [if_neg hex] at h1
      rw [if_neg hex', ← filter_class_eq rows order h' k k' hko hko' hkk', h1] at h2
      exact Or.inl (Option.some.inj h2)
  · intro i hi hil
    have hio := (hmem i).mpr hil
    refine (hfin i).mpr ⟨hio, ?_⟩
    unfold Kept
    rw [if_pos ⟨i, hio, h'.refl i hio, hi⟩]
    exact hi
  · rintro k hk ⟨j, hj, h1, h2⟩
    obtain ⟨hko, h3⟩ := (hfin k).mp hk
    unfold Kept at h3
    rw [if_pos ⟨j, (hmem j).mpr hj, h1, h2⟩] at h3
    exact h3

/-! ### Exact multiples -/

/-- `b` is a positive multiple of `a`. -/
def Mul (a b : List ℚ) : Prop := ∃ s : ℚ, 0 < s ∧ b = a.map fun c => c * s

theorem Mul.refl (a : List ℚ) : Mul a a := ⟨1, one_pos, by simp⟩

theorem Mul.symm {a b : List ℚ} (h : Mul a b) : Mul b a := by
  obtain ⟨s, hs, rfl⟩ := h
  refine ⟨s⁻¹, inv_pos.mpr hs, ?_⟩
  rw [List.map_map]
  conv_lhs => rw [← List.map_id a]
  apply List.map_congr_left
  intro c _
  simp only [id, Function.comp]
  rw [mul_assoc, mul_inv_cancel₀ hs.ne', mul_one]

theorem Mul.trans {a b c : List ℚ} (h : Mul a b) (h' : Mul b c) : Mul a c := by
  obtain ⟨s, hs, rfl⟩ := h
  obtain ⟨t, ht, rfl⟩ := h'
  refine ⟨s * t, mul_pos hs ht, ?_⟩
  rw [List.map_map]
  apply List.map_congr_left
  intro c _
  simp only [Function.comp]
  ring

/-- Ratios of coefficients that agree within the tolerance agree exactly. -/
def Sep (a b : List ℚ) : Prop :=
  ∀ x y x' y', (x, y) ∈ a.zip b → (x', y') ∈ a.zip b → isclose |y / x| (y' / x') = true → |y / x| = y' / x'

theorem isclose_self (x : ℚ) : isclose x x = true := by
  unfold isclose
  apply decide_eq_true
  rw [sub_self, abs_zero]
  positivity

theorem zipWith_npdiv (a b : List ℚ) (h : ∀ c ∈ a, c ≠ 0) :
    List.zipWith npdiv b a = (a.zip b).map fun p => Fl.fin (p.2 / p.1) := by
  induction a generalizing b with
  | nil => simp
  | cons x a ih =>
    cases b with
    | nil => simp
    | cons y b =>
      rw [List.zipWith_cons_cons, List.zip_cons_cons, List.map_cons, ih b fun c hc => h c (List.mem_cons_of_mem _ hc)]
      congr 1
      unfold npdiv
      rw [if_neg (h x List.mem_cons_self)]

theorem eq_map_of_zip (a b : List ℚ) (hl : a.length = b.length) (s : ℚ) (h : ∀ p ∈ a.zip b, p.2 = p.1 * s) :
    b = a.map fun c => c * s := by
  induction a generalizing b with
  | nil => cases b with
    | nil => rfl
    | cons => simp at hl
  | cons x a ih =>
    cases b with
    | nil => simp at hl
    | cons y b =>
      rw [List.map_cons, ← ih b (by simpa using hl) fun p hp => h p (by rw [List.zip_cons_cons]; exact List.mem_cons_of_mem _ hp)]
      have h0 : (x, y) ∈ (x :: a).zip (y :: b) := by rw [List.zip_cons_cons]; exact List.mem_cons_self
      have h1 : y = x * s := h (x, y) h0
      rw [h1]

theorem dup_iff (a b : List ℚ) (hl : a.length = b.length) (hne : a ≠ []) (ha : ∀ c ∈ a, c ≠ 0) (hb : ∀ c ∈ b, c ≠ 0)
    (hsep : Sep a b) : dupTest a b = true ↔ Mul a b := by
  obtain ⟨x, a, rfl⟩ := List.exists_cons_of_ne_nil hne
  obtain ⟨y, b, rfl⟩ := List.exists_cons_of_ne_nil (l := b) (by rintro rfl; simp at hl)
  have hx := ha x List.mem_cons_self
  have hy := hb y List.mem_cons_self
  have h0 : (x, y) ∈ (x :: a).zip (y :: b) := by rw [List.zip_cons_cons]; exact List.mem_cons_self
  have key : dupTest (x :: a) (y :: b) = ((x :: a).zip (y :: b)).all fun p => isclose |y / x| (p.2 / p.1) := by
    unfold dupTest
    simp only
    rw [zipWith_npdiv _ _ ha, List.zip_cons_cons, List.map_cons]
    simp only
    rw [List.all_cons, List.all_cons, List.all_map]
    rfl
  rw [key, List.all_eq_true]
  constructor
  · intro h
    refine ⟨|y / x|, abs_pos.mpr (div_ne_zero hy hx), ?_⟩
    apply eq_map_of_zip _ _ hl
    rintro ⟨u, v⟩ hp
    have := hsep x y u v h0 hp (h (u, v) hp)
    have hu := ha u (List.of_mem_zip hp).1
    simp only
    rw [this, mul_div_cancel₀ v hu]
  · rintro ⟨s, hs, he⟩ ⟨u, v⟩ hp
    have hall : ∀ p ∈ (x :: a).zip (y :: b), p.2 = p.1 * s := by
      rw [he]
      intro p hp
      rw [List.zip_map_right, List.mem_map] at hp
      obtain ⟨⟨q, q'⟩, hq, rfl⟩ := hp
      have : q = q' := by
        have h2 : ∀ (l : List ℚ) (q q' : ℚ), (q, q') ∈ l.zip l → q = q' := by
          intro l
          induction l with
          | nil => simp
          | cons z l ih =>
            intro q q' hq
            rw [List.zip_cons_cons] at hq
            rcases List.mem_cons.mp hq with hq | hq
            · rw [Prod.mk.injEq] at hq; rw [hq.1, hq.2]
            · exact ih q q' hq
        exact h2 _ q q' hq
      subst this
      rfl
    have h1 := hall (x, y) h0
    have h2 := hall (u, v) hp
    simp only at h1 h2 ⊢
    have hu := ha u (List.of_mem_zip hp).1
    rw [h1, h2, mul_div_cancel_left₀ _ hx, mul_div_cancel_left₀ _ hu, abs_of_pos hs]
    exact isclose_self s

/-- Rows for which the test is exact. -/
structure Clean (rows : List (List ℚ)) : Prop where
  ne : ∀ a ∈ rows, a ≠ []
  nz : ∀ a ∈ rows, ∀ c ∈ a, c ≠ 0
  len : ∀ a ∈ rows, ∀ b ∈ rows, a.length = b.length
  sep : ∀ a ∈ rows, ∀ b ∈ rows, Sep a b

theorem D_iff (rows : List (List ℚ)) (h : Clean rows) (i j : ℕ) (hi : i < rows.length) (hj : j < rows.length) :
    D rows i j = true ↔ Mul rows[i] rows[j] := by
  unfold D
  rw [List.getD_eq_getElem _ _ hi, List.getD_eq_getElem _ _ hj]
  have h1 := List.getElem_mem hi
  have h2 := List.getElem_mem hj
  exact dup_iff _ _ (h.len _ h1 _ h2) (h.ne _ h1) (h.nz _ h1) (h.nz _ h2) (h.sep _ h1 _ h2)

theorem eqv_of_clean (rows : List (List ℚ)) (h : Clean rows) : Eqv rows (List.range rows.length) := by
  refine ⟨?_, ?_, ?_⟩
  · intro i hi
    rw [List.mem_range] at hi
    rw [D_iff rows h i i hi hi]
    exact Mul.refl _
  · intro i hi j hj
    rw [List.mem_range] at hi hj
    rw [D_iff rows h i j hi hj, D_iff rows h j i hj hi]
    exact Mul.symm
  · intro i hi j hj k hk
    rw [List.mem_range] at hi hj hk
    rw [D_iff rows h i j hi hj, D_iff rows h j k hj hk, D_iff rows h i k hi hk]
    exact Mul.trans

/-! ### One group -/

/-- What is known about the row numbers `K` kept out of `G`, for coefficient rows `sc`. -/
structure Good (sc : List (List ℚ)) (ens G K : List ℕ) : Prop where
  nodup : K.Nodup
  sub : ∀ k ∈ K, k ∈ G
  cover : ∀ i ∈ G, ∃ k ∈ K, Mul (sc.getD k []) (sc.getD i [])
  min : ∀ k ∈ K, (k ∈ ens) ∨ ∀ j ∈ G, Mul (sc.getD k []) (sc.getD j []) → absSum (sc.getD k []) ≤ absSum (sc.getD j [])
  uniq : ∀ k ∈ K, ∀ k' ∈ K, Mul (sc.getD k []) (sc.getD k' []) → k = k' ∨ (k ∈ ens ∧ k' ∈ ens)
  ens : ∀ i ∈ ens, i ∈ G → i ∈ K

theorem processGroup_ok (argsort : List ℚ → List ℕ) (ha : ArgSort argsort) (sc : List (List ℚ)) (ens G : List ℕ)
    (hG : G.Nodup) (hlt : ∀ i ∈ G, i < sc.length) (hclean : Clean (G.filterMap fun i => sc[i]?)) :
    ∃ K, processGroup argsort sc ens (some G) = .ok K ∧ Good sc ens G K := by
  set rows := G.filterMap fun i => sc[i]? with hrows
  have hrl : rows.length = G.length := length_filterMap_get sc G hlt
  have hrow : ∀ (i : ℕ) (hi : i < G.length), rows[i]'(by omega) = sc.getD G[i] [] := by
    intro i hi
    have hmap : rows = G.map fun i => sc.getD i [] := by
      rw [hrows, ← List.filterMap_eq_map]
      apply List.filterMap_congr
      intro j hj
      rw [List.getElem?_eq_getElem (hlt j hj)]
      simp [List.getElem?_eq_getElem (hlt j hj)]
    simp only [hmap, List.getElem_map]
  set rel := (ens.filter fun i => decide (i ∈ G)).map fun i => G.idxOf i with hrel
  have hrelm : ∀ (j : ℕ) (hj : j < G.length), j ∈ rel ↔ G[j] ∈ ens := by
    intro j hj
    rw [hrel, List.mem_map]
    constructor
    · rintro ⟨i, hi, rfl⟩
      have := List.mem_filter.mp hi
      rw [List.getElem_idxOf hj]; exact this.1
    · intro h
      refine ⟨G[j], List.mem_filter.mpr ⟨h, decide_eq_true (List.getElem_mem hj)⟩, ?_⟩
      exact hG.idxOf_getElem j hj
  obtain ⟨keep, h1, h2, h3, h4, h5, h6, h7, h8⟩ := idxsToKeep_ok argsort ha rows rel (eqv_of_clean rows hclean)
  have hD : ∀ (i j : ℕ) (hi : i < G.length) (hj : j < G.length),
      D rows i j = true ↔ Mul (sc.getD G[i] []) (sc.getD G[j] []) := by
    intro i j hi hj
    rw [D_iff rows hclean i j (by omega) (by omega), hrow i hi, hrow j hj]
  have hpick : pick G keep = .ok (keep.filterMap fun i => G[i]?) := pick_ok G keep fun k hk => by have := h3 k hk; omega
  have hmem : ∀ x, x ∈ (keep.filterMap fun i => G[i]?) ↔ ∃ (k : ℕ) (hk : k < G.length), k ∈ keep ∧ G[k] = x := by
    intro x
    rw [List.mem_filterMap]
    constructor
    · rintro ⟨k, hk, he⟩
      obtain ⟨hl, hx⟩ := List.getElem?_eq_some_iff.mp he
      exact ⟨k, hl, hk, hx⟩
    · rintro ⟨k, hl, hk, hx⟩
      exact ⟨k, hk, by rw [List.getElem?_eq_getElem hl, hx]⟩
  refine ⟨keep.filterMap fun i => G[i]?, ?_, ?_, ?_, ?_, ?_, ?_, ?_⟩
  · unfold processGroup
    simp only
    rw [pick_ok sc G hlt]
    simp only [bind, Except.bind]
    rw [← hrows, ← hrel, h1]
    exact hpick
  · refine h2.filterMap ?_
    intro i j x hx hx'
    rw [Option.mem_def] at hx hx'
    obtain ⟨hi, hi'⟩ := List.getElem?_eq_some_iff.mp hx
    obtain ⟨hj, hj'⟩ := List.getElem?_eq_some_iff.mp hx'
    exact (List.Nodup.getElem_inj_iff hG).mp (hi'.trans hj'.symm)
  · intro x hx
    obtain ⟨k, hk, _, rfl⟩ := (hmem x).mp hx
    exact List.getElem_mem hk
  · intro x hx
    obtain ⟨i, hi, rfl⟩ := List.getElem_of_mem hx
    obtain ⟨k, hk, hki⟩ := h4 i (by omega)
    have hkl : k < G.length := by have := h3 k hk; omega
    exact ⟨G[k], (hmem _).mpr ⟨k, hkl, hk, rfl⟩, (hD k i hkl hi).mp hki⟩
  · intro x hx
    obtain ⟨k, hkl, hk, rfl⟩ := (hmem x).mp hx
    rcases h5 k hk with h | h
    · left
      exact (hrelm k hkl).mp (h8 k hk h)
    · right
      intro y hy hm
      obtain ⟨j, hj, rfl⟩ := List.getElem_of_mem hy
      have := h j (by omega) ((hD k j hkl hj).mpr hm)
      rw [List.getD_eq_getElem _ _ (by omega : k < rows.length), List.getD_eq_getElem _ _ (by omega : j < rows.length),
        hrow k hkl, hrow j hj] at this
      exact this
  · intro x hx y hy hm
    obtain ⟨k, hkl, hk, rfl⟩ := (hmem x).mp hx
    obtain ⟨j, hjl, hj, rfl⟩ := (hmem y).mp hy
    rcases h6 k hk j hj ((hD k j hkl hjl).mpr hm) with rfl | h
    · exact Or.inl rfl
    · exact Or.inr ⟨(hrelm k hkl).mp h.1, (hrelm j hjl).mp h.2⟩
  · intro x hx hxG
    obtain ⟨i, hi, rfl⟩ := List.getElem_of_mem hxG
    exact (hmem _).mpr ⟨i, hi, h7 i ((hrelm i hi).mpr hx) (by omega), rfl⟩

theorem good_single (sc : List (List ℚ)) (ens : List ℕ) (i : ℕ) : Good sc ens [i] [i] := by
  refine ⟨List.nodup_singleton i, fun k hk => hk, ?_, ?_, ?_, fun j _ hj => hj⟩
  · intro j hj
    rw [List.mem_singleton] at hj; subst hj
    exact ⟨j, List.mem_singleton.mpr rfl, Mul.refl _⟩
  · intro k hk
    rw [List.mem_singleton] at hk; subst hk
    right
    intro j hj _
    rw [List.mem_singleton] at hj; subst hj
    exact le_refl _
  · intro k hk k' hk' _
    rw [List.mem_singleton] at hk hk'
    exact Or.inl (hk.trans hk'.symm)

/-! ### All groups of one size -/

/-- What is known about the row numbers kept of one size; `keys` are the sorted index rows. -/
structure GoodAll (keys : List (List ℕ)) (sc : List (List ℚ)) (ens R : List ℕ) : Prop where
  nodup : R.Nodup
  lt : ∀ k ∈ R, k < keys.length
  cover : ∀ i < keys.length, ∃ k ∈ R, keys[k]? = keys[i]? ∧ Mul (sc.getD k []) (sc.getD i [])
  min : ∀ k ∈ R, (k ∈ ens) ∨ ∀ j < keys.length, keys[k]? = keys[j]? → Mul (sc.getD k []) (sc.getD j []) →
    absSum (sc.getD k []) ≤ absSum (sc.getD j [])
  uniq : ∀ k ∈ R, ∀ k' ∈ R, keys[k]? = keys[k']? → Mul (sc.getD k []) (sc.getD k' []) → k = k' ∨ (k ∈ ens ∧ k' ∈ ens)
  ens : ∀ i ∈ ens, i < keys.length → i ∈ R

theorem forall₂_mem_left {α β : Type} {P : α → β → Prop} {l : List α} {r : List β} (h : List.Forall₂ P l r) (a : α) (ha : a ∈ l) :
    ∃ b ∈ r, P a b := by
  induction h with
  | nil => simp at ha
  | cons h1 _ ih =>
    rcases List.mem_cons.mp ha with rfl | ha
    · exact ⟨_, List.mem_cons_self, h1⟩
    · obtain ⟨b, hb, h2⟩ := ih ha
      exact ⟨b, List.mem_cons_of_mem _ hb, h2⟩

theorem forall₂_mem_right {α β : Type} {P : α → β → Prop} {l : List α} {r : List β} (h : List.Forall₂ P l r) (b : β) (hb : b ∈ r) :
    ∃ a ∈ l, P a b := by
  induction h with
  | nil => simp at hb
  | cons h1 _ ih =>
    rcases List.mem_cons.mp hb with rfl | hb
    · exact ⟨_, List.mem_cons_self, h1⟩
    · obtain ⟨a, ha, h2⟩ := ih hb
      exact ⟨a, List.mem_cons_of_mem _ ha, h2⟩

theorem nodup_flatten_of_forall₂ (gs Ks : List (List ℕ)) (h : List.Forall₂ (fun G K => K.Nodup ∧ ∀ k ∈ K, k ∈ G) gs Ks)
    (hn : gs.flatten.Nodup) : Ks.flatten.Nodup := by
  induction h with
  | nil => simp
  | @cons G K gs Ks h1 h2 ih =>
    rw [List.flatten_cons, List.nodup_append] at hn ⊢
    refine ⟨h1.1, ih hn.2.1, ?_⟩
    intro a ha b hb
    obtain ⟨K', hK', hb'⟩ := List.mem_flatten.mp hb
    obtain ⟨G', hG', hP⟩ := forall₂_mem_right h2 K' hK'
    exact hn.2.2 a (h1.2 a ha) b (List.mem_flatten.mpr ⟨G', hG', hP.2 b hb'⟩)

theorem goodAll_of_groups (keys : List (List ℕ)) (sc : List (List ℚ)) (ens : List ℕ) (gs Ks : List (List ℕ))
    (h : List.Forall₂ (Good sc ens) gs Ks) (hp : gs.flatten.Perm (List.range keys.length))
    (heq : ∀ g ∈ gs, ∀ i ∈ g, ∀ j ∈ g, keys[i]? = keys[j]?)
    (hclass : ∀ g ∈ gs, ∀ i ∈ g, ∀ j < keys.length, keys[i]? = keys[j]? → j ∈ g) : GoodAll keys sc ens Ks.flatten := by
  have hn : gs.flatten.Nodup := hp.nodup_iff.mpr List.nodup_range
  have hin : ∀ k ∈ Ks.flatten, ∃ G ∈ gs, ∃ K ∈ Ks, k ∈ K ∧ Good sc ens G K := by
    intro k hk
    obtain ⟨K, hK, hkK⟩ := List.mem_flatten.mp hk
    obtain ⟨G, hG, hP⟩ := forall₂_mem_right h K hK
    exact ⟨G, hG, K, hK, hkK, hP⟩
  have hgrp : ∀ i < keys.length, ∃ G ∈ gs, i ∈ G ∧ ∃ K ∈ Ks, Good sc ens G K := by
    intro i hi
    obtain ⟨G, hG, hiG⟩ := List.mem_flatten.mp (hp.mem_iff.mpr (List.mem_range.mpr hi))
    obtain ⟨K, hK, hP⟩ := forall₂_mem_left h G hG
    exact ⟨G, hG, hiG, K, hK, hP⟩
  have hlt : ∀ G ∈ gs, ∀ i ∈ G, i < keys.length := by
    intro G hG i hi
    exact List.mem_range.mp (hp.mem_iff.mp (List.mem_flatten.mpr ⟨G, hG, hi⟩))
  refine ⟨nodup_flatten_of_forall₂ gs Ks (h.imp fun _ _ hP => ⟨hP.nodup, hP.sub⟩) hn, ?_, ?_, ?_, ?_, ?_⟩
  · intro k hk
    obtain ⟨G, hG, K, _, hkK, hP⟩ := hin k hk
    exact hlt G hG k (hP.sub k hkK)
  · intro i hi
    obtain ⟨G, hG, hiG, K, hK, hP⟩ := hgrp i hi
    obtain ⟨k, hk, hm⟩ := hP.cover i hiG
    exact ⟨k, List.mem_flatten.mpr ⟨K, hK, hk⟩, heq G hG k (hP.sub k hk) i hiG, hm⟩
  · intro k hk
    obtain ⟨G, hG, K, _, hkK, hP⟩ := hin k hk
    rcases hP.min k hkK with h1 | h1
    · exact Or.inl h1
    · right
      intro j hj hkj hm
      exact h1 j (hclass G hG k (hP.sub k hkK) j hj hkj) hm
  · intro k hk k' hk' hkk hm
    obtain ⟨G, hG, K, hK, hkK, hP⟩ := hin k hk
    obtain ⟨G', hG', K', hK', hkK', hP'⟩ := hin k' hk'
    have hk'G := hclass G hG k (hP.sub k hkK) k' (hlt G' hG' k' (hP'.sub k' hkK')) hkk
    by_cases hens : k' ∈ ens
    · have : k' ∈ K := hP.ens k' hens hk'G
      exact hP.uniq k hkK k' this hm
    · -- the class of `k'` is the group `G`, so `k'` was kept there
      have hGG : G' = G := by
        by_contra hne
        have hdis : ∀ (gs : List (List ℕ)), gs.flatten.Nodup → ∀ G ∈ gs, ∀ G' ∈ gs, ∀ x, x ∈ G → x ∈ G' → G = G' := by
          intro gs
          induction gs with
          | nil => simp
          | cons g gs ih =>
            intro hnd A hA B hB x hxA hxB
            rw [List.flatten_cons, List.nodup_append] at hnd
            rcases List.mem_cons.mp hA with hA1 | hA1 <;> rcases List.mem_cons.mp hB with hB1 | hB1
            · rw [hA1, hB1]
            · exact absurd rfl (hnd.2.2 x (hA1 ▸ hxA) x (List.mem_flatten.mpr ⟨B, hB1, hxB⟩))
            · exact absurd rfl (hnd.2.2 x (hB1 ▸ hxB) x (List.mem_flatten.mpr ⟨A, hA1, hxA⟩))
            · exact ih hnd.2.1 A hA1 B hB1 x hxA hxB
        exact hne (hdis gs hn G' hG' G hG k' (hP'.sub k' hkK') hk'G)
      subst hGG
      obtain ⟨K'', hK'', hK''m⟩ : ∃ K'' ∈ Ks, k' ∈ K'' ∧ k ∈ K'' ∧ Good sc ens G' K'' := by
        have hone : ∀ (gs Ks : List (List ℕ)), List.Forall₂ (Good sc ens) gs Ks → gs.flatten.Nodup → ∀ k k' G,
            G ∈ gs → k ∈ G → k' ∈ G → k ∈ Ks.flatten → k' ∈ Ks.flatten → ∃ K'' ∈ Ks, k' ∈ K'' ∧ k ∈ K'' ∧ Good sc ens G K'' := by
          intro gs Ks hf
          induction hf with
          | nil => simp
          | @cons g K gs Ks hPg hf ih =>
            intro hnd k k' G hG hkG hk'G hk hk'
            rw [List.flatten_cons, List.nodup_append] at hnd
            rw [List.flatten_cons, List.mem_append] at hk hk'
            have hsub : ∀ x ∈ Ks.flatten, x ∈ gs.flatten := by
              intro x hx
              obtain ⟨A, hA, hxA⟩ := List.mem_flatten.mp hx
              obtain ⟨B, hB, hPB⟩ := forall₂_mem_right hf A hA
              exact List.mem_flatten.mpr ⟨B, hB, hPB.sub x hxA⟩
            rcases List.mem_cons.mp hG with rfl | hG
            · refine ⟨K, List.mem_cons_self, ?_, ?_, hPg⟩
              · rcases hk' with h1 | h1
                · exact h1
                · exact absurd rfl (hnd.2.2 k' hk'G k' (hsub k' h1))
              · rcases hk with h1 | h1
                · exact h1
                · exact absurd rfl (hnd.2.2 k hkG k (hsub k h1))
            · have hne : ∀ x ∈ G, x ∉ K := by
                intro x hx hxK
                exact hnd.2.2 x (hPg.sub x hxK) x (List.mem_flatten.mpr ⟨G, hG, hx⟩) rfl
              obtain ⟨K'', h1, h2⟩ := ih hnd.2.1 k k' G hG hkG hk'G (hk.resolve_left (hne k hkG)) (hk'.resolve_left (hne k' hk'G))
              exact ⟨K'', List.mem_cons_of_mem _ h1, h2⟩
        exact hone gs Ks h hn k k' G' hG (hP.sub k hkK) hk'G hk hk'
      exact hK''m.2.2.uniq k hK''m.2.1 k' hK''m.1 hm
  · intro i hi hil
    obtain ⟨G, hG, hiG, K, hK, hP⟩ := hgrp i hil
    exact List.mem_flatten.mpr ⟨K, hK, hP.ens i hi hiG⟩

/-- The keys by which rows of one size are grouped. -/
def keysOf (rows : List (List ℕ)) (cs : List (List ℚ)) : List (List ℕ) := (rows.zip cs).map fun p => (sortCols p.1 p.2).map Prod.fst

/-- Conditions on the rows of one size under which the multiplicity test is exact. -/
structure CleanAll (keys : List (List ℕ)) (sc : List (List ℚ)) : Prop where
  len : sc.length = keys.length
  ne : ∀ a ∈ sc, a ≠ []
  nz : ∀ a ∈ sc, ∀ c ∈ a, c ≠ 0
  same : ∀ i j, i < keys.length → keys[i]? = keys[j]? → (sc.getD i []).length = (sc.getD j []).length
  sep : ∀ i j, i < keys.length → keys[i]? = keys[j]? → Sep (sc.getD i []) (sc.getD j [])

theorem keepRows_ok (argsort : List ℚ → List ℕ) (ha : ArgSort argsort) (groupBy : List (List ℕ) → List (List ℕ)) (hg : GroupBy groupBy)
    (rows : List (List ℕ)) (cs : List (List ℚ)) (ens : List ℕ) (hc : CleanAll (keysOf rows cs) (sortedCoeffs rows cs)) :
    ∃ R, keepRows argsort groupBy rows cs ens = .ok R ∧ GoodAll (keysOf rows cs) (sortedCoeffs rows cs) ens R := by
  set keys := keysOf rows cs with hkeys
  set sc := sortedCoeffs rows cs with hsc
  obtain ⟨g1, g2, g3, g4⟩ := hg keys
  set groups := groupBy keys with hgroups
  have hgn : groups.flatten.Nodup := g1.nodup_iff.mpr List.nodup_range
  have hlt : ∀ G ∈ groups, ∀ i ∈ G, i < keys.length := by
    intro G hG i hi
    exact List.mem_range.mp (g1.mem_iff.mp (List.mem_flatten.mpr ⟨G, hG, hi⟩))
  have hclean : ∀ G ∈ groups, Clean (G.filterMap fun i => sc[i]?) := by
    intro G hG
    have hin : ∀ a ∈ G.filterMap (fun i => sc[i]?), ∃ i ∈ G, a = sc.getD i [] ∧ a ∈ sc := by
      intro a h
      obtain ⟨i, hi, he⟩ := List.mem_filterMap.mp h
      exact ⟨i, hi, by rw [List.getD_eq_getElem?_getD, he]; rfl, List.mem_of_getElem? he⟩
    refine ⟨fun a h => ?_, fun a h => ?_, fun a h b h' => ?_, fun a h b h' => ?_⟩
    · obtain ⟨_, _, _, hm⟩ := hin a h; exact hc.ne a hm
    · obtain ⟨_, _, _, hm⟩ := hin a h; exact hc.nz a hm
    · obtain ⟨i, hi, rfl, _⟩ := hin a h
      obtain ⟨j, hj, rfl, _⟩ := hin b h'
      exact hc.same i j (hlt G hG i hi) (g3 G hG i hi j hj)
    · obtain ⟨i, hi, rfl, _⟩ := hin a h
      obtain ⟨j, hj, rfl, _⟩ := hin b h'
      exact hc.sep i j (hlt G hG i hi) (g3 G hG i hi j hj)
  have hG1 : ∀ G ∈ groups, G.Nodup := fun G hG => (List.nodup_flatten.mp hgn).1 G hG
  have hex : ∀ gs : List (List ℕ), (∀ G ∈ gs, G ∈ groups) →
      ∃ Ks, (gs.map some).mapM (processGroup argsort sc ens) = .ok Ks ∧ List.Forall₂ (Good sc ens) gs Ks := by
    intro gs
    induction gs with
    | nil => intro _; exact ⟨[], rfl, .nil⟩
    | cons G gs ih =>
      intro hsub
      have hG := hsub G List.mem_cons_self
      obtain ⟨K, hK, hP⟩ := processGroup_ok argsort ha sc ens G (hG1 G hG)
        (fun i hi => by rw [hc.len]; exact hlt G hG i hi) (hclean G hG)
      obtain ⟨Ks, hKs, hF⟩ := ih fun G' hG' => hsub G' (List.mem_cons_of_mem _ hG')
      refine ⟨K :: Ks, ?_, .cons hP hF⟩
      rw [List.map_cons, mapM_cons, hK, hKs]
  obtain ⟨Ks, hKs, hF⟩ := hex (multis groups) fun G hG => (List.mem_filter.mp hG).1
  refine ⟨singles groups ++ Ks.flatten, ?_, ?_⟩
  · unfold keepRows groupsOf processDuplicates
    simp only
    have : groupBy ((rows.zip cs).map fun p => (sortCols p.1 p.2).map Prod.fst) = groups := rfl
    rw [this, ← hsc, hKs]
    rfl
  · have hsing : List.Forall₂ (Good sc ens) (groups.filter fun g => decide (g.length = 1)) (groups.filter fun g => decide (g.length = 1)) := by
      rw [List.forall₂_same]
      intro G hG
      have h1 := of_decide_eq_true (List.mem_filter.mp hG).2
      obtain ⟨i, rfl⟩ := List.length_eq_one_iff.mp h1
      exact good_single sc ens i
    have hperm : ((groups.filter fun g => decide (g.length = 1)) ++ multis groups).Perm groups := by
      have := List.filter_append_perm (fun g : List ℕ => decide (g.length = 1)) groups
      refine List.Perm.trans (List.Perm.of_eq ?_) this
      unfold multis
      congr 1
      apply List.filter_congr
      intro g _
      simp
    have := goodAll_of_groups keys sc ens _ _ (List.rel_append hsing hF) (hperm.flatten.trans g1)
      (fun g hg' => g3 g (hperm.mem_iff.mp hg'))
      (by
        intro G hG i hi j hj hij
        have hG := hperm.mem_iff.mp hG
        obtain ⟨G', hG', hjG'⟩ := List.mem_flatten.mp (g1.mem_iff.mpr (List.mem_range.mpr hj))
        by_contra hcon
        have hne : G ≠ G' := by rintro rfl; exact hcon hjG'
        have hsym : ∀ (a b : List ℕ), (∀ i ∈ a, ∀ j ∈ b, keys[i]? ≠ keys[j]?) → ∀ i ∈ b, ∀ j ∈ a, keys[i]? ≠ keys[j]? :=
          fun a b hab i hi j hj he => hab j hj i hi he.symm
        have : Std.Symm (fun g h : List ℕ => ∀ i ∈ g, ∀ j ∈ h, keys[i]? ≠ keys[j]?) := ⟨hsym⟩
        exact (g4.forall hG hG' hne) i hi j hjG' hij)
    rw [List.flatten_append] at this
    exact this

end Verif.Lemmas.RxnFilter
