import Mathlib.Algebra.BigOperators.Group.Finset.Basic
import Mathlib.Algebra.Order.BigOperators.Group.Finset
import Mathlib.Tactic.IntervalCases
import Mathlib.Tactic.Linarith
import Mathlib.Tactic.NormNum
import Verif.Model.Pathway
import Verif.Spec.Pathway
import Verif.Props.RxnSet
import Verif.Props.Utils

/-! Properties C54, C55, C58, C59, C60 of pathways (src/rxn_network/pathways). -/

set_option linter.unusedSectionVars false

namespace Verif.Props.Pathway
open Verif.Py Verif.Model.Pathway Verif.Spec.Pathway Verif.Spec.RxnSet Verif.Lemmas.Exc

variable {κ ρ : Type} [DecidableEq κ] [DecidableEq ρ]

/-! ### C60 -/

theorem mem_foldr_union (F : ρ → Finset κ) (rs : List ρ) (x : κ) :
    x ∈ rs.foldr (fun r s => F r ∪ s) ∅ ↔ ∃ r ∈ rs, x ∈ F r := by
  induction rs with
  | nil => simp
  | cons a l ih => rw [List.foldr_cons, Finset.mem_union, ih]; simp

/-- **C60.**  Overall reactants, intermediates and products are pairwise disjoint, together they are all compositions, and
each class is what its name says. -/
theorem C60_partition (R P : ρ → Finset κ) (rs : List ρ) :
    Disjoint (reactants R P rs) (intermediates R P rs) ∧ Disjoint (reactants R P rs) (products R P rs) ∧
    Disjoint (intermediates R P rs) (products R P rs) ∧
    reactants R P rs ∪ intermediates R P rs ∪ products R P rs = compositions R P rs ∧
    (∀ x, x ∈ compositions R P rs ↔ ∃ r ∈ rs, x ∈ R r ∨ x ∈ P r) ∧
    (∀ x, x ∈ intermediates R P rs ↔ (∃ r ∈ rs, x ∈ R r) ∧ ∃ r ∈ rs, x ∈ P r) ∧
    (∀ x, x ∈ reactants R P rs ↔ (∃ r ∈ rs, x ∈ R r) ∧ ∀ r ∈ rs, x ∉ P r) ∧
    (∀ x, x ∈ products R P rs ↔ (∃ r ∈ rs, x ∈ P r) ∧ ∀ r ∈ rs, x ∉ R r) := by
  have hR : ∀ x, x ∈ allReactants R rs ↔ ∃ r ∈ rs, x ∈ R r := mem_foldr_union R rs
  have hP : ∀ x, x ∈ allProducts P rs ↔ ∃ r ∈ rs, x ∈ P r := mem_foldr_union P rs
  refine ⟨?_, ?_, ?_, ?_, ?_, ?_, ?_, ?_⟩
  · rw [Finset.disjoint_left]
    intro x hx hx'
    simp only [reactants, intermediates, Finset.mem_sdiff, Finset.mem_inter] at hx hx'
    exact hx.2 hx'.1
  · rw [Finset.disjoint_left]
    intro x hx hx'
    simp only [reactants, products, Finset.mem_sdiff] at hx hx'
    exact hx.2 hx'.1
  · rw [Finset.disjoint_left]
    intro x hx hx'
    simp only [intermediates, products, Finset.mem_sdiff, Finset.mem_inter] at hx hx'
    exact hx'.2 hx.2
  · ext x
    simp only [reactants, intermediates, products, compositions, Finset.mem_union, Finset.mem_sdiff, Finset.mem_inter]
    tauto
  · intro x
    simp only [compositions, Finset.mem_union, hR, hP]
    constructor
    · rintro (⟨r, hr, h⟩ | ⟨r, hr, h⟩)
      · exact ⟨r, hr, Or.inl h⟩
      · exact ⟨r, hr, Or.inr h⟩
    · rintro ⟨r, hr, h | h⟩
      · exact Or.inl ⟨r, hr, h⟩
      · exact Or.inr ⟨r, hr, h⟩
  · intro x
    simp only [intermediates, Finset.mem_inter, hR, hP]
    exact and_comm
  · intro x
    simp only [reactants, Finset.mem_sdiff, hR, hP]
    push Not
    exact Iff.rfl
  · intro x
    simp only [products, Finset.mem_sdiff, hR, hP]
    push Not
    exact Iff.rfl

/-! ### C54, C55 -/

/-- What makes a combination count as interdependent. -/
theorem comboFlag_iff (R P : ρ → Finset κ) (ps : Finset κ) (combo : List ρ) (hn : combo.Nodup) :
    comboFlag R P ps combo = true ↔ (∀ r ∈ combo, ¬ R r ⊆ ps) ∧ combo.length ≠ 1 ∧
      ∀ r ∈ combo, ∃ r' ∈ combo, r' ≠ r ∧ ∃ x, x ∈ R r ∧ x ∈ P r' ∧ x ∉ ps := by
  have hpair : ∀ a b, overlapPair R P ps a b = true ↔ ∃ x, x ∈ R a ∧ x ∈ P b ∧ x ∉ ps := by
    intro a b
    unfold overlapPair
    rw [decide_eq_true_iff, ← Finset.nonempty_iff_ne_empty]
    constructor
    · rintro ⟨x, hx⟩
      simp only [Finset.mem_inter, Finset.mem_sdiff] at hx
      exact ⟨x, hx.1.1, hx.2.1, hx.1.2⟩
    · rintro ⟨x, h1, h2, h3⟩
      exact ⟨x, by simp only [Finset.mem_inter, Finset.mem_sdiff]; exact ⟨⟨h1, h3⟩, h2, h3⟩⟩
  have hall : (List.range combo.length).all (overlapAt R P ps combo) = true ↔
      ∀ r ∈ combo, ∃ r' ∈ combo, r' ≠ r ∧ ∃ x, x ∈ R r ∧ x ∈ P r' ∧ x ∉ ps := by
    rw [List.all_eq_true]
    constructor
    · intro h r hr
      obtain ⟨i, hi, rfl⟩ := List.mem_iff_getElem.mp hr
      have := h i (List.mem_range.mpr hi)
      unfold overlapAt at this
      rw [List.any_eq_true] at this
      obtain ⟨j, hj, hij⟩ := this
      rw [List.mem_range] at hj
      rw [Bool.and_eq_true, decide_eq_true_iff, List.getElem?_eq_getElem hi, List.getElem?_eq_getElem hj] at hij
      refine ⟨combo[j], List.getElem_mem hj, ?_, (hpair _ _).mp hij.2⟩
      intro hc
      exact hij.1 ((List.Nodup.getElem_inj_iff hn).mp hc.symm)
    · intro h i hi
      rw [List.mem_range] at hi
      obtain ⟨r', hr', hne, hx⟩ := h combo[i] (List.getElem_mem hi)
      obtain ⟨j, hj, rfl⟩ := List.mem_iff_getElem.mp hr'
      unfold overlapAt
      rw [List.any_eq_true]
      refine ⟨j, List.mem_range.mpr hj, ?_⟩
      rw [Bool.and_eq_true, decide_eq_true_iff, List.getElem?_eq_getElem hi, List.getElem?_eq_getElem hj]
      refine ⟨?_, (hpair _ _).mpr hx⟩
      rintro rfl
      exact hne rfl
  unfold comboFlag
  split
  · rename_i h
    rw [Bool.or_eq_true, List.any_eq_true, decide_eq_true_iff] at h
    constructor
    · intro h'
      simp at h'
    · rintro ⟨h1, h2, _⟩
      rcases h with ⟨r, hr, hd⟩ | h
      · rw [decide_eq_true_iff] at hd
        exact absurd hd (h1 r hr)
      · exact absurd h h2
  · rename_i h
    rw [Bool.or_eq_true, not_or, List.any_eq_true, decide_eq_true_iff] at h
    rw [hall]
    constructor
    · intro h'
      refine ⟨?_, h.2, h'⟩
      intro r hr hc
      exact h.1 ⟨r, hr, decide_eq_true hc⟩
    · exact fun h' => h'.2.2

/-- The check in words: some sub-collection of at least two reactions, none of which runs on precursors alone, in which
every reaction uses a non-precursor product of another one. -/
theorem interdependent_iff (order : List ρ → List ρ) (ho : SetOrder order) (R P : ρ → Finset κ) (ps : Finset κ)
    (reactions : List ρ) :
    interdependent order R P ps reactions = true ↔ ∃ c : List ρ, c.Nodup ∧ c ≠ [] ∧ (∀ r ∈ c, r ∈ reactions) ∧
      (∀ r ∈ c, ¬ R r ⊆ ps) ∧ ∀ r ∈ c, ∃ r' ∈ c, r' ≠ r ∧ ∃ x, x ∈ R r ∧ x ∈ P r' ∧ x ∉ ps := by
  obtain ⟨hnd, hmem⟩ := ho reactions
  have hlen1 : ∀ c : List ρ, (∀ r ∈ c, ∃ r' ∈ c, r' ≠ r ∧ ∃ x, x ∈ R r ∧ x ∈ P r' ∧ x ∉ ps) → c.length ≠ 1 := by
    intro c h hc
    obtain ⟨a, rfl⟩ := List.length_eq_one_iff.mp hc
    obtain ⟨r', hr', hne, _⟩ := h a (by simp)
    rw [List.mem_singleton] at hr'
    exact hne hr'
  unfold interdependent
  simp only
  constructor
  · intro h
    split at h
    · simp at h
    · rw [List.any_eq_true] at h
      obtain ⟨c, hc, hf⟩ := h
      rw [Utils.C30_mem] at hc
      have hcn := hnd.sublist hc.1
      rw [comboFlag_iff R P ps c hcn] at hf
      exact ⟨c, hcn, hc.2.1, fun r hr => (hmem r).mp (hc.1.subset hr), hf.1, hf.2.2⟩
  · rintro ⟨c, hcn, hne, hsub, h1, h2⟩
    -- rearrange the collection in the order of the set
    set c' := (order reactions).filter (fun r => decide (r ∈ c)) with hc'
    have hmem' : ∀ r, r ∈ c' ↔ r ∈ c := by
      intro r
      rw [hc', List.mem_filter, decide_eq_true_iff, hmem]
      exact ⟨fun h => h.2, fun h => ⟨hsub r h, h⟩⟩
    have hs : c'.Sublist (order reactions) := List.filter_sublist
    have hn' : c'.Nodup := hnd.sublist hs
    have hne' : c' ≠ [] := by
      obtain ⟨r, hr⟩ := List.exists_mem_of_ne_nil c hne
      exact List.ne_nil_of_mem ((hmem' r).mpr hr)
    have h2' : ∀ r ∈ c', ∃ r' ∈ c', r' ≠ r ∧ ∃ x, x ∈ R r ∧ x ∈ P r' ∧ x ∉ ps := by
      intro r hr
      obtain ⟨r', hr', h⟩ := h2 r ((hmem' r).mp hr)
      exact ⟨r', (hmem' r').mpr hr', h⟩
    rw [if_neg, List.any_eq_true]
    · refine ⟨c', (Utils.C30_mem _ _ _).mpr ⟨hs, hne', by exact_mod_cast hs.length_le⟩, ?_⟩
      rw [comboFlag_iff R P ps c' hn']
      exact ⟨fun r hr => h1 r ((hmem' r).mp hr), hlen1 c' h2', h2'⟩
    · intro hl
      have := hlen1 c' h2'
      have h0 := List.length_pos_iff.mpr hne'
      have := hs.length_le
      omega

theorem exec_append (R P : ρ → Finset κ) : ∀ (l : List ρ) (a : Finset κ) (r : ρ), Exec R P a l →
    R r ⊆ a ∪ allProducts P l → Exec R P a (l ++ [r])
  | [], a, r, _, h => by
    simp only [List.nil_append, Exec, and_true]
    simpa [allProducts] using h
  | b :: l, a, r, he, h => by
    refine ⟨he.1, exec_append R P l (a ∪ P b) r he.2 ?_⟩
    unfold allProducts at h
    rw [List.foldr_cons] at h
    rw [Finset.union_assoc]
    exact h

/-- **C54.**  A pathway in which every non-precursor reactant is a product of another reaction, and which is not flagged,
can be carried out step by step. -/
theorem C54_executable (order : List ρ → List ρ) (ho : SetOrder order) (R P : ρ → Finset κ) (ps : Finset κ)
    (reactions : List ρ) (hs : Supplied R P ps reactions) (hf : interdependent order R P ps reactions = false) :
    Executable R P ps reactions := by
  have key : ∀ (n : ℕ) (l : List ρ), l.Nodup → (∀ r ∈ l, r ∈ reactions) → Exec R P ps l →
      (reactions.dedup.filter fun r => decide (r ∉ l)).length = n → Executable R P ps reactions := by
    intro n
    induction n with
    | zero =>
      intro l hn hl he hlen
      refine ⟨l, hn, fun r => ⟨hl r, fun hr => ?_⟩, he⟩
      by_contra hc
      have : r ∈ reactions.dedup.filter fun r => decide (r ∉ l) := by
        rw [List.mem_filter, decide_eq_true_iff, List.mem_dedup]
        exact ⟨hr, hc⟩
      rw [List.length_eq_zero_iff.mp hlen] at this
      simp at this
    | succ n ih =>
      intro l hn hl he hlen
      set rest := reactions.dedup.filter (fun r => decide (r ∉ l)) with hrest
      have hmr : ∀ r, r ∈ rest ↔ r ∈ reactions ∧ r ∉ l := by
        intro r
        rw [hrest, List.mem_filter, decide_eq_true_iff, List.mem_dedup]
      by_cases hex : ∃ r ∈ rest, R r ⊆ ps ∪ allProducts P l
      · obtain ⟨r, hr, hsub⟩ := hex
        rw [hmr] at hr
        refine ih (l ++ [r]) ?_ ?_ (exec_append R P l ps r he hsub) ?_
        · rw [List.nodup_append]
          refine ⟨hn, by simp, ?_⟩
          intro a ha b hb
          rw [List.mem_singleton] at hb
          subst hb
          rintro rfl
          exact hr.2 ha
        · intro a ha
          rw [List.mem_append, List.mem_singleton] at ha
          rcases ha with ha | rfl
          · exact hl a ha
          · exact hr.1
        · have hp : rest.Perm (r :: reactions.dedup.filter fun a => decide (a ∉ l ++ [r])) := by
            apply (List.perm_ext_iff_of_nodup ((List.nodup_dedup _).filter _) ?_).mpr
            · intro a
              rw [hmr, List.mem_cons, List.mem_filter, decide_eq_true_iff, List.mem_dedup, List.mem_append,
                List.mem_singleton]
              constructor
              · rintro ⟨h1, h2⟩
                by_cases hc : a = r
                · exact Or.inl hc
                · exact Or.inr ⟨h1, by tauto⟩
              · rintro (rfl | ⟨h1, h2⟩)
                · exact hr
                · exact ⟨h1, by tauto⟩
            · rw [List.nodup_cons]
              refine ⟨?_, (List.nodup_dedup _).filter _⟩
              rw [List.mem_filter, decide_eq_true_iff]
              simp
          have := hp.length_eq
          rw [List.length_cons] at this
          omega
      · -- the rest would be flagged
        exfalso
        push Not at hex
        have hflag : interdependent order R P ps reactions = true := by
          rw [interdependent_iff order ho]
          refine ⟨rest, (List.nodup_dedup _).filter _, ?_, fun r hr => ((hmr r).mp hr).1, ?_, ?_⟩
          · intro hc
            rw [hc] at hlen
            simp at hlen
          · intro r hr hsub
            exact hex r hr (hsub.trans Finset.subset_union_left)
          · intro r hr
            obtain ⟨x, hx, hxn⟩ := Finset.not_subset.mp (hex r hr)
            rw [Finset.mem_union, not_or] at hxn
            obtain ⟨r', hr', hne, hxp⟩ := hs r ((hmr r).mp hr).1 x hx hxn.1
            refine ⟨r', (hmr r').mpr ⟨hr', ?_⟩, hne, x, hx, hxp, hxn.1⟩
            intro hc
            exact hxn.2 ((mem_foldr_union P l x).mpr ⟨r', hc, hxp⟩)
        rw [hf] at hflag
        simp at hflag
  exact key _ [] List.nodup_nil (by simp) trivial rfl

/-- **C54 for balanced pathways.**  The premise about reactants holds for every pathway that sums up to a net reaction
whose reactants are precursors: `ν r x` is the coefficient of `x` in `r`, `m r` the multiplicity, and the weighted sum
agrees with the net reaction up to `tol x`, less than what any single reaction consumes. -/
theorem C54_balanced (order : List ρ → List ρ) (ho : SetOrder order) (R P : ρ → Finset κ) (ps : Finset κ)
    (reactions : List ρ) (ν : ρ → κ → ℚ) (m : ρ → ℚ) (net tol : κ → ℚ)
    (hR : ∀ r ∈ reactions, ∀ x, x ∈ R r → m r * ν r x < - tol x) (hP : ∀ r ∈ reactions, ∀ x, x ∈ P r ↔ 0 < m r * ν r x)
    (hnet : ∀ x, net x < 0 → x ∈ ps)
    (hsum : ∀ x, |∑ r ∈ reactions.toFinset, m r * ν r x - net x| ≤ tol x)
    (hf : interdependent order R P ps reactions = false) : Executable R P ps reactions := by
  refine C54_executable order ho R P ps reactions ?_ hf
  intro r hr x hx hxp
  by_contra hc
  push Not at hc
  have hle : ∑ r' ∈ reactions.toFinset, m r' * ν r' x ≤ m r * ν r x := by
    rw [← Finset.add_sum_erase _ _ (List.mem_toFinset.mpr hr)]
    have : ∑ r' ∈ reactions.toFinset.erase r, m r' * ν r' x ≤ 0 := by
      apply Finset.sum_nonpos
      intro r' hr'
      rw [Finset.mem_erase, List.mem_toFinset] at hr'
      have := hc r' hr'.2 hr'.1
      rw [hP r' hr'.2] at this
      exact not_lt.mp this
    linarith
  have h1 := hR r hr x hx
  have h2 := abs_le.mp (hsum x)
  have h3 : 0 ≤ net x := by
    by_contra hneg
    exact hxp (hnet x (not_le.mp hneg))
  linarith [h2.1]

theorem exec_split (R P : ρ → Finset κ) : ∀ (l₁ : List ρ) (a : Finset κ) (r : ρ) (l₂ : List ρ),
    Exec R P a (l₁ ++ r :: l₂) → R r ⊆ a ∪ allProducts P l₁
  | [], a, r, l₂, h => by simpa [allProducts] using h.1
  | b :: l₁, a, r, l₂, h => by
    have := exec_split R P l₁ (a ∪ P b) r l₂ h.2
    unfold allProducts at this ⊢
    rw [List.foldr_cons]
    rwa [Finset.union_assoc] at this

/-- **C55, what does hold.**  If no non-precursor composition is made by two different reactions, an executable pathway is
not flagged.  Missing from the full property: the case of several producers, where the check also counts producers that
come too late (see `C55_second_producer_violated`). -/
theorem C55_unique_producer_partial (order : List ρ → List ρ) (ho : SetOrder order) (R P : ρ → Finset κ) (ps : Finset κ)
    (reactions : List ρ) (hu : ∀ r ∈ reactions, ∀ r' ∈ reactions, ∀ x, x ∈ P r → x ∈ P r' → x ∉ ps → r = r')
    (he : Executable R P ps reactions) : interdependent order R P ps reactions = false := by
  by_contra hf
  rw [Bool.not_eq_false, interdependent_iff order ho] at hf
  obtain ⟨c, _, hne, hsub, _, h2⟩ := hf
  obtain ⟨l, hnd, hmem, hex⟩ := he
  -- the first reaction of the combination in the order of execution
  have hfirst : ∃ l₁ r l₂, l = l₁ ++ r :: l₂ ∧ r ∈ c ∧ ∀ a ∈ l₁, a ∉ c := by
    obtain ⟨r₀, hr₀⟩ := List.exists_mem_of_ne_nil c hne
    have hin : r₀ ∈ l := (hmem r₀).mpr (hsub r₀ hr₀)
    clear hnd hmem hex
    induction l with
    | nil => simp at hin
    | cons a l ih =>
      by_cases ha : a ∈ c
      · exact ⟨[], a, l, rfl, ha, by simp⟩
      · rcases List.mem_cons.mp hin with rfl | hin
        · exact absurd hr₀ ha
        · obtain ⟨l₁, r, l₂, h1, h2, h3⟩ := ih hin
          refine ⟨a :: l₁, r, l₂, by rw [h1]; rfl, h2, ?_⟩
          intro b hb
          rcases List.mem_cons.mp hb with rfl | hb
          · exact ha
          · exact h3 b hb
  obtain ⟨l₁, r, l₂, rfl, hr, hl₁⟩ := hfirst
  obtain ⟨r', hr', _, x, hxR, hxP, hxps⟩ := h2 r hr
  have := exec_split R P l₁ ps r l₂ hex hxR
  rw [Finset.mem_union] at this
  rcases this with h | h
  · exact hxps h
  · obtain ⟨a, ha, hxa⟩ := (mem_foldr_union P l₁ x).mp h
    have hal : a ∈ reactions := (hmem a).mp (List.mem_append_left _ ha)
    have := hu a hal r' (hsub r' hr') x hxa hxP hxps
    subst this
    exact hl₁ a ha hr'

/-- `0 → 1`, `1 → 2`, `2 → 1 + 3`. -/
def lateR : ℕ → Finset ℕ
  | 0 => {0}
  | 1 => {1}
  | _ => {2}

def lateP : ℕ → Finset ℕ
  | 0 => {1}
  | 1 => {2}
  | _ => {1, 3}

/-- **C55 (violated).**  `0 → 1`, `1 → 2`, `2 → 1 + 3` can be carried out in this order from precursor 0, but is flagged:
the last two reactions exchange 1 and 2, and the clause that should exclude phases available from other reactions has no
effect. -/
theorem C55_second_producer_violated :
    Executable lateR lateP {0} [0, 1, 2] ∧ interdependent List.dedup lateR lateP {0} [0, 1, 2] = true := by
  refine ⟨⟨[0, 1, 2], by decide, by simp, by decide⟩, by decide +kernel⟩

/-- A reaction whose reactants are neither precursors nor made anywhere is not flagged: the premise of `C54_executable`
cannot be dropped. -/
theorem C54_unsupplied_counterexample :
    interdependent List.dedup lateR lateP {9} [0, 1] = false ∧ ¬ Executable lateR lateP {9} [0, 1] := by
  refine ⟨by decide +kernel, ?_⟩
  rintro ⟨l, _, hm, he⟩
  cases l with
  | nil => simpa using (hm 0).mpr (by simp)
  | cons r l =>
    have h1 := (hm r).mp (by simp)
    have h2 := he.1
    simp only [List.mem_cons, List.not_mem_nil, or_false] at h1
    rcases h1 with rfl | rfl
    · revert h2; decide
    · revert h2; decide

/-- `0 → 1 + 2`, `1 → 3`, `2 + 3 → 4` from precursor 0: supplied and not flagged. -/
def okR : ℕ → Finset ℕ
  | 0 => {0}
  | 1 => {1}
  | _ => {2, 3}

def okP : ℕ → Finset ℕ
  | 0 => {1, 2}
  | 1 => {3}
  | _ => {4}

example : Supplied okR okP {0} [2, 1, 0] ∧ interdependent List.dedup okR okP {0} [2, 1, 0] = false ∧
    ¬ Exec okR okP {0} [2, 1, 0] := by
  refine ⟨?_, by decide +kernel, by decide⟩
  unfold Supplied
  decide

example : Executable okR okP {0} [2, 1, 0] :=
  C54_executable List.dedup RxnSet.setOrder_dedup okR okP {0} [2, 1, 0] (by unfold Supplied; decide) (by decide +kernel)

example : interdependent List.dedup okR okP {0} [2, 1, 0] = false :=
  C55_unique_producer_partial List.dedup RxnSet.setOrder_dedup okR okP {0} [2, 1, 0] (by
    intro r hr r' hr' x h1 h2 _
    simp only [List.mem_cons, List.not_mem_nil, or_false] at hr hr'
    rcases hr with rfl | rfl | rfl <;> rcases hr' with rfl | rfl | rfl <;> simp_all [okP])
    ⟨[0, 1, 2], by decide, by simp; omega, by decide⟩

/-- The reactions of `okR`, `okP` in numbers: each reactant has coefficient -1, each product 1. -/
def okCoeff (r x : ℕ) : ℚ := (if x ∈ okP r then 1 else 0) - (if x ∈ okR r then 1 else 0)

/-- They sum to `0 → 4`. -/
example : Executable okR okP {0} [2, 1, 0] := by
  refine C54_balanced List.dedup RxnSet.setOrder_dedup okR okP {0} [2, 1, 0] okCoeff (fun _ => 1)
    (fun x => if x = 0 then -1 else if x = 4 then 1 else 0) (fun _ => 1 / 1000) ?_ ?_ ?_ ?_ (by decide +kernel)
  · intro r hr x hx
    simp only [List.mem_cons, List.not_mem_nil, or_false] at hr
    rcases hr with rfl | rfl | rfl <;> simp only [okR, Finset.mem_singleton, Finset.mem_insert] at hx
    · rcases hx with rfl | rfl <;> norm_num [okCoeff, okR, okP]
    · subst hx; norm_num [okCoeff, okR, okP]
    · subst hx; norm_num [okCoeff, okR, okP]
  · intro r hr x
    simp only [List.mem_cons, List.not_mem_nil, or_false] at hr
    rcases hr with rfl | rfl | rfl <;> simp only [okP, okCoeff, okR, Finset.mem_singleton, Finset.mem_insert] <;>
      split_ifs with h1 h2 <;> simp_all
  · intro x hx
    by_contra hc
    simp only [Finset.mem_singleton] at hc
    simp only [hc, if_false] at hx
    split_ifs at hx <;> linarith
  · intro x
    have h : [2, 1, 0].toFinset = ({2, 1, 0} : Finset ℕ) := by decide
    rw [h, Finset.sum_insert (by decide), Finset.sum_insert (by decide), Finset.sum_singleton]
    by_cases hx : x ≤ 4
    · interval_cases x <;> norm_num [okCoeff, okR, okP]
    · have h0 : x ≠ 0 := by omega
      have h1 : x ≠ 1 := by omega
      have h2 : x ≠ 2 := by omega
      have h3 : x ≠ 3 := by omega
      have h4 : x ≠ 4 := by omega
      norm_num [okCoeff, okR, okP, h0, h1, h2, h3, h4]

example : reactants okR okP [2, 1, 0] = {0} ∧ products okR okP [2, 1, 0] = {4} ∧
    intermediates okR okP [2, 1, 0] = {1, 2, 3} := by decide

/-! ### C58 -/

/-- **C58, what does hold.**  For pathways with equally many reactions, equality means equality step by step, and is
transitive whenever equality of reactions is. -/
theorem C58_same_length_partial (eq : ρ → ρ → Bool) (a b : Path ρ) (hl : a.reactions.length = b.reactions.length) :
    basicEq eq a b = true ↔ List.Forall₂ (fun x y => eq y x = true) a.reactions b.reactions := by
  unfold basicEq
  generalize a.reactions = xs at hl
  generalize b.reactions = ys at hl
  induction xs generalizing ys with
  | nil =>
    cases ys with
    | nil => simp
    | cons y ys => simp at hl
  | cons x xs ih =>
    cases ys with
    | nil => simp at hl
    | cons y ys =>
      simp only [List.length_cons, Nat.add_right_cancel_iff] at hl
      rw [List.zip_cons_cons, List.all_cons, Bool.and_eq_true, ih ys hl, List.forall₂_cons]

theorem C58_transitive_partial (eq : ρ → ρ → Bool) (htr : ∀ x y z, eq x y = true → eq y z = true → eq x z = true)
    (a b c : Path ρ) (h1 : a.reactions.length = b.reactions.length) (h2 : b.reactions.length = c.reactions.length)
    (hab : basicEq eq a b = true) (hbc : basicEq eq b c = true) : basicEq eq a c = true := by
  rw [C58_same_length_partial eq a b h1] at hab
  rw [C58_same_length_partial eq b c h2] at hbc
  rw [C58_same_length_partial eq a c (h1.trans h2)]
  clear h1 h2
  generalize a.reactions = xs at *
  generalize b.reactions = ys at *
  generalize c.reactions = zs at *
  induction hab generalizing zs with
  | nil =>
    cases hbc
    exact .nil
  | cons h _ ih =>
    cases hbc with
    | cons h' hbc => exact .cons (htr _ _ _ h' h) (ih _ hbc)

/-- A pathway as a list of reactions. -/
def mkPath (rs : List ℕ) (costs : List ℚ) (coeffs : Option (List ℚ)) (b : Bool) : Path ℕ := ⟨rs, costs, coeffs, b⟩

example : basicEq (fun a b => a == b) (mkPath [1, 2] [0, 0] none false) (mkPath [1, 3] [0, 0] none false) = false := by
  decide

/-- **C58 (violated).**  A pathway equals every extension of itself, the empty pathway equals everything, and equality is
not transitive. -/
theorem C58_prefix_violated :
    basicEq (fun a b => a == b) (mkPath [1] [0] none false) (mkPath [1, 2] [0, 0] none false) = true ∧
    basicEq (fun a b => a == b) (mkPath [1, 2] [0, 0] none false) (mkPath [] [] none false) = true ∧
    basicEq (fun a b => a == b) (mkPath [] [] none false) (mkPath [3] [0] none false) = true ∧
    basicEq (fun a b => a == b) (mkPath [1, 2] [0, 0] none false) (mkPath [3] [0] none false) = false := by
  decide +kernel

/-- **C58 (violated for balanced pathways).**  The coefficients are not compared, and different numbers of costs raise. -/
theorem C58_balanced_violated :
    balancedEq (fun a b => a == b) (mkPath [1, 2] [3, 4] (some [1, 1]) true) (mkPath [1, 2] [3, 4] (some [2, 5]) true)
      = .ok true ∧
    balancedEq (fun a b => a == b) (mkPath [1, 2] [3, 4] (some [1, 1]) true)
      (mkPath [1, 2, 5] [3, 4, 4] (some [2, 5, 1]) true) = .error .valueError := by
  constructor <;> decide +kernel

/-- **C58, the costs.**  The comparison raises exactly for two lists of different lengths neither of which has one cost; otherwise it is true exactly when
the costs agree in order, where a single cost is compared with all costs of the other pathway. -/
theorem C58_costs_partial (eq : ρ → ρ → Bool) (a b : Path ρ) (hs : basicEq eq a b = true) :
    (balancedEq eq a b = .error .valueError ↔ a.costs.length ≠ b.costs.length ∧ a.costs.length ≠ 1 ∧ b.costs.length ≠ 1) ∧
    (balancedEq eq a b = .ok true ↔ List.Forall₂ (fun x y => isclose x y = true) a.costs b.costs ∨
      (∃ x, a.costs = [x] ∧ ∀ y ∈ b.costs, isclose x y = true) ∨ (∃ y, b.costs = [y] ∧ ∀ x ∈ a.costs, isclose x y = true)) ∧
    (balancedEq eq a b = .error .valueError ∨ ∃ v, balancedEq eq a b = .ok v) := by
  unfold balancedEq allcloseB
  rw [if_pos hs]
  generalize a.costs = xs
  generalize b.costs = ys
  have hz : ∀ (us vs : List ℚ), us.length = vs.length →
      (((us.zip vs).all fun p => isclose p.1 p.2) = true ↔ List.Forall₂ (fun x y => isclose x y = true) us vs) := by
    intro us
    induction us with
    | nil =>
      intro vs h
      cases vs with
      | nil => simp
      | cons v vs => simp at h
    | cons u us ih =>
      intro vs h
      cases vs with
      | nil => simp at h
      | cons v vs =>
        rw [List.forall₂_cons, ← ih vs (by simpa using h)]
        simp
  by_cases hl : xs.length = ys.length
  · rw [if_pos hl]
    refine ⟨by simp [hl], ?_, .inr ⟨_, rfl⟩⟩
    rw [Except.ok.injEq, hz xs ys hl]
    constructor
    · exact .inl
    · rintro (h | ⟨x, rfl, h⟩ | ⟨y, rfl, h⟩)
      · exact h
      · obtain ⟨y, rfl⟩ := List.length_eq_one_iff.mp hl.symm
        exact .cons (h y (by simp)) .nil
      · obtain ⟨x, rfl⟩ := List.length_eq_one_iff.mp hl
        exact .cons (h x (by simp)) .nil
  · rw [if_neg hl]
    have hf : ¬ List.Forall₂ (fun x y => isclose x y = true) xs ys := fun h => hl h.length_eq
    match xs, ys with
    | [x], ys =>
      refine ⟨by simp, ?_, .inr ⟨_, rfl⟩⟩
      rw [Except.ok.injEq, List.all_eq_true]
      constructor
      · exact fun h => .inr (.inl ⟨x, rfl, h⟩)
      · rintro (h | ⟨x', hx, h⟩ | ⟨y, rfl, h⟩)
        · exact absurd h hf
        · cases hx; exact h
        · simp at hl
    | [], [y] =>
      refine ⟨by simp, ?_, .inr ⟨_, rfl⟩⟩
      constructor
      · exact fun _ => .inr (.inr ⟨y, rfl, by simp⟩)
      · exact fun _ => rfl
    | x :: x' :: xs, [y] =>
      refine ⟨by simp, ?_, .inr ⟨_, rfl⟩⟩
      rw [Except.ok.injEq, List.all_eq_true]
      constructor
      · exact fun h => .inr (.inr ⟨y, rfl, h⟩)
      · rintro (h | ⟨x', hx, h⟩ | ⟨y', hy, h⟩)
        · exact absurd h hf
        · simp at hx
        · cases hy; exact h
    | [], [] => simp at hl
    | [], y :: y' :: ys => refine ⟨by simp, by simp [hf], .inl rfl⟩
    | x :: x' :: xs, [] => refine ⟨by simp, by simp [hf], .inl rfl⟩
    | x :: x' :: xs, y :: y' :: ys =>
      refine ⟨⟨fun _ => ⟨hl, by simp, by simp⟩, fun _ => rfl⟩, by simp [hf], .inl rfl⟩

/-- A single cost is compared with all costs of the longer pathway. -/
example : balancedEq (fun a b => a == b) (mkPath [1, 2] [3, 3] none true) (mkPath [1] [3] none true) = .ok true ∧
    balancedEq (fun a b => a == b) (mkPath [1, 2] [3, 4] none true) (mkPath [1] [3] none true) = .ok false := by
  constructor <;> decide +kernel

/-! ### C59 -/

omit [DecidableEq κ] [DecidableEq ρ] in
theorem indexOf_ok (eq : ρ → ρ → Bool) (rxns : List ρ) (r : ρ) (h : ∃ x ∈ rxns, eq x r = true) :
    ∃ i x, indexOf eq rxns r = .ok i ∧ Verif.Model.RxnSet.getIdx rxns i = .ok x ∧ eq x r = true := by
  unfold indexOf
  cases hf : rxns.findIdx? fun x => eq x r with
  | none =>
    rw [List.findIdx?_eq_none_iff] at hf
    obtain ⟨x, hx, he⟩ := h
    have := hf x hx
    rw [he] at this
    simp at this
  | some i =>
    rw [List.findIdx?_eq_some_iff_getElem] at hf
    obtain ⟨hi, he, _⟩ := hf
    refine ⟨i, rxns[i], rfl, ?_, he⟩
    unfold Verif.Model.RxnSet.getIdx
    rw [List.getElem?_eq_getElem hi]

omit [DecidableEq κ] [DecidableEq ρ] in
/-- Reading one pathway back. -/
theorem row_round (eq : ρ → ρ → Bool) (rxns : List ρ) (p : Path ρ) (h : ∀ r ∈ p.reactions, ∃ x ∈ rxns, eq x r = true) :
    ∃ row q, rowOf eq rxns p = .ok row ∧ pathOf rxns row = .ok q ∧ q.costs = p.costs ∧
      q.coefficients = p.coefficients ∧ q.balanced = false ∧ List.Forall₂ (fun x r => eq x r = true) q.reactions p.reactions := by
  have key : ∀ l : List ρ, (∀ r ∈ l, ∃ x ∈ rxns, eq x r = true) → ∃ is xs, l.mapM (indexOf eq rxns) = .ok is ∧
      is.mapM (Verif.Model.RxnSet.getIdx rxns) = .ok xs ∧ List.Forall₂ (fun x r => eq x r = true) xs l := by
    intro l
    induction l with
    | nil => intro _; exact ⟨[], [], rfl, rfl, .nil⟩
    | cons r l ih =>
      intro hl
      obtain ⟨is, xs, h1, h2, h3⟩ := ih (fun a ha => hl a (List.mem_cons_of_mem _ ha))
      obtain ⟨i, x, h4, h5, h6⟩ := indexOf_ok eq rxns r (hl r List.mem_cons_self)
      refine ⟨i :: is, x :: xs, ?_, ?_, .cons h6 h3⟩
      · rw [mapM_cons, h4, h1]
      · rw [mapM_cons, h5, h2]
  obtain ⟨is, xs, h1, h2, h3⟩ := key p.reactions h
  refine ⟨⟨is, p.coefficients, p.costs⟩, ⟨xs, p.costs, p.coefficients, false⟩, ?_, ?_, rfl, rfl, rfl, h3⟩
  · unfold rowOf; rw [h1]; rfl
  · unfold pathOf; simp only; rw [h2]; rfl

omit [DecidableEq κ] [DecidableEq ρ] in
/-- **C59, what does hold.**  If the reaction set gives back, for each reaction, one that compares equal to it, then every
pathway comes back in order with the same costs and coefficients and with reactions that compare equal step by step.
Missing from the full property: the `balanced` flag is lost (`C59_balanced_violated`), and reactions that compare equal
without being the same are merged. -/
theorem C59_round_partial (eq : ρ → ρ → Bool) (store : List ρ → Except Err (List ρ)) (paths : List (Path ρ))
    (rxns : List ρ) (hst : store (paths.flatMap fun p => p.reactions) = .ok rxns)
    (hall : ∀ p ∈ paths, ∀ r ∈ p.reactions, ∃ x ∈ rxns, eq x r = true) :
    ∃ out, roundTrip eq store paths = .ok out ∧ List.Forall₂ (fun q p => q.costs = p.costs ∧
      q.coefficients = p.coefficients ∧ q.balanced = false ∧
      List.Forall₂ (fun x r => eq x r = true) q.reactions p.reactions) out paths := by
  have key : ∀ l : List (Path ρ), (∀ p ∈ l, ∀ r ∈ p.reactions, ∃ x ∈ rxns, eq x r = true) →
      ∃ rows out, l.mapM (rowOf eq rxns) = .ok rows ∧ rows.mapM (pathOf rxns) = .ok out ∧
        List.Forall₂ (fun q p => q.costs = p.costs ∧ q.coefficients = p.coefficients ∧ q.balanced = false ∧
          List.Forall₂ (fun x r => eq x r = true) q.reactions p.reactions) out l := by
    intro l
    induction l with
    | nil => intro _; exact ⟨[], [], rfl, rfl, .nil⟩
    | cons p l ih =>
      intro hl
      obtain ⟨rows, out, h1, h2, h3⟩ := ih (fun a ha => hl a (List.mem_cons_of_mem _ ha))
      obtain ⟨row, q, h4, h5, h6⟩ := row_round eq rxns p (hl p List.mem_cons_self)
      refine ⟨row :: rows, q :: out, ?_, ?_, .cons h6 h3⟩
      · rw [mapM_cons, h4, h1]
      · rw [mapM_cons, h5, h2]
  obtain ⟨rows, out, h1, h2, h3⟩ := key paths hall
  refine ⟨out, ?_, h3⟩
  unfold roundTrip
  simp only [hst, h1, h2]

/-- With the reaction set of the library: for reactions at one common setting of the chemical potentials whose entries are
told apart by their ids, `PathwaySet` reads every pathway back (with an equality of reactions that is reflexive). -/
theorem C59_library_partial {η δ ε υ : Type} [DecidableEq η] [DecidableEq ε] [DecidableEq υ]
    (uid : η → υ) (setOrder : List η → List η) (ho : SetOrder setOrder)
    (eq : Verif.Model.RxnSet.SRxn η δ ε → Verif.Model.RxnSet.SRxn η δ ε → Bool) (hrefl : ∀ r, eq r r = true)
    (paths : List (Path (Verif.Model.RxnSet.SRxn η δ ε)))
    (mu : List (ε × ℚ)) (hmu : mu = [] ∨ ∃ e v, mu = [(e, v)])
    (hopen : ∀ p ∈ paths, ∀ r ∈ p.reactions, r.chempots = mu)
    (hinj : ∀ p ∈ paths, ∀ r ∈ p.reactions, ∀ a ∈ r.entries, ∀ p' ∈ paths, ∀ r' ∈ p'.reactions, ∀ b ∈ r'.entries,
      uid a = uid b → a = b) :
    ∃ out, roundTrip eq (storeRxns uid setOrder) paths = .ok out ∧ List.Forall₂ (fun q p => q.costs = p.costs ∧
      q.coefficients = p.coefficients ∧ q.balanced = false ∧
      List.Forall₂ (fun x r => eq x r = true) q.reactions p.reactions) out paths := by
  obtain ⟨s, out, h1, h2, h3⟩ := RxnSet.C20_chempots uid setOrder ho (paths.flatMap fun p => p.reactions) (by
      intro r hr a ha r' hr' b hb
      obtain ⟨p, hp, hr⟩ := List.mem_flatMap.mp hr
      obtain ⟨p', hp', hr'⟩ := List.mem_flatMap.mp hr'
      exact hinj p hp r hr a ha p' hp' r' hr' b hb) 0 mu hmu (by
      intro r hr
      obtain ⟨p, hp, hr⟩ := List.mem_flatMap.mp hr
      exact hopen p hp r hr)
  refine C59_round_partial eq (storeRxns uid setOrder) paths out ?_ ?_
  · unfold storeRxns
    rw [h1]
    exact h2
  · intro p hp r hr
    exact ⟨r, h3.mem_iff.mpr (List.mem_flatMap.mpr ⟨p, hp, hr⟩), hrefl r⟩

/-- Two stored pathways that share the reaction `closedA`. -/
example : ∃ out, roundTrip (fun a b => decide (a = b)) (storeRxns id List.dedup)
    [⟨[RxnSet.closedA, RxnSet.closedB], [1, 2], none, false⟩, ⟨[RxnSet.closedA], [1], none, false⟩] = .ok out ∧
      out.length = 2 := by
  obtain ⟨out, h, hf⟩ := C59_library_partial id List.dedup RxnSet.setOrder_dedup (fun a b => decide (a = b)) (by simp)
    [⟨[RxnSet.closedA, RxnSet.closedB], [1, 2], none, false⟩, ⟨[RxnSet.closedA], [1], none, false⟩] [] (Or.inl rfl)
    (by simp [RxnSet.closedA, RxnSet.closedB]) (fun _ _ _ _ _ _ _ _ _ _ _ _ h => h)
  exact ⟨out, h, hf.length_eq⟩

/-- a set of two pathways, the second balanced -/
def twoPaths : List (Path ℕ) := [mkPath [4, 5] [1, 2] none false, mkPath [5, 6] [2, 3] (some [1, 2]) true]

/-- **C59 (violated).**  The balanced pathway comes back as a plain one. -/
theorem C59_balanced_violated :
    (match roundTrip (fun a b => a == b) (fun l => .ok l.dedup) twoPaths with
      | .ok out => out.map fun p => (p.reactions, p.costs, p.coefficients, p.balanced)
      | .error _ => []) = [([4, 5], [1, 2], none, false), ([5, 6], [2, 3], some [1, 2], false)] := by
  decide +kernel

/-- **C59 (violated).**  With an equality that identifies two reactions (here: equal modulo 10), the second one comes back
as the first. -/
theorem C59_merged_violated :
    (match roundTrip (fun a b => a % 10 == b % 10) (fun l => .ok l.dedup) [mkPath [4, 14] [1, 2] none false] with
      | .ok out => out.map fun p => p.reactions
      | .error _ => []) = [[4, 4]] := by
  decide +kernel

end Verif.Props.Pathway
