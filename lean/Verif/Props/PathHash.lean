import Verif.Props.Solver
import Verif.Props.Pathway

/-! Property C58, continued: hashes of pathways, and what a Python set of pathways keeps. -/

set_option linter.unusedSectionVars false

namespace Verif.Props.PathHash
open Verif.Py Verif.Model.Pathway Verif.Lemmas.Exc Verif.Props.Solver Verif.Props.Pathway

variable {ρ υ : Type} [DecidableEq ρ] [DecidableEq υ]

/-- Step-by-step equality. -/
def StepsEq (eq : ρ → ρ → Bool) (a b : Path ρ) : Prop := List.Forall₂ (fun x y => eq y x = true) a.reactions b.reactions

theorem map_of_forall₂ (h : ρ → υ) (eq : ρ → ρ → Bool) (hh : ∀ x y, eq x y = true → h x = h y) (a b : List ρ)
    (hab : List.Forall₂ (fun x y => eq y x = true) a b) : a.map h = b.map h := by
  induction hab with
  | nil => rfl
  | cons h1 _ ih => rw [List.map_cons, List.map_cons, hh _ _ h1, ih]

/-- **C58, what holds of hashes.** Equal pathways with equally many steps have equal hashes, if equal reactions have; balanced pathways need the same
multiplicities as well. -/
theorem C58_hash_partial (h : ρ → υ) (eq : ρ → ρ → Bool) (hh : ∀ x y, eq x y = true → h x = h y) (a b : Path ρ)
    (hl : a.reactions.length = b.reactions.length) :
    (basicEq eq a b = true → basicHash h a = basicHash h b) ∧
      (balancedEq eq a b = .ok true → a.coefficients = b.coefficients → balancedHash h a = balancedHash h b) := by
  have key : basicEq eq a b = true → a.reactions.map h = b.reactions.map h := fun hab =>
    map_of_forall₂ h eq hh _ _ ((C58_same_length_partial eq a b hl).mp hab)
  refine ⟨key, fun hab hc => ?_⟩
  unfold balancedEq at hab
  split at hab
  · rename_i hb
    unfold balancedHash
    rw [key hb, hc]
  · exact absurd (Except.ok.inj hab) (by decide)

/-- **C58, hashes (violated).** Pathways that compare equal have different hashes: balanced pathways with different multiplicities, and pathways of which
one continues the other. -/
theorem C58_hash_violated :
    (balancedEq (fun a b => a == b) (mkPath [1, 2] [3, 4] (some [1, 1]) true) (mkPath [1, 2] [3, 4] (some [2, 5]) true) = .ok true ∧
      balancedHash id (mkPath [1, 2] [3, 4] (some [1, 1]) true) ≠ balancedHash id (mkPath [1, 2] [3, 4] (some [2, 5]) true)) ∧
    (basicEq (fun a b => a == b) (mkPath [1] [0] none false) (mkPath [1, 2] [0, 0] none false) = true ∧
      basicHash id (mkPath [1] [0] none false) ≠ basicHash id (mkPath [1, 2] [0, 0] none false)) := by
  decide +kernel

/-! ### Sets of pathways -/

/-- What two pathways have in common if a set regards them as one. -/
def SameIn (eq : ρ → ρ → Bool) (q p : Path ρ) : Prop :=
  q.coefficients = p.coefficients ∧ (q = p ∨ StepsEq eq q p ∧ allcloseB q.costs p.costs = .ok true)

theorem sameKey_true (h : ρ → υ) (eq : ρ → ρ → Bool) (q p : Path ρ) (hs : sameKey h eq q p = .ok true) :
    balancedHash h q = balancedHash h p ∧ SameIn eq q p := by
  unfold sameKey at hs
  split at hs
  · rename_i hb
    have hb' := Prod.mk.inj hb
    refine ⟨hb, hb'.2, ?_⟩
    split at hs
    · rename_i hq
      exact Or.inl hq
    · right
      unfold balancedEq at hs
      split at hs
      · rename_i he
        have hl : q.reactions.length = p.reactions.length := by
          have := congrArg List.length hb'.1
          rwa [List.length_map, List.length_map] at this
        exact ⟨(C58_same_length_partial eq q p hl).mp he, hs⟩
      · exact absurd (Except.ok.inj hs) (by decide)
  · exact absurd (Except.ok.inj hs) (by decide)

theorem setHas_true (h : ρ → υ) (eq : ρ → ρ → Bool) (s : List (Path ρ)) (p : Path ρ) (hs : setHas h eq s p = .ok true) :
    ∃ q ∈ s, sameKey h eq q p = .ok true := by
  induction s with
  | nil => exact absurd (Except.ok.inj hs) (by decide)
  | cons a s ih =>
    simp only [setHas] at hs
    split at hs
    · rename_i ha
      exact ⟨a, List.mem_cons_self, ha⟩
    · obtain ⟨q, hq, hk⟩ := ih hs
      exact ⟨q, List.mem_cons_of_mem _ hq, hk⟩
    · exact absurd hs (by simp)

theorem setHas_false (h : ρ → υ) (eq : ρ → ρ → Bool) (s : List (Path ρ)) (p : Path ρ) (hs : setHas h eq s p = .ok false) :
    ∀ q ∈ s, sameKey h eq q p = .ok false := by
  induction s with
  | nil => simp
  | cons a s ih =>
    simp only [setHas] at hs
    split at hs
    · exact absurd (Except.ok.inj hs) (by decide)
    · rename_i ha
      intro q hq
      rcases List.mem_cons.mp hq with rfl | hq
      · exact ha
      · exact ih hs q hq
    · exact absurd hs (by simp)

theorem pathSet_spec (h : ρ → υ) (eq : ρ → ρ → Bool) (l seen s : List (Path ρ)) (hs : pathSet h eq seen l = .ok s)
    (hp : seen.Pairwise fun q p => sameKey h eq q p = .ok false) :
    (∀ q ∈ s, q ∈ seen ∨ q ∈ l) ∧ (∀ q ∈ seen, q ∈ s) ∧ (∀ p ∈ l, p ∈ s ∨ ∃ q ∈ s, sameKey h eq q p = .ok true) ∧
      s.Pairwise fun q p => sameKey h eq q p = .ok false := by
  induction l generalizing seen with
  | nil =>
    have := Except.ok.inj hs
    subst this
    exact ⟨fun q hq => Or.inl hq, fun q hq => hq, by simp, hp⟩
  | cons a l ih =>
    simp only [pathSet] at hs
    split at hs
    · rename_i ha
      obtain ⟨h1, h2, h3, h4⟩ := ih seen hs hp
      refine ⟨fun q hq => (h1 q hq).imp id (List.mem_cons_of_mem _), h2, ?_, h4⟩
      intro p hp'
      rcases List.mem_cons.mp hp' with rfl | hp'
      · obtain ⟨q, hq, hk⟩ := setHas_true h eq seen p ha
        exact Or.inr ⟨q, h2 q hq, hk⟩
      · exact h3 p hp'
    · rename_i ha
      have hf := setHas_false h eq seen a ha
      obtain ⟨h1, h2, h3, h4⟩ := ih (seen ++ [a]) hs (by
        rw [List.pairwise_append]
        exact ⟨hp, List.pairwise_singleton _ _, fun q hq p hp' => by rw [List.mem_singleton.mp hp']; exact hf q hq⟩)
      refine ⟨?_, fun q hq => h2 q (List.mem_append_left _ hq), ?_, h4⟩
      · intro q hq
        rcases h1 q hq with h | h
        · rcases List.mem_append.mp h with h | h
          · exact Or.inl h
          · exact Or.inr (List.mem_singleton.mp h ▸ List.mem_cons_self)
        · exact Or.inr (List.mem_cons_of_mem _ h)
      · intro p hp'
        rcases List.mem_cons.mp hp' with rfl | hp'
        · exact Or.inl (h2 p (List.mem_append_right _ (List.mem_singleton.mpr rfl)))
        · exact h3 p hp'
    · exact absurd hs (by simp)

/-- **C58, sets of pathways.** A Python set made of pathways contains only pathways of the list; every pathway of the list is represented by one with the same
multiplicities, equal steps and equal costs; and no two members of the set are the same pathway. So although equality ignores multiplicities and
lengths, the hash keeps such pathways apart. -/
theorem C58_set (h : ρ → υ) (eq : ρ → ρ → Bool) (l s : List (Path ρ)) (hs : pathSet h eq [] l = .ok s) :
    (∀ q ∈ s, q ∈ l) ∧ (∀ p ∈ l, ∃ q ∈ s, SameIn eq q p) ∧ s.Nodup := by
  obtain ⟨h1, _, h3, h4⟩ := pathSet_spec h eq l [] s hs List.Pairwise.nil
  refine ⟨fun q hq => (h1 q hq).resolve_left (by simp), ?_, ?_⟩
  · intro p hp
    rcases h3 p hp with h | ⟨q, hq, hk⟩
    · exact ⟨p, h, rfl, Or.inl rfl⟩
    · exact ⟨q, hq, (sameKey_true h eq q p hk).2⟩
  · refine h4.imp ?_
    rintro q p hqp rfl
    unfold sameKey at hqp
    rw [if_pos rfl, if_pos rfl] at hqp
    exact absurd (Except.ok.inj hqp) (by decide)

/-- Making the set does not raise if every pathway has as many costs as steps. -/
theorem C58_set_total (h : ρ → υ) (eq : ρ → ρ → Bool) (l : List (Path ρ)) (hc : ∀ p ∈ l, p.costs.length = p.reactions.length) :
    ∃ s, pathSet h eq [] l = .ok s := by
  have key : ∀ q p : Path ρ, q.costs.length = q.reactions.length → p.costs.length = p.reactions.length → ∃ b, sameKey h eq q p = .ok b := by
    intro q p hq hp
    unfold sameKey
    split
    · rename_i hb
      split
      · exact ⟨_, rfl⟩
      · unfold balancedEq
        split
        · have hl := congrArg List.length (Prod.mk.inj hb).1
          rw [List.length_map, List.length_map] at hl
          unfold allcloseB
          rw [if_pos (by rw [hq, hp, hl])]
          exact ⟨_, rfl⟩
        · exact ⟨_, rfl⟩
    · exact ⟨_, rfl⟩
  have has : ∀ (s : List (Path ρ)) (p : Path ρ), (∀ q ∈ s, q.costs.length = q.reactions.length) → p.costs.length = p.reactions.length →
      ∃ b, setHas h eq s p = .ok b := by
    intro s p hs hp
    induction s with
    | nil => exact ⟨_, rfl⟩
    | cons a s ih =>
      obtain ⟨b, hb⟩ := key a p (hs a List.mem_cons_self) hp
      simp only [setHas, hb]
      cases b with
      | true => exact ⟨_, rfl⟩
      | false => exact ih fun q hq => hs q (List.mem_cons_of_mem _ hq)
  have go : ∀ seen : List (Path ρ), (∀ q ∈ seen, q.costs.length = q.reactions.length) → ∃ s, pathSet h eq seen l = .ok s := by
    induction l with
    | nil => exact fun seen _ => ⟨_, rfl⟩
    | cons a l ih =>
      intro seen hseen
      obtain ⟨b, hb⟩ := has seen a hseen (hc a List.mem_cons_self)
      simp only [pathSet, hb]
      cases b with
      | true => exact ih (fun p hp => hc p (List.mem_cons_of_mem _ hp)) seen hseen
      | false =>
        apply ih (fun p hp => hc p (List.mem_cons_of_mem _ hp))
        intro q hq
        rcases List.mem_append.mp hq with hq | hq
        · exact hseen q hq
        · rw [List.mem_singleton.mp hq]; exact hc a List.mem_cons_self
  exact go [] (by simp)

/-- What the solver assumes of `set(...)` (`PickSpec`, in C56, C57, C71, C125) is true of Python sets, iterated in any order, if comparing reactions is symmetric. Where
making the set would raise, any list may be given. -/
theorem C58_pick (h : ρ → υ) (eq : ρ → ρ → Bool) (hsym : ∀ x y, eq x y = true → eq y x = true) (order : List (Path ρ) → List (Path ρ))
    (ho : ∀ l, (order l).Perm l) :
    PickSpec eq fun l => match pathSet h eq [] l with
      | .ok s => order s
      | .error _ => l where
  sub l q hq := by
    split at hq
    · rename_i s hs
      exact (C58_set h eq l s hs).1 q ((ho s).mem_iff.mp hq)
    · exact hq
  rep l p hp := by
    split
    · rename_i s hs
      obtain ⟨q, hq, hc, he⟩ := (C58_set h eq l s hs).2.1 p hp
      refine ⟨q, (ho s).mem_iff.mpr hq, hc, ?_⟩
      rcases he with rfl | ⟨he, _⟩
      · exact List.forall₂_same.mpr fun _ _ => Or.inl rfl
      · exact he.imp fun _ _ hxy => Or.inr (hsym _ _ hxy)
    · exact ⟨p, hp, rfl, List.forall₂_same.mpr fun _ _ => Or.inl rfl⟩

/-! Concrete cases. -/

-- costs within the tolerance are merged, other multiplicities and continuations are kept
example : pathSet id (fun a b => a == b) [] [mkPath [1, 2] [3, 4] (some [1, 1]) true, mkPath [1, 2] [3, 4 + 1 / 1000000] (some [1, 1]) true,
    mkPath [1, 2] [3, 4] (some [2, 5]) true, mkPath [1] [3] (some [1]) true, mkPath [1, 2] [3, 4] (some [1, 1]) true]
    = .ok [mkPath [1, 2] [3, 4] (some [1, 1]) true, mkPath [1, 2] [3, 4] (some [2, 5]) true, mkPath [1] [3] (some [1]) true] := by decide +kernel
-- without costs for every step making the set raises
example : pathSet id (fun a b => a == b) [] [mkPath [1, 2] [3, 4, 5] (some [1, 1]) true, mkPath [1, 2] [3, 4] (some [1, 1]) true] = .error .valueError := by
  decide +kernel
example : ∀ x y : ℕ, (x == y) = true → id x = id y := by simp
example : (mkPath [1, 2] [3, 4] (some [1, 1]) true).reactions.length = (mkPath [1, 2] [3, 5] (some [1, 1]) true).reactions.length := rfl

example := C58_hash_partial id (fun a b : ℕ => a == b) (by simp) (mkPath [1, 2] [3, 4] (some [1, 1]) true) (mkPath [1, 2] [3, 5] (some [1, 1]) true) rfl
example := C58_set_total id (fun a b : ℕ => a == b) [mkPath [1, 2] [3, 4] (some [1, 1]) true, mkPath [1] [3] (some [1]) true] (by simp [mkPath])
example := C58_set id (fun a b : ℕ => a == b) [mkPath [1, 2] [3, 4] (some [1, 1]) true, mkPath [1] [3] (some [1]) true, mkPath [1, 2] [3, 4] (some [1, 1]) true]
  [mkPath [1, 2] [3, 4] (some [1, 1]) true, mkPath [1] [3] (some [1]) true] (by decide +kernel)

end Verif.Props.PathHash
