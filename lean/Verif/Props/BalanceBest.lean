import Verif.Props.BalanceLinear

/-! C10 continued: the candidate kept by the search has the fewest errors; balancing of computed entries. -/

set_option linter.unusedSectionVars false

namespace Verif.Props.BalanceBest
open Verif.Py Verif.Model Verif.Model.Reaction Verif.Spec.Reaction Verif.Lemmas.Reaction Verif.Props.Balance
open Verif.Props.Reaction (A A2 B2 AB B1)

variable {κ ε : Type} [DecidableEq κ] [DecidableEq ε]

/-- Specification: number of phases that vanish or are on the wrong side, where the first `n` phases are the stated reactants. -/
def misplaced (n : ℕ) (coeffs : List ℚ) : ℕ :=
  (coeffs.take n).countP (fun x => decide (-(1 / 1000000) < x)) + (coeffs.drop n).countP (fun x => decide (x < 1 / 1000000))

/-- Specification: an admissible set of at most `nc` fixed coefficients, in increasing order: products only or reactants only. -/
def Admissible (n N nc : ℕ) (cs : List ℕ) : Prop :=
  cs ≠ [] ∧ cs.length ≤ nc ∧ cs.Pairwise (· < ·) ∧ ((∀ k ∈ cs, n ≤ k ∧ k < N) ∨ ∀ k ∈ cs, k < n)

theorem numErrors_eq (n m : ℕ) (coeffs : List ℚ) (hl : coeffs.length = n + m) : numErrors n m coeffs = misplaced n coeffs := by
  have hsplit : (List.replicate n (-1 : ℚ) ++ List.replicate m 1).zip coeffs
      = (List.replicate n (-1 : ℚ)).zip (coeffs.take n) ++ (List.replicate m (1 : ℚ)).zip (coeffs.drop n) := by
    conv_lhs => rw [← List.take_append_drop n coeffs]
    rw [List.zip_append]
    simp; omega
  have hz : ∀ (v : ℚ) (l : List ℚ) (k : ℕ), l.length = k →
      (((List.replicate k v).zip l).filter fun p : ℚ × ℚ => decide (p.1 * p.2 < tol)).length = l.countP fun x => decide (v * x < tol) := by
    rintro v l k rfl
    induction l with
    | nil => simp
    | cons y l ih =>
      simp only [List.length_cons, List.replicate_succ, List.zip_cons_cons, List.filter_cons, List.countP_cons]
      split_ifs <;> simp [ih]
  unfold numErrors misplaced
  rw [hsplit, List.filter_append, List.length_append, hz _ _ _ (by simp; omega), hz _ _ _ (by simp; omega)]
  congr 1
  · apply List.countP_congr
    intro x _
    rw [decide_eq_true_iff, decide_eq_true_iff]
    unfold tol
    constructor <;> intro h <;> linarith
  · apply List.countP_congr
    intro x _
    rw [decide_eq_true_iff, decide_eq_true_iff]
    unfold tol
    constructor <;> intro h <;> linarith

theorem loop_min (ok : List ℚ → Bool) (errs : List ℚ → ℕ) (solve : List ℕ → List ℚ) (css : List (List ℕ)) (acc : List ℚ × Option ℕ)
    (k : ℕ) (h : (balanceLoop ok errs solve css acc).2 = some k) :
    (∀ cs ∈ css, ok (solve cs) = true → k ≤ errs (solve cs)) ∧ ∀ m, acc.2 = some m → k ≤ m := by
  induction css generalizing acc with
  | nil =>
    refine ⟨by simp, fun m hm => ?_⟩
    have : acc.2 = some k := h
    rw [this] at hm
    cases hm; exact le_refl _
  | cons cs rest ih =>
    unfold balanceLoop at h
    by_cases h1 : ok (solve cs) = true
    · rw [if_pos h1] at h
      by_cases h2 : errs (solve cs) = 0
      · rw [if_pos h2] at h
        cases h
        exact ⟨fun _ _ _ => Nat.zero_le _, fun _ _ => Nat.zero_le _⟩
      · rw [if_neg h2] at h
        split_ifs at h with h3
        · obtain ⟨e1, e2⟩ := ih _ h
          have e3 := e2 _ rfl
          refine ⟨fun d hd hok => ?_, fun m hm => ?_⟩
          · rcases List.mem_cons.mp hd with rfl | hd
            · exact e3
            · exact e1 d hd hok
          · rw [hm] at h3
            have := of_decide_eq_true h3
            omega
        · obtain ⟨e1, e2⟩ := ih _ h
          refine ⟨fun d hd hok => ?_, e2⟩
          rcases List.mem_cons.mp hd with rfl | hd
          · cases ha : acc.2 with
            | none => rw [ha] at h3; simp at h3
            | some m =>
              rw [ha] at h3
              have := e2 m ha
              simp only [decide_eq_true_eq] at h3
              omega
          · exact e1 d hd hok
    · rw [if_neg h1] at h
      obtain ⟨e1, e2⟩ := ih _ h
      refine ⟨fun d hd hok => ?_, e2⟩
      rcases List.mem_cons.mp hd with rfl | hd
      · exact absurd hok h1
      · exact e1 d hd hok

theorem sublist_range_of (l : List ℕ) (a b : ℕ) (hp : l.Pairwise (· < ·)) (h : ∀ k ∈ l, a ≤ k ∧ k < b) :
    l.Sublist ((List.range b).drop a) := by
  have hs : ((List.range b).drop a).Pairwise (· < ·) := (List.pairwise_lt_range (n := b)).sublist (List.drop_sublist _ _)
  refine (List.sublist_of_subperm_of_pairwise (r := (· ≤ ·)) ?_ (hp.imp le_of_lt) (hs.imp le_of_lt))
  apply List.subperm_of_subset (hp.imp ne_of_lt)
  intro k hk
  obtain ⟨h1, h2⟩ := h k hk
  rw [List.mem_drop_iff_getElem]
  exact ⟨k - a, by simp; omega, by simp; omega⟩

theorem mem_constraintSets (n N nc : ℕ) (cs : List ℕ) : cs ∈ constraintSets n N nc ↔ Admissible n N nc cs := by
  unfold constraintSets Admissible
  rw [List.mem_append, List.mem_flatten, List.mem_flatten]
  have hp : ∀ l : List ℕ, (∃ L ∈ (List.range nc).map (fun i => combinations l (nc - i)), cs ∈ L) ↔
      cs ≠ [] ∧ cs.length ≤ nc ∧ cs.Sublist l := by
    intro l
    constructor
    · rintro ⟨L, hL, hc⟩
      obtain ⟨i, hi, rfl⟩ := List.mem_map.mp hL
      rw [List.mem_range] at hi
      obtain ⟨h1, h2⟩ := Verif.Lemmas.mem_combinations.mp hc
      refine ⟨?_, by omega, h1⟩
      rintro rfl
      simp at h2
      omega
    · rintro ⟨h1, h2, h3⟩
      have h4 : 0 < cs.length := List.length_pos_of_ne_nil h1
      refine ⟨_, List.mem_map.mpr ⟨nc - cs.length, List.mem_range.mpr (by omega), rfl⟩, ?_⟩
      exact Verif.Lemmas.mem_combinations.mpr ⟨h3, by omega⟩
  rw [hp, hp]
  constructor
  · rintro (⟨h1, h2, h3⟩ | ⟨h1, h2, h3⟩)
    · refine ⟨h1, h2, ((List.pairwise_lt_range (n := N)).sublist (List.drop_sublist _ _)).sublist h3, Or.inl fun k hk => ?_⟩
      obtain ⟨j, hj, he⟩ := List.mem_drop_iff_getElem.mp (h3.subset hk)
      simp at he hj
      omega
    · refine ⟨h1, h2, (List.pairwise_lt_range (n := n)).sublist h3, Or.inr fun k hk => List.mem_range.mp (h3.subset hk)⟩
  · rintro ⟨h1, h2, h3, h4 | h4⟩
    · exact Or.inl ⟨h1, h2, sublist_range_of cs n N h3 h4⟩
    · exact Or.inr ⟨h1, h2, by simpa using sublist_range_of cs 0 n h3 (fun k hk => ⟨Nat.zero_le _, h4 k hk⟩)⟩

/-- **C10, fewest errors.** The reported error count is the number of misplaced phases of the returned coefficients, and no candidate
obtained for an admissible constraint set that conserves every element exactly has fewer. If no error count is reported, no such
candidate exists. -/
theorem C10_fewest_errors (X : Chem κ ε) (reacts prods : List κ) (rank : ℕ) (solve : List ℕ → List ℚ)
    (hshape : ∀ cs, (solve cs).length = reacts.length + prods.length) :
    (∀ k, (balanceCoeffs X reacts prods rank solve).2.1 = some k →
      k = misplaced reacts.length (balanceCoeffs X reacts prods rank solve).1 ∧
      ∀ cs, Admissible reacts.length (reacts.length + prods.length) (balanceCoeffs X reacts prods rank solve).2.2 cs →
        Conserved X (reacts ++ prods) (solve cs) → k ≤ misplaced reacts.length (solve cs)) ∧
    ((balanceCoeffs X reacts prods rank solve).2.1 = none →
      ∀ cs, Admissible reacts.length (reacts.length + prods.length) (balanceCoeffs X reacts prods rank solve).2.2 cs →
        ¬ Conserved X (reacts ++ prods) (solve cs)) := by
  have hm := fun cs => mem_constraintSets reacts.length (reacts ++ prods).length (numConstraints (reacts ++ prods).length rank)
    cs
  have hl : (reacts ++ prods).length = reacts.length + prods.length := List.length_append
  constructor
  · intro k hk
    obtain ⟨h1, h2, h3⟩ := loop_sound (conservesClose X (reacts ++ prods)) (numErrors reacts.length prods.length) solve
      (constraintSets reacts.length (reacts ++ prods).length (numConstraints (reacts ++ prods).length rank))
      (List.replicate (reacts ++ prods).length 0, none) (fun l => l.length = reacts.length + prods.length)
      (fun cs _ => hshape cs) (by intro k hk; simp at hk) k hk
    obtain ⟨g1, -⟩ := loop_min _ _ _ _ _ k hk
    refine ⟨(h2.symm.trans (numErrors_eq _ _ _ h3) : _), fun cs hcs hc => ?_⟩
    rw [← numErrors_eq _ prods.length _ (hshape cs)]
    rw [← hl] at hcs
    exact g1 cs ((hm cs).mpr hcs) (conservesClose_of_conserved X _ _ hc)
  · intro hk cs hcs hc
    obtain ⟨-, g⟩ := loop_none _ _ _ _ _ hk
    rw [← hl] at hcs
    have := g cs ((hm cs).mpr hcs)
    rw [conservesClose_of_conserved X _ _ hc] at this
    exact absurd this (by simp)

/-- **C10, computed reactions.** `ComputedReaction.balance` keeps the entries in the order stated, and with zero errors the reduced
compositions of the stated reactants and products are exactly the two sides of a reaction flagged balanced. -/
theorem C10_computed (X : Chem κ ε) (hX : X.Lawful) (reacts prods : List (Entry κ)) (rank : ℕ) (solve : List ℕ → List ℚ)
    (data : List (String × ℚ)) (hshape : ∀ cs, (solve cs).length = reacts.length + prods.length)
    (hn : ((reacts ++ prods).map fun e => X.red e.comp).Nodup)
    (h : (balanceComputed X reacts prods rank solve data).base.lne = some 0) :
    (balanceComputed X reacts prods rank solve data).entries = reacts ++ prods ∧
    reactants (balanceComputed X reacts prods rank solve data).base = reacts.map (fun e => X.red e.comp) ∧
    products (balanceComputed X reacts prods rank solve data).base = prods.map (fun e => X.red e.comp) ∧
    (balanceComputed X reacts prods rank solve data).base.balanced = true ∧
    ∀ e, |net X ((reacts ++ prods).map fun e => X.red e.comp) (balanceComputed X reacts prods rank solve data).base.coeffs e| ≤ 1 / 100000000 := by
  have hsh : ∀ cs, (solve cs).length = (reacts.map fun e => X.red e.comp).length + (prods.map fun e => X.red e.comp).length := by
    simpa using hshape
  have h0 : (balanceCoeffs X (reacts.map fun e => X.red e.comp) (prods.map fun e => X.red e.comp) rank solve).2.1 = some 0 := h
  rw [List.map_append] at hn
  obtain ⟨b1, b2, -, b4⟩ := C10_sides X hX (reacts.map fun e => X.red e.comp) (prods.map fun e => X.red e.comp) rank solve data hsh hn
    (by simp [balanceBasic, h0, init])
  have hb : balanceBasic X (reacts.map fun e => X.red e.comp) (prods.map fun e => X.red e.comp) rank solve data
      = init X ((reacts.map fun e => X.red e.comp) ++ (prods.map fun e => X.red e.comp))
        (balanceCoeffs X (reacts.map fun e => X.red e.comp) (prods.map fun e => X.red e.comp) rank solve).1 (some true)
        (dictSet data "num_constraints" ((balanceCoeffs X (reacts.map fun e => X.red e.comp) (prods.map fun e => X.red e.comp) rank solve).2.2 : ℚ))
        (some 0) := by
    simp [balanceBasic, h0]
  rw [hb] at b1 b2 b4
  have hc : (balanceComputed X reacts prods rank solve data).base.comps = (reacts.map fun e => X.red e.comp) ++ (prods.map fun e => X.red e.comp) :=
    List.map_append
  refine ⟨rfl, ?_, ?_, ?_, ?_⟩
  · rw [← b1]
    unfold reactants
    rw [hc]
    rfl
  · rw [← b2]
    unfold products
    rw [hc]
    rfl
  · show isBalanced X _ _ = true
    rw [List.map_append]
    rw [isBalanced_iff X hX _ _ (sidesNodup_of_nodup _ _ hn)]
    intro e
    have := b4 e
    refine le_trans this ?_
    norm_num [tol]
  · intro e
    rw [List.map_append]
    exact b4 e

example : Admissible 2 3 1 [2] ∧ misplaced 2 [-1, -1/2, 1] = 0 ∧ misplaced 2 [-1, 1/2, 1] = 1 := by
  refine ⟨⟨by decide, by decide, by decide, by decide⟩, by decide +kernel, by decide +kernel⟩

example : (balanceComputed toy [⟨A, -1⟩, ⟨B2, -2⟩] [⟨AB, -3⟩] 2 (fun _ => [-1, -1, 1]) []).base.lne = some 0 ∧
    ([⟨A, -1⟩, ⟨B2, -2⟩, ⟨AB, -3⟩].map fun e : Entry _ => toy.red e.comp).Nodup := by decide +kernel

example := C10_fewest_errors toy [A, B2] [AB] 2 exSolve (fun cs => by unfold exSolve; split_ifs <;> rfl)
example := C10_computed toy toy_lawful [⟨A, -1⟩, ⟨B2, -2⟩] [⟨AB, -3⟩] 2 (fun _ => [-1, -1, 1]) [] (fun _ => rfl) (by decide +kernel)
  (by decide +kernel)

end Verif.Props.BalanceBest
