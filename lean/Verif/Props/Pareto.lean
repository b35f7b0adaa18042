import Verif.Lemmas.Pareto

/-! Properties C28 and C29: Pareto fronts (src/rxn_network/costs/pareto.py). -/

namespace Verif.Props.Pareto
open Verif.Model.Pareto Verif.Spec.Pareto Verif.Lemmas.Pareto

theorem mask_rows {ρ : Type} (df : List ρ) (is : List ℕ) (n : ℕ) (hn : df.length = n) (hs : is.Pairwise (· < ·))
    (hb : ∀ i ∈ is, i < n) :
    (((df.zip ((List.range n).map fun i => decide (i ∈ is))).filter fun rm => rm.2).map Prod.fst).map some
      = is.map fun i => df[i]? := by
  have h1 : (List.range n).filter (fun i => decide (i ∈ is)) = is := by
    apply List.Perm.eq_of_pairwise (le := (· < ·)) (fun a b _ _ h h' => absurd h (Nat.lt_asymm h'))
      (List.pairwise_lt_range.sublist List.filter_sublist) hs
    rw [List.perm_ext_iff_of_nodup (List.nodup_range.sublist List.filter_sublist) (hs.imp fun h => Nat.ne_of_lt h)]
    intro a
    simp only [List.mem_filter, List.mem_range, decide_eq_true_eq]
    exact ⟨fun h => h.2, fun h => ⟨hb a h, h⟩⟩
  conv_rhs => rw [← h1]
  clear h1 hs hb
  subst hn
  have key : ∀ (l : List ρ) (k : ℕ), (∀ i, i < l.length → df[k + i]? = l[i]?) →
      (((l.zip ((List.range' k l.length).map fun i => decide (i ∈ is))).filter fun rm => rm.2).map Prod.fst).map some
        = ((List.range' k l.length).filter fun i => decide (i ∈ is)).map fun i => df[i]? := by
    intro l
    induction l with
    | nil => intros; rfl
    | cons a l ih =>
      intro k h
      have h0 := h 0 (by simp)
      have ih' := ih (k + 1) (fun i hi => by
        have := h (i + 1) (by simpa using hi)
        rw [show k + 1 + i = k + (i + 1) by omega]; simpa using this)
      simp only [List.length_cons, List.range'_succ, List.map_cons, List.zip_cons_cons]
      by_cases hk : k ∈ is
      · simp only [hk, decide_true, List.filter_cons_of_pos, List.map_cons]
        rw [ih']
        simp at h0
        simp [h0]
      · rw [List.filter_cons_of_neg (by simpa using hk), List.filter_cons_of_neg (by simpa using hk)]
        exact ih'
  have := key df 0 (fun i _ => by rw [Nat.zero_add])
  rw [List.range_eq_range']
  exact this

/-- For every table whose rows have the same number of metrics, the front exists and consists, in the original order, of
exactly the rows that are not beaten: no other row is at least as good in every metric unless it is an identical *later*
row. -/
theorem C28_pareto_front {ρ : Type} (metrics : ρ → List ℚ) (df : List ρ) (d : ℕ) (hd : ∀ r ∈ df, (metrics r).length = d) :
    ∃ (out : List _) (is : List ℕ), paretoFront metrics false df = some out ∧ is.Pairwise (· < ·) ∧ out.map some = is.map (fun i => df[i]?) ∧
      ∀ i, i ∈ is ↔ Kept (df.map metrics) i := by
  obtain ⟨is, h1, h2, h3⟩ := efficient_spec (df.map metrics) d
    (by intro p hp; obtain ⟨r, hr, rfl⟩ := List.mem_map.mp hp; exact hd r hr)
  refine ⟨((df.zip ((List.range df.length).map fun i => decide (i ∈ is))).filter fun rm => rm.2).map Prod.fst, is, ?_,
    h2, ?_, h3⟩
  · simp only [paretoFront, Bool.false_eq_true, if_false, efficientMask, h1, Option.map_some, Option.bind_eq_bind,
      Option.bind_some, Option.pure_def, List.length_map]
  · apply mask_rows df is df.length rfl h2
    intro i hi
    obtain ⟨p, hp, _⟩ := (h3 i).mp hi
    have := (List.getElem?_eq_some_iff.mp hp).1
    simpa using this

/-- Taking the front twice changes nothing. -/
theorem C28_idempotent {ρ : Type} (metrics : ρ → List ℚ) (df out : List ρ) (d : ℕ)
    (hd : ∀ r ∈ df, (metrics r).length = d) (h : paretoFront metrics false df = some out) :
    paretoFront metrics false out = some out := by
  obtain ⟨out', is, h1, h2, h3, h4⟩ := C28_pareto_front metrics df d hd
  rw [h] at h1; cases h1
  have hlen : out.length = is.length := by simpa using congrArg List.length h3
  have hget : ∀ (k : ℕ) (r : ρ), out[k]? = some r → ∃ i : ℕ, is[k]? = some i ∧ df[i]? = some r := by
    intro k r hk
    have := congrArg (fun l => l[k]?) h3
    simp only [List.getElem?_map, hk, Option.map_some] at this
    cases hi : is[k]? with
    | none => simp [hi] at this
    | some i => simp [hi] at this; exact ⟨i, rfl, this.symm⟩
  have hmem : ∀ r ∈ out, r ∈ df := by
    intro r hr
    obtain ⟨k, hk⟩ := List.mem_iff_getElem?.mp hr
    obtain ⟨i, _, hi⟩ := hget k r hk
    exact List.mem_of_getElem? hi
  obtain ⟨out2, is2, g1, g2, g3, g4⟩ := C28_pareto_front metrics out d (fun r hr => hd r (hmem r hr))
  have hall : ∀ k, k < out.length → k ∈ is2 := by
    intro k hk
    rw [g4]
    obtain ⟨r, hr⟩ : ∃ r, out[k]? = some r := ⟨_, List.getElem?_eq_getElem hk⟩
    obtain ⟨i, hik, hdi⟩ := hget k r hr
    refine ⟨metrics r, by simp [hr], ?_⟩
    intro j q hq hne hle
    simp only [List.getElem?_map, Option.map_eq_some_iff] at hq
    obtain ⟨s, hs, rfl⟩ := hq
    obtain ⟨i', hik', hdi'⟩ := hget j s hs
    obtain ⟨p, hp, hkept⟩ := (h4 i).mp (List.mem_of_getElem? hik)
    simp only [List.getElem?_map, hdi, Option.map_some, Option.some.injEq] at hp
    subst hp
    have hii : i' ≠ i := by
      rintro rfl
      have a := (List.getElem?_eq_some_iff.mp hik)
      have b := (List.getElem?_eq_some_iff.mp hik')
      obtain ⟨a1, a2⟩ := a
      obtain ⟨b1, b2⟩ := b
      rcases Nat.lt_or_gt_of_ne hne with hlt | hlt
      · have := List.pairwise_iff_getElem.mp h2 j k b1 a1 hlt
        omega
      · have := List.pairwise_iff_getElem.mp h2 k j a1 b1 hlt
        omega
    obtain ⟨e1, e2⟩ := hkept i' (metrics s) (by simp [hdi']) hii hle
    refine ⟨e1, ?_⟩
    by_contra hjk
    have hjk' : j < k := by omega
    obtain ⟨a1, a2⟩ := List.getElem?_eq_some_iff.mp hik
    obtain ⟨b1, b2⟩ := List.getElem?_eq_some_iff.mp hik'
    have := List.pairwise_iff_getElem.mp h2 j k b1 a1 hjk'
    rw [a2, b2] at this
    omega
  have hbound : ∀ i ∈ is2, i < out.length := by
    intro i hi
    obtain ⟨p, hp, _⟩ := (g4 i).mp hi
    have := (List.getElem?_eq_some_iff.mp hp).1
    simpa using this
  have his2 : is2 = List.range out.length := by
    apply List.Perm.eq_of_pairwise (le := (· < ·)) (fun a b _ _ h h' => absurd h (Nat.lt_asymm h')) g2
      List.pairwise_lt_range
    rw [List.perm_ext_iff_of_nodup (g2.imp fun h => Nat.ne_of_lt h) List.nodup_range]
    intro a
    rw [List.mem_range]
    exact ⟨hbound a, hall a⟩
  rw [g1]
  congr 1
  have : out2.map some = out.map some := by
    rw [g3, his2]
    apply List.ext_getElem?
    intro i
    by_cases hi : i < out.length
    · simp [hi]
    · simp [hi]
  exact List.map_injective_iff.mpr (Option.some_injective _) this

-- a table with a dominated row, an identical later row and three incomparable ones
example : paretoFront id false [[3, 3], [1, 2], [2, 1], [1, 2], [0, 5]] = some [[1, 2], [2, 1], [0, 5]] := by
  decide +kernel
example := C28_pareto_front (id : List ℚ → List ℚ) [[3, 3], [1, 2], [2, 1], [1, 2], [0, 5]] 2 (by decide)

/-- `maximize=True` does not negate the first metric: with one metric it returns the *smallest* value. -/
theorem C29_maximize_counterexample :
    paretoFront (id : List ℚ → List ℚ) true [[1], [2]] = some [[1]] ∧
      ¬ ∃ (out : List _) (is : List ℕ), paretoFront (id : List ℚ → List ℚ) true [[1], [2]] = some out ∧
        out.map some = is.map (fun i => ([[1], [2]] : List (List ℚ))[i]?) ∧
        ∀ i, i ∈ is ↔ Kept ([[1], [2]].map (List.map (· * -1))) i := by
  have h0 : paretoFront (id : List ℚ → List ℚ) true [[1], [2]] = some [[1]] := by decide +kernel
  refine ⟨h0, ?_⟩
  rintro ⟨out, is, h1, h2, h3⟩
  rw [h0] at h1
  cases h1
  have hk : Kept ([[1], [2]].map (List.map (· * -1))) 1 := by
    refine ⟨[-2], by decide +kernel, ?_⟩
    intro j q hq hne hle
    match j, hq, hne with
    | 0, hq, _ =>
      simp at hq; subst hq
      unfold AtLeastAsGood at hle
      cases hle with
      | cons h _ => norm_num at h
    | 1, _, hne => exact absurd rfl hne
    | j + 2, hq, _ => simp at hq
  have h1is := (h3 1).mpr hk
  have hl : is.length = 1 := by simpa using (congrArg List.length h2).symm
  match is, hl, h1is with
  | [a], _, h1is =>
    simp at h1is; subst h1is
    simp at h2

/-- What `maximize=True` computes: the front for *minimizing* the first metric and maximizing all the others. Missing for
the full property: the first metric (refuted above). -/
theorem C29_maximize_partial {ρ : Type} (metrics : ρ → List ℚ) (df : List ρ) (d : ℕ)
    (hd : ∀ r ∈ df, (metrics r).length = d + 1) :
    ∃ (out : List _) (is : List ℕ), paretoFront metrics true df = some out ∧ is.Pairwise (· < ·) ∧ out.map some = is.map (fun i => df[i]?) ∧
      ∀ i, i ∈ is ↔ ∃ x xs, (df.map metrics)[i]? = some (x :: xs) ∧ ∀ j y ys, (df.map metrics)[j]? = some (y :: ys) →
        j ≠ i → y ≤ x → List.Forall₂ (· ≥ ·) ys xs → y :: ys = x :: xs ∧ i < j := by
  have hfl : ∀ p : List ℚ, (flipTail p).length = p.length := by intro p; cases p <;> simp [flipTail]
  obtain ⟨out, is, h1, h2, h3, h4⟩ := C28_pareto_front (fun r => flipTail (metrics r)) df (d + 1)
    (by intro r hr; rw [hfl]; exact hd r hr)
  have hcons : ∀ (i : ℕ) p, (df.map metrics)[i]? = some p → ∃ x xs, p = x :: xs := by
    intro i p hp
    obtain ⟨r, hr, rfl⟩ := List.mem_map.mp (List.mem_of_getElem? hp)
    have := hd r hr
    cases hm : metrics r with
    | nil => simp [hm] at this
    | cons x xs => exact ⟨x, xs, rfl⟩
  have hneg : ∀ ys xs : List ℚ, List.Forall₂ (· ≤ ·) (ys.map (· * -1)) (xs.map (· * -1)) ↔ List.Forall₂ (· ≥ ·) ys xs := by
    intro ys xs
    rw [List.forall₂_map_left_iff, List.forall₂_map_right_iff]
    constructor <;> intro h <;> refine h.imp ?_ <;> intro a b hab <;> linarith
  have hinj : ∀ p q : List ℚ, flipTail p = flipTail q → p = q := by
    intro p q h
    cases p <;> cases q <;> simp only [flipTail, List.cons.injEq, reduceCtorEq] at h
    · rfl
    · obtain ⟨ha, hb⟩ := h
      have : Function.Injective fun x : ℚ => x * -1 := by intro a b hab; simp at hab; exact hab
      rw [ha, List.map_injective_iff.mpr this hb]
  refine ⟨out, is, h1, h2, h3, ?_⟩
  intro i
  rw [h4]
  have hget : ∀ (i : ℕ) q, (df.map fun r => flipTail (metrics r))[i]? = some q ↔ ∃ p, (df.map metrics)[i]? = some p ∧ flipTail p = q := by
    intro i q
    simp only [List.getElem?_map, Option.map_eq_some_iff]
    constructor
    · rintro ⟨r, hr, rfl⟩; exact ⟨_, ⟨r, hr, rfl⟩, rfl⟩
    · rintro ⟨_, ⟨r, hr, rfl⟩, rfl⟩; exact ⟨r, hr, rfl⟩
  constructor
  · rintro ⟨p, hp, hk⟩
    obtain ⟨p', hp', rfl⟩ := (hget i p).mp hp
    obtain ⟨x, xs, rfl⟩ := hcons i p' hp'
    refine ⟨x, xs, hp', ?_⟩
    intro j y ys hj hne hyx hys
    obtain ⟨e1, e2⟩ := hk j _ ((hget j _).mpr ⟨_, hj, rfl⟩) hne (by
      unfold AtLeastAsGood; exact .cons hyx ((hneg _ _).mpr hys))
    exact ⟨hinj _ _ e1, e2⟩
  · rintro ⟨x, xs, hi, hk⟩
    refine ⟨_, (hget i _).mpr ⟨_, hi, rfl⟩, ?_⟩
    intro j q hq hne hle
    obtain ⟨q', hq', rfl⟩ := (hget j q).mp hq
    obtain ⟨y, ys, rfl⟩ := hcons j q' hq'
    unfold AtLeastAsGood at hle
    cases hle with
    | cons hyx hys =>
      obtain ⟨e1, e2⟩ := hk j y ys hq' hne hyx ((hneg _ _).mp hys)
      exact ⟨by rw [e1], e2⟩

example : paretoFront (id : List ℚ → List ℚ) true [[1, 1], [1, 2], [2, 3], [5, 0]] = some [[1, 2], [2, 3]] := by
  decide +kernel

end Verif.Props.Pareto
