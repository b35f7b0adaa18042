import Verif.Lemmas.Utils

/-! Properties C30-C32: subset enumeration, chunking and the parallel result iterator. -/

namespace Verif.Props.Utils
open Verif.Py Verif.Model.Utils Verif.Lemmas Verif.Lemmas.Utils

/-! ### C30 -/

/-- A tuple is yielded iff it is a non-empty sub-collection (in order) of at most `maxSize` items. -/
theorem C30_mem {α : Type*} (xs c : List α) (maxSize : ℤ) :
    c ∈ limitedPowerset xs maxSize ↔ c.Sublist xs ∧ c ≠ [] ∧ (c.length : ℤ) ≤ maxSize := by
  simp only [limitedPowerset, List.mem_flatMap, List.mem_range', mem_combinations]
  constructor
  · rintro ⟨k, ⟨i, hi, rfl⟩, hs, hl⟩
    refine ⟨hs, ?_, by omega⟩
    rintro rfl; simp at hl; omega
  · rintro ⟨hs, hne, hle⟩
    have := List.length_pos_iff.mpr hne
    exact ⟨c.length, ⟨c.length - 1, by omega, by omega⟩, hs, rfl⟩

/-- Each choice of positions is yielded exactly once: the output is the image of the duplicate-free enumeration of index
tuples. (With repeated items in `xs` the same *values* may appear at different positions.) -/
theorem C30_once {α : Type*} (xs : List α) (maxSize : ℤ) :
    (limitedPowerset (List.range xs.length) maxSize).Nodup ∧
    ∀ d : α, limitedPowerset xs maxSize
      = (limitedPowerset (List.range xs.length) maxSize).map (List.map fun i => xs.getD i d) := by
  constructor
  · unfold limitedPowerset
    rw [List.nodup_flatMap]
    refine ⟨fun k _ => nodup_combinations List.nodup_range k, ?_⟩
    have : (List.range' 1 maxSize.toNat).Pairwise (· ≠ ·) := List.nodup_range'
    refine this.imp ?_
    intro a b hab c hc hc'
    rw [mem_combinations] at hc hc'
    exact hab (hc.2.symm.trans hc'.2)
  · intro d
    have hx : xs = (List.range xs.length).map fun i => xs.getD i d := by
      apply List.ext_getElem?
      intro i
      by_cases h : i < xs.length
      · simp [h, List.getD_eq_getElem?_getD]
      · simp [h]
    conv_lhs => rw [hx]
    simp only [limitedPowerset, combinations_map, List.map_flatMap]

/-- By increasing size. -/
theorem C30_increasing_size {α : Type*} (xs : List α) (maxSize : ℤ) :
    ((limitedPowerset xs maxSize).map List.length).Pairwise (· ≤ ·) := by
  unfold limitedPowerset
  rw [List.map_flatMap, List.pairwise_flatMap]
  constructor
  · intro k _
    rw [List.pairwise_map]
    apply List.pairwise_of_forall_mem_list
    intro a ha b hb
    rw [mem_combinations] at ha hb
    omega
  · have : (List.range' 1 maxSize.toNat).Pairwise (· < ·) := List.pairwise_lt_range'
    refine this.imp ?_
    intro a b hab x hx y hy
    rw [List.mem_map] at hx hy
    obtain ⟨c, hc, rfl⟩ := hx
    obtain ⟨c', hc', rfl⟩ := hy
    rw [mem_combinations] at hc hc'
    omega

example : limitedPowerset ["a", "b", "c"] 2 = [["a"], ["b"], ["c"], ["a", "b"], ["a", "c"], ["b", "c"]] := by decide
example : limitedPowerset ["a", "b"] (-1) = [] := by decide
example : (["a", "c"] : List String) ∈ limitedPowerset ["a", "b", "c"] 2 := (C30_mem _ _ _).mpr (by decide)

/-- The signature accepts any iterable, but a one-shot iterator only produces the singletons. -/
theorem C30_one_shot_counterexample :
    limitedPowersetIter [1, 2] 2 = [[1], [2]] ∧ [1, 2] ∈ limitedPowerset [1, 2] 2 := by decide

/-! ### C31 -/

/-- `grouper` splits without loss, duplication or reordering: the concatenated chunks are `xs` followed by fewer than `n`
fill values, and every chunk has exactly `n` items. -/
theorem C31_grouper {α : Type*} (xs : List α) (n : ℕ) (hn : 0 < n) (fill : α) :
    ∃ m, m < n ∧ (grouper xs n fill).flatten = xs ++ List.replicate m fill ∧
      (∀ c ∈ grouper xs n fill, c.length = n) ∧ (xs = [] → grouper xs n fill = []) := by
  obtain ⟨m, h1, h2, h3, _⟩ := rounds_spec fill n hn (xs.length + 1) xs (Nat.lt_succ_self _)
  refine ⟨m, h1, h2, h3, ?_⟩
  rintro rfl
  exact rounds_nil _ _ _

/-- Dropping the fill value, as every caller does, gives back exactly the input (when the input has no fill values). -/
theorem C31_drop_fill {α : Type*} [DecidableEq α] (xs : List α) (n : ℕ) (hn : 0 < n) (fill : α) (hfill : fill ∉ xs) :
    ((grouper xs n fill).map fun c => c.filter fun x => decide (x ≠ fill)).flatten = xs := by
  obtain ⟨m, _, h2, _⟩ := C31_grouper xs n hn fill
  have : ((grouper xs n fill).map fun c => c.filter fun x => decide (x ≠ fill)).flatten
      = ((grouper xs n fill).flatten).filter fun x => decide (x ≠ fill) := by
    rw [List.filter_flatten]
  rw [this, h2, List.filter_append, List.filter_eq_self.mpr, List.filter_eq_nil_iff.mpr, List.append_nil]
  · intro a ha; rw [List.mem_replicate] at ha; simp [ha.2]
  · intro a ha; simp only [ne_eq, decide_not, Bool.not_eq_true', decide_eq_false_iff_not]; rintro rfl; exact hfill ha

/-- Only the last chunk can contain fill values. -/
theorem C31_only_last_padded {α : Type*} (xs : List α) (n : ℕ) (hn : 0 < n) (fill : α) (hfill : fill ∉ xs)
    (c : List α) (hc : c ∈ (grouper xs n fill).dropLast) : fill ∉ c := by
  obtain ⟨m, hm, h2, h3, _⟩ := C31_grouper xs n hn fill
  intro hfc
  obtain hnil | ⟨l, last, hl⟩ := List.eq_nil_or_concat (grouper xs n fill)
  · rw [hnil] at hc; simp at hc
  · rw [List.concat_eq_append] at hl
    rw [hl, List.dropLast_concat] at hc
    have hlast : last.length = n := h3 last (by rw [hl]; simp)
    rw [hl, List.flatten_append] at h2
    simp only [List.flatten_cons, List.flatten_nil, List.append_nil] at h2
    have hlen := congrArg List.length h2
    simp only [List.length_append, List.length_replicate] at hlen
    have hpre : l.flatten <+: xs := by
      have hp : l.flatten <+: xs ++ List.replicate m fill := ⟨last, h2⟩
      exact List.prefix_of_prefix_length_le hp (List.prefix_append _ _) (by omega)
    exact hfill (hpre.subset (List.mem_flatten.mpr ⟨c, hc, hfc⟩))

/-- The bound on the number of rounds in the model is irrelevant. -/
theorem C31_fuel_irrelevant {α : Type*} (xs : List α) (n : ℕ) (hn : 0 < n) (fill : α) (fuel : ℕ) (h : xs.length < fuel) :
    rounds fill fuel (List.replicate n true) xs = grouper xs n fill :=
  rounds_fuel fill n hn _ _ xs h (Nat.lt_succ_self _)

/-- `n = 0` silently drops everything. -/
theorem C31_zero_counterexample : grouper [1, 2, 3] 0 0 = [] := by decide

example : grouper [1, 2, 3, 4, 5] 2 0 = [[1, 2], [3, 4], [5, 0]] := by decide
example : ((grouper [1, 2, 3, 4, 5] 2 0).map fun c => c.filter fun x => decide (x ≠ 0)).flatten = [1, 2, 3, 4, 5] :=
  C31_drop_fill _ _ (by norm_num) _ (by decide)

/-! ### C32 -/

/-- What is assumed of `ray.wait` with its default `num_returns=1`: it splits the references into one finished
reference and the remaining ones. Which one finishes is arbitrary and may depend on time. -/
def WaitSpec {ι : Type*} (wait : ℕ → List ι → List ι × List ι) : Prop :=
  ∀ t refs, refs ≠ [] → ∃ d, (wait t refs).1 = [d] ∧ (d :: (wait t refs).2).Perm refs

/-- Under every schedule the iteration terminates after exactly one step per task and yields every task's result exactly
once. -/
theorem C32_all_results_once {ι β ε : Type*} (get : ι → Except ε β) (f : ι → β) (wait : ℕ → List ι → List ι × List ι)
    (hw : WaitSpec wait) (refs : List ι) (hok : ∀ r ∈ refs, get r = .ok (f r)) (t : ℕ) :
    ∃ out, toIterator get wait refs.length t refs = some (out, none) ∧ out.Perm (refs.map f) := by
  induction hn : refs.length generalizing refs t with
  | zero =>
    have : refs = [] := List.length_eq_zero_iff.mp hn
    subst this
    exact ⟨[], rfl, List.Perm.refl _⟩
  | succ n ih =>
    obtain ⟨r, rs, rfl⟩ : ∃ r rs, refs = r :: rs := by
      cases refs with
      | nil => simp at hn
      | cons r rs => exact ⟨r, rs, rfl⟩
    obtain ⟨d, hd, hp⟩ := hw t (r :: rs) (by simp)
    have hlen : (wait t (r :: rs)).2.length = n := by
      have := hp.length_eq; simp only [List.length_cons] at this hn; omega
    have hdok : get d = .ok (f d) := hok d (hp.subset (by simp))
    obtain ⟨out, h1, h2⟩ := ih (wait t (r :: rs)).2 (fun x hx => hok x (hp.subset (by simp [hx]))) (t + 1) hlen
    refine ⟨f d :: out, ?_, ?_⟩
    · simp only [toIterator, hd, hdok, h1, Option.map_some]
    · have := hp.map f
      rw [List.map_cons] at this
      exact (h2.cons (f d)).trans this

/-- If some task fails, iteration stops with the exception of a failing task, and everything yielded before is the result
of a distinct task that succeeded: results are never duplicated. -/
theorem C32_failure {ι β ε : Type*} (get : ι → Except ε β) (wait : ℕ → List ι → List ι × List ι) (hw : WaitSpec wait)
    (refs : List ι) (t : ℕ) :
    ∃ out err consumed rest, toIterator get wait refs.length t refs = some (out, err) ∧ (consumed ++ rest).Perm refs ∧
      consumed.map get = out.map .ok ∧ (err = none → rest = []) ∧ (∀ e, err = some e → ∃ r ∈ rest, get r = .error e) := by
  induction hn : refs.length generalizing refs t with
  | zero =>
    have : refs = [] := List.length_eq_zero_iff.mp hn
    subst this
    exact ⟨[], none, [], [], rfl, List.Perm.refl _, rfl, fun _ => rfl, by simp⟩
  | succ n ih =>
    obtain ⟨r, rs, rfl⟩ : ∃ r rs, refs = r :: rs := by
      cases refs with
      | nil => simp at hn
      | cons r rs => exact ⟨r, rs, rfl⟩
    obtain ⟨d, hd, hp⟩ := hw t (r :: rs) (by simp)
    have hlen : (wait t (r :: rs)).2.length = n := by
      have := hp.length_eq; simp only [List.length_cons] at this hn; omega
    cases hg : get d with
    | error e =>
      refine ⟨[], some e, [], r :: rs, ?_, List.Perm.refl _, rfl, by simp, ?_⟩
      · simp only [toIterator, hd, hg]
      · intro e' he'
        cases he'
        exact ⟨d, hp.subset (by simp), hg⟩
    | ok v =>
      obtain ⟨out, err, consumed, rest, h1, h2, h3, h4, h5⟩ := ih (wait t (r :: rs)).2 (t + 1) hlen
      refine ⟨v :: out, err, d :: consumed, rest, ?_, ?_, ?_, h4, h5⟩
      · simp only [toIterator, hd, hg, h1, Option.map_some]
      · exact (h2.cons d).trans hp
      · simp [hg, h3]

/-- a scheduler that always finishes the last submitted task first -/
def lifo {ι : Type*} : ℕ → List ι → List ι × List ι := fun _ l => (l.drop (l.length - 1), l.take (l.length - 1))

theorem lifo_spec {ι : Type*} : WaitSpec (lifo (ι := ι)) := by
  intro t refs hne
  obtain h | ⟨l, a, h⟩ := List.eq_nil_or_concat refs
  · exact absurd h hne
  · rw [List.concat_eq_append] at h
    subst h
    refine ⟨a, by simp [lifo], ?_⟩
    simp only [lifo, List.length_append, List.length_cons, List.length_nil, Nat.zero_add, Nat.add_sub_cancel,
      List.take_left']
    exact (List.perm_append_singleton a l).symm

example : toIterator (ε := Unit) (fun n => .ok (n * n)) lifo 3 0 [1, 2, 3] = some ([9, 4, 1], none) := by decide
example := C32_all_results_once (ε := Unit) (fun n => .ok (n * n)) (fun n => n * n) lifo lifo_spec [1, 2, 3]
  (fun _ _ => rfl) 0

example := C30_once ["a", "b", "a"] 2
example := C31_grouper [1, 2, 3, 4, 5] 2 (by norm_num) 0
example := C31_only_last_padded [1, 2, 3, 4, 5] 2 (by norm_num) 0 (by decide) [3, 4] (by decide)
example := C31_fuel_irrelevant [1, 2, 3, 4, 5] 2 (by norm_num) 0 10 (by decide)

end Verif.Props.Utils
