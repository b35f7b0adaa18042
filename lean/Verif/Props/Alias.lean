import Verif.Model.Alias
import Verif.Lemmas.Dict

/-! Property C99: independence of copied reactions. -/

namespace Verif.Props.Alias
open Verif.Py Verif.Model.Alias Verif.Lemmas.Dict

/-- Every object's dictionary exists. -/
def WF (s : St) : Prop := ∀ a ∈ s.objs, a < s.heap.length

theorem seen_eq_some (s : St) (i : ℕ) (d : Data) : seen s i = some d ↔ ∃ a, s.objs[i]? = some a ∧ s.heap[a]? = some d := by
  unfold seen
  cases s.objs[i]? <;> simp

theorem wf_read {s : St} (h : WF s) (i : ℕ) (hi : i < s.objs.length) : ∃ a d, s.objs[i]? = some a ∧ s.heap[a]? = some d ∧ seen s i = some d := by
  have ha := h s.objs[i] (List.getElem_mem hi)
  refine ⟨s.objs[i], s.heap[s.objs[i]], by simp [hi], by simp [ha], ?_⟩
  rw [seen_eq_some]
  exact ⟨s.objs[i], by simp [hi], by simp [ha]⟩

theorem alloc_wf {s : St} (h : WF s) (d : Data) : WF (alloc s d) := by
  intro a ha
  simp only [alloc, List.mem_append, List.mem_singleton, List.length_append, List.length_cons, List.length_nil] at ha ⊢
  rcases ha with ha | rfl
  · have := h a ha; omega
  · omega

theorem poke_wf {s : St} (h : WF s) (a : ℕ) (d : Data) (k : String) (v : ℚ) : WF (poke s a d k v) := by
  intro b hb
  simp only [poke, List.length_set] at hb ⊢
  exact h b hb

theorem share_wf {s : St} (h : WF s) (a : ℕ) (d : Data) (ha : a < s.heap.length) : WF (share s a d) := by
  unfold share
  split_ifs
  · exact alloc_wf h _
  · intro b hb
    simp only [List.mem_append, List.mem_singleton] at hb
    rcases hb with hb | rfl
    · exact h b hb
    · exact ha

/-- One operation: it keeps every address, adds at most one object, and its dictionary exists. -/
theorem step_facts {s s' : St} (h : WF s) (o : Op) (hs : step s o = some s') :
    WF s' ∧ ∃ t, s'.objs = s.objs ++ t ∧ t.length ≤ 1 := by
  cases o with
  | new d => cases hs; exact ⟨alloc_wf h d, [s.heap.length], rfl, by simp⟩
  | pass i =>
    simp only [step] at hs
    cases ho : s.objs[i]? with
    | none => simp [ho] at hs
    | some a =>
      cases hr : seen s i with
      | none => simp [ho, hr] at hs
      | some d =>
        simp only [ho, hr, Option.some.injEq] at hs
        subst hs
        have ha : a < s.heap.length := h a (List.mem_of_getElem? ho)
        refine ⟨share_wf h a d ha, ?_⟩
        unfold share
        split_ifs
        · exact ⟨[s.heap.length], rfl, by simp⟩
        · exact ⟨[a], rfl, by simp⟩
  | fresh i =>
    simp only [step] at hs
    cases hr : seen s i with
    | none => simp [hr] at hs
    | some d =>
      simp only [hr, Option.some.injEq] at hs
      subst hs
      exact ⟨alloc_wf h d, [s.heap.length], rfl, by simp⟩
  | bare i =>
    simp only [step] at hs
    cases hr : seen s i with
    | none => simp [hr] at hs
    | some d =>
      simp only [hr, Option.some.injEq] at hs
      subst hs
      exact ⟨alloc_wf h [], [s.heap.length], rfl, by simp⟩
  | balance i n =>
    simp only [step] at hs
    cases ho : s.objs[i]? with
    | none => simp [ho] at hs
    | some a =>
      cases hr : seen s i with
      | none => simp [ho, hr] at hs
      | some d =>
        simp only [ho, hr] at hs
        have ha : a < s.heap.length := h a (List.mem_of_getElem? ho)
        split_ifs at hs with hd
        · cases hs; exact ⟨alloc_wf h _, [s.heap.length], rfl, by simp⟩
        · cases hs
          refine ⟨share_wf (poke_wf h _ _ _ _) a _ (by simpa [poke] using ha), ?_⟩
          unfold share
          split_ifs
          · exact ⟨[(poke s a d "num_constraints" n).heap.length], rfl, by simp⟩
          · exact ⟨[a], rfl, by simp⟩
  | write i k v =>
    simp only [step] at hs
    cases ho : s.objs[i]? with
    | none => simp [ho] at hs
    | some a =>
      cases hr : seen s i with
      | none => simp [ho, hr] at hs
      | some d =>
        simp only [ho, hr, Option.some.injEq] at hs
        subst hs
        exact ⟨poke_wf h _ _ _ _, [], by simp [poke], by simp⟩

theorem run_facts (os : List Op) : ∀ {s s' : St}, WF s → run s os = some s' → WF s' ∧ ∃ t, s'.objs = s.objs ++ t := by
  induction os with
  | nil => intro s s' h hs; cases hs; exact ⟨h, [], by simp⟩
  | cons o os ih =>
    intro s s' h hs
    simp only [run] at hs
    cases ho : step s o with
    | none => simp [ho] at hs
    | some s1 =>
      simp only [ho] at hs
      obtain ⟨h1, t, ht, _⟩ := step_facts h o ho
      obtain ⟨h2, t', ht'⟩ := ih h1 hs
      exact ⟨h2, t ++ t', by rw [ht', ht, List.append_assoc]⟩

/-- What a write through object `i` does to what object `j` sees. -/
theorem write_effect {s s' : St} (i j a b : ℕ) (k : String) (v : ℚ) (hi : s.objs[i]? = some a) (hj : s.objs[j]? = some b)
    (hs : step s (.write i k v) = some s') :
    ∃ d, seen s i = some d ∧ seen s' j = if a = b then some (dictSet d k v) else seen s j := by
  simp only [step] at hs
  cases hr : seen s i with
  | none => simp [hi, hr] at hs
  | some d =>
    simp only [hi, hr, Option.some.injEq] at hs
    subst hs
    refine ⟨d, rfl, ?_⟩
    obtain ⟨a', ha', hd⟩ := (seen_eq_some s i d).mp hr
    rw [hi] at ha'; cases ha'
    obtain ⟨hlt, _⟩ := List.getElem?_eq_some_iff.mp hd
    simp only [seen, poke, hj]
    split_ifs with hab
    · subst hab; simp [hlt]
    · rw [List.getElem?_set_ne hab]

/-- Specification: two objects that stay independent whatever happens later: in every later state a write through either one leaves the
other's data as it is. -/
def Independent (s : St) (i j : ℕ) : Prop :=
  ∀ os s1, run s os = some s1 → ∀ k v s2,
    (step s1 (.write i k v) = some s2 → seen s2 j = seen s1 j) ∧ (step s1 (.write j k v) = some s2 → seen s2 i = seen s1 i)

/-- Specification: two objects that see the same data whatever happens later. -/
def Entangled (s : St) (i j : ℕ) : Prop := ∀ os s1, run s os = some s1 → seen s1 i = seen s1 j

theorem get_later {s s1 : St} (os : List Op) (h : WF s) (hr : run s os = some s1) (i a : ℕ) (hi : s.objs[i]? = some a) : s1.objs[i]? = some a := by
  obtain ⟨_, t, ht⟩ := run_facts os h hr
  obtain ⟨hlt, _⟩ := List.getElem?_eq_some_iff.mp hi
  rw [ht, List.getElem?_append_left hlt, hi]

theorem independent_of_ne {s : St} (h : WF s) (i j a b : ℕ) (hi : s.objs[i]? = some a) (hj : s.objs[j]? = some b) (hab : a ≠ b) :
    Independent s i j := by
  intro os s1 hr k v s2
  have hi1 := get_later os h hr i a hi
  have hj1 := get_later os h hr j b hj
  constructor
  · intro hw
    obtain ⟨d, _, hd⟩ := write_effect i j a b k v hi1 hj1 hw
    rw [hd, if_neg hab]
  · intro hw
    obtain ⟨d, _, hd⟩ := write_effect j i b a k v hj1 hi1 hw
    rw [hd, if_neg hab.symm]

theorem entangled_of_eq {s : St} (h : WF s) (i j a : ℕ) (hi : s.objs[i]? = some a) (hj : s.objs[j]? = some a) : Entangled s i j := by
  intro os s1 hr
  simp only [seen, get_later os h hr i a hi, get_later os h hr j a hj]

/-- A history's state. -/
theorem reach_wf (hist : List Op) (s : St) (h : run ⟨[], []⟩ hist = some s) : WF s :=
  (run_facts hist (s := ⟨[], []⟩) (by intro a ha; simp at ha) h).1

theorem alloc_new {s : St} (h : WF s) (d : Data) (j : ℕ) (hj : j < s.objs.length) :
    seen (alloc s d) s.objs.length = some d ∧ Independent (alloc s d) j s.objs.length := by
  constructor
  · simp [seen, alloc]
  · have ha := h s.objs[j] (List.getElem_mem hj)
    refine independent_of_ne (alloc_wf h d) j s.objs.length s.objs[j] s.heap.length ?_ ?_ (by omega)
    · simp [alloc, List.getElem?_append_left hj, hj]
    · simp [alloc]

/-- **C99, decorated, opened and newly built reactions.** After any history, an object made by `decorate`/`from_computed_rxn` has the
original's data and is independent of the original and of every other earlier object, whatever happens later. -/
theorem C99_fresh (hist : List Op) (s s' : St) (h : run ⟨[], []⟩ hist = some s) (i : ℕ) (hs : step s (.fresh i) = some s') :
    seen s' s.objs.length = seen s i ∧ ∀ j < s.objs.length, Independent s' j s.objs.length := by
  have hwf := reach_wf hist s h
  simp only [step] at hs
  cases hr : seen s i with
  | none => simp [hr] at hs
  | some d =>
    simp only [hr, Option.some.injEq] at hs
    subst hs
    exact ⟨by simp [seen, alloc], fun j hj => (alloc_new hwf d j hj).2⟩

/-- **C99, normalized basic reactions.** They start without any data (the original's data is dropped) and are independent. -/
theorem C99_bare (hist : List Op) (s s' : St) (h : run ⟨[], []⟩ hist = some s) (i : ℕ) (hs : step s (.bare i) = some s') :
    seen s' s.objs.length = some [] ∧ ∀ j < s.objs.length, Independent s' j s.objs.length := by
  have hwf := reach_wf hist s h
  simp only [step] at hs
  cases hr : seen s i with
  | none => simp [hr] at hs
  | some d =>
    simp only [hr, Option.some.injEq] at hs
    subst hs
    exact ⟨by simp [seen, alloc], fun j hj => (alloc_new hwf [] j hj).2⟩

/-- **C99, copies of reactions without data** (also reversed and normalized computed ones) are independent of every earlier object.
Partial: only if the data is empty at that moment. -/
theorem C99_copy_partial (hist : List Op) (s s' : St) (h : run ⟨[], []⟩ hist = some s) (i : ℕ) (he : seen s i = some [])
    (hs : step s (.pass i) = some s') : seen s' s.objs.length = some [] ∧ ∀ j < s.objs.length, Independent s' j s.objs.length := by
  have hwf := reach_wf hist s h
  simp only [step] at hs
  cases ho : s.objs[i]? with
  | none => simp [ho] at hs
  | some a =>
    simp only [ho, he, Option.some.injEq, share, if_true] at hs
    subst hs
    exact ⟨by simp [seen, alloc], fun j hj => (alloc_new hwf [] j hj).2⟩

/-- **C99 is violated by copies of reactions with data**: after any history, copying (reversing, normalizing, changing the temperature
of) a reaction whose data is not empty makes an object that sees the original's data for ever: whatever is written through one of
them shows in the other. -/
theorem C99_copy_violated (hist : List Op) (s : St) (h : run ⟨[], []⟩ hist = some s) (i : ℕ) (d : Data) (hr : seen s i = some d)
    (hd : d ≠ []) : ∃ s', step s (.pass i) = some s' ∧ Entangled s' i s.objs.length ∧
      ∀ k v, ∃ s2, step s' (.write s.objs.length k v) = some s2 ∧ seen s2 i = some (dictSet d k v) := by
  have hwf := reach_wf hist s h
  obtain ⟨a, ho, hh⟩ := (seen_eq_some s i d).mp hr
  obtain ⟨hlt, _⟩ := List.getElem?_eq_some_iff.mp ho
  refine ⟨⟨s.heap, s.objs ++ [a]⟩, by simp [step, ho, hr, share, hd], ?_, ?_⟩
  · refine entangled_of_eq ?_ i s.objs.length a (by rw [List.getElem?_append_left hlt, ho]) (by simp)
    have := share_wf hwf a d (hwf a (List.mem_of_getElem? ho))
    rwa [share, if_neg hd] at this
  · intro k v
    have h2 : step ⟨s.heap, s.objs ++ [a]⟩ (.write s.objs.length k v) = some (poke ⟨s.heap, s.objs ++ [a]⟩ a d k v) := by
      simp [step, seen, hh]
    refine ⟨_, h2, ?_⟩
    obtain ⟨d', hd', he⟩ := write_effect s.objs.length i a a k v (by simp) (by rw [List.getElem?_append_left hlt, ho]) h2
    have : d' = d := by
      have e : seen ⟨s.heap, s.objs ++ [a]⟩ s.objs.length = some d := by simp [seen, hh]
      rw [e] at hd'; cases hd'; rfl
    rw [he, if_pos rfl, this]

/-- **C99, `balance` with a dictionary of the caller.** A non-empty dictionary passed to `balance` is changed and stays shared with the
reaction; an empty one is left alone. -/
theorem C99_balance_violated (hist : List Op) (s : St) (h : run ⟨[], []⟩ hist = some s) (i : ℕ) (d : Data) (n : ℚ)
    (hr : seen s i = some d) : ∃ s', step s (.balance i n) = some s' ∧
      (d ≠ [] → seen s' i = some (dictSet d "num_constraints" n) ∧ Entangled s' i s.objs.length) ∧
      (d = [] → seen s' i = some [] ∧ seen s' s.objs.length = some [("num_constraints", n)] ∧ Independent s' i s.objs.length) := by
  have hwf := reach_wf hist s h
  obtain ⟨a, ho, hh⟩ := (seen_eq_some s i d).mp hr
  obtain ⟨hlt, _⟩ := List.getElem?_eq_some_iff.mp ho
  have ha : a < s.heap.length := hwf a (List.mem_of_getElem? ho)
  by_cases hd : d = []
  · subst hd
    refine ⟨alloc s [("num_constraints", n)], by simp [step, ho, hr], fun h => absurd rfl h, fun _ => ⟨?_, ?_, ?_⟩⟩
    · simp only [seen, alloc, List.getElem?_append_left hlt, ho, List.getElem?_append_left ha, hh]
    · simp [seen, alloc]
    · exact (alloc_new hwf _ i hlt).2
  · have hne : dictSet d "num_constraints" n ≠ [] := by
      cases d with
      | nil => exact absurd rfl hd
      | cons p l => simp only [dictSet]; split_ifs <;> simp
    refine ⟨⟨s.heap.set a (dictSet d "num_constraints" n), s.objs ++ [a]⟩, by simp [step, ho, hr, hd, share, hne, poke], fun _ => ⟨?_, ?_⟩,
      fun h => absurd h hd⟩
    · simp [seen, List.getElem?_append_left hlt, ho, ha]
    · refine entangled_of_eq ?_ i s.objs.length a (by rw [List.getElem?_append_left hlt, ho]) (by simp)
      intro b hb
      simp only [List.mem_append, List.mem_singleton, List.length_set] at hb ⊢
      rcases hb with hb | rfl
      · exact hwf b hb
      · exact ha

/-! ### Cases -/

/-- A reaction with data, its copy, and a decorated copy. -/
def exHist : List Op := [.new [("cost", 1)], .pass 0, .fresh 0, .new []]

example : run ⟨[], []⟩ exHist = some ⟨[[("cost", 1)], [("cost", 1)], []], [0, 0, 1, 2]⟩ := by decide +kernel

example : ∃ s', step ⟨[[("cost", 1)], [("cost", 1)], []], [0, 0, 1, 2]⟩ (.pass 0) = some s' ∧ Entangled s' 0 4 ∧
    ∀ k v, ∃ s2, step s' (.write 4 k v) = some s2 ∧ seen s2 0 = some (dictSet [("cost", 1)] k v) :=
  C99_copy_violated exHist _ (by decide +kernel) 0 _ (by decide +kernel) (by decide)

example : ∀ j < 4, Independent ⟨[[("cost", 1)], [("cost", 1)], [], []], [0, 0, 1, 2, 3]⟩ j 4 :=
  (C99_copy_partial exHist ⟨[[("cost", 1)], [("cost", 1)], []], [0, 0, 1, 2]⟩ _ (by decide +kernel) 3 (by decide +kernel) (by decide +kernel)).2

example : ∀ j < 4, Independent ⟨[[("cost", 1)], [("cost", 1)], [], [("cost", 1)]], [0, 0, 1, 2, 3]⟩ j 4 :=
  (C99_fresh exHist ⟨[[("cost", 1)], [("cost", 1)], []], [0, 0, 1, 2]⟩ _ (by decide +kernel) 0 (by decide +kernel)).2

example : (run ⟨[], []⟩ (exHist ++ [.write 1 "cost" 5])).bind (fun s => seen s 0) = some [("cost", 5)] := by decide +kernel
example : (run ⟨[], []⟩ (exHist ++ [.write 2 "cost" 5])).bind (fun s => seen s 0) = some [("cost", 1)] := by decide +kernel

example := (C99_bare exHist ⟨[[("cost", 1)], [("cost", 1)], []], [0, 0, 1, 2]⟩ _ (by decide +kernel) 0 rfl).2

end Verif.Props.Alias
