import Verif.Props.RxnSet

/-! Property C102: recalculation at a list of temperatures (src/rxn_network/reactions/reaction_set.py:549-570). -/

set_option linter.unusedSectionVars false

namespace Verif.Props.RxnSetTemps
open Verif.Py Verif.Model.RxnSet Verif.Lemmas.Dict

variable {η δ ε υ κ τ : Type} [DecidableEq η] [DecidableEq ε] [DecidableEq υ] [DecidableEq κ] [DecidableEq τ]

theorem single (uid : η → υ) (setOrder : List η → List η) (comp : η → κ) (atT : τ → η → η)
    (s : RSet η δ ε) (rxns : List (SRxn η δ ε)) (h : getRxns s = .ok rxns) (t : τ) :
    setNewTemperature uid setOrder comp (atT t) s = atTemperature uid setOrder comp atT s rxns t := by
  unfold setNewTemperature atTemperature
  rw [h]; rfl

theorem fold_spec (uid : η → υ) (setOrder : List η → List η) (comp : η → κ) (atT : τ → η → η)
    (s : RSet η δ ε) (rxns : List (SRxn η δ ε)) (temps : List τ) (d : List (τ × RSet η δ ε)) :
    (∀ d', temps.foldlM (storeAt uid setOrder comp atT s rxns) d = .ok d' → ∀ t,
      if t ∈ temps then ∃ x, atTemperature uid setOrder comp atT s rxns t = .ok x ∧ dictGet d' t = some x
      else dictGet d' t = dictGet d t) ∧
    (∀ e, temps.foldlM (storeAt uid setOrder comp atT s rxns) d = .error e →
      ∃ t ∈ temps, atTemperature uid setOrder comp atT s rxns t = .error e) := by
  induction temps generalizing d with
  | nil =>
    refine ⟨fun d' h t => ?_, fun e h => (by cases h)⟩
    cases h
    simp
  | cons t ts ih =>
    cases ht : atTemperature uid setOrder comp atT s rxns t with
    | error e =>
      have hst : (t :: ts).foldlM (storeAt uid setOrder comp atT s rxns) d = .error e := by
        rw [List.foldlM_cons]; simp [storeAt, ht, Except.map, bind, Except.bind]
      rw [hst]
      refine ⟨fun _ h => (by cases h), fun e' h => ?_⟩
      cases h
      exact ⟨t, by simp, ht⟩
    | ok x =>
      have hst : (t :: ts).foldlM (storeAt uid setOrder comp atT s rxns) d
          = ts.foldlM (storeAt uid setOrder comp atT s rxns) (dictSet d t x) := by
        rw [List.foldlM_cons]; simp [storeAt, ht, Except.map, bind, Except.bind]
      rw [hst]
      obtain ⟨h1, h2⟩ := ih (dictSet d t x)
      refine ⟨fun d' h u => ?_, fun e h => ?_⟩
      · have := h1 d' h u
        by_cases hu : u ∈ ts
        · rw [if_pos hu] at this
          rw [if_pos (by simp [hu])]
          exact this
        · rw [if_neg hu] at this
          by_cases hut : u = t
          · subst hut
            rw [if_pos (by simp)]
            exact ⟨x, ht, by rw [this, dictGet_dictSet, if_pos rfl]⟩
          · rw [if_neg (by simp [hu, hut]), this, dictGet_dictSet, if_neg (Ne.symm hut)]
      · obtain ⟨u, hu, he⟩ := h2 e h
        exact ⟨u, by simp [hu], he⟩

/-- Each requested temperature gets exactly the reaction set that `set_new_temperature` returns for it, and there are no other
keys. -/
theorem C102_each (uid : η → υ) (setOrder : List η → List η) (comp : η → κ) (atT : τ → η → η) (s : RSet η δ ε)
    (temps : List τ) (d : List (τ × RSet η δ ε)) (h : computeAtTemperatures uid setOrder comp atT s temps = .ok d) (t : τ) :
    (t ∈ temps → ∃ x, setNewTemperature uid setOrder comp (atT t) s = .ok x ∧ dictGet d t = some x) ∧
    (t ∉ temps → dictGet d t = none) := by
  unfold computeAtTemperatures at h
  cases hr : getRxns s with
  | error e => rw [hr] at h; cases h
  | ok rxns =>
    rw [hr] at h
    have := (fold_spec uid setOrder comp atT s rxns temps []).1 d h t
    constructor
    · intro ht
      rw [if_pos ht] at this
      obtain ⟨x, hx, hd⟩ := this
      exact ⟨x, by rw [single uid setOrder comp atT s rxns hr, hx], hd⟩
    · intro ht
      rw [if_neg ht] at this
      exact this

/-- It fails exactly when the reactions cannot be read or one of the temperatures fails, and then with that error. -/
theorem C102_fails (uid : η → υ) (setOrder : List η → List η) (comp : η → κ) (atT : τ → η → η) (s : RSet η δ ε)
    (temps : List τ) :
    (∃ e, computeAtTemperatures uid setOrder comp atT s temps = .error e) ↔
      (∃ e, getRxns s = .error e) ∨ ∃ t ∈ temps, ∃ e, setNewTemperature uid setOrder comp (atT t) s = .error e := by
  cases hr : getRxns s with
  | error e =>
    refine ⟨fun _ => Or.inl ⟨e, rfl⟩, fun _ => ⟨e, ?_⟩⟩
    unfold computeAtTemperatures; rw [hr]; rfl
  | ok rxns =>
    have hc : computeAtTemperatures uid setOrder comp atT s temps = temps.foldlM (storeAt uid setOrder comp atT s rxns) [] := by
      unfold computeAtTemperatures; rw [hr]; rfl
    rw [hc]
    constructor
    · rintro ⟨e, he⟩
      obtain ⟨t, ht, hte⟩ := (fold_spec uid setOrder comp atT s rxns temps []).2 e he
      exact Or.inr ⟨t, ht, e, by rw [single uid setOrder comp atT s rxns hr, hte]⟩
    · rintro (⟨e, he⟩ | ⟨t, ht, e, he⟩)
      · cases he
      · cases hf : temps.foldlM (storeAt uid setOrder comp atT s rxns) [] with
        | error e' => exact ⟨e', rfl⟩
        | ok d =>
          have := (fold_spec uid setOrder comp atT s rxns temps []).1 d hf t
          rw [if_pos ht] at this
          obtain ⟨x, hx, -⟩ := this
          rw [single uid setOrder comp atT s rxns hr, hx] at he
          cases he

/-- Order and repetition in the list do not matter. -/
theorem C102_order (uid : η → υ) (setOrder : List η → List η) (comp : η → κ) (atT : τ → η → η) (s : RSet η δ ε)
    (temps temps' : List τ) (hm : ∀ t, t ∈ temps ↔ t ∈ temps') (d : List (τ × RSet η δ ε))
    (h : computeAtTemperatures uid setOrder comp atT s temps = .ok d) :
    ∃ d', computeAtTemperatures uid setOrder comp atT s temps' = .ok d' ∧ ∀ t, dictGet d' t = dictGet d t := by
  cases h' : computeAtTemperatures uid setOrder comp atT s temps' with
  | error e =>
    rcases (C102_fails uid setOrder comp atT s temps').mp ⟨e, h'⟩ with hr | ⟨t, ht, he⟩
    · obtain ⟨e', he'⟩ := (C102_fails uid setOrder comp atT s temps).mpr (Or.inl hr)
      rw [h] at he'; cases he'
    · obtain ⟨e', he'⟩ := (C102_fails uid setOrder comp atT s temps).mpr (Or.inr ⟨t, (hm t).mpr ht, he⟩)
      rw [h] at he'; cases he'
  | ok d' =>
    refine ⟨d', rfl, fun t => ?_⟩
    have h1 := C102_each uid setOrder comp atT s temps d h t
    have h2 := C102_each uid setOrder comp atT s temps' d' h' t
    by_cases ht : t ∈ temps
    · obtain ⟨x, hx, hd⟩ := h1.1 ht
      obtain ⟨y, hy, hd'⟩ := h2.1 ((hm t).mp ht)
      rw [hx] at hy
      cases hy
      rw [hd, hd']
    · rw [h1.2 ht, h2.2 (fun hh => ht ((hm t).mpr hh))]

/-- a set of one reaction between phases 1 and 3, recalculated at two temperatures -/
def s0 : RSet ℕ ℕ ℕ := mk [1, 3] [(2, [[0, 1]])] [(2, [[-1, 1]])] none 0 (some [(2, [7])])

example : (computeAtTemperatures id List.dedup id (fun t e => e + t) s0 [300, 900, 300] >>= fun d =>
    (dictGet d 900).elim (.error .keyError) getRxns) = .ok [⟨[901, 903], [-1, 1], 7, []⟩] := by rfl

theorem s0_computed : ∃ d, computeAtTemperatures id List.dedup id (fun t e => e + t) s0 [300, 900, 300] = .ok d := ⟨_, rfl⟩

example : ∃ x, setNewTemperature id List.dedup id (fun e => e + 900) s0 = .ok x := by
  obtain ⟨d, h⟩ := s0_computed
  obtain ⟨x, hx, _⟩ := (C102_each id List.dedup id (fun t e => e + t) s0 [300, 900, 300] d h 900).1 (by simp)
  exact ⟨x, hx⟩

end Verif.Props.RxnSetTemps
