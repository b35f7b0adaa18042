import Verif.Model.Flow
import Verif.Lemmas.Except
import Mathlib.Tactic.Ring
import Mathlib.Data.List.Dedup

/-! Property C108: the pathway flow (src/rxn_network/flows/core.py:94-217). -/

namespace Verif.Props.Flow
open Verif.Py Verif.Model.Flow Verif.Lemmas.Exc

variable {ε φ κ : Type}

/-! ### Specification -/

/-- Thermodynamic condition: the open element with its potential, `none` if closed. -/
abbrev Condition (ε : Type) := Option ε × ℚ

/-- Conditions of the network jobs, in order. -/
def conditions (jobs : List (Job ε φ κ)) : List (Condition ε) := jobs.filterMap fun
  | .network m _ => some (m.openElem, m.chempot)
  | _ => none

/-- Network jobs with their positions. -/
def networkAt (jobs : List (Job ε φ κ)) (i : ℕ) (m : NetMaker ε φ) (sets : List ℕ) : Prop := jobs[i]? = some (.network m sets)

/-- Job `i` enumerates reactions with exactly these enumerators. -/
def Enumerates (jobs : List (Job ε φ κ)) (i : ℕ) (es : List (Enumerator ε φ κ)) : Prop := ∃ s, jobs[i]? = some (.enumerate es s)

/-- Enumerators valid in every condition: basic ones, open ones for the open phase, and those minimizing the Gibbs free energy. -/
def closedEnumerators (m : Maker ε φ κ) : List (Enumerator ε φ κ) :=
  (if m.useBasic then Enumerator.basic m.basicKw :: (m.openElem.map fun e => Enumerator.basicOpen [m.phase e] m.basicKw).toList else []) ++
    (if m.useMinimize then [Enumerator.gibbs m.minimizeKw] else [])

/-- What a network job may use: the closed enumeration for the maker's own condition, and additionally the enumeration at the same potential otherwise. -/
inductive Feeds (m : Maker ε φ κ) (jobs : List (Job ε φ κ)) (i : ℕ) : NetMaker ε φ → List ℕ → Prop
  | base (b : ℕ) (hb : b < i) (h : Enumerates jobs b (closedEnumerators m)) : Feeds m jobs i m.network [b]
  | potential (e : ε) (he : m.openElem = some e) (mu : ℚ) (hmu : mu ∈ m.chempots) (b g : ℕ) (hb : b < i) (hg : g < i)
      (h : Enumerates jobs b (closedEnumerators m)) (h' : Enumerates jobs g [.grand e mu m.minimizeKw]) :
      Feeds m jobs i { m.network with openElem := some e, chempot := mu } [b, g]

/-- What a solver job works on: paths and entries of one earlier network job, at the solver's condition for the maker's own job and at the network's condition
otherwise. -/
inductive Solves (m : Maker ε φ κ) (s : SolverMaker ε φ) (jobs : List (Job ε φ κ)) (i : ℕ) : SolverMaker ε φ → ℕ → Prop
  | base (n b : ℕ) (hn : n < i) (h : networkAt jobs n m.network [b]) : Solves m s jobs i s n
  | potential (e : ε) (he : m.openElem = some e) (mu : ℚ) (hmu : mu ∈ m.chempots) (n b g : ℕ) (hn : n < i)
      (h : networkAt jobs n { m.network with openElem := some e, chempot := mu } [b, g]) :
      Solves m s jobs i { s with openElem := some e, chempot := mu } n

/-- The settings of all network and solver jobs. -/
def settings (jobs : List (Job ε φ κ)) : List (NetMaker ε φ ⊕ SolverMaker ε φ) := jobs.filterMap fun
  | .network m _ => some (.inl m)
  | .solve s _ _ => some (.inr s)
  | _ => none

/-- The potentials for which the flow has jobs of their own. -/
def potentials (m : Maker ε φ κ) : List (ε × ℚ) := if m.useMinimize then m.openElem.toList.flatMap fun e => m.chempots.map fun mu => (e, mu) else []

/-! ### Lemmas -/

theorem explicit_eq (names : List String) (kw kw' : List (String × κ)) (h : explicit names kw = .ok kw') : kw' = kw := by
  unfold explicit at h
  split at h
  · simp at h
  · exact (Except.ok.inj h).symm

theorem baseEnumerators_eq (m : Maker ε φ κ) (es : List (Enumerator ε φ κ)) (h : baseEnumerators m = .ok es) : es = closedEnumerators m := by
  unfold baseEnumerators basicEnumerators at h
  unfold closedEnumerators
  cases hb : m.useBasic <;> simp only [hb, if_true, Bool.false_eq_true, if_false] at h ⊢
  · exact (Except.ok.inj h).symm
  · cases ho : m.openElem with
    | none => simp only [ho] at h; exact (Except.ok.inj h).symm
    | some e =>
      simp only [ho] at h
      cases hx : explicit ["open_phases"] m.basicKw with
      | error x => rw [hx] at h; simp [Except.map] at h
      | ok kw =>
        rw [hx, explicit_eq _ _ _ hx] at h
        exact (Except.ok.inj h).symm

theorem getElem?_left {α : Type} {l l' : List α} {i : ℕ} {x : α} (h : l[i]? = some x) : (l ++ l')[i]? = some x := by
  have := (List.getElem?_eq_some_iff.mp h).1
  rw [List.getElem?_append_left this]
  exact h

/-- The flow so far. -/
structure Good (m : Maker ε φ κ) (base : ℕ) (jobs : List (Job ε φ κ)) : Prop where
  base_lt : base < jobs.length
  base_enum : Enumerates jobs base (closedEnumerators m)
  feeds : ∀ i n sets, networkAt jobs i n sets → Feeds m jobs i n sets
  solves : ∀ i s p q, jobs[i]? = some (.solve s p q) → p = q ∧ ∃ s0, m.solver = some s0 ∧ Solves m s0 jobs i s p

theorem feeds_mono (m : Maker ε φ κ) (jobs l : List (Job ε φ κ)) (i : ℕ) (n : NetMaker ε φ) (sets : List ℕ) (h : Feeds m jobs i n sets) :
    Feeds m (jobs ++ l) i n sets := by
  cases h with
  | base b hb h => exact .base b hb ⟨_, getElem?_left h.choose_spec⟩
  | potential e he mu hmu b g hb hg h h' => exact .potential e he mu hmu b g hb hg ⟨_, getElem?_left h.choose_spec⟩ ⟨_, getElem?_left h'.choose_spec⟩

theorem solves_mono (m : Maker ε φ κ) (s0 : SolverMaker ε φ) (jobs l : List (Job ε φ κ)) (i : ℕ) (s : SolverMaker ε φ) (p : ℕ) (h : Solves m s0 jobs i s p) :
    Solves m s0 (jobs ++ l) i s p := by
  cases h with
  | base n b hn h => exact .base _ b hn (getElem?_left h)
  | potential e he mu hmu n b g hn h => exact .potential e he mu hmu _ b g hn (getElem?_left h)

/-- Three more jobs: an enumeration, a network and possibly a solver. -/
theorem good_add (m : Maker ε φ κ) (base : ℕ) (jobs : List (Job ε φ κ)) (h : Good m base jobs) (source : Source) (e : ε) (he : m.openElem = some e)
    (mu : ℚ) (hmu : mu ∈ m.chempots) (l : List (Job ε φ κ)) (hl : potentialJobs m source base jobs.length e mu = .ok l) :
    Good m base (jobs ++ l) ∧ conditions l = [(some e, mu)] ∧
      settings l = .inl { m.network with openElem := some e, chempot := mu } :: (m.solver.map fun s => .inr { s with openElem := some e, chempot := mu }).toList := by
  unfold potentialJobs at hl
  cases hx : explicit ["open_elem", "mu"] m.minimizeKw with
  | error x => rw [hx] at hl; simp [Except.map] at hl
  | ok kw =>
    rw [hx, explicit_eq _ _ _ hx] at hl
    have hl := Except.ok.inj hl
    have hen : Enumerates (jobs ++ l) jobs.length [.grand e mu m.minimizeKw] := by
      refine ⟨source, ?_⟩
      rw [List.getElem?_append_right (le_refl _), ← hl]
      simp
    have hnet : networkAt (jobs ++ l) (jobs.length + 1) { m.network with openElem := some e, chempot := mu } [base, jobs.length] := by
      unfold networkAt
      rw [List.getElem?_append_right (by omega), ← hl, Nat.add_sub_cancel_left]
      simp
    have hbase : Enumerates (jobs ++ l) base (closedEnumerators m) := ⟨_, getElem?_left h.base_enum.choose_spec⟩
    refine ⟨⟨by rw [List.length_append]; exact lt_of_lt_of_le h.base_lt (Nat.le_add_right _ _), hbase, ?_, ?_⟩, ?_, ?_⟩
    · intro i n sets hi
      by_cases hlt : i < jobs.length
      · exact feeds_mono m jobs l i n sets (h.feeds i n sets (by unfold networkAt at hi ⊢; rwa [List.getElem?_append_left hlt] at hi))
      · unfold networkAt at hi
        rw [List.getElem?_append_right (by omega), ← hl] at hi
        obtain ⟨d, hd⟩ : ∃ d, i - jobs.length = d := ⟨_, rfl⟩
        rw [hd] at hi
        match d, hi with
        | 0, hi => simp at hi
        | 1, hi =>
          simp only [List.cons_append, List.nil_append, List.getElem?_cons_succ, List.getElem?_cons_zero, Option.some.injEq, Job.network.injEq] at hi
          obtain ⟨rfl, rfl⟩ := hi
          exact .potential e he mu hmu base jobs.length (by have := h.base_lt; omega) (by omega) hbase hen
        | d + 2, hi => cases hs : m.solver <;> rcases d with _ | d <;> simp [hs] at hi
    · intro i s p q hi
      by_cases hlt : i < jobs.length
      · obtain ⟨h1, s0, h2, h3⟩ := h.solves i s p q (by rwa [List.getElem?_append_left hlt] at hi)
        exact ⟨h1, s0, h2, solves_mono m s0 jobs l i s p h3⟩
      · rw [List.getElem?_append_right (by omega), ← hl] at hi
        obtain ⟨d, hd⟩ : ∃ d, i - jobs.length = d := ⟨_, rfl⟩
        rw [hd] at hi
        match d, hi with
        | 0, hi => simp at hi
        | 1, hi => simp at hi
        | 2, hi =>
          cases hs : m.solver with
          | none => simp [hs] at hi
          | some s0 =>
            simp only [hs, Option.map_some, Option.toList_some, List.cons_append, List.nil_append, List.getElem?_cons_succ, List.getElem?_cons_zero,
              Option.some.injEq, Job.solve.injEq] at hi
            obtain ⟨rfl, rfl, rfl⟩ := hi
            exact ⟨rfl, s0, rfl, .potential e he mu hmu _ base jobs.length (by omega) hnet⟩
        | d + 3, hi => cases hs : m.solver <;> simp [hs] at hi
    · rw [← hl]
      cases m.solver <;> rfl
    · rw [← hl]
      cases m.solver <;> rfl

theorem conditions_append (a b : List (Job ε φ κ)) : conditions (a ++ b) = conditions a ++ conditions b := List.filterMap_append

theorem settings_append (a b : List (Job ε φ κ)) : settings (a ++ b) = settings a ++ settings b := List.filterMap_append

theorem loop_ok (m : Maker ε φ κ) (source : Source) (base : ℕ) (e : ε) (he : m.openElem = some e) (mus : List ℚ) (hm : ∀ mu ∈ mus, mu ∈ m.chempots)
    (jobs out : List (Job ε φ κ)) (h : Good m base jobs) (hl : loop m source base e mus jobs = .ok out) :
    Good m base out ∧ conditions out = conditions jobs ++ mus.map (fun mu => (some e, mu)) ∧
      settings out = settings jobs ++ mus.flatMap fun mu => .inl { m.network with openElem := some e, chempot := mu } ::
        (m.solver.map fun s => .inr { s with openElem := some e, chempot := mu }).toList := by
  induction mus generalizing jobs with
  | nil =>
    cases hl
    exact ⟨h, by simp, by simp⟩
  | cons mu mus ih =>
    rw [loop] at hl
    split at hl
    · simp at hl
    · rename_i l hp
      obtain ⟨g1, g2, g3⟩ := good_add m base jobs h source e he mu (hm mu List.mem_cons_self) l hp
      obtain ⟨k1, k2, k3⟩ := ih (fun x hx => hm x (List.mem_cons_of_mem _ hx)) _ g1 hl
      refine ⟨k1, ?_, ?_⟩
      · rw [k2, conditions_append, g2]
        simp
      · rw [k3, settings_append, g3]
        simp

/-- No job fetching entries. -/
def Fetchless (jobs : List (Job ε φ κ)) : Prop := ∀ a b, Job.entries a b ∉ jobs

theorem fetchless_append (a b : List (Job ε φ κ)) (ha : Fetchless a) (hb : Fetchless b) : Fetchless (a ++ b) := by
  intro x y h
  rcases List.mem_append.mp h with h | h
  · exact ha _ _ h
  · exact hb _ _ h

theorem fetchless_base (m : Maker ε φ κ) (source : Source) (n : ℕ) (es : List (Enumerator ε φ κ)) : Fetchless (baseJobs m source n es) := by
  intro a b h
  cases hs : m.solver <;> simp [baseJobs, hs] at h

theorem fetchless_potential (m : Maker ε φ κ) (source : Source) (base n : ℕ) (e : ε) (mu : ℚ) (l : List (Job ε φ κ))
    (h : potentialJobs m source base n e mu = .ok l) : Fetchless l := by
  intro a b hab
  unfold potentialJobs at h
  cases hx : explicit ["open_elem", "mu"] m.minimizeKw with
  | error x => rw [hx] at h; simp [Except.map] at h
  | ok kw =>
    rw [hx] at h
    rw [← Except.ok.inj h] at hab
    cases hs : m.solver <;> simp [hs] at hab

theorem loop_adds (m : Maker ε φ κ) (source : Source) (base : ℕ) (e : ε) (mus : List ℚ) (a out : List (Job ε φ κ))
    (h : loop m source base e mus a = .ok out) : ∃ r, out = a ++ r ∧ Fetchless r := by
  induction mus generalizing a with
  | nil => cases h; exact ⟨[], by simp, by intro a b; simp⟩
  | cons mu mus ih =>
    rw [loop] at h
    split at h
    · simp at h
    · rename_i l hl
      obtain ⟨r, hr, hr'⟩ := ih _ h
      exact ⟨_, by rw [hr, List.append_assoc], fetchless_append _ _ (fetchless_potential m _ _ _ _ _ _ hl) hr'⟩

/-- The closed part. -/
theorem good_base (m : Maker ε φ κ) (given : Bool) (formulas : List φ) :
    Good m (entryJobs m given formulas).length (entryJobs m given formulas ++ baseJobs m (sourceOf given) (entryJobs m given formulas).length (closedEnumerators m)) := by
  have hen : Enumerates (entryJobs m given formulas ++ baseJobs m (sourceOf given) (entryJobs m given formulas).length (closedEnumerators m))
      (entryJobs m given formulas).length (closedEnumerators m) := by
    refine ⟨sourceOf given, ?_⟩
    rw [List.getElem?_append_right (le_refl _)]
    simp [baseJobs]
  have hnet : networkAt (entryJobs m given formulas ++ baseJobs m (sourceOf given) (entryJobs m given formulas).length (closedEnumerators m))
      ((entryJobs m given formulas).length + 1) m.network [(entryJobs m given formulas).length] := by
    unfold networkAt
    rw [List.getElem?_append_right (by omega), Nat.add_sub_cancel_left]
    simp [baseJobs]
  have hfirst : ∀ (i : ℕ) (x : Job ε φ κ), (entryJobs m given formulas)[i]? = some x → ∃ a b, x = .entries a b := by
    intro i x hx
    unfold entryJobs at hx
    cases given
    · match i, hx with
      | 0, hx => simp at hx; exact ⟨_, _, hx.symm⟩
      | i + 1, hx => simp at hx
    · simp at hx
  refine ⟨?_, hen, ?_, ?_⟩
  · simp [baseJobs]
  · intro i n sets hi
    unfold networkAt at hi
    by_cases hlt : i < (entryJobs m given formulas).length
    · rw [List.getElem?_append_left hlt] at hi
      obtain ⟨a, b, h⟩ := hfirst i _ hi
      simp at h
    · rw [List.getElem?_append_right (by omega)] at hi
      obtain ⟨d, hd⟩ : ∃ d, i - (entryJobs m given formulas).length = d := ⟨_, rfl⟩
      rw [hd] at hi
      match d, hi with
      | 0, hi => simp [baseJobs] at hi
      | 1, hi =>
        simp only [baseJobs, List.cons_append, List.nil_append, List.getElem?_cons_succ, List.getElem?_cons_zero, Option.some.injEq, Job.network.injEq] at hi
        obtain ⟨rfl, rfl⟩ := hi
        exact .base _ (by omega) hen
      | d + 2, hi => cases hs : m.solver <;> rcases d with _ | d <;> simp [hs, baseJobs] at hi
  · intro i s p q hi
    by_cases hlt : i < (entryJobs m given formulas).length
    · rw [List.getElem?_append_left hlt] at hi
      obtain ⟨a, b, h⟩ := hfirst i _ hi
      simp at h
    · rw [List.getElem?_append_right (by omega)] at hi
      obtain ⟨d, hd⟩ : ∃ d, i - (entryJobs m given formulas).length = d := ⟨_, rfl⟩
      rw [hd] at hi
      match d, hi with
      | 0, hi => simp [baseJobs] at hi
      | 1, hi => simp [baseJobs] at hi
      | 2, hi =>
        cases hs : m.solver with
        | none => simp [hs, baseJobs] at hi
        | some s0 =>
          simp only [baseJobs, hs, Option.map_some, Option.toList_some, List.cons_append, List.nil_append, List.getElem?_cons_succ, List.getElem?_cons_zero,
            Option.some.injEq, Job.solve.injEq] at hi
          obtain ⟨rfl, rfl, rfl⟩ := hi
          exact ⟨rfl, s0, rfl, .base _ _ (by omega) hnet⟩
      | d + 3, hi => cases hs : m.solver <;> simp [hs, baseJobs] at hi

theorem make_ok (m : Maker ε φ κ) (precursors targets : List φ) (given : Bool) (jobs : List (Job ε φ κ)) (h : make m precursors targets given = .ok jobs) :
    ∃ ps ts, precursors.mapM m.reduce = .ok ps ∧ targets.mapM m.reduce = .ok ts ∧ Good m (entryJobs m given (ps ++ ts)).length jobs ∧
      conditions jobs = (m.network.openElem, m.network.chempot) :: (potentials m).map (fun p => (some p.1, p.2)) ∧
      settings jobs = .inl m.network :: (m.solver.map .inr).toList ++ (potentials m).flatMap (fun p => .inl { m.network with openElem := some p.1, chempot := p.2 } ::
        (m.solver.map fun s => .inr { s with openElem := some p.1, chempot := p.2 }).toList) ∧
      ∃ rest, jobs = entryJobs m given (ps ++ ts) ++ rest ∧ Fetchless rest := by
  unfold make at h
  simp only [bind_ok] at h
  obtain ⟨ps, hps, ts, hts, es, hes, h⟩ := h
  rw [baseEnumerators_eq m es hes] at h
  have hg := good_base m given (ps ++ ts)
  have hc : conditions (entryJobs m given (ps ++ ts) ++ baseJobs m (sourceOf given) (entryJobs m given (ps ++ ts)).length (closedEnumerators m)) =
      [(m.network.openElem, m.network.chempot)] := by
    cases given <;> cases hs : m.solver <;> simp [entryJobs, baseJobs, conditions, hs]
  have hst : settings (entryJobs m given (ps ++ ts) ++ baseJobs m (sourceOf given) (entryJobs m given (ps ++ ts)).length (closedEnumerators m)) =
      .inl m.network :: (m.solver.map .inr).toList := by
    cases given <;> cases hs : m.solver <;> simp [entryJobs, baseJobs, settings, hs]
  refine ⟨ps, ts, hps, hts, ?_⟩
  cases hm : m.useMinimize with
  | false =>
    rw [hm] at h
    cases h
    exact ⟨hg, by rw [hc]; simp [potentials, hm], by rw [hst]; simp [potentials, hm], _, rfl, fetchless_base _ _ _ _⟩
  | true =>
    cases ho : m.openElem with
    | none =>
      rw [hm, ho] at h
      cases h
      exact ⟨hg, by rw [hc]; simp [potentials, hm, ho], by rw [hst]; simp [potentials, hm, ho], _, rfl, fetchless_base _ _ _ _⟩
    | some e =>
      rw [hm, ho] at h
      obtain ⟨k1, k2, k3⟩ := loop_ok m _ _ e ho m.chempots (fun _ h => h) _ _ hg h
      obtain ⟨r, hr, hr'⟩ := loop_adds _ _ _ _ _ _ _ h
      refine ⟨k1, ?_, ?_, _, by rw [hr, List.append_assoc], fetchless_append _ _ (fetchless_base _ _ _ _) hr'⟩
      · rw [k2, hc]
        simp [potentials, hm, ho]
      · rw [k3, hst]
        simp [potentials, hm, ho, List.flatMap_map]

/-! ### C108 -/

/-- One network job for the maker's own condition and one for each requested potential (if reactions are enumerated by minimization); each is fed by the
reactions of its condition, found earlier in the flow; each solver job gets paths and entries from the network job of its condition, and there is a solver
job for every network job; network and solver jobs keep all other settings of the makers. Missing for the full statement: the precursors and targets given
are not passed on (`C108_ignored`, `C108_default_violated`), and the potentials are ignored without minimization (`C108_potentials_violated`). -/
theorem C108_flow_partial (m : Maker ε φ κ) (precursors targets : List φ) (given : Bool) (jobs : List (Job ε φ κ))
    (h : make m precursors targets given = .ok jobs) :
    (m.network.openElem, m.network.chempot) :: (potentials m).map (fun p => (some p.1, p.2)) = conditions jobs ∧
    (∀ i n sets, networkAt jobs i n sets → Feeds m jobs i n sets) ∧
    (∀ i s p q, jobs[i]? = some (.solve s p q) → p = q ∧ ∃ s0, m.solver = some s0 ∧ Solves m s0 jobs i s p) ∧
    (∀ s0, m.solver = some s0 → ((settings jobs).filterMap Sum.getRight?).length = (conditions jobs).length) := by
  obtain ⟨ps, ts, _, _, hg, hc, hst, _⟩ := make_ok m precursors targets given jobs h
  refine ⟨hc.symm, hg.feeds, hg.solves, ?_⟩
  intro s0 hs
  rw [hst, hc, hs]
  have : ∀ l : List (ε × ℚ), ((l.flatMap fun p => ([.inl { m.network with openElem := some p.1, chempot := p.2 },
      .inr { s0 with openElem := some p.1, chempot := p.2 }] : List (NetMaker ε φ ⊕ SolverMaker ε φ))).filterMap Sum.getRight?).length = l.length := by
    intro l
    induction l with
    | nil => rfl
    | cons x l ih => simpa [List.filterMap_cons] using ih
  simpa [List.filterMap_cons] using this (potentials m)

/-- If the makers are themselves set up with the precursors and targets, every network job searches between them. -/
theorem C108_configured_partial (m : Maker ε φ κ) (precursors targets : List φ) (given : Bool) (jobs : List (Job ε φ κ))
    (h : make m precursors targets given = .ok jobs) (hp : m.network.precursors = some precursors) (ht : m.network.targets = some targets) :
    ∀ i n sets, networkAt jobs i n sets → n.precursors = some precursors ∧ n.targets = some targets ∧ n.paths = m.network.paths := by
  intro i n sets hi
  obtain ⟨_, hf, _⟩ := C108_flow_partial m precursors targets given jobs h
  cases hf i n sets hi with
  | base b hb _ => exact ⟨hp, ht, rfl⟩
  | potential e he mu hmu b g hb hg _ _ => exact ⟨hp, ht, rfl⟩

/-- The entries are fetched first, unless given: for exactly the elements of the formulas, and including all of them. -/
theorem C108_entries (m : Maker ε φ κ) (precursors targets : List φ) (given : Bool) (jobs : List (Job ε φ κ))
    (hE : ∀ (l : List ε) x, x ∈ m.orderE l ↔ x ∈ l) (hF : ∀ (l : List φ) x, x ∈ m.orderF l ↔ x ∈ l) (h : make m precursors targets given = .ok jobs) :
    ∃ ps ts, precursors.mapM m.reduce = .ok ps ∧ targets.mapM m.reduce = .ok ts ∧
      (given = true → ∀ (i : ℕ) a b, jobs[i]? ≠ some (.entries a b)) ∧
      (given = false → ∃ a b, jobs[0]? = some (.entries a b) ∧ (∀ x, x ∈ a ↔ ∃ f ∈ ps ++ ts, x ∈ m.elements f) ∧
        (∀ f, f ∈ b ↔ f ∈ m.included ∨ f ∈ ps ∨ f ∈ ts)) := by
  obtain ⟨ps, ts, hps, hts, _, _, _, rest, hj, hr⟩ := make_ok m precursors targets given jobs h
  refine ⟨ps, ts, hps, hts, ?_, ?_⟩
  · rintro rfl i a b hi
    rw [hj] at hi
    exact hr a b (List.mem_of_getElem? (by simpa [entryJobs] using hi))
  · rintro rfl
    refine ⟨m.orderE ((ps ++ ts).flatMap m.elements), m.orderF (m.included ++ (ps ++ ts)), by rw [hj]; simp [entryJobs], ?_, ?_⟩
    · intro x
      rw [hE, List.mem_flatMap]
    · intro f
      rw [hF]
      simp

/-- The search does not depend on the precursors and targets given at all: the network and solver jobs of any two flows made by one maker have the same
settings. -/
theorem C108_ignored (m : Maker ε φ κ) (precursors targets precursors' targets' : List φ) (given given' : Bool) (jobs jobs' : List (Job ε φ κ))
    (h : make m precursors targets given = .ok jobs) (h' : make m precursors' targets' given' = .ok jobs') : settings jobs = settings jobs' := by
  obtain ⟨_, _, _, _, _, _, h1, _⟩ := make_ok m _ _ _ _ h
  obtain ⟨_, _, _, _, _, _, h2, _⟩ := make_ok m _ _ _ _ h'
  rw [h1, h2]

/-- With a network maker without targets of its own (the default), no network job of the flow has a target to search for, whatever targets are given. -/
theorem C108_default_violated (m : Maker ε φ κ) (hm : m.network.targets = none) (precursors targets : List φ) (given : Bool) (jobs : List (Job ε φ κ))
    (h : make m precursors targets given = .ok jobs) :
    (∃ i n sets, networkAt jobs i n sets) ∧ ∀ i n sets, networkAt jobs i n sets → n.targets = none := by
  obtain ⟨hc, hf, _⟩ := C108_flow_partial m precursors targets given jobs h
  constructor
  · have : (m.network.openElem, m.network.chempot) ∈ conditions jobs := by rw [← hc]; exact List.mem_cons_self
    unfold conditions at this
    rw [List.mem_filterMap] at this
    obtain ⟨j, hj, hj'⟩ := this
    obtain ⟨i, hi⟩ := List.mem_iff_getElem?.mp hj
    cases j with
    | network n sets => exact ⟨i, n, sets, hi⟩
    | _ => simp at hj'
  · intro i n sets hi
    cases hf i n sets hi with
    | base b hb _ => exact hm
    | potential e he mu hmu b g hb hg _ _ => exact hm

/-- Without minimization the chemical potentials asked for are ignored: there is only one network job. -/
theorem C108_potentials_violated (m : Maker ε φ κ) (hm : m.useMinimize = false) (precursors targets : List φ) (given : Bool) (jobs : List (Job ε φ κ))
    (h : make m precursors targets given = .ok jobs) : (conditions jobs).length = 1 := by
  obtain ⟨hc, _⟩ := C108_flow_partial m precursors targets given jobs h
  rw [← hc]
  simp [potentials, hm]

/-- Formulas that cannot be parsed are reported. -/
theorem C108_unparsable (m : Maker ε φ κ) (precursors targets : List φ) (given : Bool) (f : φ) (hf : f ∈ precursors ∨ f ∈ targets) (x : Err)
    (hx : m.reduce f = .error x) : ∃ y, make m precursors targets given = .error y := by
  cases h : make m precursors targets given with
  | error y => exact ⟨y, rfl⟩
  | ok jobs =>
    exfalso
    obtain ⟨ps, ts, hps, hts, _⟩ := make_ok m precursors targets given jobs h
    rcases hf with hf | hf
    · obtain ⟨y, hy⟩ := mapM_exists_error _ _ f hf x hx
      rw [hy] at hps
      simp at hps
    · obtain ⟨y, hy⟩ := mapM_exists_error _ _ f hf x hx
      rw [hy] at hts
      simp at hts

/-! ### Examples -/

/-- Formulas are numbers, 7 cannot be parsed; elements are the remainder modulo 3; an element is the formula of its phase. -/
def ex (solver : Option (SolverMaker ℕ ℕ)) (openElem : Option ℕ) (chempots : List ℚ) : Maker ℕ ℕ ℕ where
  included := [9]
  network := ⟨some [4], some [5], some 3, none, 0⟩
  solver := solver
  openElem := openElem
  chempots := chempots
  useBasic := true
  useMinimize := true
  basicKw := [("n", 2)]
  minimizeKw := [("n", 3)]
  reduce := fun f => if f = 7 then .error .valueError else .ok f
  elements := fun f => [f % 3]
  phase := id
  orderE := List.dedup
  orderF := List.dedup

/-- Three conditions with solver: ten jobs. -/
example : make (ex (some ⟨[4], [5], none, 0⟩) (some 8) [-1, -2]) [4] [5] false =
    .ok [.entries [1, 2] [9, 4, 5],
      .enumerate [.basic [("n", 2)], .basicOpen [8] [("n", 2)], .gibbs [("n", 3)]] (.job 0),
      .network ⟨some [4], some [5], some 3, none, 0⟩ [1],
      .solve ⟨[4], [5], none, 0⟩ 2 2,
      .enumerate [.grand 8 (-1) [("n", 3)]] (.job 0),
      .network ⟨some [4], some [5], some 3, some 8, -1⟩ [1, 4],
      .solve ⟨[4], [5], some 8, -1⟩ 5 5,
      .enumerate [.grand 8 (-2) [("n", 3)]] (.job 0),
      .network ⟨some [4], some [5], some 3, some 8, -2⟩ [1, 7],
      .solve ⟨[4], [5], some 8, -2⟩ 8 8] := by decide +kernel

/-- The same network jobs for other precursors and targets. -/
example : (make (ex none (some 8) [-1]) [4] [5] true).map settings = (make (ex none (some 8) [-1]) [2] [3] false).map settings := by decide +kernel

/-- Without the minimizing enumerators the potentials are ignored. -/
example : (make { ex none (some 8) [-1, -2] with useMinimize := false } [4] [5] true).map conditions = .ok [(none, 0)] := by decide +kernel

/-- A default network maker: no targets in any network job. -/
example : (make { ex none (some 8) [-1] with network := ⟨none, none, none, none, 0⟩ } [4] [5] true).map settings =
    .ok [.inl ⟨none, none, none, none, 0⟩, .inl ⟨none, none, none, some 8, -1⟩] := by decide +kernel

/-- Errors: an unparsable target, and keywords clashing with those of the flow. -/
example : make (ex none none []) [4] [7] true = .error .valueError ∧
    make { ex none (some 8) [-1] with minimizeKw := [("mu", 3)] } [4] [5] true = .error .typeError ∧
    (∀ (l : List ℕ) x, x ∈ (ex none none []).orderE l ↔ x ∈ l) :=
  ⟨by decide +kernel, by decide +kernel, fun _ _ => List.mem_dedup⟩

example := C108_flow_partial (ex (some ⟨[4], [5], none, 0⟩) (some 8) [-1]) [4] [5] false
  [.entries [1, 2] [9, 4, 5],
      .enumerate [.basic [("n", 2)], .basicOpen [8] [("n", 2)], .gibbs [("n", 3)]] (.job 0),
      .network ⟨some [4], some [5], some 3, none, 0⟩ [1],
      .solve ⟨[4], [5], none, 0⟩ 2 2,
      .enumerate [.grand 8 (-1) [("n", 3)]] (.job 0),
      .network ⟨some [4], some [5], some 3, some 8, -1⟩ [1, 4],
      .solve ⟨[4], [5], some 8, -1⟩ 5 5] (by decide +kernel)
example (jobs : List (Job ℕ ℕ ℕ)) (h : make (ex none (some 8) [-1]) [4] [5] true = .ok jobs) :=
  C108_configured_partial (ex none (some 8) [-1]) [4] [5] true jobs h rfl rfl
example (jobs : List (Job ℕ ℕ ℕ)) (h : make (ex none (some 8) [-1]) [4] [5] false = .ok jobs) :=
  C108_entries (ex none (some 8) [-1]) [4] [5] false jobs (fun _ _ => List.mem_dedup) (fun _ _ => List.mem_dedup) h
example (jobs jobs' : List (Job ℕ ℕ ℕ)) (h : make (ex none (some 8) [-1]) [4] [5] true = .ok jobs)
    (h' : make (ex none (some 8) [-1]) [2] [3] false = .ok jobs') : settings jobs = settings jobs' :=
  C108_ignored _ _ _ _ _ _ _ _ _ h h'

end Verif.Props.Flow
