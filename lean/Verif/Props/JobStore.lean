import Verif.Model.JobStore
import Verif.Props.RxnSet

/-! C120: reactions fetched from the job store. -/

set_option linter.unusedSectionVars false

namespace Verif.Props.JobStore
open Verif.Py Verif.Spec.RxnSet Verif.Model.RxnSet Verif.Model.JobStore Verif.Lemmas.RxnSet Verif.Props.RxnSet

variable {φ σ η δ ε υ : Type} [DecidableEq φ] [DecidableEq σ] [DecidableEq η] [DecidableEq ε] [DecidableEq υ]

/-! ### Specification -/

/-- The run was made for the requested target, conditions and (if given) firework. -/
structure Requested (q : Query φ σ) (d : Doc φ σ η δ ε) : Prop where
  target : d.target = some q.target
  closed : q.openElem = none → d.openElem = .missing ∨ d.openElem = .null
  opened : ∀ o, q.openElem = some o → d.openElem = .text o
  chempot : d.chempot = some q.chempot
  fw : ∀ n, q.fw = some n → d.fw = some n

/-- The store sorts by descending time of completion. -/
def Newest (sort : List (Doc φ σ η δ ε) → List (Doc φ σ η δ ε)) : Prop :=
  ∀ l, (sort l).Perm l ∧ (sort l).Pairwise fun a b => b.completed ≤ a.completed

theorem matches_iff (q : Query φ σ) (d : Doc φ σ η δ ε) : docMatches q d = true ↔ Requested q d := by
  unfold docMatches
  rw [Bool.and_eq_true, Bool.and_eq_true, Bool.and_eq_true, decide_eq_true_eq, decide_eq_true_eq]
  constructor
  · rintro ⟨⟨⟨h1, h2⟩, h3⟩, h4⟩
    refine ⟨h1, ?_, ?_, h3, ?_⟩
    · intro h
      rw [h] at h2
      cases hd : d.openElem <;> simp [fieldMatches, hd] at h2 ⊢
    · intro o h
      rw [h] at h2
      cases hd : d.openElem <;> simp [fieldMatches, hd] at h2 ⊢
      exact h2.symm
    · intro n h
      simpa [h] using h4
  · rintro ⟨h1, h2, h3, h4, h5⟩
    refine ⟨⟨⟨h1, ?_⟩, h4⟩, ?_⟩
    · cases hq : q.openElem with
      | none => rcases h2 hq with h | h <;> simp [fieldMatches, h]
      | some o => simp [fieldMatches, h3 o hq]
    · cases hq : q.fw with
      | none => rfl
      | some n => simp [h5 n hq]

theorem queryOne_some (sort : List (Doc φ σ η δ ε) → List (Doc φ σ η δ ε)) (hs : Newest sort) (docs : List (Doc φ σ η δ ε)) (q : Query φ σ)
    (d : Doc φ σ η δ ε) (h : queryOne sort docs q = some d) :
    d ∈ docs ∧ Requested q d ∧ ∀ d' ∈ docs, Requested q d' → d'.completed ≤ d.completed := by
  unfold queryOne at h
  obtain ⟨hp, hw⟩ := hs (docs.filter (docMatches q))
  cases hl : sort (docs.filter (docMatches q)) with
  | nil => rw [hl] at h; cases h
  | cons a l =>
    rw [hl] at h hp hw
    have := Option.some.inj h
    subst this
    have ha := List.mem_filter.mp (hp.subset List.mem_cons_self)
    refine ⟨ha.1, (matches_iff q _).mp ha.2, fun d' hd' hr => ?_⟩
    have hm : d' ∈ a :: l := hp.symm.subset (List.mem_filter.mpr ⟨hd', (matches_iff q d').mpr hr⟩)
    rcases List.mem_cons.mp hm with rfl | hm
    · exact le_refl _
    · exact (List.pairwise_cons.mp hw).1 d' hm

/-- **C120.** If no run matches, the request fails with `ValueError`. Whatever is returned comes from a matching run that no other matching run is newer than:
for a closed request its reaction set itself; for an open request a set whose reactions are those of the run (same entries, coefficients and data, each as
often) at the requested potential. -/
theorem C120_newest (uid : η → υ) (setOrder : List η → List η) (ho : SetOrder setOrder) (elem : σ → ε)
    (sort : List (Doc φ σ η δ ε) → List (Doc φ σ η δ ε)) (hs : Newest sort) (docs : List (Doc φ σ η δ ε)) (q : Query φ σ) :
    ((∀ d ∈ docs, ¬ Requested q d) → fetch uid setOrder elem sort docs q = .error .valueError) ∧
    ((∃ d ∈ docs, Requested q d) →
      ∃ d ∈ docs, Requested q d ∧ (∀ d' ∈ docs, Requested q d' → d'.completed ≤ d.completed) ∧
        ∀ s, d.rxns = some s → Built s → (∀ a ∈ s.entries, ∀ b ∈ s.entries, uid a = uid b → a = b) →
        ∃ r, fetch uid setOrder elem sort docs q = .ok r ∧
          (q.openElem = none → r = s) ∧
          ∀ o, q.openElem = some o → ∃ before after, getRxns s = .ok before ∧ getRxns r = .ok after ∧
            (after.map fun x => (x.entries, x.coeffs, x.data)).Perm (before.map fun x => (x.entries, x.coeffs, x.data)) ∧
            ∀ x ∈ after, x.chempots = [(elem o, q.chempot)]) := by
  constructor
  · intro h
    have : queryOne sort docs q = none := by
      cases hq : queryOne sort docs q with
      | none => rfl
      | some d =>
        obtain ⟨h1, h2, -⟩ := queryOne_some sort hs docs q d hq
        exact absurd h2 (h d h1)
    simp [fetch, this]
  · rintro ⟨d0, hd0, hr0⟩
    obtain ⟨d, hd⟩ : ∃ d, queryOne sort docs q = some d := by
      cases hq : queryOne sort docs q with
      | some d => exact ⟨d, rfl⟩
      | none =>
        unfold queryOne at hq
        rw [List.head?_eq_none_iff] at hq
        have := (hs (docs.filter (docMatches q))).1.symm.subset (List.mem_filter.mpr ⟨hd0, (matches_iff q d0).mpr hr0⟩)
        rw [hq] at this
        cases this
    obtain ⟨h1, h2, h3⟩ := queryOne_some sort hs docs q d hd
    refine ⟨d, h1, h2, h3, fun s hsome hb hinj => ?_⟩
    cases ho' : q.openElem with
    | none =>
      refine ⟨s, by simp [fetch, hd, rebuild, hsome, ho'], fun _ => rfl, fun o h => by cases h⟩
    | some o =>
      have hwf := built_wf s hb
      have hg := getRxns_ok s hwf
      have hent : ∀ r ∈ stored s, ∀ a ∈ r.entries, a ∈ s.entries := by
        intro r hr a ha
        unfold stored at hr
        obtain ⟨p, -, hr⟩ := List.mem_flatMap.mp hr
        obtain ⟨t, -, rfl⟩ := List.mem_map.mp hr
        obtain ⟨i, -, hi⟩ := List.mem_filterMap.mp ha
        exact List.mem_of_getElem? hi
      obtain ⟨r, sizes, k1, k2, -, k4, k5, k6, k7⟩ := fromRxns_ok uid setOrder ho (stored s) none (some (elem o)) q.chempot
        (fun r hr e he => List.mem_flatMap.mpr ⟨r, hr, he⟩)
        (by
          intro a ha b hb'
          obtain ⟨ra, hra, ha⟩ := List.mem_flatMap.mp ha
          obtain ⟨rb, hrb, hb'⟩ := List.mem_flatMap.mp hb'
          exact hinj a (hent ra hra a ha) b (hent rb hrb b hb'))
      refine ⟨r, by simp [fetch, hd, rebuild, hsome, ho', hg, k1], fun h => (by cases h), ?_⟩
      intro o' ho2
      have := Option.some.inj ho2
      subst this
      have hmu : muDict r = [(elem o, q.chempot)] := by
        have hdet : detectOpen (stored s) (some (elem o)) q.chempot = (some (elem o), q.chempot) := by simp [detectOpen]
        rw [hdet, Prod.mk.injEq] at k4
        simp [muDict, k4.1, k4.2]
      refine ⟨stored s, stored r, hg, getRxns_ok r k2, ?_, ?_⟩
      · rw [k7, List.map_flatMap]
        have hperm : (sizes.flatMap fun n => (stored s).filter fun r => decide (r.entries.length = n)).Perm (stored s) := by
          apply perm_flatMap_filter (stored s) (fun r => r.entries.length) sizes k5
          intro k
          rw [k6, List.mem_map]
        have := hperm.map fun x => (x.entries, x.coeffs, x.data)
        rw [List.map_flatMap] at this
        refine (List.Perm.of_eq ?_).trans this
        congr 1
        funext n
        rw [List.map_map]
        rfl
      · intro x hx
        rw [k7] at hx
        obtain ⟨n, -, hx⟩ := List.mem_flatMap.mp hx
        obtain ⟨y, -, rfl⟩ := List.mem_map.mp hx
        exact hmu

/-- **C120, encodings.** Runs whose open element is stored as an encoded object are never found by the element's symbol. -/
theorem C120_encoded (uid : η → υ) (setOrder : List η → List η) (elem : σ → ε) (sort : List (Doc φ σ η δ ε) → List (Doc φ σ η δ ε)) (hs : Newest sort)
    (docs : List (Doc φ σ η δ ε)) (q : Query φ σ) (o : σ) (hq : q.openElem = some o) (h : ∀ d ∈ docs, d.openElem ≠ .text o) :
    fetch uid setOrder elem sort docs q = .error .valueError := by
  have : queryOne sort docs q = none := by
    cases hd : queryOne sort docs q with
    | none => rfl
    | some d =>
      obtain ⟨h1, h2, -⟩ := queryOne_some sort hs docs q d hd
      exact absurd (h2.opened o hq) (h d h1)
  simp [fetch, this]

/-! ### Examples -/

/-- Stable descending sort -/
def exSort (l : List (Doc ℕ ℕ ℕ ℕ ℕ)) : List (Doc ℕ ℕ ℕ ℕ ℕ) := l.insertionSort fun a b => b.completed ≤ a.completed

theorem exSort_newest : Newest exSort := by
  intro l
  have : Std.Total fun a b : Doc ℕ ℕ ℕ ℕ ℕ => b.completed ≤ a.completed := ⟨fun a b => le_total _ _⟩
  have : IsTrans (Doc ℕ ℕ ℕ ℕ ℕ) fun a b => b.completed ≤ a.completed := ⟨fun a b c h1 h2 => le_trans h2 h1⟩
  exact ⟨List.perm_insertionSort _ _, List.pairwise_insertionSort _ _⟩

/-- The reaction sets of a closed and of an open run -/
def exSet : RSet ℕ ℕ ℕ := ⟨[1, 3, 2], [(2, [[0, 2], [1, 2]]), (3, [[0, 1, 2]])], [(2, [[-1, 1], [-1, 2]]), (3, [[-1, -1, 1]])],
    [(2, [7, 5]), (3, [9])], none, 0⟩

theorem exSet_built : Built exSet := .fromRxns id List.dedup [closedA, closedB, closedC] none none 0 _ setOrder_dedup (by decide +kernel)

/-- An old and a new run with open element 8, a closed one, and one for another target -/
def exDocs : List (Doc ℕ ℕ ℕ ℕ ℕ) :=
  [⟨some 5, .text 8, some (-2), some 1, 10, none⟩, ⟨some 5, .text 8, some (-2), some 2, 20, some exSet⟩,
    ⟨some 5, .null, some 0, some 3, 30, some exSet⟩, ⟨some 6, .text 8, some (-2), some 4, 40, none⟩]

/-- Example for `C120_newest`: the newer open run, at the requested potential; the closed run as it is; nothing for an unknown target; the old run is found by
its firework (and has no reactions). -/
example : (fetch id List.dedup id exSort exDocs ⟨5, some 8, -2, none⟩ >>= getRxns).map (fun l => l.map fun r => (r.chempots, r.coeffs, r.data))
      = .ok [([(8, -2)], [-1, 1], 7), ([(8, -2)], [-1, 2], 5), ([(8, -2)], [-1, -1, 1], 9)] ∧
    fetch id List.dedup id exSort exDocs ⟨5, none, 0, none⟩ = .ok exSet ∧
    fetch id List.dedup id exSort exDocs ⟨7, none, 0, none⟩ = .error .valueError ∧
    fetch id List.dedup id exSort exDocs ⟨5, some 8, -2, some 1⟩ = .error .attributeError := by
  refine ⟨?_, ?_, ?_, ?_⟩ <;> decide +kernel

example : (∃ d ∈ exDocs, Requested ⟨5, some 8, -2, none⟩ d) ∧ Built exSet ∧ (∀ a ∈ exSet.entries, ∀ b ∈ exSet.entries, id a = id b → a = b) :=
  ⟨⟨_, List.mem_cons_of_mem _ List.mem_cons_self, (matches_iff _ _).mp (by decide +kernel)⟩, exSet_built, fun _ _ _ _ h => h⟩

/-- Example for `C120_encoded` -/
example : fetch id List.dedup id exSort [⟨some 5, .object 8, some (-2), some 1, 10, some exSet⟩] ⟨5, some 8, -2, none⟩ = .error .valueError :=
  C120_encoded _ _ _ _ exSort_newest _ _ 8 rfl (by decide)

example := (C120_newest id List.dedup RxnSet.setOrder_dedup id exSort exSort_newest exDocs ⟨5, some 8, -2, none⟩).2
  ⟨_, List.mem_cons_of_mem _ List.mem_cons_self, (matches_iff _ _).mp (by decide +kernel)⟩

end Verif.Props.JobStore
