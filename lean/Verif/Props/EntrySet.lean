import Verif.Model.Entries
import Verif.Lemmas.Dict
import Verif.Lemmas.Except

/-! Properties C37-C40: cached views, ground-state look-up, stability filter and chemical-system subset of an entry set. -/

namespace Verif.Props.EntrySet
open Verif.Py Verif.Model Verif.Model.Entries Verif.Lemmas

set_option linter.unusedSectionVars false

/-! ### C37 -/

section Cache
variable {η V : Type} [DecidableEq η]

/-- Specification: what an action does to the mathematical set of entries, and what a read should return, without any cache. -/
def specStep (compute : View → List η → Except Err V) (l : List η) : Op η → List η × Option (Except Err V)
  | .add e => (if e ∈ l then l else l ++ [e], none)
  | .update items _ => (items.foldl (fun l e => if e ∈ l then l else l ++ [e]) l, none)
  | .discard e => (l.erase e, none)
  | .remove e => (l.erase e, none)
  | .pop => (l.tail, none)
  | .read v => (l, some (compute v l))

/-- Specification of a history: every read is recomputed from scratch. -/
def specRun (compute : View → List η → Except Err V) : List η → List (Op η) → List η × List (Except Err V)
  | l, [] => (l, [])
  | l, o :: os =>
    let r := specStep compute l o
    let rest := specRun compute r.1 os
    (rest.1, r.2.toList ++ rest.2)

/-- No `update` whose iterable raises half-way. -/
def Clean : Op η → Prop
  | .update _ raises => raises = false
  | _ => True

/-- Every cached value is what would be computed now. -/
def Coherent (compute : View → List η → Except Err V) (s : ES η V) : Prop :=
  ∀ v x, dictGet s.cache v = some x → compute v s.entries = .ok x

theorem clearCache_nil (c : List (View × V)) : clearCache c = [] := by
  unfold clearCache
  simp only [allViews, List.foldl_cons, List.foldl_nil, List.filter_filter]
  refine List.filter_eq_nil_iff.mpr fun p _ => ?_
  obtain ⟨v, x⟩ := p
  cases v <;> simp

theorem coherent_nil (compute : View → List η → Except Err V) (l : List η) : Coherent compute (⟨l, []⟩ : ES η V) := by
  intro v x h; simp [dictGet] at h

theorem coherent_clear (compute : View → List η → Except Err V) (l : List η) (c : List (View × V)) :
    Coherent compute (⟨l, clearCache c⟩ : ES η V) := by
  rw [clearCache_nil]; exact coherent_nil compute l

theorem read_spec (compute : View → List η → Except Err V) (s : ES η V) (v : View) (h : Coherent compute s) :
    (Model.Entries.read compute s v).1.entries = s.entries ∧ (Model.Entries.read compute s v).2 = compute v s.entries ∧ Coherent compute (Model.Entries.read compute s v).1 := by
  unfold Model.Entries.read
  cases hc : dictGet s.cache v with
  | some x => exact ⟨rfl, (h v x hc).symm, h⟩
  | none =>
    cases hx : compute v s.entries with
    | error e => exact ⟨rfl, rfl, h⟩
    | ok x =>
      refine ⟨rfl, rfl, ?_⟩
      intro w y hw
      simp only [Dict.dictGet_dictSet] at hw
      split_ifs at hw with hvw
      · subst hvw; cases hw; exact hx
      · exact h w y hw

theorem step_spec (compute : View → List η → Except Err V) (s : ES η V) (o : Op η) (h : Coherent compute s) (ho : Clean o) :
    (step compute s o).1.entries = (specStep compute s.entries o).1 ∧ (step compute s o).2 = (specStep compute s.entries o).2 ∧
    Coherent compute (step compute s o).1 := by
  cases o with
  | add e => exact ⟨rfl, rfl, coherent_clear _ _ _⟩
  | update items raises =>
    have hr : raises = false := ho
    subst hr
    exact ⟨rfl, rfl, coherent_clear _ _ _⟩
  | discard e => exact ⟨rfl, rfl, coherent_clear _ _ _⟩
  | remove e =>
    by_cases he : e ∈ s.entries
    · simp only [step, remove, if_pos he]
      exact ⟨rfl, rfl, coherent_clear _ _ _⟩
    · simp only [step, remove, if_neg he]
      exact ⟨(List.erase_of_not_mem he).symm, rfl, h⟩
  | pop =>
    obtain ⟨l, c⟩ := s
    cases l with
    | nil => exact ⟨rfl, rfl, h⟩
    | cons e l =>
      refine ⟨?_, rfl, coherent_clear _ _ _⟩
      simp [step, pop, Model.Entries.discard, specStep]
  | read v =>
    obtain ⟨h1, h2, h3⟩ := read_spec compute s v h
    exact ⟨h1, congrArg some h2, h3⟩

/-- **C37, provable part.** In every history of additions, updates with well-behaved iterables, discards, removals, pops and reads,
on any entry set whose cached values are current (in particular a new one), every read returns what is computed from the entries
then present. Missing: histories in which an `update` raises half-way, for which the claim is false (`C37_violated`). -/
theorem C37_current_partial (compute : View → List η → Except Err V) (os : List (Op η)) : ∀ s : ES η V, Coherent compute s →
    (∀ o ∈ os, Clean o) →
    (run compute s os).1.entries = (specRun compute s.entries os).1 ∧ (run compute s os).2 = (specRun compute s.entries os).2 ∧
    Coherent compute (run compute s os).1 := by
  induction os with
  | nil => intro s h _; exact ⟨rfl, rfl, h⟩
  | cons o os ih =>
    intro s h hc
    obtain ⟨h1, h2, h3⟩ := step_spec compute s o h (hc o (by simp))
    obtain ⟨i1, i2, i3⟩ := ih _ h3 fun o' ho' => hc o' (by simp [ho'])
    simp only [run, specRun]
    rw [h1] at i1 i2
    exact ⟨i1, by rw [h2, i2], i3⟩

/-- A new entry set starts with current views. -/
theorem C37_new (compute : View → List η → Except Err V) (l : List η) : Coherent compute (mk l : ES η V) := coherent_nil _ _

example := C37_current_partial (fun _ l => .ok l.length : View → List ℕ → Except Err ℕ)
  [.read .chemsys, .add 3, .read .chemsys, .discard 1, .pop, .update [5, 3] false, .read .chemsys] (mk [1, 2]) (C37_new _ _)
  (by intro o ho; fin_cases ho <;> simp [Clean])

/-- The list of entries itself as the only interesting view. -/
def lenView : View → List ℕ → Except Err ℕ := fun _ l => .ok l.length

example : run lenView (mk [1, 2]) [.read .chemsys, .add 3, .read .chemsys, .discard 1, .pop, .read .chemsys] =
    (⟨[3], [(.chemsys, 1)]⟩, [.ok 2, .ok 3, .ok 1]) := by rfl

/-- **C37 is violated**: an `update` whose iterable raises half-way has already added entries but leaves the old cached views. -/
theorem C37_violated : ∃ (os : List (Op ℕ)),
    (run lenView (mk [1]) os).2 ≠ (specRun lenView (mk (V := ℕ) [1]).entries os).2 :=
  ⟨[.read .entriesList, .update [2] true, .read .entriesList], by
    intro h
    have h' : ([.ok 1, .ok 1] : List (Except Err ℕ)) = [.ok 1, .ok 2] := h
    injection h' with _ h'; injection h' with h' _; injection h' with h'; exact absurd h' (by decide)⟩

end Cache

/-! ### C38 -/

section Min
variable {η φ : Type} [DecidableEq η] [DecidableEq φ]

/-- Specification: a ground state of formula `f`. -/
def Ground (form : η → φ) (epa : η → ℚ) (entries : List η) (f : φ) (e : η) : Prop :=
  e ∈ entries ∧ form e = f ∧ ∀ x ∈ entries, form x = f → epa e ≤ epa x

theorem lowest_spec (epa : η → ℚ) (l : List η) (hl : l ≠ []) : ∃ e, lowest epa l = .ok e ∧ e ∈ l ∧ ∀ x ∈ l, epa e ≤ epa x := by
  unfold lowest
  have hp := List.perm_insertionSort (fun a b => epa a ≤ epa b) l
  have : Std.Total (fun a b : η => epa a ≤ epa b) := ⟨fun _ _ => le_total _ _⟩
  have : IsTrans η (fun a b : η => epa a ≤ epa b) := ⟨fun _ _ _ => le_trans⟩
  have hs := List.pairwise_insertionSort (fun a b => epa a ≤ epa b) l
  cases h : l.insertionSort fun a b => epa a ≤ epa b with
  | nil => rw [h] at hp; exact absurd hp.nil_eq.symm hl
  | cons e r =>
    rw [h] at hp hs
    refine ⟨e, rfl, hp.subset (by simp), fun x hx => ?_⟩
    rcases List.mem_cons.mp (hp.symm.subset hx) with rfl | hx
    · exact le_rfl
    · exact (List.pairwise_cons.mp hs).1 x hx

theorem minFold (form : η → φ) (epa : η → ℚ) (entries : List η) (l : List η) : ∀ d : List (φ × η), (∀ x ∈ l, x ∈ entries) →
    (∀ f e, dictGet d f = some e → Ground form epa entries f e) →
    ∃ d', l.foldlM (minStep form epa entries) d = Except.ok d' ∧ (∀ f e, dictGet d' f = some e → Ground form epa entries f e) ∧
      ∀ f, (dictGet d' f).isSome ↔ (dictGet d f).isSome ∨ ∃ x ∈ l, form x = f := by
  induction l with
  | nil => intro d _ hd; exact ⟨d, rfl, hd, fun f => by simp⟩
  | cons a l ih =>
    intro d hl hd
    have hl' : ∀ x ∈ l, x ∈ entries := fun x hx => hl x (by simp [hx])
    cases hg : dictGet d (form a) with
    | some e =>
      obtain ⟨d', h1, h2, h3⟩ := ih d hl' hd
      refine ⟨d', ?_, h2, fun f => ?_⟩
      · rw [List.foldlM_cons, show minStep form epa entries d a = .ok d by unfold minStep; rw [hg]]; exact h1
      · rw [h3 f]
        constructor
        · rintro (h | ⟨x, hx, hf⟩)
          · exact Or.inl h
          · exact Or.inr ⟨x, by simp [hx], hf⟩
        · rintro (h | ⟨x, hx, hf⟩)
          · exact Or.inl h
          · rcases List.mem_cons.mp hx with rfl | hx
            · left; rw [← hf, hg]; rfl
            · exact Or.inr ⟨x, hx, hf⟩
    | none =>
      have ha : a ∈ entries := hl a (by simp)
      obtain ⟨e, he1, he2, he3⟩ := lowest_spec epa (entries.filter fun x => form x = form a)
        (List.ne_nil_of_mem (List.mem_filter.mpr ⟨ha, by simp⟩))
      have hG : Ground form epa entries (form a) e := by
        have := List.mem_filter.mp he2
        exact ⟨this.1, of_decide_eq_true this.2, fun x hx hf => he3 x (List.mem_filter.mpr ⟨hx, decide_eq_true hf⟩)⟩
      obtain ⟨d', h1, h2, h3⟩ := ih (dictSet d (form a) e) hl' fun f e' h => by
        rw [Dict.dictGet_dictSet] at h
        split_ifs at h with hf
        · cases h; subst hf; exact hG
        · exact hd f e' h
      refine ⟨d', ?_, h2, fun f => ?_⟩
      · rw [List.foldlM_cons, show minStep form epa entries d a = .ok (dictSet d (form a) e) by
          unfold minStep; rw [hg]; simp only [he1]; rfl]
        exact h1
      · rw [h3 f, Dict.dictGet_dictSet]
        constructor
        · rintro (h | ⟨x, hx, hf⟩)
          · split_ifs at h with hf
            · exact Or.inr ⟨a, by simp, hf⟩
            · exact Or.inl h
          · exact Or.inr ⟨x, by simp [hx], hf⟩
        · rintro (h | ⟨x, hx, hf⟩)
          · left; split_ifs <;> simp_all
          · rcases List.mem_cons.mp hx with rfl | hx
            · left; rw [if_pos hf]; rfl
            · exact Or.inr ⟨x, hx, hf⟩

/-- **C38.** The look-up returns a ground state of the formula if the set has an entry of that formula, and raises `KeyError`
otherwise; nothing else can happen. -/
theorem C38_ground (form : η → φ) (epa : η → ℚ) (entries : List η) (f : φ) :
    (∃ e, getMinEntry form epa entries f = .ok e ∧ Ground form epa entries f e) ∨
    (getMinEntry form epa entries f = .error .keyError ∧ ∀ x ∈ entries, form x ≠ f) := by
  obtain ⟨d, h1, h2, h3⟩ := minFold form epa entries entries [] (fun x hx => hx) (fun f e h => by simp [dictGet] at h)
  have hm : minEntries form epa entries = .ok d := h1
  unfold getMinEntry
  rw [hm]
  cases hg : dictGet d f with
  | some e => left; exact ⟨e, by simp [bind, Except.bind, hg], h2 f e hg⟩
  | none =>
    right
    refine ⟨by simp [bind, Except.bind, hg], fun x hx hf => ?_⟩
    have := (h3 f).mpr (Or.inr ⟨x, hx, hf⟩)
    rw [hg] at this; exact absurd this (by simp)

example := C38_ground (fun e : ℕ × ℚ => e.1) Prod.snd [(1, 3), (2, 0), (1, -1), (1, 2)] 1

/-- **C38**, as an equivalence for the failure. -/
theorem C38_keyError (form : η → φ) (epa : η → ℚ) (entries : List η) (f : φ) :
    getMinEntry form epa entries f = .error .keyError ↔ ∀ x ∈ entries, form x ≠ f := by
  rcases C38_ground form epa entries f with ⟨e, he, hg⟩ | ⟨he, hn⟩
  · rw [he]
    exact ⟨fun h => (nomatch h), fun h => absurd hg.2.1 (h e hg.1)⟩
  · exact ⟨fun _ => hn, fun _ => he⟩

example : getMinEntry (fun e : ℕ × ℚ => e.1) Prod.snd [(1, 3), (2, 0), (1, -1), (1, 2)] 1 = .ok (1, -1) := by rfl
example : getMinEntry (fun e : ℕ × ℚ => e.1) Prod.snd [(1, 3), (2, 0)] 5 = .error .keyError := by rfl

end Min

/-! ### C39 -/

section Stab
variable {η φ : Type} [DecidableEq η] [DecidableEq φ]

/-- Specification: some phase diagram contains the entry and puts it at most `cut` above its hull. -/
def Admissible (pds : List (PD η)) (cut : ℚ) (e : η) : Prop := ∃ pd ∈ pds, e ∈ pd.all ∧ pd.ehull e ≤ cut

/-- Loop invariant without polymorphs, after the entries satisfying `A` were seen. -/
structure Inv (form : η → φ) (epa : η → ℚ) (A : η → Prop) (s : FS η φ) : Prop where
  nodup : s.filtered.Nodup
  mem : ∀ e, e ∈ s.filtered ↔ dictGet s.comps (form e) = some e
  form_eq : ∀ f e, dictGet s.comps f = some e → form e = f
  adm : ∀ f e, dictGet s.comps f = some e → A e
  best : ∀ x, A x → ∃ e, dictGet s.comps (form x) = some e ∧ epa e ≤ epa x

theorem mem_insertE (l : List η) (e x : η) : x ∈ insertE l e ↔ x = e ∨ x ∈ l := by
  unfold insertE; split_ifs with h
  · exact ⟨Or.inr, fun h' => h'.elim (fun h'' => h'' ▸ h) id⟩
  · rw [List.mem_append, List.mem_singleton]; tauto

theorem nodup_insertE (l : List η) (e : η) (h : l.Nodup) : (insertE l e).Nodup := by
  unfold insertE; split_ifs with h'
  · exact h
  · exact List.Nodup.append h (List.nodup_singleton e) (by simpa using h')

theorem Inv.congr {form : η → φ} {epa : η → ℚ} {A B : η → Prop} {s : FS η φ} (h : Inv form epa A s) (hAB : ∀ e, A e ↔ B e) :
    Inv form epa B s :=
  ⟨h.nodup, h.mem, h.form_eq, fun f e hf => (hAB e).mp (h.adm f e hf), fun x hx => h.best x ((hAB x).mpr hx)⟩

theorem Inv.set {form : η → φ} {epa : η → ℚ} {A : η → Prop} {s : FS η φ} (h : Inv form epa A s) (e : η) (l : List η)
    (hl : l.Nodup) (hm : ∀ x, x ∈ l ↔ x = e ∨ (x ∈ s.filtered ∧ form x ≠ form e))
    (hb : ∀ old, dictGet s.comps (form e) = some old → epa e ≤ epa old) :
    Inv form epa (fun x => A x ∨ x = e) ⟨l, dictSet s.comps (form e) e⟩ := by
  refine ⟨hl, fun x => ?_, fun f x hx => ?_, fun f x hx => ?_, fun x hx => ?_⟩
  · rw [hm x, Dict.dictGet_dictSet, h.mem x]
    by_cases hf : form e = form x
    · rw [if_pos hf]
      constructor
      · rintro (rfl | ⟨_, hn⟩)
        · rfl
        · exact absurd hf.symm hn
      · intro he; cases he; exact Or.inl rfl
    · rw [if_neg hf]
      constructor
      · rintro (rfl | ⟨hg, _⟩)
        · exact absurd rfl hf
        · exact hg
      · intro hg; exact Or.inr ⟨hg, fun h' => hf h'.symm⟩
  · simp only [Dict.dictGet_dictSet] at hx
    split_ifs at hx with hf
    · cases hx; exact hf
    · exact h.form_eq f x hx
  · simp only [Dict.dictGet_dictSet] at hx
    split_ifs at hx with hf
    · cases hx; exact Or.inr rfl
    · exact Or.inl (h.adm f x hx)
  · simp only [Dict.dictGet_dictSet]
    by_cases hf : form e = form x
    · rw [if_pos hf]
      refine ⟨e, rfl, ?_⟩
      rcases hx with hx | rfl
      · obtain ⟨m, hm1, hm2⟩ := h.best x hx
        exact le_trans (hb m (by rw [hf]; exact hm1)) hm2
      · exact le_rfl
    · rw [if_neg hf]
      rcases hx with hx | rfl
      · exact h.best x hx
      · exact absurd rfl hf

theorem filterStep_inv (form : η → φ) (epa : η → ℚ) (cut : ℚ) (pd : PD η) (A : η → Prop) (s : FS η φ) (e : η)
    (h : Inv form epa A s) :
    ∃ s', filterStep form epa cut false pd s e = .ok s' ∧ Inv form epa (fun x => A x ∨ (x = e ∧ pd.ehull e ≤ cut)) s' := by
  unfold filterStep
  by_cases h0 : e ∈ s.filtered ∨ cut < pd.ehull e
  · rw [if_pos h0]
    refine ⟨s, rfl, h.congr fun x => ⟨Or.inl, ?_⟩⟩
    rintro (hx | ⟨rfl, hc⟩)
    · exact hx
    · rcases h0 with h0 | h0
      · exact h.adm _ _ ((h.mem x).mp h0)
      · exact absurd hc (not_le.mpr h0)
  · rw [if_neg h0]
    push Not at h0
    obtain ⟨hne, hc⟩ := h0
    have hA : ∀ x, (A x ∨ x = e) ↔ (A x ∨ (x = e ∧ pd.ehull e ≤ cut)) := fun x => by simp [hc]
    cases hg : dictGet s.comps (form e) with
    | none =>
      refine ⟨_, rfl, (h.set e (insertE s.filtered e) (nodup_insertE _ _ h.nodup) (fun x => ?_) ?_).congr hA⟩
      · rw [mem_insertE]
        constructor
        · rintro (hx | hx)
          · exact Or.inl hx
          · refine Or.inr ⟨hx, fun hf => ?_⟩
            have := (h.mem x).mp hx
            rw [hf, hg] at this; cases this
        · rintro (hx | hx)
          · exact Or.inl hx
          · exact Or.inr hx.1
      · intro old ho; rw [hg] at ho; cases ho
    | some old =>
      simp only
      by_cases hlt : epa old < epa e
      · rw [if_pos hlt]
        refine ⟨s, rfl, ⟨h.nodup, h.mem, h.form_eq, fun f x hx => Or.inl (h.adm f x hx), fun x hx => ?_⟩⟩
        rcases hx with hx | ⟨rfl, _⟩
        · exact h.best x hx
        · exact ⟨old, hg, hlt.le⟩
      · rw [if_neg hlt]
        have hof : form old = form e := h.form_eq _ _ hg
        have hom : old ∈ s.filtered := (h.mem old).mpr (by rw [hof]; exact hg)
        rw [if_pos hom]
        refine ⟨_, rfl, (h.set e (insertE (s.filtered.erase old) e) (nodup_insertE _ _ (h.nodup.erase _)) (fun x => ?_) ?_).congr hA⟩
        · rw [mem_insertE, h.nodup.mem_erase_iff]
          constructor
          · rintro (hx | ⟨hx, hx'⟩)
            · exact Or.inl hx
            · refine Or.inr ⟨hx', fun hf => hx ?_⟩
              have := (h.mem x).mp hx'
              rw [hf, hg] at this; cases this; rfl
          · rintro (hx | ⟨hx, hf⟩)
            · exact Or.inl hx
            · exact Or.inr ⟨fun he => hf (he ▸ hof), hx⟩
        · intro o ho; rw [hg] at ho; cases ho; exact not_lt.mp hlt

theorem filterPd_inv (form : η → φ) (epa : η → ℚ) (cut : ℚ) (pd : PD η) (l : List η) : ∀ (A : η → Prop) (s : FS η φ),
    Inv form epa A s → ∃ s', l.foldlM (filterStep form epa cut false pd) s = Except.ok s' ∧
      Inv form epa (fun x => A x ∨ (x ∈ l ∧ pd.ehull x ≤ cut)) s' := by
  induction l with
  | nil => intro A s h; exact ⟨s, rfl, h.congr fun x => by simp⟩
  | cons e l ih =>
    intro A s h
    obtain ⟨s1, h1, i1⟩ := filterStep_inv form epa cut pd A s e h
    obtain ⟨s2, h2, i2⟩ := ih _ s1 i1
    refine ⟨s2, by rw [List.foldlM_cons, h1]; exact h2, i2.congr fun x => ?_⟩
    simp only [List.mem_cons]
    constructor
    · rintro ((hx | ⟨rfl, hx⟩) | ⟨hx, hc⟩)
      · exact Or.inl hx
      · exact Or.inr ⟨Or.inl rfl, hx⟩
      · exact Or.inr ⟨Or.inr hx, hc⟩
    · rintro (hx | ⟨rfl | hx, hc⟩)
      · exact Or.inl (Or.inl hx)
      · exact Or.inl (Or.inr ⟨rfl, hc⟩)
      · exact Or.inr ⟨hx, hc⟩

theorem filterAll_inv (form : η → φ) (epa : η → ℚ) (cut : ℚ) (pds : List (PD η)) : ∀ (A : η → Prop) (s : FS η φ),
    Inv form epa A s → ∃ s', pds.foldlM (fun s pd => pd.all.foldlM (filterStep form epa cut false pd) s) s = Except.ok s' ∧
      Inv form epa (fun x => A x ∨ Admissible pds cut x) s' := by
  induction pds with
  | nil => intro A s h; exact ⟨s, rfl, h.congr fun x => by simp [Admissible]⟩
  | cons pd pds ih =>
    intro A s h
    obtain ⟨s1, h1, i1⟩ := filterPd_inv form epa cut pd pd.all A s h
    obtain ⟨s2, h2, i2⟩ := ih _ s1 i1
    refine ⟨s2, by rw [List.foldlM_cons, h1]; exact h2, i2.congr fun x => ?_⟩
    simp only [Admissible, List.mem_cons, exists_eq_or_imp]
    tauto

/-- **C39, without polymorphs.** The filter never fails; it returns admissible entries only, exactly one for each formula that has
an admissible entry, and that one has the lowest energy per atom among the admissible entries of the formula. -/
theorem C39_filter (form : η → φ) (epa : η → ℚ) (pds : List (PD η)) (cut : ℚ) :
    ∃ l, filterByStability form epa pds cut false = .ok l ∧ l.Nodup ∧
      (∀ e ∈ l, Admissible pds cut e ∧ ∀ x, Admissible pds cut x → form x = form e → epa e ≤ epa x) ∧
      (∀ x, Admissible pds cut x → ∃ e ∈ l, form e = form x) ∧
      (∀ e ∈ l, ∀ e' ∈ l, form e = form e' → e = e') := by
  obtain ⟨s, h1, h⟩ := filterAll_inv form epa cut pds (fun _ => False) (⟨[], []⟩ : FS η φ)
    ⟨List.nodup_nil, fun e => by simp [dictGet], fun f e h => by simp [dictGet] at h, fun f e h => by simp [dictGet] at h,
      fun x hx => hx.elim⟩
  refine ⟨s.filtered, by unfold filterByStability; rw [h1]; rfl, h.nodup, fun e he => ?_, fun x hx => ?_, fun e he e' he' hf => ?_⟩
  · have hg := (h.mem e).mp he
    refine ⟨(h.adm _ _ hg).resolve_left id, fun x hx hf => ?_⟩
    obtain ⟨m, hm, hle⟩ := h.best x (Or.inr hx)
    rw [hf, hg] at hm; cases hm; exact hle
  · obtain ⟨m, hm, _⟩ := h.best x (Or.inr hx)
    have hf := h.form_eq _ _ hm
    exact ⟨m, (h.mem m).mpr (by rw [hf]; exact hm), hf⟩
  · have h1 := (h.mem e).mp he
    have h2 := (h.mem e').mp he'
    rw [hf, h2] at h1; cases h1; rfl

/-- **C39, order independence.** If admissible entries of the same formula have different energies per atom, the returned set does
not depend on the order of phase diagrams or entries: any two presentations with the same admissible entries give the same set. -/
theorem C39_order (form : η → φ) (epa : η → ℚ) (pds pds' : List (PD η)) (cut : ℚ)
    (hsame : ∀ e, Admissible pds cut e ↔ Admissible pds' cut e)
    (hdist : ∀ e e', Admissible pds cut e → Admissible pds cut e' → form e = form e' → epa e = epa e' → e = e') (l l' : List η)
    (hl : filterByStability form epa pds cut false = .ok l) (hl' : filterByStability form epa pds' cut false = .ok l') :
    ∀ e, e ∈ l ↔ e ∈ l' := by
  have key : ∀ (p p' : List (PD η)) (m m' : List η), (∀ e, Admissible p cut e ↔ Admissible p' cut e) →
      (∀ e e', Admissible p cut e → Admissible p cut e' → form e = form e' → epa e = epa e' → e = e') →
      filterByStability form epa p cut false = .ok m → filterByStability form epa p' cut false = .ok m' → ∀ e ∈ m, e ∈ m' := by
    intro p p' m m' hs hd hm hm' e he
    obtain ⟨a, ha, -, ha1, ha2, -⟩ := C39_filter form epa p cut
    obtain ⟨b, hb, -, hb1, hb2, -⟩ := C39_filter form epa p' cut
    rw [hm] at ha; cases ha
    rw [hm'] at hb; cases hb
    obtain ⟨e1, e2⟩ := ha1 e he
    obtain ⟨x, hx, hf⟩ := hb2 e ((hs e).mp e1)
    obtain ⟨x1, x2⟩ := hb1 x hx
    have := hd e x e1 ((hs x).mpr x1) hf.symm (le_antisymm (e2 x ((hs x).mpr x1) hf) (x2 e ((hs e).mp e1) hf.symm))
    exact this ▸ hx
  intro e
  exact ⟨key pds pds' l l' hsame hdist hl hl' e, key pds' pds l' l (fun e => (hsame e).symm)
    (fun a b ha hb => hdist a b ((hsame a).mpr ha) ((hsame b).mpr hb)) hl' hl e⟩

theorem polyStep (form : η → φ) (epa : η → ℚ) (cut : ℚ) (pd : PD η) (s : FS η φ) (e : η) (h : s.filtered.Nodup) :
    ∃ s', filterStep form epa cut true pd s e = .ok s' ∧ s'.filtered.Nodup ∧
      ∀ x, x ∈ s'.filtered ↔ x ∈ s.filtered ∨ (x = e ∧ pd.ehull e ≤ cut) := by
  unfold filterStep
  by_cases h0 : e ∈ s.filtered ∨ cut < pd.ehull e
  · rw [if_pos h0]
    refine ⟨s, rfl, h, fun x => ⟨Or.inl, ?_⟩⟩
    rintro (hx | ⟨rfl, hc⟩)
    · exact hx
    · exact h0.resolve_right (not_lt.mpr hc)
  · rw [if_neg h0]
    push Not at h0
    refine ⟨_, rfl, nodup_insertE _ _ h, fun x => ?_⟩
    rw [mem_insertE]
    simp only [h0.2, and_true]
    tauto

theorem polyPd (form : η → φ) (epa : η → ℚ) (cut : ℚ) (pd : PD η) (l : List η) : ∀ s : FS η φ, s.filtered.Nodup →
    ∃ s', l.foldlM (filterStep form epa cut true pd) s = Except.ok s' ∧ s'.filtered.Nodup ∧
      ∀ x, x ∈ s'.filtered ↔ x ∈ s.filtered ∨ (x ∈ l ∧ pd.ehull x ≤ cut) := by
  induction l with
  | nil => intro s h; exact ⟨s, rfl, h, fun x => by simp⟩
  | cons e l ih =>
    intro s h
    obtain ⟨s1, h1, n1, m1⟩ := polyStep form epa cut pd s e h
    obtain ⟨s2, h2, n2, m2⟩ := ih s1 n1
    refine ⟨s2, by rw [List.foldlM_cons, h1]; exact h2, n2, fun x => ?_⟩
    rw [m2, m1, List.mem_cons]
    constructor
    · rintro ((hx | ⟨rfl, hx⟩) | ⟨hx, hc⟩)
      · exact Or.inl hx
      · exact Or.inr ⟨Or.inl rfl, hx⟩
      · exact Or.inr ⟨Or.inr hx, hc⟩
    · rintro (hx | ⟨rfl | hx, hc⟩)
      · exact Or.inl (Or.inl hx)
      · exact Or.inl (Or.inr ⟨rfl, hc⟩)
      · exact Or.inr ⟨hx, hc⟩

/-- **C39, with polymorphs**: exactly the admissible entries. -/
theorem C39_polymorphs (form : η → φ) (epa : η → ℚ) (pds : List (PD η)) (cut : ℚ) :
    ∃ l, filterByStability form epa pds cut true = .ok l ∧ l.Nodup ∧ ∀ e, e ∈ l ↔ Admissible pds cut e := by
  have key : ∀ (pds : List (PD η)) (s : FS η φ), s.filtered.Nodup →
      ∃ s', pds.foldlM (fun s pd => pd.all.foldlM (filterStep form epa cut true pd) s) s = Except.ok s' ∧ s'.filtered.Nodup ∧
        ∀ x, x ∈ s'.filtered ↔ x ∈ s.filtered ∨ Admissible pds cut x := by
    intro pds
    induction pds with
    | nil => intro s h; exact ⟨s, rfl, h, fun x => by simp [Admissible]⟩
    | cons pd pds ih =>
      intro s h
      obtain ⟨s1, h1, n1, m1⟩ := polyPd form epa cut pd pd.all s h
      obtain ⟨s2, h2, n2, m2⟩ := ih s1 n1
      refine ⟨s2, by rw [List.foldlM_cons, h1]; exact h2, n2, fun x => ?_⟩
      rw [m2, m1]
      simp only [Admissible, List.mem_cons, exists_eq_or_imp]
      tauto
  obtain ⟨s, h1, h2, h3⟩ := key pds ⟨[], []⟩ List.nodup_nil
  exact ⟨s.filtered, by unfold filterByStability; rw [h1]; rfl, h2, fun e => by rw [h3]; simp⟩

/-- Two diagrams sharing an entry: formula 1 has three polymorphs, two of them admissible. -/
def exPds : List (PD (ℕ × ℚ)) := [⟨[(1, 3), (1, 1), (2, 0)], Prod.snd⟩, ⟨[(1, 1), (1, 2), (3, 9)], Prod.snd⟩]

example : filterByStability Prod.fst Prod.snd exPds 2 false = .ok [(1, 1), (2, 0)] := by rfl
example : filterByStability Prod.fst Prod.snd exPds 2 true = .ok [(1, 1), (2, 0), (1, 2)] := by rfl
example : Admissible exPds 2 (1, 2) ∧ ¬ Admissible exPds 2 (3, 9) := by
  simp only [Admissible, exPds, List.mem_cons, List.not_mem_nil, or_false, exists_eq_or_imp, exists_eq_left]
  decide +kernel

end Stab

/-! ### C40 -/

section Sub
variable {η ε : Type} [DecidableEq η] [DecidableEq ε]

/-- **C40.** If every requested element occurs in some entry, the subset consists of exactly the entries whose elements are all
requested; otherwise the request is rejected. -/
theorem C40_subset (elems : η → List ε) (entries : List η) (chemSys : List ε) :
    ((∀ x ∈ chemSys, ∃ e ∈ entries, x ∈ elems e) → ∃ l, subsetInChemsys elems entries chemSys = .ok l ∧
      ∀ e, e ∈ l ↔ e ∈ entries ∧ ∀ x ∈ elems e, x ∈ chemSys) ∧
    ((∃ x ∈ chemSys, ∀ e ∈ entries, x ∉ elems e) → subsetInChemsys elems entries chemSys = .error .valueError) := by
  have hc : ∀ x, x ∈ chemsys elems entries ↔ ∃ e ∈ entries, x ∈ elems e := fun x => by
    unfold chemsys; rw [List.mem_dedup, List.mem_flatMap]
  constructor
  · intro h
    refine ⟨entries.filter fun e => (elems e).all fun x => x ∈ chemSys, ?_, fun e => ?_⟩
    · unfold subsetInChemsys
      rw [if_pos (List.all_eq_true.mpr fun x hx => decide_eq_true ((hc x).mpr (h x hx)))]
    · rw [List.mem_filter, List.all_eq_true]
      exact and_congr_right fun _ => forall₂_congr fun _ _ => decide_eq_true_iff
  · rintro ⟨x, hx, hn⟩
    unfold subsetInChemsys
    rw [if_neg]
    intro h
    obtain ⟨e, he, hxe⟩ := (hc x).mp (of_decide_eq_true (List.all_eq_true.mp h x hx))
    exact hn e he hxe

example := (C40_subset id [[1, 2], [1], [2, 3], [3]] [1, 2]).1 (by decide)
example := (C40_subset id [[1, 2], [1], [2, 3], [3]] [1, 4]).2 (by decide)

/-- A chemical system given as a string `"A-B-C"` means its list of symbols. -/
theorem C40_string (elems : η → List Enum.Sym) (entries : List η) (syms : List Enum.Sym) (hne : syms ≠ [])
    (hd : ∀ s ∈ syms, '-' ∉ s) : subsetInChemsysStr elems entries ((['-'] : List Char).intercalate syms) = subsetInChemsys elems entries syms := by
  unfold subsetInChemsysStr
  rw [List.splitOn_intercalate '-' hd hne]

example : subsetInChemsysStr id [["Li".toList, "O".toList], ["Fe".toList]] "O-Li".toList = .ok [["Li".toList, "O".toList]] := by
  decide +kernel
-- the empty string is not the empty system
example : subsetInChemsysStr id [["Li".toList, "O".toList], ["Fe".toList]] "".toList = .error .valueError := by decide +kernel

example : subsetInChemsys id [[1, 2], [1], [2, 3], [3]] [1, 2] = .ok [[1, 2], [1]] := by rfl
example : subsetInChemsys id [[1, 2], [1], [2, 3], [3]] [1, 4] = .error .valueError := by rfl

end Sub

end Verif.Props.EntrySet
