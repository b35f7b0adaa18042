import Verif.Model.MetaDomains
import Verif.Props.Thermo

/-! Property C150: the dictionary of metastable domains of a chemical potential diagram. -/

namespace Verif.Props.MetaDomains
open Verif.Py Verif.Model Verif.Model.Thermo Verif.Props.Thermo Verif.Lemmas

set_option linter.unusedSectionVars false

section
variable {η φ Dom : Type} [DecidableEq η] [DecidableEq φ]

theorem dictSet_fresh (d : List (φ × Dom)) (g : φ) (dom : Dom) (h : g ∉ d.map Prod.fst) : dictSet d g dom = d ++ [(g, dom)] := by
  induction d with
  | nil => rfl
  | cons p d ih =>
    obtain ⟨k, v⟩ := p
    simp only [List.map_cons, List.mem_cons, not_or] at h
    simp only [dictSet, if_neg (fun e : k = g => h.1 e.symm), ih h.2, List.cons_append]

theorem loop_keys (X : Ext η φ Dom) (domains : φ → Option Dom) (fs : List φ) : ∀ (s s' : CPD η φ Dom) (d r : List (φ × Dom)),
    (d.map Prod.fst).Nodup → metaLoop X domains s d fs = (s', .ok r) → (r.map Prod.fst).Nodup ∧
      ∀ f, f ∈ r.map Prod.fst ↔ f ∈ d.map Prod.fst ∨ (f ∈ fs ∧ domains f = none) := by
  induction fs with
  | nil => intro s s' d r hd h; simp only [metaLoop, Prod.mk.injEq, Except.ok.injEq] at h; obtain ⟨-, rfl⟩ := h; exact ⟨hd, by simp⟩
  | cons g fs ih =>
    intro s s' d r hd h
    unfold metaLoop at h
    cases hg : domains g with
    | some v =>
      rw [hg] at h
      obtain ⟨a, b⟩ := ih _ _ _ _ hd h
      refine ⟨a, fun f => ?_⟩
      rw [b f, List.mem_cons]
      constructor
      · rintro (h1 | ⟨h1, h2⟩)
        · exact Or.inl h1
        · exact Or.inr ⟨Or.inr h1, h2⟩
      · rintro (h1 | ⟨rfl | h1, h2⟩)
        · exact Or.inl h1
        · rw [hg] at h2; simp at h2
        · exact Or.inr ⟨h1, h2⟩
    | none =>
      rw [hg] at h
      rcases hm : metastable X s g with ⟨s1, res⟩
      rw [hm] at h
      cases res with
      | error x => simp at h
      | ok dom =>
        obtain ⟨a, b⟩ := ih _ _ _ _ (Dict.nodup_dictSet d g dom hd) h
        refine ⟨a, fun f => ?_⟩
        rw [b f, Dict.mem_keys_dictSet, List.mem_cons]
        constructor
        · rintro ((rfl | h1) | ⟨h1, h2⟩)
          · exact Or.inr ⟨Or.inl rfl, hg⟩
          · exact Or.inl h1
          · exact Or.inr ⟨Or.inr h1, h2⟩
        · rintro (h1 | ⟨rfl | h1, h2⟩)
          · exact Or.inl (Or.inr h1)
          · exact Or.inl (Or.inl rfl)
          · exact Or.inr ⟨h1, h2⟩

/-- **C150, the formulas listed.** Whatever the diagram was asked before and whatever the queries do: if the dictionary is returned at
all, it lists, each once, exactly the ground-state formulas that have no stable domain. So every ground-state formula is in exactly
one of `domains` and `metastable_domains`. -/
theorem C150_keys (X : Ext η φ Dom) (domains : φ → Option Dom) (mins : List φ) (s s' : CPD η φ Dom) (r : List (φ × Dom))
    (h : metastableDomains X domains mins s = (s', .ok r)) :
    (r.map Prod.fst).Nodup ∧ ∀ f, f ∈ r.map Prod.fst ↔ f ∈ mins ∧ domains f = none := by
  obtain ⟨a, b⟩ := loop_keys X domains mins s s' [] r (by simp) h
  exact ⟨a, fun f => by rw [b f]; simp⟩

/-- The entries are as at the start, and every cached domain is the one a fresh diagram gives. -/
def Clean (X : Ext η φ Dom) (entries : List η) (s : CPD η φ Dom) : Prop :=
  s.entries = entries ∧ ∀ f dom, dictGet s.cache f = some dom → answer X entries f = .ok dom

theorem clean_step (X : Ext η φ Dom) (entries : List η) (s : CPD η φ Dom) (f : φ) (hs : Clean X entries s) (hg : Good X entries f) :
    (metastable X s f).2 = answer X entries f ∧ Clean X entries (metastable X s f).1 := by
  obtain ⟨he, hc⟩ := hs
  cases hd : dictGet s.cache f with
  | some dom =>
    have hm : metastable X s f = (s, .ok dom) := by unfold metastable; rw [hd]
    rw [hm]
    exact ⟨(hc f dom hd).symm, he, hc⟩
  | none =>
    obtain ⟨a, b, c⟩ := metastable_good X s f hd (by rw [he]; exact hg)
    rw [he] at a b c
    refine ⟨a, b, fun g dom hgd => ?_⟩
    rcases c with c | ⟨dom', hd', c⟩
    · rw [c] at hgd; exact hc g dom hgd
    · rw [c, Dict.dictGet_dictSet] at hgd
      split_ifs at hgd with hfg
      · subst hfg; cases hgd; exact hd'
      · exact hc g dom hgd

/-- A diagram that has just been built is clean, and harmless queries keep it so. -/
theorem clean_queries (X : Ext η φ Dom) (entries : List η) (fs : List φ) (hg : ∀ f ∈ fs, Good X entries f) :
    ∀ s, Clean X entries s → Clean X entries (queries X s fs).1 := by
  induction fs with
  | nil => exact fun s h => h
  | cons f fs ih => exact fun s h => ih (fun g hm => hg g (by simp [hm])) _ (clean_step X entries s f h (hg f (by simp))).2

/-- Specification of the dictionary, with no mutable state: the answers of fresh diagrams, one for each formula without a stable
domain; the first that fails is the result. -/
def wanted (X : Ext η φ Dom) (entries : List η) (domains : φ → Option Dom) (mins : List φ) : Except Err (List (φ × Dom)) :=
  (mins.filter fun f => (domains f).isNone).mapM fun f => (answer X entries f).map fun dom => (f, dom)

theorem loop_clean (X : Ext η φ Dom) (entries : List η) (domains : φ → Option Dom) (fs : List φ) : ∀ (s : CPD η φ Dom) (d : List (φ × Dom)),
    Clean X entries s → (∀ f ∈ fs, domains f = none → Good X entries f) → fs.Nodup → (∀ f ∈ fs, f ∉ d.map Prod.fst) →
    Clean X entries (metaLoop X domains s d fs).1 ∧ (metaLoop X domains s d fs).2 = (wanted X entries domains fs).map (d ++ ·) := by
  induction fs with
  | nil => intro s d hs _ _ _; exact ⟨hs, by simp [metaLoop, wanted, Except.map, pure, Except.pure]⟩
  | cons g fs ih =>
    intro s d hs hg hn hd
    obtain ⟨hgn, hn⟩ := List.nodup_cons.mp hn
    unfold metaLoop
    cases hdom : domains g with
    | some v =>
      obtain ⟨a, b⟩ := ih s d hs (fun f hf => hg f (by simp [hf])) hn (fun f hf => hd f (by simp [hf]))
      refine ⟨a, ?_⟩
      simp only [b, wanted, List.filter_cons, hdom]
      rfl
    | none =>
      obtain ⟨a, b⟩ := clean_step X entries s g hs (hg g (by simp) hdom)
      have hw : wanted X entries domains (g :: fs) = (answer X entries g).bind fun dom =>
          (wanted X entries domains fs).map fun l => (g, dom) :: l := by
        simp only [wanted, List.filter_cons, hdom, Option.isNone_none, if_true, List.mapM_cons]
        cases answer X entries g with
        | error x => rfl
        | ok dom =>
          simp only [Except.map, bind, Except.bind]
          cases (List.filter (fun f => (domains f).isNone) fs).mapM fun f => (answer X entries f).map fun dom => (f, dom) <;> rfl
      rw [hw, ← a]
      rcases hm : metastable X s g with ⟨s1, res⟩
      rw [hm] at b
      cases res with
      | error x => exact ⟨b, rfl⟩
      | ok dom =>
        have hset : dictSet d g dom = d ++ [(g, dom)] := dictSet_fresh d g dom (hd g (by simp))
        simp only
        obtain ⟨a', b'⟩ := ih s1 (dictSet d g dom) b (fun f hf => hg f (by simp [hf])) hn (by
          intro f hf hm
          rcases (Dict.mem_keys_dictSet d g f dom).mp hm with rfl | hm
          · exact hgn hf
          · exact hd f (by simp [hf]) hm)
        refine ⟨a', ?_⟩
        rw [b', hset]
        simp only [Except.bind]
        cases wanted X entries domains fs with
        | error x => rfl
        | ok l => simp [Except.map]

/-- **C150, provable part.** On a diagram that so far has only had harmless queries, with distinct ground-state formulas and only harmless
queries to make: the dictionary is, in the order of the ground states, what a fresh diagram answers for each formula without a stable
domain; if one of those answers is an error, the whole access raises the first such error. Either way the entries are unchanged.
Missing: queries that leave their stabilized entry behind or delete an entry (see C45); for those the claim is false
(`C150_poisoned_violated`). -/
theorem C150_answers_partial (X : Ext η φ Dom) (entries : List η) (domains : φ → Option Dom) (mins : List φ) (earlier : List φ)
    (hn : mins.Nodup) (hg : ∀ f ∈ mins, domains f = none → Good X entries f) (he : ∀ f ∈ earlier, Good X entries f) :
    (metastableDomains X domains mins (queries X ⟨entries, []⟩ earlier).1).2 = wanted X entries domains mins ∧
    (metastableDomains X domains mins (queries X ⟨entries, []⟩ earlier).1).1.entries = entries := by
  have hc : Clean X entries ⟨entries, []⟩ := ⟨rfl, fun f dom h => by simp [dictGet] at h⟩
  obtain ⟨a, b⟩ := loop_clean X entries domains mins _ [] (clean_queries X entries earlier he _ hc) hg hn (by simp)
  refine ⟨?_, a.1⟩
  unfold metastableDomains
  rw [b]
  cases wanted X entries domains mins <;> simp [Except.map]

/-- **C150, one source of truth (provable part).** Under the same conditions, the domain that a later distance query uses for a phase is
the one listed for it in the dictionary, and asking for the dictionary again gives the same dictionary. -/
theorem C150_agrees_partial (X : Ext η φ Dom) (entries : List η) (domains : φ → Option Dom) (mins : List φ) (s s' : CPD η φ Dom)
    (r : List (φ × Dom)) (hs : Clean X entries s) (hn : mins.Nodup) (hg : ∀ f ∈ mins, domains f = none → Good X entries f)
    (h : metastableDomains X domains mins s = (s', .ok r)) :
    (∀ f dom, (f, dom) ∈ r → (pointsOf X domains s' f).2 = .ok dom) ∧ (metastableDomains X domains mins s').2 = .ok r := by
  obtain ⟨a, b⟩ := loop_clean X entries domains mins s [] hs hg hn (by simp)
  have h' : metaLoop X domains s [] mins = (s', .ok r) := h
  rw [h'] at a b
  simp only at a b
  obtain ⟨a2, b2⟩ := loop_clean X entries domains mins s' [] a hg hn (by simp)
  have hw : wanted X entries domains mins = .ok r := by
    cases hw : wanted X entries domains mins with
    | error x => rw [hw] at b; simp [Except.map] at b
    | ok l => rw [hw] at b; simp [Except.map] at b; rw [b]
  refine ⟨fun f dom hf => ?_, by unfold metastableDomains; rw [b2, hw]; simp [Except.map]⟩
  obtain ⟨hk1, hk2⟩ := C150_keys X domains mins s s' r h
  obtain ⟨hfm, hfn⟩ := (hk2 f).mp (List.mem_map.mpr ⟨_, hf, rfl⟩)
  have hans : answer X entries f = .ok dom := by
    unfold wanted at hw
    obtain ⟨g, hg1, hg2⟩ := Exc.mapM_mem _ _ _ hw _ hf
    cases hga : answer X entries g with
    | error x => rw [hga] at hg2; simp [Except.map] at hg2
    | ok dom' =>
      rw [hga] at hg2
      simp only [Except.map, Except.ok.injEq, Prod.mk.injEq] at hg2
      obtain ⟨rfl, rfl⟩ := hg2
      exact hga
  unfold pointsOf
  rw [hfn]
  simp only
  rw [(clean_step X entries s' f a (hg f hfm hfn)).1, hans]

/-- **C150 is violated** by one phase whose domain cannot be made: two phases are metastable, a fresh diagram answers for the second, but
the access raises, and afterwards the second phase gets a different domain, because the first one's stabilized entry stays behind. -/
theorem C150_poisoned_violated : ∃ (X : Ext ℤ ℕ ℤ) (entries : List ℤ) (mins : List ℕ) (g : ℕ) (dom : ℤ), g ∈ mins ∧
    answer X entries g = .ok dom ∧ (metastableDomains X (fun _ => none) mins ⟨entries, []⟩).2 = .error .valueError ∧
    (metastableDomains X (fun _ => none) mins ⟨entries, []⟩).1.entries ≠ entries ∧
    (metastable X (metastableDomains X (fun _ => none) mins ⟨entries, []⟩).1 g).2 ≠ .ok dom :=
  ⟨toyX (fun f => f = 2) true, [15, 23], [1, 2], 2, 60, by decide, by decide +kernel, by decide +kernel, by decide +kernel, by decide +kernel⟩

end

/-- Two metastable phases and a stable one (formula 3). -/
example : metastableDomains (toyX (fun _ => true) true) (fun f => if f = 3 then some 7 else none) [1, 3, 2] ⟨[15, 23, 30], []⟩ =
    (⟨[15, 23, 30], [(1, 82), (2, 90)]⟩, .ok [(1, 82), (2, 90)]) := by decide +kernel

example : ([1, 3, 2] : List ℕ).Nodup ∧ ∀ f ∈ ([1, 3, 2] : List ℕ), (if f = 3 then some (7 : ℤ) else none) = none →
    Good (toyX (fun _ => true) true) [15, 23, 30] f := by
  refine ⟨by decide, fun f hf h => ?_⟩
  simp only [List.mem_cons, List.not_mem_nil, or_false] at hf
  rcases hf with rfl | rfl | rfl
  · exact Or.inr ⟨15, rfl, Or.inr ⟨14, _, rfl, by decide, rfl, Or.inl ⟨_, rfl⟩⟩⟩
  · simp at h
  · exact Or.inr ⟨23, rfl, Or.inr ⟨22, _, rfl, by decide, rfl, Or.inl ⟨_, rfl⟩⟩⟩

end Verif.Props.MetaDomains
