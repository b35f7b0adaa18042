import Verif.Model.Thermo
import Verif.Lemmas.Dict
import Verif.Lemmas.Except
import Mathlib.Data.List.Perm.Subperm
import Mathlib.Tactic.Linarith

/-! Properties C44-C46: division into phase diagrams, chemical potential queries, domain distances. -/

namespace Verif.Props.Thermo
open Verif.Py Verif.Model Verif.Model.Entries Verif.Model.Thermo Verif.Lemmas

set_option linter.unusedSectionVars false

/-! ### C44 -/

section Expand
variable {η β : Type}

/-- Chemical symbols: every entry has at least one element, elements are listed once, symbols contain no dash. -/
structure Symbols (elems : η → List Enum.Sym) : Prop where
  ne : ∀ x, elems x ≠ []
  nodup : ∀ x, (elems x).Nodup
  dash : ∀ x, ∀ s ∈ elems x, '-' ∉ s

theorem mem_split (elems : η → List Enum.Sym) (h : Symbols elems) (e : η) (s : Enum.Sym) :
    s ∈ (key elems e).splitOn '-' ↔ s ∈ elems e := by
  have hp := List.perm_insertionSort (· ≤ ·) (elems e)
  unfold key
  rw [List.splitOn_intercalate]
  · exact hp.mem_iff
  · intro l hl; exact h.dash e l (hp.subset hl)
  · intro h0; rw [h0] at hp; exact h.ne e hp.nil_eq.symm

theorem covers_iff (elems : η → List Enum.Sym) (h : Symbols elems) (e : η) (k : List Char) :
    covers elems e k = true ↔ ∀ s ∈ elems e, s ∈ k.splitOn '-' := by
  unfold covers
  rw [List.all_eq_true]
  constructor
  · intro hc s hs; exact of_decide_eq_true (hc s ((mem_split elems h e s).mpr hs))
  · intro hc s hs; exact decide_eq_true (hc s ((mem_split elems h e s).mp hs))

/-- Specification: the elements of a diagram are those named in its key. -/
def system (k : List Char) : List Enum.Sym := k.splitOn '-'

/-- The entries whose elements all belong to `e`, in their order. -/
def inside (elems : η → List Enum.Sym) (entries : List η) (e : η) : List η :=
  entries.filter fun x => (elems x).all fun s => s ∈ elems e

theorem mem_inside (elems : η → List Enum.Sym) (entries : List η) (e x : η) :
    x ∈ inside elems entries e ↔ x ∈ entries ∧ ∀ s ∈ elems x, s ∈ elems e := by
  unfold inside
  rw [List.mem_filter, List.all_eq_true]
  exact and_congr_right fun _ => forall₂_congr fun _ _ => decide_eq_true_iff

/-- Loop invariant after the entries in `seen`. -/
structure EInv (elems : η → List Enum.Sym) (build : List η → Except Err β) (entries seen : List η) (d : List (List Char × β)) : Prop where
  src : ∀ p ∈ d, ∃ e ∈ seen, p.1 = key elems e ∧ build (inside elems entries e) = .ok p.2
  cover : ∀ e ∈ seen, ∃ p ∈ d, ∀ s ∈ elems e, s ∈ system p.1
  anti : d.Pairwise fun p q => (∃ s ∈ system p.1, s ∉ system q.1) ∧ ∃ s ∈ system q.1, s ∉ system p.1

theorem dictSet_new {κ α : Type} [DecidableEq κ] (d : List (κ × α)) (k : κ) (v : α) (h : k ∉ d.map Prod.fst) :
    dictSet d k v = d ++ [(k, v)] := by
  induction d with
  | nil => rfl
  | cons p d ih =>
    obtain ⟨k', v'⟩ := p
    simp only [List.map_cons, List.mem_cons, not_or] at h
    rw [dictSet, if_neg (fun h' => h.1 h'.symm), ih h.2]; rfl

theorem expandStep_inv (elems : η → List Enum.Sym) (hsym : Symbols elems) (build : List η → Except Err β) (entries seen : List η)
    (d d' : List (List Char × β)) (e : η) (h : EInv elems build entries seen d)
    (hlen : ∀ x ∈ seen, (elems e).length ≤ (elems x).length) (hd : expandStep elems build entries d e = .ok d') :
    EInv elems build entries (seen ++ [e]) d' := by
  unfold expandStep at hd
  by_cases hc : d.any fun p => covers elems e p.1
  · rw [if_pos hc] at hd; cases hd
    obtain ⟨p, hp, hpc⟩ := List.any_eq_true.mp hc
    refine ⟨fun q hq => ?_, fun x hx => ?_, h.anti⟩
    · obtain ⟨x, hx, r⟩ := h.src q hq; exact ⟨x, by simp [hx], r⟩
    · rcases List.mem_append.mp hx with hx | hx
      · exact h.cover x hx
      · rw [List.mem_singleton] at hx; subst hx
        exact ⟨p, hp, (covers_iff elems hsym x p.1).mp hpc⟩
  · rw [if_neg hc] at hd
    have hno : ∀ p ∈ d, ∃ s ∈ elems e, s ∉ system p.1 := by
      intro p hp
      by_contra hcon; push Not at hcon
      exact hc (List.any_eq_true.mpr ⟨p, hp, (covers_iff elems hsym e p.1).mpr hcon⟩)
    cases hb : build (entries.filter fun x => (elems x).all fun s => s ∈ elems e) with
    | error x => rw [hb] at hd; simp [bind, Except.bind] at hd
    | ok pd =>
      rw [hb] at hd
      simp only [bind, Except.bind, pure, Except.pure, Except.ok.injEq] at hd
      have hnew : key elems e ∉ d.map Prod.fst := by
        intro hk
        obtain ⟨p, hp, hpk⟩ := List.mem_map.mp hk
        obtain ⟨s, hs, hs'⟩ := hno p hp
        exact hs' (by unfold system; rw [hpk]; exact (mem_split elems hsym e s).mpr hs)
      rw [dictSet_new _ _ _ hnew] at hd
      subst hd
      refine ⟨fun q hq => ?_, fun x hx => ?_, ?_⟩
      · rcases List.mem_append.mp hq with hq | hq
        · obtain ⟨x, hx, r⟩ := h.src q hq; exact ⟨x, by simp [hx], r⟩
        · rw [List.mem_singleton] at hq; subst hq
          exact ⟨e, by simp, rfl, hb⟩
      · rcases List.mem_append.mp hx with hx | hx
        · obtain ⟨p, hp, r⟩ := h.cover x hx; exact ⟨p, by simp [hp], r⟩
        · rw [List.mem_singleton] at hx; subst hx
          exact ⟨_, List.mem_append_right _ (List.mem_singleton.mpr rfl), fun s hs => (mem_split elems hsym x s).mpr hs⟩
      · rw [List.pairwise_append]
        refine ⟨h.anti, List.pairwise_singleton _ _, fun p hp q hq => ?_⟩
        rw [List.mem_singleton] at hq; subst hq
        obtain ⟨s, hs, hs'⟩ := hno p hp
        refine ⟨?_, s, (mem_split elems hsym e s).mpr hs, hs'⟩
        by_contra hcon; push Not at hcon
        obtain ⟨x, hx, hk, -⟩ := h.src p hp
        have hsub : elems x ⊆ elems e := fun t ht =>
          (mem_split elems hsym e t).mp (hcon t (by unfold system; rw [hk]; exact (mem_split elems hsym x t).mpr ht))
        have hperm : (elems x).Perm (elems e) :=
          (List.subperm_of_subset (hsym.nodup x) hsub).perm_of_length_le (hlen x hx)
        exact hs' (by unfold system; rw [hk]; exact (mem_split elems hsym x s).mpr (hperm.symm.subset hs))

theorem expandFold (elems : η → List Enum.Sym) (hsym : Symbols elems) (build : List η → Except Err β) (entries : List η) (l : List η) :
    ∀ (seen : List η) (d d' : List (List Char × β)), EInv elems build entries seen d →
    (∀ x ∈ seen, ∀ e ∈ l, (elems e).length ≤ (elems x).length) → l.Pairwise (fun a b => (elems b).length ≤ (elems a).length) →
    l.foldlM (expandStep elems build entries) d = Except.ok d' → EInv elems build entries (seen ++ l) d' := by
  induction l with
  | nil => intro seen d d' h _ _ hd; cases hd; rw [List.append_nil]; exact h
  | cons e l ih =>
    intro seen d d' h hlen hp hd
    rw [List.foldlM_cons] at hd
    cases h1 : expandStep elems build entries d e with
    | error x => rw [h1] at hd; simp [bind, Except.bind] at hd
    | ok d1 =>
      rw [h1] at hd
      have i1 := expandStep_inv elems hsym build entries seen d d1 e h (fun x hx => hlen x hx e (by simp)) h1
      have := ih (seen ++ [e]) d1 d' i1 (fun x hx y hy => ?_) (List.pairwise_cons.mp hp).2 hd
      · rwa [List.append_assoc] at this
      · rcases List.mem_append.mp hx with hx | hx
        · exact hlen x hx y (by simp [hy])
        · rw [List.mem_singleton] at hx; subst hx
          exact (List.pairwise_cons.mp hp).1 y hy

theorem expand_inv (elems : η → List Enum.Sym) (hsym : Symbols elems) (build : List η → Except Err β) (entries : List η)
    (d : List (List Char × β)) (hd : expandPd elems build entries = .ok d) :
    EInv elems build entries (entries.insertionSort fun a b => (elems b).length ≤ (elems a).length) d := by
  have : Std.Total (fun a b : η => (elems b).length ≤ (elems a).length) := ⟨fun _ _ => le_total _ _⟩
  have : IsTrans η (fun a b : η => (elems b).length ≤ (elems a).length) := ⟨fun _ _ _ h1 h2 => le_trans h2 h1⟩
  have hs := List.pairwise_insertionSort (fun a b => (elems b).length ≤ (elems a).length) entries
  have h := expandFold elems hsym build entries _ [] [] d ⟨by simp, by simp, List.Pairwise.nil⟩ (by simp) hs hd
  rwa [List.nil_append] at h

/-- **C44.** Whenever the division succeeds: every entry's elements lie inside some diagram's system; no diagram's system is
contained in another's; and each diagram was built from exactly the entries inside its system. -/
theorem C44_expand (elems : η → List Enum.Sym) (hsym : Symbols elems) (build : List η → Except Err β) (entries : List η)
    (d : List (List Char × β)) (hd : expandPd elems build entries = .ok d) :
    (∀ e ∈ entries, ∃ p ∈ d, ∀ s ∈ elems e, s ∈ system p.1) ∧
    (d.Pairwise fun p q => (∃ s ∈ system p.1, s ∉ system q.1) ∧ ∃ s ∈ system q.1, s ∉ system p.1) ∧
    (∀ p ∈ d, ∃ sub, build sub = .ok p.2 ∧ ∀ x, x ∈ sub ↔ x ∈ entries ∧ ∀ s ∈ elems x, s ∈ system p.1) := by
  have hperm := List.perm_insertionSort (fun a b => (elems b).length ≤ (elems a).length) entries
  have h := expand_inv elems hsym build entries d hd
  refine ⟨fun e he => h.cover e (hperm.symm.subset he), h.anti, fun p hp => ?_⟩
  obtain ⟨e, -, hk, hb⟩ := h.src p hp
  refine ⟨_, hb, fun x => ?_⟩
  rw [mem_inside]
  refine and_congr_right fun _ => forall₂_congr fun s _ => ?_
  unfold system; rw [hk]; exact (mem_split elems hsym e s).symm

/-- **C44, failure**: the division fails only when the construction of the phase diagram of some entry's system
fails, with that error. -/
theorem C44_error (elems : η → List Enum.Sym) (build : List η → Except Err β) (entries : List η) (x : Err)
    (h : expandPd elems build entries = .error x) :
    ∃ e ∈ entries, build (inside elems entries e) = .error x := by
  unfold expandPd at h
  have hsub : ∀ e ∈ entries.insertionSort (fun a b => (elems b).length ≤ (elems a).length), e ∈ entries :=
    fun e he => (List.perm_insertionSort _ entries).subset he
  generalize entries.insertionSort (fun a b => (elems b).length ≤ (elems a).length) = l at h hsub
  suffices ∀ (l : List η) (d : List (List Char × β)), (∀ e ∈ l, e ∈ entries) →
      l.foldlM (expandStep elems build entries) d = Except.error x → ∃ e ∈ entries, build (inside elems entries e) = .error x from
    this l [] hsub h
  intro l
  induction l with
  | nil => intro d _ h; cases h
  | cons e l ih =>
    intro d hsub h
    rw [List.foldlM_cons] at h
    cases h1 : expandStep elems build entries d e with
    | ok d1 => rw [h1] at h; exact ih d1 (fun e he => hsub e (List.mem_cons_of_mem _ he)) h
    | error y =>
      rw [h1] at h
      simp only [bind, Except.bind, Except.error.injEq] at h
      subst h
      unfold expandStep at h1
      split_ifs at h1
      cases hb : build (entries.filter fun x => (elems x).all fun s => s ∈ elems e) with
      | ok pd => rw [hb] at h1; simp [bind, Except.bind, pure, Except.pure] at h1
      | error z => rw [hb] at h1; simp only [bind, Except.bind, Except.error.injEq] at h1; subst h1; exact ⟨e, hsub e List.mem_cons_self, hb⟩

/-- Li, O, Li-O, Fe, Fe-O: two diagrams. -/
def exElems : Fin 5 → List Enum.Sym
  | 0 => ["Li".toList]
  | 1 => ["O".toList]
  | 2 => ["O".toList, "Li".toList]
  | 3 => ["Fe".toList]
  | 4 => ["Fe".toList, "O".toList]

example : Symbols exElems := ⟨by decide, by decide, by decide⟩
example : expandPd exElems (fun l => .ok l) [0, 1, 2, 3, 4] = .ok [("Li-O".toList, [0, 1, 2]), ("Fe-O".toList, [1, 3, 4])] := by
  decide +kernel
example : expandPd exElems (fun l => if 3 ∈ l then .error .valueError else .ok l) [0, 1, 2, 3, 4] = .error .valueError := by
  decide +kernel

end Expand

/-! ### C45 -/

section Query
variable {η φ Dom : Type} [DecidableEq η] [DecidableEq φ]

/-- A sequence of metastable-domain queries. -/
def queries (X : Ext η φ Dom) : CPD η φ Dom → List φ → CPD η φ Dom × List (Except Err Dom)
  | s, [] => (s, [])
  | s, f :: fs =>
    let r := metastable X s f
    let rest := queries X r.1 fs
    (rest.1, r.2 :: rest.2)

/-- Specification: the answer that a diagram with these entries gives when it has not been asked anything yet. -/
def answer (X : Ext η φ Dom) (entries : List η) (f : φ) : Except Err Dom := (metastable X ⟨entries, []⟩ f).2

/-- A query that does no harm: it fails before anything is added, or the stabilized entries are not already in the set and one of
the two attempts finds the domain. -/
def Good (X : Ext η φ Dom) (entries : List η) (f : φ) : Prop :=
  (∃ x, X.minEntry entries f = .error x) ∨
  ∃ orig, X.minEntry entries f = .ok orig ∧ ((∃ x, X.stab entries orig false = .error x) ∨
    ∃ new doms, X.stab entries orig false = .ok new ∧ new ∉ entries ∧ X.build (entries ++ [new]) = .ok doms ∧
      ((∃ dom, doms f = some dom) ∨ (doms f = none ∧ ((∃ x, X.stab entries orig true = .error x) ∨
        ∃ new2 doms2 dom, X.stab entries orig true = .ok new2 ∧ new2 ∉ entries ∧ X.build (entries ++ [new2]) = .ok doms2 ∧
          doms2 f = some dom))))

theorem insertE_new (l : List η) (e : η) (h : e ∉ l) : insertE l e = l ++ [e] := if_neg h

theorem erase_new (l : List η) (e : η) (h : e ∉ l) : (l ++ [e]).erase e = l := by
  rw [List.erase_append_right _ h]; simp

/-- A harmless query on an uncached formula leaves the entries alone, and its effect on the cache is to store the answer. -/
theorem metastable_good (X : Ext η φ Dom) (s : CPD η φ Dom) (f : φ) (hc : dictGet s.cache f = none) (hg : Good X s.entries f) :
    (metastable X s f).2 = answer X s.entries f ∧ (metastable X s f).1.entries = s.entries ∧
    ((metastable X s f).1.cache = s.cache ∨ ∃ dom, answer X s.entries f = .ok dom ∧ (metastable X s f).1.cache = dictSet s.cache f dom) := by
  have hn : dictGet ([] : List (φ × Dom)) f = none := rfl
  unfold answer metastable
  simp only [hc, hn]
  rcases hg with ⟨x, hx⟩ | ⟨orig, ho, ⟨x, hx⟩ | ⟨new, doms, h1, h2, h3, h4⟩⟩
  · simp [hx]
  · simp [ho, hx]
  · simp only [ho, h1, insertE_new _ _ h2, h3]
    rcases h4 with ⟨dom, hd⟩ | ⟨hd, h5⟩
    · simp only [hd, finish, removeE, List.mem_append, List.mem_singleton, or_true, if_true, erase_new _ _ h2]
      exact ⟨trivial, trivial, Or.inr ⟨dom, rfl, rfl⟩⟩
    · simp only [hd, retry, removeE, List.mem_append, List.mem_singleton, or_true, if_true, erase_new _ _ h2]
      rcases h5 with ⟨x, hx⟩ | ⟨new2, doms2, dom, g1, g2, g3, g4⟩
      · simp [hx]
      · simp only [g1, insertE_new _ _ g2, g3, g4, finish, removeE, List.mem_append, List.mem_singleton, or_true, if_true, erase_new _ _ g2]
        exact ⟨trivial, trivial, Or.inr ⟨dom, rfl, rfl⟩⟩

/-- **C45, provable part.** For every sequence of harmless queries, in any order and with any repetitions, the entries are unchanged
and every answer is the one a fresh diagram gives. Missing: queries that fail after adding the stabilized entry, and queries whose
stabilized entry is the original one; for those the claim is false (`C45_*_violated`). -/
theorem C45_unchanged_partial (X : Ext η φ Dom) (entries : List η) (fs : List φ) : ∀ s : CPD η φ Dom, s.entries = entries →
    (∀ f dom, dictGet s.cache f = some dom → answer X entries f = .ok dom) → (∀ f ∈ fs, Good X entries f) →
    (queries X s fs).1.entries = entries ∧ (queries X s fs).2 = fs.map (answer X entries) := by
  induction fs with
  | nil => intro s h _ _; exact ⟨h, rfl⟩
  | cons f fs ih =>
    intro s hs hc hg
    have hg' : ∀ f ∈ fs, Good X entries f := fun g hgm => hg g (by simp [hgm])
    simp only [queries, List.map_cons]
    cases hd : dictGet s.cache f with
    | some dom =>
      have hm : metastable X s f = (s, .ok dom) := by unfold metastable; rw [hd]
      obtain ⟨h1, h2⟩ := ih s hs hc hg'
      rw [hm]
      exact ⟨h1, by rw [h2, hc f dom hd]⟩
    | none =>
      obtain ⟨a, b, c⟩ := metastable_good X s f hd (by rw [hs]; exact hg f (by simp))
      rw [hs] at a b c
      have hc' : ∀ g dom, dictGet (metastable X s f).1.cache g = some dom → answer X entries g = .ok dom := by
        intro g dom hgd
        rcases c with c | ⟨dom', hd', c⟩
        · rw [c] at hgd; exact hc g dom hgd
        · rw [c, Dict.dictGet_dictSet] at hgd
          split_ifs at hgd with hfg
          · subst hfg; cases hgd; exact hd'
          · exact hc g dom hgd
      obtain ⟨h1, h2⟩ := ih (metastable X s f).1 b hc' hg'
      exact ⟨h1, by rw [h2, a]⟩

/-- A toy world: entries are numbers, formula = number / 10, the lower the number the lower the energy; stabilizing `n` gives `n - 1`
(`n - 2` if forced) unless `n` is a multiple of 10 (on the hull), which is returned as it is unless forced. Every formula in `ok` has
a domain once stabilized. -/
def toyX (ok : ℕ → Bool) (buildable : Bool) : Ext ℤ ℕ ℤ where
  minEntry l f := match l.find? fun e => e / 10 = (f : ℤ) with
    | some e => .ok e
    | none => .error .keyError
  stab _ e force := .ok (if force then e - 2 else if e % 10 = 0 then e else e - 1)
  build l := if buildable then .ok fun f => if ok f then some l.sum else none else .error .valueError

example : Good (toyX (fun _ => true) true) [15, 23] 1 :=
  Or.inr ⟨15, rfl, Or.inr ⟨14, _, rfl, by decide, rfl, Or.inl ⟨_, rfl⟩⟩⟩
example : queries (toyX (fun _ => true) true) ⟨[15, 23], []⟩ [1, 2, 1] =
    (⟨[15, 23], [(1, 52), (2, 60)]⟩, [.ok 52, .ok 60, .ok 52]) := by decide +kernel

/-- **C45 is violated** when both attempts find no domain: `ValueError` is raised with the forced entry left in the set. -/
theorem C45_failure_violated : ∃ (X : Ext ℤ ℕ ℤ) (s : CPD ℤ ℕ ℤ) (f g : ℕ), (metastable X s f).2 = .error .valueError ∧
    (metastable X s f).1.entries ≠ s.entries ∧ (queries X s [f, g]).2 ≠ [(metastable X s f).2, answer X s.entries g] :=
  ⟨toyX (fun f => f = 2) true, ⟨[15, 23], []⟩, 1, 2, by decide +kernel, by decide +kernel, by decide +kernel⟩

/-- **C45 is violated** when the diagram with the stabilized entry cannot be constructed: the exception leaves the entry behind. -/
theorem C45_exception_violated : ∃ (X : Ext ℤ ℕ ℤ) (s : CPD ℤ ℕ ℤ) (f : ℕ), (metastable X s f).2 = .error .valueError ∧
    (metastable X s f).1.entries ≠ s.entries :=
  ⟨toyX (fun _ => true) false, ⟨[15, 23], []⟩, 1, by decide +kernel, by decide +kernel⟩

/-- **C45 is violated** even by a successful query, when the stabilized entry is the original one (an entry on the hull without a
domain of its own): the original is then removed from the set. -/
theorem C45_success_violated : ∃ (X : Ext ℤ ℕ ℤ) (s : CPD ℤ ℕ ℤ) (f : ℕ) (e : ℤ), (∃ dom, (metastable X s f).2 = .ok dom) ∧
    e ∈ s.entries ∧ e ∉ (metastable X s f).1.entries :=
  ⟨toyX (fun _ => true) true, ⟨[10, 23], []⟩, 1, 10, ⟨33, by decide +kernel⟩, by decide +kernel, by decide +kernel⟩

/-- In general: whenever stabilization returns an entry of the set unchanged and the diagram has the domain, the query deletes it. -/
theorem C45_deletes (X : Ext η φ Dom) (s : CPD η φ Dom) (f : φ) (orig : η) (doms : φ → Option Dom) (dom : Dom)
    (hc : dictGet s.cache f = none) (hnd : s.entries.Nodup) (hmem : orig ∈ s.entries) (hm : X.minEntry s.entries f = .ok orig)
    (hst : X.stab s.entries orig false = .ok orig) (hb : X.build s.entries = .ok doms) (hd : doms f = some dom) :
    (metastable X s f).2 = .ok dom ∧ orig ∉ (metastable X s f).1.entries := by
  have hi : insertE s.entries orig = s.entries := if_pos hmem
  unfold metastable
  simp only [hc, hm, hst, hi, hb, hd, finish, removeE, if_pos hmem]
  exact ⟨trivial, fun h => (hnd.mem_erase_iff.mp h).1 rfl⟩

example : ([10, 23] : List ℤ).Nodup ∧ (10 : ℤ) ∈ ([10, 23] : List ℤ) ∧
    (toyX (fun _ => true) true).stab [10, 23] 10 false = .ok 10 := ⟨by decide, by decide, rfl⟩

end Query

/-! ### C46 -/

section Dist
variable {P R : Type} [LinearOrder R]

/-- Specification: `m` is the least distance between a point of one set and a point of the other. -/
def IsMinDist (dist : P → P → R) (a b : List P) (m : R) : Prop :=
  (∃ p ∈ a, ∃ q ∈ b, dist p q = m) ∧ ∀ p ∈ a, ∀ q ∈ b, m ≤ dist p q

theorem isMinDist_unique {dist : P → P → R} {a b : List P} {m m' : R} (h : IsMinDist dist a b m) (h' : IsMinDist dist a b m') : m = m' := by
  obtain ⟨⟨p, hp, q, hq, e⟩, l⟩ := h
  obtain ⟨⟨p', hp', q', hq', e'⟩, l'⟩ := h'
  exact le_antisymm (e' ▸ l p' hp' q' hq') (e ▸ l' p hp q hq)

theorem min?_spec (l : List R) (hl : l ≠ []) : ∃ m, l.min? = some m ∧ m ∈ l ∧ ∀ x ∈ l, m ≤ x := by
  cases h : l.min? with
  | none => exact absurd (List.min?_eq_none_iff.mp h) hl
  | some m => exact ⟨m, rfl, List.min?_mem h, fun x hx => (List.le_min?_iff h).mp le_rfl x hx⟩

theorem nearest_spec (dist : P → P → R) (a : List P) (ha : a ≠ []) (p : P) :
    ∃ m, nearest dist a p = .ok m ∧ (∃ q ∈ a, dist p q = m) ∧ ∀ q ∈ a, m ≤ dist p q := by
  obtain ⟨m, h1, h2, h3⟩ := min?_spec (a.map fun q => dist p q) (by simpa using ha)
  refine ⟨m, by unfold nearest; rw [h1], ?_, fun q hq => h3 _ (List.mem_map.mpr ⟨q, hq, rfl⟩)⟩
  obtain ⟨q, hq, e⟩ := List.mem_map.mp h2
  exact ⟨q, hq, e⟩

theorem mapM_nearest (dist : P → P → R) (a : List P) (ha : a ≠ []) (b : List P) : ∃ ds, b.mapM (nearest dist a) = .ok ds ∧
    (∀ m ∈ ds, ∃ p ∈ b, ∃ q ∈ a, dist p q = m) ∧ (∀ p ∈ b, ∃ m ∈ ds, ∀ q ∈ a, m ≤ dist p q) := by
  induction b with
  | nil => exact ⟨[], rfl, by simp, by simp⟩
  | cons p b ih =>
    obtain ⟨ds, h1, h2, h3⟩ := ih
    obtain ⟨m, n1, n2, n3⟩ := nearest_spec dist a ha p
    refine ⟨m :: ds, by rw [List.mapM_cons, n1]; simp only [bind, Except.bind, h1]; rfl, ?_, ?_⟩
    · intro x hx
      rcases List.mem_cons.mp hx with rfl | hx
      · exact ⟨p, by simp, n2⟩
      · obtain ⟨p', hp', r⟩ := h2 x hx; exact ⟨p', by simp [hp'], r⟩
    · intro x hx
      rcases List.mem_cons.mp hx with rfl | hx
      · exact ⟨m, by simp, n3⟩
      · obtain ⟨m', hm', r⟩ := h3 x hx; exact ⟨m', by simp [hm'], r⟩

variable [AddCommMonoid R]

/-- **C46, minimality.** For nonempty point sets and a symmetric distance the result is the least distance between the sets plus the
offset: attained by a pair of points, and no pair is closer. -/
theorem C46_minimal (dist : P → P → R) (hsymm : ∀ p q, dist p q = dist q p) (a b : List P) (ha : a ≠ []) (hb : b ≠ []) (offset : R) :
    ∃ m, minDist dist a b offset = .ok (m + offset) ∧ IsMinDist dist a b m := by
  obtain ⟨ds, h1, h2, h3⟩ := mapM_nearest dist a ha b
  have hne : ds ≠ [] := by
    obtain ⟨p, hp⟩ := List.exists_mem_of_ne_nil b hb
    obtain ⟨m, hm, -⟩ := h3 p hp
    exact List.ne_nil_of_mem hm
  obtain ⟨m, m1, m2, m3⟩ := min?_spec ds hne
  refine ⟨m, by unfold minDist; rw [h1]; simp only [bind, Except.bind, m1], ?_, ?_⟩
  · obtain ⟨p, hp, q, hq, e⟩ := h2 m m2
    exact ⟨q, hq, p, hp, by rw [hsymm]; exact e⟩
  · intro q hq p hp
    obtain ⟨x, hx, hx'⟩ := h3 p hp
    rw [hsymm]
    exact le_trans (m3 x hx) (hx' q hq)

/-- **C46, symmetry.** -/
theorem C46_symmetric (dist : P → P → R) (hsymm : ∀ p q, dist p q = dist q p) (a b : List P) (ha : a ≠ []) (hb : b ≠ []) (offset : R) :
    minDist dist a b offset = minDist dist b a offset := by
  obtain ⟨m, h1, ⟨p, hp, q, hq, e⟩, h2⟩ := C46_minimal dist hsymm a b ha hb offset
  obtain ⟨m', h1', h2'⟩ := C46_minimal dist hsymm b a hb ha offset
  have : IsMinDist dist b a m := ⟨⟨q, hq, p, hp, by rw [hsymm]; exact e⟩, fun p hp q hq => by rw [hsymm]; exact h2 q hq p hp⟩
  rw [h1, h1', isMinDist_unique this h2']

/-- **C46, sign**: with nonnegative distances and no offset the result is nonnegative. -/
theorem C46_nonneg (dist : P → P → R) (hsymm : ∀ p q, dist p q = dist q p) (h0 : ∀ p q, 0 ≤ dist p q) (a b : List P) (ha : a ≠ [])
    (hb : b ≠ []) : ∃ m, minDist dist a b 0 = .ok m ∧ 0 ≤ m := by
  obtain ⟨m, h1, ⟨p, -, q, -, e⟩, -⟩ := C46_minimal dist hsymm a b ha hb 0
  exact ⟨m, by rw [h1, add_zero], e ▸ h0 p q⟩

/-- **C46, empty point sets** are rejected with `ValueError`. -/
theorem C46_empty (dist : P → P → R) (a : List P) (offset : R) : minDist dist a [] offset = .error .valueError := rfl

variable {η φ : Type} [DecidableEq η] [DecidableEq φ]

/-- **C46 for formulas.** If both phases have a stable domain or a harmless metastable query giving a nonempty domain, the distance
is the same in both directions, computed on the same diagram in either order. -/
theorem C46_formulas (X : Ext η φ (List P)) (domains : φ → Option (List P)) (dist : P → P → R) (hsymm : ∀ p q, dist p q = dist q p)
    (entries : List η) (f g : φ) (offset : R) (pf pg : List P) (hpf : pf ≠ []) (hpg : pg ≠ [])
    (hf : domains f = some pf ∨ (domains f = none ∧ Good X entries f ∧ answer X entries f = .ok pf))
    (hg : domains g = some pg ∨ (domains g = none ∧ Good X entries g ∧ answer X entries g = .ok pg)) :
    (shortest X domains dist ⟨entries, []⟩ f g offset).2 = (shortest X domains dist ⟨entries, []⟩ g f offset).2 ∧
    ∃ m, (shortest X domains dist ⟨entries, []⟩ f g offset).2 = .ok (m + offset) ∧ IsMinDist dist pf pg m := by
  have key : ∀ (h : φ) (ph : List P) (s : CPD η φ (List P)), s.entries = entries →
      (∀ f dom, dictGet s.cache f = some dom → answer X entries f = .ok dom) →
      (domains h = some ph ∨ (domains h = none ∧ Good X entries h ∧ answer X entries h = .ok ph)) →
      ∃ s', pointsOf X domains s h = (s', .ok ph) ∧ s'.entries = entries ∧
        ∀ f dom, dictGet s'.cache f = some dom → answer X entries f = .ok dom := by
    intro h ph s hs hc hh
    unfold pointsOf
    rcases hh with hh | ⟨hh, hgood, ha⟩
    · rw [hh]; exact ⟨s, rfl, hs, hc⟩
    · rw [hh]
      simp only
      cases hd : dictGet s.cache h with
      | some dom =>
        have := hc h dom hd
        rw [ha] at this; cases this
        exact ⟨s, by unfold metastable; rw [hd], hs, hc⟩
      | none =>
        obtain ⟨a, b, c⟩ := metastable_good X s h hd (by rw [hs]; exact hgood)
        rw [hs] at a b c
        rw [ha] at a
        refine ⟨(metastable X s h).1, Prod.ext rfl a, b, fun f dom hfd => ?_⟩
        rcases c with c | ⟨dom', hd', c⟩
        · rw [c] at hfd; exact hc f dom hfd
        · rw [c, Dict.dictGet_dictSet] at hfd
          split_ifs at hfd with hfg
          · subst hfg; cases hfd; exact hd'
          · exact hc f dom hfd
  have run : ∀ (h k : φ) (ph pk : List P), (domains h = some ph ∨ (domains h = none ∧ Good X entries h ∧ answer X entries h = .ok ph)) →
      (domains k = some pk ∨ (domains k = none ∧ Good X entries k ∧ answer X entries k = .ok pk)) →
      (shortest X domains dist ⟨entries, []⟩ h k offset).2 = minDist dist ph pk offset := by
    intro h k ph pk hh hk
    obtain ⟨s1, e1, a1, b1⟩ := key h ph ⟨entries, []⟩ rfl (fun f dom h => by simp [dictGet] at h) hh
    obtain ⟨s2, e2, -, -⟩ := key k pk s1 a1 b1 hk
    unfold shortest
    rw [e1]; simp only [e2]
  rw [run f g pf pg hf hg, run g f pg pf hg hf]
  exact ⟨C46_symmetric dist hsymm pf pg hpf hpg offset, C46_minimal dist hsymm pf pg hpf hpg offset⟩

end Dist

/-- Points are numbers; formula 2 is stable, formula 1 is metastable with its own query. -/
def toyP : Ext ℤ ℕ (List ℚ) where
  minEntry l f := match l.find? fun e => e / 10 = (f : ℤ) with
    | some e => .ok e
    | none => .error .keyError
  stab _ e force := .ok (if force then e - 2 else e - 1)
  build l := .ok fun f => if f = 1 then some [(l.length : ℚ), 5] else none

example : Good toyP [15, 23] 1 ∧ answer toyP [15, 23] 1 = .ok [3, 5] :=
  ⟨Or.inr ⟨15, rfl, Or.inr ⟨14, _, rfl, by decide, rfl, Or.inl ⟨_, rfl⟩⟩⟩, by decide +kernel⟩
example : (shortest toyP (fun f => if f = 2 then some [9, 100] else none) (fun p q : ℚ => |p - q|) ⟨[15, 23], []⟩ 2 1 0).2 = .ok 4 := by
  decide +kernel
example : minDist (fun p q : ℚ => |p - q|) [0, 5] [9, 7, 100] (1/2) = .ok (5/2) := by decide +kernel
example : minDist (fun p q : ℚ => |p - q|) [9, 7, 100] [0, 5] (1/2) = .ok (5/2) := by decide +kernel

theorem exElems_symbols : Symbols exElems := ⟨by decide, by decide, by decide⟩

example := C44_expand exElems exElems_symbols (fun l => .ok l) [0, 1, 2, 3, 4]
  [("Li-O".toList, [0, 1, 2]), ("Fe-O".toList, [1, 3, 4])] (by decide +kernel)
example := C44_error exElems (fun l => if 3 ∈ l then .error .valueError else .ok l) [0, 1, 2, 3, 4] .valueError (by decide +kernel)
example := C46_minimal (fun p q : ℚ => |p - q|) (fun p q => abs_sub_comm p q) [0, 5] [9, 7, 100] (by simp) (by simp) (1/2)
example := C46_symmetric (fun p q : ℚ => |p - q|) (fun p q => abs_sub_comm p q) [0, 5] [9, 7, 100] (by simp) (by simp) (1/2)
example := C46_nonneg (fun p q : ℚ => |p - q|) (fun p q => abs_sub_comm p q) (fun _ _ => abs_nonneg _) [0, 5] [9, 7, 100] (by simp) (by simp)
example := C46_empty (fun p q : ℚ => |p - q|) [0, 5] (1/2)

end Verif.Props.Thermo
