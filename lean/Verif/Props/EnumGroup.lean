import Verif.Props.Enum
import Verif.Props.Balance

/-! Properties C34-C36 and C66: completeness of the enumerators' candidate generation and filters. -/

namespace Verif.Props.EnumGroup
open Verif.Py Verif.Model Verif.Model.Enum Verif.Lemmas Verif.Lemmas.Exc Verif.Props.Enum

set_option linter.unusedSectionVars false

variable {η : Type} [DecidableEq η]

/-! ### Grouping -/

theorem mem_addCombo {κ α : Type} [DecidableEq κ] (d : List (κ × List α)) (k k' : κ) (c : α) :
    dictGet (addCombo d k c) k' = if k = k' then some ((dictGet d k).getD [] ++ [c]) else dictGet d k' := by
  unfold addCombo
  cases h : dictGet d k with
  | some l => simp only [Dict.dictGet_dictSet, Option.getD_some]
  | none => simp only [Dict.dictGet_dictSet, Option.getD_none, List.nil_append]

theorem nodup_addCombo {κ α : Type} [DecidableEq κ] (d : List (κ × List α)) (k : κ) (c : α) (h : (d.map Prod.fst).Nodup) :
    ((addCombo d k c).map Prod.fst).Nodup := by
  unfold addCombo
  cases dictGet d k <;> exact Dict.nodup_dictSet _ _ _ h

/-- Grouping by a key: every key maps to the items with that key, in order; keys without items are absent. -/
theorem group_spec {κ α : Type} [DecidableEq κ] (key : α → κ) (l : List α) : ∀ d : List (κ × List α), (d.map Prod.fst).Nodup →
    ((l.foldl (fun d c => addCombo d (key c) c) d).map Prod.fst).Nodup ∧
    ∀ k, dictGet (l.foldl (fun d c => addCombo d (key c) c) d) k =
      if l.filter (fun c => key c = k) = [] then dictGet d k
      else some ((dictGet d k).getD [] ++ l.filter fun c => key c = k) := by
  induction l with
  | nil => intro d h; exact ⟨h, fun k => by simp⟩
  | cons a l ih =>
    intro d h
    obtain ⟨h1, h2⟩ := ih (addCombo d (key a) a) (nodup_addCombo d _ a h)
    refine ⟨h1, fun k => ?_⟩
    rw [List.foldl_cons, h2 k, mem_addCombo]
    by_cases hk : key a = k
    · rw [List.filter_cons, if_pos (decide_eq_true hk), if_pos hk, if_neg (List.cons_ne_nil _ _)]
      subst hk
      split_ifs with hl
      · rw [hl]
      · rw [Option.getD_some, List.append_assoc]; rfl
    · have hk' : ¬ decide (key a = k) = true := fun h => hk (of_decide_eq_true h)
      rw [List.filter_cons, if_neg hk', if_neg hk]

/-- The groups: `(k, combos with key k)` for every key that occurs. -/
theorem mem_group (elems : η → List Sym) (combos : List (List η)) (opens : List Sym) (sys : List Char × List (List η)) :
    sys ∈ groupByChemsys elems combos opens ↔ (sys.2 = combos.filter fun c => chemsysKey elems c opens = sys.1) ∧ sys.2 ≠ [] := by
  obtain ⟨h1, h2⟩ := group_spec (fun c => chemsysKey elems c opens) combos [] List.nodup_nil
  constructor
  · intro h
    have hg := Dict.dictGet_eq_some_of_mem _ h1 sys.1 sys.2 h
    have := h2 sys.1
    change dictGet (combos.foldl _ []) sys.1 = _ at hg
    rw [this] at hg
    split_ifs at hg with hn
    · simp [dictGet] at hg
    · have hg := Option.some.inj hg
      simp [dictGet] at hg
      rw [← hg]
      exact ⟨rfl, hn⟩
  · rintro ⟨e, hne⟩
    have := h2 sys.1
    rw [e] at hne
    rw [if_neg hne] at this
    have h3 := Dict.mem_of_dictGet _ _ _ this
    simp [dictGet] at h3
    rw [← e] at h3
    exact h3

theorem nodup_group (elems : η → List Sym) (combos : List (List η)) (opens : List Sym) :
    ((groupByChemsys elems combos opens).map Prod.fst).Nodup :=
  (group_spec (fun c => chemsysKey elems c opens) combos [] List.nodup_nil).1

/-! ### Keys -/

theorem sort_congr (a b : List Sym) (ha : a.Nodup) (hb : b.Nodup) (h : ∀ s, s ∈ a ↔ s ∈ b) :
    a.insertionSort (· ≤ ·) = b.insertionSort (· ≤ ·) := by
  have hp : a.Perm b := (List.perm_ext_iff_of_nodup ha hb).mpr h
  have h1 : (a.insertionSort (· ≤ ·)).Perm (b.insertionSort (· ≤ ·)) :=
    (List.perm_insertionSort _ a).trans (hp.trans (List.perm_insertionSort _ b).symm)
  have : Std.Total (fun x y : Sym => x ≤ y) := ⟨le_total⟩
  have : IsTrans Sym (fun x y : Sym => x ≤ y) := ⟨fun _ _ _ => le_trans⟩
  refine List.Perm.eq_of_pairwise (le := fun x y : Sym => x ≤ y) ?_ (List.pairwise_insertionSort _ a) (List.pairwise_insertionSort _ b) h1
  intro x y _ _ hxy hyx
  exact le_antisymm hxy hyx

/-- The elements of a combination, including the open ones. -/
def els (elems : η → List Sym) (c : List η) (opens : List Sym) : List Sym := c.flatMap elems ++ opens

theorem key_congr (elems : η → List Sym) (c d : List η) (opens : List Sym) (h : ∀ s, s ∈ els elems c opens ↔ s ∈ els elems d opens) :
    chemsysKey elems c opens = chemsysKey elems d opens := by
  unfold chemsysKey
  rw [sort_congr _ _ (List.nodup_dedup _) (List.nodup_dedup _)]
  intro s
  rw [List.mem_dedup, List.mem_dedup]
  exact h s

/-- Splitting a key gives back the elements. -/
theorem mem_split_key (elems : η → List Sym) (c : List η) (opens : List Sym) (hdash : ∀ s ∈ els elems c opens, '-' ∉ s)
    (hne : els elems c opens ≠ []) (s : Sym) :
    s ∈ (chemsysKey elems c opens).splitOn '-' ↔ s ∈ els elems c opens := by
  unfold chemsysKey
  rw [List.splitOn_intercalate]
  · rw [(List.perm_insertionSort _ _).mem_iff, List.mem_dedup]; rfl
  · intro l hl
    rw [(List.perm_insertionSort _ _).mem_iff, List.mem_dedup] at hl
    exact hdash l hl
  · intro h
    have := (List.perm_insertionSort (· ≤ ·) (c.flatMap elems ++ opens).dedup)
    rw [h] at this
    have h0 := List.nil_perm.mp this
    obtain ⟨x, hx⟩ := List.exists_mem_of_ne_nil _ hne
    have hx' := List.mem_dedup.mpr hx
    unfold els at hx'
    rw [h0] at hx'
    simp at hx'

/-! ### C35 -/

/-- Two collections of phases describe the same set. -/
def SameSet (a b : List η) : Prop := ∀ x, x ∈ a ↔ x ∈ b

/-- `r -> p` can be balanced with positive amounts of every phase: total amounts of every element agree. -/
def Balanceable (amt : η → Sym → ℚ) (r p : List η) : Prop := ∃ a b : η → ℚ, (∀ x ∈ r, 0 < a x) ∧ (∀ x ∈ p, 0 < b x) ∧
  ∀ s, (r.map fun x => a x * amt x s).sum = (p.map fun x => b x * amt x s).sum

/-- The element lists are those of non-negative compositions. -/
structure Comps (elems : η → List Sym) (amt : η → Sym → ℚ) : Prop where
  nonneg : ∀ x s, 0 ≤ amt x s
  mem : ∀ x s, s ∈ elems x ↔ amt x s ≠ 0

theorem sum_pos_iff (l : List η) (f : η → ℚ) (h : ∀ x ∈ l, 0 ≤ f x) : (l.map f).sum ≠ 0 ↔ ∃ x ∈ l, f x ≠ 0 := by
  induction l with
  | nil => simp
  | cons a l ih =>
    have h0 := h a List.mem_cons_self
    have h1 : ∀ x ∈ l, 0 ≤ f x := fun x hx => h x (List.mem_cons_of_mem _ hx)
    have h2 : 0 ≤ (l.map f).sum := by
      apply List.sum_nonneg
      intro y hy
      obtain ⟨x, hx, rfl⟩ := List.mem_map.mp hy
      exact h1 x hx
    have h3 := ih h1
    rw [List.map_cons, List.sum_cons]
    constructor
    · intro hs
      by_cases ha : f a = 0
      · rw [ha, zero_add] at hs
        obtain ⟨x, hx, hfx⟩ := h3.mp hs
        exact ⟨x, List.mem_cons_of_mem _ hx, hfx⟩
      · exact ⟨a, List.mem_cons_self, ha⟩
    · rintro ⟨x, hx, hfx⟩ hs
      have e1 : f a = 0 := by linarith
      have e2 : (l.map f).sum = 0 := by linarith
      rcases List.mem_cons.mp hx with rfl | hx
      · exact hfx e1
      · exact h3.mpr ⟨x, hx, hfx⟩ e2

/-- Both sides of a balanceable reaction span the same elements. -/
theorem same_elements (elems : η → List Sym) (amt : η → Sym → ℚ) (hc : Comps elems amt) (r p : List η) (h : Balanceable amt r p)
    (s : Sym) : s ∈ r.flatMap elems ↔ s ∈ p.flatMap elems := by
  obtain ⟨a, b, ha, hb, hs⟩ := h
  have key : ∀ (l : List η) (c : η → ℚ), (∀ x ∈ l, 0 < c x) → (s ∈ l.flatMap elems ↔ (l.map fun x => c x * amt x s).sum ≠ 0) := by
    intro l c hcpos
    rw [sum_pos_iff l _ fun x hx => mul_nonneg (hcpos x hx).le (hc.nonneg x s), List.mem_flatMap]
    constructor
    · rintro ⟨x, hx, hsx⟩
      exact ⟨x, hx, mul_ne_zero (hcpos x hx).ne' ((hc.mem x s).mp hsx)⟩
    · rintro ⟨x, hx, hsx⟩
      exact ⟨x, hx, (hc.mem x s).mpr (right_ne_zero_of_mul hsx)⟩
  rw [key r a ha, key p b hb, hs s]

/-- The way a set of entries appears among the enumerated combinations. -/
def canon (entries r : List η) : List η := entries.filter fun e => e ∈ r

theorem canon_same (entries r : List η) (h : ∀ x ∈ r, x ∈ entries) : SameSet (canon entries r) r := by
  intro x
  unfold canon
  rw [List.mem_filter, decide_eq_true_iff]
  exact ⟨fun h => h.2, fun hx => ⟨h x hx, hx⟩⟩

theorem canon_perm (entries r : List η) (hn : entries.Nodup) (hr : r.Nodup) (h : ∀ x ∈ r, x ∈ entries) : (canon entries r).Perm r :=
  (List.perm_ext_iff_of_nodup (hn.filter _) hr).mpr (canon_same entries r h)

theorem canon_unique (entries c r : List η) (hn : entries.Nodup) (hc : c.Sublist entries) (hs : SameSet c r) : c = canon entries r := by
  have h1 : SameSet c (canon entries r) := by
    intro x
    unfold canon
    rw [List.mem_filter, decide_eq_true_iff, hs x]
    exact ⟨fun hx => ⟨hc.subset ((hs x).mpr hx), hx⟩, fun h => h.2⟩
  have hp : c.Perm (canon entries r) := (List.perm_ext_iff_of_nodup (hn.sublist hc) (hn.filter _)).mpr h1
  clear hs
  generalize hd : canon entries r = d at *
  have hdsub : d.Sublist entries := by rw [← hd]; exact List.filter_sublist
  clear hd h1
  induction entries generalizing c d with
  | nil => rw [List.sublist_nil.mp hc, List.sublist_nil.mp hdsub]
  | cons a l ih =>
    rw [List.nodup_cons] at hn
    by_cases ha : a ∈ c
    · have had := hp.mem_iff.mp ha
      cases hc with
      | cons _ hc => exact absurd (hc.subset ha) hn.1
      | cons_cons _ hc =>
        cases hdsub with
        | cons _ hd => exact absurd (hd.subset had) hn.1
        | cons_cons _ hd =>
          rw [ih _ hn.2 hc _ (List.Perm.cons_inv hp) hd]
    · have had : a ∉ d := fun h => ha (hp.mem_iff.mpr h)
      cases hc with
      | cons_cons _ hc => exact absurd List.mem_cons_self ha
      | cons _ hc =>
        cases hdsub with
        | cons_cons _ hd => exact absurd List.mem_cons_self had
        | cons _ hd => exact ih _ hn.2 hc _ hp hd

theorem nodup_powerset (entries : List η) (hn : entries.Nodup) (n : ℤ) : (Utils.limitedPowerset entries n).Nodup := by
  unfold Utils.limitedPowerset
  rw [List.nodup_flatMap]
  refine ⟨fun k _ => nodup_combinations hn k, ?_⟩
  have : (List.range' 1 n.toNat).Pairwise (· ≠ ·) := List.nodup_range'
  refine this.imp ?_
  intro a b hab c hc hc'
  rw [mem_combinations] at hc hc'
  exact hab (hc.2.symm.trans hc'.2)

theorem canon_mem (entries r : List η) (hn : entries.Nodup) (hr : r.Nodup) (h : ∀ x ∈ r, x ∈ entries) (hne : r ≠ []) (n : ℤ)
    (hlen : (r.length : ℤ) ≤ n) : canon entries r ∈ Utils.limitedPowerset entries n := by
  have hp := canon_perm entries r hn hr h
  rw [Verif.Props.Utils.C30_mem]
  refine ⟨List.filter_sublist, ?_, ?_⟩
  · intro h0
    rw [h0] at hp
    exact hne (List.nil_perm.mp hp)
  · rw [hp.length_eq]; exact hlen

theorem mem_pairs2 {α : Type} (l : List α) (q : α × α) (h : q ∈ pairs2 l) : q.1 ∈ l ∧ q.2 ∈ l := by
  induction l with
  | nil => simp [pairs2] at h
  | cons a l ih =>
    unfold pairs2 at h
    rcases List.mem_append.mp h with h | h
    · obtain ⟨b, hb, rfl⟩ := List.mem_map.mp h
      exact ⟨List.mem_cons_self, List.mem_cons_of_mem _ hb⟩
    · exact ⟨List.mem_cons_of_mem _ (ih h).1, List.mem_cons_of_mem _ (ih h).2⟩

/-- Among the pairs from a duplicate-free list, an unordered pair of different items occurs exactly once. -/
theorem pairs2_once {α : Type} (l : List α) (hn : l.Nodup) (a b : α) (hab : a ≠ b) (ha : a ∈ l) (hb : b ∈ l) (P : α × α → Bool)
    (hP : ∀ q : α × α, q.1 ∈ l → q.2 ∈ l → (P q = true ↔ q = (a, b) ∨ q = (b, a))) : ((pairs2 l).filter P).length = 1 := by
  have single : ∀ (l : List α) (x y : α), l.Nodup → y ∈ l → ∀ Q : α × α → Bool, (∀ z ∈ l, Q (x, z) = true ↔ z = y) →
      ((l.map fun z => (x, z)).filter Q).length = 1 := by
    intro l x y hl hy Q hQ
    rw [List.filter_map, List.length_map]
    induction l with
    | nil => simp at hy
    | cons z l ih =>
      rw [List.nodup_cons] at hl
      have hQ' := fun w hw => hQ w (List.mem_cons_of_mem z hw)
      by_cases hz : z = y
      · subst hz
        have : l.filter (Q ∘ fun z => (x, z)) = [] := by
          rw [List.filter_eq_nil_iff]
          intro w hw hq
          have := (hQ' w hw).mp hq
          subst this
          exact hl.1 hw
        rw [List.filter_cons_of_pos (p := Q ∘ fun z => (x, z)) ((hQ z List.mem_cons_self).mpr rfl), this]; rfl
      · rw [List.filter_cons_of_neg (p := Q ∘ fun z => (x, z)) (fun h => hz ((hQ z List.mem_cons_self).mp h))]
        exact ih hl.2 ((List.mem_cons.mp hy).resolve_left (Ne.symm hz)) hQ'
  induction l with
  | nil => simp at ha
  | cons c l ih =>
    rw [List.nodup_cons] at hn
    unfold pairs2
    rw [List.filter_append, List.length_append]
    have hP' : ∀ q : α × α, q.1 ∈ l → q.2 ∈ l → (P q = true ↔ q = (a, b) ∨ q = (b, a)) :=
      fun q h1 h2 => hP q (List.mem_cons_of_mem _ h1) (List.mem_cons_of_mem _ h2)
    have rest0 : (a ∉ l ∨ b ∉ l) → (pairs2 l).filter P = [] := by
      intro hor
      rw [List.filter_eq_nil_iff]
      intro q hq hPq
      have hm := mem_pairs2 l q hq
      rcases (hP' q hm.1 hm.2).mp hPq with rfl | rfl
      · exact hor.elim (fun h => h hm.1) (fun h => h hm.2)
      · exact hor.elim (fun h => h hm.2) (fun h => h hm.1)
    have hPc : ∀ z ∈ l, (P (c, z) = true ↔ (c = a ∧ z = b) ∨ (c = b ∧ z = a)) := by
      intro z hz
      rw [hP (c, z) List.mem_cons_self (List.mem_cons_of_mem _ hz), Prod.mk.injEq, Prod.mk.injEq]
    rcases List.mem_cons.mp ha with rfl | ha'
    · have hb' := (List.mem_cons.mp hb).resolve_left (Ne.symm hab)
      rw [rest0 (Or.inl hn.1), single l a b hn.2 hb' P]
      · rfl
      · intro z hz
        rw [hPc z hz]
        constructor
        · rintro (⟨_, h⟩ | ⟨h, _⟩)
          · exact h
          · exact absurd h hab
        · intro h; exact Or.inl ⟨rfl, h⟩
    · rcases List.mem_cons.mp hb with rfl | hb'
      · rw [rest0 (Or.inr hn.1), single l b a hn.2 ha' P]
        · rfl
        · intro z hz
          rw [hPc z hz]
          constructor
          · rintro (⟨h, _⟩ | ⟨_, h⟩)
            · exact absurd h.symm hab
            · exact h
          · intro h; exact Or.inr ⟨rfl, h⟩
      · have : (l.map fun b => (c, b)).filter P = [] := by
          rw [List.filter_eq_nil_iff]
          intro q hq hPq
          obtain ⟨z, hz, rfl⟩ := List.mem_map.mp hq
          rcases (hPc z hz).mp hPq with ⟨rfl, _⟩ | ⟨rfl, _⟩
          · exact hn.1 ha'
          · exact hn.1 hb'
        rw [this, ih hn.2 ha' hb' hP']; rfl

/-- The part of a grouped list that can satisfy a test living in one group. -/
theorem filter_groups {κ α : Type} (d : List (κ × List α)) (hn : (d.map Prod.fst).Nodup) (sys : κ × List α) (hs : sys ∈ d)
    {β : Type} (f : κ × List α → List β) (P : β → Bool) (h : ∀ s ∈ d, s.1 ≠ sys.1 → ∀ b ∈ f s, P b = false) :
    (d.flatMap f).filter P = (f sys).filter P := by
  induction d with
  | nil => simp at hs
  | cons a d ih =>
    rw [List.map_cons, List.nodup_cons] at hn
    rw [List.flatMap_cons, List.filter_append]
    rcases List.mem_cons.mp hs with rfl | hs'
    · have : (d.flatMap f).filter P = [] := by
        rw [List.filter_eq_nil_iff]
        intro b hb hPb
        obtain ⟨s, hs, hbs⟩ := List.mem_flatMap.mp hb
        have hne : s.1 ≠ sys.1 := fun h => hn.1 (List.mem_map.mpr ⟨s, hs, h⟩)
        rw [h s (List.mem_cons_of_mem _ hs) hne b hbs] at hPb
        simp at hPb
      rw [this, List.append_nil]
    · have : (f a).filter P = [] := by
        rw [List.filter_eq_nil_iff]
        intro b hb hPb
        have hne : a.1 ≠ sys.1 := fun h => hn.1 (List.mem_map.mpr ⟨sys, hs', h.symm⟩)
        rw [h a List.mem_cons_self hne b hb] at hPb
        simp at hPb
      rw [this, List.nil_append]
      exact ih hn.2 hs' fun s hs hne => h s (List.mem_cons_of_mem _ hs) hne

/-- Decidable form of `SameSet`. -/
def sameSetB (a b : List η) : Bool := a.toFinset = b.toFinset

theorem sameSetB_iff (a b : List η) : sameSetB a b = true ↔ SameSet a b := by
  unfold sameSetB SameSet
  rw [decide_eq_true_iff, Finset.ext_iff]
  simp only [List.mem_toFinset]

/-- Any balanceable reaction between two disjoint non-empty sets of at most `n` entries is among the candidate pairs of the
enumerator, exactly once as an unordered pair. -/
theorem C35_complete (elems : η → List Sym) (amt : η → Sym → ℚ) (hc : Comps elems amt) (entries : List η) (hn : entries.Nodup) (n : ℤ)
    (r p : List η) (hr : r.Nodup) (hp : p.Nodup) (hr0 : r ≠ []) (hp0 : p ≠ []) (hrn : (r.length : ℤ) ≤ n) (hpn : (p.length : ℤ) ≤ n)
    (hre : ∀ x ∈ r, x ∈ entries) (hpe : ∀ x ∈ p, x ∈ entries) (hdis : ∀ x ∈ r, x ∉ p) (hbal : Balanceable amt r p) :
    (((combosDict elems entries [] n).flatMap fun sys => pairs2 sys.2).filter fun q =>
      (sameSetB q.1 r && sameSetB q.2 p) || (sameSetB q.1 p && sameSetB q.2 r)).length = 1 := by
  have hent : (entries.filter fun e => decide (e ∉ ([] : List η))) = entries := List.filter_eq_self.mpr (by simp)
  unfold combosDict
  rw [hent, List.flatMap_nil]
  set combos := Utils.limitedPowerset entries n with hcombos
  set R := canon entries r
  set P := canon entries p
  have hRm : R ∈ combos := canon_mem entries r hn hr hre hr0 n hrn
  have hPm : P ∈ combos := canon_mem entries p hn hp hpe hp0 n hpn
  have hsub : ∀ c ∈ combos, c.Sublist entries := fun c hc' => ((Verif.Props.Utils.C30_mem entries c n).mp hc').1
  have huniq : ∀ c ∈ combos, ∀ l, (∀ x ∈ l, x ∈ entries) → (sameSetB c l = true ↔ c = canon entries l) := by
    intro c hcm l hl
    rw [sameSetB_iff]
    constructor
    · exact canon_unique entries c l hn (hsub c hcm)
    · rintro rfl; exact canon_same entries l hl
  have hkey : chemsysKey elems R [] = chemsysKey elems P [] := by
    apply key_congr
    intro s
    unfold els
    rw [List.append_nil, List.append_nil, List.mem_flatMap, List.mem_flatMap]
    have h1 := same_elements elems amt hc r p hbal s
    rw [List.mem_flatMap, List.mem_flatMap] at h1
    have e1 := canon_same entries r hre
    have e2 := canon_same entries p hpe
    constructor
    · rintro ⟨x, hx, hsx⟩
      obtain ⟨y, hy, hsy⟩ := h1.mp ⟨x, (e1 x).mp hx, hsx⟩
      exact ⟨y, (e2 y).mpr hy, hsy⟩
    · rintro ⟨x, hx, hsx⟩
      obtain ⟨y, hy, hsy⟩ := h1.mpr ⟨x, (e2 x).mp hx, hsx⟩
      exact ⟨y, (e1 y).mpr hy, hsy⟩
  have hRP : R ≠ P := by
    intro h
    obtain ⟨x, hx⟩ := List.exists_mem_of_ne_nil _ hr0
    have h1 : x ∈ R := (canon_same entries r hre x).mpr hx
    rw [h] at h1
    exact hdis x hx ((canon_same entries p hpe x).mp h1)
  set sys : List Char × List (List η) := (chemsysKey elems R [], combos.filter fun c => chemsysKey elems c [] = chemsysKey elems R []) with hsys
  have hRs : R ∈ sys.2 := List.mem_filter.mpr ⟨hRm, decide_eq_true rfl⟩
  have hPs : P ∈ sys.2 := List.mem_filter.mpr ⟨hPm, decide_eq_true hkey.symm⟩
  have hmem : sys ∈ groupByChemsys elems combos [] := (mem_group elems combos [] sys).mpr ⟨rfl, List.ne_nil_of_mem hRs⟩
  have htest : ∀ q : List η × List η, q.1 ∈ combos → q.2 ∈ combos → (((sameSetB q.1 r && sameSetB q.2 p) || (sameSetB q.1 p && sameSetB q.2 r)) = true ↔
      q = (R, P) ∨ q = (P, R)) := by
    intro q h1 h2
    rw [Bool.or_eq_true, Bool.and_eq_true, Bool.and_eq_true, huniq _ h1 r hre, huniq _ h2 p hpe, huniq _ h1 p hpe, huniq _ h2 r hre,
      Prod.ext_iff, Prod.ext_iff]
  rw [filter_groups _ (nodup_group elems combos []) sys hmem]
  · apply pairs2_once sys.2 ((nodup_powerset entries hn n).filter _) R P hRP hRs hPs
    intro q h1 h2
    exact htest q (List.mem_filter.mp h1).1 (List.mem_filter.mp h2).1
  · intro s hs hne q hq
    obtain ⟨hs2, _⟩ := (mem_group elems combos [] s).mp hs
    have hqm := mem_pairs2 s.2 q hq
    rw [hs2] at hqm
    obtain ⟨m1, k1⟩ := List.mem_filter.mp hqm.1
    obtain ⟨m2, k2⟩ := List.mem_filter.mp hqm.2
    rw [← Bool.not_eq_true]
    intro hPq
    apply hne
    rcases (htest q m1 m2).mp hPq with h | h
    · rw [h] at k1; exact (of_decide_eq_true k1).symm
    · rw [h] at k2; exact (of_decide_eq_true k2).symm

theorem mem_pairsOpen (combos ocs : List (List η)) (r p : List η) : (r, p) ∈ pairsOpen combos ocs ↔
    r ∈ combos ∧ ∃ c ∈ combos, ∃ o ∈ ocs, inter c o = [] ∧ p = union c o := by
  unfold pairsOpen combosWithOpen
  rw [List.mem_flatMap]
  constructor
  · rintro ⟨c, hc, h⟩
    obtain ⟨d, hd, he⟩ := List.mem_map.mp h
    cases he
    obtain ⟨c', hc', h'⟩ := List.mem_flatMap.mp hd
    obtain ⟨o, ho, rfl⟩ := List.mem_map.mp h'
    obtain ⟨ho1, ho2⟩ := List.mem_filter.mp ho
    exact ⟨hc, c', hc', o, ho1, of_decide_eq_true ho2, rfl⟩
  · rintro ⟨hr, c, hc, o, ho, hi, rfl⟩
    exact ⟨r, hr, List.mem_map.mpr ⟨_, List.mem_flatMap.mpr ⟨c, hc, List.mem_map.mpr ⟨o, List.mem_filter.mpr ⟨ho, decide_eq_true hi⟩, rfl⟩⟩, rfl⟩⟩

theorem filter_flatMap_single {α β : Type} (l : List α) (hl : l.Nodup) (a : α) (ha : a ∈ l) (f : α → List β) (P : β → Bool)
    (h : ∀ x ∈ l, x ≠ a → ∀ b ∈ f x, P b = false) : (l.flatMap f).filter P = (f a).filter P := by
  induction l with
  | nil => simp at ha
  | cons c l ih =>
    rw [List.nodup_cons] at hl
    rw [List.flatMap_cons, List.filter_append]
    rcases List.mem_cons.mp ha with rfl | ha'
    · have : (l.flatMap f).filter P = [] := by
        rw [List.filter_eq_nil_iff]
        intro b hb hPb
        obtain ⟨x, hx, hbx⟩ := List.mem_flatMap.mp hb
        have hne : x ≠ a := fun e => hl.1 (e ▸ hx)
        rw [h x (List.mem_cons_of_mem _ hx) hne b hbx] at hPb
        simp at hPb
      rw [this, List.append_nil]
    · have : (f c).filter P = [] := by
        rw [List.filter_eq_nil_iff]
        intro b hb hPb
        have hne : c ≠ a := fun e => hl.1 (e ▸ ha')
        rw [h c List.mem_cons_self hne b hb] at hPb
        simp at hPb
      rw [this, List.nil_append]
      exact ih hl.2 ha' fun x hx => h x (List.mem_cons_of_mem _ hx)

/-- Open enumerator: a balanceable reaction between a set of non-open phases and a set of non-open phases together with open
phases is among the candidate pairs exactly once. (Open phases on both sides are by design never combined.) -/
theorem C35_open (elems : η → List Sym) (amt : η → Sym → ℚ) (hc : Comps elems amt) (entries opens : List η) (hn : entries.Nodup)
    (hon : opens.Nodup) (n : ℤ) (r c o : List η) (hr : r.Nodup) (hcn : c.Nodup) (hond : o.Nodup) (hr0 : r ≠ []) (hc0 : c ≠ []) (ho0 : o ≠ [])
    (hrn : (r.length : ℤ) ≤ n) (hcl : (c.length : ℤ) ≤ n)
    (hre : ∀ x ∈ r, x ∈ entries ∧ x ∉ opens) (hce : ∀ x ∈ c, x ∈ entries ∧ x ∉ opens) (hoo : ∀ x ∈ o, x ∈ opens)
    (hbal : Balanceable amt r (c ++ o)) :
    (((combosDict elems entries opens n).flatMap fun sys => pairsOpen sys.2 (openCombos opens)).filter fun q =>
      sameSetB q.1 r && sameSetB q.2 (c ++ o)).length = 1 := by
  unfold combosDict
  set ents := entries.filter fun e => decide (e ∉ opens) with hents
  have hnd : ents.Nodup := hn.filter _
  have hin : ∀ l : List η, (∀ x ∈ l, x ∈ entries ∧ x ∉ opens) → ∀ x ∈ l, x ∈ ents := by
    intro l hl x hx
    exact List.mem_filter.mpr ⟨(hl x hx).1, decide_eq_true (hl x hx).2⟩
  have hout : ∀ x ∈ ents, x ∉ opens := fun x hx => of_decide_eq_true (List.mem_filter.mp hx).2
  set combos := Utils.limitedPowerset ents n
  have hRm : canon ents r ∈ combos := canon_mem ents r hnd hr (hin r hre) hr0 n hrn
  have hCm : canon ents c ∈ combos := canon_mem ents c hnd hcn (hin c hce) hc0 n hcl
  have hsub : ∀ d ∈ combos, d.Sublist ents := fun d hd => ((Verif.Props.Utils.C30_mem ents d n).mp hd).1
  have hRs := canon_same ents r (hin r hre)
  have hCs := canon_same ents c (hin c hce)
  have hOs := canon_same opens o hoo
  have hOm : canon opens o ∈ openCombos opens := by
    unfold openCombos
    apply canon_mem opens o hon hond hoo ho0
    have := (List.Nodup.subperm hond hoo).length_le
    exact_mod_cast this
  have hosub : ∀ d ∈ openCombos opens, d.Sublist opens := fun d hd => ((Verif.Props.Utils.C30_mem opens d _).mp hd).1
  have hkey : chemsysKey elems (canon ents r) (opens.flatMap elems) = chemsysKey elems (canon ents c) (opens.flatMap elems) := by
    apply key_congr
    intro s
    have h1 := same_elements elems amt hc r (c ++ o) hbal s
    rw [List.mem_flatMap, List.mem_flatMap] at h1
    unfold els
    rw [List.mem_append, List.mem_append]
    constructor
    · rintro (hs | hs)
      · obtain ⟨x, hx, hsx⟩ := List.mem_flatMap.mp hs
        obtain ⟨y, hy, hsy⟩ := h1.mp ⟨x, (hRs x).mp hx, hsx⟩
        rcases List.mem_append.mp hy with hy | hy
        · exact Or.inl (List.mem_flatMap.mpr ⟨y, (hCs y).mpr hy, hsy⟩)
        · exact Or.inr (List.mem_flatMap.mpr ⟨y, hoo y hy, hsy⟩)
      · exact Or.inr hs
    · rintro (hs | hs)
      · obtain ⟨x, hx, hsx⟩ := List.mem_flatMap.mp hs
        obtain ⟨y, hy, hsy⟩ := h1.mpr ⟨x, List.mem_append.mpr (Or.inl ((hCs x).mp hx)), hsx⟩
        exact Or.inl (List.mem_flatMap.mpr ⟨y, (hRs y).mpr hy, hsy⟩)
      · exact Or.inr hs
  set key := chemsysKey elems (canon ents r) (opens.flatMap elems) with hkeydef
  set sys : List Char × List (List η) := (key, combos.filter fun c => chemsysKey elems c (opens.flatMap elems) = key) with hsys
  have hRin : canon ents r ∈ sys.2 := List.mem_filter.mpr ⟨hRm, decide_eq_true rfl⟩
  have hCin : canon ents c ∈ sys.2 := List.mem_filter.mpr ⟨hCm, decide_eq_true hkey.symm⟩
  have hmem : sys ∈ groupByChemsys elems combos (opens.flatMap elems) :=
    (mem_group elems combos _ sys).mpr ⟨rfl, List.ne_nil_of_mem hRin⟩
  have hR : ∀ d ∈ combos, (sameSetB d r = true ↔ d = canon ents r) := by
    intro d hd
    rw [sameSetB_iff]
    exact ⟨canon_unique ents d r hnd (hsub d hd), fun h => h ▸ hRs⟩
  have hP : ∀ d ∈ combos, ∀ q ∈ openCombos opens, (sameSetB (union d q) (c ++ o) = true ↔ d = canon ents c ∧ q = canon opens o) := by
    intro d hd q hq
    rw [sameSetB_iff]
    have hdo : ∀ x ∈ d, x ∉ opens := fun x hx => hout x ((hsub d hd).subset hx)
    have hqo : ∀ x ∈ q, x ∈ opens := fun x hx => (hosub q hq).subset hx
    constructor
    · intro h
      constructor
      · apply canon_unique ents d c hnd (hsub d hd)
        intro x
        constructor
        · intro hx
          rcases List.mem_append.mp ((h x).mp (mem_union.mpr (Or.inl hx))) with h1 | h1
          · exact h1
          · exact absurd (hoo x h1) (hdo x hx)
        · intro hx
          rcases mem_union.mp ((h x).mpr (List.mem_append.mpr (Or.inl hx))) with h1 | h1
          · exact h1
          · exact absurd (hqo x h1) (hce x hx).2
      · apply canon_unique opens q o hon (hosub q hq)
        intro x
        constructor
        · intro hx
          rcases List.mem_append.mp ((h x).mp (mem_union.mpr (Or.inr hx))) with h1 | h1
          · exact absurd (hqo x hx) (hce x h1).2
          · exact h1
        · intro hx
          rcases mem_union.mp ((h x).mpr (List.mem_append.mpr (Or.inr hx))) with h1 | h1
          · exact absurd (hoo x hx) (hdo x h1)
          · exact h1
    · rintro ⟨rfl, rfl⟩ x
      rw [mem_union, List.mem_append, hCs x, hOs x]
  have hinter : inter (canon ents c) (canon opens o) = [] := by
    rw [List.eq_nil_iff_forall_not_mem]
    intro x hx
    obtain ⟨h1, h2⟩ := mem_inter.mp hx
    exact (hce x ((hCs x).mp h1)).2 (hoo x ((hOs x).mp h2))
  have hsysnd : sys.2.Nodup := (nodup_powerset ents hnd n).filter _
  have hsysin : ∀ d ∈ sys.2, d ∈ combos := fun d hd => (List.mem_filter.mp hd).1
  rw [filter_groups _ (nodup_group elems combos _) sys hmem]
  · unfold pairsOpen
    rw [filter_flatMap_single sys.2 hsysnd (canon ents r) hRin]
    · rw [List.filter_map, List.length_map]
      unfold combosWithOpen
      have hfun : ∀ d, ((fun q : List η × List η => sameSetB q.1 r && sameSetB q.2 (c ++ o)) ∘ fun d => (canon ents r, d)) d =
          sameSetB d (c ++ o) := by
        intro d
        simp only [Function.comp]
        rw [(hR _ hRm).mpr rfl, Bool.true_and]
      rw [List.filter_congr fun d _ => hfun d]
      rw [filter_flatMap_single sys.2 hsysnd (canon ents c) hCin]
      · rw [List.filter_map, List.length_map, List.filter_filter]
        have hone : ∀ q ∈ openCombos opens, (((fun d => sameSetB d (c ++ o)) ∘ fun q => union (canon ents c) q) q &&
            decide (inter (canon ents c) q = [])) = decide (q = canon opens o) := by
          intro q hq
          rw [Bool.eq_iff_iff, Bool.and_eq_true, decide_eq_true_iff, decide_eq_true_iff]
          simp only [Function.comp]
          rw [hP _ hCm q hq]
          constructor
          · rintro ⟨⟨_, h⟩, _⟩; exact h
          · rintro rfl; exact ⟨⟨rfl, rfl⟩, hinter⟩
        rw [List.filter_congr hone]
        have hnd2 : (openCombos opens).Nodup := nodup_powerset opens hon _
        have hcount : (openCombos opens).count (canon opens o) = 1 := List.count_eq_one_of_mem hnd2 hOm
        rw [← hcount, List.count_eq_length_filter]
        congr 1
        apply List.filter_congr
        intro q _
        rw [Bool.eq_iff_iff, decide_eq_true_iff, beq_iff_eq]
      · intro d hd hne b hb
        obtain ⟨q, hq, rfl⟩ := List.mem_map.mp hb
        rw [← Bool.not_eq_true]
        intro h
        exact hne ((hP d (hsysin d hd) q (List.mem_filter.mp hq).1).mp h).1
    · intro d hd hne b hb
      obtain ⟨q, hq, rfl⟩ := List.mem_map.mp hb
      rw [← Bool.not_eq_true]
      intro h
      rw [Bool.and_eq_true] at h
      exact hne ((hR d (hsysin d hd)).mp h.1)
  · intro s hs hne q hq
    obtain ⟨hs2, _⟩ := (mem_group elems combos _ s).mp hs
    obtain ⟨q1, _⟩ := (mem_pairsOpen s.2 _ q.1 q.2).mp hq
    rw [hs2] at q1
    obtain ⟨m1, k1⟩ := List.mem_filter.mp q1
    rw [← Bool.not_eq_true]
    intro h
    rw [Bool.and_eq_true] at h
    apply hne
    have := (hR q.1 m1).mp h.1
    rw [this] at k1
    exact (of_decide_eq_true k1).symm

/-! ### C36 -/

/-- The reaction consumes exactly one side of the pair and forms exactly the other one. -/
def UsesPair (x : Rx η) (r p : List η) : Prop :=
  (SameSet x.reactants r ∧ SameSet x.products p) ∨ (SameSet x.reactants p ∧ SameSet x.products r)

theorem precFunc_of (cfg : Cfg η) (x : Rx η) (h : Admissible cfg x) (s : List η) (hs : SameSet x.reactants s) : precFunc cfg s = true := by
  unfold precFunc
  split_ifs with h0
  · rfl
  · rw [setFunc_iff]
    refine ⟨fun he a ha => mem_union.mpr (h.precursors h0 he a ((hs a).mpr ha)), fun he => ?_⟩
    obtain ⟨e, h1, h2, _⟩ := h.somePrecursor h0 he
    exact ⟨e, (hs e).mp h1, mem_union.mpr (Or.inl h2)⟩

theorem targFunc_of (cfg : Cfg η) (x : Rx η) (h : Admissible cfg x) (s : List η) (hs : SameSet x.products s) : targFunc cfg s = true := by
  unfold targFunc
  split_ifs with h0
  · rfl
  · rw [setFunc_iff]
    refine ⟨fun he a ha => mem_union.mpr (h.targets h0 he a ((hs a).mpr ha)), fun he => ?_⟩
    obtain ⟨e, h1, h2, _⟩ := h.someTarget h0 he
    exact ⟨e, (hs e).mp h1, mem_union.mpr (Or.inl h2)⟩

/-- A requested precursor takes part (needs a non-open phase on the reactant side). -/
theorem precursor_used (cfg : Cfg η) (x : Rx η) (h : Admissible cfg x) (ho : ∃ e ∈ x.reactants, e ∉ cfg.openEntries)
    (h0 : cfg.precursors ≠ []) : ∃ e ∈ x.reactants, e ∈ cfg.precursors := by
  cases hp : cfg.exclP with
  | true =>
    obtain ⟨e, he, hne⟩ := ho
    exact ⟨e, he, (h.precursors h0 hp e he).resolve_right hne⟩
  | false =>
    obtain ⟨e, he, h2, _⟩ := h.somePrecursor h0 hp
    exact ⟨e, he, h2⟩

theorem target_used (cfg : Cfg η) (x : Rx η) (h : Admissible cfg x) (ho : ∃ e ∈ x.products, e ∉ cfg.openEntries)
    (h0 : cfg.targets ≠ []) : ∃ e ∈ x.products, e ∈ cfg.targets := by
  cases hp : cfg.exclT with
  | true =>
    obtain ⟨e, he, hne⟩ := ho
    exact ⟨e, he, (h.targets h0 hp e he).resolve_right hne⟩
  | false =>
    obtain ⟨e, he, h2, _⟩ := h.someTarget h0 hp
    exact ⟨e, he, h2⟩

theorem nonopen_sides (cfg : Cfg η) (x : Rx η) (r p : List η) (hu : UsesPair x r p) (hr : ∃ e ∈ r, e ∉ cfg.openEntries)
    (hp : ∃ e ∈ p, e ∉ cfg.openEntries) : (∃ e ∈ x.reactants, e ∉ cfg.openEntries) ∧ ∃ e ∈ x.products, e ∉ cfg.openEntries := by
  obtain ⟨a, ha, hao⟩ := hr
  obtain ⟨b, hb, hbo⟩ := hp
  rcases hu with ⟨h1, h2⟩ | ⟨h1, h2⟩
  · exact ⟨⟨a, (h1 a).mpr ha, hao⟩, b, (h2 b).mpr hb, hbo⟩
  · exact ⟨⟨b, (h1 b).mpr hb, hbo⟩, a, (h2 a).mpr ha, hao⟩

theorem used_mem (x : Rx η) (r p : List η) (hu : UsesPair x r p) (e : η) : (e ∈ x.reactants ∨ e ∈ x.products) ↔ (e ∈ r ∨ e ∈ p) := by
  rcases hu with ⟨h1, h2⟩ | ⟨h1, h2⟩
  · rw [h1 e, h2 e]
  · rw [h1 e, h2 e, or_comm]

/-- The early filter on pairs never discards a pair of disjoint sides that has an admissible reaction (in either direction). -/
theorem C36_pair_filter (cfg : Cfg η) (x : Rx η) (h : Admissible cfg x) (r p : List η) (hdis : ∀ e ∈ r, e ∉ p)
    (hr : ∃ e ∈ r, e ∉ cfg.openEntries) (hp : ∃ e ∈ p, e ∉ cfg.openEntries) (hu : UsesPair x r p) : earlyOk cfg r p = true := by
  obtain ⟨ho1, ho2⟩ := nonopen_sides cfg x r p hu hr hp
  have hp0 : p ≠ [] := by obtain ⟨e, he, _⟩ := hp; exact List.ne_nil_of_mem he
  have c1 : inter r p = [] := by
    rw [List.eq_nil_iff_forall_not_mem]
    intro e he
    exact hdis e (mem_inter.mp he).1 (mem_inter.mp he).2
  have c2 : cfg.precursors ≠ [] → inter cfg.precursors (union r p) ≠ [] := by
    intro h0
    obtain ⟨e, he, hep⟩ := precursor_used cfg x h ho1 h0
    exact List.ne_nil_of_mem (mem_inter.mpr ⟨hep, mem_union.mpr ((used_mem x r p hu e).mp (Or.inl he))⟩)
  have c3 : cfg.targets ≠ [] → inter cfg.targets (union r p) ≠ [] := by
    intro h0
    obtain ⟨e, he, hep⟩ := target_used cfg x h ho2 h0
    exact List.ne_nil_of_mem (mem_inter.mpr ⟨hep, mem_union.mpr ((used_mem x r p hu e).mp (Or.inr he))⟩)
  have c4 : precFunc cfg r = true ∨ (p ≠ [] ∧ precFunc cfg p = true) := by
    rcases hu with ⟨h1, h2⟩ | ⟨h1, h2⟩
    · exact Or.inl (precFunc_of cfg x h r h1)
    · exact Or.inr ⟨hp0, precFunc_of cfg x h p h1⟩
  have c5 : targFunc cfg r = true ∨ targFunc cfg p = true := by
    rcases hu with ⟨h1, h2⟩ | ⟨h1, h2⟩
    · exact Or.inr (targFunc_of cfg x h p h2)
    · exact Or.inl (targFunc_of cfg x h r h2)
  unfold earlyOk
  rw [if_neg, if_neg, if_neg]
  · rintro ⟨_, h5⟩; exact h5 c5
  · intro h4; exact h4 c4
  · rintro (h1 | ⟨h1, h2⟩ | ⟨_, h1, h2⟩)
    · exact h1 c1
    · exact c2 h1 h2
    · exact c3 h1 h2

/-- Element lists are usable as keys: every phase has an element and no symbol contains a dash. -/
structure Symbols (elems : η → List Sym) : Prop where
  ne : ∀ x, elems x ≠ []
  dash : ∀ x, ∀ s ∈ elems x, '-' ∉ s

/-- The filter on chemical systems never discards the system of an admissible reaction, if the system has two to nine
elements. -/
theorem C36_system_filter (elems : η → List Sym) (hsym : Symbols elems) (cfg : Cfg η) (x : Rx η) (h : Admissible cfg x)
    (r p : List η) (hr : ∃ e ∈ r, e ∉ cfg.openEntries) (hp : ∃ e ∈ p, e ∉ cfg.openEntries) (hu : UsesPair x r p)
    (hrp : ∀ s, s ∈ els elems r (cfg.openEntries.flatMap elems) ↔ s ∈ els elems p (cfg.openEntries.flatMap elems))
    (hlow : 2 ≤ (els elems r (cfg.openEntries.flatMap elems)).dedup.length)
    (hhigh : (els elems r (cfg.openEntries.flatMap elems)).dedup.length ≤ 9)
    (hfc : cfg.filterChemsys ≠ [] → ∀ f ∈ cfg.filterChemsys.splitOn '-', f ∈ els elems r (cfg.openEntries.flatMap elems)) :
    keepSys elems cfg (chemsysKey elems r (cfg.openEntries.flatMap elems)) = true := by
  obtain ⟨ho1, ho2⟩ := nonopen_sides cfg x r p hu hr hp
  set opens := cfg.openEntries.flatMap elems with hopens
  have hne : els elems r opens ≠ [] := by intro h0; rw [h0] at hlow; simp at hlow
  have hdash : ∀ s ∈ els elems r opens, '-' ∉ s := by
    intro s hs
    rcases List.mem_append.mp hs with hs | hs
    · obtain ⟨y, _, hy⟩ := List.mem_flatMap.mp hs; exact hsym.dash y s hy
    · obtain ⟨y, _, hy⟩ := List.mem_flatMap.mp hs; exact hsym.dash y s hy
  have hsplit : ∀ s, s ∈ ((chemsysKey elems r opens).splitOn '-').dedup ↔ s ∈ els elems r opens := by
    intro s
    rw [List.mem_dedup]
    exact mem_split_key elems r opens hdash hne s
  have hlen : ((chemsysKey elems r opens).splitOn '-').dedup.length = (els elems r opens).dedup.length := by
    apply List.Perm.length_eq
    rw [List.perm_ext_iff_of_nodup (List.nodup_dedup _) (List.nodup_dedup _)]
    intro s
    rw [hsplit s, List.mem_dedup]
  -- elements of the sides of the reaction
  have hside : ∀ y, (y ∈ x.reactants ∨ y ∈ x.products) → ∀ s ∈ elems y, s ∈ els elems r opens := by
    intro y hy s hs
    rcases (used_mem x r p hu y).mp hy with hy | hy
    · exact List.mem_append.mpr (Or.inl (List.mem_flatMap.mpr ⟨y, hy, hs⟩))
    · exact (hrp s).mpr (List.mem_append.mpr (Or.inl (List.mem_flatMap.mpr ⟨y, hy, hs⟩)))
  have hreact : ∀ s ∈ els elems r opens, (∃ y ∈ x.reactants, s ∈ elems y) ∨ s ∈ opens := by
    intro s hs
    rcases hu with ⟨h1, _⟩ | ⟨h1, _⟩
    · rcases List.mem_append.mp hs with hs | hs
      · obtain ⟨y, hy, hsy⟩ := List.mem_flatMap.mp hs; exact Or.inl ⟨y, (h1 y).mpr hy, hsy⟩
      · exact Or.inr hs
    · rcases List.mem_append.mp ((hrp s).mp hs) with hs | hs
      · obtain ⟨y, hy, hsy⟩ := List.mem_flatMap.mp hs; exact Or.inl ⟨y, (h1 y).mpr hy, hsy⟩
      · exact Or.inr hs
  have hprod : ∀ s ∈ els elems r opens, (∃ y ∈ x.products, s ∈ elems y) ∨ s ∈ opens := by
    intro s hs
    rcases hu with ⟨_, h1⟩ | ⟨_, h1⟩
    · rcases List.mem_append.mp ((hrp s).mp hs) with hs | hs
      · obtain ⟨y, hy, hsy⟩ := List.mem_flatMap.mp hs; exact Or.inl ⟨y, (h1 y).mpr hy, hsy⟩
      · exact Or.inr hs
    · rcases List.mem_append.mp hs with hs | hs
      · obtain ⟨y, hy, hsy⟩ := List.mem_flatMap.mp hs; exact Or.inl ⟨y, (h1 y).mpr hy, hsy⟩
      · exact Or.inr hs
  have cP : cfg.precursors ≠ [] → setFunc cfg.exclP (cfg.precursors.flatMap elems ++ opens) ((chemsysKey elems r opens).splitOn '-').dedup = true := by
    intro h0
    rw [setFunc_iff]
    refine ⟨fun he s hs => ?_, fun he => ?_⟩
    · rcases hreact s ((hsplit s).mp hs) with ⟨y, hy, hsy⟩ | hs
      · rcases h.precursors h0 he y hy with hy | hy
        · exact List.mem_append.mpr (Or.inl (List.mem_flatMap.mpr ⟨y, hy, hsy⟩))
        · exact List.mem_append.mpr (Or.inr (List.mem_flatMap.mpr ⟨y, hy, hsy⟩))
      · exact List.mem_append.mpr (Or.inr hs)
    · obtain ⟨e, he1, he2⟩ := precursor_used cfg x h ho1 h0
      obtain ⟨s, hs⟩ := List.exists_mem_of_ne_nil _ (hsym.ne e)
      exact ⟨s, (hsplit s).mpr (hside e (Or.inl he1) s hs), List.mem_append.mpr (Or.inl (List.mem_flatMap.mpr ⟨e, he2, hs⟩))⟩
  have cT : cfg.targets ≠ [] → setFunc cfg.exclT (cfg.targets.flatMap elems ++ opens) ((chemsysKey elems r opens).splitOn '-').dedup = true := by
    intro h0
    rw [setFunc_iff]
    refine ⟨fun he s hs => ?_, fun he => ?_⟩
    · rcases hprod s ((hsplit s).mp hs) with ⟨y, hy, hsy⟩ | hs
      · rcases h.targets h0 he y hy with hy | hy
        · exact List.mem_append.mpr (Or.inl (List.mem_flatMap.mpr ⟨y, hy, hsy⟩))
        · exact List.mem_append.mpr (Or.inr (List.mem_flatMap.mpr ⟨y, hy, hsy⟩))
      · exact List.mem_append.mpr (Or.inr hs)
    · obtain ⟨e, he1, he2⟩ := target_used cfg x h ho2 h0
      obtain ⟨s, hs⟩ := List.exists_mem_of_ne_nil _ (hsym.ne e)
      exact ⟨s, (hsplit s).mpr (hside e (Or.inr he1) s hs), List.mem_append.mpr (Or.inl (List.mem_flatMap.mpr ⟨e, he2, hs⟩))⟩
  unfold keepSys
  simp only
  rw [if_neg, if_neg, if_neg, if_neg]
  · rintro ⟨h1, h2⟩; exact h2 (cT h1)
  · rintro ⟨h1, h2⟩; exact h2 (cP h1)
  · rw [hlen]; omega
  · rintro ⟨h1, h2⟩
    exact h2 fun f hf => (hsplit f).mpr (hfc h1 f hf)

/-- Whatever is suggested for a pair that passes both filters and is admissible is returned. -/
theorem enumerate_mem {τ : Type} (elems : η → List Sym) (cfg : Cfg η) (entries : List η) (n : ℤ)
    (pairsOf : List (List η) → List (List η × List η)) (iterLen : List (List η) → ℕ) (tagOf : List Char → τ)
    (chunkSize maxJobs : ℕ) (react : List η → List η → τ → Except Err (List (Rx η)))
    (wait : ℕ → List (Chunk (List η × List η) τ) → List (Chunk (List η × List η) τ) × List (Chunk (List η × List η) τ))
    (hw : Verif.Props.Utils.WaitSpec wait) (out : List (Rx η))
    (h : enumerate elems cfg entries n pairsOf iterLen tagOf chunkSize maxJobs react wait = .ok out)
    (sys : List Char × List (List η)) (hsys : sys ∈ combosDict elems entries cfg.openEntries n) (hk : keepSys elems cfg sys.1 = true)
    (rp : List η × List η) (hrp : rp ∈ pairsOf sys.2) (he : earlyOk cfg rp.1 rp.2 = true)
    (l : List (Rx η)) (hl : react rp.1 rp.2 (tagOf sys.1) = .ok l) (x : Rx η) (hx : x ∈ l) (ha : Admissible cfg x) : x ∈ out := by
  unfold enumerate at h
  rw [bind_ok] at h
  obtain ⟨size, hsize, h⟩ := h
  have hs : 0 < size := by
    unfold effSize at hsize
    split_ifs at hsize with h1 h2 h3
    · rw [← Except.ok.inj hsize]; exact Nat.succ_pos _
    · rw [← Except.ok.inj hsize]; exact Nat.pos_of_ne_zero h1
  obtain ⟨out', hser, hperm⟩ := (C33_schedule cfg react wait hw size hs _).2 out h
  obtain ⟨hall, hout⟩ := (flatM_ok _ _ _).mp hser
  rw [hperm.mem_iff, hout]
  have hc : (rp, tagOf sys.1) ∈ ((filterDict elems cfg (combosDict elems entries cfg.openEntries n)).map fun p =>
      (pairsOf p.2, tagOf p.1)).flatMap fun it => it.1.map fun r => (r, it.2) :=
    List.mem_flatMap.mpr ⟨(pairsOf sys.2, tagOf sys.1), List.mem_map.mpr ⟨sys, List.mem_filter.mpr ⟨hsys, hk⟩, rfl⟩,
      List.mem_map.mpr ⟨rp, hrp, rfl⟩⟩
  refine List.mem_flatMap.mpr ⟨_, hc, ?_⟩
  obtain ⟨v, hv⟩ := hall _ hc
  have hval : val (fun c : (List η × List η) × τ => reactPair cfg react c.1 c.2) (rp, tagOf sys.1) = v := by unfold val; simp only [hv]
  rw [hval]
  simp only at hv
  unfold reactPair at hv
  rw [if_pos he, bind_ok] at hv
  obtain ⟨l', hl', hv⟩ := hv
  rw [hl] at hl'
  cases hl'
  exact (acceptAll_mem cfg l v hv x).mpr ⟨hx, (accept_iff cfg x).mpr ha⟩

/-- The combinations of one system: non-empty sets of non-open entries with the system's key. -/
theorem mem_combosDict (elems : η → List Sym) (entries opens : List η) (n : ℤ) (sys : List Char × List (List η))
    (hsys : sys ∈ combosDict elems entries opens n) (c : List η) (hc : c ∈ sys.2) :
    sys.1 = chemsysKey elems c (opens.flatMap elems) ∧ c ≠ [] ∧ (∀ e ∈ c, e ∈ entries ∧ e ∉ opens) := by
  obtain ⟨h2, _⟩ := (mem_group elems _ _ sys).mp hsys
  rw [h2] at hc
  obtain ⟨hm, hk⟩ := List.mem_filter.mp hc
  obtain ⟨h3, h4, _⟩ := (Verif.Props.Utils.C30_mem _ c n).mp hm
  refine ⟨(of_decide_eq_true hk).symm, h4, fun e he => ?_⟩
  have := List.mem_filter.mp (h3.subset he)
  exact ⟨this.1, by simpa using this.2⟩

/-- `k` has between two and nine elements. -/
def SizeOk (elems : η → List Sym) (c : List η) (opens : List η) : Prop :=
  2 ≤ (els elems c (opens.flatMap elems)).dedup.length ∧ (els elems c (opens.flatMap elems)).dedup.length ≤ 9

theorem els_of_key (elems : η → List Sym) (hsym : Symbols elems) (c d : List η) (opens : List η)
    (hk : chemsysKey elems c (opens.flatMap elems) = chemsysKey elems d (opens.flatMap elems)) (hc : c ≠ []) (hd : d ≠ []) (s : Sym) :
    s ∈ els elems c (opens.flatMap elems) ↔ s ∈ els elems d (opens.flatMap elems) := by
  have hdash : ∀ c : List η, ∀ s ∈ els elems c (opens.flatMap elems), '-' ∉ s := by
    intro c s hs
    rcases List.mem_append.mp hs with hs | hs
    · obtain ⟨y, _, hy⟩ := List.mem_flatMap.mp hs; exact hsym.dash y s hy
    · obtain ⟨y, _, hy⟩ := List.mem_flatMap.mp hs; exact hsym.dash y s hy
  have hne : ∀ c : List η, c ≠ [] → els elems c (opens.flatMap elems) ≠ [] := by
    intro c hc
    obtain ⟨e, he⟩ := List.exists_mem_of_ne_nil _ hc
    obtain ⟨t, ht⟩ := List.exists_mem_of_ne_nil _ (hsym.ne e)
    exact List.ne_nil_of_mem (List.mem_append.mpr (Or.inl (List.mem_flatMap.mpr ⟨e, he, ht⟩)))
  rw [← mem_split_key elems c _ (hdash c) (hne c hc), ← mem_split_key elems d _ (hdash d) (hne d hd), hk]

/-- BasicEnumerator: no admissible reaction between the two sides of a candidate pair is lost by the early filters, chunking or
scheduling. `hfc`: a requested `filter_by_chemsys` is part of the system. Missing for the full statement: systems of ten or more
elements (counterexample below), and reactions suggested for a pair that do not use exactly its two sides (possible only with
`remove_changed=False`). -/
theorem C36_basic_partial {τ : Type} (elems : η → List Sym) (hsym : Symbols elems) (cfg : Cfg η) (entries : List η) (n : ℤ)
    (iterLen : List (List η) → ℕ) (tagOf : List Char → τ)
    (chunkSize maxJobs : ℕ) (react : List η → List η → τ → Except Err (List (Rx η)))
    (wait : ℕ → List (Chunk (List η × List η) τ) → List (Chunk (List η × List η) τ) × List (Chunk (List η × List η) τ))
    (hw : Verif.Props.Utils.WaitSpec wait) (out : List (Rx η))
    (h : enumerate elems cfg entries n pairs2 iterLen tagOf chunkSize maxJobs react wait = .ok out)
    (sys : List Char × List (List η)) (hsys : sys ∈ combosDict elems entries cfg.openEntries n)
    (r p : List η) (hrp : (r, p) ∈ pairs2 sys.2) (hdis : ∀ e ∈ r, e ∉ p)
    (l : List (Rx η)) (hl : react r p (tagOf sys.1) = .ok l) (x : Rx η) (hx : x ∈ l) (ha : Admissible cfg x)
    (hu : UsesPair x r p) (hsize : SizeOk elems r cfg.openEntries)
    (hfc : cfg.filterChemsys ≠ [] → ∀ f ∈ cfg.filterChemsys.splitOn '-', f ∈ els elems r (cfg.openEntries.flatMap elems)) :
    x ∈ out := by
  obtain ⟨hr, hp⟩ := mem_pairs2 sys.2 (r, p) hrp
  obtain ⟨kr, r0, ro⟩ := mem_combosDict elems entries _ n sys hsys r hr
  obtain ⟨kp, p0, po⟩ := mem_combosDict elems entries _ n sys hsys p hp
  have hrn : ∃ e ∈ r, e ∉ cfg.openEntries := by
    obtain ⟨e, he⟩ := List.exists_mem_of_ne_nil _ r0; exact ⟨e, he, (ro e he).2⟩
  have hpn : ∃ e ∈ p, e ∉ cfg.openEntries := by
    obtain ⟨e, he⟩ := List.exists_mem_of_ne_nil _ p0; exact ⟨e, he, (po e he).2⟩
  have hkeep := C36_system_filter elems hsym cfg x ha r p hrn hpn hu
    (els_of_key elems hsym r p cfg.openEntries (kr.symm.trans kp) r0 p0) hsize.1 hsize.2 hfc
  rw [← kr] at hkeep
  exact enumerate_mem elems cfg entries n pairs2 iterLen tagOf chunkSize maxJobs react wait hw out h sys hsys hkeep (r, p) hrp
    (C36_pair_filter cfg x ha r p hdis hrn hpn hu) l hl x hx ha

/-- BasicOpenEnumerator: the same for pairs with open phases on one side. Missing: as for `C36_basic_partial`. -/
theorem C36_open_partial {τ : Type} (elems : η → List Sym) (hsym : Symbols elems) (cfg : Cfg η) (entries : List η) (n : ℤ)
    (iterLen : List (List η) → ℕ) (tagOf : List Char → τ)
    (chunkSize maxJobs : ℕ) (react : List η → List η → τ → Except Err (List (Rx η)))
    (wait : ℕ → List (Chunk (List η × List η) τ) → List (Chunk (List η × List η) τ) × List (Chunk (List η × List η) τ))
    (hw : Verif.Props.Utils.WaitSpec wait) (out : List (Rx η))
    (h : enumerate elems cfg entries n (fun c => pairsOpen c (openCombos cfg.openEntries)) iterLen tagOf chunkSize maxJobs react wait = .ok out)
    (sys : List Char × List (List η)) (hsys : sys ∈ combosDict elems entries cfg.openEntries n)
    (r p : List η) (hrp : (r, p) ∈ pairsOpen sys.2 (openCombos cfg.openEntries)) (hdis : ∀ e ∈ r, e ∉ p)
    (l : List (Rx η)) (hl : react r p (tagOf sys.1) = .ok l) (x : Rx η) (hx : x ∈ l) (ha : Admissible cfg x)
    (hu : UsesPair x r p) (hsize : SizeOk elems r cfg.openEntries)
    (hfc : cfg.filterChemsys ≠ [] → ∀ f ∈ cfg.filterChemsys.splitOn '-', f ∈ els elems r (cfg.openEntries.flatMap elems)) :
    x ∈ out := by
  obtain ⟨hr, c, hc, o, ho, hi, hpo⟩ := (mem_pairsOpen _ _ r p).mp hrp
  obtain ⟨kr, r0, ro⟩ := mem_combosDict elems entries _ n sys hsys r hr
  obtain ⟨kc, c0, co⟩ := mem_combosDict elems entries _ n sys hsys c hc
  have hosub := ((Verif.Props.Utils.C30_mem _ o _).mp ho).1
  have hrn : ∃ e ∈ r, e ∉ cfg.openEntries := by
    obtain ⟨e, he⟩ := List.exists_mem_of_ne_nil _ r0; exact ⟨e, he, (ro e he).2⟩
  have hpn : ∃ e ∈ p, e ∉ cfg.openEntries := by
    obtain ⟨e, he⟩ := List.exists_mem_of_ne_nil _ c0
    refine ⟨e, ?_, (co e he).2⟩
    rw [hpo]; exact mem_union.mpr (Or.inl he)
  have hels : ∀ s, s ∈ els elems r (cfg.openEntries.flatMap elems) ↔ s ∈ els elems p (cfg.openEntries.flatMap elems) := by
    intro s
    rw [els_of_key elems hsym r c cfg.openEntries (kr.symm.trans kc) r0 c0 s]
    unfold els
    rw [List.mem_append, List.mem_append, hpo]
    constructor
    · rintro (hs | hs)
      · obtain ⟨y, hy, hs⟩ := List.mem_flatMap.mp hs
        exact Or.inl (List.mem_flatMap.mpr ⟨y, mem_union.mpr (Or.inl hy), hs⟩)
      · exact Or.inr hs
    · rintro (hs | hs)
      · obtain ⟨y, hy, hs⟩ := List.mem_flatMap.mp hs
        rcases mem_union.mp hy with hy | hy
        · exact Or.inl (List.mem_flatMap.mpr ⟨y, hy, hs⟩)
        · exact Or.inr (List.mem_flatMap.mpr ⟨y, hosub.subset hy, hs⟩)
      · exact Or.inr hs
  have hkeep := C36_system_filter elems hsym cfg x ha r p hrn hpn hu hels hsize.1 hsize.2 hfc
  rw [← kr] at hkeep
  exact enumerate_mem elems cfg entries n _ iterLen tagOf chunkSize maxJobs react wait hw out h sys hsys hkeep (r, p) hrp
    (C36_pair_filter cfg x ha r p hdis hrn hpn hu) l hl x hx ha

theorem els_congr (elems : η → List Sym) (c d : List η) (opens : List Sym) (h : SameSet c d) (s : Sym) :
    s ∈ els elems c opens ↔ s ∈ els elems d opens := by
  unfold els
  rw [List.mem_append, List.mem_append, List.mem_flatMap, List.mem_flatMap]
  apply or_congr_left
  exact ⟨fun ⟨y, hy, hs⟩ => ⟨y, (h y).mp hy, hs⟩, fun ⟨y, hy, hs⟩ => ⟨y, (h y).mpr hy, hs⟩⟩

theorem usesPair_congr (x : Rx η) (r p R P : List η) (h : UsesPair x r p)
    (hs : (SameSet R r ∧ SameSet P p) ∨ (SameSet R p ∧ SameSet P r)) : UsesPair x R P := by
  have tr : ∀ {a b c : List η}, SameSet a b → SameSet c b → SameSet a c := fun h1 h2 y => (h1 y).trans (h2 y).symm
  rcases h with ⟨h1, h2⟩ | ⟨h1, h2⟩ <;> rcases hs with ⟨h3, h4⟩ | ⟨h3, h4⟩
  · exact Or.inl ⟨tr h1 h3, tr h2 h4⟩
  · exact Or.inr ⟨tr h1 h4, tr h2 h3⟩
  · exact Or.inr ⟨tr h1 h4, tr h2 h3⟩
  · exact Or.inl ⟨tr h1 h3, tr h2 h4⟩

/-- End to end for the BasicEnumerator: for every balanceable `r -> p` between disjoint sets of at most `n` entries in a system
of two to nine elements there is a candidate pair with these sides, and every admissible reaction between `r` and `p` (in either
direction) that the reacting function finds for it is returned, whatever the chunk size, job limit and schedule. Missing: as for
`C36_basic_partial`. -/
theorem C36_found_partial {τ : Type} (elems : η → List Sym) (hsym : Symbols elems) (amt : η → Sym → ℚ) (hc : Comps elems amt)
    (cfg : Cfg η) (hopen : cfg.openEntries = []) (entries : List η) (hn : entries.Nodup) (n : ℤ)
    (iterLen : List (List η) → ℕ) (tagOf : List Char → τ)
    (chunkSize maxJobs : ℕ) (react : List η → List η → τ → Except Err (List (Rx η)))
    (wait : ℕ → List (Chunk (List η × List η) τ) → List (Chunk (List η × List η) τ) × List (Chunk (List η × List η) τ))
    (hw : Verif.Props.Utils.WaitSpec wait) (out : List (Rx η))
    (h : enumerate elems cfg entries n pairs2 iterLen tagOf chunkSize maxJobs react wait = .ok out)
    (r p : List η) (hr : r.Nodup) (hp : p.Nodup) (hr0 : r ≠ []) (hp0 : p ≠ []) (hrn : (r.length : ℤ) ≤ n) (hpn : (p.length : ℤ) ≤ n)
    (hre : ∀ x ∈ r, x ∈ entries) (hpe : ∀ x ∈ p, x ∈ entries) (hdis : ∀ x ∈ r, x ∉ p) (hbal : Balanceable amt r p)
    (hsize : 2 ≤ (r.flatMap elems).dedup.length ∧ (r.flatMap elems).dedup.length ≤ 9)
    (hfc : cfg.filterChemsys ≠ [] → ∀ f ∈ cfg.filterChemsys.splitOn '-', f ∈ r.flatMap elems) :
    ∃ R P, ((SameSet R r ∧ SameSet P p) ∨ (SameSet R p ∧ SameSet P r)) ∧ ∃ tag, ∀ l, react R P tag = .ok l →
      ∀ x ∈ l, Admissible cfg x → UsesPair x r p → x ∈ out := by
  have h1 := C35_complete elems amt hc entries hn n r p hr hp hr0 hp0 hrn hpn hre hpe hdis hbal
  obtain ⟨q, hq⟩ := List.length_eq_one_iff.mp h1
  have hq : q ∈ ((combosDict elems entries [] n).flatMap fun sys => pairs2 sys.2).filter fun q =>
      (sameSetB q.1 r && sameSetB q.2 p) || (sameSetB q.1 p && sameSetB q.2 r) := by rw [hq]; exact List.mem_cons_self
  obtain ⟨hq1, hq2⟩ := List.mem_filter.mp hq
  obtain ⟨sys, hsys, hqs⟩ := List.mem_flatMap.mp hq1
  rw [Bool.or_eq_true, Bool.and_eq_true, Bool.and_eq_true, sameSetB_iff, sameSetB_iff, sameSetB_iff, sameSetB_iff] at hq2
  have hsame : ∀ s, s ∈ els elems q.1 (cfg.openEntries.flatMap elems) ↔ s ∈ r.flatMap elems := by
    intro s
    rw [hopen, List.flatMap_nil]
    have hnil : ∀ c : List η, els elems c [] = c.flatMap elems := fun c => List.append_nil _
    rcases hq2 with ⟨h3, _⟩ | ⟨h3, _⟩
    · rw [els_congr elems _ _ _ h3 s, hnil]
    · rw [els_congr elems _ _ _ h3 s, hnil, same_elements elems amt hc r p hbal s]
  have hlen : (els elems q.1 (cfg.openEntries.flatMap elems)).dedup.length = (r.flatMap elems).dedup.length := by
    apply List.Perm.length_eq
    rw [List.perm_ext_iff_of_nodup (List.nodup_dedup _) (List.nodup_dedup _)]
    intro s
    rw [List.mem_dedup, List.mem_dedup, hsame s]
  refine ⟨q.1, q.2, hq2, tagOf sys.1, fun l hl x hx ha hu => ?_⟩
  refine C36_basic_partial elems hsym cfg entries n iterLen tagOf chunkSize maxJobs react wait hw out h sys (by rw [hopen]; exact hsys) q.1 q.2
    hqs ?_ l hl x hx ha (usesPair_congr x r p q.1 q.2 hu hq2) ⟨by rw [hlen]; exact hsize.1, by rw [hlen]; exact hsize.2⟩ ?_
  · intro e he hep
    rcases hq2 with ⟨h3, h4⟩ | ⟨h3, h4⟩
    · exact hdis e ((h3 e).mp he) ((h4 e).mp hep)
    · exact hdis e ((h4 e).mp hep) ((h3 e).mp he)
  · intro h0 f hf
    exact (hsame f).mpr (hfc h0 f hf)

/-! ### Concrete enumerations -/

/-- `0` = AB, `1` = A, `2` = B. -/
def exElems : ℕ → List Sym
  | 0 => [['A'], ['B']]
  | 1 => [['A']]
  | _ => [['B']]

def exCfg : Cfg ℕ where
  precursors := []
  targets := [0]
  openEntries := []
  exclP := false
  exclT := false
  removeUnbalanced := true
  removeChanged := true
  maxConstraints := 1
  filterChemsys := []

/-- A reacting function that suggests both directions of the pair. -/
def exReact (r p : List ℕ) (_ : Unit) : Except Err (List (Rx ℕ)) :=
  .ok [⟨false, true, some 0, some 1, r, p⟩, ⟨false, true, some 0, some 1, p, r⟩]

/-- The enumeration of A, B, AB with target AB: only the direction that forms AB is returned. -/
theorem exEnumerate : enumerate exElems exCfg [0, 1, 2] 2 pairs2 (fun c => c.length.choose 2) (fun _ => ()) 1 10 exReact
    Verif.Props.Utils.lifo = .ok [⟨false, true, some 0, some 1, [1, 2], [0]⟩] := by decide +kernel

example : ∀ x ∈ [(⟨false, true, some 0, some 1, [1, 2], [0]⟩ : Rx ℕ)], Admissible exCfg x ∧
      ∃ sys ∈ combosDict exElems [0, 1, 2] exCfg.openEntries 2, ∃ rp ∈ pairs2 sys.2, ∃ l, exReact rp.1 rp.2 () = .ok l ∧ x ∈ l :=
  C34_admissible exElems exCfg [0, 1, 2] 2 pairs2 (fun c => c.length.choose 2) (fun _ => ()) 1 10 exReact
    Verif.Props.Utils.lifo Verif.Props.Utils.lifo_spec _ exEnumerate

def exAmt (x : ℕ) (s : Sym) : ℚ := if s ∈ exElems x then 1 else 0

theorem exComps : Comps exElems exAmt := ⟨fun x s => by unfold exAmt; split_ifs <;> norm_num, fun x s => by unfold exAmt; split_ifs with h <;> simp [h]⟩

theorem exSymbols : Symbols exElems := by
  constructor
  · intro x; unfold exElems; split <;> simp
  · intro x s hs
    unfold exElems at hs
    split at hs <;> (simp at hs; aesop)

theorem exBalanceable : Balanceable exAmt [1, 2] [0] := by
  refine ⟨fun _ => 1, fun _ => 1, by simp, by simp, fun s => ?_⟩
  by_cases h1 : s = ['A']
  · subst h1; decide +kernel
  · by_cases h2 : s = ['B']
    · subst h2; decide +kernel
    · simp [exAmt, exElems, h1, h2]

example : (((combosDict exElems [0, 1, 2] [] 2).flatMap fun sys => pairs2 sys.2).filter fun q =>
      (sameSetB q.1 [1, 2] && sameSetB q.2 [0]) || (sameSetB q.1 [0] && sameSetB q.2 [1, 2])).length = 1 :=
  C35_complete exElems exAmt exComps [0, 1, 2] (by decide) 2 [1, 2] [0] (by decide) (by decide) (by decide) (by decide) (by decide)
    (by decide) (by decide) (by decide) (by decide) exBalanceable

-- open phase `2`: the reaction AB -> A + B is a candidate of the open enumerator
example : (((combosDict exElems [0, 1, 2] [2] 2).flatMap fun sys => pairsOpen sys.2 (openCombos [2])).filter fun q =>
      sameSetB q.1 [0] && sameSetB q.2 ([1] ++ [2])).length = 1 :=
  C35_open exElems exAmt exComps [0, 1, 2] [2] (by decide) (by decide) 2 [0] [1] [2] (by decide) (by decide) (by decide) (by decide)
    (by decide) (by decide) (by decide) (by decide) (by decide) (by decide) (by decide)
    (by obtain ⟨a, b, h1, h2, h3⟩ := exBalanceable
        exact ⟨b, a, h2, h1, fun s => (h3 s).symm⟩)

example : ∃ R P, ((SameSet R [1, 2] ∧ SameSet P [0]) ∨ (SameSet R [0] ∧ SameSet P [1, 2])) ∧ ∃ tag, ∀ l, exReact R P tag = .ok l →
      ∀ x ∈ l, Admissible exCfg x → UsesPair x [1, 2] [0] → x ∈ [(⟨false, true, some 0, some 1, [1, 2], [0]⟩ : Rx ℕ)] :=
  C36_found_partial exElems exSymbols exAmt exComps exCfg rfl [0, 1, 2] (by decide) 2 _ _ 1 10 exReact Verif.Props.Utils.lifo
    Verif.Props.Utils.lifo_spec _ exEnumerate [1, 2] [0] (by decide) (by decide) (by decide) (by decide) (by decide) (by decide)
    (by decide) (by decide) (by decide) exBalanceable (by decide) (by decide)

/-- ten elements: `0` has all of them, `1` and `2` five each -/
def tenElems : ℕ → List Sym
  | 0 => [['A'], ['B'], ['C'], ['D'], ['E'], ['F'], ['G'], ['H'], ['I'], ['J']]
  | 1 => [['A'], ['B'], ['C'], ['D'], ['E']]
  | _ => [['F'], ['G'], ['H'], ['I'], ['J']]

/-- The early filters lose admissible reactions of systems with ten or more elements: `1 + 2 -> 0` conserves every element, is
suggested and admissible, but nothing is returned. -/
theorem C36_ten_elements_counterexample :
    (∀ s : Sym, ([1, 2].map fun x => if s ∈ tenElems x then (1 : ℚ) else 0).sum = ([0].map fun x => if s ∈ tenElems x then (1 : ℚ) else 0).sum) ∧
    accept exCfg ⟨false, true, some 0, some 1, [1, 2], [0]⟩ = .ok true ∧
    enumerate tenElems exCfg [0, 1, 2] 2 pairs2 (fun c => c.length.choose 2) (fun _ => ()) 1 10 exReact Verif.Props.Utils.lifo = .ok [] := by
  refine ⟨?_, by decide +kernel, by decide +kernel⟩
  intro s
  by_cases h : s ∈ tenElems 0
  · revert h; revert s; decide +kernel
  · have h1 : s ∉ tenElems 1 := fun hs => h ((by decide +kernel : ∀ s ∈ tenElems 1, s ∈ tenElems 0) s hs)
    have h2 : s ∉ tenElems 2 := fun hs => h ((by decide +kernel : ∀ s ∈ tenElems 2, s ∈ tenElems 0) s hs)
    simp [h, h1, h2]

/-! ### C66: `filter_by_chemsys` -/

/-- Every returned reaction was suggested in a system that contains all elements of `filter_by_chemsys`. Missing for the
documented behaviour ("all output reactions contain at least one element within the provided system"): reactions with only
some of these elements are not returned, see the counterexample. -/
theorem C66_filter_partial {τ : Type} (elems : η → List Sym) (hsym : Symbols elems) (cfg : Cfg η) (entries : List η) (n : ℤ)
    (iterLen : List (List η) → ℕ) (tagOf : List Char → τ)
    (chunkSize maxJobs : ℕ) (react : List η → List η → τ → Except Err (List (Rx η)))
    (wait : ℕ → List (Chunk (List η × List η) τ) → List (Chunk (List η × List η) τ) × List (Chunk (List η × List η) τ))
    (hw : Verif.Props.Utils.WaitSpec wait) (out : List (Rx η))
    (h : enumerate elems cfg entries n pairs2 iterLen tagOf chunkSize maxJobs react wait = .ok out) (hf : cfg.filterChemsys ≠ []) :
    ∀ x ∈ out, ∃ r p tag l, react r p tag = .ok l ∧ x ∈ l ∧
      ∀ f ∈ cfg.filterChemsys.splitOn '-', f ∈ els elems r (cfg.openEntries.flatMap elems) ∧ f ∈ els elems p (cfg.openEntries.flatMap elems) := by
  unfold enumerate at h
  rw [bind_ok] at h
  obtain ⟨size, hsize, h⟩ := h
  have hs : 0 < size := by
    unfold effSize at hsize
    split_ifs at hsize with h1 h2 h3
    · rw [← Except.ok.inj hsize]; exact Nat.succ_pos _
    · rw [← Except.ok.inj hsize]; exact Nat.pos_of_ne_zero h1
  obtain ⟨out', hser, hperm⟩ := (C33_schedule cfg react wait hw size hs _).2 out h
  obtain ⟨hall, hout⟩ := (flatM_ok _ _ _).mp hser
  intro x hx
  have hx' := hperm.mem_iff.mp hx
  rw [hout] at hx'
  obtain ⟨c, hc, hxc⟩ := List.mem_flatMap.mp hx'
  obtain ⟨v, hv⟩ := hall c hc
  have hval : val (fun c : (List η × List η) × τ => reactPair cfg react c.1 c.2) c = v := by unfold val; simp only [hv]
  rw [hval] at hxc
  obtain ⟨_, _, l, hl, hxl⟩ := reactPair_mem cfg react c.1 c.2 v hv x hxc
  obtain ⟨it, hit, hcit⟩ := List.mem_flatMap.mp hc
  obtain ⟨sys, hsys, rfl⟩ := List.mem_map.mp hit
  obtain ⟨rp, hrp, rfl⟩ := List.mem_map.mp hcit
  obtain ⟨hsys, hkeep⟩ := List.mem_filter.mp hsys
  refine ⟨rp.1, rp.2, _, l, hl, hxl, fun f hff => ?_⟩
  obtain ⟨hr, hp⟩ := mem_pairs2 sys.2 rp hrp
  obtain ⟨kr, r0, _⟩ := mem_combosDict elems entries _ n sys hsys rp.1 hr
  obtain ⟨kp, p0, _⟩ := mem_combosDict elems entries _ n sys hsys rp.2 hp
  have hel := els_of_key elems hsym rp.1 rp.2 cfg.openEntries (kr.symm.trans kp) r0 p0 f
  have hin : f ∈ els elems rp.1 (cfg.openEntries.flatMap elems) := by
    have hk : keepSys elems cfg sys.1 = true := hkeep
    unfold keepSys at hk
    simp only at hk
    split_ifs at hk with h1
    all_goals
      have h2 : ∀ f ∈ cfg.filterChemsys.splitOn '-', f ∈ (sys.1.splitOn '-').dedup := by
        by_contra h2
        exact h1 ⟨hf, h2⟩
      have h3 := List.mem_dedup.mp (h2 f hff)
      rw [kr] at h3
      rw [mem_split_key] at h3
      · exact h3
      · intro s hs
        rcases List.mem_append.mp hs with hs | hs
        · obtain ⟨y, _, hy⟩ := List.mem_flatMap.mp hs; exact hsym.dash y s hy
        · obtain ⟨y, _, hy⟩ := List.mem_flatMap.mp hs; exact hsym.dash y s hy
      · obtain ⟨e, he⟩ := List.exists_mem_of_ne_nil _ r0
        obtain ⟨t, ht⟩ := List.exists_mem_of_ne_nil _ (hsym.ne e)
        exact List.ne_nil_of_mem (List.mem_append.mpr (Or.inl (List.mem_flatMap.mpr ⟨e, he, ht⟩)))
  exact ⟨hin, hel.mp hin⟩

/-- With `filter_by_chemsys = "A-C"` the admissible reaction A + B -> AB, which contains the element A of the provided system, is
dropped. -/
theorem C66_superset_counterexample :
    enumerate exElems { exCfg with filterChemsys := ['A', '-', 'C'] } [0, 1, 2] 2 pairs2 (fun c => c.length.choose 2) (fun _ => ()) 1 10
      exReact Verif.Props.Utils.lifo = .ok [] := by decide +kernel

example : enumerate exElems { exCfg with filterChemsys := ['A'] } [0, 1, 2] 2 pairs2 (fun c => c.length.choose 2) (fun _ => ()) 1 10
      exReact Verif.Props.Utils.lifo = .ok [⟨false, true, some 0, some 1, [1, 2], [0]⟩] := by decide +kernel

/-! ### C34 for the BasicEnumerator -/

section Basic
open Verif.Model.Reaction Verif.Spec.Reaction
variable {κ ε : Type} [DecidableEq κ] [DecidableEq ε]

/-- Entries on the two sides of a coefficient list that is negative on `r` and positive on `p`. -/
theorem view_sides {α : Type} (r p : List α) (cf : List ℚ) (hlen : cf.length = r.length + p.length)
    (hneg : ∀ x ∈ cf.take r.length, x < 0) (hpos : ∀ x ∈ cf.drop r.length, 0 < x) :
    (((r ++ p).zip cf).filter fun q => q.2 < 0).map Prod.fst = r ∧ (((r ++ p).zip cf).filter fun q => 0 < q.2).map Prod.fst = p := by
  have hzip : (r ++ p).zip cf = r.zip (cf.take r.length) ++ p.zip (cf.drop r.length) := by
    conv_lhs => rw [← List.take_append_drop r.length cf]
    rw [List.zip_append]
    simp; omega
  have fneg : ∀ q ∈ r.zip (cf.take r.length), q.2 < 0 := fun q hq => hneg q.2 (List.of_mem_zip (a := q.1) (b := q.2) hq).2
  have fpos : ∀ q ∈ p.zip (cf.drop r.length), 0 < q.2 := fun q hq => hpos q.2 (List.of_mem_zip (a := q.1) (b := q.2) hq).2
  constructor
  · rw [hzip, List.filter_append, List.filter_eq_self.mpr (by intro q hq; exact decide_eq_true (fneg q hq)),
      List.filter_eq_nil_iff.mpr (by intro q hq; simpa using (fpos q hq).le), List.append_nil, List.map_fst_zip (by simp; omega)]
  · rw [hzip, List.filter_append, List.filter_eq_nil_iff.mpr (by intro q hq; simpa using (fneg q hq).le), List.nil_append,
      List.filter_eq_self.mpr (by intro q hq; exact decide_eq_true (fpos q hq)), List.map_fst_zip (by simp; omega)]

theorem view_sides_rev {α : Type} (r p : List α) (cf : List ℚ) (hlen : cf.length = r.length + p.length)
    (hneg : ∀ x ∈ cf.take r.length, x < 0) (hpos : ∀ x ∈ cf.drop r.length, 0 < x) :
    (((r ++ p).zip (cf.map fun c => -1 * c)).filter fun q => q.2 < 0).map Prod.fst = p ∧
    (((r ++ p).zip (cf.map fun c => -1 * c)).filter fun q => 0 < q.2).map Prod.fst = r := by
  have e1 : ((r ++ p).zip (cf.map fun c => -1 * c)) = ((r ++ p).zip cf).map fun q => (q.1, -1 * q.2) := by
    rw [List.zip_map_right]; rfl
  have h := view_sides r p cf hlen hneg hpos
  rw [e1, List.filter_map, List.filter_map, List.map_map, List.map_map]
  constructor
  · refine Eq.trans ?_ h.2
    have : (Prod.fst ∘ fun q : α × ℚ => (q.1, -1 * q.2)) = Prod.fst := rfl
    rw [this]
    congr 1
    apply List.filter_congr
    intro q _
    rw [Bool.eq_iff_iff]
    simp
  · refine Eq.trans ?_ h.1
    have : (Prod.fst ∘ fun q : α × ℚ => (q.1, -1 * q.2)) = Prod.fst := rfl
    rw [this]
    congr 1
    apply List.filter_congr
    intro q _
    rw [Bool.eq_iff_iff]
    simp

/-- With `remove_changed` (the default) every reaction returned by the BasicEnumerator has exactly the two sides of one of the
candidate pairs as reactants and products, in one of the two directions, and there are amounts of the pair's phases, negative on
one side and positive on the other one, that conserve every element within `1e-8`; for every behaviour of the linear algebra
backend. -/
theorem C34_basic {τ : Type} (X : Chem κ ε) (hX : X.Lawful) (rank : List (Entry κ) → List (Entry κ) → ℕ)
    (solve : List (Entry κ) → List (Entry κ) → List ℕ → List ℚ)
    (hshape : ∀ r p cs, (solve r p cs).length = r.length + p.length)
    (elems : Entry κ → List Sym) (cfg : Cfg (Entry κ)) (hrc : cfg.removeChanged = true) (entries : List (Entry κ)) (n : ℤ)
    (pairsOf : List (List (Entry κ)) → List (List (Entry κ) × List (Entry κ))) (iterLen : List (List (Entry κ)) → ℕ)
    (tagOf : List Char → τ) (chunkSize maxJobs : ℕ)
    (wait : ℕ → List (Chunk (List (Entry κ) × List (Entry κ)) τ) → List (Chunk (List (Entry κ) × List (Entry κ)) τ) × List (Chunk (List (Entry κ) × List (Entry κ)) τ))
    (hw : Verif.Props.Utils.WaitSpec wait) (out : List (Rx (Entry κ)))
    (h : enumerate elems cfg entries n pairsOf iterLen tagOf chunkSize maxJobs (reactBasic X rank solve) wait = .ok out) :
    ∀ x ∈ out, ∃ sys ∈ combosDict elems entries cfg.openEntries n, ∃ r p, (r, p) ∈ pairsOf sys.2 ∧
      ((x.reactants = r ∧ x.products = p) ∨ (x.reactants = p ∧ x.products = r)) ∧
      ∃ cf : List ℚ, (∀ c ∈ cf.take r.length, c < 0) ∧ (∀ c ∈ cf.drop r.length, 0 < c) ∧ cf.length = r.length + p.length ∧
        ∀ e, |net X ((r ++ p).map fun y => X.red y.comp) cf e| ≤ 1 / 100000000 := by
  intro x hx
  obtain ⟨ha, sys, hsys, rp, hrp, l, hl, hxl⟩ := C34_admissible elems cfg entries n pairsOf iterLen tagOf chunkSize maxJobs _ wait hw out h x hx
  have hl' := Except.ok.inj hl
  set f := balanceComputed X rp.1 rp.2 (rank rp.1 rp.2) (solve rp.1 rp.2) [] with hf
  have hlne0 := ha.clean hrc
  have hlne : f.base.lne = some 0 := by
    rw [← hl'] at hxl
    rcases List.mem_cons.mp hxl with rfl | hxl
    · exact hlne0
    · rw [List.mem_singleton.mp hxl] at hlne0
      exact hlne0
  set cf := (balanceCoeffs X (rp.1.map fun e => X.red e.comp) (rp.2.map fun e => X.red e.comp) (rank rp.1 rp.2) (solve rp.1 rp.2)).1 with hcf
  have hsh : ∀ cs, (solve rp.1 rp.2 cs).length = (rp.1.map fun e => X.red e.comp).length + (rp.2.map fun e => X.red e.comp).length := by
    intro cs; rw [List.length_map, List.length_map]; exact hshape _ _ cs
  obtain ⟨hcons, hside⟩ := Verif.Props.Balance.C10_sound X hX _ _ (rank rp.1 rp.2) (solve rp.1 rp.2) hsh 0 hlne
  obtain ⟨hneg, hpos⟩ := hside rfl
  have hlen : cf.length = rp.1.length + rp.2.length := by
    have := (Verif.Props.Balance.loop_sound (conservesClose X _) (numErrors _ _) (solve rp.1 rp.2)
        (constraintSets _ _ _) (_, none) (fun l => l.length = (rp.1.map fun e => X.red e.comp).length + (rp.2.map fun e => X.red e.comp).length)
        (fun cs _ => hsh cs) (by intro k hk; simp at hk) 0 hlne).2.2
    refine Eq.trans this ?_
    rw [List.length_map, List.length_map]
  rw [List.length_map] at hneg hpos
  have hneg' : ∀ c ∈ cf.take rp.1.length, c < 0 := fun c hc => by have := hneg c hc; linarith
  have hpos' : ∀ c ∈ cf.drop rp.1.length, 0 < c := fun c hc => by have := hpos c hc; linarith
  refine ⟨sys, hsys, rp.1, rp.2, hrp, ?_, cf, hneg', hpos', hlen, ?_⟩
  · rw [← hl'] at hxl
    rcases List.mem_cons.mp hxl with rfl | hxl
    · exact Or.inl (view_sides rp.1 rp.2 cf hlen hneg' hpos')
    · rw [List.mem_singleton.mp hxl]
      exact Or.inr (view_sides_rev rp.1 rp.2 cf hlen hneg' hpos')
  · intro e
    rw [List.map_append]
    exact hcons e

end Basic

end Verif.Props.EnumGroup
