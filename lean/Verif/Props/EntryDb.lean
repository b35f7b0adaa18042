import Verif.Lemmas.Combinations
import Verif.Props.Thermo
import Verif.Model.EntryFlow

/-! Properties C88 and C89: database queries by chemical system, equality and hashes of entries. -/

namespace Verif.Props.EntryDb
open Verif.Py Verif.Model Verif.Model.EntryFlow Verif.Lemmas

set_option linter.unusedSectionVars false

/-! ### C88 -/

section Db
variable {α : Type}

/-- Specification: the entries of the documents whose elements all belong to the chemical system. -/
def wanted (db : List (Doc α)) (els : List Enum.Sym) : List α :=
  (db.filter fun d => ∀ x ∈ d.elements, x ∈ els).filterMap Doc.entry

/-- An element list as symbols: no dash, none repeated. -/
structure Syms (l : List Enum.Sym) : Prop where
  nodup : l.Nodup
  dash : ∀ s ∈ l, '-' ∉ s

theorem chunks_flatten (n : ℕ) (hn : 0 < n) (l : List α) : (divideChunks n l).flatten = l := by
  have key : ∀ k, ((List.range k).map fun i => (l.drop (i * n)).take n).flatten = l.take (k * n) := by
    intro k
    induction k with
    | zero => simp
    | succ k ih =>
      rw [List.range_succ, List.map_append, List.flatten_append, ih, List.map_singleton, List.flatten_singleton, Nat.succ_mul, List.take_add]
  unfold divideChunks
  rw [key, List.take_of_length_le]
  have := Nat.div_add_mod (l.length + n - 1) n
  have h2 := Nat.mod_lt (l.length + n - 1) hn
  rw [Nat.mul_comm] at this
  omega

theorem filter_or_perm {β : Type} (p q : β → Bool) (l : List β) (h : ∀ x ∈ l, p x = true → q x = false) :
    (l.filter p ++ l.filter q).Perm (l.filter fun x => p x || q x) := by
  induction l with
  | nil => simp
  | cons a l ih =>
    have ih := ih fun x hx => h x (List.mem_cons_of_mem _ hx)
    have ha := h a List.mem_cons_self
    cases hp : p a <;> cases hq : q a <;> simp only [List.filter_cons, hp, hq, Bool.or_false, Bool.or_true, Bool.false_eq_true, if_true, if_false]
    · exact ih
    · exact List.perm_middle.trans (ih.cons a)
    · exact ih.cons a
    · rw [ha hp] at hq; cases hq

/-- Querying disjoint groups of keys one after the other. -/
theorem groups_perm {β : Type} (f : β → List Char) (db : List β) (gs : List (List (List Char))) (h : gs.flatten.Nodup) :
    (gs.flatMap fun g => db.filter fun d => decide (f d ∈ g)).Perm (db.filter fun d => decide (f d ∈ gs.flatten)) := by
  induction gs with
  | nil => simp
  | cons g gs ih =>
    rw [List.flatten_cons] at h ⊢
    have hd := (List.nodup_append'.1 h).2.2
    rw [List.flatMap_cons]
    refine ((ih (List.nodup_append'.1 h).2.1).append_left _).trans ?_
    refine (filter_or_perm _ _ _ fun x _ hx => ?_).trans (List.Perm.of_eq (List.filter_congr fun x _ => ?_))
    · simp only [decide_eq_true_eq, decide_eq_false_iff_not] at hx ⊢
      exact fun h' => hd hx h'
    · simp [List.mem_append]

theorem join_inj (a b : List Enum.Sym) (ha : ∀ s ∈ a, '-' ∉ s) (hb : ∀ s ∈ b, '-' ∉ s) (na : a ≠ []) (nb : b ≠ [])
    (h : ['-'].intercalate (a.insertionSort (· ≤ ·)) = ['-'].intercalate (b.insertionSort (· ≤ ·))) : a.Perm b := by
  have pa := List.perm_insertionSort (· ≤ ·) a
  have pb := List.perm_insertionSort (· ≤ ·) b
  have h2 := congrArg (List.splitOn '-') h
  rw [List.splitOn_intercalate, List.splitOn_intercalate] at h2
  · exact pa.symm.trans ((List.Perm.of_eq h2).trans pb)
  · exact fun s hs => hb s (pb.subset hs)
  · intro h0; rw [h0] at pb; exact nb pb.nil_eq.symm
  · exact fun s hs => ha s (pa.subset hs)
  · intro h0; rw [h0] at pa; exact na pa.nil_eq.symm

theorem mem_subsystems (els : List Enum.Sym) (k : List Char) :
    k ∈ subsystems els ↔ ∃ c, c.Sublist els ∧ c ≠ [] ∧ k = ['-'].intercalate (c.insertionSort (· ≤ ·)) := by
  unfold subsystems
  simp only [List.mem_flatMap, List.mem_range, List.mem_map, mem_combinations]
  constructor
  · rintro ⟨i, -, c, ⟨h1, h2⟩, rfl⟩
    exact ⟨c, h1, fun h => by simp [h] at h2, rfl⟩
  · rintro ⟨c, h1, h2, rfl⟩
    have := List.length_pos_iff.2 h2
    exact ⟨c.length - 1, by have := h1.length_le; omega, c, ⟨h1, by omega⟩, rfl⟩

theorem filter_sublist' (c els : List Enum.Sym) (h : c.Sublist els) (hn : els.Nodup) : (els.filter fun x => x ∈ c) = c := by
  induction h with
  | slnil => rfl
  | @cons l₁ l₂ a h ih =>
    rw [List.nodup_cons] at hn
    rw [List.filter_cons_of_neg (by simpa using fun ha => hn.1 (h.subset ha))]
    exact ih hn.2
  | @cons_cons l₁ l₂ a h ih =>
    rw [List.nodup_cons] at hn
    rw [List.filter_cons_of_pos (by simp)]
    congr 1
    refine Eq.trans (List.filter_congr fun x hx => ?_) (ih hn.2)
    rw [decide_eq_decide, List.mem_cons]
    exact ⟨fun h' => h'.resolve_left fun he => hn.1 (he ▸ hx), Or.inr⟩

theorem nodup_subsystems (els : List Enum.Sym) (h : Syms els) : (subsystems els).Nodup := by
  unfold subsystems
  have inj : ∀ c c' : List Enum.Sym, c.Sublist els → c'.Sublist els → c ≠ [] → c' ≠ [] →
      ['-'].intercalate (c.insertionSort (· ≤ ·)) = ['-'].intercalate (c'.insertionSort (· ≤ ·)) → c = c' := by
    intro c c' hc hc' n n' he
    have hp := join_inj c c' (fun s hs => h.dash s (hc.subset hs)) (fun s hs => h.dash s (hc'.subset hs)) n n' he
    rw [← filter_sublist' c els hc h.nodup, ← filter_sublist' c' els hc' h.nodup]
    exact List.filter_congr fun x _ => by rw [decide_eq_decide]; exact hp.mem_iff
  rw [List.nodup_flatMap]
  refine ⟨fun i _ => ?_, ?_⟩
  · refine List.Nodup.map_on (fun c hc c' hc' he => ?_) (nodup_combinations h.nodup _)
    rw [mem_combinations] at hc hc'
    exact inj c c' hc.1 hc'.1 (fun h => by simp [h] at hc) (fun h => by simp [h] at hc') he
  · refine List.nodup_range.imp fun {i j} hij => ?_
    intro k hk hk'
    obtain ⟨c, hc, rfl⟩ := List.mem_map.1 hk
    obtain ⟨c', hc', he⟩ := List.mem_map.1 hk'
    rw [mem_combinations] at hc hc'
    have := inj c' c hc'.1 hc.1 (fun h => by simp [h] at hc') (fun h => by simp [h] at hc) he
    subst this
    omega

/-- **C88, partial**: both strategies return each document inside the chemical system exactly once and no other, if no element is
repeated in the request. Documents list at least one element, each once. Missing: requests with repeated elements (see below). -/
theorem C88_query_partial (db : List (Doc α)) (els : List Enum.Sym) (hels : Syms els)
    (hdb : ∀ d ∈ db, Syms d.elements ∧ d.elements ≠ []) : (dbChemsys db els).Perm (wanted db els) := by
  unfold dbChemsys wanted dbEntries
  split_ifs with hlen
  · have e1 : ((divideChunks 1000 (subsystems els)).flatMap fun group => (db.filter fun d => decide (d.chemsys ∈ group)).filterMap Doc.entry)
        = ((divideChunks 1000 (subsystems els)).flatMap fun group => db.filter fun d => decide (d.chemsys ∈ group)).filterMap Doc.entry := by
      rw [List.filterMap_flatMap]
    rw [e1]
    have hfl := chunks_flatten 1000 (by norm_num) (subsystems els)
    refine List.Perm.filterMap _ ((groups_perm Doc.chemsys db _ (by rw [hfl]; exact nodup_subsystems els hels)).trans ?_)
    rw [hfl]
    refine List.Perm.of_eq (List.filter_congr fun d hd => ?_)
    obtain ⟨hs, hne⟩ := hdb d hd
    rw [decide_eq_decide, mem_subsystems]
    constructor
    · rintro ⟨c, hc, hn, he⟩ x hx
      exact hc.subset ((join_inj _ _ hs.dash (fun s hs => hels.dash s (hc.subset hs)) hne hn he).subset hx)
    · intro hsub
      have hp : (els.filter fun x => x ∈ d.elements).Perm d.elements := by
        refine (List.perm_ext_iff_of_nodup (hels.nodup.filter _) hs.nodup).2 fun x => ?_
        simp only [List.mem_filter, decide_eq_true_eq]
        exact ⟨fun h => h.2, fun h => ⟨hsub x h, h⟩⟩
      refine ⟨els.filter fun x => x ∈ d.elements, List.filter_sublist, fun h0 => ?_, ?_⟩
      · rw [h0] at hp; exact hne hp.nil_eq.symm
      · unfold Doc.chemsys
        congr 1
        exact List.Perm.eq_of_pairwise (fun a b _ _ h1 h2 => le_antisymm h1 h2) (List.pairwise_insertionSort _ _)
          (List.pairwise_insertionSort _ _)
          (((List.perm_insertionSort _ _).trans hp.symm).trans (List.perm_insertionSort _ _).symm)
  · refine List.Perm.of_eq (congrArg _ (List.filter_congr fun d _ => ?_))
    rw [Bool.eq_iff_iff]
    simp [List.all_eq_true]

/-- The calculation taken from a document is the GGA+U one if present, else the GGA one. -/
theorem C88_choice (d : Doc α) (e : α) : d.entry = some e ↔ d.ggaU = some e ∨ (d.ggaU = none ∧ d.gga = some e) := by
  unfold Doc.entry
  cases d.ggaU <;> simp

example := (C88_choice (⟨[['O']], none, some 3⟩ : Doc ℕ) 3).mpr (.inr ⟨rfl, rfl⟩)

/-- Requested as a string, the result is the same. -/
theorem C88_string (db : List (Doc α)) (els : List Enum.Sym) (hne : els ≠ []) (hd : ∀ s ∈ els, '-' ∉ s) :
    dbChemsysStr db (['-'].intercalate els) = dbChemsys db els := by
  unfold dbChemsysStr
  rw [List.splitOn_intercalate _ (fun l hl => hd l hl) hne]

/-- Example: of Li-O, O, Fe-O and a document without calculation, the request Li-O returns the first two. -/
example : dbChemsys [⟨[['O'], ['L', 'i']], some 1, some 2⟩, ⟨[['O']], none, some 3⟩, ⟨[['F', 'e'], ['O']], some 4, none⟩, ⟨[['L', 'i']], none, none⟩]
    [['L', 'i'], ['O']] = [1, 3] := by decide +kernel

/-- `C88_query_partial` and `C88_string` on the same request. -/
example : (dbChemsys (α := ℕ) [⟨[['O'], ['L', 'i']], some 1, some 2⟩, ⟨[['O']], none, some 3⟩, ⟨[['F', 'e'], ['O']], some 4, none⟩] [['L', 'i'], ['O']]).Perm [1, 3] ∧
    dbChemsysStr (α := ℕ) [⟨[['O'], ['L', 'i']], some 1, some 2⟩, ⟨[['O']], none, some 3⟩] (['-'].intercalate [['L', 'i'], ['O']])
      = dbChemsys [⟨[['O'], ['L', 'i']], some 1, some 2⟩, ⟨[['O']], none, some 3⟩] [['L', 'i'], ['O']] :=
  ⟨C88_query_partial [⟨[['O'], ['L', 'i']], some 1, some 2⟩, ⟨[['O']], none, some 3⟩, ⟨[['F', 'e'], ['O']], some 4, none⟩] [['L', 'i'], ['O']]
    ⟨by decide, by decide⟩ (by
      intro d hd
      simp only [List.mem_cons, List.not_mem_nil, or_false] at hd
      rcases hd with rfl | rfl | rfl <;> exact ⟨⟨by decide, by decide⟩, by simp⟩), C88_string _ _ (by simp) (by decide)⟩

/-- Nine elements, the first repeated at the end. -/
def repeated : List Enum.Sym := [['A'], ['B'], ['C'], ['D'], ['E'], ['F'], ['G'], ['H'], ['I'], ['A']]

/-- **C88, violated**: if an element is repeated in the request, a document can be returned twice: its system appears in two groups of
the query. -/
theorem C88_repeated_violated : ∃ d : Doc ℕ, Syms d.elements ∧ wanted [d] repeated = [1] ∧ dbChemsys [d] repeated = [1, 1] :=
  ⟨⟨[['A'], ['B'], ['C'], ['D'], ['E'], ['F'], ['G'], ['H']], some 1, none⟩, ⟨by decide +kernel, by decide +kernel⟩, by decide +kernel, by decide +kernel⟩

end Db

/-! ### C89 -/

section Eq
variable {κ φ : Type} [DecidableEq κ] [DecidableEq φ]

theorem isclose_self (x : ℚ) : isclose x x = true := by
  unfold isclose
  simp
  positivity

/-- **C89, partial**: every entry equals itself. Entries with the same exact energy, temperature, composition and entry id are equal and have equal hashes;
equal Gibbs (or interpolated) entries with exactly equal energies, temperatures and ids and, if they have an id, equal compositions
have equal hashes. Missing: energies that are merely close (see below). -/
theorem C89_fields_partial (a b : Fields κ) : fieldsEq a a = true ∧
    (fieldsHash a = fieldsHash b → fieldsEq a b = true) ∧
    (fieldsEq a b = true → a.energy = b.energy → a.temp = b.temp → a.id = b.id → (a.id ≠ "" → a.comp = b.comp) →
      fieldsHash a = fieldsHash b) := by
  have refl : ∀ a : Fields κ, fieldsEq a a = true := by
    intro a
    unfold fieldsEq
    rw [if_neg (by simp [isclose_self]), if_neg (by simp [isclose_self])]
    split_ifs <;> simp
  refine ⟨refl a, fun h => ?_, fun h h1 h2 h3 h4 => ?_⟩
  · obtain ⟨c, e, t, i⟩ := a
    obtain ⟨c', e', t', i'⟩ := b
    simp only [fieldsHash, Prod.mk.injEq] at h
    obtain ⟨rfl, rfl, rfl, rfl⟩ := h
    exact refl _
  · unfold fieldsHash
    have : a.comp = b.comp := by
      by_cases hi : a.id = ""
      · unfold fieldsEq at h
        split_ifs at h with x y z
        · exact absurd hi z.1
        · simpa using h
      · exact h4 hi
    rw [this, h1, h2, h3]

example := (C89_fields_partial (⟨3, -5, 300, "a"⟩ : Fields ℕ) ⟨3, -5, 300, "a"⟩).2.2 (by decide +kernel) rfl rfl rfl (fun _ => rfl)

/-- Experimental entries: equal entries of the same composition have equal hashes; equality is reflexive and symmetric if closeness is. -/
theorem C89_exper_partial (form : κ → φ) (closeRel : ℚ → ℚ → Bool) (a b : XFields κ) :
    ((∀ x, closeRel x x = true) → experEq form closeRel a a = true) ∧
    ((∀ x y, closeRel x y = closeRel y x) → experEq form closeRel a b = experEq form closeRel b a) ∧
    (experEq form closeRel a b = true → a.comp = b.comp → experHash a = experHash b) := by
  refine ⟨fun h => by simp [experEq, h], fun h => ?_, fun h hc => ?_⟩
  · unfold experEq
    rw [h, Bool.eq_iff_iff]
    simp only [Bool.and_eq_true, decide_eq_true_eq]
    exact ⟨fun ⟨⟨x, y⟩, z⟩ => ⟨⟨x.symm, y.symm⟩, z⟩, fun ⟨⟨x, y⟩, z⟩ => ⟨⟨x.symm, y.symm⟩, z⟩⟩
  · simp only [experEq, Bool.and_eq_true, decide_eq_true_eq] at h
    unfold experHash
    rw [hc, h.1.2]

example : fieldsEq (⟨3, -5, 300, "a"⟩ : Fields ℕ) ⟨3, -5, 300, "a"⟩ = true ∧ fieldsEq (⟨3, -5, 300, "a"⟩ : Fields ℕ) ⟨3, -6, 300, "a"⟩ = false := by
  decide +kernel

/-- **C89, violated** (Gibbs and interpolated entries): energies that differ by rounding compare equal and hash differently, and with
ids the compositions are not compared at all. -/
theorem C89_hash_violated : ∃ a b c : Fields ℕ, fieldsEq a b = true ∧ a.comp = b.comp ∧ fieldsHash a ≠ fieldsHash b ∧
    fieldsEq a c = true ∧ a.energy = c.energy ∧ a.comp ≠ c.comp ∧ fieldsHash a ≠ fieldsHash c :=
  ⟨⟨3, -5, 300, "a"⟩, ⟨3, -5 + 1 / 1000000, 300, "a"⟩, ⟨4, -5, 300, "a"⟩, by decide +kernel⟩

/-- **C89, violated**: equality is neither transitive (small steps add up; an entry without id equals entries with different ids) nor
symmetric at the edge of the tolerance. -/
theorem C89_equivalence_violated :
    (∃ a b c : Fields ℕ, fieldsEq a b = true ∧ fieldsEq b c = true ∧ fieldsEq a c = false ∧ a.energy ≠ c.energy ∧ a.id = c.id) ∧
    (∃ a b c : Fields ℕ, fieldsEq a b = true ∧ fieldsEq b c = true ∧ fieldsEq a c = false ∧ a.energy = c.energy ∧ a.id ≠ c.id) ∧
    (∃ a b : Fields ℕ, fieldsEq a b = true ∧ fieldsEq b a = false) :=
  ⟨⟨⟨3, -5, 300, "a"⟩, ⟨3, -5 - 4 / 100000, 300, "a"⟩, ⟨3, -5 - 8 / 100000, 300, "a"⟩, by decide +kernel⟩,
    ⟨⟨3, -5, 300, "a"⟩, ⟨3, -5, 300, ""⟩, ⟨3, -5, 300, "b"⟩, by decide +kernel⟩,
    ⟨⟨3, -5, 300, "a"⟩, ⟨3, -5 - 500104 / 10000000000, 300, "a"⟩, by decide +kernel⟩⟩

/-- **C89, violated** (experimental entries): compositions with the same reduced formula compare equal and hash differently. Here
composition `2` is a multiple of composition `1`. -/
theorem C89_exper_violated : ∃ a b : XFields ℕ, experEq (fun c => if c = 2 then 1 else c) (fun x y => x = y) a b = true ∧
    experHash a ≠ experHash b := ⟨⟨1, 300, 0⟩, ⟨2, 300, 0⟩, by decide +kernel⟩

end Eq

end Verif.Props.EntryDb
