import Verif.Model.Criteria
import Verif.Props.EntryDb
import Verif.Lemmas.Except

/-! Property C112: search strings (src/rxn_network/entries/utils.py:438-505). -/

namespace Verif.Props.Criteria
open Verif.Py Verif.Model.Parser Verif.Model.Criteria Verif.Lemmas Verif.Lemmas.Exc

variable {γ : Type}

/-! ### Specification -/

/-- What may stand for one element of a chemical system. -/
inductive Slot (table : List Str) : Str → List Str → Prop
  | wild : Slot table ['*'] table
  | group (alts : List Str) (hne : alts ≠ []) (h : ∀ a ∈ alts, ∀ c ∈ a, c ≠ ',' ∧ isSp c = false) : Slot table ('{' :: [','].intercalate alts ++ ['}']) alts
  | symbol (s : Str) (h : '*' ∉ s) (h' : '{' ∉ s) : Slot table s [s]

/-- One element in a formula, with its amount as written: an explicit symbol, any element, or one of several. -/
inductive Seg
  | el (s num : Str)
  | star (num : Str)
  | group (alts : List Str) (num : Str)

/-- The text of an element in a formula. -/
def Seg.text : Seg → Str
  | .el s num => s ++ num
  | .star num => '*' :: num
  | .group alts num => '{' :: [','].intercalate alts ++ '}' :: num

/-- The text of a formula. -/
def render (segs : List Seg) : Str := segs.flatMap Seg.text

/-- The symbols that can be meant. -/
def Seg.options (table : List Str) : Seg → List Str
  | .el s _ => [s]
  | .star _ => table
  | .group alts _ => alts

/-- The amount. -/
def Seg.num : Seg → Str
  | .el _ n => n
  | .star n => n
  | .group _ n => n

/-- Wildcards and alternatives. -/
def Seg.wild : Seg → Bool
  | .el _ _ => false
  | _ => true

/-- Alternatives in braces. -/
def Seg.isGroup : Seg → Bool
  | .group _ _ => true
  | _ => false

/-- Element symbols as written: a capital and small letters. -/
def Symbol (s : Str) : Prop := ∃ c l, s = c :: l ∧ isUp c = true ∧ ∀ x ∈ l, isLow x = true

/-- Well-formed elements in a formula. -/
def Seg.WF : Seg → Prop
  | .el s num => Symbol s ∧ ∀ c ∈ num, isDD c = true
  | .star num => ∀ c ∈ num, isDD c = true
  | .group alts num => alts ≠ [] ∧ (∀ a ∈ alts, Symbol a) ∧ ∀ c ∈ num, isDD c = true

/-- The formula with the chosen symbols. -/
def fill : List Seg → List Str → Str
  | s :: segs, x :: xs => x ++ s.num ++ fill segs xs
  | _, _ => []

/-- The symbols chosen for wildcards and alternatives. -/
def wilds : List Seg → List Str → List Str
  | s :: segs, x :: xs => if s.wild then x :: wilds segs xs else wilds segs xs
  | _, _ => []

/-- The explicit symbols. -/
def explicits (segs : List Seg) : List Str := segs.filterMap fun
  | .el s _ => some s
  | _ => none

/-- `Composition` understands formulas of known symbols with amounts. -/
def Lawful (X : Chem γ) (numeral : Str → Prop) : Prop := ∀ l : List (Str × Str), (∀ p ∈ l, p.1 ∈ X.table ∧ numeral p.2) →
  ∃ c, X.parse (l.flatMap fun p => p.1 ++ p.2) = .ok c ∧ X.count c = (l.map Prod.fst).dedup.length ∧ X.check c = .ok ()

/-! ### Lemmas -/

theorem mem_product {α : Type} (ls : List (List α)) (r : List α) : r ∈ product ls ↔ List.Forall₂ (fun x l => x ∈ l) r ls := by
  induction ls generalizing r with
  | nil => simp [product]
  | cons l ls ih =>
    unfold product
    simp only [List.mem_flatMap, List.mem_map]
    constructor
    · rintro ⟨x, hx, r', hr', rfl⟩
      exact .cons hx ((ih r').mp hr')
    · intro h
      cases h with
      | cons hx hr => exact ⟨_, hx, _, (ih _).mpr hr, rfl⟩

theorem lastBrace_none (s : Str) (h : '}' ∉ s) : lastBrace s = none := by
  induction s with
  | nil => rfl
  | cons c s ih =>
    have : c ≠ '}' := fun hc => h (hc ▸ List.mem_cons_self)
    simp [lastBrace, ih (fun h' => h (List.mem_cons_of_mem _ h')), this]

theorem lastBrace_append (g rest : Str) (h : '}' ∉ rest) : lastBrace (g ++ '}' :: rest) = some (g, rest) := by
  induction g with
  | nil => simp [lastBrace, lastBrace_none rest h]
  | cons c g ih => simp [lastBrace, ih]

theorem strip_id (s : Str) (h : ∀ c ∈ s, isSp c = false) : strip s = s := by
  have d : ∀ l : Str, (∀ c ∈ l, isSp c = false) → l.dropWhile isSp = l := by
    intro l hl
    cases l with
    | nil => rfl
    | cons c l => simp [hl c List.mem_cons_self]
  unfold strip
  rw [d s h, d s.reverse (by simpa using h), List.reverse_reverse]

theorem parseSym_group (table alts : List Str) (hne : alts ≠ []) (h : ∀ a ∈ alts, ∀ c ∈ a, c ≠ ',' ∧ isSp c = false) :
    parseSym table ('{' :: [','].intercalate alts ++ ['}']) = alts := by
  have hb := lastBrace_append ([','].intercalate alts) [] (by simp)
  unfold parseSym
  rw [if_neg (by simp)]
  simp only [List.cons_append, if_true]
  rw [hb]
  simp only
  rw [List.splitOn_intercalate _ (fun l hl hc => (h l hl _ hc).1 rfl) hne]
  conv_rhs => rw [← List.map_id alts]
  exact List.map_congr_left fun a ha => strip_id a fun c hc => (h a ha c hc).2

theorem parseSym_literal (table : List Str) (s : Str) (h : '*' ∉ s) (h' : '{' ∉ s) : parseSym table s = [s] := by
  unfold parseSym
  rw [if_neg (fun hs => h (by rw [hs]; simp))]
  cases s with
  | nil => rfl
  | cons c s =>
    have : c ≠ '{' := fun hc => h' (hc ▸ List.mem_cons_self)
    simp [this]

theorem parseSym_slot (table : List Str) (s : Str) (alts : List Str) (h : Slot table s alts) : parseSym table s = alts := by
  cases h with
  | wild => simp [parseSym]
  | group _ hne h => exact parseSym_group table _ hne h
  | symbol _ h h' => exact parseSym_literal table s h h'

/-! ### Chemical systems -/

theorem mapM_id {α : Type} (f : α → Except Err α) (hf : ∀ a b, f a = .ok b → b = a) (l r : List α) (h : l.mapM f = .ok r) : r = l := by
  rw [mapM_ok] at h
  induction h with
  | nil => rfl
  | cons h1 h2 ih => rw [hf _ _ h1, ih]

theorem systems_eq (X : Chem γ) (slots : List Str) (alts : List (List Str)) (hne : slots ≠ []) (hd : ∀ s ∈ slots, '-' ∉ s)
    (hs : List.Forall₂ (Slot X.table) slots alts) :
    systems X (['-'].intercalate slots) = ((product alts).filter fun cs => decide cs.Nodup).mapM fun cs => (cs.mapM X.element).map join := by
  unfold systems
  rw [List.splitOn_intercalate _ (fun l hl => hd l hl) hne]
  have : slots.map (parseSym X.table) = alts := by
    clear hne hd
    induction hs with
    | nil => rfl
    | cons h1 h2 ih => rw [List.map_cons, ih, parseSym_slot _ _ _ h1]
  rw [this]

/-! ### Formulas -/

theorem span_append (p : Char → Bool) (a b : Str) (ha : ∀ c ∈ a, p c = true) (hb : ∀ c, b.head? = some c → p c = false) :
    (a ++ b).takeWhile p = a ∧ (a ++ b).dropWhile p = b := by
  induction a with
  | nil =>
    cases b with
    | nil => simp
    | cons c b => simp [hb c rfl]
  | cons c a ih =>
    have := ih (fun x hx => ha x (List.mem_cons_of_mem _ hx))
    simp [ha c List.mem_cons_self, this]

theorem isUp_not (c : Char) (h : isUp c = true) : isDD c = false ∧ isLow c = false ∧ c ≠ '*' ∧ c ≠ '{' ∧ c ≠ '}' ∧ c ≠ '-' ∧ c ≠ ',' ∧ isSp c = false := by
  simp only [isUp, decide_eq_true_eq] at h
  have ne : ∀ d : Char, (d.toNat < 65 ∨ 90 < d.toNat) → c ≠ d := by rintro d hd rfl; omega
  refine ⟨?_, ?_, ne _ (by decide), ne _ (by decide), ne _ (by decide), ne _ (by decide), ne _ (by decide), ?_⟩
  · simp only [isDD, isD, Bool.or_eq_false_iff, decide_eq_false_iff_not]
    exact ⟨by omega, ne _ (by decide)⟩
  · simp only [isLow, decide_eq_false_iff_not]
    omega
  · simp only [isSp, Bool.or_eq_false_iff, decide_eq_false_iff_not]
    exact ⟨⟨ne _ (by decide), by omega⟩, by omega⟩

theorem isLow_not (c : Char) (h : isLow c = true) : isDD c = false ∧ c ≠ '*' ∧ c ≠ '{' ∧ c ≠ '}' ∧ c ≠ '-' ∧ c ≠ ',' ∧ isSp c = false := by
  simp only [isLow, decide_eq_true_eq] at h
  have ne : ∀ d : Char, (d.toNat < 97 ∨ 122 < d.toNat) → c ≠ d := by rintro d hd rfl; omega
  refine ⟨?_, ne _ (by decide), ne _ (by decide), ne _ (by decide), ne _ (by decide), ne _ (by decide), ?_⟩
  · simp only [isDD, isD, Bool.or_eq_false_iff, decide_eq_false_iff_not]
    exact ⟨by omega, ne _ (by decide)⟩
  · simp only [isSp, Bool.or_eq_false_iff, decide_eq_false_iff_not]
    exact ⟨⟨ne _ (by decide), by omega⟩, by omega⟩

theorem isDD_not (c : Char) (h : isDD c = true) : isLow c = false ∧ isUp c = false ∧ c ≠ '*' ∧ c ≠ '{' ∧ c ≠ '}' ∧ c ≠ '-' := by
  have h' : (48 ≤ c.toNat ∧ c.toNat ≤ 57) ∨ c.toNat = 46 := by
    simp only [isDD, isD, Bool.or_eq_true, decide_eq_true_eq] at h
    rcases h with h | h
    · exact .inl h
    · exact .inr (by rw [h]; rfl)
  have ne : ∀ d : Char, (d.toNat < 46 ∨ d.toNat = 47 ∨ 57 < d.toNat) → c ≠ d := by rintro d hd rfl; omega
  refine ⟨?_, ?_, ne _ (by decide), ne _ (by decide), ne _ (by decide), ne _ (by decide)⟩
  · simp only [isLow, decide_eq_false_iff_not]; omega
  · simp only [isUp, decide_eq_false_iff_not]; omega

theorem symbol_chars (s : Str) (h : Symbol s) : ∀ c ∈ s, c ≠ '*' ∧ c ≠ '{' ∧ c ≠ '}' ∧ c ≠ '-' ∧ c ≠ ',' ∧ isSp c = false := by
  obtain ⟨c, l, rfl, hc, hl⟩ := h
  intro x hx
  rcases List.mem_cons.mp hx with rfl | hx
  · exact (isUp_not x hc).2.2
  · exact (isLow_not x (hl x hx)).2

theorem render_head (segs : List Seg) (h : ∀ s ∈ segs, s.WF) (c : Char) (hc : (render segs).head? = some c) : isDD c = false ∧ isLow c = false := by
  cases segs with
  | nil => simp [render] at hc
  | cons s segs =>
    have hw := h s List.mem_cons_self
    cases s with
    | el s num =>
      obtain ⟨⟨x, l, rfl, hx, _⟩, _⟩ := hw
      simp only [render, List.flatMap_cons, Seg.text, List.cons_append, List.head?_cons, Option.some.injEq] at hc
      subst hc
      exact ⟨(isUp_not x hx).1, (isUp_not x hx).2.1⟩
    | star num =>
      simp only [render, List.flatMap_cons, Seg.text, List.cons_append, List.head?_cons, Option.some.injEq] at hc
      subst hc
      decide
    | group alts num =>
      simp only [render, List.flatMap_cons, Seg.text, List.cons_append, List.head?_cons, Option.some.injEq] at hc
      subst hc
      decide

/-- Without alternatives there is no closing brace. -/
theorem render_brace (segs : List Seg) (h : ∀ s ∈ segs, s.WF) (hg : ∀ s ∈ segs, s.isGroup = false) : '}' ∉ render segs := by
  intro hb
  simp only [render, List.mem_flatMap] at hb
  obtain ⟨s, hs, hb⟩ := hb
  have hw := h s hs
  cases s with
  | el s num =>
    rcases List.mem_append.mp hb with hb | hb
    · exact (symbol_chars s hw.1 _ hb).2.2.1 rfl
    · exact (isDD_not _ (hw.2 _ hb)).2.2.2.2.1 rfl
  | star num =>
    rcases List.mem_cons.mp hb with hb | hb
    · exact absurd hb (by decide)
    · exact (isDD_not _ (hw _ hb)).2.2.2.2.1 rfl
  | group alts num => simpa [Seg.isGroup] using hg _ hs

/-- What is counted for an element. -/
def tag : Seg → Option Str
  | .el s _ => some s
  | _ => none

/-- At most one group of alternatives. -/
def OneGroup (segs : List Seg) : Prop := segs.Pairwise fun a b => ¬ (a.isGroup = true ∧ b.isGroup = true)

theorem symbols_render (segs : List Seg) (h : ∀ s ∈ segs, s.WF) (hg : OneGroup segs) (fuel : ℕ) (hf : (render segs).length < fuel) :
    symbols fuel (render segs) = segs.map tag := by
  induction segs generalizing fuel with
  | nil =>
    cases fuel with
    | zero => simp at hf
    | succ n => rfl
  | cons s segs ih =>
    cases fuel with
    | zero => simp at hf
    | succ n =>
      have hw := h s List.mem_cons_self
      have hws : ∀ s ∈ segs, s.WF := fun x hx => h x (List.mem_cons_of_mem _ hx)
      obtain ⟨hg1, hg2⟩ := List.pairwise_cons.mp hg
      have hh := render_head segs hws
      have hr : render (s :: segs) = s.text ++ render segs := by simp [render]
      rw [hr] at hf ⊢
      rw [List.length_append] at hf
      cases s with
      | el s num =>
        obtain ⟨⟨x, l, rfl, hx, hl⟩, hnum⟩ := hw
        have e1 := span_append isLow l (num ++ render segs) hl (by
          intro c hc
          cases num with
          | nil => exact (hh c hc).2
          | cons d num =>
            simp only [List.cons_append, List.head?_cons, Option.some.injEq] at hc
            exact (isDD_not c (hnum c (by simp [hc]))).1)
        have e2 := span_append isDD num (render segs) hnum (fun c hc => (hh c hc).1)
        obtain ⟨_, _, n1, n2, _⟩ := isUp_not x hx
        simp only [Seg.text, List.cons_append, List.append_assoc, symbols, if_neg n1, if_neg n2, hx, if_true, List.map_cons, tag]
        rw [e1.1, e1.2, e2.2, ih hws hg2 n (by simp [Seg.text] at hf; omega)]
      | star num =>
        have e2 := span_append isDD num (render segs) hw (fun c hc => (hh c hc).1)
        simp only [Seg.text, List.cons_append, symbols, if_true, List.map_cons, tag]
        rw [e2.2, ih hws hg2 n (by simp [Seg.text] at hf; omega)]
      | group alts num =>
        have e2 := span_append isDD num (render segs) hw.2.2 (fun c hc => (hh c hc).1)
        have hb : '}' ∉ num ++ render segs := by
          rw [List.mem_append, not_or]
          refine ⟨fun hc => (isDD_not _ (hw.2.2 _ hc)).2.2.2.2.1 rfl, render_brace segs hws ?_⟩
          intro s hs
          simpa [Seg.isGroup] using hg1 s hs
        have e3 := lastBrace_append ([','].intercalate alts) (num ++ render segs) hb
        simp only [Seg.text, List.cons_append, List.append_assoc, symbols, if_true, List.map_cons, tag]
        rw [if_neg (by decide), e3]
        simp only
        rw [e2.2, ih hws hg2 n (by simp [Seg.text] at hf; omega)]

theorem parts_literal (fuel : ℕ) (acc lit rest : Str) (h : ∀ c ∈ lit, c ≠ '*' ∧ c ≠ '{') (hf : lit.length ≤ fuel) :
    parts fuel acc (lit ++ rest) = parts (fuel - lit.length) (acc ++ lit) rest := by
  induction lit generalizing fuel acc with
  | nil => simp
  | cons c lit ih =>
    cases fuel with
    | zero => simp at hf
    | succ n =>
      obtain ⟨h1, h2⟩ := h c List.mem_cons_self
      simp only [List.cons_append, parts, if_neg h1, if_neg h2]
      rw [ih n _ (fun x hx => h x (List.mem_cons_of_mem _ hx)) (by simpa using hf)]
      simp

/-- The strings obtained from the parts of a token. -/
def joins (table : List Str) (ps : List Str) : List Str := (product (ps.map (parseSym table))).map List.flatten

theorem joins_cons (table : List Str) (p : Str) (ps : List Str) : joins table (p :: ps) = (parseSym table p).flatMap fun x => (joins table ps).map fun y => x ++ y := by
  simp [joins, product, List.map_flatMap, Function.comp_def]

theorem joins_filter (table : List Str) (ps : List Str) : joins table (ps.filter fun s => decide (s ≠ [])) = joins table ps := by
  induction ps with
  | nil => rfl
  | cons p ps ih =>
    by_cases hp : p = []
    · subst hp
      rw [List.filter_cons_of_neg (by simp), ih, joins_cons]
      simp [parseSym]
    · rw [List.filter_cons_of_pos (by simpa using hp), joins_cons, joins_cons, ih]

theorem joins_render (table : List Str) (segs : List Seg) (h : ∀ s ∈ segs, s.WF) (hg : OneGroup segs) (acc : Str) (ha : '*' ∉ acc) (ha' : '{' ∉ acc)
    (fuel : ℕ) (hf : (render segs).length < fuel) :
    joins table (parts fuel acc (render segs)) = (product (segs.map (Seg.options table))).map fun cs => acc ++ fill segs cs := by
  induction segs generalizing fuel acc with
  | nil =>
    cases fuel with
    | zero => simp at hf
    | succ n => simp [render, parts, parseSym_literal table acc ha ha', joins, product, fill]
  | cons s segs ih =>
    cases fuel with
    | zero => simp at hf
    | succ n =>
      have hw := h s List.mem_cons_self
      have hws : ∀ s ∈ segs, s.WF := fun x hx => h x (List.mem_cons_of_mem _ hx)
      obtain ⟨hg1, hg2⟩ := List.pairwise_cons.mp hg
      have hr : render (s :: segs) = s.text ++ render segs := by simp [render]
      rw [hr] at hf ⊢
      rw [List.length_append] at hf
      have hnum : ∀ num : Str, (∀ c ∈ num, isDD c = true) → '*' ∉ num ∧ '{' ∉ num := fun num hn =>
        ⟨fun hc => (isDD_not _ (hn _ hc)).2.2.1 rfl, fun hc => (isDD_not _ (hn _ hc)).2.2.2.1 rfl⟩
      cases s with
      | el s num =>
        have hlit : ∀ c ∈ s ++ num, c ≠ '*' ∧ c ≠ '{' := by
          intro c hc
          rcases List.mem_append.mp hc with hc | hc
          · exact ⟨(symbol_chars s hw.1 c hc).1, (symbol_chars s hw.1 c hc).2.1⟩
          · exact ⟨(isDD_not c (hw.2 c hc)).2.2.1, (isDD_not c (hw.2 c hc)).2.2.2.1⟩
        simp only [Seg.text] at hf ⊢
        rw [parts_literal _ _ _ _ hlit (by omega), ih hws hg2 _ _ _ _ (by omega)]
        · simp [product, Seg.options, fill, Seg.num]
        · simp only [List.mem_append, not_or]
          exact ⟨ha, fun hc => (hlit _ (List.mem_append_left _ hc)).1 rfl, fun hc => (hlit _ (List.mem_append_right _ hc)).1 rfl⟩
        · simp only [List.mem_append, not_or]
          exact ⟨ha', fun hc => (hlit _ (List.mem_append_left _ hc)).2 rfl, fun hc => (hlit _ (List.mem_append_right _ hc)).2 rfl⟩
      | star num =>
        simp only [Seg.text, List.length_cons] at hf
        have hl : ∀ c ∈ num, c ≠ '*' ∧ c ≠ '{' := fun c hc => ⟨(isDD_not c (hw c hc)).2.2.1, (isDD_not c (hw c hc)).2.2.2.1⟩
        simp only [Seg.text, List.cons_append, parts, if_true]
        rw [joins_cons, joins_cons, parseSym_literal table acc ha ha', parts_literal _ _ _ _ hl (by omega), List.nil_append,
          ih hws hg2 num (hnum num hw).1 (hnum num hw).2 _ (by omega)]
        simp [product, Seg.options, fill, Seg.num, parseSym, List.map_flatMap, Function.comp_def]
      | group alts num =>
        obtain ⟨w1, w2, w3⟩ := hw
        simp only [Seg.text, List.length_cons, List.length_append] at hf
        have hl : ∀ c ∈ num, c ≠ '*' ∧ c ≠ '{' := fun c hc => ⟨(isDD_not c (w3 c hc)).2.2.1, (isDD_not c (w3 c hc)).2.2.2.1⟩
        have hb : '}' ∉ num ++ render segs := by
          rw [List.mem_append, not_or]
          refine ⟨fun hc => (isDD_not _ (w3 _ hc)).2.2.2.2.1 rfl, render_brace segs hws ?_⟩
          intro s hs
          simpa [Seg.isGroup] using hg1 s hs
        have e3 := lastBrace_append ([','].intercalate alts) (num ++ render segs) hb
        have e4 := parseSym_group table alts w1 (fun a ha c hc => ⟨(symbol_chars a (w2 a ha) c hc).2.2.2.2.1, (symbol_chars a (w2 a ha) c hc).2.2.2.2.2⟩)
        simp only [Seg.text, List.cons_append, List.append_assoc, parts, if_true]
        rw [if_neg (by decide), e3]
        simp only
        rw [joins_cons, joins_cons, parseSym_literal table acc ha ha', ← List.cons_append, e4, parts_literal _ _ _ _ hl (by omega), List.nil_append,
          ih hws hg2 num (hnum num w3).1 (hnum num w3).2 _ (by omega)]
        simp [product, Seg.options, fill, Seg.num, List.map_flatMap, Function.comp_def]

theorem wilds_perm (table : List Str) (segs : List Seg) (cs : List Str) (h : List.Forall₂ (fun x l => x ∈ l) cs (segs.map (Seg.options table))) :
    cs.Perm (wilds segs cs ++ explicits segs) ∧ (wilds segs cs).length = ((segs.map tag).filter Option.isNone).length := by
  induction segs generalizing cs with
  | nil =>
    cases h
    exact ⟨List.Perm.refl _, rfl⟩
  | cons s segs ih =>
    cases h with
    | @cons x _ cs _ hx h =>
      obtain ⟨i1, i2⟩ := ih cs h
      cases s with
      | el s num =>
        have hx : x = s := by simpa [Seg.options] using hx
        subst hx
        refine ⟨?_, by simpa [wilds, Seg.wild, tag] using i2⟩
        have : explicits (Seg.el x num :: segs) = x :: explicits segs := by simp [explicits]
        rw [this]
        simp only [wilds, Seg.wild, Bool.false_eq_true, if_false]
        exact (i1.cons x).trans List.perm_middle.symm
      | star num =>
        refine ⟨?_, by simpa [wilds, Seg.wild, tag] using i2⟩
        have : explicits (Seg.star num :: segs) = explicits segs := by simp [explicits]
        rw [this]
        simp only [wilds, Seg.wild, if_true, List.cons_append]
        exact i1.cons x
      | group alts num =>
        refine ⟨?_, by simpa [wilds, Seg.wild, tag] using i2⟩
        have : explicits (Seg.group alts num :: segs) = explicits segs := by simp [explicits]
        rw [this]
        simp only [wilds, Seg.wild, if_true, List.cons_append]
        exact i1.cons x

theorem dedup_length_iff (w e : List Str) : (w ++ e).dedup.length = w.length + e.dedup.length ↔ w.Nodup ∧ ∀ x ∈ w, x ∉ e := by
  rw [← List.card_toFinset, ← List.card_toFinset, List.toFinset_append]
  have h1 := Finset.card_union_add_card_inter w.toFinset e.toFinset
  have h2 := List.toFinset_card_le w
  constructor
  · intro h
    have hw : w.toFinset.card = w.length := by omega
    refine ⟨?_, ?_⟩
    · have h3 : w.dedup.length = w.length := by rw [← List.card_toFinset]; exact hw
      have h4 := List.Sublist.eq_of_length (List.dedup_sublist w) h3
      rw [← h4]
      exact List.nodup_dedup w
    · have : (w.toFinset ∩ e.toFinset).card = 0 := by omega
      rw [Finset.card_eq_zero] at this
      intro x hx hx'
      have : x ∈ w.toFinset ∩ e.toFinset := by simp [hx, hx']
      simp_all
  · rintro ⟨h3, h4⟩
    have hw := List.toFinset_card_of_nodup h3
    have : w.toFinset ∩ e.toFinset = ∅ := by
      ext x
      simp only [Finset.mem_inter, List.mem_toFinset, Finset.notMem_empty, iff_false, not_and]
      exact h4 x
    rw [this, Finset.card_empty] at h1
    omega

theorem reduceOption_tag (segs : List Seg) : (segs.map tag).reduceOption = explicits segs := by
  unfold List.reduceOption explicits
  rw [List.filterMap_map]
  congr 1

theorem perm_dedup_length (a b : List Str) (h : a.Perm b) : a.dedup.length = b.dedup.length := h.dedup.length_eq

theorem fill_flatMap (segs : List Seg) (cs : List Str) : fill segs cs = (cs.zip (segs.map Seg.num)).flatMap fun p => p.1 ++ p.2 := by
  induction segs generalizing cs with
  | nil => cases cs <;> simp [fill]
  | cons s segs ih =>
    cases cs with
    | nil => simp [fill]
    | cons x cs => simp [fill, ih]

theorem takeWhile_all (p : Char → Bool) (s : Str) : ∀ c ∈ s.takeWhile p, p c = true := by
  induction s with
  | nil => simp
  | cons x s ih =>
    intro c hc
    by_cases hx : p x = true
    · rw [List.takeWhile_cons_of_pos hx] at hc
      rcases List.mem_cons.mp hc with rfl | hc
      · exact hx
      · exact ih c hc
    · rw [List.takeWhile_cons_of_neg hx] at hc
      simp at hc

/-- Results of all members of a list are in the results. -/
theorem mem_mapM {α β : Type} (f : α → Except Err β) (l : List α) (r : List β) (h : l.mapM f = .ok r) (a : α) (ha : a ∈ l) : ∃ b ∈ r, f a = .ok b := by
  rw [mapM_ok] at h
  induction h with
  | nil => simp at ha
  | cons h1 h2 ih =>
    rcases List.mem_cons.mp ha with rfl | ha
    · exact ⟨_, List.mem_cons_self, h1⟩
    · obtain ⟨b, hb, hb'⟩ := ih ha
      exact ⟨b, List.mem_cons_of_mem _ hb, hb'⟩

/-- Tokens that begin like a material id. -/
def IdLike (t : Str) : Prop := ∃ w d rest, t = w ++ '-' :: d :: rest ∧ w ≠ [] ∧ (∀ c ∈ w, isWord c = true) ∧ isD d = true

theorem isId_iff (t : Str) : isId t = true ↔ IdLike t := by
  unfold isId
  constructor
  · intro h
    rw [Bool.and_eq_true, decide_eq_true_eq] at h
    obtain ⟨h1, h2⟩ := h
    split at h2
    · rename_i d c rest heq
      rw [Bool.and_eq_true, decide_eq_true_eq] at h2
      refine ⟨t.takeWhile isWord, c, rest, ?_, h1, fun c hc => takeWhile_all isWord t c hc, h2.2⟩
      rw [← h2.1, ← heq, List.takeWhile_append_dropWhile]
    · simp at h2
  · rintro ⟨w, d, rest, rfl, hw, hw', hd⟩
    obtain ⟨e1, e2⟩ := span_append isWord w ('-' :: d :: rest) hw' (by intro c hc; simp at hc; subst hc; decide)
    rw [e1, e2]
    simp [hw, hd]

/-! ### C112 -/

/-- Ids: a word, a dash and a number are the material with that id. -/
theorem C112_id (X : Chem γ) (w ds : Str) (hw : w ≠ []) (hw' : ∀ c ∈ w, isWord c = true) (hd : ds ≠ []) (hd' : ∀ c ∈ ds, isD c = true) :
    ∃ c, parseTok X (w ++ '-' :: ds) = .ok c ∧ ∀ m, c.holds m = true ↔ m.id = w ++ '-' :: ds := by
  cases ds with
  | nil => exact absurd rfl hd
  | cons d ds =>
    have : isId (w ++ '-' :: d :: ds) = true := (isId_iff _).mpr ⟨w, d, ds, rfl, hw, hw', hd' d List.mem_cons_self⟩
    refine ⟨.taskId (w ++ '-' :: d :: ds), by simp [parseTok, this], ?_⟩
    intro m
    simp [Criterion.holds]

/-- Chemical systems: a token of dash-separated slots finds exactly the materials whose elements are, in some order, a choice of pairwise different elements
for the slots. -/
theorem C112_chemsys (X : Chem γ) (hX : ∀ s s', X.element s = .ok s' → s' = s ∧ '-' ∉ s) (slots : List Str) (alts : List (List Str)) (h2 : 2 ≤ slots.length)
    (hd : ∀ s ∈ slots, '-' ∉ s) (hs : List.Forall₂ (Slot X.table) slots alts) (hid : ¬ IdLike (['-'].intercalate slots)) (c : Criterion)
    (hc : parseTok X (['-'].intercalate slots) = .ok c) (m : Material) (hm : m.elements ≠ []) (hm' : ∀ s ∈ m.elements, '-' ∉ s) :
    c.holds m = true ↔ ∃ cs, List.Forall₂ (fun x l => x ∈ l) cs alts ∧ cs.Nodup ∧ m.elements.Perm cs := by
  have hne : slots ≠ [] := by rintro rfl; simp at h2
  have hdash : '-' ∈ ['-'].intercalate slots := by
    match slots, h2 with
    | a :: b :: l, _ => simp [List.intercalate]
  unfold parseTok at hc
  rw [if_neg (fun h => hid ((isId_iff _).mp h)), if_pos hdash, systems_eq X slots alts hne hd hs] at hc
  have hlen : ∀ cs, List.Forall₂ (fun x l => x ∈ l) cs alts → cs ≠ [] := by
    intro cs h hcs
    have := h.length_eq
    have := hs.length_eq
    subst hcs
    simp at *
    omega
  cases hl : ((product alts).filter fun cs => decide cs.Nodup).mapM fun cs => (cs.mapM X.element).map join with
  | error e => rw [hl] at hc; simp [Except.map] at hc
  | ok l =>
    rw [hl] at hc
    have hc := Except.ok.inj hc
    subst hc
    have hmem : ∀ k, k ∈ l ↔ ∃ cs, List.Forall₂ (fun x l => x ∈ l) cs alts ∧ cs.Nodup ∧ k = join cs ∧ ∀ s ∈ cs, '-' ∉ s := by
      have hone : ∀ cs k, (cs.mapM X.element).map join = .ok k → k = join cs ∧ ∀ s ∈ cs, '-' ∉ s := by
        intro cs k h
        cases he : cs.mapM X.element with
        | error e => rw [he] at h; simp [Except.map] at h
        | ok r =>
          have hr := mapM_id X.element (fun a b h => (hX a b h).1) cs r he
          rw [he, hr] at h
          refine ⟨(Except.ok.inj h).symm, ?_⟩
          intro s hs
          rw [mapM_ok] at he
          rw [hr] at he
          have := List.forall₂_same.mp he s hs
          exact (hX s s this).2
      intro k
      constructor
      · intro hk
        obtain ⟨cs, hcs, h⟩ := mapM_mem _ _ _ hl k hk
        rw [List.mem_filter, mem_product, decide_eq_true_eq] at hcs
        exact ⟨cs, hcs.1, hcs.2, hone cs k h⟩
      · rintro ⟨cs, h1, h2, rfl, _⟩
        have hin : cs ∈ (product alts).filter fun cs => decide cs.Nodup := by
          rw [List.mem_filter, mem_product, decide_eq_true_eq]
          exact ⟨h1, h2⟩
        obtain ⟨k, hk, hk'⟩ := mem_mapM _ _ _ hl cs hin
        rw [← (hone cs k hk').1]
        exact hk
    simp only [Criterion.holds, decide_eq_true_eq, hmem]
    constructor
    · rintro ⟨cs, h1, h2, h3, h4⟩
      exact ⟨cs, h1, h2, EntryDb.join_inj _ _ hm' h4 hm (hlen cs h1) h3⟩
    · rintro ⟨cs, h1, h2, h3⟩
      refine ⟨cs, h1, h2, ?_, fun s hs => hm' s (h3.mem_iff.mpr hs)⟩
      unfold join
      congr 1
      exact List.Perm.eq_of_pairwise (fun a b _ _ h1 h2 => le_antisymm h1 h2) (List.pairwise_insertionSort _ _)
        (List.pairwise_insertionSort _ _) (((List.perm_insertionSort _ _).trans h3).trans (List.perm_insertionSort _ _).symm)

/-- A chemical system is rejected exactly if some choice of pairwise different alternatives has something that is not an element. -/
theorem C112_chemsys_error (X : Chem γ) (slots : List Str) (alts : List (List Str)) (h2 : 2 ≤ slots.length)
    (hd : ∀ s ∈ slots, '-' ∉ s) (hs : List.Forall₂ (Slot X.table) slots alts) (hid : ¬ IdLike (['-'].intercalate slots)) :
    (∃ x, parseTok X (['-'].intercalate slots) = .error x) ↔
      ∃ cs, List.Forall₂ (fun x l => x ∈ l) cs alts ∧ cs.Nodup ∧ ∃ s ∈ cs, ∃ x, X.element s = .error x := by
  have hne : slots ≠ [] := by rintro rfl; simp at h2
  have hdash : '-' ∈ ['-'].intercalate slots := by
    match slots, h2 with
    | a :: b :: l, _ => simp [List.intercalate]
  unfold parseTok
  rw [if_neg (fun h => hid ((isId_iff _).mp h)), if_pos hdash, systems_eq X slots alts hne hd hs]
  constructor
  · rintro ⟨x, hx⟩
    cases hl : ((product alts).filter fun cs => decide cs.Nodup).mapM fun cs => (cs.mapM X.element).map join with
    | ok l => rw [hl] at hx; simp [Except.map] at hx
    | error e =>
      obtain ⟨cs, hcs, h⟩ := mapM_error _ _ _ hl
      rw [List.mem_filter, mem_product, decide_eq_true_eq] at hcs
      cases he : cs.mapM X.element with
      | ok r => rw [he] at h; simp [Except.map] at h
      | error e' =>
        obtain ⟨s, hs, h⟩ := mapM_error _ _ _ he
        exact ⟨cs, hcs.1, hcs.2, s, hs, _, h⟩
  · rintro ⟨cs, h1, h2, s, hs, x, hx⟩
    obtain ⟨y, hy⟩ := mapM_exists_error X.element cs s hs x hx
    obtain ⟨z, hz⟩ := mapM_exists_error (fun cs : List Str => (cs.mapM X.element).map join) ((product alts).filter fun cs : List Str => decide cs.Nodup) cs
      (by rw [List.mem_filter, mem_product, decide_eq_true_eq]; exact ⟨h1, h2⟩) y (by simp [hy, Except.map])
    rw [hz]
    exact ⟨z, rfl⟩

/-- Formulas: a token of symbols, wildcards and at most one group of alternatives, each with an amount, finds exactly the materials with the reduced formula
of a choice of symbols such that those chosen for the wildcards are pairwise different and different from the symbols written out. Missing for the full
statement: several groups of alternatives (`C112_groups_violated`). -/
theorem C112_formula_partial (X : Chem γ) (numeral : Str → Prop) (hX : Lawful X numeral) (segs : List Seg) (hw : ∀ s ∈ segs, s.WF) (hg : OneGroup segs)
    (hn : ∀ s ∈ segs, numeral s.num) (ht : ∀ s ∈ segs, ∀ x ∈ s.options X.table, x ∈ X.table) :
    ∃ c, parseTok X (render segs) = .ok c ∧ ∀ m, c.holds m = true ↔ ∃ cs k, List.Forall₂ (fun x l => x ∈ l) cs (segs.map (Seg.options X.table)) ∧
      (wilds segs cs).Nodup ∧ (∀ x ∈ wilds segs cs, x ∉ explicits segs) ∧ X.parse (fill segs cs) = .ok k ∧ m.formula = X.reduced k := by
  have hdash : '-' ∉ render segs := by
    intro hb
    simp only [render, List.mem_flatMap] at hb
    obtain ⟨s, hs, hb⟩ := hb
    have hw := hw s hs
    cases s with
    | el s num =>
      rcases List.mem_append.mp hb with hb | hb
      · exact (symbol_chars s hw.1 _ hb).2.2.2.1 rfl
      · exact (isDD_not _ (hw.2 _ hb)).2.2.2.2.2 rfl
    | star num =>
      rcases List.mem_cons.mp hb with hb | hb
      · exact absurd hb (by decide)
      · exact (isDD_not _ (hw _ hb)).2.2.2.2.2 rfl
    | group alts num =>
      obtain ⟨w1, w2, w3⟩ := hw
      simp only [Seg.text, List.cons_append, List.mem_cons, List.mem_append] at hb
      rcases hb with hb | hb | hb | hb
      · exact absurd hb (by decide)
      · have : ∀ l : List Str, (∀ a ∈ l, '-' ∉ a) → '-' ∉ [','].intercalate l := by
          intro l
          induction l with
          | nil => simp [List.intercalate]
          | cons a l ih =>
            intro h
            cases l with
            | nil => simpa [List.intercalate] using h a (by simp)
            | cons b l =>
              have := ih (fun x hx => h x (List.mem_cons_of_mem _ hx))
              simp only [List.intercalate, List.intersperse_cons_cons, List.flatten_cons, List.mem_append, not_or] at this ⊢
              exact ⟨h a (by simp), by decide, by simpa [List.intercalate] using this⟩
        exact this alts (fun a ha hc => (symbol_chars a (w2 a ha) _ hc).2.2.2.1 rfl) hb
      · exact absurd hb (by decide)
      · exact (isDD_not _ (w3 _ hb)).2.2.2.2.2 rfl
  have hid : ¬ IdLike (render segs) := by
    rintro ⟨w, d, rest, h, _⟩
    exact hdash (by rw [h]; simp)
  have hcand : candidates X.table (render segs) = (product (segs.map (Seg.options X.table))).map (fill segs) := by
    have := joins_render X.table segs hw hg [] (by simp) (by simp) ((render segs).length + 1) (by omega)
    unfold candidates
    rw [← joins_filter] at this
    simpa [joins] using this
  have hsym := symbols_render segs hw hg ((render segs).length + 1) (by omega)
  have hone : ∀ cs, List.Forall₂ (fun x l => x ∈ l) cs (segs.map (Seg.options X.table)) → ∃ k, X.parse (fill segs cs) = .ok k ∧ X.check k = .ok () ∧
      (X.count k = nelements (symbols ((render segs).length + 1) (render segs)) ↔ (wilds segs cs).Nodup ∧ ∀ x ∈ wilds segs cs, x ∉ explicits segs) := by
    intro cs h
    obtain ⟨k, h1, h2, h3⟩ := hX (cs.zip (segs.map Seg.num)) (by
      intro p hp
      obtain ⟨i, hi⟩ := List.mem_iff_getElem.mp hp
      obtain ⟨hi, rfl⟩ := hi
      rw [List.getElem_zip]
      simp only [List.getElem_map]
      rw [List.length_zip, List.length_map] at hi
      refine ⟨?_, hn _ (List.getElem_mem _)⟩
      have := List.forall₂_iff_get.mp h
      have := this.2 i (by omega) (by rw [List.length_map]; omega)
      simp only [List.get_eq_getElem, List.getElem_map] at this
      exact ht _ (List.getElem_mem _) _ this)
    rw [← fill_flatMap] at h1
    refine ⟨k, h1, h3, ?_⟩
    have hlen : cs.length = segs.length := by simpa using h.length_eq
    have hfst : (cs.zip (segs.map Seg.num)).map Prod.fst = cs := by
      rw [List.map_fst_zip (by simp [hlen])]
    obtain ⟨p1, p2⟩ := wilds_perm X.table segs cs h
    rw [h2, hfst, hsym, perm_dedup_length _ _ p1, ← dedup_length_iff, p2]
    unfold nelements
    rw [reduceOption_tag]
  unfold parseTok
  rw [if_neg (fun h => hid ((isId_iff _).mp h)), if_neg hdash]
  unfold formulas
  rw [hcand]
  have hall : ∀ s ∈ (product (segs.map (Seg.options X.table))).map (fill segs), ∃ x, candidate X (nelements (symbols ((render segs).length + 1) (render segs))) s = .ok x := by
    intro s hs
    rw [List.mem_map] at hs
    obtain ⟨cs, hcs, rfl⟩ := hs
    obtain ⟨k, k1, k2, _⟩ := hone cs ((mem_product _ _).mp hcs)
    unfold candidate
    rw [k1]
    simp only [bind, Except.bind]
    split_ifs
    · rw [k2]; exact ⟨_, rfl⟩
    · exact ⟨_, rfl⟩
  cases hl : ((product (segs.map (Seg.options X.table))).map (fill segs)).mapM (candidate X (nelements (symbols ((render segs).length + 1) (render segs)))) with
  | error e =>
    obtain ⟨s, hs, h⟩ := mapM_error _ _ _ hl
    obtain ⟨x, hx⟩ := hall s hs
    rw [hx] at h
    simp at h
  | ok l =>
    refine ⟨_, rfl, ?_⟩
    intro m
    simp only [Criterion.holds, decide_eq_true_eq, List.mem_dedup, List.reduceOption, List.mem_filterMap, id_eq, exists_eq_right]
    have hcd : ∀ cs, List.Forall₂ (fun x l => x ∈ l) cs (segs.map (Seg.options X.table)) → ∀ f,
        candidate X (nelements (symbols ((render segs).length + 1) (render segs))) (fill segs cs) = .ok (some f) ↔
          ∃ k, (wilds segs cs).Nodup ∧ (∀ x ∈ wilds segs cs, x ∉ explicits segs) ∧ X.parse (fill segs cs) = .ok k ∧ f = X.reduced k := by
      intro cs h f
      obtain ⟨k, k1, k2, k3⟩ := hone cs h
      unfold candidate
      rw [k1]
      simp only [bind, Except.bind]
      by_cases hk : X.count k = nelements (symbols ((render segs).length + 1) (render segs))
      · rw [if_pos hk, k2]
        have := k3.mp hk
        constructor
        · intro h
          cases h
          exact ⟨k, this.1, this.2, rfl, rfl⟩
        · rintro ⟨k', _, _, h1, rfl⟩
          cases h1
          rfl
      · rw [if_neg hk]
        constructor
        · intro h
          cases h
        · rintro ⟨k', h1, h2, _⟩
          exact absurd (k3.mpr ⟨h1, h2⟩) hk
    constructor
    · intro hm
      obtain ⟨s, hs, h⟩ := mapM_mem _ _ _ hl _ hm
      rw [List.mem_map] at hs
      obtain ⟨cs, hcs, rfl⟩ := hs
      have hcs := (mem_product _ _).mp hcs
      obtain ⟨k, g1, g2, g3, g4⟩ := (hcd cs hcs m.formula).mp h
      exact ⟨cs, k, hcs, g1, g2, g3, g4⟩
    · rintro ⟨cs, k, hcs, g1, g2, g3, g4⟩
      have hx := (hcd cs hcs m.formula).mpr ⟨k, g1, g2, g3, g4⟩
      have hin : fill segs cs ∈ (product (segs.map (Seg.options X.table))).map (fill segs) := List.mem_map.mpr ⟨cs, (mem_product _ _).mpr hcs, rfl⟩
      obtain ⟨b, hb, hb'⟩ := mem_mapM _ _ _ hl _ hin
      rw [hx] at hb'
      exact Except.ok.inj hb' ▸ hb

theorem words_join (ts : List Str) (hne : ∀ t ∈ ts, t ≠ []) (hs : ∀ t ∈ ts, ∀ c ∈ t, isSp c = false) : words ([' '].intercalate ts) = ts := by
  unfold words
  induction ts with
  | nil => simp [List.intercalate, List.splitOnP_nil]
  | cons a ts ih =>
    have ha := hs a List.mem_cons_self
    cases ts with
    | nil =>
      simp only [List.intercalate, List.intersperse_singleton, List.flatten_cons, List.flatten_nil, List.append_nil]
      rw [List.splitOnP_eq_singleton (by intro c hc; simp [ha c hc])]
      simp [hne a List.mem_cons_self]
    | cons b ts =>
      have : [' '].intercalate (a :: b :: ts) = a ++ ' ' :: [' '].intercalate (b :: ts) := by simp [List.intercalate]
      rw [this, List.splitOnP_append_cons _ _ (by decide), List.splitOnP_eq_singleton (by intro c hc; simp [ha c hc]), List.singleton_append,
        List.filter_cons_of_pos (by simp [hne a List.mem_cons_self]), ih (fun t ht => hne t (List.mem_cons_of_mem _ ht)) (fun t ht => hs t (List.mem_cons_of_mem _ ht))]

/-- Alternatives: a search string of one or more tokens finds a material exactly if one of its tokens does. -/
theorem C112_or_partial (X : Chem γ) (ts : List Str) (h0 : ts ≠ []) (hne : ∀ t ∈ ts, t ≠ []) (hs : ∀ t ∈ ts, ∀ c ∈ t, isSp c = false) (q : Query)
    (h : parseCriteria X ([' '].intercalate ts) = .ok q) (m : Material) :
    ∃ b, q.holds m = .ok b ∧ (b = true ↔ ∃ t ∈ ts, ∃ c, parseTok X t = .ok c ∧ c.holds m = true) := by
  unfold parseCriteria at h
  rw [words_join ts hne hs] at h
  have many : ∀ l, ts.mapM (parseTok X) = .ok l → ∃ b, (Query.or l).holds m = .ok b ∧ (b = true ↔ ∃ t ∈ ts, ∃ c, parseTok X t = .ok c ∧ c.holds m = true) := by
    intro l hl
    have hne' : l ≠ [] := by
      rintro rfl
      have := mapM_length _ _ _ hl
      exact h0 (List.length_eq_zero_iff.mp (by simpa using this.symm))
    refine ⟨l.any (·.holds m), ?_, ?_⟩
    · cases l with
      | nil => exact absurd rfl hne'
      | cons c l => rfl
    · rw [List.any_eq_true]
      constructor
      · rintro ⟨c, hc, hm⟩
        obtain ⟨t, ht, h⟩ := mapM_mem _ _ _ hl c hc
        exact ⟨t, ht, c, h, hm⟩
      · rintro ⟨t, ht, c, h, hm⟩
        obtain ⟨b, hb, hb'⟩ := mem_mapM _ _ _ hl t ht
        rw [h] at hb'
        cases hb'
        exact ⟨c, hb, hm⟩
  match ts, h0, h, many with
  | [t], _, h, _ =>
    simp only at h
    cases hp : parseTok X t with
    | error x => rw [hp] at h; simp [Except.map] at h
    | ok c =>
      rw [hp] at h
      have h := Except.ok.inj h
      subst h
      refine ⟨c.holds m, rfl, ?_⟩
      simp [hp]
  | a :: b :: ts, _, h, many =>
    simp only at h
    cases hp : (a :: b :: ts).mapM (parseTok X) with
    | error x => rw [hp] at h; simp [Except.map] at h
    | ok l =>
      rw [hp] at h
      have h := Except.ok.inj h
      subst h
      exact many l hp

/-- **Violated**: the empty search string is not a search for nothing but a query that the database rejects. -/
theorem C112_empty_violated (X : Chem γ) (m : Material) : ∃ q, parseCriteria X [' '] = .ok q ∧ q.holds m = .error .valueError :=
  ⟨.or [], rfl, rfl⟩

/-- **Violated**: only the start of a token is compared with the form of ids, so a token that goes on differently is still an id. -/
theorem C112_prefix_violated (X : Chem γ) (w : Str) (hw : w ≠ []) (hw' : ∀ c ∈ w, isWord c = true) (d : Char) (hd : isD d = true) (rest : Str) :
    parseTok X (w ++ '-' :: d :: rest) = .ok (.taskId (w ++ '-' :: d :: rest)) := by
  have : isId (w ++ '-' :: d :: rest) = true := (isId_iff _).mpr ⟨w, d, rest, rfl, hw, hw', hd⟩
  simp [parseTok, this]

/-- **Violated**: two groups of alternatives are read as one from the first opening to the last closing brace, so the search fails, as soon as `Composition`
rejects unbalanced braces. -/
theorem C112_groups_violated (X : Chem γ) (hX : ∃ x, X.parse "Na}2{O".toList = .error x) :
    (∃ x, parseTok X "{Li,Na}2{O,S}".toList = .error x) ∧ "Li2O".toList ∉ candidates X.table "{Li,Na}2{O,S}".toList := by
  have hc : candidates X.table "{Li,Na}2{O,S}".toList = ["Li".toList, "Na}2{O".toList, "S".toList] := by
    have : ∀ table, candidates table "{Li,Na}2{O,S}".toList = candidates [] "{Li,Na}2{O,S}".toList := by intro table; rfl
    rw [this]
    decide +kernel
  refine ⟨?_, by rw [hc]; decide⟩
  obtain ⟨x, hx⟩ := hX
  have h1 : isId "{Li,Na}2{O,S}".toList = false := by decide +kernel
  have h2 : '-' ∉ "{Li,Na}2{O,S}".toList := by decide
  unfold parseTok
  rw [h1, if_neg (by simp), if_neg h2]
  unfold formulas
  rw [hc]
  obtain ⟨y, hy⟩ := mapM_exists_error (candidate X (nelements (symbols ("{Li,Na}2{O,S}".toList.length + 1) "{Li,Na}2{O,S}".toList)))
    ["Li".toList, "Na}2{O".toList, "S".toList] "Na}2{O".toList (by simp) x (by unfold candidate; rw [hx]; rfl)
  rw [hy]
  exact ⟨y, rfl⟩

/-! ### Examples -/

/-- Four elements; a composition is its text and its symbols. -/
def ex : Chem (Str × List Str) where
  table := ["Li".toList, "Na".toList, "O".toList, "Fe".toList]
  element := fun s => if s ∈ ["Li".toList, "Na".toList, "O".toList, "Fe".toList] then .ok s else .error .valueError
  parse := fun s => if '}' ∈ s then .error .valueError else .ok (s, (symbols (s.length + 1) s).reduceOption)
  count := fun c => c.2.dedup.length
  check := fun _ => .ok ()
  reduced := fun c => c.1

/-- It is lawful. -/
theorem ex_lawful : Lawful ex fun n => ∀ c ∈ n, isDD c = true := by
  intro l hl
  have hsym : ∀ s ∈ ex.table, Symbol s := by
    intro s hs
    simp only [ex, List.mem_cons, List.not_mem_nil, or_false] at hs
    rcases hs with rfl | rfl | rfl | rfl
    · exact ⟨'L', ['i'], by decide, by decide, by decide⟩
    · exact ⟨'N', ['a'], by decide, by decide, by decide⟩
    · exact ⟨'O', [], by decide, by decide, by decide⟩
    · exact ⟨'F', ['e'], by decide, by decide, by decide⟩
  have hw : ∀ s ∈ l.map fun p => Seg.el p.1 p.2, s.WF := by
    intro s hs
    obtain ⟨p, hp, rfl⟩ := List.mem_map.mp hs
    exact ⟨hsym _ (hl p hp).1, (hl p hp).2⟩
  have hng : ∀ s ∈ l.map fun p => Seg.el p.1 p.2, s.isGroup = false := by
    intro s hs
    obtain ⟨p, hp, rfl⟩ := List.mem_map.mp hs
    rfl
  have hr : (l.flatMap fun p => p.1 ++ p.2) = render (l.map fun p => Seg.el p.1 p.2) := by
    simp [render, List.flatMap_map, Seg.text]
  have hb := render_brace _ hw hng
  have hg : OneGroup (l.map fun p => Seg.el p.1 p.2) := by
    refine List.pairwise_map.mpr (List.pairwise_of_forall ?_)
    intro a b
    simp [Seg.isGroup]
  have hs := symbols_render _ hw hg ((render (l.map fun p => Seg.el p.1 p.2)).length + 1) (by omega)
  rw [hr]
  refine ⟨_, by simp only [ex]; rw [if_neg hb], ?_, rfl⟩
  simp only [ex]
  rw [hs, reduceOption_tag]
  have : explicits (l.map fun p => Seg.el p.1 p.2) = l.map Prod.fst := by
    simp [explicits, List.filterMap_map]
  rw [this]

/-- `*2O` and `{Li,Fe}O`: wildcards differ from the symbols written out. -/
example : parseCriteria ex "*2O {Li,Fe}O".toList = .ok (.or [.formula ["Li2O".toList, "Na2O".toList, "Fe2O".toList], .formula ["LiO".toList, "FeO".toList]]) := by
  decide +kernel

/-- A wildcard and a group in a chemical system, and an id. -/
example : parseCriteria ex "*-{Li,Na}-O mp-12".toList =
    .ok (.or [.chemsys ["Li-Na-O".toList, "Li-Na-O".toList, "Fe-Li-O".toList, "Fe-Na-O".toList], .taskId "mp-12".toList]) := by decide +kernel

/-- Errors and the empty system. -/
example : parseCriteria ex "Xx-O".toList = .error .valueError ∧ parseCriteria ex "Xx-Xx".toList = .ok (.one (.chemsys [])) := by decide +kernel

/-- The hypotheses of the theorem on chemical systems hold for `*-{Li,Na}-O`. -/
theorem ex_slots : List.Forall₂ (Slot ex.table) [['*'], "{Li,Na}".toList, ['O']] [ex.table, ["Li".toList, "Na".toList], [['O']]] ∧
    (∀ s s', ex.element s = .ok s' → s' = s ∧ '-' ∉ s) ∧ ¬ IdLike (['-'].intercalate [['*'], "{Li,Na}".toList, ['O']]) := by
  refine ⟨.cons .wild (.cons (.group ["Li".toList, "Na".toList] (by simp) (by decide)) (.cons (.symbol _ (by decide) (by decide)) .nil)), ?_, ?_⟩
  · intro s s' h
    simp only [ex] at h
    split_ifs at h with hs
    cases h
    refine ⟨rfl, ?_⟩
    simp only [List.mem_cons, List.not_mem_nil, or_false] at hs
    rcases hs with rfl | rfl | rfl | rfl <;> decide
  · rw [← isId_iff]
    decide +kernel

/-- The hypotheses of the theorem on formulas hold for `*2{Li,Fe}O1.5`. -/
theorem ex_segs : let segs := [Seg.star ['2'], .group ["Li".toList, "Fe".toList] [], .el ['O'] "1.5".toList]
    (∀ s ∈ segs, s.WF) ∧ OneGroup segs ∧ (∀ s ∈ segs, ∀ c ∈ s.num, isDD c = true) ∧ (∀ s ∈ segs, ∀ x ∈ s.options ex.table, x ∈ ex.table) ∧
    render segs = "*2{Li,Fe}O1.5".toList := by
  refine ⟨?_, ?_, ?_, ?_, by decide⟩
  · intro s hs
    simp only [List.mem_cons, List.not_mem_nil, or_false] at hs
    rcases hs with rfl | rfl | rfl
    · simp only [Seg.WF]; decide
    · refine ⟨by simp, ?_, by simp⟩
      intro a ha
      simp only [List.mem_cons, List.not_mem_nil, or_false] at ha
      rcases ha with rfl | rfl
      · exact ⟨'L', ['i'], by decide, by decide, by decide⟩
      · exact ⟨'F', ['e'], by decide, by decide, by decide⟩
    · exact ⟨⟨'O', [], by decide, by decide, by decide⟩, by decide⟩
  · simp [OneGroup, Seg.isGroup]
  · intro s hs
    simp only [List.mem_cons, List.not_mem_nil, or_false] at hs
    rcases hs with rfl | rfl | rfl <;> simp only [Seg.num] <;> decide
  · intro s hs
    simp only [List.mem_cons, List.not_mem_nil, or_false] at hs
    rcases hs with rfl | rfl | rfl <;> simp only [Seg.options, ex] <;> decide

example := C112_id ex "mp".toList "12".toList (by decide) (by decide) (by decide) (by decide)
example := C112_chemsys ex ex_slots.2.1 [['*'], "{Li,Na}".toList, ['O']] _ (by decide) (by decide) ex_slots.1 ex_slots.2.2
  (.chemsys ["Li-Na-O".toList, "Li-Na-O".toList, "Fe-Li-O".toList, "Fe-Na-O".toList]) (by decide +kernel)
  ⟨"mp-1".toList, ["O".toList, "Fe".toList, "Li".toList], "LiFeO2".toList⟩ (by decide) (by decide)
example := C112_chemsys_error ex [['*'], "{Li,Na}".toList, ['O']] _ (by decide) (by decide) ex_slots.1 ex_slots.2.2
example := C112_formula_partial ex _ ex_lawful [Seg.star ['2'], .group ["Li".toList, "Fe".toList] [], .el ['O'] "1.5".toList] ex_segs.1 ex_segs.2.1
  ex_segs.2.2.1 ex_segs.2.2.2.1
example := C112_or_partial ex ["*2O".toList, "{Li,Fe}O".toList] (by simp) (by decide) (by decide)
  (.or [.formula ["Li2O".toList, "Na2O".toList, "Fe2O".toList], .formula ["LiO".toList, "FeO".toList]]) (by decide +kernel)

end Verif.Props.Criteria
