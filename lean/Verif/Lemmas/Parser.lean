import Verif.Model.Parser
import Verif.Spec.Parser
import Mathlib.Data.Nat.Digits.Lemmas
import Mathlib.Tactic.IntervalCases
import Mathlib.Tactic.FieldSimp
import Mathlib.Tactic.Ring
import Mathlib.Tactic.Linarith
import Mathlib.Tactic.NormNum
import Mathlib.Tactic.Positivity

/-!
Helper lemmas for the parser: the regular expression on well-formed text, and decimal notation.
-/

namespace Verif.Lemmas.Parser

open Verif.Model.Parser Verif.Spec.Parser Verif.Py

/-! ### The regular expression -/

/-- Text that cannot extend a run of `p`. -/
def Stop (p : Char → Bool) (s : List Char) : Prop := ∀ c t, s = c :: t → p c = false

theorem runs_head (p : Char → Bool) (w s : List Char) (hw : ∀ c ∈ w, p c = true) (hs : Stop p s) :
    ∃ tl, runs p (w ++ s) = (w, s) :: tl := by
  induction w with
  | nil =>
    rcases s with _ | ⟨c, s⟩
    · exact ⟨[], rfl⟩
    · refine ⟨[], ?_⟩
      have := hs c s rfl
      simp [runs, this]
  | cons c w ih =>
    obtain ⟨tl, h⟩ := ih fun x hx => hw x (by simp [hx])
    refine ⟨tl.map (fun r => (c :: r.1, r.2)) ++ [([], c :: (w ++ s))], ?_⟩
    rw [List.cons_append, runs, if_pos (hw c (by simp)), h]
    rfl

theorem runs_stop (p : Char → Bool) (s : List Char) (hs : Stop p s) : runs p s = [([], s)] := by
  rcases s with _ | ⟨c, s⟩
  · rfl
  · have := hs c s rfl
    simp [runs, this]

theorem expPart_none (c : Char) (s : List Char) (h : c ≠ 'e' ∧ c ≠ 'E') : expPart (c :: s) = [([], c :: s)] := by
  simp [expPart, h.1, h.2]

theorem toNat_inj (c d : Char) (h : c.toNat = d.toNat) : c = d := Char.toNat_inj.1 h

theorem char_ne (c d : Char) (h : c.toNat ≠ d.toNat) : c ≠ d := fun e => h (e ▸ rfl)

theorem isUp_spec (c : Char) : c.isUpper = true ↔ isUp c = true := by
  unfold Char.isUpper isUp
  rw [decide_eq_true_iff, decide_eq_true_iff, ge_iff_le, UInt32.le_iff_toNat_le, UInt32.le_iff_toNat_le]
  rfl

theorem isLower_spec (c : Char) (h : c.isLower = true) : 97 ≤ c.toNat ∧ c.toNat ≤ 122 := by
  unfold Char.isLower at h
  rw [Bool.and_eq_true, decide_eq_true_iff, decide_eq_true_iff, ge_iff_le, UInt32.le_iff_toNat_le, UInt32.le_iff_toNat_le] at h
  exact h

theorem isW_of (c : Char) (h : c.isAlphanum = true ∨ c ∈ ['_', '.', '(', ')']) : isW c = true := by
  rcases h with h | h
  · simp only [Char.isAlphanum, Char.isAlpha, Bool.or_eq_true] at h
    unfold isW
    simp only [Bool.or_eq_true, decide_eq_true_iff]
    rcases h with (h | h) | h
    · have := (isUp_spec c).1 h
      tauto
    · have : 97 ≤ c.toNat ∧ c.toNat ≤ 122 := by
        exact isLower_spec c h
      tauto
    · have : isD c = true := by
        unfold Char.isDigit at h
        unfold isD
        rw [decide_eq_true_iff]
        rw [Bool.and_eq_true, decide_eq_true_iff, decide_eq_true_iff, ge_iff_le, UInt32.le_iff_toNat_le, UInt32.le_iff_toNat_le] at h
        exact h
      tauto
  · simp only [List.mem_cons, List.not_mem_nil, or_false] at h
    rcases h with rfl | rfl | rfl | rfl <;> decide

theorem stop_space (p : Char → Bool) (hp : p ' ' = false) (s : List Char) : Stop p (' ' :: s) := by
  intro c t h
  cases h
  exact hp

theorem formulaPart_ok (f rest : List Char) (hf : Formula f) (hr : Stop isW rest) :
    formulaPart (f ++ rest) = some (f, rest) := by
  obtain ⟨c, s, rfl, hc, hs, -⟩ := hf
  have hall : ∀ x ∈ s, isW x = true := fun x hx => isW_of x (hs x hx)
  unfold formulaPart
  rw [List.cons_append]
  simp only [(isUp_spec c).1 hc, if_true]
  congr 1
  have h1 : (s ++ rest).takeWhile isW = s := by
    rw [List.takeWhile_append_of_pos hall]
    rcases rest with _ | ⟨d, t⟩
    · simp
    · simp [hr d t rfl]
  have h2 : (s ++ rest).dropWhile isW = rest := by
    rw [List.dropWhile_append_of_pos hall]
    rcases rest with _ | ⟨d, t⟩
    · simp
    · simp [hr d t rfl]
  rw [h1, h2]

theorem up_not (c : Char) (h : isUp c = true) : isDD c = false ∧ isSp c = false := by
  unfold isUp at h
  rw [decide_eq_true_iff] at h
  unfold isDD isD isSp
  constructor
  · rw [Bool.or_eq_false_iff]
    refine ⟨by rw [decide_eq_false_iff_not]; omega, ?_⟩
    rw [decide_eq_false_iff_not]
    apply char_ne
    have : '.'.toNat = 46 := rfl
    omega
  · rw [Bool.or_eq_false_iff, Bool.or_eq_false_iff, decide_eq_false_iff_not, decide_eq_false_iff_not, decide_eq_false_iff_not]
    refine ⟨⟨?_, by omega⟩, by omega⟩
    apply char_ne
    have : ' '.toNat = 32 := rfl
    omega

theorem formula_stop (f rest : List Char) (hf : Formula f) : Stop isDD (f ++ rest) ∧ Stop isSp (f ++ rest) := by
  obtain ⟨c, s, rfl, hc, -, -⟩ := hf
  have := up_not c ((isUp_spec c).1 hc)
  constructor <;> intro d t h <;> cases h
  · exact this.1
  · exact this.2

theorem findSome_cons {α β : Type} (f : α → Option β) (a : α) (l : List α) (b : β) (h : f a = some b) :
    (a :: l).findSome? f = some b := by
  rw [List.findSome?_cons, h]

/-- Digits (possibly none), a space, a formula. -/
theorem match_plain (w f rest : List Char) (hw : ∀ c ∈ w, isDD c = true) (hf : Formula f) (hr : Stop isW rest) :
    matchHere (w ++ ' ' :: (f ++ rest)) = some (w, f, rest) := by
  obtain ⟨tl, h1⟩ := runs_head isDD w (' ' :: (f ++ rest)) hw (stop_space _ (by decide) _)
  obtain ⟨tl2, h2⟩ := runs_head isSp [' '] (f ++ rest) (by simp; decide) (formula_stop f rest hf).2
  unfold matchHere
  rw [h1]
  apply findSome_cons
  rw [expPart_none ' ' _ (by decide)]
  apply findSome_cons
  simp only
  rw [show ' ' :: (f ++ rest) = [' '] ++ (f ++ rest) from rfl, h2]
  apply findSome_cons
  simp only
  rw [formulaPart_ok f rest hf hr]
  simp

/-- A number in scientific notation, a space, a formula. -/
theorem match_exp (w ds f rest : List Char) (hw : ∀ c ∈ w, isDD c = true) (hds : ds ≠ []) (hds' : ∀ c ∈ ds, isD c = true)
    (hf : Formula f) (hr : Stop isW rest) :
    matchHere (w ++ 'e' :: '-' :: (ds ++ ' ' :: (f ++ rest))) = some (w ++ 'e' :: '-' :: ds, f, rest) := by
  have hdd : ∀ c ∈ ds, isDD c = true := fun c hc => by unfold isDD; rw [hds' c hc]; rfl
  obtain ⟨tl, h1⟩ := runs_head isDD w ('e' :: '-' :: (ds ++ ' ' :: (f ++ rest))) hw (by intro c t h; cases h; decide)
  obtain ⟨tl2, h2⟩ := runs_head isSp [' '] (f ++ rest) (by simp; decide) (formula_stop f rest hf).2
  obtain ⟨tl3, h3⟩ : ∃ tl3, expPart ('e' :: '-' :: (ds ++ ' ' :: (f ++ rest))) = ('e' :: '-' :: ds, ' ' :: (f ++ rest)) :: tl3 := by
    rcases ds with _ | ⟨d, ds⟩
    · exact absurd rfl hds
    · obtain ⟨tl4, h4⟩ := runs_head isDD ds (' ' :: (f ++ rest)) (fun c hc => hdd c (by simp [hc])) (stop_space _ (by decide) _)
      refine ⟨tl4.map (fun r => ('e' :: '-' :: d :: r.1, r.2)) ++ [([], 'e' :: '-' :: (d :: ds ++ ' ' :: (f ++ rest)))], ?_⟩
      simp only [expPart, expTail, List.cons_append, runs1, true_or, if_true, hdd d (by simp), h4]
      simp
  unfold matchHere
  rw [h1]
  apply findSome_cons
  simp only
  rw [h3]
  apply findSome_cons
  simp only
  rw [show ' ' :: (f ++ rest) = [' '] ++ (f ++ rest) from rfl, h2]
  apply findSome_cons
  simp only
  rw [formulaPart_ok f rest hf hr]
  simp

/-- A formula without coefficient. -/
theorem match_formula (f rest : List Char) (hf : Formula f) (hr : Stop isW rest) : matchHere (f ++ rest) = some ([], f, rest) := by
  unfold matchHere
  rw [runs_stop isDD _ (formula_stop f rest hf).1]
  apply findSome_cons
  simp only
  have he : expPart (f ++ rest) = [([], f ++ rest)] := by
    obtain ⟨c, s, rfl, hc, -, hE⟩ := hf
    by_cases h : c = 'E'
    · obtain ⟨d, t, rfl, hd⟩ := hE h
      subst h
      have hd' : 97 ≤ d.toNat ∧ d.toNat ≤ 122 := by
        exact isLower_spec d hd
      have h1 : d ≠ '-' := char_ne _ _ (by have : '-'.toNat = 45 := rfl; omega)
      have h2 : isDD d = false := by
        unfold isDD isD
        rw [Bool.or_eq_false_iff, decide_eq_false_iff_not, decide_eq_false_iff_not]
        refine ⟨by omega, char_ne _ _ (by have : '.'.toNat = 46 := rfl; omega)⟩
      simp [expPart, expTail, h1, runs1, h2]
    · apply expPart_none
      refine ⟨?_, h⟩
      rintro rfl
      exact absurd hc (by decide)
  rw [he]
  apply findSome_cons
  simp only
  rw [runs_stop isSp _ (formula_stop f rest hf).2]
  apply findSome_cons
  simp only
  rw [formulaPart_ok f rest hf hr]
  simp

theorem match_nil : matchHere [] = none := by decide

theorem match_plus (s : List Char) : matchHere ('+' :: s) = none := by
  have h1 : isDD '+' = false := by decide
  have h2 : isSp '+' = false := by decide
  have h3 : isUp '+' = false := by decide
  simp [matchHere, runs, expPart, formulaPart, h1, h2, h3]

theorem match_space (c : Char) (s : List Char) (h1 : isSp c = false) (h2 : isUp c = false) : matchHere (' ' :: c :: s) = none := by
  have g1 : isDD ' ' = false := by decide
  have g2 : isSp ' ' = true := by decide
  have g3 : isUp ' ' = false := by decide
  simp [matchHere, runs, expPart, formulaPart, g1, g2, g3, h1, h2]

theorem match_space_end : matchHere [' '] = none := by decide

theorem runs_split (p : Char → Bool) (s : List Char) (r : List Char × List Char) (h : r ∈ runs p s) : r.1 ++ r.2 = s := by
  induction s generalizing r with
  | nil => simp [runs] at h; subst h; rfl
  | cons c s ih =>
    unfold runs at h
    split_ifs at h
    · rw [List.mem_append, List.mem_map] at h
      rcases h with ⟨q, hq, rfl⟩ | h
      · simp [ih q hq]
      · rw [List.mem_singleton.1 h]; rfl
    · rw [List.mem_singleton.1 h]; rfl

theorem expPart_split (s : List Char) (r : List Char × List Char) (h : r ∈ expPart s) : r.1 ++ r.2 = s := by
  have runs1_split : ∀ (p : Char → Bool) (s : List Char) (r : List Char × List Char), r ∈ runs1 p s → r.1 ++ r.2 = s := by
    intro p s r h
    rcases s with _ | ⟨c, s⟩
    · simp [runs1] at h
    · simp only [runs1] at h
      split_ifs at h
      · rw [List.mem_map] at h
        obtain ⟨q, hq, rfl⟩ := h
        simp [runs_split p s q hq]
      · simp at h
  have tail_split : ∀ (s : List Char) (r : List Char × List Char), r ∈ expTail s → r.1 ++ r.2 = s := by
    intro s r h
    rcases s with _ | ⟨c, s⟩
    · simp [expTail] at h
    · simp only [expTail] at h
      split_ifs at h with hc
      · rw [List.mem_map] at h
        obtain ⟨q, hq, rfl⟩ := h
        simp [runs1_split _ s q hq, hc]
      · exact runs1_split _ _ r h
  rcases s with _ | ⟨c, s⟩
  · simp [expPart] at h; subst h; rfl
  · simp only [expPart] at h
    split_ifs at h
    · rw [List.mem_append, List.mem_map] at h
      rcases h with ⟨q, hq, rfl⟩ | h
      · simp [tail_split s q hq]
      · rw [List.mem_singleton.1 h]; rfl
    · rw [List.mem_singleton.1 h]; rfl

/-- Every match consumes something. -/
theorem match_length (s n f rest : List Char) (h : matchHere s = some (n, f, rest)) : rest.length < s.length := by
  unfold matchHere at h
  obtain ⟨d, hd, h⟩ := List.exists_of_findSome?_eq_some h
  obtain ⟨x, hx, h⟩ := List.exists_of_findSome?_eq_some h
  obtain ⟨w, hw, h⟩ := List.exists_of_findSome?_eq_some h
  have e1 := congrArg List.length (runs_split _ _ _ hd)
  have e2 := congrArg List.length (expPart_split _ _ hx)
  have e3 := congrArg List.length (runs_split _ _ _ hw)
  rw [List.length_append] at e1 e2 e3
  rcases hf : formulaPart w.2 with _ | g
  · rw [hf] at h; simp at h
  · rw [hf] at h
    simp only [Option.map_some, Option.some.injEq, Prod.mk.injEq] at h
    obtain ⟨-, -, rfl⟩ := h
    rcases hw2 : w.2 with _ | ⟨c, t⟩
    · rw [hw2] at hf; simp [formulaPart] at hf
    · rw [hw2] at hf e3
      simp only [formulaPart] at hf
      split_ifs at hf
      cases hf
      have := (List.dropWhile_suffix isW (l := t)).length_le
      simp only [List.length_cons] at e3
      simp only
      omega

theorem findAll_fuel (a b : ℕ) (s : List Char) (ha : s.length < a) (hb : s.length < b) : findAll a s = findAll b s := by
  induction a generalizing b s with
  | zero => omega
  | succ a ih =>
    rcases b with _ | b
    · omega
    · unfold findAll
      rcases hm : matchHere s with _ | ⟨n, f, rest⟩
      · simp only
        rcases s with _ | ⟨c, t⟩
        · rfl
        · simp only [List.length_cons] at ha hb
          exact ih b t (by omega) (by omega)
      · simp only
        have := match_length s n f rest hm
        rw [ih b rest (by omega) (by omega)]

/-- All matches of a text. -/
def find (s : List Char) : List (List Char × List Char) := findAll (s.length + 1) s

theorem find_some (s n f rest : List Char) (h : matchHere s = some (n, f, rest)) : find s = (n, f) :: find rest := by
  unfold find
  rw [findAll.eq_def]
  simp only [h]
  have := match_length s n f rest h
  rw [findAll_fuel s.length (rest.length + 1) rest this (by omega)]

theorem find_none (c : Char) (s : List Char) (h : matchHere (c :: s) = none) : find (c :: s) = find s := by
  unfold find
  rw [findAll.eq_def]
  simp only [h, List.length_cons]

theorem find_nil : find [] = [] := by decide

/-- The numbers that printing produces and parsing understands. -/
inductive Num : List Char → Prop
  | plain (w : List Char) (c : Char) (h : ∀ x ∈ c :: w, isDD x = true) : Num (c :: w)
  | sci (w : List Char) (c : Char) (h : ∀ x ∈ c :: w, isDD x = true) (ds : List Char) (hne : ds ≠ []) (hd : ∀ x ∈ ds, isD x = true) :
      Num (c :: w ++ 'e' :: '-' :: ds)

/-- A coefficient (possibly left out) and a formula. -/
def term (n f : List Char) : List Char := if n = [] then f else n ++ ' ' :: f

theorem match_term (n f rest : List Char) (hn : n = [] ∨ Num n) (hf : Formula f) (hr : Stop isW rest) :
    matchHere (term n f ++ rest) = some (n, f, rest) := by
  rcases hn with rfl | hn
  · exact match_formula f rest hf hr
  · rcases hn with ⟨w, c, h⟩ | ⟨w, c, h, ds, hne, hd⟩
    · have := match_plain (c :: w) f rest h hf hr
      simpa [term] using this
    · have := match_exp (c :: w) ds f rest h hne hd hf hr
      simpa [term] using this

theorem dd_not (c : Char) (h : isDD c = true) : isSp c = false ∧ isUp c = false := by
  unfold isDD isD at h
  rw [Bool.or_eq_true, decide_eq_true_iff, decide_eq_true_iff] at h
  have hn : 46 ≤ c.toNat ∧ c.toNat ≤ 57 := by
    rcases h with h | h
    · omega
    · subst h; decide
  unfold isSp isUp
  rw [Bool.or_eq_false_iff, Bool.or_eq_false_iff, decide_eq_false_iff_not, decide_eq_false_iff_not, decide_eq_false_iff_not,
    decide_eq_false_iff_not]
  refine ⟨⟨⟨char_ne _ _ ?_, by omega⟩, by omega⟩, by omega⟩
  have : ' '.toNat = 32 := rfl
  omega

theorem find_space_term (n f rest : List Char) (hn : n = [] ∨ Num n) (hf : Formula f) (hr : Stop isW rest) :
    find (' ' :: (term n f ++ rest)) = (n, f) :: find rest := by
  have h1 := find_some _ _ _ _ (match_term n f rest hn hf hr)
  rcases hn with rfl | hn
  · exact find_some _ _ _ _ (match_plain [] f rest (by simp) hf hr)
  · rw [← h1]
    have : ∃ c t, term n f ++ rest = c :: t ∧ isDD c = true := by
      rcases hn with ⟨w, c, h⟩ | ⟨w, c, h, ds, hne, hd⟩
      · exact ⟨c, w ++ (' ' :: f) ++ rest, by simp [term], h c (by simp)⟩
      · exact ⟨c, w ++ 'e' :: '-' :: ds ++ (' ' :: f) ++ rest, by simp [term], h c (by simp)⟩
    obtain ⟨c, t, hct, hc⟩ := this
    rw [hct]
    exact find_none _ _ (match_space c t (dd_not c hc).1 (dd_not c hc).2)

/-- What follows the terms of one side: nothing or a space. -/
def Tail (tail : List Char) : Prop := tail = [] ∨ tail = [' ']

theorem find_tail (tail : List Char) (h : Tail tail) : find tail = [] := by
  rcases h with rfl | rfl
  · exact find_nil
  · rw [find_none _ _ match_space_end, find_nil]

theorem tail_stop (tail : List Char) (h : Tail tail) : Stop isW tail := by
  rcases h with rfl | rfl
  · intro c t h; cases h
  · exact stop_space _ (by decide) _

theorem find_join (ts : List (List Char × List Char)) (h : ∀ t ∈ ts, (t.1 = [] ∨ Num t.1) ∧ Formula t.2) (tail : List Char)
    (ht : Tail tail) :
    find (joinPlus (ts.map fun t => term t.1 t.2) ++ tail) = ts ∧
      find (' ' :: (joinPlus (ts.map fun t => term t.1 t.2) ++ tail)) = ts := by
  induction ts with
  | nil =>
    rw [List.map_nil, joinPlus, List.nil_append]
    refine ⟨find_tail _ ht, ?_⟩
    rcases ht with rfl | rfl
    · exact find_tail _ (.inr rfl)
    · rw [find_none _ _ (by decide)]
      exact find_tail _ (.inr rfl)
  | cons t ts ih =>
    obtain ⟨hn, hf⟩ := h t (by simp)
    have ih := ih fun x hx => h x (by simp [hx])
    rcases ts with _ | ⟨u, us⟩
    · simp only [List.map_cons, List.map_nil, joinPlus]
      rw [find_some _ _ _ _ (match_term _ _ _ hn hf (tail_stop _ ht)), find_space_term _ _ _ hn hf (tail_stop _ ht), find_tail _ ht]
      exact ⟨rfl, rfl⟩
    · have hrest : find (' ' :: '+' :: ' ' :: (joinPlus ((u :: us).map fun t => term t.1 t.2) ++ tail)) = u :: us := by
        rw [find_none _ _ (match_space '+' _ (by decide) (by decide)), find_none _ _ (match_plus _)]
        exact ih.2
      have hshape : joinPlus ((t :: u :: us).map fun t => term t.1 t.2) ++ tail =
          term t.1 t.2 ++ (' ' :: '+' :: ' ' :: (joinPlus ((u :: us).map fun t => term t.1 t.2) ++ tail)) := by
        simp [joinPlus]
      have hst : Stop isW (' ' :: '+' :: ' ' :: (joinPlus ((u :: us).map fun t => term t.1 t.2) ++ tail)) :=
        stop_space _ (by decide) _
      rw [hshape, find_some _ _ _ _ (match_term _ _ _ hn hf hst), find_space_term _ _ _ hn hf hst, hrest]
      exact ⟨rfl, rfl⟩

/-! ### Splitting at the arrow -/

theorem splitArrow_none (s : List Char) (h : '>' ∉ s) : splitArrow s = [s] := by
  induction s with
  | nil => rfl
  | cons c s ih =>
    rcases s with _ | ⟨d, s⟩
    · rfl
    · unfold splitArrow
      rw [if_neg, ih (fun hx => h (by simp [hx]))]
      rintro ⟨-, rfl⟩
      exact h (by simp)

theorem splitArrow_arrow (a b : List Char) (ha : '>' ∉ a) (hb : '>' ∉ b) :
    splitArrow (a ++ '-' :: '>' :: b) = [a, b] := by
  induction a with
  | nil => simp [splitArrow, splitArrow_none b hb]
  | cons c a ih =>
    have ih := ih fun hx => ha (by simp [hx])
    rcases a with _ | ⟨d, a⟩
    · rw [List.cons_append, List.nil_append] at *
      rw [splitArrow, if_neg (by rintro ⟨-, h⟩; exact absurd h (by decide)), ih]
    · rw [List.cons_append, List.cons_append] at *
      rw [splitArrow, if_neg, ih]
      rintro ⟨-, rfl⟩
      exact ha (by simp)

end Verif.Lemmas.Parser
