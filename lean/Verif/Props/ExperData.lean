import Verif.Model.ExperData
import Verif.Props.EntryTable
import Verif.Props.Reaction

/-! C118: tables of experimental data and the entries built on them. -/

set_option linter.unusedSectionVars false

namespace Verif.Props.ExperData
open Verif.Py Verif.Model Verif.Model.Entries Verif.Model.ExperData Verif.Lemmas Verif.Lemmas.Exc Verif.Props.EntryTable

variable {φ τ κ ε D AJ CJ : Type} [DecidableEq φ] [DecidableEq ε]

/-! ### Loading tables -/

/-- Specification: the keys of a table read as different numbers. -/
def Distinct (num : τ → Except Err ℚ) (d : List (τ × ℚ)) : Prop := d.Pairwise fun a b => ∀ x, num a.1 = .ok x → num b.1 ≠ .ok x

/-- Specification: the keys of a table are numbers in increasing order. -/
def Sorted (num : τ → Except Err ℚ) (d : List (τ × ℚ)) : Prop := d.Pairwise fun a b => ∀ x y, num a.1 = .ok x → num b.1 = .ok y → x < y

theorem rows_ok (num : τ → Except Err ℚ) (d : List (τ × ℚ)) (r : List (ℚ × ℚ))
    (h : (d.mapM fun p => (num p.1).map fun t => (t, p.2)) = .ok r) : d.Forall₂ (fun p q => num p.1 = .ok q.1 ∧ p.2 = q.2) r := by
  rw [mapM_ok] at h
  refine h.imp fun p q hpq => ?_
  cases hn : num p.1 with
  | error e => rw [hn] at hpq; cases hpq
  | ok t => rw [hn] at hpq; have := Except.ok.inj hpq; subst this; exact ⟨rfl, rfl⟩

theorem rows_pairwise (num : τ → Except Err ℚ) (R : ℚ → ℚ → Prop) (d : List (τ × ℚ)) (r : List (ℚ × ℚ))
    (h : d.Forall₂ (fun p q => num p.1 = .ok q.1 ∧ p.2 = q.2) r)
    (hd : d.Pairwise fun a b => ∀ x y, num a.1 = .ok x → num b.1 = .ok y → R x y) : r.Pairwise fun a b => R a.1 b.1 := by
  induction h with
  | nil => exact .nil
  | @cons p q d r h1 h2 ih =>
    obtain ⟨p1, p2⟩ := List.pairwise_cons.mp hd
    refine List.pairwise_cons.mpr ⟨?_, ih p2⟩
    intro b hb
    obtain ⟨a, ha, hab⟩ : ∃ a : τ × ℚ, a ∈ d ∧ num a.1 = .ok b.1 ∧ a.2 = b.2 := by
      clear ih p1 p2 hd
      induction h2 with
      | nil => cases hb
      | cons h3 _ ih =>
        rcases List.mem_cons.mp hb with rfl | hb
        · exact ⟨_, List.mem_cons_self, h3⟩
        · obtain ⟨a, ha, h⟩ := ih hb
          exact ⟨a, List.mem_cons_of_mem _ ha, h⟩
    exact p1 a ha _ _ h1.1 hab.1

theorem rows_mem (num : τ → Except Err ℚ) (d : List (τ × ℚ)) (r : List (ℚ × ℚ))
    (h : d.Forall₂ (fun p q => num p.1 = .ok q.1 ∧ p.2 = q.2) r) (t v : ℚ) : (t, v) ∈ r ↔ ∃ k, (k, v) ∈ d ∧ num k = .ok t := by
  induction h with
  | nil => simp
  | @cons p q d r h1 _ ih =>
    simp only [List.mem_cons, ih]
    constructor
    · rintro (h | ⟨k, hk, ht⟩)
      · subst h; exact ⟨p.1, Or.inl (Prod.ext rfl h1.2.symm), h1.1⟩
      · exact ⟨k, Or.inr hk, ht⟩
    · rintro ⟨k, hk | hk, ht⟩
      · left
        subst hk
        have := h1.1
        rw [ht] at this
        exact Prod.ext (Except.ok.inj this) h1.2
      · exact Or.inr ⟨k, hk, ht⟩

/-- **C118, loading one table.** It fails exactly when a key is no number. Otherwise, if different keys are different numbers, a temperature has a value
exactly when it is tabulated, namely the tabulated one. -/
theorem C118_keys (num : τ → Except Err ℚ) (d : List (τ × ℚ)) :
    ((∃ r, floatKeys num d = .ok r) ↔ ∀ p ∈ d, ∃ t, num p.1 = .ok t) ∧
    (∀ r, floatKeys num d = .ok r → (r.map Prod.fst).Nodup ∧
      (Distinct num d → ∀ t v, dictGet r t = some v ↔ ∃ k, (k, v) ∈ d ∧ num k = .ok t)) := by
  constructor
  · constructor
    · rintro ⟨r, h⟩ p hp
      cases hn : num p.1 with
      | ok t => exact ⟨t, rfl⟩
      | error e =>
        obtain ⟨e', he⟩ := mapM_exists_error (fun p : τ × ℚ => (num p.1).map fun t => (t, p.2)) d p hp e (by rw [hn]; rfl)
        unfold floatKeys at h
        rw [he] at h
        cases h
    · intro h
      cases hm : d.mapM fun p => (num p.1).map fun t => (t, p.2) with
      | ok r => exact ⟨dictOf r, by unfold floatKeys; rw [hm]; rfl⟩
      | error e =>
        obtain ⟨p, hp, he⟩ := mapM_error _ _ _ hm
        obtain ⟨t, ht⟩ := h p hp
        rw [ht] at he
        cases he
  · intro r h
    unfold floatKeys at h
    obtain ⟨l, hl, rfl⟩ := (map_ok _ _ _).mp h
    refine ⟨Dict.nodup_dictOf _, fun hd t v => ?_⟩
    have hr := rows_ok num d l hl
    have hn : (l.map Prod.fst).Nodup := by
      rw [List.Nodup, List.pairwise_map]
      exact rows_pairwise num (· ≠ ·) d l hr (hd.imp fun {a b} h x y hx hy (hxy : x = y) => h x hx (hxy ▸ hy))
    rw [Dict.dictOf_eq_self l hn, ← rows_mem num d l hr]
    exact ⟨Dict.mem_of_dictGet _ _ _, Dict.dictGet_eq_some_of_mem _ hn _ _⟩

theorem load_get (num : τ → Except Err ℚ) (file : List (φ × List (τ × ℚ))) (hf : (file.map Prod.fst).Nodup) (refs : List (φ × List (ℚ × ℚ)))
    (h : loadData num file = .ok refs) (f : φ) :
    (∀ d, (f, d) ∈ file → ∃ r, floatKeys num d = .ok r ∧ dictGet refs f = some r) ∧ (f ∉ file.map Prod.fst → dictGet refs f = none) := by
  unfold loadData at h
  obtain ⟨l, hl, rfl⟩ := (map_ok _ _ _).mp h
  rw [mapM_ok] at hl
  replace hl : file.Forall₂ (fun p q => p.1 = q.1 ∧ floatKeys num p.2 = .ok q.2) l := hl.imp fun p q hpq => by
    obtain ⟨d, hd, he⟩ := (map_ok _ _ _).mp hpq
    rw [← he]
    exact ⟨rfl, hd⟩
  have hk : l.map Prod.fst = file.map Prod.fst := by
    clear hf h
    induction hl with
    | nil => rfl
    | cons h1 _ ih => rw [List.map_cons, List.map_cons, ih, h1.1]
  rw [Dict.dictOf_eq_self l (hk ▸ hf)]
  refine ⟨fun d hd => ?_, fun hn => (Dict.dictGet_eq_none _ _).mpr (hk ▸ hn)⟩
  obtain ⟨q, hq, h1, h2⟩ : ∃ q ∈ l, f = q.1 ∧ floatKeys num d = .ok q.2 := by
    clear hf hk h
    induction hl with
    | nil => cases hd
    | cons h1 _ ih =>
      rcases List.mem_cons.mp hd with rfl | hd
      · exact ⟨_, List.mem_cons_self, h1⟩
      · obtain ⟨q, hq, h⟩ := ih hd
        exact ⟨q, List.mem_cons_of_mem _ hq, h⟩
  exact ⟨q.2, h2, Dict.dictGet_eq_some_of_mem _ (hk ▸ hf) _ _ (by rw [h1]; exact hq)⟩

theorem interp_node (d : List (ℚ × ℚ)) (hd : Increasing d) (t g : ℚ) (h : (t, g) ∈ d) : interp d t = some g := by
  induction d with
  | nil => cases h
  | cons a d ih =>
    obtain ⟨h1, h2⟩ := List.pairwise_cons.mp hd
    obtain ⟨ta, ga⟩ := a
    cases d with
    | nil =>
      rw [List.mem_singleton, Prod.mk.injEq] at h
      obtain ⟨rfl, rfl⟩ := h
      simp [interp]
    | cons b d =>
      obtain ⟨tb, gb⟩ := b
      have hab : ta < tb := h1 (tb, gb) List.mem_cons_self
      rw [interp]
      rcases List.mem_cons.mp h with h | h
      · rw [Prod.mk.injEq] at h
        obtain ⟨rfl, rfl⟩ := h
        rw [if_neg (lt_irrefl _), if_pos hab.le, line_eq hab, line_left hab]
      · have hat : ta < t := h1 (t, g) h
        rw [if_neg (not_lt.mpr hat.le)]
        by_cases hle : t ≤ tb
        · rcases List.mem_cons.mp h with h | h
          · rw [Prod.mk.injEq] at h
            obtain ⟨rfl, rfl⟩ := h
            rw [if_pos (le_refl _), line_eq hab, line_right hab]
          · have := (List.pairwise_cons.mp h2).1 (t, g) h
            exact absurd hle (not_le.mpr this)
        · rw [if_neg hle]
          exact ih h2 h

theorem validate_mem (r : List (ℚ × ℚ)) (t v : ℚ) (h : (t, v) ∈ r) : validate (some r) t = .ok r := by
  have hm : t ∈ r.map Prod.fst := List.mem_map.mpr ⟨_, h, rfl⟩
  unfold validate
  cases h1 : (r.map Prod.fst).min? with
  | none => rw [List.min?_eq_none_iff] at h1; rw [h1] at hm; cases hm
  | some lo =>
    cases h2 : (r.map Prod.fst).max? with
    | none => rw [List.max?_eq_none_iff] at h2; rw [h2] at hm; cases hm
    | some hi =>
      have hlo : lo ≤ t := (List.min?_eq_some_iff.mp h1).2 t hm
      have hhi : t ≤ hi := (List.max?_eq_some_iff.mp h2).2 t hm
      simp [h1, h2, hlo, hhi]

/-- **C118, tabulated energies.** For a data file with increasing numeric keys, an entry of a tabulated formula at a tabulated temperature (multiple of 100 or
not) exists and its energy is the tabulated value plus the adjustments. Formulas that are not in the file are rejected. -/
theorem C118_tabulated (num : τ → Except Err ℚ) (file : List (φ × List (τ × ℚ))) (hf : (file.map Prod.fst).Nodup) (K : Cls κ φ)
    (h : loadData num file = .ok K.refs) (c : κ) (hc : K.form c ∉ K.deprecated) (adjs : List Adj) (data : D) :
    (∀ d k v t, (K.form c, d) ∈ file → Sorted num d → (k, v) ∈ d → num k = .ok t →
      ∃ e, xinit K c t adjs data = .ok e ∧ e.entry.comp = c ∧ e.entry.temp = t ∧ e.entry.energy = v + (adjs.map Adj.value).sum) ∧
    (K.form c ∉ file.map Prod.fst → ∀ t, xinit K c t adjs data = .error .valueError) := by
  obtain ⟨h1, h2⟩ := load_get num file hf K.refs h (K.form c)
  constructor
  · intro d k v t hd hs hk ht
    obtain ⟨r, hr, hg⟩ := h1 d hd
    unfold floatKeys at hr
    obtain ⟨l, hl, rfl⟩ := (map_ok _ _ _).mp hr
    have hrows := rows_ok num d l hl
    have hinc : Increasing l := rows_pairwise num (· < ·) d l hrows hs
    have hn : (l.map Prod.fst).Nodup := nodup_keys hinc
    rw [Dict.dictOf_eq_self l hn] at hg
    have hm : (t, v) ∈ l := (rows_mem num d l hrows t v).mpr ⟨k, hk, ht⟩
    have he : tableEnergy l t = .ok v := by
      unfold tableEnergy
      split_ifs
      · rw [interp_node l hinc t v hm]
      · rw [Dict.dictGet_eq_some_of_mem l hn t v hm]
    refine ⟨⟨⟨c, t, v, adjs⟩, data⟩, ?_, rfl, rfl, rfl⟩
    unfold xinit experInit
    simp only [hc, decide_false, Bool.false_eq_true, if_false, hg, validate_mem l t v hm]
    show Except.map _ ((tableEnergy l t).bind _) = _
    rw [he]
    rfl
  · intro hn t
    unfold xinit experInit
    simp only [hc, decide_false, Bool.false_eq_true, if_false, h2 hn]
    rfl

/-! ### Saving and loading -/

/-- **C118, round trip.** If JSON keeps compositions and the adjustments used, saving and loading an entry gives the entry back: composition, temperature,
energy, adjustments, data, and with them name and identifier. -/
theorem C118_roundtrip (K : Cls κ φ) (J : Json κ CJ AJ) (comp : κ) (t : ℚ) (adjs : List Adj) (data : D) (e : XEntry κ D)
    (h : xinit K comp t adjs data = .ok e) (hc : J.compIn (J.compOut comp) = .ok comp) (ha : ∀ a ∈ adjs, J.adjIn (J.adjOut a) = .ok a) :
    fromDict K J (asDict J e) = .ok e := by
  have hfields : e.entry.comp = comp ∧ e.entry.temp = t ∧ e.entry.adjs = adjs ∧ e.data = data := by
    unfold xinit at h
    obtain ⟨x, hx, rfl⟩ := (map_ok _ _ _).mp h
    unfold experInit at hx
    split_ifs at hx
    · have := Except.ok.inj hx; subst this; exact ⟨rfl, rfl, rfl, rfl⟩
    · obtain ⟨d, -, hx⟩ := (bind_ok _ _ _).mp hx
      obtain ⟨g, -, hx⟩ := (bind_ok _ _ _).mp hx
      have := Except.ok.inj hx; subst this; exact ⟨rfl, rfl, rfl, rfl⟩
  obtain ⟨h1, h2, h3, h4⟩ := hfields
  unfold fromDict asDict
  have hm : (adjs.map J.adjOut).mapM J.adjIn = .ok adjs := by
    rw [mapM_map]
    have := mapM_eq_map (fun a => J.adjIn (J.adjOut a)) id adjs ha
    rw [List.map_id] at this
    exact this
  simp only [h1, h2, h3, h4, hc, hm, h]

/-! ### Names and identifiers -/

theorem append_sep_inj {a b c d : List Char} (x : Char) (hb : x ∉ b) (hd : x ∉ d) (h : a ++ x :: b = c ++ x :: d) : a = c ∧ b = d := by
  induction a generalizing c with
  | nil =>
    cases c with
    | nil => simpa using h
    | cons y c =>
      simp only [List.nil_append, List.cons_append, List.cons.injEq] at h
      exact absurd (h.2 ▸ (by simp : x ∈ c ++ x :: d)) hb
  | cons z a ih =>
    cases c with
    | nil =>
      simp only [List.nil_append, List.cons_append, List.cons.injEq] at h
      exact absurd (h.2 ▸ (by simp : x ∈ a ++ x :: b)) hd
    | cons y c =>
      simp only [List.cons_append, List.cons.injEq] at h
      obtain ⟨h1, h2⟩ := ih h.2
      exact ⟨by rw [h.1, h1], h2⟩

/-- **C118, identifiers.** If formulas and temperatures are printed differently when they differ (and temperatures without an underscore), two entries of a class
have the same identifier exactly if they have the same reduced formula and the same temperature. -/
theorem C118_identifier (K : Cls κ φ) (hs : ∀ f g, K.show' f = K.show' g → f = g) (ht : ∀ t u, K.showT t = K.showT u → t = u)
    (hu : ∀ t, '_' ∉ (K.showT t).toList) (c c' : κ) (t t' : ℚ) (adjs adjs' : List Adj) (data data' : D) (e e' : XEntry κ D)
    (h : xinit K c t adjs data = .ok e) (h' : xinit K c' t' adjs' data' = .ok e') :
    e.id K = e'.id K ↔ K.form c = K.form c' ∧ t = t' := by
  have fields : ∀ {c t adjs data} {e : XEntry κ D}, xinit K c t adjs data = .ok e → e.entry.comp = c ∧ e.entry.temp = t := by
    intro c t adjs data e h
    unfold xinit at h
    obtain ⟨x, hx, rfl⟩ := (map_ok _ _ _).mp h
    unfold experInit at hx
    split_ifs at hx
    · have := Except.ok.inj hx; subst this; exact ⟨rfl, rfl⟩
    · obtain ⟨d, -, hx⟩ := (bind_ok _ _ _).mp hx
      obtain ⟨g, -, hx⟩ := (bind_ok _ _ _).mp hx
      have := Except.ok.inj hx; subst this; exact ⟨rfl, rfl⟩
  obtain ⟨h1, h2⟩ := fields h
  obtain ⟨h1', h2'⟩ := fields h'
  unfold XEntry.id
  rw [h1, h2, h1', h2']
  constructor
  · intro he
    have he := congrArg String.toList he
    simp only [String.toList_append] at he
    obtain ⟨g1, g2⟩ := append_sep_inj (a := K.cls.toList ++ "-".toList ++ (K.show' (K.form c)).toList)
      (c := K.cls.toList ++ "-".toList ++ (K.show' (K.form c')).toList) '_' (hu t) (hu t')
      (by simpa [List.append_assoc] using he)
    exact ⟨hs _ _ (String.toList_injective (List.append_cancel_left g1)), ht _ _ (String.toList_injective g2)⟩
  · rintro ⟨g1, g2⟩
    rw [g1, g2]

/-- **C118, names.** The name of an entry is its formula, marked if and only if the class has replaced its data by those of another source. -/
theorem C118_name (K : Cls κ φ) (hs : ∀ f, ' ' ∉ (K.show' f).toList) (c : κ) (t : ℚ) (adjs : List Adj) (data : D) (e : XEntry κ D)
    (h : xinit K c t adjs data = .ok e) :
    (K.form c ∈ K.deprecated ↔ ' ' ∈ (e.name K).toList) ∧ (K.show' (K.form c)).toList <+: (e.name K).toList ∧
    (K.form c ∉ K.deprecated → e.name K = K.show' (K.form c)) := by
  have h1 : e.entry.comp = c := by
    unfold xinit at h
    obtain ⟨x, hx, rfl⟩ := (map_ok _ _ _).mp h
    unfold experInit at hx
    split_ifs at hx
    · have := Except.ok.inj hx; subst this; rfl
    · obtain ⟨d, -, hx⟩ := (bind_ok _ _ _).mp hx
      obtain ⟨g, -, hx⟩ := (bind_ok _ _ _).mp hx
      have := Except.ok.inj hx; subst this; rfl
  unfold XEntry.name
  rw [h1]
  by_cases hd : K.form c ∈ K.deprecated
  · simp only [if_pos hd, String.toList_append]
    refine ⟨⟨fun _ => List.mem_append_right _ (by decide), fun _ => hd⟩, List.prefix_append _ _, fun hn => absurd hd hn⟩
  · simp only [if_neg hd]
    exact ⟨⟨fun h => absurd h hd, fun h => absurd h (hs _)⟩, List.prefix_refl _, fun _ => trivial⟩

/-! ### Energies per atom -/

theorem natoms_red (X : Chem κ ε) (hX : X.Lawful) (c : κ) : X.natoms c = X.fac c * X.natoms (X.red c) := by
  rw [Verif.Lemmas.Reaction.natoms_eq X hX (X.red c) (X.elems c) (hX.nodup c)
    (fun e he => (hX.mem_elems c e).mpr (by
      rw [hX.red_amt]
      exact mul_ne_zero (hX.fac_pos c).ne' ((hX.mem_elems _ e).mp he)))]
  unfold Chem.natoms
  rw [← List.sum_map_mul_left]
  exact congrArg List.sum (List.map_congr_left fun e _ => hX.red_amt c e)

/-- **C118, energy per atom.** The energy of an entry is that of one reduced formula unit however many its composition contains; so its energy per atom is that of
the reduced formula divided by the number of formula units, and agrees with it only for one formula unit or zero energy. -/
theorem C118_per_atom_partial (X : Chem κ ε) (hX : X.Lawful) (K : Cls κ φ) (hform : ∀ c, K.form (X.red c) = K.form c) (c : κ) (t : ℚ) (data : D)
    (e : XEntry κ D) (h : xinit K c t [] data = .ok e) :
    ∃ e', xinit K (X.red c) t [] data = .ok e' ∧ e.entry.energy = e'.entry.energy ∧ perAtom X e = perAtom X e' / X.fac c ∧
      (X.natoms c ≠ 0 → (perAtom X e = perAtom X e' ↔ X.fac c = 1 ∨ e.entry.energy = 0)) := by
  have key : ∃ e', xinit K (X.red c) t [] data = .ok e' ∧ e.entry.energy = e'.entry.energy ∧ e.entry.comp = c ∧ e'.entry.comp = X.red c := by
    unfold xinit experInit at h ⊢
    simp only [hform]
    split_ifs at h ⊢ with hdep
    · have := Except.ok.inj h
      subst this
      exact ⟨_, rfl, rfl, rfl, rfl⟩
    · obtain ⟨x, hx, rfl⟩ := (map_ok _ _ _).mp h
      obtain ⟨d, hd, hx⟩ := (bind_ok _ _ _).mp hx
      obtain ⟨g, hg, hx⟩ := (bind_ok _ _ _).mp hx
      have := Except.ok.inj hx
      subst this
      refine ⟨⟨⟨X.red c, t, g, []⟩, data⟩, ?_, rfl, rfl, rfl⟩
      rw [hd]
      show Except.map _ ((tableEnergy d t).bind _) = _
      rw [hg]
      rfl
  obtain ⟨e', h', he, hc, hc'⟩ := key
  have hfac := (hX.fac_pos c).ne'
  have hp : perAtom X e = perAtom X e' / X.fac c := by
    unfold perAtom
    rw [he, hc, hc', natoms_red X hX c, div_div, mul_comm]
  refine ⟨e', h', he, hp, fun hn => ?_⟩
  have hn' : X.natoms (X.red c) ≠ 0 := fun h0 => hn (by rw [natoms_red X hX c, h0, mul_zero])
  rw [hp]
  constructor
  · intro heq
    by_cases h0 : e.entry.energy = 0
    · exact Or.inr h0
    · left
      have hpe : perAtom X e' ≠ 0 := by
        unfold perAtom
        rw [← he, hc']
        exact div_ne_zero h0 hn'
      rw [div_eq_iff hfac] at heq
      exact mul_left_cancel₀ hpe (by rw [mul_one]; exact heq.symm)
  · rintro (h1 | h1)
    · rw [h1, div_one]
    · unfold perAtom
      rw [← he, h1]
      simp

/-! ### Examples -/

section examples
open Verif.Props.Reaction (A A2 AB C1)

/-- `float` on the keys used -/
def exNum (s : String) : Except Err ℚ :=
  if s = "300" ∨ s = "300.0" then .ok 300 else if s = "350.0" then .ok 350 else if s = "400.0" then .ok 400 else .error .valueError

def exFile : List (TComp × List (String × ℚ)) := [(AB, [("300.0", -5), ("350.0", -3), ("400.0", -4)]), (A, [("300", -1), ("400.0", -2)])]

def exK : Cls TComp TComp where
  refs := [(AB, [(300, -5), (350, -3), (400, -4)]), (A, [(300, -1), (400, -2)])]
  deprecated := [C1]
  form := toy.red
  cls := "E"
  show' := fun c => if c = AB then "AB" else if c = A then "A" else "C"
  showT := fun t => if t = 300 then "300" else "T"

theorem ex_load : loadData exNum exFile = .ok exK.refs := by decide +kernel

/-- Example for `C118_keys` -/
example : floatKeys exNum [("300.0", -5), ("350.0", -3)] = .ok [(300, -5), (350, -3)] ∧ floatKeys exNum [("x", 1)] = .error .valueError ∧
    Distinct exNum [("300.0", -5), ("350.0", -3)] := by
  refine ⟨by decide +kernel, by decide +kernel, ?_⟩
  unfold Distinct
  rw [List.pairwise_pair]
  intro x hx hy
  rw [show exNum ("300.0", (-5 : ℚ)).1 = .ok 300 by decide +kernel] at hx
  rw [show exNum ("350.0", (-3 : ℚ)).1 = .ok 350 by decide +kernel, ← Except.ok.inj hx] at hy
  exact absurd (Except.ok.inj hy) (by norm_num)

theorem ex_sorted : Sorted exNum [("300.0", -5), ("350.0", -3), ("400.0", -4)] := by
  have h1 : exNum "300.0" = .ok 300 := by decide +kernel
  have h2 : exNum "350.0" = .ok 350 := by decide +kernel
  have h3 : exNum "400.0" = .ok 400 := by decide +kernel
  unfold Sorted
  simp only [List.pairwise_cons, List.mem_cons, List.not_mem_nil, or_false, forall_eq_or_imp, forall_eq, h1, h2, h3, Except.ok.injEq,
    IsEmpty.forall_iff, implies_true, List.Pairwise.nil, and_true]
  refine ⟨⟨?_, ?_⟩, ?_⟩ <;> (rintro _ _ rfl rfl; norm_num)

/-- Example for `C118_tabulated`: a tabulated temperature that is no multiple of 100. -/
example : ∃ e, xinit exK AB 350 [.const "shift" 1] () = .ok e ∧ e.entry.energy = -3 + 1 := by
  obtain ⟨e, he, -, -, h⟩ := (C118_tabulated exNum exFile (by decide +kernel) exK ex_load AB (by decide +kernel) [.const "shift" 1] ()).1
    [("300.0", -5), ("350.0", -3), ("400.0", -4)] "350.0" (-3) 350 (by decide +kernel) ex_sorted (by decide +kernel) (by decide +kernel)
  exact ⟨e, he, by rw [h]; decide +kernel⟩

/-- Example for `C118_roundtrip`: saved compositions and adjustments are kept as they are. -/
example : ∃ e, xinit exK AB 300 [.const "shift" 1] 7 = .ok e ∧ e.name exK = "AB" ∧ e.id exK = "E-AB_300" ∧
    fromDict exK (⟨id, .ok, id, .ok⟩ : Json TComp TComp Adj) (asDict ⟨id, .ok, id, .ok⟩ e) = .ok e := by
  refine ⟨⟨⟨AB, 300, -5, [.const "shift" 1]⟩, 7⟩, by decide +kernel, by decide +kernel, by decide +kernel, ?_⟩
  exact C118_roundtrip exK _ AB 300 [.const "shift" 1] 7 _ (by decide +kernel) rfl (fun _ _ => rfl)

/-- Example for `C118_identifier` and `C118_name` -/
example : ∃ e e', xinit exK AB 300 [] () = .ok e ∧ xinit exK A 300 [] () = .ok e' ∧ e.id exK = "E-AB_300" ∧ e'.id exK = "E-A_300" ∧
    ' ' ∉ (e.name exK).toList :=
  ⟨⟨⟨AB, 300, -5, []⟩, ()⟩, ⟨⟨A, 300, -1, []⟩, ()⟩, by decide +kernel, by decide +kernel, by decide +kernel, by decide +kernel, by decide +kernel⟩
example : ∃ e, xinit exK C1 300 [] () = .ok e ∧ e.name exK = "C (deprecated)" :=
  ⟨⟨⟨C1, 300, 0, []⟩, ()⟩, by decide +kernel, by decide +kernel⟩

/-- **C118 (violated).** Two formula units have half the energy per atom of one: `A` at 300 K has -1 eV per atom, `A2` has -1/2. Two spellings of one
temperature lose a value. -/
theorem C118_per_atom_violated :
    (xinit exK A 300 [] ()).map (perAtom toy) = .ok (-1) ∧ (xinit exK A2 300 [] ()).map (perAtom toy) = .ok (-1/2) ∧
    floatKeys exNum [("300", -1), ("300.0", -2)] = .ok [(300, -2)] := by decide +kernel

/-- Example for `C118_per_atom_partial` -/
example : ∃ e, xinit exK A2 300 [] () = .ok e ∧ toy.natoms A2 ≠ 0 ∧ (∀ c, exK.form (toy.red c) = exK.form c) :=
  ⟨⟨⟨A2, 300, -1, []⟩, ()⟩, by decide +kernel, by decide +kernel, fun c => toy_lawful.red_red c⟩

end examples

end Verif.Props.ExperData
