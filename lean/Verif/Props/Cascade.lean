import Verif.Model.Cascade
import Verif.Lemmas.Except
import Mathlib.Data.List.Sort
import Mathlib.Algebra.BigOperators.Group.Finset.Basic
import Mathlib.Algebra.BigOperators.Ring.List
import Mathlib.Algebra.Order.BigOperators.Group.List
import Mathlib.Algebra.Order.Field.Rat
import Mathlib.Tactic.Linarith
import Mathlib.Tactic.FieldSimp
import Mathlib.Tactic.Ring
import Mathlib.Tactic.FinCases
import Mathlib.Data.Fintype.Basic

/-! Property C114: the energy cascade of a pathway (src/rxn_network/pathways/plotting.py). -/

namespace Verif.Props.Cascade
open Verif.Py Verif.Model.Cascade Verif.Lemmas.Exc

set_option linter.unusedSectionVars false

variable {F E T : Type} [DecidableEq E] [DecidableEq T]

/-! ### Specification -/

/-- Atoms of a formula. -/
def size (X : Ext F E T) (f : F) : ℚ := ((X.elems f).map (X.amt f)).sum

/-- Formulas name each of their elements once, with nothing of the others, and are reduced by a positive factor. -/
structure Formulas (X : Ext F E T) : Prop where
  nodup : ∀ f, (X.elems f).Nodup
  zero : ∀ f el, el ∉ X.elems f → X.amt f el = 0
  factor : ∀ f, 0 < X.factor f
  amt : ∀ f el, 0 ≤ X.amt f el

/-- A mixture of entries of a set: weights that are not negative and sum up to one. -/
def IsMix (ents : Set (Ent E)) (w : List (Ent E × ℚ)) : Prop := (∀ p ∈ w, p.1 ∈ ents ∧ 0 ≤ p.2) ∧ (w.map Prod.snd).sum = 1

/-- Its energy per atom. -/
def mixEnergy (w : List (Ent E × ℚ)) : ℚ := (w.map fun p => p.2 * p.1.energy).sum

/-- Its composition. -/
def mixComp (w : List (Ent E × ℚ)) (el : E) : ℚ := (w.map fun p => p.2 * p.1.frac el).sum

/-- A diagram of these entries: entries found have the composition asked for, and the hull is the least energy of a mixture of the given composition. -/
structure IsDiagram (X : Ext F E T) (d : Diagram F E) (ents : Set (Ent E)) : Prop where
  mem : ∀ f e, d.lookup f = .ok e → e ∈ ents
  frac : ∀ f e, d.lookup f = .ok e → ∀ el, e.frac el * size X f = X.amt f el
  lower : ∀ x g, d.hull x = .ok g → ∀ w, IsMix ents w → mixComp w = x → g ≤ mixEnergy w
  attained : ∀ x g, d.hull x = .ok g → ∃ w, IsMix ents w ∧ mixComp w = x ∧ mixEnergy w = g

/-- A ground state: no mixture of the same composition has less energy. -/
def Ground (ents : Set (Ent E)) (w : List (Ent E × ℚ)) : Prop := ∀ w', IsMix ents w' → mixComp w' = mixComp w → mixEnergy w ≤ mixEnergy w'

/-- The amounts shown at a temperature. -/
def shown (smoothing : Bool) (amounts : List (F × List ℚ)) (i : ℕ) : List (F × ℚ) :=
  amounts.map fun c => (c.1, (if smoothing then smooth c.2 else c.2).getD i 0)

/-! ### Sums -/

theorem sum_comm' {α β : Type} (f : α → β → ℚ) (l : List α) (m : List β) :
    (l.map fun a => (m.map (f a)).sum).sum = (m.map fun b => (l.map fun a => f a b).sum).sum := by
  induction l with
  | nil => simp
  | cons a l ih =>
    simp only [List.map_cons, List.sum_cons, ih]
    rw [← List.sum_map_add]

theorem sum_cover (els : List E) (hn : els.Nodup) (l : List E) (hl : l.Nodup) (hsub : ∀ e ∈ l, e ∈ els) (g : E → ℚ) (hg : ∀ e, e ∉ l → g e = 0) :
    (els.map g).sum = (l.map g).sum := by
  rw [← List.sum_toFinset g hn, ← List.sum_toFinset g hl]
  symm
  refine Finset.sum_subset ?_ ?_
  · intro e he
    rw [List.mem_toFinset] at he ⊢
    exact hsub e he
  · intro e _ he
    rw [List.mem_toFinset] at he
    exact hg e he

theorem total_eq (X : Ext F E T) (hX : Formulas X) (els : List E) (hn : els.Nodup) (row : List (F × ℚ))
    (hc : ∀ p ∈ row, ∀ el ∈ X.elems p.1, el ∈ els) : total X els row = (row.map fun p => p.2 * size X p.1).sum := by
  unfold total atoms
  rw [sum_comm' (fun el (p : F × ℚ) => p.2 * X.amt p.1 el) els row]
  refine congrArg List.sum (List.map_congr_left fun p hp => ?_)
  rw [List.sum_map_mul_left]
  congr 1
  exact sum_cover els hn _ (hX.nodup _) (hc p hp) _ (hX.zero _)

theorem zip_sum {β : Type} (row : List (F × ℚ)) (es : List β) (h : row.length = es.length) (g : F × ℚ → ℚ) :
    ((row.zip es).map fun p => g p.1).sum = (row.map g).sum := by
  rw [show (fun p : (F × ℚ) × β => g p.1) = g ∘ Prod.fst from rfl, ← List.map_map, List.map_fst_zip (by omega)]

theorem div_sum {α : Type} (l : List α) (f : α → ℚ) (t : ℚ) : (l.map fun a => f a / t).sum = (l.map f).sum / t := by
  induction l with
  | nil => simp
  | cons a l ih => simp only [List.map_cons, List.sum_cons, ih, add_div]

/-! ### Rows -/

/-- The mixture that a row describes. -/
def mixOf (X : Ext F E T) (row : List (F × ℚ)) (es : List (Ent E)) : List (Ent E × ℚ) :=
  (row.zip es).map fun p => (p.2, p.1.2 * size X p.1.1 / (row.map fun q => q.2 * size X q.1).sum)

/-- The entries found for the phases. -/
def Found (d : Diagram F E) (row : List (F × ℚ)) (es : List (Ent E)) : Prop := List.Forall₂ (fun (p : F × ℚ) e => d.lookup p.1 = .ok e) row es

theorem size_nonneg (X : Ext F E T) (hX : Formulas X) (f : F) : 0 ≤ size X f :=
  List.sum_nonneg (by
    intro x hx
    obtain ⟨el, _, rfl⟩ := List.mem_map.mp hx
    exact hX.amt f el)

theorem found_zip (d : Diagram F E) (row : List (F × ℚ)) (es : List (Ent E)) (h : Found d row es) : ∀ p ∈ row.zip es, p.1 ∈ row ∧ d.lookup p.1.1 = .ok p.2 := by
  unfold Found at h
  intro p hp
  exact ⟨(List.of_mem_zip hp).1, (List.forall₂_iff_zip.mp h).2 hp⟩

theorem mix_comp (X : Ext F E T) (d : Diagram F E) (ents : Set (Ent E)) (hd : IsDiagram X d ents) (row : List (F × ℚ)) (es : List (Ent E))
    (h : Found d row es) (el : E) : mixComp (mixOf X row es) el = (row.map fun p => p.2 * X.amt p.1 el).sum / (row.map fun q => q.2 * size X q.1).sum := by
  unfold mixComp mixOf
  rw [List.map_map, ← zip_sum row es h.length_eq fun p => p.2 * X.amt p.1 el, ← div_sum]
  refine congrArg List.sum (List.map_congr_left fun p hp => ?_)
  have := hd.frac _ _ (found_zip d row es h p hp).2 el
  simp only [Function.comp_apply]
  rw [← this]
  ring

theorem mix_valid (X : Ext F E T) (hX : Formulas X) (d : Diagram F E) (ents : Set (Ent E)) (hd : IsDiagram X d ents) (row : List (F × ℚ)) (es : List (Ent E))
    (h : Found d row es) (hrow : ∀ p ∈ row, 0 ≤ p.2) (ht : (row.map fun q => q.2 * size X q.1).sum ≠ 0) : IsMix ents (mixOf X row es) := by
  have hnn : 0 ≤ (row.map fun q => q.2 * size X q.1).sum := List.sum_nonneg (by
    intro x hx
    obtain ⟨q, hq, rfl⟩ := List.mem_map.mp hx
    exact mul_nonneg (hrow q hq) (size_nonneg X hX _))
  refine ⟨?_, ?_⟩
  · intro p hp
    obtain ⟨q, hq, rfl⟩ := List.mem_map.mp hp
    obtain ⟨h1, h2⟩ := found_zip d row es h q hq
    exact ⟨hd.mem _ _ h2, div_nonneg (mul_nonneg (hrow _ h1) (size_nonneg X hX _)) hnn⟩
  · unfold mixOf
    rw [List.map_map]
    change ((row.zip es).map fun p => p.1.2 * size X p.1.1 / (row.map fun q => q.2 * size X q.1).sum).sum = 1
    rw [div_sum, zip_sum row es h.length_eq fun p => p.2 * size X p.1]
    exact div_self ht

theorem mapM_get {α β : Type} (f : α → Except Err β) (l : List α) (r : List β) (h : l.mapM f = .ok r) (i : ℕ) (b : β) (hb : r[i]? = some b) :
    ∃ a, l[i]? = some a ∧ f a = .ok b := by
  rw [mapM_ok] at h
  obtain ⟨hi, hb'⟩ := List.getElem?_eq_some_iff.mp hb
  have hl : i < l.length := by rw [h.length_eq]; exact hi
  refine ⟨l[i], List.getElem?_eq_getElem hl, ?_⟩
  have := h.get hl hi
  simp only [List.get_eq_getElem] at this
  rw [hb'] at this
  exact this

theorem zip_get {α β : Type} (l : List α) (m : List β) (i : ℕ) (p : α × β) (h : (l.zip m)[i]? = some p) : l[i]? = some p.1 ∧ m[i]? = some p.2 := by
  rw [List.getElem?_zip_eq_some] at h
  exact h

theorem found_of_mapM (X : Ext F E T) (d : Diagram F E) (row : List (F × ℚ)) (vs : List ℚ) (h : (row.mapM fun p => phaseEnergy X d p.1) = .ok vs) :
    ∃ es, Found d row es ∧ vs = (row.zip es).map fun p => formPerAtom d p.2 * reducedAtoms X p.1.1 := by
  rw [mapM_ok] at h
  induction h with
  | nil => exact ⟨[], .nil, rfl⟩
  | @cons p v row vs hp _ ih =>
    obtain ⟨es, h1, rfl⟩ := ih
    unfold phaseEnergy at hp
    rw [map_ok] at hp
    obtain ⟨e, he, rfl⟩ := hp
    exact ⟨e :: es, .cons he h1, rfl⟩

theorem rows_get (smoothing : Bool) (amounts cols : List (F × List ℚ)) (temps : List T) (h : phaseDf smoothing amounts temps = .ok cols) (i : ℕ)
    (r : T × List (F × ℚ)) (hr : (rowsOf cols temps)[i]? = some r) : temps[i]? = some r.1 ∧ r.2 = shown smoothing amounts i := by
  unfold phaseDf at h
  split_ifs at h with h1 h2
  · have h := Except.ok.inj h
    subst h
    unfold rowsOf at hr
    rw [List.getElem?_map, List.getElem?_zipIdx] at hr
    cases ht : temps[i]? with
    | none => simp [ht] at hr
    | some t =>
      simp only [ht, Option.map_some, Option.some.injEq, Nat.zero_add] at hr
      subst hr
      refine ⟨rfl, ?_⟩
      unfold shown
      rw [h2, List.map_map]
      rfl
  · have h := Except.ok.inj h
    subst h
    unfold rowsOf at hr
    rw [List.getElem?_map, List.getElem?_zipIdx] at hr
    cases ht : temps[i]? with
    | none => simp [ht] at hr
    | some t =>
      simp only [ht, Option.map_some, Option.some.injEq, Nat.zero_add] at hr
      subst hr
      refine ⟨rfl, ?_⟩
      unfold shown
      simp [h2]

/-- What a run does at each temperature. -/
theorem cascade_row (X : Ext F E T) (smoothing : Bool) (amounts : List (F × List ℚ)) (temps : List T) (out : List (T × Option ℚ))
    (h : cascade X smoothing amounts temps = .ok out) :
    out.map Prod.fst = temps ∧ ∀ i t v, out[i]? = some (t, v) → ∃ d g es x, temps[i]? = some t ∧ temps.count t = 1 ∧ X.diagram t = .ok d ∧
      fraction X (elemsOf X (amounts.map Prod.fst)) (shown smoothing amounts i) = .ok x ∧ d.hull x = .ok g ∧ Found d (shown smoothing amounts i) es ∧
      v = plotted X (elemsOf X (amounts.map Prod.fst)) (shown smoothing amounts i)
        (g, ((shown smoothing amounts i).zip es).map fun p => formPerAtom d p.2 * reducedAtoms X p.1.1) := by
  unfold cascade at h
  rw [bind_ok] at h
  obtain ⟨cols, hcols, h⟩ := h
  rw [bind_ok] at h
  obtain ⟨comps, hcomps, h⟩ := h
  rw [bind_ok] at h
  obtain ⟨energies, hen, h⟩ := h
  have h := Except.ok.inj h
  have l1 := mapM_length _ _ _ hcomps
  have l2 := mapM_length _ _ _ hen
  rw [List.length_zip, l1, Nat.min_self] at l2
  subst h
  refine ⟨?_, ?_⟩
  · rw [List.map_map]
    change ((rowsOf cols temps).zip energies).map (Prod.fst ∘ Prod.fst) = temps
    rw [← List.map_map, List.map_fst_zip (by omega)]
    unfold rowsOf
    rw [List.map_map]
    change temps.zipIdx.map Prod.fst = temps
    exact List.zipIdx_map_fst 0 temps
  · intro i t v hi
    rw [List.getElem?_map] at hi
    cases hz : ((rowsOf cols temps).zip energies)[i]? with
    | none => simp [hz] at hi
    | some q =>
      simp only [hz, Option.map_some, Option.some.injEq, Prod.mk.injEq] at hi
      obtain ⟨rfl, rfl⟩ := hi
      obtain ⟨z1, z2⟩ := zip_get _ _ _ _ hz
      obtain ⟨q1, hq1, hq2⟩ := mapM_get _ _ _ hen i _ z2
      obtain ⟨z3, z4⟩ := zip_get _ _ _ _ hq1
      rw [z1] at z3
      have z3 := Option.some.inj z3
      obtain ⟨q2, hq3, hq4⟩ := mapM_get _ _ _ hcomps i _ z4
      rw [z1] at hq3
      have hq3 := Option.some.inj hq3
      subst hq3
      obtain ⟨r1, r2⟩ := rows_get smoothing amounts cols temps hcols i _ z1
      unfold energiesAt at hq2
      rw [bind_ok] at hq2
      obtain ⟨d, hd, hq2⟩ := hq2
      split_ifs at hq2 with c1 c2
      rw [bind_ok] at hq2
      obtain ⟨g, hg, hq2⟩ := hq2
      rw [bind_ok] at hq2
      obtain ⟨vs, hvs, hq2⟩ := hq2
      have hq2 := Except.ok.inj hq2
      rw [← z3] at hd c2 hvs
      obtain ⟨es, hes, rfl⟩ := found_of_mapM X d _ vs hvs
      refine ⟨d, g, es, q1.2, r1, by simpa using c2, hd, ?_, hg, ?_, ?_⟩
      · rw [← r2]; exact hq4
      · rw [← r2]; exact hes
      · rw [← hq2, r2]

theorem elems_cover (X : Ext F E T) (smoothing : Bool) (amounts : List (F × List ℚ)) (i : ℕ) :
    ∀ p ∈ shown smoothing amounts i, ∀ el ∈ X.elems p.1, el ∈ elemsOf X (amounts.map Prod.fst) := by
  intro p hp el hel
  obtain ⟨c, hc, rfl⟩ := List.mem_map.mp hp
  unfold elemsOf
  rw [List.mem_dedup, List.mem_flatMap]
  exact ⟨c.1, List.mem_map_of_mem hc, hel⟩

theorem fraction_eq (X : Ext F E T) (hX : Formulas X) (smoothing : Bool) (amounts : List (F × List ℚ)) (i : ℕ) (x : E → ℚ)
    (h : fraction X (elemsOf X (amounts.map Prod.fst)) (shown smoothing amounts i) = .ok x) (el : E) :
    x el = ((shown smoothing amounts i).map fun p => p.2 * X.amt p.1 el).sum / ((shown smoothing amounts i).map fun q => q.2 * size X q.1).sum := by
  unfold fraction at h
  split_ifs at h
  have h := Except.ok.inj h
  subst h
  have ht := total_eq X hX _ (List.nodup_dedup _) _ (elems_cover X smoothing amounts i)
  change total X (elemsOf X (amounts.map Prod.fst)) (shown smoothing amounts i) = _ at ht
  simp only
  split_ifs with hel
  · rw [ht]
    rfl
  · symm
    rw [div_eq_zero_iff]
    left
    refine List.sum_eq_zero ?_
    intro v hv
    obtain ⟨p, hp, rfl⟩ := List.mem_map.mp hv
    rw [hX.zero p.1 el, mul_zero]
    exact fun hc => hel (elems_cover X smoothing amounts i p hp el hc)

theorem median_nonneg (a b c : ℚ) (ha : 0 ≤ a) (hb : 0 ≤ b) : 0 ≤ median a b c := by
  unfold median
  exact le_max_of_le_left (le_min ha hb)

theorem smoothFrom_nonneg (l : List ℚ) : ∀ a, 0 ≤ a → (∀ x ∈ l, 0 ≤ x) → ∀ x ∈ smoothFrom a l, 0 ≤ x := by
  induction l with
  | nil => intro a _ _ x hx; simp [smoothFrom] at hx
  | cons b l ih =>
    intro a ha hl x hx
    have hb := hl b (by simp)
    cases l with
    | nil =>
      simp only [smoothFrom, List.mem_singleton] at hx
      rw [hx]
      exact median_nonneg _ _ _ ha hb
    | cons c l =>
      simp only [smoothFrom, List.mem_cons] at hx
      rcases hx with rfl | hx
      · exact median_nonneg _ _ _ ha hb
      · exact ih b hb (fun y hy => hl y (by simp [hy])) x (by simpa using hx)

theorem shown_nonneg (smoothing : Bool) (amounts : List (F × List ℚ)) (h : ∀ c ∈ amounts, ∀ a ∈ c.2, 0 ≤ a) (i : ℕ) : ∀ p ∈ shown smoothing amounts i, 0 ≤ p.2 := by
  intro p hp
  obtain ⟨c, hc, rfl⟩ := List.mem_map.mp hp
  have : ∀ a ∈ (if smoothing then smooth c.2 else c.2), 0 ≤ a := by
    split_ifs
    · cases hl : c.2 with
      | nil => simp [smooth]
      | cons a l =>
        have h' := h c hc
        rw [hl] at h'
        exact smoothFrom_nonneg _ a (h' a (by simp)) h'
    · exact h c hc
  simp only
  rw [List.getD_eq_getElem?_getD]
  cases hg : (if smoothing then smooth c.2 else c.2)[i]? with
  | none => simp
  | some v => exact this v (List.mem_of_getElem? hg)

/-! ### C114 -/

/-- The series has one value per temperature, in order; a value is missing exactly if there are no atoms. -/
theorem C114_series (X : Ext F E T) (hX : Formulas X) (smoothing : Bool) (amounts : List (F × List ℚ)) (temps : List T) (out : List (T × Option ℚ))
    (h : cascade X smoothing amounts temps = .ok out) :
    out.map Prod.fst = temps ∧ temps.Nodup ∧
      ∀ i t v, out[i]? = some (t, v) → (v = none ↔ ((shown smoothing amounts i).map fun q => q.2 * size X q.1).sum = 0) := by
  obtain ⟨h1, h2⟩ := cascade_row X smoothing amounts temps out h
  refine ⟨h1, ?_, ?_⟩
  · rw [List.nodup_iff_count_le_one]
    intro t
    by_cases ht : t ∈ temps
    · rw [← h1] at ht
      obtain ⟨p, hp, rfl⟩ := List.mem_map.mp ht
      obtain ⟨i, hi⟩ := List.getElem?_of_mem hp
      obtain ⟨_, _, _, _, _, hc, _⟩ := h2 i p.1 p.2 hi
      omega
    · rw [List.count_eq_zero_of_not_mem ht]
      omega
  · intro i t v hi
    obtain ⟨d, g, es, x, _, _, _, _, _, _, rfl⟩ := h2 i t v hi
    unfold plotted
    rw [show elemsOf X (amounts.map Prod.fst) = ((amounts.map Prod.fst).flatMap X.elems).dedup from rfl,
      total_eq X hX _ (List.nodup_dedup _) _ (elems_cover X smoothing amounts i)]
    split_ifs with h0
    · simp [h0]
    · simp [h0]

/-- The value at a temperature: energies of the phases relative to the elements, weighted with the number of atoms of the reduced formulas, per atom of the
written formulas, minus the energy of the ground state at the normalised composition of the amounts. -/
theorem C114_value (X : Ext F E T) (hX : Formulas X) (smoothing : Bool) (amounts : List (F × List ℚ)) (temps : List T) (out : List (T × Option ℚ))
    (h : cascade X smoothing amounts temps = .ok out) (i : ℕ) (t : T) (q : ℚ) (hi : out[i]? = some (t, some q)) :
    ∃ d g es x, X.diagram t = .ok d ∧ d.hull x = .ok g ∧ Found d (shown smoothing amounts i) es ∧
      (∀ el, x el * ((shown smoothing amounts i).map fun p => p.2 * size X p.1).sum = ((shown smoothing amounts i).map fun p => p.2 * X.amt p.1 el).sum) ∧
      q * ((shown smoothing amounts i).map fun p => p.2 * size X p.1).sum =
        (((shown smoothing amounts i).zip es).map fun p => p.1.2 * (size X p.1.1 / X.factor p.1.1) * (p.2.energy - (d.els.map fun el => p.2.frac el * d.ref el).sum)).sum
          - g * ((shown smoothing amounts i).map fun p => p.2 * size X p.1).sum := by
  have hne := ((C114_series X hX smoothing amounts temps out h).2.2 i t (some q) hi).not.mp (by simp)
  obtain ⟨d, g, es, x, _, _, hd, hx, hg, hes, hv⟩ := (cascade_row X smoothing amounts temps out h).2 i t (some q) hi
  refine ⟨d, g, es, x, hd, hg, hes, ?_, ?_⟩
  · intro el
    rw [fraction_eq X hX smoothing amounts i x hx el, div_mul_cancel₀ _ hne]
  · unfold plotted at hv
    rw [show elemsOf X (amounts.map Prod.fst) = ((amounts.map Prod.fst).flatMap X.elems).dedup from rfl,
      total_eq X hX _ (List.nodup_dedup _) _ (elems_cover X smoothing amounts i), if_neg hne] at hv
    have hv := Option.some.inj hv
    rw [hv, div_sum, sub_mul, div_mul_cancel₀ _ hne]
    congr 1
    have hl := hes.length_eq
    generalize shown smoothing amounts i = row at hl
    clear * - hl
    induction row generalizing es with
    | nil => simp
    | cons p row ih =>
      cases es with
      | nil => simp at hl
      | cons e es =>
        simp only [List.zip_cons_cons, List.map_cons, List.sum_cons]
        rw [ih es (by simpa using hl)]
        congr 1
        unfold formPerAtom reducedAtoms size
        rw [div_sum]
        ring

/-- For reduced formulas and elements of zero energy, the value is the energy of the mixture above the ground state: never negative, and zero exactly for ground
states. Missing for the full statement: other formulas and references, where it is false (`C114_formula_violated`, `C114_reference_violated`). -/
theorem C114_above_ground_partial (X : Ext F E T) (hX : Formulas X) (smoothing : Bool) (amounts : List (F × List ℚ)) (temps : List T)
    (hred : ∀ c ∈ amounts, X.factor c.1 = 1) (hpos : ∀ c ∈ amounts, ∀ a ∈ c.2, 0 ≤ a) (ents : T → Set (Ent E))
    (hd : ∀ t d, X.diagram t = .ok d → IsDiagram X d (ents t) ∧ ∀ el ∈ d.els, d.ref el = 0) (out : List (T × Option ℚ))
    (h : cascade X smoothing amounts temps = .ok out) (i : ℕ) (t : T) (q : ℚ) (hi : out[i]? = some (t, some q)) :
    ∃ d es, X.diagram t = .ok d ∧ Found d (shown smoothing amounts i) es ∧
      let w := mixOf X (shown smoothing amounts i) es
      IsMix (ents t) w ∧ d.hull (mixComp w) = .ok (mixEnergy w - q) ∧ 0 ≤ q ∧ (q = 0 ↔ Ground (ents t) w) := by
  have hne := ((C114_series X hX smoothing amounts temps out h).2.2 i t (some q) hi).not.mp (by simp)
  obtain ⟨d, g, es, x, hdt, hg, hes, hx, hq⟩ := C114_value X hX smoothing amounts temps out h i t q hi
  obtain ⟨hD, href⟩ := hd t d hdt
  have hmix := mix_valid X hX d (ents t) hD _ es hes (shown_nonneg smoothing amounts hpos i) hne
  have hxc : mixComp (mixOf X (shown smoothing amounts i) es) = x := by
    funext el
    rw [mix_comp X d (ents t) hD _ es hes el, ← hx el, mul_div_assoc, div_self hne, mul_one]
  have hfac : ∀ p ∈ shown smoothing amounts i, X.factor p.1 = 1 := by
    intro p hp
    obtain ⟨c, hc, rfl⟩ := List.mem_map.mp hp
    exact hred c hc
  have hen : mixEnergy (mixOf X (shown smoothing amounts i) es) = q + g := by
    rw [← mul_left_inj' hne, add_mul, hq, sub_add_cancel]
    unfold mixEnergy mixOf
    rw [List.map_map]
    have : (((shown smoothing amounts i).zip es).map ((fun p : Ent E × ℚ => p.2 * p.1.energy) ∘ fun p => (p.2, p.1.2 * size X p.1.1 /
        ((shown smoothing amounts i).map fun q => q.2 * size X q.1).sum))).sum =
        (((shown smoothing amounts i).zip es).map fun p => p.1.2 * size X p.1.1 * p.2.energy / ((shown smoothing amounts i).map fun q => q.2 * size X q.1).sum).sum := by
      refine congrArg List.sum (List.map_congr_left fun p _ => ?_)
      simp only [Function.comp_apply]
      ring
    rw [this, div_sum, div_mul_cancel₀ _ hne]
    refine congrArg List.sum (List.map_congr_left fun p hp => ?_)
    rw [hfac _ (found_zip d _ es hes p hp).1]
    have : (d.els.map fun el => p.2.frac el * d.ref el).sum = 0 := by
      refine List.sum_eq_zero ?_
      intro v hv
      obtain ⟨el, hel, rfl⟩ := List.mem_map.mp hv
      rw [href el hel, mul_zero]
    rw [this]
    ring
  have hlow := hD.lower x g hg _ hmix hxc
  refine ⟨d, es, hdt, hes, hmix, ?_, by linarith, ?_, ?_⟩
  · rw [hxc, hg, hen]
    simp
  · intro h0 w' hw' hc'
    have := hD.lower x g hg w' hw' (hc'.trans hxc)
    linarith
  · intro hgr
    obtain ⟨w', hw', hc', he'⟩ := hD.attained x g hg
    have := hgr w' hw' (hc'.trans hxc.symm)
    linarith

/-- The middle one of three values. -/
theorem median_eq (a b c : ℚ) : [a, b, c].insertionSort (· ≤ ·) = [min (min a b) c, median a b c, max (max a b) c] := by
  simp only [List.insertionSort_cons, List.insertionSort_nil, List.orderedInsert, median, min_def, max_def]
  split_ifs <;> simp only [List.orderedInsert] <;> (try split_ifs) <;> simp only [List.cons.injEq, and_true, true_and] <;> (repeat' constructor) <;> linarith

theorem smoothFrom_get (l : List ℚ) : ∀ a i (_ : i < l.length), (smoothFrom a l)[i]? =
    some (median (((a :: l)[i]?).getD 0) ((l[i]?).getD 0) ((l[min (i + 1) (l.length - 1)]?).getD 0)) := by
  induction l with
  | nil => intro a i hi; simp at hi
  | cons b l ih =>
    intro a i hi
    cases l with
    | nil =>
      have : i = 0 := by simpa using hi
      subst this
      simp [smoothFrom]
    | cons c l =>
      cases i with
      | zero => simp [smoothFrom]
      | succ i =>
        rw [show smoothFrom a (b :: c :: l) = median a b c :: smoothFrom b (c :: l) from rfl, List.getElem?_cons_succ, ih b i (by simpa using hi)]
        congr 3
        have : min (i + 1 + 1) ((b :: c :: l).length - 1) = min (i + 1) ((c :: l).length - 1) + 1 := by
          simp only [List.length_cons]
          omega
        rw [this, List.getElem?_cons_succ]

/-- Smoothing keeps the length and replaces each amount by the middle one of it and its neighbours. -/
theorem C114_smoothing (l : List ℚ) : (smooth l).length = l.length ∧
    ∀ i, i < l.length → (smooth l)[i]? = ([(l[i - 1]?).getD 0, (l[i]?).getD 0, (l[min (i + 1) (l.length - 1)]?).getD 0].insertionSort (· ≤ ·))[1]? := by
  have hlen : ∀ (l : List ℚ) a, (smoothFrom a l).length = l.length := by
    intro l
    induction l with
    | nil => intro a; rfl
    | cons b l ih =>
      intro a
      cases l with
      | nil => rfl
      | cons c l => simp only [smoothFrom, List.length_cons, ih b]
  cases l with
  | nil => simp [smooth]
  | cons a l =>
    refine ⟨hlen _ _, ?_⟩
    intro i hi
    rw [median_eq]
    rw [show smooth (a :: l) = smoothFrom a (a :: l) from rfl, smoothFrom_get _ a i hi]
    cases i with
    | zero => simp
    | succ i => simp

/-- Amounts that only grow are not changed by smoothing. -/
theorem C114_smoothing_monotone (l : List ℚ) (h : l.Pairwise (· ≤ ·)) : smooth l = l := by
  have key : ∀ (l : List ℚ) a, (a :: l).Pairwise (· ≤ ·) → smoothFrom a l = l := by
    intro l
    induction l with
    | nil => intro a _; rfl
    | cons b l ih =>
      intro a h
      have hab : a ≤ b := by
        rw [List.pairwise_cons] at h
        exact h.1 b (by simp)
      have hb := (List.pairwise_cons.mp h).2
      cases l with
      | nil => simp [smoothFrom, median, hab]
      | cons c l =>
        have hbc : b ≤ c := by
          rw [List.pairwise_cons] at hb
          exact hb.1 c (by simp)
        rw [show smoothFrom a (b :: c :: l) = median a b c :: smoothFrom b (c :: l) from rfl, ih b hb]
        simp [median, hab, hbc]
  cases l with
  | nil => rfl
  | cons a l =>
    refine key _ a ?_
    rw [List.pairwise_cons] at h ⊢
    refine ⟨?_, List.pairwise_cons.mpr h⟩
    intro x hx
    rcases List.mem_cons.mp hx with rfl | hx
    · exact le_refl _
    · exact h.1 x hx

/-! ### Examples and violations -/

/-- Two elements, and the formulas 0 (first element), 1 (second element), 2 (one of each) and 3 (two of each, reduced by two). The hull is the line between the
elements and the compound 2 with energy -1 per atom, shifted by the energy `r` per atom of the first element. -/
def ex (r : ℚ) : Ext (Fin 4) (Fin 2) ℕ where
  elems := fun f => if f = 0 then [0] else if f = 1 then [1] else [0, 1]
  amt := fun f el => if f = 0 then (if el = 0 then 1 else 0) else if f = 1 then (if el = 1 then 1 else 0) else if f = 2 then 1 else 2
  factor := fun f => if f = 3 then 2 else 1
  diagram := fun _ => .ok ⟨[0, 1], fun el => if el = 0 then r else 0, fun x =>
      if 0 ≤ x 0 ∧ 0 ≤ x 1 ∧ x 0 + x 1 = 1 then .ok (r * x 0 - 2 * min (x 0) (x 1)) else .error .valueError,
    fun f => .ok (if f = 0 then ⟨r, fun el => if el = 0 then 1 else 0⟩ else if f = 1 then ⟨0, fun el => if el = 1 then 1 else 0⟩
      else ⟨r / 2 - 1, fun _ => 1 / 2⟩)⟩

/-- The entries of the example. -/
def exEnts : Set (Ent (Fin 2)) := {⟨0, fun el => if el = 0 then 1 else 0⟩, ⟨0, fun el => if el = 1 then 1 else 0⟩, ⟨-1, fun _ => 1 / 2⟩}

theorem ex_formulas (r : ℚ) : Formulas (ex r) := by
  refine ⟨?_, ?_, ?_, ?_⟩
  · intro f; revert f; simp only [ex]; decide
  · intro f el; revert f el; simp only [ex]; decide +kernel
  · intro f; revert f; simp only [ex]; decide +kernel
  · intro f el; revert f el; simp only [ex]; decide +kernel

theorem ex_lower (w : List (Ent (Fin 2) × ℚ)) (h : ∀ p ∈ w, p.1 ∈ exEnts ∧ 0 ≤ p.2) : -2 * min (mixComp w 0) (mixComp w 1) ≤ mixEnergy w := by
  have h0 : ∀ el, mixComp w el ≥ 0 - mixEnergy w / 2 := by
    intro el
    unfold mixComp mixEnergy
    induction w with
    | nil => simp
    | cons p w ih =>
      have ih := ih (fun q hq => h q (by simp [hq]))
      obtain ⟨h1, h2⟩ := h p (by simp)
      simp only [List.map_cons, List.sum_cons]
      have : p.2 * p.1.frac el ≥ 0 - p.2 * p.1.energy / 2 := by
        rcases h1 with h1 | h1 | h1
        · rw [h1]; simp only; split_ifs <;> linarith
        · rw [h1]; simp only; split_ifs <;> linarith
        · rw [h1]; simp only; linarith
      linarith
  have := le_min (h0 0) (h0 1)
  linarith

theorem ex_diagram (d : Diagram (Fin 4) (Fin 2)) (t : ℕ) (h : (ex 0).diagram t = .ok d) : IsDiagram (ex 0) d exEnts ∧ ∀ el ∈ d.els, d.ref el = 0 := by
  have h := Except.ok.inj h
  subst h
  refine ⟨⟨?_, ?_, ?_, ?_⟩, ?_⟩
  · intro f e h
    have h := Except.ok.inj h
    subst h
    simp only [exEnts, Set.mem_insert_iff, Set.mem_singleton_iff]
    split_ifs <;> simp
  · intro f e h el
    have h := Except.ok.inj h
    subst h
    clear h
    revert f el
    decide +kernel
  · intro x g hg w hw hx
    simp only at hg
    split_ifs at hg with hc
    have hg := Except.ok.inj hg
    have := ex_lower w hw.1
    rw [hx] at this
    rw [← hg]
    linarith
  · intro x g hg
    simp only at hg
    split_ifs at hg with hc
    have hg := Except.ok.inj hg
    obtain ⟨h0, h1, h2⟩ := hc
    refine ⟨[(⟨0, fun el => if el = 0 then 1 else 0⟩, x 0 - min (x 0) (x 1)), (⟨0, fun el => if el = 1 then 1 else 0⟩, x 1 - min (x 0) (x 1)),
      (⟨-1, fun _ => 1 / 2⟩, 2 * min (x 0) (x 1))], ⟨?_, ?_⟩, ?_, ?_⟩
    · intro p hp
      simp only [List.mem_cons, List.not_mem_nil, or_false] at hp
      rcases hp with rfl | rfl | rfl
      · exact ⟨by simp [exEnts], by simp⟩
      · exact ⟨by simp [exEnts], by simp⟩
      · exact ⟨by simp [exEnts], by simp [h0, h1]⟩
    · simp only [List.map_cons, List.map_nil, List.sum_cons, List.sum_nil]
      linarith
    · funext el
      fin_cases el
      · simp [mixComp]; ring
      · simp [mixComp]; ring
    · rw [← hg]
      simp [mixEnergy]
  · intro el _
    simp

/-- The hypotheses of `C114_above_ground_partial` are met: mixed elements react between two temperatures. Energy is 1 above the ground state, then 0. -/
example : cascade (ex 0) false [(0, [1, 0]), (1, [1, 0]), (2, [0, 1])] [300, 400] = .ok [(300, some 1), (400, some 0)] ∧ Formulas (ex 0) ∧
    ∀ t d, (ex 0).diagram t = .ok d → IsDiagram (ex 0) d exEnts ∧ ∀ el ∈ d.els, d.ref el = 0 :=
  ⟨by decide +kernel, ex_formulas 0, fun t d h => ex_diagram d t h⟩

/-- **Violated**: the plot depends on how the formulas are written: a ground state is drawn 1/2 above itself. -/
theorem C114_formula_violated : cascade (ex 0) false [(2, [1])] [300] = .ok [(300, some 0)] ∧ cascade (ex 0) false [(3, [1])] [300] = .ok [(300, some (1 / 2))] :=
  ⟨by decide +kernel, by decide +kernel⟩

/-- **Violated**: formation energies are compared with the energy of the hull itself; if elements do not have zero energy, values are shifted, here below zero. -/
theorem C114_reference_violated : cascade (ex 1) false [(2, [1])] [300] = .ok [(300, some (-1 / 2))] := by decide +kernel

/-- **Violated**: smoothing changes the composition: a phase seen once is dropped, and with it the second element. -/
theorem C114_smoothing_violated : ∃ amounts : List (Fin 4 × List ℚ), ((shown false amounts 1).map fun p => p.2 * (ex 0).amt p.1 1).sum = 2 ∧
    ((shown true amounts 1).map fun p => p.2 * (ex 0).amt p.1 1).sum = 0 ∧ ((shown true amounts 1).map fun p => p.2 * (ex 0).amt p.1 0).sum = 2 :=
  ⟨[(0, [2, 0, 2]), (2, [0, 2, 0])], by decide +kernel, by decide +kernel, by decide +kernel⟩

/-- **Violated**: a temperature that is measured twice makes the plot fail. -/
theorem C114_repeated_violated : cascade (ex 0) false [(2, [1, 1])] [300, 300] = .error .attributeError := by decide +kernel

theorem ex_cascade : cascade (ex 0) false [(0, [1, 0]), (1, [1, 0]), (2, [0, 1])] [300, 400] = .ok [(300, some 1), (400, some 0)] := by decide +kernel

example := C114_series (ex 0) (ex_formulas 0) _ _ _ _ ex_cascade
example := C114_value (ex 0) (ex_formulas 0) _ _ _ _ ex_cascade 1 400 0 rfl
example := C114_above_ground_partial (ex 0) (ex_formulas 0) _ _ _ (by decide) (by decide +kernel) (fun _ => exEnts) (fun t d h => ex_diagram d t h) _ ex_cascade
  0 300 1 rfl

end Verif.Props.Cascade
