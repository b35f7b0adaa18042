import Verif.Model.DfTools
import Verif.Lemmas.Dict
import Verif.Props.Pareto

/-! Property C104: filtering and plotting reaction tables. -/

namespace Verif.Props.DfTools
open Verif.Py Verif.Model.DfTools Verif.Model.Pareto Verif.Spec.Pareto Verif.Lemmas.Dict

variable {φ : Type} [DecidableEq φ]

/-! helpers -/

omit [DecidableEq φ] in
theorem drop_with (reduce : φ → φ) (sortF : List φ → List φ) (r : Row φ) :
    dropPrecursors (withPrecursors reduce sortF r) = dropPrecursors r := by
  unfold dropPrecursors withPrecursors
  simp only [Row.mk.injEq, true_and]
  induction r.cells with
  | nil => simp [dictSet]
  | cons c cs ih =>
    obtain ⟨k, v⟩ := c
    simp only [dictSet]
    by_cases h : k = "precursors"
    · simp [h]
    · simp only [h, if_false, List.filter_cons, ne_eq, not_false_eq_true, decide_true, if_true, List.cons.injEq, true_and]
      exact ih

omit [DecidableEq φ] in
theorem drop_eq_self (r : Row φ) (h : "precursors" ∉ r.cells.map Prod.fst) : dropPrecursors r = r := by
  unfold dropPrecursors
  rw [List.filter_eq_self.mpr]
  intro c hc
  rw [decide_eq_true_eq]
  exact fun he => h (he ▸ List.mem_map_of_mem hc)

theorem available_with (reduce : φ → φ) (sortF : List φ → List φ) (hs : ∀ l, (sortF l).Perm l) (ps : List φ) (r : Row φ) :
    available ps (withPrecursors reduce sortF r) = true ↔ ∀ c ∈ r.reactants, reduce c ∈ ps := by
  unfold available withPrecursors
  simp only [dictGet_dictSet, if_true]
  rw [List.all_eq_true]
  constructor
  · intro h c hc
    exact decide_eq_true_eq.mp (h (reduce c) ((hs _).mem_iff.mpr (List.mem_map_of_mem hc)))
  · intro h p hp
    obtain ⟨c, hc, rfl⟩ := List.mem_map.mp ((hs _).mem_iff.mp hp)
    exact decide_eq_true_eq.mpr (h c hc)

/-! ### C104: filtering -/

/-- Filtering keeps, in order, exactly the rows all of whose reactants are the same substance as one of the given precursors. Every row is
kept as it is, up to a column named `precursors`. Needs a table with rows and precursors written as reduced formulas. -/
theorem C104_filter_partial (reduce : φ → φ) (sortF : List φ → List φ) (hs : ∀ l, (sortF l).Perm l) (df : List (Row φ)) (hne : df ≠ [])
    (precursors : List φ) (hp : ∀ p ∈ precursors, reduce p = p) (hc : ∀ r ∈ df, "precursors" ∉ r.cells.map Prod.fst) :
    ∃ keep : Row φ → Bool, filterByPrecursors reduce sortF df precursors = .ok (df.filter keep) ∧
      ∀ r, keep r = true ↔ ∀ c ∈ r.reactants, ∃ p ∈ precursors, reduce p = reduce c := by
  refine ⟨fun r => available precursors (withPrecursors reduce sortF r), ?_, ?_⟩
  · unfold filterByPrecursors
    rw [if_neg hne, List.filter_map, List.map_map]
    congr 1
    calc _ = (df.filter (available precursors ∘ withPrecursors reduce sortF)).map id := by
            apply List.map_congr_left
            intro r hr
            rw [Function.comp, drop_with, drop_eq_self r (hc r (List.mem_filter.mp hr).1)]
            rfl
      _ = _ := List.map_id _
  · intro r
    rw [available_with reduce sortF hs]
    refine forall₂_congr fun c _ => ⟨fun h => ⟨_, h, hp _ h⟩, ?_⟩
    rintro ⟨p, h1, h2⟩
    rw [← h2, hp p h1]; exact h1

/-- Filtering twice is filtering by the common precursors. -/
theorem C104_filter_compose (reduce : φ → φ) (sortF : List φ → List φ) (hs : ∀ l, (sortF l).Perm l) (df out : List (Row φ))
    (ps qs : List φ) (h : filterByPrecursors reduce sortF df ps = .ok out) (hne : out ≠ []) :
    filterByPrecursors reduce sortF out qs = filterByPrecursors reduce sortF df (ps.filter (· ∈ qs)) := by
  unfold filterByPrecursors at h ⊢
  by_cases hd : df = []
  · rw [if_pos hd] at h; cases h
  · rw [if_neg hd] at h ⊢
    rw [if_neg hne]
    cases h
    simp only [List.filter_map, List.map_map, List.filter_filter]
    have hav : ∀ r : Row φ, (available qs ∘ withPrecursors reduce sortF) (dropPrecursors (withPrecursors reduce sortF r)) =
        available qs (withPrecursors reduce sortF r) := by
      intro r
      rw [Bool.eq_iff_iff, Function.comp, available_with reduce sortF hs, available_with reduce sortF hs]
      rfl
    have hf : (fun r : Row φ => (available qs ∘ withPrecursors reduce sortF ∘ dropPrecursors ∘ withPrecursors reduce sortF) r &&
        (available ps ∘ withPrecursors reduce sortF) r) = available (ps.filter (· ∈ qs)) ∘ withPrecursors reduce sortF := by
      funext r
      simp only [Function.comp_apply] at hav ⊢
      rw [hav, Bool.eq_iff_iff, Bool.and_eq_true, available_with reduce sortF hs, available_with reduce sortF hs,
        available_with reduce sortF hs]
      simp only [List.mem_filter, decide_eq_true_eq]
      exact ⟨fun ⟨h1, h2⟩ c hc => ⟨h2 c hc, h1 c hc⟩, fun h => ⟨fun c hc => (h c hc).2, fun c hc => (h c hc).1⟩⟩
    rw [hf]
    congr 1
    apply List.map_congr_left
    intro r _
    simp only [Function.comp_apply]
    rw [drop_with, drop_with]
    unfold dropPrecursors
    simp

/-- A precursor that is not written as reduced formula never matches: `Ti2O4` does not make reactions of `TiO2` available. -/
theorem C104_spelling_violated : ∃ (reduce : String → String) (df : List (Row String)) (precursors : List String),
    (∀ f, reduce (reduce f) = reduce f) ∧ filterByPrecursors reduce id df precursors = .ok [] ∧
    ∃ r ∈ df, ∀ c ∈ r.reactants, ∃ p ∈ precursors, reduce p = reduce c :=
  ⟨fun f => if f = "Ti2O4" then "TiO2" else f, [⟨0, ["TiO2"], []⟩], ["Ti2O4"], by
    intro f; by_cases h : f = "Ti2O4" <;> simp [h], by decide +kernel, by decide +kernel⟩

/-- A table without rows makes the call fail instead of being returned. -/
theorem C104_empty_violated (reduce : φ → φ) (sortF : List φ → List φ) (precursors : List φ) :
    filterByPrecursors reduce sortF [] precursors = .error .keyError := rfl

/-- A column of the table named `precursors` is lost. -/
theorem C104_column_violated : ∃ (df : List (Row String)) (precursors : List String) (out : List (Row String)),
    filterByPrecursors id id df precursors = .ok out ∧ ∃ r ∈ df, (∀ c ∈ r.reactants, c ∈ precursors) ∧ r ∉ out :=
  ⟨[⟨0, ["TiO2"], [("precursors", .num 1)]⟩], ["TiO2"], [⟨0, ["TiO2"], []⟩], by decide +kernel, by decide +kernel⟩

example : filterByPrecursors id id [⟨0, ["TiO2", "BaO"], []⟩, ⟨1, ["TiO2"], []⟩, ⟨1, ["Ti", "O2"], []⟩] ["TiO2", "O2"]
    = .ok [⟨1, ["TiO2"], []⟩] := by decide +kernel

/-! ### C104: plotting -/

/-- With unique row labels every row is shown exactly once: those kept by the Pareto criterion in the front, all others as ordinary points, both in
the order of the table. -/
theorem C104_plot_partial (x y : String) (z : Option String) (df : List (Row φ)) (hn : (df.map Row.label).Nodup) :
    ∃ (points front : List (Row φ)), plotScatter x y z true df = some ⟨points, some front⟩ ∧ (points ++ front).Perm df ∧
      points.Sublist df ∧ front.Sublist df ∧
      (∀ (i : ℕ) (r : Row φ), df[i]? = some r →
        (r ∈ front ↔ Kept (df.map fun r => [num r x, num r y] ++ (z.map (num r)).toList) i) ∧
        (r ∈ points ↔ ¬ Kept (df.map fun r => [num r x, num r y] ++ (z.map (num r)).toList) i)) := by
  have hcol : (fun r : Row φ => [num r x, num r y] ++ (z.map (num r)).toList) = fun r => (columns x y z).map (num r) := by
    funext r
    cases z <;> simp [columns]
  rw [hcol]
  obtain ⟨front, is, h1, h2, h3, h4⟩ := Verif.Props.Pareto.C28_pareto_front (fun r : Row φ => (columns x y z).map (num r)) df
    (columns x y z).length (fun r _ => by simp)
  have hnd : df.Nodup := List.Nodup.of_map _ hn
  have hidx : ∀ (i j : ℕ) (r : Row φ), df[i]? = some r → df[j]? = some r → i = j := by
    intro i j r hi hj
    obtain ⟨hi', he⟩ := List.getElem?_eq_some_iff.mp hi
    obtain ⟨hj', he'⟩ := List.getElem?_eq_some_iff.mp hj
    exact (List.Nodup.getElem_inj_iff hnd).mp (he.trans he'.symm)
  have hfm : ∀ (i : ℕ) (r : Row φ), df[i]? = some r → (r ∈ front ↔ i ∈ is) := by
    intro i r hi
    constructor
    · intro hr
      have : some r ∈ front.map some := List.mem_map_of_mem hr
      rw [h3] at this
      obtain ⟨j, hj, he⟩ := List.mem_map.mp this
      rwa [hidx i j r hi he]
    · intro hm
      have : some r ∈ is.map (fun i => df[i]?) := List.mem_map.mpr ⟨i, hm, hi⟩
      rw [← h3] at this
      simpa using this
  have hsub : front ⊆ df := by
    intro r hr
    have : some r ∈ front.map some := List.mem_map_of_mem hr
    rw [h3] at this
    obtain ⟨j, _, he⟩ := List.mem_map.mp this
    exact List.mem_of_getElem? he
  have hlab : ∀ r ∈ df, (r.label ∉ front.map Row.label ↔ r ∉ front) := by
    intro r hr
    refine not_congr ⟨fun h => ?_, fun h => List.mem_map_of_mem h⟩
    obtain ⟨r', h5, h6⟩ := List.mem_map.mp h
    rwa [← List.inj_on_of_nodup_map hn (hsub h5) hr h6]
  have hfr : front = df.filter (· ∈ front) := by
    unfold paretoFront at h1
    obtain ⟨mask, _, h5⟩ := Option.bind_eq_some_iff.mp h1
    have hs : front.Sublist df := by
      have h6 : ((df.zip mask).filter fun rm => rm.2).map Prod.fst = front := by simpa using h5
      rw [← h6]
      refine (List.filter_sublist.map _).trans ?_
      clear * -
      induction df generalizing mask with
      | nil => simp
      | cons a l ih =>
        cases mask with
        | nil => simp
        | cons b m => simpa using (ih m).cons_cons a
    have hs2 : (front.filter (· ∈ front)).Sublist (df.filter (· ∈ front)) := hs.filter _
    rw [List.filter_eq_self.mpr (by simp)] at hs2
    apply hs2.eq_of_length
    refine le_antisymm hs2.length_le ?_
    refine (List.subperm_of_subset (hnd.filter _) ?_).length_le
    intro r hr
    exact of_decide_eq_true (List.mem_filter.mp hr).2
  have hpt : (df.filter fun r => r.label ∉ front.map Row.label) = df.filter fun r => !decide (r ∈ front) := by
    apply List.filter_congr
    intro r hr
    rw [← decide_not, decide_eq_decide]
    exact hlab r hr
  refine ⟨_, front, by unfold plotScatter; rw [if_pos rfl, h1]; rfl, ?_, List.filter_sublist, ?_, ?_⟩
  · rw [hpt]
    refine List.perm_append_comm.trans ?_
    conv_lhs => lhs; rw [hfr]
    exact List.filter_append_perm _ _
  · rw [hfr]; exact List.filter_sublist
  · intro i r hi
    have h5 := hfm i r hi
    refine ⟨h5.trans (h4 i), ?_⟩
    rw [List.mem_filter, decide_eq_true_eq, hlab r (List.mem_of_getElem? hi), h5, h4]
    exact ⟨fun h => h.2, fun h => ⟨List.mem_of_getElem? hi, h⟩⟩

omit [DecidableEq φ] in
/-- Without the front all rows are ordinary points, whatever their labels. -/
theorem C104_plot_plain (x y : String) (z : Option String) (df : List (Row φ)) :
    plotScatter x y z false df = some ⟨df, none⟩ := by
  unfold plotScatter; rw [if_neg (by decide)]

/-- With repeated labels (tables joined by `pandas.concat`) rows vanish from the plot: the second row shares its label with the front. -/
theorem C104_plot_violated : ∃ (df : List (Row String)) (p : Plot String), plotScatter "a" "b" none true df = some p ∧
    ∃ r ∈ df, r ∉ p.points ∧ ∀ f, p.front = some f → r ∉ f :=
  ⟨[⟨0, ["A"], [("a", .num 0), ("b", .num 0)]⟩, ⟨0, ["B"], [("a", .num 1), ("b", .num 1)]⟩],
    ⟨[], some [⟨0, ["A"], [("a", .num 0), ("b", .num 0)]⟩]⟩, by decide +kernel,
    ⟨0, ["B"], [("a", .num 1), ("b", .num 1)]⟩, by decide +kernel, by decide +kernel, by
      intro f hf; cases hf; decide +kernel⟩

example : plotScatter "a" "b" none true [(⟨0, ["A"], [("a", .num 0), ("b", .num 0)]⟩ : Row String), ⟨1, ["B"], [("a", .num 1), ("b", .num 1)]⟩] =
    some ⟨[⟨1, ["B"], [("a", .num 1), ("b", .num 1)]⟩], some [⟨0, ["A"], [("a", .num 0), ("b", .num 0)]⟩]⟩ := by decide +kernel

/-- With a third metric, the row that is only best in that one belongs to the front. -/
example : plotScatter "a" "b" (some "c") true
    [(⟨0, ["A"], [("a", .num 0), ("b", .num 0), ("c", .num 1)]⟩ : Row String), ⟨1, ["B"], [("a", .num 1), ("b", .num 1), ("c", .num 0)]⟩] =
    some ⟨[], some [⟨0, ["A"], [("a", .num 0), ("b", .num 0), ("c", .num 1)]⟩, ⟨1, ["B"], [("a", .num 1), ("b", .num 1), ("c", .num 0)]⟩]⟩ := by
  decide +kernel

example := C104_filter_partial id id (fun l => List.Perm.refl l) [(⟨0, ["TiO2", "BaO"], []⟩ : Row String), ⟨1, ["TiO2"], []⟩, ⟨1, ["Ti", "O2"], []⟩]
  (by simp) ["TiO2", "O2"] (fun _ _ => rfl) (by decide)
example := C104_filter_compose id id (fun l => List.Perm.refl l) [(⟨0, ["TiO2", "BaO"], []⟩ : Row String), ⟨1, ["TiO2"], []⟩, ⟨1, ["Ti", "O2"], []⟩]
  [⟨1, ["TiO2"], []⟩] ["TiO2", "O2"] ["TiO2"] (by decide +kernel) (by simp)
example := C104_plot_partial "a" "b" none [(⟨0, ["A"], [("a", .num 0), ("b", .num 0)]⟩ : Row String), ⟨1, ["B"], [("a", .num 1), ("b", .num 1)]⟩]
  (by decide)

end Verif.Props.DfTools
