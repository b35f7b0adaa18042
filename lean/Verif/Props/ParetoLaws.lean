import Verif.Props.Pareto
import Mathlib.Data.Finset.Max
import Mathlib.Tactic.Linarith

/-! Property C28, consequences for the user of a Pareto front (src/rxn_network/costs/pareto.py): what it says about the rows left out, and
its independence of the order of the rows and of taking fronts in parts. -/

namespace Verif.Props.ParetoLaws
open Verif.Model.Pareto Verif.Spec.Pareto Verif.Lemmas.Pareto Verif.Props.Pareto

/-- Specification: a value that occurs in the table and is not beaten by another one. -/
def Best (vals : List (List ℚ)) (x : List ℚ) : Prop := x ∈ vals ∧ ∀ y ∈ vals, AtLeastAsGood y x → y = x

theorem good_refl (x : List ℚ) : AtLeastAsGood x x := List.forall₂_same.mpr fun _ _ => le_rfl

theorem good_trans {x y z : List ℚ} (h : AtLeastAsGood x y) (h' : AtLeastAsGood y z) : AtLeastAsGood x z := by
  unfold AtLeastAsGood at *
  induction h generalizing z with
  | nil => exact h'
  | cons h1 _ ih => cases h' with
    | cons h2 h3 => exact .cons (h1.trans h2) (ih h3)

theorem sum_le {x y : List ℚ} (h : AtLeastAsGood x y) : x.sum ≤ y.sum ∧ (x.sum = y.sum → x = y) := by
  unfold AtLeastAsGood at h
  induction h with
  | nil => simp
  | @cons a b l l' h1 _ ih =>
    simp only [List.sum_cons]
    refine ⟨add_le_add h1 ih.1, fun h => ?_⟩
    have h2 : a = b := by linarith [ih.1]
    rw [h2, ih.2 (by linarith)]

theorem kept_values {ρ : Type} (metrics : ρ → List ℚ) (df out : List ρ) (is : List ℕ) (hs : is.Pairwise (· < ·))
    (h : out.map some = is.map fun i => df[i]?) (hk : ∀ i, i ∈ is ↔ Kept (df.map metrics) i) :
    (out.map metrics).Nodup ∧ ∀ x, x ∈ out.map metrics ↔ Best (df.map metrics) x := by
  have hget : ∀ (k : ℕ) (r : ρ), out[k]? = some r → ∃ i : ℕ, is[k]? = some i ∧ df[i]? = some r := by
    intro k r hr
    have := congrArg (fun l => l[k]?) h
    simp only [List.getElem?_map, hr, Option.map_some] at this
    cases hi : is[k]? with
    | none => simp [hi] at this
    | some i => simp [hi] at this; exact ⟨i, rfl, this.symm⟩
  constructor
  · rw [List.Nodup, List.pairwise_iff_getElem]
    intro i j hi hj hij heq
    simp only [List.length_map] at hi hj
    simp only [List.getElem_map] at heq
    obtain ⟨a, a1, a2⟩ := hget i _ (List.getElem?_eq_getElem hi)
    obtain ⟨b, b1, b2⟩ := hget j _ (List.getElem?_eq_getElem hj)
    have hab : a < b := by
      obtain ⟨c1, c2⟩ := List.getElem?_eq_some_iff.mp a1
      obtain ⟨d1, d2⟩ := List.getElem?_eq_some_iff.mp b1
      have := List.pairwise_iff_getElem.mp hs i j c1 d1 hij
      rwa [c2, d2] at this
    obtain ⟨p, hp, hkept⟩ := (hk b).mp (List.mem_of_getElem? b1)
    rw [List.getElem?_map, b2, Option.map_some, Option.some.injEq] at hp
    have := (hkept a (metrics out[i]) (by rw [List.getElem?_map, a2]; rfl) hab.ne (by rw [heq, hp]; exact good_refl p)).2
    omega
  · intro x
    constructor
    · intro hx
      obtain ⟨r, hr, rfl⟩ := List.mem_map.mp hx
      obtain ⟨k, hk'⟩ := List.mem_iff_getElem?.mp hr
      obtain ⟨i, i1, i2⟩ := hget k r hk'
      refine ⟨List.mem_map.mpr ⟨r, List.mem_of_getElem? i2, rfl⟩, fun y hy hle => ?_⟩
      obtain ⟨p, hp, hkept⟩ := (hk i).mp (List.mem_of_getElem? i1)
      rw [List.getElem?_map, i2, Option.map_some, Option.some.injEq] at hp
      obtain ⟨j, hj⟩ := List.mem_iff_getElem?.mp hy
      by_cases hji : j = i
      · subst hji
        rw [List.getElem?_map, i2, Option.map_some, Option.some.injEq] at hj
        exact hj.symm
      · rw [hp] at hle ⊢
        exact (hkept j y hj hji hle).1
    · rintro ⟨hx, hb⟩
      have hex : ∃ i, (df.map metrics)[i]? = some x := List.mem_iff_getElem?.mp hx
      classical
      let i := Nat.find hex
      have hi : (df.map metrics)[i]? = some x := Nat.find_spec hex
      have hmem : i ∈ is := (hk i).mpr ⟨x, hi, fun j q hq hne hle => by
        have hqx := hb q (List.mem_of_getElem? hq) hle
        subst hqx
        refine ⟨rfl, lt_of_le_of_ne (Nat.find_min' hex hq) (Ne.symm hne)⟩⟩
      rw [List.getElem?_map, Option.map_eq_some_iff] at hi
      obtain ⟨r, hr, hrx⟩ := hi
      have : some r ∈ out.map some := by
        rw [h]
        exact List.mem_map.mpr ⟨i, hmem, hr⟩
      obtain ⟨r', hr', e⟩ := List.mem_map.mp this
      cases e
      exact List.mem_map.mpr ⟨r, hr', hrx⟩

variable {ρ : Type} (metrics : ρ → List ℚ)

/-- **C28, the values.** The rows of the front are rows of the table, with pairwise different metric values, and these are exactly the
values that no other value of the table beats. -/
theorem C28_values (df out : List ρ) (d : ℕ) (hd : ∀ r ∈ df, (metrics r).length = d) (h : paretoFront metrics false df = some out) :
    out.Sublist df ∧ (out.map metrics).Nodup ∧ ∀ x, x ∈ out.map metrics ↔ Best (df.map metrics) x := by
  obtain ⟨out', is, h1, h2, h3, h4⟩ := C28_pareto_front metrics df d hd
  rw [h] at h1
  cases h1
  refine ⟨?_, kept_values metrics df out is h2 h3 h4⟩
  simp only [paretoFront, Option.bind_eq_bind, Option.pure_def] at h
  obtain ⟨mask, -, hm⟩ := Option.bind_eq_some_iff.mp h
  cases hm
  have h5 : ((df.zip mask).map Prod.fst).Sublist df := by
    clear hd h2 h3 h4 h
    induction df generalizing mask with
    | nil => simp
    | cons a l ih =>
      cases mask with
      | nil => simp
      | cons b m => simpa using ih m
  exact (List.filter_sublist.map Prod.fst).trans h5

/-- The value of some row at least as good as any given one is not beaten. -/
theorem exists_best (vals : List (List ℚ)) (x : List ℚ) (hx : x ∈ vals) : ∃ y, Best vals y ∧ AtLeastAsGood y x := by
  classical
  obtain ⟨y, hy, hmin⟩ := (vals.toFinset.filter fun y => AtLeastAsGood y x).exists_min_image List.sum
    ⟨x, by simp [hx, good_refl]⟩
  simp only [Finset.mem_filter, List.mem_toFinset] at hy hmin
  refine ⟨y, ⟨hy.1, fun z hz hle => ?_⟩, hy.2⟩
  have h1 := hmin z ⟨hz, good_trans hle hy.2⟩
  have h2 := sum_le hle
  exact h2.2 (le_antisymm h2.1 h1)

/-- **C28, rows left out.** For every row of the table the front has a row that is at least as good in every metric. In particular the
front of a nonempty table is not empty. -/
theorem C28_covers (df out : List ρ) (d : ℕ) (hd : ∀ r ∈ df, (metrics r).length = d) (h : paretoFront metrics false df = some out)
    (r : ρ) (hr : r ∈ df) : ∃ o ∈ out, AtLeastAsGood (metrics o) (metrics r) := by
  obtain ⟨-, -, hv⟩ := C28_values metrics df out d hd h
  obtain ⟨y, hy, hle⟩ := exists_best (df.map metrics) (metrics r) (List.mem_map.mpr ⟨r, hr, rfl⟩)
  obtain ⟨o, ho, rfl⟩ := List.mem_map.mp ((hv y).mpr hy)
  exact ⟨o, ho, hle⟩

theorem weighted_le (w : List ℚ) (hw : ∀ a ∈ w, 0 ≤ a) {x y : List ℚ} (h : AtLeastAsGood x y) :
    (List.zipWith (· * ·) w x).sum ≤ (List.zipWith (· * ·) w y).sum := by
  unfold AtLeastAsGood at h
  induction h generalizing w with
  | nil => simp
  | cons h1 _ ih =>
    cases w with
    | nil => simp
    | cons a w =>
      simp only [List.zipWith_cons_cons, List.sum_cons]
      exact add_le_add (mul_le_mul_of_nonneg_left h1 (hw a (by simp))) (ih w fun b hb => hw b (by simp [hb]))

/-- **C28, weighted costs.** Whatever non-negative weights the metrics are given, the least weighted sum in the whole table is reached
by a row of the front. So nobody who ranks by such a sum loses the best row by looking at the front only. -/
theorem C28_weighted (df out : List ρ) (d : ℕ) (hd : ∀ r ∈ df, (metrics r).length = d) (h : paretoFront metrics false df = some out)
    (hne : df ≠ []) (w : List ℚ) (hw : ∀ a ∈ w, 0 ≤ a) :
    ∃ o ∈ out, ∀ r ∈ df, (List.zipWith (· * ·) w (metrics o)).sum ≤ (List.zipWith (· * ·) w (metrics r)).sum := by
  classical
  obtain ⟨r₀, hr₀⟩ := List.exists_mem_of_ne_nil df hne
  obtain ⟨x, hx, hmin⟩ := (df.map metrics).toFinset.exists_min_image (fun x => (List.zipWith (· * ·) w x).sum)
    ⟨metrics r₀, by simpa using ⟨r₀, hr₀, rfl⟩⟩
  obtain ⟨r, hr, rfl⟩ := List.mem_map.mp (List.mem_toFinset.mp hx)
  obtain ⟨o, ho, hle⟩ := C28_covers metrics df out d hd h r hr
  exact ⟨o, ho, fun r' hr' => (weighted_le w hw hle).trans (hmin _ (List.mem_toFinset.mpr (List.mem_map.mpr ⟨r', hr', rfl⟩)))⟩

/-- **C28, order of the rows.** Two tables with the same metric values, in any order and with any repetitions, have fronts with the same
values, each once. -/
theorem C28_order (df df' out out' : List ρ) (d : ℕ) (hd : ∀ r ∈ df, (metrics r).length = d)
    (hsame : ∀ x, x ∈ df.map metrics ↔ x ∈ df'.map metrics) (h : paretoFront metrics false df = some out)
    (h' : paretoFront metrics false df' = some out') : (out.map metrics).Perm (out'.map metrics) := by
  have hd' : ∀ r ∈ df', (metrics r).length = d := by
    intro r hr
    obtain ⟨r', hr', e⟩ := List.mem_map.mp ((hsame (metrics r)).mpr (List.mem_map.mpr ⟨r, hr, rfl⟩))
    rw [← e]
    exact hd r' hr'
  obtain ⟨-, n1, v1⟩ := C28_values metrics df out d hd h
  obtain ⟨-, n2, v2⟩ := C28_values metrics df' out' d hd' h'
  rw [List.perm_ext_iff_of_nodup n1 n2]
  intro x
  rw [v1, v2]
  unfold Best
  constructor <;> rintro ⟨a, b⟩
  · exact ⟨(hsame x).mp a, fun y hy => b y ((hsame y).mpr hy)⟩
  · exact ⟨(hsame x).mpr a, fun y hy => b y ((hsame y).mp hy)⟩

/-- **C28, in parts.** The front of a table made of two parts has the same values as the front of the two parts' fronts, so large tables
may be reduced part by part. -/
theorem C28_merge (df₁ df₂ o₁ o₂ out out' : List ρ) (d : ℕ) (hd₁ : ∀ r ∈ df₁, (metrics r).length = d) (hd₂ : ∀ r ∈ df₂, (metrics r).length = d)
    (h₁ : paretoFront metrics false df₁ = some o₁) (h₂ : paretoFront metrics false df₂ = some o₂)
    (h : paretoFront metrics false (df₁ ++ df₂) = some out) (h' : paretoFront metrics false (o₁ ++ o₂) = some out') :
    (out.map metrics).Perm (out'.map metrics) := by
  obtain ⟨s1, -, v1⟩ := C28_values metrics df₁ o₁ d hd₁ h₁
  obtain ⟨s2, -, v2⟩ := C28_values metrics df₂ o₂ d hd₂ h₂
  have hd : ∀ r ∈ df₁ ++ df₂, (metrics r).length = d := fun r hr => (List.mem_append.mp hr).elim (hd₁ r) (hd₂ r)
  have hd' : ∀ r ∈ o₁ ++ o₂, (metrics r).length = d := fun r hr => (List.mem_append.mp hr).elim (fun m => hd₁ r (s1.subset m)) fun m => hd₂ r (s2.subset m)
  obtain ⟨-, n, v⟩ := C28_values metrics _ out d hd h
  obtain ⟨-, n', v'⟩ := C28_values metrics _ out' d hd' h'
  have hsub : ∀ x ∈ (o₁ ++ o₂).map metrics, x ∈ (df₁ ++ df₂).map metrics := by
    intro x hx
    obtain ⟨r, hr, rfl⟩ := List.mem_map.mp hx
    exact List.mem_map.mpr ⟨r, (s1.append s2).subset hr, rfl⟩
  have hcov : ∀ x ∈ (df₁ ++ df₂).map metrics, ∃ y ∈ (o₁ ++ o₂).map metrics, AtLeastAsGood y x := by
    intro x hx
    obtain ⟨r, hr, rfl⟩ := List.mem_map.mp hx
    rcases List.mem_append.mp hr with hr | hr
    · obtain ⟨o, ho, hle⟩ := C28_covers metrics df₁ o₁ d hd₁ h₁ r hr
      exact ⟨_, List.mem_map.mpr ⟨o, List.mem_append_left _ ho, rfl⟩, hle⟩
    · obtain ⟨o, ho, hle⟩ := C28_covers metrics df₂ o₂ d hd₂ h₂ r hr
      exact ⟨_, List.mem_map.mpr ⟨o, List.mem_append_right _ ho, rfl⟩, hle⟩
  rw [List.perm_ext_iff_of_nodup n n']
  intro x
  rw [v, v']
  constructor
  · rintro ⟨a, b⟩
    obtain ⟨y, hy, hle⟩ := hcov x a
    have := b y (hsub y hy) hle
    subst this
    exact ⟨hy, fun z hz => b z (hsub z hz)⟩
  · rintro ⟨a, b⟩
    refine ⟨hsub x a, fun y hy hle => ?_⟩
    obtain ⟨z, hz, hzy⟩ := hcov y hy
    have := b z hz (good_trans hzy hle)
    subst this
    have h1 := sum_le hzy
    have h2 := sum_le hle
    exact h2.2 (le_antisymm h2.1 h1.1)

/-! Concrete cases: the table of C28. -/

example : paretoFront (id : List ℚ → List ℚ) false [[3, 3], [1, 2], [2, 1], [1, 2], [0, 5]] = some [[1, 2], [2, 1], [0, 5]] := by decide +kernel
example := C28_values (id : List ℚ → List ℚ) [[3, 3], [1, 2], [2, 1], [1, 2], [0, 5]] [[1, 2], [2, 1], [0, 5]] 2 (by decide) (by decide +kernel)
example := C28_covers (id : List ℚ → List ℚ) [[3, 3], [1, 2], [2, 1], [1, 2], [0, 5]] [[1, 2], [2, 1], [0, 5]] 2 (by decide) (by decide +kernel)
  [3, 3] (by decide)
example := C28_weighted (id : List ℚ → List ℚ) [[3, 3], [1, 2], [2, 1], [1, 2], [0, 5]] [[1, 2], [2, 1], [0, 5]] 2 (by decide) (by decide +kernel)
  (by decide) [1/2, 2] (by decide +kernel)
example := C28_order (id : List ℚ → List ℚ) [[3, 3], [1, 2], [2, 1], [1, 2], [0, 5]] [[0, 5], [2, 1], [3, 3], [3, 3], [1, 2]]
  [[1, 2], [2, 1], [0, 5]] [[0, 5], [2, 1], [1, 2]] 2 (by decide) (by intro x; simp only [List.map_id, List.mem_cons, List.not_mem_nil]; tauto)
  (by decide +kernel) (by decide +kernel)
example := C28_merge (id : List ℚ → List ℚ) [[3, 3], [1, 2], [2, 4]] [[2, 1], [1, 2], [0, 5]] [[1, 2]] [[2, 1], [1, 2], [0, 5]] [[1, 2], [2, 1], [0, 5]]
  [[1, 2], [2, 1], [0, 5]] 2 (by decide) (by decide) (by decide +kernel) (by decide +kernel) (by decide +kernel) (by decide +kernel)

end Verif.Props.ParetoLaws
