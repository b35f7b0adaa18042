import Verif.Model.Entries
import Verif.Lemmas.Dict
import Verif.Lemmas.Except
import Mathlib.Algebra.BigOperators.Fin
import Mathlib.Algebra.Order.BigOperators.Group.List
import Mathlib.Algebra.BigOperators.Ring.List
import Mathlib.Tactic.Linarith
import Mathlib.Tactic.FieldSimp
import Mathlib.Tactic.Ring
import Mathlib.Tactic.NormNum

/-! Properties C41 and C42: stabilization of entries and changes of temperature. -/

namespace Verif.Props.EntryTemp
open Verif.Py Verif.Model.Entries Verif.Lemmas

set_option linter.unusedSectionVars false

variable {κ : Type}

/-! ### Construction of Gibbs entries -/

theorem gibbsInit_ok (X : Thermo κ) (comp : κ) (fe vol t : ℚ) (adjs : List Adj) (h : Option ℚ) (e : Gibbs κ)
    (he : gibbsInit X comp fe vol t adjs h = .ok e) : 300 ≤ t ∧ t ≤ 2000 ∧ ∃ g, X.gadj comp vol t = .ok g ∧
      e = ⟨comp, fe, vol, t, (adjs.filter fun a => a.name ≠ sisso) ++ [.const sisso g], h⟩ := by
  unfold gibbsInit at he
  split_ifs at he with ht
  push Not at ht
  cases hg : X.gadj comp vol t with
  | error x => rw [hg] at he; simp [bind, Except.bind] at he
  | ok g =>
    rw [hg] at he
    simp only [bind, Except.bind, pure, Except.pure, Except.ok.injEq] at he
    exact ⟨ht.1, ht.2, g, rfl, he.symm⟩

/-- Entries that exist: those some constructor call has returned. -/
def Built (X : Thermo κ) (e : Gibbs κ) : Prop := ∃ adjs, gibbsInit X e.comp e.feAtom e.vol e.temp adjs e.ehull = .ok e

theorem built_of_init {X : Thermo κ} {comp : κ} {fe vol t : ℚ} {adjs : List Adj} {h : Option ℚ} {e : Gibbs κ}
    (he : gibbsInit X comp fe vol t adjs h = .ok e) : Built X e := by
  obtain ⟨-, -, g, -, rfl⟩ := gibbsInit_ok X comp fe vol t adjs h e he
  exact ⟨adjs, he⟩

theorem filter_again (adjs : List Adj) (g : ℚ) :
    (((adjs.filter fun a => a.name ≠ sisso) ++ [Adj.const sisso g]).filter fun a => a.name ≠ sisso) =
      adjs.filter fun a => a.name ≠ sisso := by
  rw [List.filter_append, List.filter_filter]
  simp [Adj.name]

/-! ### C42: Gibbs entries -/

/-- Converting step by step through a list of temperatures; the first failure ends the conversion. -/
def through (X : Thermo κ) : Gibbs κ → List ℚ → Except Err (Gibbs κ)
  | e, [] => .ok e
  | e, t :: ts => do
    let e' ← e.newTemperature X t
    through X e' ts

theorem newTemperature_twice (X : Thermo κ) (e e1 : Gibbs κ) (t1 t2 : ℚ) (h : e.newTemperature X t1 = .ok e1) :
    e1.newTemperature X t2 = e.newTemperature X t2 := by
  obtain ⟨-, -, g, -, rfl⟩ := gibbsInit_ok X _ _ _ _ _ _ _ h
  unfold Gibbs.newTemperature gibbsInit
  simp only [filter_again]

/-- **C42, path independence.** Whatever temperatures are visited on the way, the entry obtained is the one obtained by converting
the original to the last temperature directly: energy, adjustments and everything else. -/
theorem C42_path (X : Thermo κ) (t : ℚ) (ts : List ℚ) : ∀ (e e' : Gibbs κ), through X e (ts ++ [t]) = .ok e' →
    e.newTemperature X t = .ok e' := by
  induction ts with
  | nil =>
    intro e e' h
    simp only [List.nil_append, through, bind, Except.bind] at h
    cases h1 : e.newTemperature X t with
    | error x => rw [h1] at h; simp at h
    | ok e1 => rw [h1] at h; simpa using h
  | cons t1 ts ih =>
    intro e e' h
    simp only [List.cons_append, through, bind, Except.bind] at h
    cases h1 : e.newTemperature X t1 with
    | error x => rw [h1] at h; simp at h
    | ok e1 =>
      rw [h1] at h
      rw [← newTemperature_twice X e e1 t1 t h1]
      exact ih e1 e' h

/-- Returning to the entry's own temperature gives the entry back. -/
theorem C42_own (X : Thermo κ) (e : Gibbs κ) (h : Built X e) : e.newTemperature X e.temp = .ok e := by
  obtain ⟨adjs, h⟩ := h
  obtain ⟨h1, h2, g, hg, he⟩ := gibbsInit_ok X _ _ _ _ _ _ _ h
  have ha : e.adjs = (adjs.filter fun a => a.name ≠ sisso) ++ [.const sisso g] := by
    have := congrArg Gibbs.adjs he; exact this
  rw [← h]
  unfold Gibbs.newTemperature gibbsInit
  rw [ha, filter_again]

/-- A round trip restores the entry exactly. -/
theorem C42_round (X : Thermo κ) (e e1 : Gibbs κ) (t : ℚ) (h : Built X e) (h1 : e.newTemperature X t = .ok e1) :
    e1.newTemperature X e.temp = .ok e := by
  rw [newTemperature_twice X e e1 t e.temp h1]; exact C42_own X e h

/-- **C42, corrections are replaced.** Every existing entry has exactly one Gibbs correction, the one for its temperature. -/
theorem C42_single (X : Thermo κ) (e : Gibbs κ) (h : Built X e) :
    ∃ g, X.gadj e.comp e.vol e.temp = .ok g ∧ (e.adjs.filter fun a => a.name = sisso) = [.const sisso g] := by
  obtain ⟨adjs, h⟩ := h
  obtain ⟨-, -, g, hg, he⟩ := gibbsInit_ok X _ _ _ _ _ _ _ h
  refine ⟨g, hg, ?_⟩
  have ha : e.adjs = (adjs.filter fun a => a.name ≠ sisso) ++ [.const sisso g] := by
    have := congrArg Gibbs.adjs he; exact this
  rw [ha, List.filter_append, List.filter_filter]
  rw [List.filter_eq_nil_iff.mpr (by intro a _; by_cases h : a.name = sisso <;> simp [h])]
  simp [Adj.name]

/-- **C42, range.** Temperatures outside 300-2000 K are rejected with `ValueError`, and only supported ones can succeed. -/
theorem C42_range (X : Thermo κ) (e : Gibbs κ) (t : ℚ) :
    ((t < 300 ∨ 2000 < t) → e.newTemperature X t = .error .valueError) ∧
    (∀ e', e.newTemperature X t = .ok e' → 300 ≤ t ∧ t ≤ 2000 ∧ e'.temp = t ∧ e'.comp = e.comp) := by
  constructor
  · intro h; unfold Gibbs.newTemperature gibbsInit; rw [if_pos h]
  · intro e' h
    obtain ⟨h1, h2, g, -, rfl⟩ := gibbsInit_ok X _ _ _ _ _ _ _ h
    exact ⟨h1, h2, rfl, rfl⟩

/-- A toy material: the correction is linear in temperature. -/
def toy : Thermo ℕ := ⟨fun n => n, fun _ v t => .ok (v * t / 1000), ⟩

/-- An entry with two ordinary adjustments. -/
def toyE : Gibbs ℕ := ⟨3, -1, 2, 300, [.carbonate 1 (83/100), .const "other" 1, .const sisso (3/5)], none⟩

example : Built toy toyE := ⟨[.carbonate 1 (83/100), .const "other" 1], by decide +kernel⟩
example : ∃ e', through toy toyE [500, 1999, 1000] = .ok e' ∧ e'.energy toy ≠ toyE.energy toy :=
  ⟨⟨3, -1, 2, 1000, [.carbonate 1 (83/100), .const "other" 1, .const sisso 2], none⟩, by decide +kernel, by decide +kernel⟩
example : toyE.newTemperature toy 2001 = .error .valueError := by decide +kernel

/-- **A temperature change differs from building the entry at that temperature**: the atmospheric CO2 correction of a computed CO2
entry keeps the old temperature. `C42_path` still holds, because it keeps it on every path. -/
theorem C42_co2_stale : ∃ e e1 e2 : Gibbs ℕ,
    gibbsInit toy 3 (-1) 2 300 [.co2 3 300 (-8)] none = .ok e ∧ gibbsInit toy 3 (-1) 2 600 [.co2 3 600 (-8)] none = .ok e2 ∧
    e.newTemperature toy 600 = .ok e1 ∧ e1.energy toy ≠ e2.energy toy :=
  ⟨⟨3, -1, 2, 300, [.co2 3 300 (-8), .const sisso (3/5)], none⟩, ⟨3, -1, 2, 600, [.co2 3 300 (-8), .const sisso (6/5)], none⟩,
    ⟨3, -1, 2, 600, [.co2 3 600 (-8), .const sisso (6/5)], none⟩, by decide +kernel, by decide +kernel, by decide +kernel,
    by decide +kernel⟩

/-- A temperature change agrees with building the entry there with the same list of adjustments. (A construction from a phase
diagram uses a different list for CO2, hence `C42_co2_stale`.) -/
theorem C42_fresh (X : Thermo κ) (comp : κ) (fe vol t t' : ℚ) (adjs : List Adj) (h : Option ℚ) (e : Gibbs κ)
    (he : gibbsInit X comp fe vol t adjs h = .ok e) : e.newTemperature X t' = gibbsInit X comp fe vol t' adjs h := by
  obtain ⟨-, -, g, -, rfl⟩ := gibbsInit_ok X _ _ _ _ _ _ _ he
  unfold Gibbs.newTemperature gibbsInit
  simp only [filter_again]

/-- The whole-set conversion: it succeeds when no entry raises anything but `ValueError`, keeps exactly the entries that can be
converted, and forgets stored hull distances. -/
theorem C42_set (X : Thermo κ) (t : ℚ) (es : List (Gibbs κ))
    (h : ∀ e ∈ es, ∀ x, e.newTemperature X t = .error x → x = .valueError) :
    ∃ l, newTemperatures X t es = .ok l ∧ ∀ r, r ∈ l ↔ ∃ e ∈ es, ∃ e', e.newTemperature X t = .ok e' ∧ r = { e' with ehull := none } := by
  induction es with
  | nil => exact ⟨[], rfl, fun r => by simp⟩
  | cons e es ih =>
    obtain ⟨l, hl, hm⟩ := ih fun e' he' => h e' (by simp [he'])
    cases h1 : e.newTemperature X t with
    | ok e' =>
      refine ⟨{ e' with ehull := none } :: l, by simp only [newTemperatures, h1, hl]; rfl, fun r => ?_⟩
      rw [List.mem_cons, hm]
      constructor
      · rintro (hr | ⟨x, hx, hx'⟩)
        · exact ⟨e, by simp, e', h1, hr⟩
        · exact ⟨x, by simp [hx], hx'⟩
      · rintro ⟨x, hx, y, hy, hr⟩
        rcases List.mem_cons.mp hx with rfl | hx
        · rw [h1] at hy; cases hy; exact Or.inl hr
        · exact Or.inr ⟨x, hx, y, hy, hr⟩
    | error x =>
      have hx := h e (by simp) x h1
      subst hx
      refine ⟨l, by simp only [newTemperatures, h1, hl], fun r => ?_⟩
      rw [hm]
      constructor
      · rintro ⟨y, hy, hy'⟩; exact ⟨y, by simp [hy], hy'⟩
      · rintro ⟨y, hy, z, hz, hr⟩
        rcases List.mem_cons.mp hy with rfl | hy
        · rw [h1] at hz; cases hz
        · exact ⟨y, hy, z, hz, hr⟩

example : ∀ e ∈ [toyE], ∀ x, e.newTemperature toy 700 = .error x → x = .valueError := by
  intro e he x hx
  rw [List.mem_singleton] at he; subst he
  rw [show toyE.newTemperature toy 700 = .ok ⟨3, -1, 2, 700, [.carbonate 1 (83/100), .const "other" 1, .const sisso (7/5)], none⟩
    by decide +kernel] at hx
  cases hx

/-! ### C42: experimental entries -/

section Exper
variable (table : κ → Option (List (ℚ × ℚ))) (dep : κ → Bool)

/-- Step-by-step conversion of an experimental entry. -/
def throughX : Exper κ → List ℚ → Except Err (Exper κ)
  | e, [] => .ok e
  | e, t :: ts => do
    let e' ← e.newTemperature table dep t
    throughX e' ts

theorem experInit_ok (comp : κ) (t : ℚ) (adjs : List Adj) (e : Exper κ) (h : experInit table dep comp t adjs = .ok e) :
    e.comp = comp ∧ e.temp = t ∧ e.adjs = adjs := by
  unfold experInit at h
  split_ifs at h with hd
  · cases h; exact ⟨rfl, rfl, rfl⟩
  · simp only [bind, Except.bind, pure, Except.pure] at h
    cases h1 : validate (table comp) t with
    | error x => rw [h1] at h; simp at h
    | ok d =>
      rw [h1] at h; simp only at h
      cases h2 : tableEnergy d t with
      | error x => rw [h2] at h; simp at h
      | ok g => rw [h2] at h; cases h; exact ⟨rfl, rfl, rfl⟩

theorem setTemp_ok (t : ℚ) (a b : Adj) (h : a.setTemp t = .ok b) (t' : ℚ) : b.setTemp t' = a.setTemp t' := by
  cases a <;> simp only [Adj.setTemp, Except.ok.injEq, reduceCtorEq] at h
  subst h; rfl

theorem mapM_setTemp (t t' : ℚ) (as : List Adj) : ∀ bs, as.mapM (Adj.setTemp t) = .ok bs →
    bs.mapM (Adj.setTemp t') = as.mapM (Adj.setTemp t') := by
  induction as with
  | nil => intro bs h; simp only [List.mapM_nil, pure, Except.pure] at h; cases h; rfl
  | cons a as ih =>
    intro bs h
    rw [List.mapM_cons] at h
    simp only [bind, Except.bind, pure, Except.pure] at h
    cases h1 : a.setTemp t with
    | error x => rw [h1] at h; simp at h
    | ok b =>
      rw [h1] at h; simp only at h
      cases h2 : as.mapM (Adj.setTemp t) with
      | error x => rw [h2] at h; simp at h
      | ok bs' =>
        rw [h2] at h; cases h
        rw [List.mapM_cons, List.mapM_cons, setTemp_ok t a b h1 t', ih bs' h2]

theorem experTwice (e e1 : Exper κ) (t1 t2 : ℚ) (h : e.newTemperature table dep t1 = .ok e1) :
    e1.newTemperature table dep t2 = e.newTemperature table dep t2 := by
  unfold Exper.newTemperature at h ⊢
  simp only [bind, Except.bind] at h ⊢
  cases h1 : e.adjs.mapM (Adj.setTemp t1) with
  | error x => rw [h1] at h; simp at h
  | ok as =>
    rw [h1] at h
    obtain ⟨a1, -, a3⟩ := experInit_ok table dep _ _ _ _ h
    rw [a1, a3, mapM_setTemp t1 t2 _ _ h1]

/-- **C42, experimental entries**: path independence. -/
theorem C42_experimental_path (t : ℚ) (ts : List ℚ) : ∀ (e e' : Exper κ), throughX table dep e (ts ++ [t]) = .ok e' →
    e.newTemperature table dep t = .ok e' := by
  induction ts with
  | nil =>
    intro e e' h
    simp only [List.nil_append, throughX, bind, Except.bind] at h
    cases h1 : e.newTemperature table dep t with
    | error x => rw [h1] at h; simp at h
    | ok e1 => rw [h1] at h; simpa using h
  | cons t1 ts ih =>
    intro e e' h
    simp only [List.cons_append, throughX, bind, Except.bind] at h
    cases h1 : e.newTemperature table dep t1 with
    | error x => rw [h1] at h; simp at h
    | ok e1 =>
      rw [h1] at h
      rw [← experTwice table dep e e1 t1 t h1]
      exact ih e1 e' h

/-- The CO2 correction of an experimental entry follows the temperature: conversion agrees with building the entry there. -/
theorem C42_experimental_fresh (comp : κ) (t t' n lnp : ℚ) (e : Exper κ) (h : experInit table dep comp t [.co2 n t lnp] = .ok e) :
    e.newTemperature table dep t' = experInit table dep comp t' [.co2 n t' lnp] := by
  obtain ⟨a1, -, a3⟩ := experInit_ok table dep _ _ _ _ h
  unfold Exper.newTemperature
  rw [a1, a3]; rfl

end Exper

/-- One compound with three nodes. -/
def toyTable : ℕ → Option (List (ℚ × ℚ)) := fun _ => some [(300, -5), (400, -4), (500, -2)]

example : ∃ e', throughX toyTable (fun _ => false) ⟨3, 300, -5, [.co2 3 300 (-8)]⟩ [350, 500] = .ok e' ∧ e'.base = -2 :=
  ⟨⟨3, 500, -2, [.co2 3 500 (-8)]⟩, by decide +kernel, rfl⟩
example : ∃ e, experInit toyTable (fun _ => false) 3 300 [.co2 3 300 (-8)] = .ok e := ⟨⟨3, 300, -5, [.co2 3 300 (-8)]⟩, by decide +kernel⟩

/-- **C42 is violated** for experimental entries carrying a constant adjustment (for example after stabilization or jitter): no
temperature change is possible, not even to the entry's own temperature; it fails with `TypeError`. -/
theorem C42_experimental_adjusted_violated : ∃ e e' : Exper ℕ, experInit toyTable (fun _ => false) 3 300 [] = .ok e ∧
    e.adjusted toyTable (fun _ => false) (.const "Stabilization Adjustment" (-1)) = .ok e' ∧
    ∀ t, e'.newTemperature toyTable (fun _ => false) t = .error .typeError :=
  ⟨⟨3, 300, -5, []⟩, ⟨3, 300, -5, [.const "Stabilization Adjustment" (-1)]⟩, by decide +kernel, by decide +kernel, fun _ => rfl⟩

/-- **C42, experimental range.** Outside the range of its table a (not deprecated) compound's energy is never produced: building the
entry raises `ValueError`. -/
theorem C42_experimental_range_partial (table : κ → Option (List (ℚ × ℚ))) (dep : κ → Bool) (comp : κ) (t : ℚ) (adjs : List Adj)
    (hdep : dep comp = false)
    (hout : ∀ d, table comp = some d → (∀ p ∈ d, t < p.1) ∨ (∀ p ∈ d, p.1 < t)) :
    experInit table dep comp t adjs = .error .valueError := by
  have hv : validate (table comp) t = .error .valueError := by
    unfold validate
    cases hd : table comp with
    | none => rfl
    | some d =>
      simp only
      cases hlo : (d.map Prod.fst).min? with
      | none => rfl
      | some lo =>
        cases hhi : (d.map Prod.fst).max? with
        | none => rfl
        | some hi =>
          obtain ⟨p, hp, rfl⟩ := List.mem_map.mp (List.min?_mem hlo)
          obtain ⟨q, hq, rfl⟩ := List.mem_map.mp (List.max?_mem hhi)
          have : t < p.1 ∨ q.1 < t := by
            rcases hout d hd with h | h
            · exact Or.inl (h p hp)
            · exact Or.inr (h q hq)
          simp only
          rw [if_pos this]
  unfold experInit
  rw [hdep, hv]; rfl

example : experInit toyTable (fun _ => false) 3 501 [] = .error .valueError := by decide +kernel

/-- **C42 is violated for deprecated compounds**: they accept every temperature, with energy zero. -/
theorem C42_deprecated_violated : ∃ e, experInit toyTable (fun _ => true) 3 (-1000) [] = .ok e ∧ e.energy = 0 :=
  ⟨⟨3, -1000, 0, []⟩, by decide +kernel, by decide +kernel⟩

/-! ### C41 -/

/-- Energy of an adjusted entry. -/
theorem adjusted_energy (X : Thermo κ) (e : Gibbs κ) (h : Built X e) (a : Adj) (ha : a.name ≠ sisso) :
    ∃ e', e.adjusted X a = .ok e' ∧ e'.energy X = e.energy X + a.value ∧ e'.comp = e.comp ∧ e'.temp = e.temp ∧ Built X e' := by
  obtain ⟨adjs, h⟩ := h
  obtain ⟨h1, h2, g, hg, he⟩ := gibbsInit_ok X _ _ _ _ _ _ _ h
  have hadj : e.adjs = (adjs.filter fun a => a.name ≠ sisso) ++ [.const sisso g] := by
    have := congrArg Gibbs.adjs he; exact this
  have hnew : e.adjusted X a = .ok ⟨e.comp, e.feAtom, e.vol, e.temp, (adjs.filter fun a => a.name ≠ sisso) ++ [a] ++ [.const sisso g],
      e.ehull⟩ := by
    unfold Gibbs.adjusted gibbsInit
    rw [if_neg (by push Not; exact ⟨h1, h2⟩), hg]
    simp only [bind, Except.bind, pure, Except.pure, hadj]
    rw [List.filter_append, filter_again]
    simp [ha]
  refine ⟨_, hnew, ?_, rfl, rfl, built_of_init hnew⟩
  unfold Gibbs.energy
  simp only [hadj, List.map_append, List.sum_append, List.map_cons, List.map_nil, List.sum_cons, List.sum_nil]
  ring

section Hull
variable {ε : Type} [Fintype ε]

/-- A phase for the purpose of stability: amounts of the elements and total energy. -/
structure Phase (ε : Type) where
  amt : ε → ℚ
  energy : ℚ

/-- Specification: weights (all nonnegative) of phases that together have the composition `c`, with total energy `E`. -/
structure Decomp (ps : List (ℚ × Phase ε)) (c : ε → ℚ) (E : ℚ) : Prop where
  nonneg : ∀ p ∈ ps, 0 ≤ p.1
  comp : ∀ x, (ps.map fun p => p.1 * p.2.amt x).sum = c x
  energy : (ps.map fun p => p.1 * p.2.energy).sum = E

/-- Specification: `H` is at most the energy of every decomposition of `c` into phases of `S` (the hull energy is the largest
such value). -/
def BelowHull (S : Phase ε → Prop) (c : ε → ℚ) (H : ℚ) : Prop :=
  ∀ ps E, (∀ p ∈ ps, S p.2) → Decomp ps c E → H ≤ E

/-- Specification: a phase is stable in `S` if no decomposition into phases of `S` and itself has lower energy. -/
def Stable (S : Phase ε → Prop) (p : Phase ε) : Prop := BelowHull (fun q => S q ∨ q = p) p.amt p.energy

theorem decomp_split (S : Phase ε → Prop) (p : Phase ε) : ∀ ps : List (ℚ × Phase ε), (∀ q ∈ ps, S q.2 ∨ q.2 = p) → (∀ q ∈ ps, 0 ≤ q.1) →
    ∃ (w : ℚ) (qs : List (ℚ × Phase ε)), 0 ≤ w ∧ (∀ q ∈ qs, S q.2) ∧ (∀ q ∈ qs, 0 ≤ q.1) ∧
      (∀ x, (ps.map fun q => q.1 * q.2.amt x).sum = w * p.amt x + (qs.map fun q => q.1 * q.2.amt x).sum) ∧
      (ps.map fun q => q.1 * q.2.energy).sum = w * p.energy + (qs.map fun q => q.1 * q.2.energy).sum := by
  intro ps
  induction ps with
  | nil => intro _ _; exact ⟨0, [], le_rfl, by simp, by simp, by simp, by simp⟩
  | cons q ps ih =>
    intro h1 h2
    obtain ⟨w, qs, hw, a, b, c, d⟩ := ih (fun q hq => h1 q (by simp [hq])) (fun q hq => h2 q (by simp [hq]))
    have hq := h2 q (by simp)
    rcases h1 q (by simp) with hS | rfl
    · refine ⟨w, q :: qs, hw, ?_, ?_, fun x => ?_, ?_⟩
      · intro r hr; rcases List.mem_cons.mp hr with rfl | hr
        · exact hS
        · exact a r hr
      · intro r hr; rcases List.mem_cons.mp hr with rfl | hr
        · exact hq
        · exact b r hr
      · simp only [List.map_cons, List.sum_cons, c x]; ring
      · simp only [List.map_cons, List.sum_cons, d]; ring
    · refine ⟨w + q.1, qs, add_nonneg hw hq, a, b, fun x => ?_, ?_⟩
      · simp only [List.map_cons, List.sum_cons, c x]; ring
      · simp only [List.map_cons, List.sum_cons, d]; ring

/-- A phase at or below the hull of `S` is stable in `S` together with itself. -/
theorem stable_of_below (S : Phase ε → Prop) (p : Phase ε) (hp0 : ∃ x, 0 < p.amt x)
    (hS : ∀ q, S q → (∀ x, 0 ≤ q.amt x) ∧ ∃ x, 0 < q.amt x) (h : BelowHull S p.amt p.energy) : Stable S p := by
  intro ps E hps hd
  obtain ⟨w, qs, hw, ha, hb, hc, he⟩ := decomp_split S p ps hps hd.nonneg
  have hcomp : ∀ x, (qs.map fun q => q.1 * q.2.amt x).sum = (1 - w) * p.amt x := fun x => by
    have h1 := hc x; rw [hd.comp x] at h1; linarith
  have hE : E = w * p.energy + (qs.map fun q => q.1 * q.2.energy).sum := by rw [← he, hd.energy]
  have hnn : ∀ x, 0 ≤ (qs.map fun q => q.1 * q.2.amt x).sum := fun x =>
    List.sum_nonneg (by
      intro y hy; obtain ⟨q, hq, rfl⟩ := List.mem_map.mp hy
      exact mul_nonneg (hb q hq) ((hS _ (ha q hq)).1 x))
  obtain ⟨x0, hx0⟩ := hp0
  have hw1 : w ≤ 1 := by
    by_contra hcon; push Not at hcon
    have := hnn x0; rw [hcomp x0] at this
    nlinarith
  rcases eq_or_lt_of_le hw1 with rfl | hlt
  · have hz : ∀ q ∈ qs, q.1 = 0 := by
      intro q hq
      by_contra hne
      have hqp : 0 < q.1 := lt_of_le_of_ne (hb q hq) (Ne.symm hne)
      obtain ⟨x, hx⟩ := (hS _ (ha q hq)).2
      have hle := List.single_le_sum (l := qs.map fun q => q.1 * q.2.amt x) (by
        intro y hy; obtain ⟨r, hr, rfl⟩ := List.mem_map.mp hy
        exact mul_nonneg (hb r hr) ((hS _ (ha r hr)).1 x)) _ (List.mem_map.mpr ⟨q, hq, rfl⟩)
      rw [hcomp x] at hle
      have := mul_pos hqp hx
      linarith
    have : (qs.map fun q => q.1 * q.2.energy).sum = 0 := by
      apply List.sum_eq_zero
      intro y hy; obtain ⟨q, hq, rfl⟩ := List.mem_map.mp hy
      rw [hz q hq, zero_mul]
    rw [hE, this]; linarith
  · have hpos : 0 < 1 - w := by linarith
    have hmul : ∀ f : Phase ε → ℚ, ((qs.map fun q => (q.1 / (1 - w), q.2)).map fun q : ℚ × Phase ε => q.1 * f q.2).sum =
        (qs.map fun q => q.1 * f q.2).sum / (1 - w) := by
      intro f
      rw [List.map_map, div_eq_mul_inv, ← List.sum_map_mul_right]
      congr 1
      refine List.map_congr_left fun q _ => ?_
      simp only [Function.comp]; ring
    have := h (qs.map fun q => (q.1 / (1 - w), q.2)) ((qs.map fun q => q.1 * q.2.energy).sum / (1 - w))
      (by intro r hr; obtain ⟨q, hq, rfl⟩ := List.mem_map.mp hr; exact ha q hq)
      ⟨by intro r hr; obtain ⟨q, hq, rfl⟩ := List.mem_map.mp hr; exact div_nonneg (hb q hq) hpos.le,
        fun x => by rw [hmul fun q => q.amt x, hcomp x]; field_simp,
        hmul fun q => q.energy⟩
    rw [le_div_iff₀ hpos] at this
    rw [hE]; linarith

/-- The phase of a Gibbs entry. -/
def phase (X : Thermo κ) (vec : κ → ε → ℚ) (e : Gibbs κ) : Phase ε := ⟨vec e.comp, e.energy X⟩

/-- **C41, stabilization of one entry.** Suppose the hull distance used (the stored one, or the computed one if none is stored) is
the current one: energy per atom minus the hull energy `H` per formula, divided by the atoms, and no decomposition into the phases
`S` of the set is below `H`. With a nonnegative tolerance the call succeeds; the result has the same composition and temperature;
it is the entry itself when the distance is zero and `force` is off, and otherwise has total energy exactly `H - tol`; it is stable
among the phases of the set. Missing: entries whose stored distance is out of date (`C41_stale_violated`), and the enumerators'
helper (`C41_helper_violated`). -/
theorem C41_stabilized_partial (X : Thermo κ) (vec : κ → ε → ℚ) (S : Phase ε → Prop) (ehullOf : Gibbs κ → Except Err ℚ) (e : Gibbs κ)
    (tol h H : ℚ) (force : Bool) (hb : Built X e) (hat : X.atoms e.comp ≠ 0) (htol : 0 ≤ tol)
    (hv0 : ∃ x, 0 < vec e.comp x) (hS : ∀ q, S q → (∀ x, 0 ≤ q.amt x) ∧ ∃ x, 0 < q.amt x)
    (hused : e.ehull = some h ∨ (e.ehull = none ∧ ehullOf e = .ok h)) (hcur : h = (e.energy X - H) / X.atoms e.comp)
    (hH : BelowHull S (vec e.comp) H) :
    ∃ e', stabilized X ehullOf e tol force = .ok e' ∧ e'.comp = e.comp ∧ e'.temp = e.temp ∧
      (h = 0 ∧ force = false → e' = e) ∧ (h ≠ 0 ∨ force = true → e'.energy X = H - tol) ∧ Stable S (phase X vec e') := by
  have hE : e.energy X = H + h * X.atoms e.comp := by rw [hcur]; field_simp; ring
  have hmatch : stabilized X ehullOf e tol force = if h = 0 ∧ force = false then Except.ok e
      else e.adjusted X (.const "Stabilization Adjustment" (-1 * h * X.atoms e.comp - tol)) := by
    unfold stabilized
    rcases hused with hu | ⟨hu, hu'⟩
    · rw [hu]; rfl
    · rw [hu]; simp only [hu']; rfl
  rw [hmatch]
  by_cases hc : h = 0 ∧ force = false
  · rw [if_pos hc]
    refine ⟨e, rfl, rfl, rfl, fun _ => rfl, ?_, ?_⟩
    · rintro (h1 | h1)
      · exact absurd hc.1 h1
      · rw [hc.2] at h1; exact absurd h1 (by decide)
    · refine stable_of_below S _ hv0 hS ?_
      have : (phase X vec e).energy = H := by change e.energy X = H; rw [hE, hc.1]; ring
      rw [this]; exact hH
  · rw [if_neg hc]
    obtain ⟨e', h1, h2, h3, h4, -⟩ := adjusted_energy X e hb (.const "Stabilization Adjustment" (-1 * h * X.atoms e.comp - tol))
      (by simp only [Adj.name]; decide)
    have hE' : e'.energy X = H - tol := by rw [h2, hE]; simp only [Adj.value]; ring
    refine ⟨e', h1, h3, h4, fun h => absurd h hc, fun _ => hE', ?_⟩
    have hph : (phase X vec e').amt = vec e.comp := by change vec e'.comp = _; rw [h3]
    refine stable_of_below S _ (by rw [hph]; exact hv0) hS ?_
    rw [hph]
    intro ps E hps hd
    have := hH ps E hps hd
    change e'.energy X ≤ E
    rw [hE']; linarith

end Hull

/-- One element; the set's only phase has energy -2 per atom; the entry has 3 atoms and energy -57/100. -/
example : ∃ (S : Phase Unit → Prop) (H h : ℚ), Built toy toyE ∧ BelowHull S (fun _ : Unit => (3 : ℚ)) H ∧
    h = (toyE.energy toy - H) / toy.atoms toyE.comp ∧ h ≠ 0 ∧ ∃ e', stabilized toy (fun _ => .ok h) toyE (1/1000) false = .ok e' := by
  refine ⟨fun q => q.amt () = 1 ∧ q.energy = -2, -6, (toyE.energy toy + 6) / 3, ⟨[.carbonate 1 (83/100), .const "other" 1], by decide +kernel⟩,
    ?_, by decide +kernel, by decide +kernel, ?_⟩
  · intro ps E hps hd
    have h1 := hd.comp ()
    have h2 := hd.energy
    have : (ps.map fun p => p.1 * p.2.energy) = ps.map fun p => p.1 * p.2.amt () * (-2) :=
      List.map_congr_left fun p hp => by rw [(hps p hp).1, (hps p hp).2]; ring
    rw [this, List.sum_map_mul_right, h1] at h2
    linarith
  · exact ⟨⟨3, -1, 2, 300, [.carbonate 1 (83/100), .const "other" 1, .const "Stabilization Adjustment" (-1 * ((toyE.energy toy + 6) / 3) * 3 - 1/1000),
      .const sisso (3/5)], none⟩, by decide +kernel⟩

/-- **C41 is violated with a stored hull distance**: the distance in the entry's data is trusted even when the set has changed since
it was stored, so the "stabilized" entry can lie above the current hull. Here the stored distance is 0 although the entry is 1 eV
per atom above the hull. -/
theorem C41_stale_violated : ∃ (e e' : Gibbs ℕ) (H : ℚ), Built toy e ∧ stabilized toy (fun e => .ok ((e.energy toy - H) / toy.atoms e.comp)) e
    (1/1000) false = .ok e' ∧ H < e'.energy toy :=
  ⟨{ toyE with ehull := some 0 }, { toyE with ehull := some 0 }, -10, ⟨[.carbonate 1 (83/100), .const "other" 1], by decide +kernel⟩,
    by decide +kernel, by decide +kernel⟩

/-- **C41 is violated by the enumerators' helper**: it adds the hull distance instead of subtracting it, so a metastable entry is
moved twice as far from the hull (for tolerances smaller than the distance). -/
theorem C41_helper_violated (atoms : κ → ℚ) (ehull : Computed κ → ℚ) (tol H : ℚ) (e : Computed κ) (hat : 0 < atoms e.comp)
    (hcur : ehull e = (e.energy - H) / atoms e.comp) (hmeta : tol < e.energy - H) :
    e.energy < (stabilizeOne atoms ehull tol e).energy ∧
    (stabilizeOne atoms ehull tol e).energy = H + 2 * (e.energy - H) - tol := by
  have : (stabilizeOne atoms ehull tol e).energy = H + 2 * (e.energy - H) - tol := by
    unfold stabilizeOne Computed.energy at *
    simp only
    rw [hcur]; field_simp; ring
  exact ⟨by rw [this]; linarith, this⟩

example : (stabilizeOne (fun n : ℕ => (n : ℚ)) (fun e => (e.energy - (-4)) / 2) (1/1000000) ⟨2, -3, 0⟩).energy = -2 - 1/1000000 := by
  decide +kernel

/-- The helper silently returns nothing for an iterable that can only be traversed once. -/
theorem C41_helper_once [DecidableEq κ] (atoms : κ → ℚ) (ehull : Computed κ → ℚ) (tol : ℚ) (all es : List (Computed κ))
    (h : ∀ e ∈ es, e ∈ all) : stabilizeEntries atoms ehull tol all es true = .ok [] := by
  unfold stabilizeEntries
  rw [if_pos (List.all_eq_true.mpr fun e he => decide_eq_true (h e he))]; rfl

example : ∀ e ∈ [(⟨2, -3, 0⟩ : Computed ℕ)], e ∈ [(⟨1, 0, 0⟩ : Computed ℕ), ⟨2, -3, 0⟩] := by decide +kernel

theorem toyE_built : Built toy toyE := ⟨[.carbonate 1 (83/100), .const "other" 1], by decide +kernel⟩

example := C42_path toy 1000 [500, 1999] toyE ⟨3, -1, 2, 1000, [.carbonate 1 (83/100), .const "other" 1, .const sisso 2], none⟩
  (by decide +kernel)
example := C42_own toy toyE toyE_built
example := C42_round toy toyE ⟨3, -1, 2, 1000, [.carbonate 1 (83/100), .const "other" 1, .const sisso 2], none⟩ 1000 toyE_built
  (by decide +kernel)
example := C42_single toy toyE toyE_built
example := C42_fresh toy 3 (-1) 2 300 700 [.carbonate 1 (83/100), .const "other" 1] none toyE (by decide +kernel)
example := C42_experimental_path toyTable (fun _ => false) 500 [350] ⟨3, 300, -5, [.co2 3 300 (-8)]⟩ ⟨3, 500, -2, [.co2 3 500 (-8)]⟩
  (by decide +kernel)

end Verif.Props.EntryTemp
