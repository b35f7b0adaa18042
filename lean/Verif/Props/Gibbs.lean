import Verif.Model.Gibbs
import Verif.Lemmas.Dict
import Verif.Lemmas.Except
import Verif.Props.EntryTable
import Mathlib.Algebra.BigOperators.Group.List.Basic
import Mathlib.Algebra.BigOperators.Ring.List
import Mathlib.Algebra.Order.BigOperators.Group.List
import Mathlib.Tactic.Linarith
import Mathlib.Tactic.FieldSimp
import Mathlib.Tactic.Ring
import Mathlib.Tactic.NormNum
import Mathlib.Tactic.Positivity

/-! Properties C95 and C97: extensivity of Gibbs energies, choice of experimental references and of carbonate corrections. -/

namespace Verif.Props.Gibbs
open Verif.Py Verif.Model.Entries Verif.Model.Gibbs Verif.Lemmas

variable {ε : Type}

/-! ### Sums over pairs -/

/-- Specification: the reduced mass of two elements. -/
def pairMass (m : ε → ℚ) (i j : ε) : ℚ := m i * m j / (m i + m j)

theorem atoms_scale (k : ℚ) (a : Amts ε) : atoms (scale k a) = k * atoms a := by
  unfold atoms scale
  rw [List.map_map, ← List.sum_map_mul_left]; rfl

theorem pairs_map {α β : Type} (f : α → β) (l : List α) :
    Model.Costs.pairs (l.map f) = (Model.Costs.pairs l).map fun p => (f p.1, f p.2) := by
  induction l with
  | nil => rfl
  | cons x xs ih => simp [Model.Costs.pairs, ih, Function.comp_def]

theorem massSum_scale (m : ε → ℚ) (k : ℚ) (a : Amts ε) : massSum m (scale k a) = k * massSum m a := by
  unfold massSum scale
  rw [pairs_map, List.map_map, ← List.sum_map_mul_left]
  congr 1
  refine List.map_congr_left fun p _ => ?_
  simp only [Function.comp]
  ring

theorem reducedMass_eq (m : ε → ℚ) (factor : Amts ε → ℚ) (hf : ∀ a, factor a ≠ 0) (a : Amts ε) :
    reducedMass m factor a = if ((a.length : ℚ) - 1) * atoms a = 0 then .error .zeroDivision
      else .ok (massSum m a / (((a.length : ℚ) - 1) * atoms a)) := by
  have h := hf a
  have hlen : (scale (1 / factor a) a).length = a.length := by simp [scale]
  simp only [reducedMass, atoms_scale, massSum_scale, hlen]
  have hz : ((a.length : ℚ) - 1) * (1 / factor a * atoms a) = 0 ↔ ((a.length : ℚ) - 1) * atoms a = 0 := by
    rw [show ((a.length : ℚ) - 1) * (1 / factor a * atoms a) = (1 / factor a) * (((a.length : ℚ) - 1) * atoms a) by ring, mul_eq_zero]
    simp [h]
  by_cases h0 : ((a.length : ℚ) - 1) * atoms a = 0
  · rw [if_pos (hz.mpr h0), if_pos h0]
  · rw [if_neg (fun x => h0 (hz.mp x)), if_neg h0]
    congr 1
    have h1 : ((a.length : ℚ) - 1) ≠ 0 := fun x => h0 (by rw [x, zero_mul])
    have h2 : atoms a ≠ 0 := fun x => h0 (by rw [x, mul_zero])
    field_simp

/-- **C95, reduced mass.** The reduced mass is the same for every multiple of a formula (and for whichever factor the reduction of the
formula uses). -/
theorem C95_reduced_mass (m : ε → ℚ) (factor factor' : Amts ε → ℚ) (hf : ∀ a, factor a ≠ 0) (hf' : ∀ a, factor' a ≠ 0) (k : ℚ)
    (hk : k ≠ 0) (a : Amts ε) : reducedMass m factor (scale k a) = reducedMass m factor' a := by
  have hlen : (scale k a).length = a.length := by simp [scale]
  rw [reducedMass_eq m factor hf, reducedMass_eq m factor' hf', atoms_scale, massSum_scale, hlen]
  have e : ((a.length : ℚ) - 1) * (k * atoms a) = k * (((a.length : ℚ) - 1) * atoms a) := by ring
  rw [e]
  by_cases h0 : ((a.length : ℚ) - 1) * atoms a = 0
  · rw [if_pos (by rw [h0, mul_zero]), if_pos h0]
  · rw [if_neg (mul_ne_zero hk h0), if_neg h0, mul_div_mul_left _ _ hk]

/-- The weights of the pairs add up to the denominator. -/
theorem pairs_weight (a : Amts ε) : ((Model.Costs.pairs a).map fun p => p.1.2 + p.2.2).sum = ((a.length : ℚ) - 1) * atoms a := by
  induction a with
  | nil => simp [Model.Costs.pairs, atoms]
  | cons x xs ih =>
    have : ((xs.map fun y => (x, y)).map fun p : (ε × ℚ) × (ε × ℚ) => p.1.2 + p.2.2).sum = xs.length * x.2 + atoms xs := by
      clear ih
      induction xs with
      | nil => simp [atoms]
      | cons y ys ih =>
        simp only [List.map_cons, List.sum_cons, List.length_cons] at ih ⊢
        rw [ih]
        simp only [atoms, List.map_cons, List.sum_cons]
        push_cast; ring
    simp only [Model.Costs.pairs, List.map_append, List.sum_append]
    rw [ih, this]
    simp only [atoms, List.map_cons, List.sum_cons, List.length_cons]
    push_cast; ring

theorem mem_pairs {α : Type} (l : List α) (R : α → α → Prop) (h : l.Pairwise R) : ∀ p ∈ Model.Costs.pairs l, R p.1 p.2 := by
  induction l with
  | nil => simp [Model.Costs.pairs]
  | cons x xs ih =>
    obtain ⟨h1, h2⟩ := List.pairwise_cons.mp h
    intro p hp
    simp only [Model.Costs.pairs, List.mem_append, List.mem_map] at hp
    rcases hp with ⟨y, hy, rfl⟩ | hp
    · exact h1 y hy
    · exact ih h2 p hp

theorem mem_pairs_mem {α : Type} (l : List α) : ∀ p ∈ Model.Costs.pairs l, p.1 ∈ l ∧ p.2 ∈ l := by
  induction l with
  | nil => simp [Model.Costs.pairs]
  | cons x xs ih =>
    intro p hp
    simp only [Model.Costs.pairs, List.mem_append, List.mem_map] at hp
    rcases hp with ⟨y, hy, rfl⟩ | hp
    · exact ⟨by simp, by simp [hy]⟩
    · obtain ⟨h1, h2⟩ := ih p hp
      exact ⟨by simp [h1], by simp [h2]⟩

theorem atoms_pos (a : Amts ε) (h : ∀ p ∈ a, (0:ℚ) < p.2) (hn : a ≠ []) : 0 < atoms a := by
  cases a with
  | nil => exact absurd rfl hn
  | cons x xs =>
    have h1 : (0:ℚ) ≤ (xs.map Prod.snd).sum := List.sum_nonneg (by
      intro y hy
      obtain ⟨p, hp, rfl⟩ := List.mem_map.mp hy
      exact (h p (by simp [hp])).le)
    have := h x (by simp)
    simp only [atoms, List.map_cons, List.sum_cons]; linarith

theorem sum_le_mul {α : Type} (l : List α) (w v : α → ℚ) (lo hi : ℚ) (hw : ∀ p ∈ l, 0 ≤ w p) (hlo : ∀ p ∈ l, lo ≤ v p)
    (hhi : ∀ p ∈ l, v p ≤ hi) : lo * (l.map w).sum ≤ (l.map fun p => w p * v p).sum ∧ (l.map fun p => w p * v p).sum ≤ hi * (l.map w).sum := by
  induction l with
  | nil => simp
  | cons x xs ih =>
    obtain ⟨h1, h2⟩ := ih (fun p hp => hw p (by simp [hp])) (fun p hp => hlo p (by simp [hp])) (fun p hp => hhi p (by simp [hp]))
    have a1 := mul_le_mul_of_nonneg_left (hlo x (by simp)) (hw x (by simp))
    have a2 := mul_le_mul_of_nonneg_left (hhi x (by simp)) (hw x (by simp))
    simp only [List.map_cons, List.sum_cons]
    constructor <;> linarith

/-- **C95, average.** For at least two elements with positive amounts the reduced mass exists and lies between all bounds on the reduced
masses of the pairs of elements. -/
theorem C95_average (m : ε → ℚ) (factor : Amts ε → ℚ) (hf : ∀ a, factor a ≠ 0) (a : Amts ε) (hn : 2 ≤ a.length)
    (hpos : ∀ p ∈ a, (0:ℚ) < p.2) (lo hi : ℚ) (hb : a.Pairwise fun p q => lo ≤ pairMass m p.1 q.1 ∧ pairMass m p.1 q.1 ≤ hi) :
    ∃ r, reducedMass m factor a = .ok r ∧ lo ≤ r ∧ r ≤ hi := by
  have hne : a ≠ [] := by rintro rfl; simp at hn
  have h2 : (2:ℚ) ≤ a.length := by exact_mod_cast hn
  have hden : 0 < ((a.length : ℚ) - 1) * atoms a := mul_pos (by linarith) (atoms_pos a hpos hne)
  have key := sum_le_mul (Model.Costs.pairs a) (fun p => p.1.2 + p.2.2) (fun p => pairMass m p.1.1 p.2.1) lo hi
    (fun p hp => by
      obtain ⟨x, y⟩ := mem_pairs_mem a p hp
      have := hpos _ x; have := hpos _ y; linarith)
    (fun p hp => (mem_pairs a _ hb p hp).1) (fun p hp => (mem_pairs a _ hb p hp).2)
  have hs : massSum m a = ((Model.Costs.pairs a).map fun p => (p.1.2 + p.2.2) * pairMass m p.1.1 p.2.1).sum := by
    unfold massSum pairMass
    congr 1
    refine List.map_congr_left fun p _ => ?_
    ring
  rw [← hs, pairs_weight] at key
  refine ⟨_, by rw [reducedMass_eq m factor hf, if_neg hden.ne'], ?_, ?_⟩
  · rw [le_div_iff₀ hden]; exact key.1
  · rw [div_le_iff₀ hden]; exact key.2

/-- Li, O and P with rounded weights. -/
def exMass : ℕ → ℚ
  | 0 => 7
  | 1 => 16
  | _ => 31

/-- Li3PO4. -/
def exAmts : Amts ℕ := [(0, 3), (2, 1), (1, 4)]

/-- The first amount as reduction factor (any nonzero number will do). -/
def exFactor : Amts ℕ → ℚ := fun a => match a with
  | (_, x) :: _ => if x = 0 then 1 else x
  | [] => 1

theorem exFactor_ne (a : Amts ℕ) : exFactor a ≠ 0 := by
  unfold exFactor
  split
  · split_ifs with h
    · norm_num
    · exact h
  · norm_num

example : ∃ r, reducedMass exMass exFactor exAmts = .ok r ∧ 112 / 23 ≤ r ∧ r ≤ 496 / 47 :=
  C95_average exMass exFactor exFactor_ne exAmts (by decide) (by decide +kernel) _ _ (by decide +kernel)

example : reducedMass exMass exFactor (scale 2 exAmts) = reducedMass exMass (fun _ => 1) exAmts :=
  C95_reduced_mass _ _ _ exFactor_ne (fun _ => by norm_num) 2 (by norm_num) _

/-! ### Extensivity -/

theorem sumG_scale (mu : ε → Except Err ℚ) (k : ℚ) (a : Amts ε) : sumG mu (scale k a) = (sumG mu a).map (k * ·) := by
  induction a with
  | nil => simp [sumG, scale, Except.map, pure, Except.pure, bind, Except.bind]
  | cons x xs ih =>
    simp only [sumG, scale, List.map_cons, Exc.mapM_cons] at ih ⊢
    cases hx : mu x.1 with
    | error e => simp [Except.map, bind, Except.bind]
    | ok v =>
      cases hxs : xs.mapM fun p => (mu p.1).map (p.2 * ·) with
      | error e =>
        rw [hxs] at ih
        cases hys : (xs.map fun p => (p.1, k * p.2)).mapM fun p => (mu p.1).map (p.2 * ·) with
        | error e' => rw [hys] at ih; simpa [Except.map, bind, Except.bind] using ih
        | ok r => rw [hys] at ih; simp [Except.map, bind, Except.bind, pure, Except.pure] at ih
      | ok r =>
        rw [hxs] at ih
        cases hys : (xs.map fun p => (p.1, k * p.2)).mapM fun p => (mu p.1).map (p.2 * ·) with
        | error e' => rw [hys] at ih; simp [Except.map, bind, Except.bind, pure, Except.pure] at ih
        | ok r' =>
          rw [hys] at ih
          simp only [Except.map, bind, Except.bind, pure, Except.pure, Except.ok.injEq] at ih ⊢
          simp only [List.sum_cons, ih]
          ring

/-- **C95, extensivity of the correction.** Multiplying all amounts by `k` multiplies the correction by `k`; if it raises, it raises the
same exception for every multiple. -/
theorem C95_adjustment (X : Env ε) (hf : ∀ a, X.factor a ≠ 0) (k : ℚ) (hk : k ≠ 0) (a : Amts ε) (vol t : ℚ) :
    gibbsAdjustment X (scale k a) vol t = (gibbsAdjustment X a vol t).map (k * ·) := by
  have hlen : (scale k a).length = a.length := by simp [scale]
  unfold gibbsAdjustment
  rw [hlen]
  by_cases h1 : a.length = 1
  · simp [h1, Except.map]
  · rw [if_neg h1, if_neg h1, C95_reduced_mass X.m X.factor X.factor hf hf k hk, sumG_scale, atoms_scale]
    cases reducedMass X.m X.factor a with
    | error e => rfl
    | ok rm =>
      simp only [bind, Except.bind]
      cases gDelta X.log vol rm t with
      | error e => rfl
      | ok g =>
        simp only
        cases sumG (X.mu t) a with
        | error e => rfl
        | ok s =>
          simp only [Except.map, pure, Except.pure, Except.ok.injEq]
          ring

/-- **C95, formula.** With two or more elements the correction is the descriptor `G^δ` per atom times the number of atoms, minus the chemical potentials of the
elements in their amounts: formation energies refer to the elements at the same temperature. -/
theorem C95_formula (X : Env ε) (a : Amts ε) (h1 : a.length ≠ 1) (vol t r : ℚ) (h : gibbsAdjustment X a vol t = .ok r) :
    ∃ (rm : ℚ) (mus : List ℚ), reducedMass X.m X.factor a = .ok rm ∧ vol ≠ 0 ∧ List.Forall₂ (fun p m => X.mu t p.1 = .ok m) a mus ∧
      r + ((a.zip mus).map fun p => p.1.2 * p.2).sum =
        (a.map Prod.snd).sum * ((-(248 / 1000000) * X.log vol - 894 / 10000000 * rm / vol) * t + 181 / 1000 * X.log t - 882 / 1000) := by
  unfold gibbsAdjustment at h
  rw [if_neg h1, Exc.bind_ok] at h
  obtain ⟨rm, hrm, h⟩ := h
  rw [Exc.bind_ok] at h
  obtain ⟨g, hg, h⟩ := h
  rw [Exc.bind_ok] at h
  obtain ⟨s, hs, h⟩ := h
  have h := Except.ok.inj h
  unfold sumG at hs
  rw [Exc.bind_ok] at hs
  obtain ⟨l, hl, hs⟩ := hs
  have hs := Except.ok.inj hs
  unfold gDelta at hg
  split_ifs at hg with hv
  have hg := Except.ok.inj hg
  obtain ⟨mus, hm1, hm2⟩ : ∃ mus : List ℚ, List.Forall₂ (fun (p : ε × ℚ) m => X.mu t p.1 = .ok m) a mus ∧
      l = (a.zip mus).map fun p => p.1.2 * p.2 := by
    have hl := (Exc.mapM_ok _ _ _).1 hl
    rename_i hl0
    clear hrm h h1 hs
    clear * - hl
    induction hl with
    | nil => exact ⟨[], .nil, rfl⟩
    | cons hp _ ih =>
      obtain ⟨mus, i1, rfl⟩ := ih
      rw [Exc.map_ok] at hp
      obtain ⟨m, hm, rfl⟩ := hp
      exact ⟨m :: mus, .cons hm i1, rfl⟩
  refine ⟨rm, mus, hrm, hv, hm1, ?_⟩
  rw [← hm2, hs, ← h, hg]
  unfold atoms
  ring

/-- **C95, elements.** An element gets no correction, whatever its amount, volume and temperature. -/
theorem C95_element (X : Env ε) (x : ε) (n vol t : ℚ) : gibbsAdjustment X [(x, n)] vol t = .ok 0 := rfl

/-- Specification: `b` lists, in the same order, `k` times the energies of `a`. -/
def Scaled (k : ℚ) (a b : List Adj) : Prop := List.Forall₂ (fun x y => y.name = x.name ∧ y.value = k * x.value) a b

theorem Scaled.sum {k : ℚ} {a b : List Adj} (h : Scaled k a b) : (b.map Adj.value).sum = k * (a.map Adj.value).sum := by
  induction h with
  | nil => simp
  | cons hxy _ ih => simp only [List.map_cons, List.sum_cons, ih, hxy.2]; ring

theorem Scaled.filter {k : ℚ} {a b : List Adj} (h : Scaled k a b) (P : String → Bool) :
    Scaled k (a.filter fun x => P x.name) (b.filter fun x => P x.name) := by
  induction h with
  | nil => exact List.Forall₂.nil
  | @cons x y l m hxy _ ih =>
    simp only [List.filter_cons, hxy.1]
    split_ifs with hp
    · exact List.Forall₂.cons hxy ih
    · exact ih

/-- **C95, extensivity of the energy.** An entry for `k` formula units (with `k` times the other energy adjustments) has `k` times the
energy, hence the same energy per atom; one of the two can be built exactly if the other can, with the same exception. -/
theorem C95_energy_partial (X : Env ε) (hf : ∀ a, X.factor a ≠ 0) (k : ℚ) (hk : k ≠ 0) (a : Amts ε) (fe vol t : ℚ) (adjs adjs' : List Adj)
    (hadj : Scaled k adjs adjs') (h h' : Option ℚ) :
    (∀ e, gibbsInit (thermo X) a fe vol t adjs h = .ok e → ∃ e', gibbsInit (thermo X) (scale k a) fe vol t adjs' h' = .ok e' ∧
      e'.energy (thermo X) = k * e.energy (thermo X) ∧
      e'.energy (thermo X) / (thermo X).atoms e'.comp = e.energy (thermo X) / (thermo X).atoms e.comp) ∧
    ∀ x, gibbsInit (thermo X) a fe vol t adjs h = .error x → gibbsInit (thermo X) (scale k a) fe vol t adjs' h' = .error x := by
  have key := C95_adjustment X hf k hk a vol t
  unfold gibbsInit
  by_cases ht : t < 300 ∨ 2000 < t
  · simp [ht]
  · rw [if_neg ht, if_neg ht]
    have e1 : (thermo X).gadj a vol t = gibbsAdjustment X a vol t := rfl
    have e2 : (thermo X).gadj (scale k a) vol t = gibbsAdjustment X (scale k a) vol t := rfl
    rw [e1, e2, key]
    cases gibbsAdjustment X a vol t with
    | error x => simp [Except.map, bind, Except.bind]
    | ok g =>
      simp only [Except.map, bind, Except.bind, pure, Except.pure, Except.ok.injEq, reduceCtorEq, false_implies, implies_true, and_true]
      rintro e rfl
      have hs := (hadj.filter fun n => decide (n ≠ sisso)).sum
      have hen : Gibbs.energy (thermo X) ⟨scale k a, fe, vol, t, (adjs'.filter fun a => a.name ≠ sisso) ++ [.const sisso (k * g)], h'⟩
          = k * Gibbs.energy (thermo X) ⟨a, fe, vol, t, (adjs.filter fun a => a.name ≠ sisso) ++ [.const sisso g], h⟩ := by
        simp only [Gibbs.energy, thermo, atoms_scale, List.map_append, List.sum_append, List.map_cons, List.map_nil, List.sum_cons,
          List.sum_nil, Adj.value]
        rw [hs]; ring
      refine ⟨_, rfl, hen, ?_⟩
      rw [hen]
      simp only [thermo, atoms_scale]
      exact mul_div_mul_left _ _ hk

theorem ok_of {α : Type} {x : Except Err α} (p : α → Bool) (h : (x.toOption.map p).getD false = true) : ∃ e, x = .ok e ∧ p e = true := by
  cases x with
  | error _ => simp [Except.toOption] at h
  | ok e => exact ⟨e, rfl, by simpa [Except.toOption] using h⟩

/-- A small environment: constant logarithm, chemical potentials for elements 0–2 only. -/
def exEnv : Env ℕ := ⟨exMass, fun _ => 2, exFactor, fun t x => if x < 3 then .ok (-t / 1000 * (x + 1)) else .error .keyError⟩

example : ∃ e, gibbsInit (thermo exEnv) exAmts (-2) 10 600 [.carbonate 1 (83 / 100)] none = .ok e ∧
    e.energy (thermo exEnv) ≠ 0 ∧ ∃ e', gibbsInit (thermo exEnv) (scale 3 exAmts) (-2) 10 600 [.carbonate 3 (83 / 100)] none = .ok e' ∧
    e'.energy (thermo exEnv) = 3 * e.energy (thermo exEnv) := by
  obtain ⟨e, he, hne⟩ : ∃ e, gibbsInit (thermo exEnv) exAmts (-2) 10 600 [.carbonate 1 (83 / 100)] none = .ok e ∧
      e.energy (thermo exEnv) ≠ 0 := by
    obtain ⟨e, he, hp⟩ := ok_of (x := gibbsInit (thermo exEnv) exAmts (-2) 10 600 [.carbonate 1 (83 / 100)] none)
      (fun e => decide (e.energy (thermo exEnv) ≠ 0)) (by decide +kernel)
    exact ⟨e, he, by simpa using hp⟩
  obtain ⟨e', h1, h2, _⟩ := (C95_energy_partial exEnv exFactor_ne 3 (by norm_num) exAmts (-2) 10 600 [.carbonate 1 (83 / 100)]
    [.carbonate 3 (83 / 100)] (List.Forall₂.cons ⟨rfl, by decide +kernel⟩ List.Forall₂.nil) none none).1 e he
  exact ⟨e, he, hne, e', h1, h2⟩

example : gibbsInit (thermo exEnv) (scale 3 [(7, 1), (0, 1)]) (-2) 10 600 [] none = .error .keyError :=
  (C95_energy_partial exEnv exFactor_ne 3 (by norm_num) [(7, 1), (0, 1)] (-2) 10 600 [] [] List.Forall₂.nil none none).2 _ (by decide +kernel)

theorem pairs_sum {α : Type} (f : α → α → ℚ) (hs : ∀ x y, f x y = f y x) (l : List α) :
    2 * ((Model.Costs.pairs l).map fun p => f p.1 p.2).sum + (l.map fun x => f x x).sum = (l.map fun x => (l.map (f x)).sum).sum := by
  induction l with
  | nil => simp [Model.Costs.pairs]
  | cons x xs ih =>
    have e : (xs.map fun y => f y x + (xs.map (f y)).sum).sum = (xs.map (f x)).sum + (xs.map fun y => (xs.map (f y)).sum).sum := by
      rw [← List.sum_map_add]
      congr 1
      exact List.map_congr_left fun y _ => by rw [hs y x]
    simp only [Model.Costs.pairs, List.map_append, List.map_map, List.sum_append, List.map_cons, List.sum_cons, Function.comp_def]
    rw [e, ← ih]
    ring

/-- **C95, order.** The order in which a formula lists its elements does not matter. -/
theorem C95_order (X : Env ε) (hf : ∀ a, X.factor a ≠ 0) (a b : Amts ε) (hab : a.Perm b) (vol t g : ℚ)
    (h : gibbsAdjustment X a vol t = .ok g) : gibbsAdjustment X b vol t = .ok g := by
  have hlen := hab.length_eq
  have hat : atoms a = atoms b := (hab.map _).sum_eq
  have hms : massSum X.m a = massSum X.m b := by
    have F := pairs_sum (fun p q : ε × ℚ => (p.2 + q.2) * (X.m p.1 * X.m q.1) / (X.m p.1 + X.m q.1)) (fun p q => by ring_nf)
    have Fa := F a; have Fb := F b
    have hd := (hab.map fun p : ε × ℚ => (p.2 + p.2) * (X.m p.1 * X.m p.1) / (X.m p.1 + X.m p.1)).sum_eq
    have hd2 : (a.map fun p : ε × ℚ => (a.map fun q : ε × ℚ => (p.2 + q.2) * (X.m p.1 * X.m q.1) / (X.m p.1 + X.m q.1)).sum).sum =
        (b.map fun p : ε × ℚ => (b.map fun q : ε × ℚ => (p.2 + q.2) * (X.m p.1 * X.m q.1) / (X.m p.1 + X.m q.1)).sum).sum := by
      rw [(hab.map fun p : ε × ℚ => (a.map fun q : ε × ℚ => (p.2 + q.2) * (X.m p.1 * X.m q.1) / (X.m p.1 + X.m q.1)).sum).sum_eq]
      congr 1
      exact List.map_congr_left fun p _ => (hab.map _).sum_eq
    unfold massSum
    linarith
  have hsum : ∀ s, sumG (X.mu t) a = .ok s → sumG (X.mu t) b = .ok s := by
    intro s hs
    have hall : ∀ p ∈ a, ∃ v, X.mu t p.1 = .ok v := by
      intro p hp
      cases hm : X.mu t p.1 with
      | ok v => exact ⟨v, rfl⟩
      | error x =>
        obtain ⟨x', hx'⟩ := Exc.mapM_exists_error (fun p : ε × ℚ => (X.mu t p.1).map (p.2 * ·)) a p hp x (by simp only [hm]; rfl)
        rw [sumG, hx'] at hs
        cases hs
    let v : ε → ℚ := fun x => match X.mu t x with | .ok v => v | .error _ => 0
    have hv : ∀ p ∈ a, (X.mu t p.1).map (p.2 * ·) = .ok (p.2 * v p.1) := by
      intro p hp
      obtain ⟨w, hw⟩ := hall p hp
      simp only [v, hw, Except.map]
    have ea := Exc.mapM_eq_map (fun p : ε × ℚ => (X.mu t p.1).map (p.2 * ·)) (fun p => p.2 * v p.1) a hv
    have eb := Exc.mapM_eq_map (fun p : ε × ℚ => (X.mu t p.1).map (p.2 * ·)) (fun p => p.2 * v p.1) b
      (fun p hp => hv p (hab.mem_iff.mpr hp))
    rw [sumG, ea] at hs
    rw [sumG, eb]
    simp only [bind, Except.bind, pure, Except.pure, Except.ok.injEq] at hs ⊢
    rw [← hs]
    exact ((hab.map _).sum_eq).symm
  unfold gibbsAdjustment at h ⊢
  rw [← hlen]
  by_cases h1 : a.length = 1
  · rw [if_pos h1] at h ⊢; exact h
  · rw [if_neg h1] at h ⊢
    rw [reducedMass_eq _ _ hf] at h ⊢
    rw [← hlen, ← hat, ← hms]
    generalize (if ((a.length : ℚ) - 1) * atoms a = 0 then (.error .zeroDivision : Except Err ℚ)
      else .ok (massSum X.m a / (((a.length : ℚ) - 1) * atoms a))) = R at h ⊢
    cases R with
    | error x => cases h
    | ok rm =>
      simp only [bind, Except.bind] at h ⊢
      cases hg : gDelta X.log vol rm t with
      | error x => rw [hg] at h; cases h
      | ok g' =>
        rw [hg] at h
        simp only at h ⊢
        cases hs : sumG (X.mu t) a with
        | error x => rw [hs] at h; cases h
        | ok s => rw [hs] at h; rw [hsum s hs]; exact h

example : gibbsAdjustment exEnv [(1, 4), (0, 3), (2, 1)] 10 600 = gibbsAdjustment exEnv exAmts 10 600 := by
  obtain ⟨g, hg, _⟩ := ok_of (x := gibbsAdjustment exEnv exAmts 10 600) (fun _ => true) (by decide +kernel)
  rw [hg]
  exact C95_order exEnv exFactor_ne exAmts _ (by decide) 10 600 g hg

/-- **C95 is violated by experimental entries**: their energy is the tabulated energy of the reduced formula, whatever the multiple, so
an entry for `k` formula units has the energy of one. -/
theorem C95_experimental_violated {κ : Type} (table : κ → Option (List (ℚ × ℚ))) (dep : κ → Bool) (one many : κ)
    (hsame : table many = table one ∧ dep many = dep one) (t : ℚ) (adjs : List Adj) (e : Exper κ)
    (h : experInit table dep one t adjs = .ok e) : ∃ e', experInit table dep many t adjs = .ok e' ∧ e'.energy = e.energy := by
  unfold experInit at h ⊢
  rw [hsame.1, hsame.2]
  split_ifs at h ⊢ with hd
  · injection h with h; exact ⟨_, rfl, by rw [← h]; rfl⟩
  · cases hv : validate (table one) t with
    | error x => rw [hv] at h; cases h
    | ok d =>
      rw [hv] at h
      simp only [bind, Except.bind] at h ⊢
      cases hg : tableEnergy d t with
      | error x => rw [hg] at h; cases h
      | ok g =>
        rw [hg] at h
        simp only [pure, Except.pure, Except.ok.injEq] at h ⊢
        exact ⟨_, rfl, by rw [← h]; rfl⟩

/-- A formula and a multiple; the table depends on the formula only. -/
def exTab : ℕ × ℕ → Option (List (ℚ × ℚ)) := fun c => if c.1 = 0 then some [(300, -5), (400, -4)] else none

example : ∃ e e', experInit exTab (fun _ => false) (0, 1) 300 [] = .ok e ∧ experInit exTab (fun _ => false) (0, 2) 300 [] = .ok e' ∧
    e'.energy = e.energy ∧ e'.energy ≠ 2 * e.energy :=
  ⟨⟨(0, 1), 300, -5, []⟩, ⟨(0, 2), 300, -5, []⟩, by decide +kernel, by decide +kernel, by decide +kernel, by decide +kernel⟩

/-! ### C97: experimental references -/

/-- **C97, class names.** Exactly the names "nist", "nistreferenceentry", "freed" and "freedreferenceentry", in any capitalization, are
accepted; any other name raises `ValueError`, whatever the other arguments. -/
theorem C97_class (R : Refs) (f cls : List Char) (t : ℚ) (ig co2 : Bool)
    (h : ∀ n ∈ ["nist", "nistreferenceentry", "freed", "freedreferenceentry"], cls.map Char.toLower ≠ n.toList) :
    checkForExperimental R f cls t ig co2 = .error .valueError := by
  simp only [List.mem_cons, List.not_mem_nil, or_false, forall_eq_or_imp, forall_eq] at h
  obtain ⟨h1, h2, h3, h4⟩ := h
  unfold checkForExperimental clsOf
  simp only [h1, h2, h3, h4, or_self, if_false]

/-- Specification: a class name and the table it stands for. -/
def Names (cls : List Char) (db : Db) : Prop := match db with
  | .nist => cls.map Char.toLower = "nist".toList ∨ cls.map Char.toLower = "nistreferenceentry".toList
  | .freed => cls.map Char.toLower = "freed".toList ∨ cls.map Char.toLower = "freedreferenceentry".toList

theorem clsOf_names {cls : List Char} {db : Db} (h : Names cls db) : clsOf cls = .ok db := by
  unfold clsOf
  cases db with
  | nist => simp only [Names] at h; simp only [h, if_true]
  | freed =>
    simp only [Names] at h
    have h' : ¬ (cls.map Char.toLower = "nist".toList ∨ cls.map Char.toLower = "nistreferenceentry".toList) := by
      rcases h with h | h <;> rw [h] <;> decide
    simp only [h', h, if_true, if_false]

/-- Specification: the shape of every table shipped with the package (checked on the data files): keys are reduced formulas, none of them
deprecated, and each table has nodes at consecutive multiples of 100 K. -/
structure Shipped (R : Refs) : Prop where
  red : ∀ db f, ((R.refs db).table f).isSome → R.red f = f
  current : ∀ db f, ((R.refs db).table f).isSome → (R.refs db).deprecated f = false
  grid : ∀ db f d, (R.refs db).table f = some d → ∃ k, EntryTable.Grid k d

theorem validate_in (d : List (ℚ × ℚ)) (t : ℚ) (h1 : ∃ p ∈ d, p.1 ≤ t) (h2 : ∃ p ∈ d, t ≤ p.1) : validate (some d) t = .ok d := by
  simp only [validate]
  obtain ⟨p, hp, hpt⟩ := h1
  obtain ⟨q, hq, hqt⟩ := h2
  have hne : d.map Prod.fst ≠ [] := by intro h; rw [List.map_eq_nil_iff] at h; subst h; simp at hp
  cases hlo : (d.map Prod.fst).min? with
  | none => exact absurd (List.min?_eq_none_iff.mp hlo) hne
  | some lo =>
    cases hhi : (d.map Prod.fst).max? with
    | none => exact absurd (List.max?_eq_none_iff.mp hhi) hne
    | some hi =>
      have l1 : lo ≤ p.1 := (List.min?_eq_some_iff.mp hlo).2 _ (List.mem_map_of_mem hp)
      have l2 : q.1 ≤ hi := (List.max?_eq_some_iff.mp hhi).2 _ (List.mem_map_of_mem hq)
      simp only
      rw [if_neg (by push Not; exact ⟨by linarith, by linarith⟩)]

theorem validate_out (d : List (ℚ × ℚ)) (t : ℚ) (h : ¬ ((∃ p ∈ d, p.1 ≤ t) ∧ ∃ p ∈ d, t ≤ p.1)) : validate (some d) t = .error .valueError := by
  simp only [validate]
  cases hlo : (d.map Prod.fst).min? with
  | none => rfl
  | some lo =>
    cases hhi : (d.map Prod.fst).max? with
    | none => rfl
    | some hi =>
      obtain ⟨p, hp, rfl⟩ := List.mem_map.mp (List.min?_mem hlo)
      obtain ⟨q, hq, rfl⟩ := List.mem_map.mp (List.max?_mem hhi)
      simp only
      by_cases hc : t < p.1 ∨ q.1 < t
      · rw [if_pos hc]
      · push Not at hc
        exact absurd ⟨⟨p, hp, hc.1⟩, ⟨q, hq, hc.2⟩⟩ h

theorem tableEnergy_in (d : List (ℚ × ℚ)) (k : ℤ) (hd : EntryTable.Grid k d) (t : ℚ) (h1 : ∃ p ∈ d, p.1 ≤ t) (h2 : ∃ p ∈ d, t ≤ p.1) :
    ∃ g, tableEnergy d t = .ok g := by
  obtain ⟨p, hp, hpt⟩ := h1
  obtain ⟨q, hq, hqt⟩ := h2
  cases d with
  | nil => simp at hp
  | cons a d =>
    have hinc := EntryTable.grid_increasing _ k hd
    obtain ⟨b, hb⟩ : ∃ b, b ∈ (a :: d).getLast? := ⟨(a :: d).getLast (by simp), by simp [List.getLast?_eq_some_getLast]⟩
    refine EntryTable.C43_total d k a b hd hb t ?_ ?_
    · rcases List.mem_cons.mp hp with rfl | hp
      · exact hpt
      · exact ((List.pairwise_cons.mp hinc).1 p hp).le.trans hpt
    · obtain ⟨l, hl⟩ : ∃ l, a :: d = l ++ [b] := by
        rw [Option.mem_def, List.getLast?_eq_some_iff] at hb
        exact hb
      rw [hl] at hq hinc
      rcases List.mem_append.mp hq with hq | hq
      · exact hqt.trans ((List.pairwise_append.mp hinc).2.2 q hq b (by simp)).le
      · rw [List.mem_singleton.mp hq] at hqt; exact hqt

/-- **C97, experimental references.** With the shipped tables and a valid class name nothing is raised, and a reference entry is
returned exactly if the formula is in the chosen table, is not an ignored NIST solid, and the temperature lies within the table. The
entry has the formula, the temperature and the tabulated (or interpolated) energy, and the CO2 correction exactly for CO2 and if
requested. -/
theorem C97_experimental (R : Refs) (hR : Shipped R) (f cls : List Char) (db : Db) (hc : Names cls db) (t : ℚ) (ig co2 : Bool) :
    (∃ r, checkForExperimental R f cls t ig co2 = .ok r) ∧
    ∀ e, checkForExperimental R f cls t ig co2 = .ok (some e) ↔
      ∃ d g, (R.refs db).table f = some d ∧ ¬ (db = .nist ∧ ig = true ∧ R.ignored f = true) ∧ (∃ p ∈ d, p.1 ≤ t) ∧ (∃ p ∈ d, t ≤ p.1) ∧
        tableEnergy d t = .ok g ∧ e = ⟨f, t, g, if co2 = true ∧ f = "CO2".toList then [.co2 3 t R.lnp] else []⟩ := by
  unfold checkForExperimental
  rw [clsOf_names hc]
  simp only
  cases htab : (R.refs db).table f with
  | none => simp
  | some d =>
    have hs : ((R.refs db).table f).isSome := by rw [htab]; rfl
    simp only [Option.isSome_some, if_true]
    by_cases hig : db = .nist ∧ ig = true ∧ R.ignored f = true
    · simp [hig]
    · rw [if_neg hig]
      obtain ⟨k, hk⟩ := hR.grid db f d htab
      unfold experInit
      simp only [hR.red db f hs, hR.current db f hs, htab, Bool.false_eq_true, if_false]
      by_cases hr : (∃ p ∈ d, p.1 ≤ t) ∧ ∃ p ∈ d, t ≤ p.1
      · obtain ⟨g, hg⟩ := tableEnergy_in d k hk t hr.1 hr.2
        rw [validate_in d t hr.1 hr.2]
        simp only [bind, Except.bind, hg, pure, Except.pure]
        refine ⟨⟨_, rfl⟩, fun e => ?_⟩
        simp only [Except.ok.injEq, Option.some.injEq]
        constructor
        · rintro rfl
          exact ⟨d, g, rfl, hig, hr.1, hr.2, hg, rfl⟩
        · rintro ⟨d', g', hd', _, _, _, hg', rfl⟩
          subst hd'
          rw [hg] at hg'
          injection hg' with hg'
          rw [hg']; rfl
      · rw [validate_out d t hr]
        simp only [bind, Except.bind]
        refine ⟨⟨_, rfl⟩, fun e => ?_⟩
        constructor
        · intro h; simp at h
        · rintro ⟨d', g', hd', _, h1, h2, _⟩
          injection hd' with hd'; subst hd'
          exact absurd ⟨h1, h2⟩ hr

/-- **C97, the energy of a reference.** The energy of the entry is the tabulated one, plus `k_B T ln p` per formula unit for CO2 if the
correction was requested (`k_B` = 8.617e-5 eV/K); so the correction lowers the energy at pressures below one atmosphere, and grows
in proportion to the temperature. -/
theorem C97_co2_energy (R : Refs) (hR : Shipped R) (f cls : List Char) (db : Db) (hc : Names cls db) (t : ℚ) (ig co2 : Bool) (e : Exper (List Char))
    (h : checkForExperimental R f cls t ig co2 = .ok (some e)) :
    ∃ d g, (R.refs db).table f = some d ∧ tableEnergy d t = .ok g ∧
      e.energy = g + if co2 = true ∧ f = "CO2".toList then 8617 / 10 ^ 8 * t * R.lnp else 0 := by
  obtain ⟨d, g, h1, -, -, -, h2, rfl⟩ := ((C97_experimental R hR f cls db hc t ig co2).2 e).mp h
  refine ⟨d, g, h1, h2, ?_⟩
  unfold Exper.energy
  simp only
  split_ifs
  · simp [Adj.value]; ring
  · simp

/-- Two formulas, the second an ignored solid of the first table. -/
def exRefs : Refs where
  refs := fun db => ⟨fun f => if f = "CO2".toList then some [(300, -4), (400, -3)]
    else if f = "Al2O3".toList ∧ db = .nist then some [(300, -16)] else none, fun f => f = "NaCO3".toList⟩
  ignored := fun f => f = "Al2O3".toList
  red := id
  lnp := -8

theorem exRefs_shipped : Shipped exRefs := by
  refine ⟨fun _ _ _ => rfl, ?_, ?_⟩
  · intro db f h
    simp only [exRefs] at h ⊢
    split_ifs at h with h1 h2
    · subst h1; decide
    · rw [h2.1]; decide
    · simp at h
  · intro db f d h
    simp only [exRefs] at h
    split_ifs at h with h1 h2
    · injection h with h; subst h; exact ⟨3, by norm_num [EntryTable.Grid]⟩
    · injection h with h; subst h; exact ⟨3, by norm_num [EntryTable.Grid]⟩

example : checkForExperimental exRefs "CO2".toList "NISTReferenceEntry".toList 350 true true =
    .ok (some ⟨"CO2".toList, 350, -7 / 2, [.co2 3 350 (-8)]⟩) :=
  ((C97_experimental exRefs exRefs_shipped "CO2".toList "NISTReferenceEntry".toList .nist (Or.inr (by decide)) 350 true true).2 _).mpr
    ⟨[(300, -4), (400, -3)], -7 / 2, by decide +kernel, by decide, by decide +kernel, by decide +kernel, by decide +kernel, by decide +kernel⟩

example : (⟨"CO2".toList, 350, -7 / 2, [.co2 3 350 (-8)]⟩ : Exper (List Char)).energy = -7 / 2 - 8617 / 10 ^ 8 * 350 * 8 := by decide +kernel

example : checkForExperimental exRefs "Al2O3".toList "Nist".toList 300 true true = .ok none := by decide +kernel
example : (checkForExperimental exRefs "Al2O3".toList "Nist".toList 300 false true).toOption.join.isSome := by decide +kernel
example : checkForExperimental exRefs "CO2".toList "freed".toList 500 false true = .ok none := by decide +kernel
example : checkForExperimental exRefs "CO2".toList "janaf".toList 300 false true = .error .valueError :=
  C97_class _ _ _ _ _ _ (by decide)

/-! ### C97: carbonates -/

/-- **C97, carbonates.** A correction is given exactly to GGA or GGA+U entries with nonzero amounts of carbon and oxygen in a ratio of
three (within numpy's tolerance); it is 0.83 eV per carbon atom. -/
theorem C97_carbonate (a : Amts (List Char)) (hd : (a.map Prod.fst).Nodup) (rt : Option (List Char)) (adj : Adj) :
    carbonateCorrection a rt = some adj ↔ ∃ c o, ("C".toList, c) ∈ a ∧ ("O".toList, o) ∈ a ∧ c ≠ 0 ∧ o ≠ 0 ∧
      (rt = some "GGA".toList ∨ rt = some "GGA+U".toList) ∧ |o / c - 3| ≤ 3001 / 100000000 ∧ adj = .carbonate c (83 / 100) := by
  have get : ∀ x : List Char, x ∈ a.map Prod.fst → ∃ v, (x, v) ∈ a ∧ dictGet a x = some v := by
    intro x hx
    obtain ⟨p, hp, rfl⟩ := List.mem_map.mp hx
    exact ⟨p.2, hp, Dict.dictGet_eq_some_of_mem a hd _ _ hp⟩
  have tol : ∀ x : ℚ, isClose3 x = true ↔ |x - 3| ≤ 3001 / 100000000 := by
    intro x
    unfold isClose3
    rw [decide_eq_true_iff]
    norm_num
  constructor
  · intro h
    unfold carbonateCorrection at h
    split_ifs at h with h1 h2
    have h1' := h1
    obtain ⟨c, hc, gc⟩ := get _ h1'.1
    obtain ⟨o, ho, go⟩ := get _ h1'.2
    simp only [gc, go, Option.getD_some] at h
    split_ifs at h with h3 h4
    push Not at h3
    injection h with h
    exact ⟨c, o, hc, ho, h3.1, h3.2, h2, (tol _).mp (by simpa using h4), h.symm⟩
  · rintro ⟨c, o, hc, ho, hc0, ho0, hrt, hcl, rfl⟩
    unfold carbonateCorrection
    rw [if_neg (by rw [not_not]; exact ⟨List.mem_map.mpr ⟨_, hc, rfl⟩, List.mem_map.mpr ⟨_, ho, rfl⟩⟩), if_neg (by rw [not_not]; exact hrt)]
    simp only [Dict.dictGet_eq_some_of_mem a hd _ _ hc, Dict.dictGet_eq_some_of_mem a hd _ _ ho, Option.getD_some]
    rw [if_neg (by push Not; exact ⟨hc0, ho0⟩), if_neg (by rw [(tol _).mpr hcl]; simp)]

/-- **C97, whole numbers.** For fewer than 33000 carbon atoms the tolerance makes no difference: a correction is given exactly if there
are three oxygen atoms per carbon atom. -/
theorem C97_carbonate_exact (a : Amts (List Char)) (hd : (a.map Prod.fst).Nodup) (c o : ℕ) (hc : ("C".toList, (c : ℚ)) ∈ a)
    (ho : ("O".toList, (o : ℚ)) ∈ a) (h0 : 0 < c) (hlt : c < 33000) :
    carbonateCorrection a (some "GGA".toList) = if o = 3 * c then some (.carbonate c (83 / 100)) else none := by
  have uniq : ∀ x (v w : ℚ), (x, v) ∈ a → (x, w) ∈ a → v = w := by
    intro x v w hv hw
    have := Dict.dictGet_eq_some_of_mem a hd x v hv
    rw [Dict.dictGet_eq_some_of_mem a hd x w hw] at this
    injection this with this; exact this.symm
  have hcq : (0:ℚ) < c := by exact_mod_cast h0
  split_ifs with h
  · refine (C97_carbonate a hd _ _).mpr ⟨c, o, hc, ho, hcq.ne', ?_, Or.inl rfl, ?_, rfl⟩
    · rw [h]; push_cast; positivity
    · rw [h]; push_cast
      rw [mul_div_assoc, div_self hcq.ne']; norm_num
  · rw [Option.eq_none_iff_forall_not_mem]
    intro adj hadj
    obtain ⟨c', o', hc', ho', _, _, _, hcl, _⟩ := (C97_carbonate a hd _ _).mp hadj
    rw [← uniq _ _ _ hc hc', ← uniq _ _ _ ho ho'] at hcl
    have e : (o : ℚ) / c - 3 = ((o : ℤ) - 3 * (c : ℤ) : ℤ) / c := by push_cast; field_simp
    rw [e, abs_div, abs_of_pos hcq, div_le_iff₀ hcq] at hcl
    have hz : ((o : ℤ) - 3 * (c : ℤ) : ℤ) ≠ 0 := by intro hz; apply h; omega
    have h1 : (1:ℚ) ≤ |(((o : ℤ) - 3 * (c : ℤ) : ℤ) : ℚ)| := by
      rw [← Int.cast_abs]
      exact_mod_cast Int.one_le_abs hz
    have h2 : (c : ℚ) < 33000 := by exact_mod_cast hlt
    linarith

/-- **C97, proportional.** For `k` formula units the carbonate correction is given under the same conditions and is `k` times as large. -/
theorem C97_carbonate_scale (k : ℚ) (hk : k ≠ 0) (a : Amts (List Char)) (rt : Option (List Char)) :
    (carbonateCorrection (scale k a) rt).map Adj.value = (carbonateCorrection a rt).map fun x => k * x.value := by
  have hkeys : (scale k a).map Prod.fst = a.map Prod.fst := by simp [scale, Function.comp_def]
  have hget : ∀ x, dictGet (scale k a) x = (dictGet a x).map (k * ·) := by
    intro x
    induction a with
    | nil => rfl
    | cons p l ih =>
      have := ih (by simp [scale, Function.comp_def])
      simp only [scale, List.map_cons] at this ⊢
      rw [Dict.dictGet_cons, Dict.dictGet_cons, this]
      split_ifs <;> rfl
  unfold carbonateCorrection
  rw [hkeys]
  have hD : ∀ x, (dictGet (scale k a) x).getD 0 = k * (dictGet a x).getD 0 := by
    intro x; rw [hget]; cases dictGet a x <;> simp
  split_ifs with h1 h2
  · simp only [hD, mul_eq_zero, hk, false_or, mul_div_mul_left _ _ hk]
    split_ifs with h3 h4
    · rfl
    · rfl
    · simp only [Option.map_some, Adj.value]; congr 1; ring
  · rfl
  · rfl

/-- Two formula units of CaCO3. -/
def caco3 : Amts (List Char) := [("Ca".toList, 2), ("C".toList, 2), ("O".toList, 6)]

example : carbonateCorrection caco3 (some "GGA".toList) = some (.carbonate (2 : ℕ) (83 / 100)) :=
  C97_carbonate_exact caco3 (by decide) 2 6 (by decide +kernel) (by decide +kernel) (by norm_num) (by norm_num)
example : carbonateCorrection [("Ca".toList, 1), ("C".toList, 2), ("O".toList, 4)] (some "GGA".toList) = none :=
  C97_carbonate_exact _ (by decide) 2 4 (by decide +kernel) (by decide +kernel) (by norm_num) (by norm_num)
example : carbonateCorrection caco3 (some "R2SCAN".toList) = none := by decide +kernel
example : (carbonateCorrection (scale 5 caco3) (some "GGA+U".toList)).map Adj.value = some (83 / 10) := by
  rw [C97_carbonate_scale 5 (by norm_num)]; decide +kernel

example := C95_adjustment exEnv exFactor_ne 3 (by norm_num) exAmts 10 600
example : ∃ r, gibbsAdjustment exEnv exAmts 10 600 = .ok r ∧ ∃ rm : ℚ, reducedMass exMass exFactor exAmts = .ok rm := by
  obtain ⟨g, hg, _⟩ := ok_of (x := gibbsAdjustment exEnv exAmts 10 600) (fun _ => true) (by decide +kernel)
  obtain ⟨rm, _, h, -⟩ := C95_formula exEnv exAmts (by decide) 10 600 g hg
  exact ⟨g, hg, rm, h⟩
example := (C97_carbonate caco3 (by decide) (some "GGA".toList) (.carbonate 2 (83 / 100))).mp (by decide +kernel)

end Verif.Props.Gibbs
