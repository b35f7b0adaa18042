import Verif.Model.Balance
import Verif.Props.Reaction
import Verif.Lemmas.Combinations
import Mathlib.LinearAlgebra.Matrix.Rank

/-! Properties C10, C11, C12: automatic balancing (src/rxn_network/reactions/basic.py:366-421). -/

set_option linter.unusedSectionVars false

namespace Verif.Props.Balance
open Verif.Py Verif.Model Verif.Model.Reaction Verif.Spec.Reaction Verif.Lemmas.Dict Verif.Lemmas.Reaction
open Verif.Props.Reaction (A A2 B2 AB B1)

variable {κ ε : Type} [DecidableEq κ] [DecidableEq ε]

/-- Invariant of the search loop: whatever the linear algebra returned, a reported error count belongs to an accepted
candidate. -/
theorem loop_sound (ok : List ℚ → Bool) (errs : List ℚ → ℕ) (solve : List ℕ → List ℚ) (css : List (List ℕ))
    (acc : List ℚ × Option ℕ) (P : List ℚ → Prop) (hP : ∀ cs ∈ css, P (solve cs))
    (hacc : ∀ k, acc.2 = some k → ok acc.1 = true ∧ errs acc.1 = k ∧ P acc.1) :
    ∀ k, (balanceLoop ok errs solve css acc).2 = some k →
      ok (balanceLoop ok errs solve css acc).1 = true ∧ errs (balanceLoop ok errs solve css acc).1 = k ∧
        P (balanceLoop ok errs solve css acc).1 := by
  induction css generalizing acc with
  | nil => exact hacc
  | cons cs rest ih =>
    have hP' : ∀ cs ∈ rest, P (solve cs) := fun c hc => hP c (List.mem_cons_of_mem _ hc)
    have hPc := hP cs List.mem_cons_self
    intro k
    unfold balanceLoop
    by_cases h1 : ok (solve cs) = true
    · rw [if_pos h1]
      by_cases h2 : errs (solve cs) = 0
      · rw [if_pos h2]
        intro hk
        simp only [Option.some.injEq] at hk
        exact ⟨h1, by rw [h2, ← hk], hPc⟩
      · rw [if_neg h2]
        split_ifs with h3
        · apply ih _ hP'
          intro k hk
          simp only [Option.some.injEq] at hk
          exact ⟨h1, hk, hPc⟩
        · exact ih acc hP' hacc k
    · rw [if_neg h1]
      exact ih acc hP' hacc k

theorem conserves_net (X : Chem κ ε) (hX : X.Lawful) (comps : List κ) (coeffs : List ℚ)
    (h : conservesClose X comps coeffs = true) : ∀ e, |net X comps coeffs e| ≤ 1 / 100000000 := by
  intro e
  have hrow : rowSum X comps coeffs e = net X comps coeffs e := by
    unfold rowSum net
    congr 1
    apply List.map_congr_left
    intro p _
    ring
  unfold conservesClose at h
  rw [List.all_eq_true] at h
  by_cases he : e ∈ elements X comps
  · have := h e he
    rw [hrow] at this
    simpa [isclose] using this
  · rw [net_eq_zero_of_not_mem X hX comps coeffs e (fun c hc h2 => he ((mem_elements X comps e).mpr ⟨c, hc, h2⟩))]
    norm_num

theorem numErrors_zero (n m : ℕ) (coeffs : List ℚ) (hl : coeffs.length = n + m) (h : numErrors n m coeffs = 0) :
    (∀ x ∈ coeffs.take n, x ≤ -(1 / 1000000)) ∧ (∀ x ∈ coeffs.drop n, 1 / 1000000 ≤ x) := by
  unfold numErrors at h
  rw [List.length_eq_zero_iff, List.filter_eq_nil_iff] at h
  have hsplit : (List.replicate n (-1 : ℚ) ++ List.replicate m 1).zip coeffs
      = (List.replicate n (-1 : ℚ)).zip (coeffs.take n) ++ (List.replicate m (1 : ℚ)).zip (coeffs.drop n) := by
    conv_lhs => rw [← List.take_append_drop n coeffs]
    rw [List.zip_append]
    simp; omega
  rw [hsplit] at h
  have hz : ∀ (k : ℕ) (v : ℚ) (l : List ℚ), l.length = k → ∀ x ∈ l, (v, x) ∈ (List.replicate k v).zip l := by
    intro k v l
    induction l generalizing k with
    | nil => intro _ x hx; simp at hx
    | cons y l ih =>
      intro hk x hx
      obtain ⟨k, rfl⟩ : ∃ j, k = j + 1 := ⟨l.length, by simpa using hk.symm⟩
      rw [List.replicate_succ, List.zip_cons_cons]
      rcases List.mem_cons.mp hx with rfl | hx
      · exact List.mem_cons_self
      · exact List.mem_cons_of_mem _ (ih k (by simpa using hk) x hx)
  constructor
  · intro x hx
    have := h (-1, x) (List.mem_append_left _ (hz n (-1) _ (by simp; omega) x hx))
    have := not_lt.mp (fun hlt => this (decide_eq_true hlt))
    simp only [tol] at this
    linarith
  · intro x hx
    have := h (1, x) (List.mem_append_right _ (hz m 1 _ (by simp; omega) x hx))
    have := not_lt.mp (fun hlt => this (decide_eq_true hlt))
    simp only [tol] at this
    linarith

/-- Soundness of balancing for *every* behaviour of the linear-algebra backend (only the shape of its output is assumed):
a finite error count means that every element is conserved within `1e-8`, and an error count of zero means that all stated
reactants have coefficients at most `-1e-6` and all stated products at least `1e-6`. -/
theorem C10_sound (X : Chem κ ε) (hX : X.Lawful) (reacts prods : List κ) (rank : ℕ) (solve : List ℕ → List ℚ)
    (hshape : ∀ cs, (solve cs).length = reacts.length + prods.length) (k : ℕ)
    (h : (balanceCoeffs X reacts prods rank solve).2.1 = some k) :
    (∀ e, |net X (reacts ++ prods) (balanceCoeffs X reacts prods rank solve).1 e| ≤ 1 / 100000000) ∧
    (k = 0 → (∀ x ∈ (balanceCoeffs X reacts prods rank solve).1.take reacts.length, x ≤ -(1 / 1000000)) ∧
      (∀ x ∈ (balanceCoeffs X reacts prods rank solve).1.drop reacts.length, 1 / 1000000 ≤ x)) := by
  obtain ⟨h1, h2, h3⟩ := loop_sound (conservesClose X (reacts ++ prods)) (numErrors reacts.length prods.length) solve
    (constraintSets reacts.length (reacts ++ prods).length (numConstraints (reacts ++ prods).length rank))
    (List.replicate (reacts ++ prods).length 0, none) (fun l => l.length = reacts.length + prods.length)
    (fun cs _ => hshape cs) (by intro k hk; simp at hk) k h
  refine ⟨conserves_net X hX _ _ h1, ?_⟩
  rintro rfl
  exact numErrors_zero _ _ _ h3 h2

/-- Consequently a reaction returned by `balance()` with zero errors has exactly the stated reactants and products on its two
sides. -/
theorem C10_sides (X : Chem κ ε) (hX : X.Lawful) (reacts prods : List κ) (rank : ℕ) (solve : List ℕ → List ℚ)
    (data : List (String × ℚ)) (hshape : ∀ cs, (solve cs).length = reacts.length + prods.length)
    (hn : (reacts ++ prods).Nodup) (h : (balanceBasic X reacts prods rank solve data).lne = some 0) :
    reactants (balanceBasic X reacts prods rank solve data) = reacts ∧
      products (balanceBasic X reacts prods rank solve data) = prods ∧
      (balanceBasic X reacts prods rank solve data).balanced = true ∧
      ∀ e, |net X (reacts ++ prods) (balanceBasic X reacts prods rank solve data).coeffs e| ≤ 1 / 100000000 := by
  cases hk : (balanceCoeffs X reacts prods rank solve).2.1 with
  | none => simp [balanceBasic, hk, init] at h
  | some k =>
    have h0 : k = 0 := by simpa [balanceBasic, hk, init] using h
    subst h0
    obtain ⟨hc, hs⟩ := C10_sound X hX reacts prods rank solve hshape 0 hk
    obtain ⟨hneg, hpos⟩ := hs rfl
    have hlen : (balanceCoeffs X reacts prods rank solve).1.length = reacts.length + prods.length :=
      (loop_sound (conservesClose X (reacts ++ prods)) (numErrors reacts.length prods.length) solve
        (constraintSets reacts.length (reacts ++ prods).length (numConstraints (reacts ++ prods).length rank))
        (List.replicate (reacts ++ prods).length 0, none) (fun l => l.length = reacts.length + prods.length)
        (fun cs _ => hshape cs) (by intro k hk; simp at hk) 0 hk).2.2
    set cf := (balanceCoeffs X reacts prods rank solve).1 with hcf
    have hr : balanceBasic X reacts prods rank solve data
        = init X (reacts ++ prods) cf (some true) (dictSet data "num_constraints" ((balanceCoeffs X reacts prods rank solve).2.2 : ℚ)) (some 0) := by
      simp [balanceBasic, hk, hcf]
    rw [hr]
    have hsd := sidesNodup_of_nodup (reacts ++ prods) cf hn
    have hzip : (reacts ++ prods).zip cf = reacts.zip (cf.take reacts.length) ++ prods.zip (cf.drop reacts.length) := by
      conv_lhs => rw [← List.take_append_drop reacts.length cf]
      rw [List.zip_append]
      simp; omega
    have fneg : ∀ p ∈ reacts.zip (cf.take reacts.length), p.2 < 0 := by
      intro p hp
      have := hneg p.2 (List.of_mem_zip (a := p.1) (b := p.2) hp).2
      linarith
    have fpos : ∀ p ∈ prods.zip (cf.drop reacts.length), 0 < p.2 := by
      intro p hp
      have := hpos p.2 (List.of_mem_zip (a := p.1) (b := p.2) hp).2
      linarith
    refine ⟨?_, ?_, rfl, hc⟩
    · simp only [reactants, init]
      rw [reactantCoeffs_eq _ _ hsd, neg, hzip, List.filter_append,
        List.filter_eq_self.mpr (by intro p hp; simpa using fneg p hp),
        List.filter_eq_nil_iff.mpr (by intro p hp; simpa using (fpos p hp).le), List.append_nil,
        List.map_fst_zip (by simp; omega)]
    · simp only [products, init]
      rw [productCoeffs_eq _ _ hsd, pos, hzip, List.filter_append,
        List.filter_eq_nil_iff.mpr (by intro p hp; simpa using (fneg p hp).le), List.nil_append,
        List.filter_eq_self.mpr (by intro p hp; exact decide_eq_true (fpos p hp)),
        List.map_fst_zip (by simp; omega)]

/-- pseudo-inverse answers for `A + B2 -> AB` (exact: `-1, -1/2, 1` for the product constraint) -/
def exSolve (cs : List ℕ) : List ℚ := if cs = [2] then [-1, -1/2, 1] else if cs = [0] then [-1, -1/2, 1] else [-2, -1, 2]

example : (balanceCoeffs toy [A, B2] [AB] 2 exSolve).2.1 = some 0 := by decide +kernel
example : (balanceCoeffs toy [A, B2] [AB] 2 exSolve).1 = [-1, -1/2, 1] := by decide +kernel
example : [A, B2, AB].Nodup := by decide +kernel

/-! ### Completeness -/

/-- The element-by-phase matrix whose rank is taken at src/rxn_network/reactions/basic.py:376-378. -/
def compMatrix (X : Chem κ ε) (comps : List κ) : Matrix (Fin (elements X comps).length) (Fin comps.length) ℚ :=
  Matrix.of fun i j => X.amt comps[j] (elements X comps)[i]

/-- What exact linear algebra provides: a solution of the constrained system whenever there is one. -/
def SolvesConsistent (X : Chem κ ε) (reacts prods : List κ) (solve : List ℕ → List ℚ) : Prop :=
  ∀ cs, (∃ x : List ℚ, x.length = (reacts ++ prods).length ∧ Conserved X (reacts ++ prods) x ∧
      ∀ k ∈ cs, x[k]? = some (if ∀ j ∈ cs, reacts.length ≤ j then 1 else -1)) →
    (solve cs).length = (reacts ++ prods).length ∧ Conserved X (reacts ++ prods) (solve cs) ∧
      ∀ k ∈ cs, (solve cs)[k]? = some (if ∀ j ∈ cs, reacts.length ≤ j then 1 else -1)

theorem net_ofFn (X : Chem κ ε) (comps : List κ) (w : Fin comps.length → ℚ) (e : ε) :
    net X comps (List.ofFn w) e = ∑ j, w j * X.amt comps[j] e := by
  unfold net
  induction comps with
  | nil => simp
  | cons c comps ih =>
    rw [List.ofFn_succ, List.zip_cons_cons, List.map_cons, List.sum_cons]
    refine Eq.trans ?_ (Fin.sum_univ_succ (n := comps.length) (fun j : Fin (comps.length + 1) => w j * X.amt (c :: comps)[j] e)).symm
    have := ih (fun i => w i.succ)
    simp only [this]
    rfl

theorem rank_ge (X : Chem κ ε) (hX : X.Lawful) (comps : List κ) (v : List ℚ)
    (huniq : ∀ x : List ℚ, x.length = comps.length → Conserved X comps x → ∃ t : ℚ, x = v.map fun c => c * t) :
    comps.length ≤ (compMatrix X comps).rank + 1 := by
  have h1 := LinearMap.finrank_range_add_finrank_ker (compMatrix X comps).mulVecLin
  have h2 : Module.finrank ℚ (Fin comps.length → ℚ) = comps.length := by simp
  rw [h2] at h1
  have h3 : (compMatrix X comps).rank = Module.finrank ℚ (LinearMap.range (compMatrix X comps).mulVecLin) := rfl
  have h4 : Module.finrank ℚ (LinearMap.ker (compMatrix X comps).mulVecLin) ≤ 1 := by
    let v' : Fin comps.length → ℚ := fun j => v.getD j 0
    have hle : LinearMap.ker (compMatrix X comps).mulVecLin ≤ Submodule.span ℚ {v'} := by
      intro w hw
      have hw : (compMatrix X comps).mulVec w = 0 := hw
      have hcons : Conserved X comps (List.ofFn w) := by
        intro e
        by_cases he : e ∈ elements X comps
        · obtain ⟨i, hi, rfl⟩ := List.getElem_of_mem he
          rw [net_ofFn]
          have := congrFun hw ⟨i, hi⟩
          simp only [Matrix.mulVec, dotProduct, compMatrix, Matrix.of_apply, Pi.zero_apply] at this
          rw [← this]
          apply Finset.sum_congr rfl
          intro j _
          ring_nf
          rfl
        · exact net_eq_zero_of_not_mem X hX comps _ e (fun c hc h2 => he ((mem_elements X comps e).mpr ⟨c, hc, h2⟩))
      obtain ⟨t, ht⟩ := huniq _ (by simp) hcons
      rw [Submodule.mem_span_singleton]
      refine ⟨t, ?_⟩
      funext j
      have hlen : v.length = comps.length := by
        have := congrArg List.length ht
        simpa using this.symm
      have hj : (List.ofFn w)[(j : ℕ)]? = some (w j) := by simp
      rw [ht] at hj
      simp only [List.getElem?_map] at hj
      cases hv : v[(j : ℕ)]? with
      | none => rw [hv] at hj; simp at hj
      | some y =>
        rw [hv] at hj
        simp only [Option.map_some, Option.some.injEq] at hj
        simp [v', List.getD, hv, ← hj, mul_comm]
    calc _ ≤ Module.finrank ℚ (Submodule.span ℚ {v'}) := Submodule.finrank_mono hle
      _ ≤ 1 := by simpa using finrank_span_le_card ({v'} : Set (Fin comps.length → ℚ))
  omega

theorem loop_complete (ok : List ℚ → Bool) (errs : List ℚ → ℕ) (solve : List ℕ → List ℚ) (css : List (List ℕ))
    (acc : List ℚ × Option ℕ) (hok : ∀ cs ∈ css, ok (solve cs) = true) (hz : ∃ cs ∈ css, errs (solve cs) = 0) :
    ∃ cs ∈ css, balanceLoop ok errs solve css acc = (solve cs, some 0) := by
  induction css generalizing acc with
  | nil => simp at hz
  | cons cs rest ih =>
    unfold balanceLoop
    rw [if_pos (hok cs List.mem_cons_self)]
    by_cases h2 : errs (solve cs) = 0
    · exact ⟨cs, List.mem_cons_self, by rw [if_pos h2]⟩
    · rw [if_neg h2]
      have hz' : ∃ cs ∈ rest, errs (solve cs) = 0 := by
        obtain ⟨c, hc, he⟩ := hz
        rcases List.mem_cons.mp hc with rfl | hc
        · exact absurd he h2
        · exact ⟨c, hc, he⟩
      have hok' : ∀ cs ∈ rest, ok (solve cs) = true := fun c hc => hok c (List.mem_cons_of_mem _ hc)
      split_ifs with h3
      · obtain ⟨c, hc, he⟩ := ih (solve cs, some (errs (solve cs))) hok' hz'
        exact ⟨c, List.mem_cons_of_mem _ hc, he⟩
      · obtain ⟨c, hc, he⟩ := ih acc hok' hz'
        exact ⟨c, List.mem_cons_of_mem _ hc, he⟩

theorem mem_constraintSets_one (n N : ℕ) (h : n ≤ N) (cs : List ℕ) :
    cs ∈ constraintSets n N 1 ↔ ∃ k < N, cs = [k] := by
  unfold constraintSets
  simp only [List.range_one, List.map_cons, List.map_nil, List.flatten_cons, List.flatten_nil, List.append_nil, Nat.sub_zero,
    List.mem_append, Verif.Lemmas.combinations_one, List.mem_map, List.mem_range]
  constructor
  · rintro (⟨k, hk, rfl⟩ | ⟨k, hk, rfl⟩)
    · exact ⟨k, by simpa using List.mem_of_mem_drop hk, rfl⟩
    · exact ⟨k, by omega, rfl⟩
  · rintro ⟨k, hk, rfl⟩
    by_cases h1 : k < n
    · exact Or.inr ⟨k, h1, rfl⟩
    · refine Or.inl ⟨k, ?_, rfl⟩
      rw [List.mem_drop_iff_getElem]
      exact ⟨k - n, by simp; omega, by simp; omega⟩

theorem conservesClose_of_conserved (X : Chem κ ε) (comps : List κ) (x : List ℚ) (h : Conserved X comps x) :
    conservesClose X comps x = true := by
  unfold conservesClose
  rw [List.all_eq_true]
  intro e _
  have : rowSum X comps x e = 0 := by
    rw [← h e]
    unfold rowSum net
    congr 1
    apply List.map_congr_left
    intro p _
    ring
  rw [this]
  decide +kernel

theorem numErrors_eq_zero (n m : ℕ) (coeffs : List ℚ) (hl : coeffs.length = n + m)
    (h1 : ∀ i, (hi : i < coeffs.length) → i < n → coeffs[i] ≤ -(1 / 1000000))
    (h2 : ∀ i, (hi : i < coeffs.length) → n ≤ i → 1 / 1000000 ≤ coeffs[i]) : numErrors n m coeffs = 0 := by
  unfold numErrors
  rw [List.length_eq_zero_iff, List.filter_eq_nil_iff]
  intro p hp
  obtain ⟨i, hi, rfl⟩ := List.getElem_of_mem hp
  have hi' : i < coeffs.length := by simp at hi; omega
  simp only [List.getElem_zip]
  intro h
  have h := of_decide_eq_true h
  simp only [tol] at h
  by_cases hn : i < n
  · rw [List.getElem_append_left (by simpa using hn)] at h
    simp only [List.getElem_replicate] at h
    have := h1 i hi' hn
    linarith
  · rw [List.getElem_append_right (by simpa using hn)] at h
    simp only [List.getElem_replicate] at h
    have := h2 i hi' (by omega)
    linarith

/-- Completeness: if the stated phases admit a balanced reaction `v` with the stated signs, unique up to scaling, then exact
linear algebra makes `balance()` return a positive multiple of `v` with zero errors. -/
theorem C11_complete (X : Chem κ ε) (hX : X.Lawful) (reacts prods : List κ) (solve : List ℕ → List ℚ)
    (hsolve : SolvesConsistent X reacts prods solve) (v : List ℚ) (hne : reacts ++ prods ≠ [])
    (hlen : v.length = reacts.length + prods.length) (hcons : Conserved X (reacts ++ prods) v)
    (hneg : ∀ x ∈ v.take reacts.length, x < 0) (hpos : ∀ x ∈ v.drop reacts.length, 0 < x)
    (huniq : ∀ x : List ℚ, x.length = reacts.length + prods.length → Conserved X (reacts ++ prods) x →
      ∃ t : ℚ, x = v.map fun c => c * t) :
    ∃ s : ℚ, 0 < s ∧
      (balanceCoeffs X reacts prods (compMatrix X (reacts ++ prods)).rank solve).1 = v.map (fun c => c * s) ∧
      (balanceCoeffs X reacts prods (compMatrix X (reacts ++ prods)).rank solve).2.1 = some 0 := by
  have hl2 : (reacts ++ prods).length = reacts.length + prods.length := List.length_append
  have hnc : numConstraints (reacts ++ prods).length (compMatrix X (reacts ++ prods)).rank = 1 := by
    have := rank_ge X hX (reacts ++ prods) v (by rw [hl2]; exact huniq)
    unfold numConstraints
    rw [if_neg (by omega)]
  have vneg : ∀ i, (hi : i < v.length) → i < reacts.length → v[i] < 0 := by
    intro i hi h
    apply hneg
    rw [List.mem_take_iff_getElem]
    exact ⟨i, by omega, rfl⟩
  have vpos : ∀ i, (hi : i < v.length) → reacts.length ≤ i → 0 < v[i] := by
    intro i hi h
    apply hpos
    rw [List.mem_drop_iff_getElem]
    exact ⟨i - reacts.length, by omega, by congr 1; omega⟩
  have vabs : ∀ i, (hi : i < v.length) → 0 < |v[i]| := by
    intro i hi
    by_cases h : i < reacts.length
    · exact abs_pos.mpr (vneg i hi h).ne
    · exact abs_pos.mpr (vpos i hi (by omega)).ne'
  -- the candidate for a single constraint `k`
  have key : ∀ k, (hk : k < v.length) → solve [k] = v.map fun c => c * (1 / |v[k]|) := by
    intro k hk
    have hval : ∀ s : ℚ, 0 < s → v[k] * s = (if ∀ j ∈ [k], reacts.length ≤ j then (1 : ℚ) else -1) → s = 1 / |v[k]| := by
      intro s hs h
      simp only [List.mem_singleton, forall_eq] at h
      rw [eq_div_iff (vabs k hk).ne']
      by_cases hr : reacts.length ≤ k
      · rw [if_pos hr] at h
        rw [abs_of_pos (vpos k hk hr)]; linarith
      · rw [if_neg hr] at h
        rw [abs_of_neg (vneg k hk (by omega))]; linarith
    have hmul : v[k] * (1 / |v[k]|) = (if ∀ j ∈ [k], reacts.length ≤ j then (1 : ℚ) else -1) := by
      simp only [List.mem_singleton, forall_eq]
      by_cases hr : reacts.length ≤ k
      · rw [if_pos hr, abs_of_pos (vpos k hk hr)]
        field_simp [(vpos k hk hr).ne']
      · rw [if_neg hr, abs_of_neg (vneg k hk (by omega))]
        have := (vneg k hk (by omega)).ne
        field_simp
    obtain ⟨g1, g2, g3⟩ := hsolve [k] ⟨v.map fun c => c * (1 / |v[k]|), by simp [hlen], by
      intro e; rw [net_scale, hcons e]; ring, by
      intro j hj
      rw [List.mem_singleton] at hj
      subst hj
      rw [List.getElem?_map, List.getElem?_eq_getElem hk, Option.map_some, hmul]⟩
    obtain ⟨t, ht⟩ := huniq _ (by rw [g1, hl2]) g2
    have h3 := g3 k (by simp)
    rw [ht, List.getElem?_map, List.getElem?_eq_getElem hk, Option.map_some, Option.some.injEq] at h3
    have htt : t = 1 / |v[k]| := by
      have h5 : v[k] * t = v[k] * (1 / |v[k]|) := by rw [h3, hmul]
      exact mul_left_cancel₀ (abs_pos.mp (vabs k hk)) h5
    rw [ht, htt]
  have hok : ∀ cs ∈ constraintSets reacts.length (reacts ++ prods).length 1,
      conservesClose X (reacts ++ prods) (solve cs) = true := by
    intro cs hcs
    obtain ⟨k, hk, rfl⟩ := (mem_constraintSets_one _ _ (by omega) cs).mp hcs
    apply conservesClose_of_conserved
    intro e
    rw [key k (by omega), net_scale, hcons e]; ring
  have hz : ∃ cs ∈ constraintSets reacts.length (reacts ++ prods).length 1,
      numErrors reacts.length prods.length (solve cs) = 0 := by
    have hvne : 0 < v.length := by
      rw [hlen, ← hl2]; exact List.length_pos_iff.mpr hne
    obtain ⟨k, hk, hmin⟩ : ∃ k, ∃ hk : k < v.length, ∀ j, (hj : j < v.length) → |v[k]| ≤ |v[j]| := by
      obtain ⟨k, _, hk⟩ := Finset.exists_min_image (Finset.univ : Finset (Fin v.length)) (fun i => |v[i]|)
        ⟨⟨0, hvne⟩, Finset.mem_univ _⟩
      exact ⟨k, k.2, fun j hj => hk ⟨j, hj⟩ (Finset.mem_univ _)⟩
    refine ⟨[k], (mem_constraintSets_one _ _ (by omega) _).mpr ⟨k, by omega, rfl⟩, ?_⟩
    rw [key k hk]
    have hge : ∀ j, (hj : j < v.length) → 1 ≤ |v[j]| * (1 / |v[k]|) := by
      intro j hj
      rw [mul_one_div, le_div_iff₀ (vabs k hk), one_mul]
      exact hmin j hj
    apply numErrors_eq_zero
    · simp [hlen]
    · intro i hi hr
      rw [List.length_map] at hi
      rw [List.getElem_map]
      have := hge i hi
      rw [abs_of_neg (vneg i hi hr)] at this
      linarith
    · intro i hi hr
      rw [List.length_map] at hi
      rw [List.getElem_map]
      have := hge i hi
      rw [abs_of_pos (vpos i hi hr)] at this
      linarith
  obtain ⟨cs, hcs, he⟩ := loop_complete _ _ solve _ (List.replicate (reacts ++ prods).length 0, none) hok hz
  obtain ⟨k, hk, rfl⟩ := (mem_constraintSets_one _ _ (by omega) cs).mp hcs
  have hk' : k < v.length := by omega
  refine ⟨1 / |v[k]|, one_div_pos.mpr (vabs k hk'), ?_, ?_⟩
  · unfold balanceCoeffs
    simp only [hnc, he]
    exact key k hk'
  · unfold balanceCoeffs
    simp only [hnc, he]

/-- The hypotheses of `C11_complete` on the backend can be met for any phases. -/
example (X : Chem κ ε) (reacts prods : List κ) : ∃ solve, SolvesConsistent X reacts prods solve := by
  classical
  refine ⟨fun cs => if h : ∃ x : List ℚ, x.length = (reacts ++ prods).length ∧ Conserved X (reacts ++ prods) x ∧
      ∀ k ∈ cs, x[k]? = some (if ∀ j ∈ cs, reacts.length ≤ j then 1 else -1) then h.choose else [], ?_⟩
  intro cs h
  simp only [dif_pos h]
  exact h.choose_spec

/-- `2 A + B2 -> 2 AB` is balanceable and unique up to scaling. -/
example : Conserved toy ([A, B2] ++ [AB]) [-2, -1, 2] := by intro e; revert e; decide +kernel

example (x : List ℚ) (hx : x.length = 2 + 1) (hc : Conserved toy ([A, B2] ++ [AB]) x) :
    ∃ t : ℚ, x = [-2, -1, 2].map fun c => c * t := by
  match x, hx with
  | [a, b, c], _ =>
    have h0 := hc 0
    have h1 := hc 1
    simp [net, toy, A, B2, AB] at h0 h1
    refine ⟨c / 2, ?_⟩
    simp only [List.map_cons, List.map_nil, List.cons.injEq, and_true]
    refine ⟨?_, ?_, ?_⟩ <;> linarith

/-! ### Failed balancing -/

theorem filter_zero_neg (comps : List κ) (n : ℕ) : ((comps.zip (List.replicate n (0 : ℚ))).filter fun p => p.2 < 0) = [] := by
  rw [List.filter_eq_nil_iff]
  intro p hp
  have := (List.of_mem_zip (a := p.1) (b := p.2) hp).2
  rw [List.eq_of_mem_replicate this]
  decide

theorem filter_zero_pos (comps : List κ) (n : ℕ) : ((comps.zip (List.replicate n (0 : ℚ))).filter fun p => 0 < p.2) = [] := by
  rw [List.filter_eq_nil_iff]
  intro p hp
  have := (List.of_mem_zip (a := p.1) (b := p.2) hp).2
  rw [List.eq_of_mem_replicate this]
  decide

theorem isBalanced_zero (X : Chem κ ε) (comps : List κ) (n : ℕ) : isBalanced X comps (List.replicate n 0) = true := by
  unfold isBalanced productCoeffs reactantCoeffs
  rw [filter_zero_neg, filter_zero_pos, List.all_eq_true]
  intro e _
  simp [dictOf, sideAmt, tol]

theorem loop_none (ok : List ℚ → Bool) (errs : List ℚ → ℕ) (solve : List ℕ → List ℚ) (css : List (List ℕ)) (x : List ℚ)
    (h : (balanceLoop ok errs solve css (x, none)).2 = none) :
    (balanceLoop ok errs solve css (x, none)).1 = x ∧ ∀ cs ∈ css, ok (solve cs) = false := by
  have hsome : ∀ (css : List (List ℕ)) (y : List ℚ) (k : ℕ), (balanceLoop ok errs solve css (y, some k)).2 ≠ none := by
    intro css
    induction css with
    | nil => intro y k; simp [balanceLoop]
    | cons cs rest ih =>
      intro y k
      unfold balanceLoop
      split_ifs <;> first | exact ih _ _ | simp
  induction css with
  | nil => exact ⟨rfl, by simp⟩
  | cons cs rest ih =>
    unfold balanceLoop at h ⊢
    by_cases h1 : ok (solve cs) = true
    · rw [if_pos h1] at h
      by_cases h2 : errs (solve cs) = 0
      · rw [if_pos h2] at h; simp at h
      · rw [if_neg h2] at h
        simp only [if_true] at h
        exact absurd h (hsome _ _ _)
    · rw [if_neg h1] at h ⊢
      obtain ⟨e1, e2⟩ := ih h
      refine ⟨e1, ?_⟩
      intro c hc
      rcases List.mem_cons.mp hc with rfl | hc
      · simpa using h1
      · exact e2 c hc

/-- `BasicReaction.balance` (but see below for computed reactions): the result is flagged balanced exactly when some
constraint set produced a candidate that conserves every element within tolerance. -/
theorem C12_basic_partial (X : Chem κ ε) (reacts prods : List κ) (rank : ℕ) (solve : List ℕ → List ℚ)
    (data : List (String × ℚ)) :
    ((balanceBasic X reacts prods rank solve data).balanced = false ↔
      (balanceBasic X reacts prods rank solve data).lne = none) ∧
    ((balanceBasic X reacts prods rank solve data).balanced = false →
      (∀ x ∈ (balanceBasic X reacts prods rank solve data).coeffs, x = 0) ∧
      ∀ k < reacts.length + prods.length, ¬ Conserved X (reacts ++ prods) (solve [k])) := by
  cases hk : (balanceCoeffs X reacts prods rank solve).2.1 with
  | some k => simp [balanceBasic, hk, init]
  | none =>
    refine ⟨by simp [balanceBasic, hk, init], fun _ => ⟨?_, ?_⟩⟩
    · simp only [balanceBasic, hk, init]
      intro x hx
      exact List.eq_of_mem_replicate hx
    · intro k hkl hc
      obtain ⟨_, h2⟩ := loop_none _ _ _ _ _ hk
      have hmem : [k] ∈ constraintSets reacts.length (reacts ++ prods).length (numConstraints (reacts ++ prods).length rank) := by
        have hone : ∀ l : List ℕ, k ∈ l → [k] ∈ combinations l 1 := by
          intro l hl
          rw [Verif.Lemmas.combinations_one]
          exact List.mem_map.mpr ⟨k, hl, rfl⟩
        have hnc : 1 ≤ numConstraints (reacts ++ prods).length rank := by unfold numConstraints; split_ifs <;> omega
        generalize numConstraints (reacts ++ prods).length rank = nc at hnc
        unfold constraintSets
        rw [List.mem_append, List.mem_flatten, List.mem_flatten]
        by_cases hr : k < reacts.length
        · right
          refine ⟨_, List.mem_map.mpr ⟨nc - 1, List.mem_range.mpr (by omega), rfl⟩, ?_⟩
          rw [show nc - (nc - 1) = 1 by omega]
          exact hone _ (List.mem_range.mpr hr)
        · left
          refine ⟨_, List.mem_map.mpr ⟨nc - 1, List.mem_range.mpr (by omega), rfl⟩, ?_⟩
          rw [show nc - (nc - 1) = 1 by omega]
          apply hone
          rw [List.mem_drop_iff_getElem]
          exact ⟨k - reacts.length, by simp; omega, by simp; omega⟩
      have := h2 _ hmem
      rw [conservesClose_of_conserved X _ _ hc] at this
      exact absurd this (by simp)

/-- With exact linear algebra a failed `BasicReaction.balance` means that the phases admit no balanced stoichiometry at all,
with whatever signs. -/
theorem C12_basic_exact_partial (X : Chem κ ε) (reacts prods : List κ) (rank : ℕ) (solve : List ℕ → List ℚ)
    (data : List (String × ℚ)) (hsolve : SolvesConsistent X reacts prods solve)
    (h : (balanceBasic X reacts prods rank solve data).balanced = false) (x : List ℚ)
    (hx : x.length = reacts.length + prods.length) (hc : Conserved X (reacts ++ prods) x) : ∀ y ∈ x, y = 0 := by
  intro y hy
  by_contra hne
  obtain ⟨k, hk, rfl⟩ := List.getElem_of_mem hy
  refine ((C12_basic_partial X reacts prods rank solve data).2 h).2 k (by omega) ?_
  refine (hsolve [k] ⟨x.map fun c => c * ((if ∀ j ∈ [k], reacts.length ≤ j then (1 : ℚ) else -1) / x[k]), ?_, ?_, ?_⟩).2.1
  · simp [hx]
  · intro e; rw [net_scale, hc e]; ring
  · intro j hj
    rw [List.mem_singleton] at hj
    subst hj
    rw [List.getElem?_map, List.getElem?_eq_getElem hk, Option.map_some, mul_div_cancel₀ _ hne]

/-- The statement is false for `ComputedReaction.balance`: *every* failed attempt is reported as balanced, because the
constructor re-tests the all-zero coefficients. -/
theorem C12_computed_counterexample (X : Chem κ ε) (reacts prods : List (Entry κ)) (rank : ℕ) (solve : List ℕ → List ℚ)
    (data : List (String × ℚ)) (h : (balanceComputed X reacts prods rank solve data).base.lne = none) :
    (balanceComputed X reacts prods rank solve data).base.balanced = true := by
  have h' : (balanceCoeffs X (reacts.map fun e => X.red e.comp) (prods.map fun e => X.red e.comp) rank solve).2.1 = none := h
  have := (loop_none _ _ _ _ _ h').1
  show isBalanced X _ (balanceCoeffs X (reacts.map fun e => X.red e.comp) (prods.map fun e => X.red e.comp) rank solve).1 = true
  rw [show (balanceCoeffs X (reacts.map fun e => X.red e.comp) (prods.map fun e => X.red e.comp) rank solve).1 = _ from this]
  exact isBalanced_zero X _ _

/-- What still gives a failed computed balancing away: it is an identity reaction (this is what the enumerators test,
src/rxn_network/enumerators/basic.py:592) and has no finite error count. -/
theorem C12_computed_identity_partial (X : Chem κ ε) (reacts prods : List (Entry κ)) (rank : ℕ) (solve : List ℕ → List ℚ)
    (data : List (String × ℚ)) (h : (balanceComputed X reacts prods rank solve data).base.lne = none) :
    isIdentity (balanceComputed X reacts prods rank solve data).base = some true := by
  have h' : (balanceCoeffs X (reacts.map fun e => X.red e.comp) (prods.map fun e => X.red e.comp) rank solve).2.1 = none := h
  have hz := (loop_none _ _ _ _ _ h').1
  have hb := C12_computed_counterexample X reacts prods rank solve data h
  have hc : (balanceComputed X reacts prods rank solve data).base.coeffs = List.replicate ((reacts.map fun e => X.red e.comp) ++ (prods.map fun e => X.red e.comp)).length 0 := hz
  unfold isIdentity reactants products reactantCoeffs productCoeffs
  rw [hc, filter_zero_neg, filter_zero_pos, hb]
  simp [dictOf]

/-- exact pseudo-inverse answers for `A -> B1`, which cannot be balanced: the least-squares compromise -/
def failSolve (cs : List ℕ) : List ℚ := if cs = [1] then [0, 1/2] else [-1/2, 0]

example : (balanceCoeffs toy [A] [B1] 2 failSolve).2.1 = none := by decide +kernel
example : (balanceBasic toy [A] [B1] 2 failSolve []).balanced = false := by decide +kernel
example : (balanceComputed toy [⟨A, -1⟩] [⟨B1, -2⟩] 2 failSolve []).base.balanced = true ∧
    (balanceComputed toy [⟨A, -1⟩] [⟨B1, -2⟩] 2 failSolve []).base.lne = none := by decide +kernel

theorem AB_unique (x : List ℚ) (hx : x.length = 2 + 1) (hc : Conserved toy ([A, B2] ++ [AB]) x) :
    ∃ t : ℚ, x = [-2, -1, 2].map fun c => c * t := by
  match x, hx with
  | [a, b, c], _ =>
    have h0 := hc 0
    have h1 := hc 1
    simp [net, toy, A, B2, AB] at h0 h1
    refine ⟨c / 2, ?_⟩
    simp only [List.map_cons, List.map_nil, List.cons.injEq, and_true]
    refine ⟨?_, ?_, ?_⟩ <;> linarith

theorem exists_solves (X : Chem κ ε) (reacts prods : List κ) : ∃ solve : List ℕ → List ℚ, SolvesConsistent X reacts prods solve := by
  classical
  refine ⟨fun cs => if h : ∃ x : List ℚ, x.length = (reacts ++ prods).length ∧ Conserved X (reacts ++ prods) x ∧
      ∀ k ∈ cs, x[k]? = some (if ∀ j ∈ cs, reacts.length ≤ j then 1 else -1) then h.choose else [], ?_⟩
  intro cs h
  simp only [dif_pos h]
  exact h.choose_spec

example := C10_sound toy toy_lawful [A, B2] [AB] 2 exSolve (fun cs => by unfold exSolve; split_ifs <;> rfl) 0 (by decide +kernel)
example := C10_sides toy toy_lawful [A, B2] [AB] 2 exSolve [] (fun cs => by unfold exSolve; split_ifs <;> rfl) (by decide +kernel)
  (by decide +kernel)
example : ∃ solve : List ℕ → List ℚ, ∃ s : ℚ, 0 < s ∧
    (balanceCoeffs toy [A, B2] [AB] (compMatrix toy ([A, B2] ++ [AB])).rank solve).1 = [-2, -1, 2].map (fun c => c * s) := by
  obtain ⟨solve, h⟩ := exists_solves toy [A, B2] [AB]
  obtain ⟨s, hs, he, -⟩ := C11_complete toy toy_lawful [A, B2] [AB] solve h [-2, -1, 2] (by simp) rfl
    (by intro e; revert e; decide +kernel) (by decide +kernel) (by decide +kernel) AB_unique
  exact ⟨solve, s, hs, he⟩
example := (C12_basic_partial toy [A] [B1] 2 failSolve []).2 (by decide +kernel)
example := C12_computed_identity_partial toy [⟨A, -1⟩] [⟨B1, -2⟩] 2 failSolve [] (by decide +kernel)

-- the exact solver for the equation A → B: no assignment of a nonzero coefficient balances it
example (x : List ℚ) (hx : x.length = 2) (hc : Conserved toy ([A] ++ [B1]) x) : ∀ y ∈ x, y = 0 := by
  refine C12_basic_exact_partial toy [A] [B1] 2 (fun cs => if cs = [] then [0, 0] else failSolve cs) [] (fun cs ⟨v, hv, hvc, hk⟩ => ?_) (by decide +kernel) x hx hc
  match v, hv with
  | [a, b], _ =>
    have h0 := hvc 0
    have h1 := hvc 1
    simp [net, toy, A, B1] at h0 h1
    subst h0 h1
    cases cs with
    | nil => exact ⟨by decide, by intro e; revert e; decide +kernel, by simp⟩
    | cons k cs =>
      have := hk k (List.mem_cons_self ..)
      match k with
      | 0 => simp at this
      | 1 => simp at this; split_ifs at this <;> norm_num at this
      | n + 2 => simp at this

end Verif.Props.Balance
