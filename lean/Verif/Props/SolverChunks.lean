import Verif.Props.Solver
import Mathlib.Data.List.Sort
import Mathlib.Data.List.Perm.Basic

/-! Property C130: the pathways found do not depend on how the work is split and scheduled. -/

set_option linter.unusedSectionVars false

namespace Verif.Props.SolverChunks
open Verif.Py Verif.Model.RxnSet Verif.Model.Pathway Verif.Model.Solver Verif.Lemmas.Exc Verif.Lemmas.Solver
  Verif.Props.Utils Verif.Props.Solver Verif.Lemmas

variable {η δ ε κ : Type} [DecidableEq κ]

/-! ### Specification -/

/-- Two solvers that differ at most in chunk size, batch size, number of CPUs and the order in which workers finish. -/
structure SameTask (c c' : Config η δ ε κ) : Prop where
  eq : c.eq = c'.eq
  idx : c.idx = c'.idx
  entries : c.entries = c'.entries
  data : c.data = c'.data
  mu : c.mu = c'.mu
  pinv : c.pinv = c'.pinv
  order : c.order = c'.order
  R : c.R = c'.R
  P : c.P = c'.P

/-- A solver that can run: a positive chunk size, and a batch size or a second CPU; workers finish in any order, each once. -/
structure Usable (c : Config η δ ε κ) : Prop where
  wait₁ : ∀ k, WaitSpec (c.wait₁ k)
  wait₂ : ∀ i, WaitSpec (c.wait₂ i)
  chunk : 0 < c.chunk
  batch : 2 ≤ c.cpus ∨ ∃ b, c.batch = some (b + 1)

/-- The average costs of pathways. -/
def costsOf {ρ : Type} (ps : List (Path ρ)) : List (Option ℚ) :=
  ps.map fun p => p.coefficients.bind fun m =>
    if m.length = p.costs.length ∧ m.sum ≠ 0 then some ((m.zipWith (· * ·) p.costs).sum / m.sum) else none

/-! ### Helper lemmas -/

/-- The value of a computation that may fail. -/
def opt {α β : Type} (f : α → Except Err β) (a : α) : Option β := match f a with
  | .ok b => some b
  | .error _ => none

theorem opt_ok {α β : Type} {f : α → Except Err β} {a : α} {b : β} : opt f a = some b ↔ f a = .ok b := by
  unfold opt; cases f a <;> simp

theorem mapM_opt {α β : Type} (f : α → Except Err β) (l : List α) (r : List β) (h : l.mapM f = .ok r) :
    r = l.filterMap (opt f) ∧ ∀ a ∈ l, ∃ b, f a = .ok b := by
  rw [mapM_ok] at h
  induction h with
  | nil => simp
  | cons h1 _ ih =>
    refine ⟨?_, ?_⟩
    · rw [List.filterMap_cons_some (opt_ok.mpr h1), ← ih.1]
    · rintro a ha
      rcases List.mem_cons.mp ha with rfl | ha
      · exact ⟨_, h1⟩
      · exact ih.2 a ha

theorem mapM_total {α β : Type} (f : α → Except Err β) (l : List α) (h : ∀ a ∈ l, ∃ b, f a = .ok b) : ∃ r, l.mapM f = .ok r := by
  cases hl : l.mapM f with
  | ok r => exact ⟨r, rfl⟩
  | error e =>
    obtain ⟨a, ha, he⟩ := mapM_error _ _ _ hl
    obtain ⟨b, hb⟩ := h a ha
    rw [hb] at he; cases he

theorem collect_perm {ι β : Type} (wait : ℕ → List ι → List ι × List ι) (hw : WaitSpec wait) (task : ι → Except Err β)
    (refs : List ι) (out : List β) (h : collect wait task refs = .ok out) :
    (∀ r ∈ refs, ∃ b, task r = .ok b) ∧ out.Perm (refs.filterMap (opt task)) := by
  obtain ⟨out', err, consumed, rest, h1, h2, h3, h4, _⟩ := C32_failure task wait hw refs 0
  unfold collect at h
  rw [h1] at h
  cases err with
  | some e => simp at h
  | none =>
    simp only [Except.ok.injEq] at h
    subst h
    rw [h4 rfl, List.append_nil] at h2
    have : ∀ (xs : List ι) (ys : List β), xs.map task = ys.map .ok → ys = xs.filterMap (opt task) ∧ ∀ r ∈ xs, ∃ b, task r = .ok b := by
      intro xs
      induction xs with
      | nil => intro ys h; cases ys with
        | nil => simp
        | cons _ _ => cases h
      | cons x xs ih => intro ys h; cases ys with
        | nil => cases h
        | cons y ys =>
          rw [List.map_cons, List.map_cons, List.cons.injEq] at h
          obtain ⟨i1, i2⟩ := ih ys h.2
          refine ⟨by rw [List.filterMap_cons_some (opt_ok.mpr h.1), ← i1], ?_⟩
          intro r hr
          rcases List.mem_cons.mp hr with rfl | hr
          · exact ⟨_, h.1⟩
          · exact i2 r hr
    obtain ⟨i1, i2⟩ := this _ _ h3
    exact ⟨fun r hr => i2 r (h2.mem_iff.mpr hr), i1 ▸ h2.filterMap _⟩

/-- All covering matrices of a list of combinations. -/
def matsOf (idx : η → ℕ) (n : ℕ) (rxns : List (SRxn η δ ε)) (net : List ℚ) (combos : List (List ℕ)) : List Mat :=
  (combos.filterMap (opt (matOf idx n rxns))).filter (covers net)

theorem createMats_ok (idx : η → ℕ) (n : ℕ) (rxns : List (SRxn η δ ε)) (net : List ℚ) (group : List (Option (List ℕ)))
    (out : List Mat) (h : createMats idx n rxns net group = .ok out) :
    out = matsOf idx n rxns net (group.filterMap id) ∧ ∀ combo, some combo ∈ group → ∃ m, matOf idx n rxns combo = .ok m := by
  unfold createMats at h
  split at h
  · simp at h
  · simp at h
  · rename_i m ms hm
    obtain ⟨h1, h2⟩ := mapM_opt _ _ _ hm
    rw [Except.ok.injEq] at h
    refine ⟨?_, fun combo hc => h2 combo (List.mem_filterMap.mpr ⟨_, hc, rfl⟩)⟩
    rw [← h]; unfold matsOf; rw [← h1]

theorem matsOf_append (idx : η → ℕ) (n : ℕ) (rxns : List (SRxn η δ ε)) (net : List ℚ) (a b : List (List ℕ)) :
    matsOf idx n rxns net (a ++ b) = matsOf idx n rxns net a ++ matsOf idx n rxns net b := by
  unfold matsOf; rw [List.filterMap_append, List.filter_append]

theorem matsOf_flatten (idx : η → ℕ) (n : ℕ) (rxns : List (SRxn η δ ε)) (net : List ℚ) (groups : List (List (Option (List ℕ))))
    (h : ∀ g ∈ groups, ∃ out, createMats idx n rxns net g = .ok out) :
    (groups.filterMap (opt (createMats idx n rxns net))).flatten = matsOf idx n rxns net (groups.flatten.filterMap id) := by
  induction groups with
  | nil => rfl
  | cons g gs ih =>
    obtain ⟨out, ho⟩ := h g List.mem_cons_self
    rw [List.filterMap_cons_some (opt_ok.mpr ho), List.flatten_cons, List.flatten_cons, List.filterMap_append, matsOf_append,
      ih fun g' hg' => h g' (List.mem_cons_of_mem _ hg'), (createMats_ok _ _ _ _ _ _ ho).1]

/-- When the matrices of one size can be made. -/
def StageOk (idx : η → ℕ) (n : ℕ) (rxns : List (SRxn η δ ε)) (k : ℕ) : Prop :=
  combinations (List.range rxns.length) k ≠ [] ∧ ∀ combo ∈ combinations (List.range rxns.length) k, ∃ m, matOf idx n rxns combo = .ok m

/-- The matrices of one size, in the order of the combinations. -/
def canon (idx : η → ℕ) (n : ℕ) (rxns : List (SRxn η δ ε)) (net : List ℚ) (k : ℕ) : List Mat :=
  matsOf idx n rxns net (combinations (List.range rxns.length) k)

abbrev Groups := List (List (Option (List ℕ)))

theorem grouper_combos (xs : List (List ℕ)) (n : ℕ) (hn : 0 < n) :
    ((Verif.Model.Utils.grouper (xs.map some) n none).flatten).filterMap id = xs ∧
    (Verif.Model.Utils.grouper (xs.map some) n none = [] ↔ xs = []) := by
  obtain ⟨m, _, h2, _, h4⟩ := C31_grouper (xs.map some) n hn none
  have hx : ((Verif.Model.Utils.grouper (xs.map some) n none).flatten).filterMap id = xs := by
    rw [h2, List.filterMap_append, List.filterMap_map]
    have : (List.replicate m (none : Option (List ℕ))).filterMap id = [] := by
      rw [List.filterMap_eq_nil_iff]; intro a ha; rw [(List.mem_replicate.mp ha).2]; rfl
    rw [this, List.append_nil]
    exact List.filterMap_some
  refine ⟨hx, fun h => ?_, fun h => h4 (by rw [h]; rfl)⟩
  rw [h] at hx; exact hx.symm

theorem stage_ok (wait : ℕ → Groups → Groups × Groups) (hw : WaitSpec wait) (idx : η → ℕ) (n : ℕ) (rxns : List (SRxn η δ ε)) (net : List ℚ)
    (chunk k : ℕ) (hc : 0 < chunk) (p : ℕ × List Mat) (h : stage wait idx n rxns net chunk k = .ok p) :
    StageOk idx n rxns k ∧ p.1 = k ∧ p.2.Perm (canon idx n rxns net k) := by
  obtain ⟨hg, hg'⟩ := grouper_combos (combinations (List.range rxns.length) k) chunk hc
  unfold stage at h
  split at h
  · cases h
  · rename_i groups hgr
    obtain ⟨h1, h2⟩ := collect_perm wait hw _ _ _ hgr
    rw [map_ok] at h
    obtain ⟨mats, hm, rfl⟩ := h
    cases groups with
    | nil => cases hm
    | cons g gs =>
      simp only [concat, Except.ok.injEq] at hm
      subst hm
      refine ⟨⟨?_, ?_⟩, rfl, ?_⟩
      · intro h0
        rw [hg'.mpr h0] at h2
        exact absurd h2.length_eq (by simp)
      · intro combo hc'
        obtain ⟨g', hg1, hg2⟩ := (grouper_mem (combinations (List.range rxns.length) k) chunk hc combo).mpr hc'
        obtain ⟨out, ho⟩ := h1 g' hg1
        exact (createMats_ok _ _ _ _ _ _ ho).2 combo hg2
      · have := h2.flatten
        rw [matsOf_flatten _ _ _ _ _ h1, hg] at this
        exact this

theorem stage_exists (wait : ℕ → Groups → Groups × Groups) (hw : WaitSpec wait) (idx : η → ℕ) (n : ℕ) (rxns : List (SRxn η δ ε))
    (net : List ℚ) (chunk k : ℕ) (hc : 0 < chunk) (h : StageOk idx n rxns k) : ∃ p, stage wait idx n rxns net chunk k = .ok p := by
  have htask : ∀ g ∈ Verif.Model.Utils.grouper ((combinations (List.range rxns.length) k).map some) chunk none,
      ∃ b, createMats idx n rxns net g = .ok b := by
    intro g hg
    apply createMats_total
    · exact grouper_head _ _ hc g hg
    · intro combo hcm
      exact h.2 combo ((grouper_mem _ chunk hc combo).mp ⟨g, hg, hcm⟩)
  obtain ⟨out, ho⟩ := collect_total wait hw _ _ htask
  unfold stage
  rw [ho]
  cases out with
  | nil =>
    exfalso
    obtain ⟨h1, h2⟩ := collect_perm wait hw _ _ _ ho
    obtain ⟨-, hg'⟩ := grouper_combos (combinations (List.range rxns.length) k) chunk hc
    cases hgr : Verif.Model.Utils.grouper ((combinations (List.range rxns.length) k).map some) chunk none with
    | nil => exact h.1 (hg'.mp hgr)
    | cons g gs =>
      obtain ⟨b, hb⟩ := htask g (by rw [hgr]; exact List.mem_cons_self)
      rw [hgr, List.filterMap_cons_some (opt_ok.mpr hb)] at h2
      exact absurd h2.length_eq (by simp)
  | cons g gs => exact ⟨_, rfl⟩

theorem anyNonzero_perm {a b : List Mat} (h : a.Perm b) : anyNonzero a = anyNonzero b := by
  unfold anyNonzero
  rw [Bool.eq_iff_iff, List.any_eq_true, List.any_eq_true]
  exact ⟨fun ⟨x, hx, hy⟩ => ⟨x, h.mem_iff.mp hx, hy⟩, fun ⟨x, hx, hy⟩ => ⟨x, h.mem_iff.mpr hx, hy⟩⟩

/-- The accepted solutions of a list of matrices. -/
def accOf (pinv : Mat → List ℚ → Except Err (List ℚ)) (net : List ℚ) (mats : List Mat) : List (Mat × List ℚ) :=
  (mats.filterMap (opt (balanceOne pinv (1 / 10 ^ 6) net))).filterMap id

theorem balance_ok (pinv : Mat → List ℚ → Except Err (List ℚ)) (net : List ℚ) (mats : List Mat) (out : List (Mat × List ℚ))
    (h : balance pinv net mats = .ok out) :
    out = accOf pinv net mats ∧ ∀ m ∈ mats, ∃ b, balanceOne pinv (1 / 10 ^ 6) net m = .ok b := by
  unfold balance at h
  rw [map_ok] at h
  obtain ⟨l, hl, rfl⟩ := h
  obtain ⟨h1, h2⟩ := mapM_opt _ _ _ hl
  exact ⟨by unfold accOf; rw [← h1], h2⟩

theorem balance_exists (pinv : Mat → List ℚ → Except Err (List ℚ)) (net : List ℚ) (mats : List Mat)
    (h : ∀ m ∈ mats, ∃ b, balanceOne pinv (1 / 10 ^ 6) net m = .ok b) : ∃ out, balance pinv net mats = .ok out := by
  obtain ⟨r, hr⟩ := mapM_total _ _ h
  unfold balance; rw [hr]; exact ⟨_, rfl⟩

theorem accOf_append (pinv : Mat → List ℚ → Except Err (List ℚ)) (net : List ℚ) (a b : List Mat) :
    accOf pinv net (a ++ b) = accOf pinv net a ++ accOf pinv net b := by
  unfold accOf; rw [List.filterMap_append, List.filterMap_append]

theorem accOf_flatten (pinv : Mat → List ℚ → Except Err (List ℚ)) (net : List ℚ) (jobs : List (List Mat))
    (h : ∀ g ∈ jobs, ∃ out, balance pinv net g = .ok out) :
    (jobs.filterMap (opt (balance pinv net))).flatten = accOf pinv net jobs.flatten := by
  induction jobs with
  | nil => rfl
  | cons g gs ih =>
    obtain ⟨out, ho⟩ := h g List.mem_cons_self
    rw [List.filterMap_cons_some (opt_ok.mpr ho), List.flatten_cons, List.flatten_cons, accOf_append,
      ih fun g' hg' => h g' (List.mem_cons_of_mem _ hg'), (balance_ok _ _ _ _ ho).1]

theorem accOf_perm (pinv : Mat → List ℚ → Except Err (List ℚ)) (net : List ℚ) {a b : List Mat} (h : a.Perm b) :
    (accOf pinv net a).Perm (accOf pinv net b) := (h.filterMap _).filterMap _

/-- Matrices of all sizes that are kept. -/
def allMats (c : Config η δ ε κ) (net : List ℚ) (maxCombos : ℕ) (rxns : List (SRxn η δ ε)) : List Mat :=
  (((List.range' 1 maxCombos).map fun k => canon c.idx c.entries.length rxns net k).filter anyNonzero).flatten

/-- When solutions are returned at all. -/
structure Runs (c : Config η δ ε κ) (net : List ℚ) (maxCombos : ℕ) (rxns : List (SRxn η δ ε)) : Prop where
  stages : ∀ k ∈ List.range' 1 maxCombos, StageOk c.idx c.entries.length rxns k
  some : allMats c net maxCombos rxns ≠ []
  solved : ∀ m ∈ allMats c net maxCombos rxns, ∃ b, balanceOne c.pinv (1 / 10 ^ 6) net m = .ok b

theorem batchSize_pos (c : Config η δ ε κ) (h : Usable c) : 0 < batchSize c := by
  unfold batchSize
  rcases h.batch with h | ⟨b, h⟩
  · split <;> omega
  · rw [h]; simp

theorem kept_perm (c : Config η δ ε κ) (hu : Usable c) (netV : List ℚ) (maxCombos : ℕ) (rxns : List (SRxn η δ ε))
    (stages : List (ℕ × List Mat))
    (h : (List.range' 1 maxCombos).mapM (fun k => stage (c.wait₁ k) c.idx c.entries.length rxns netV c.chunk k) = .ok stages) :
    (∀ k ∈ List.range' 1 maxCombos, StageOk c.idx c.entries.length rxns k) ∧
    (((stages.filter fun p => anyNonzero p.2).flatMap (jobsOf c.chunk)).flatten).Perm (allMats c netV maxCombos rxns) := by
  have hj : ∀ l : List (ℕ × List Mat), (l.flatMap (jobsOf c.chunk)).flatten = (l.map Prod.snd).flatten := by
    intro l
    induction l with
    | nil => rfl
    | cons a l ih => rw [List.flatMap_cons, List.flatten_append, jobsOf_flatten, ih, List.map_cons, List.flatten_cons]
  rw [hj]
  unfold allMats
  rw [mapM_ok] at h
  generalize List.range' 1 maxCombos = ks at h
  induction h with
  | nil => exact ⟨by simp, List.Perm.refl _⟩
  | @cons k p ks ps h1 _ ih =>
    obtain ⟨s1, -, s3⟩ := stage_ok _ (hu.wait₁ k) _ _ _ _ _ _ hu.chunk _ h1
    refine ⟨?_, ?_⟩
    · intro k' hk'
      rcases List.mem_cons.mp hk' with rfl | hk'
      · exact s1
      · exact ih.1 k' hk'
    · rw [List.filter_cons, List.map_cons, List.filter_cons, anyNonzero_perm s3]
      split_ifs
      · rw [List.map_cons, List.flatten_cons, List.flatten_cons]
        exact s3.append ih.2
      · exact ih.2

theorem run_batches (c : Config η δ ε κ) (hu : Usable c) (netV : List ℚ) (bs : List (List (List Mat))) : ∀ (i : ℕ) (results : List (List (List (Mat × List ℚ)))),
    (bs.zipIdx i).mapM (fun b => collect (c.wait₂ b.2) (balance c.pinv netV) b.1) = .ok results →
    (∀ g ∈ bs.flatten, ∃ out, balance c.pinv netV g = .ok out) ∧
      results.flatten.Perm (bs.flatten.filterMap (opt (balance c.pinv netV))) := by
  induction bs with
  | nil =>
    intro i results h
    cases h
    exact ⟨by simp, List.Perm.refl _⟩
  | cons b bs ih =>
    intro i results h
    rw [List.zipIdx_cons, List.mapM_cons, bind_ok] at h
    obtain ⟨r, hr, h⟩ := h
    rw [bind_ok] at h
    obtain ⟨rs, hrs, h⟩ := h
    cases h
    obtain ⟨h1, h2⟩ := collect_perm _ (hu.wait₂ i) _ _ _ hr
    obtain ⟨h3, h4⟩ := ih _ _ hrs
    refine ⟨?_, ?_⟩
    · intro g hg
      rw [List.flatten_cons, List.mem_append] at hg
      exact hg.elim (h1 g) (h3 g)
    · rw [List.flatten_cons, List.flatten_cons, List.filterMap_append]
      exact h2.append h4

theorem run_batches_exists (c : Config η δ ε κ) (hu : Usable c) (netV : List ℚ) (bs : List (List (List Mat)))
    (h : ∀ g ∈ bs.flatten, ∃ out, balance c.pinv netV g = .ok out) :
    ∃ results, bs.zipIdx.mapM (fun b => collect (c.wait₂ b.2) (balance c.pinv netV) b.1) = .ok results := by
  apply mapM_total
  rintro ⟨b, i⟩ hb
  apply collect_total _ (hu.wait₂ i)
  intro g hg
  exact h g (List.mem_flatten.mpr ⟨b, (zipIdx_mem bs b).mp ⟨i, hb⟩, hg⟩)

/-- The jobs are never empty lists. -/
theorem jobs_nonempty (chunk : ℕ) (l : List (ℕ × List Mat)) : ∀ g ∈ l.flatMap (jobsOf chunk), g ≠ [] := by
  intro g hg
  obtain ⟨p, -, hg⟩ := List.mem_flatMap.mp hg
  unfold jobsOf at hg
  have := (List.mem_filter.mp hg).2
  rintro rfl; simp at this

theorem solutions_ok (c : Config η δ ε κ) (hu : Usable c) (net : SRxn η δ ε) (maxCombos : ℕ) (rxns : List (SRxn η δ ε))
    (sols : List (Mat × List ℚ)) (h : solutions c net maxCombos rxns = .ok sols) :
    ∃ netV, idxVector c.idx c.entries.length net = .ok netV ∧ Runs c netV maxCombos rxns ∧
      sols.Perm (accOf c.pinv netV (allMats c netV maxCombos rxns)) := by
  unfold solutions at h
  split at h
  · cases h
  · rename_i netV hn
    split at h
    · cases h
    · rename_i stages hst
      obtain ⟨k1, k2⟩ := kept_perm c hu netV maxCombos rxns stages hst
      simp only at h
      split at h
      · cases h
      · split at h
        · cases h
        · rename_i results hr
          obtain ⟨r1, r2⟩ := run_batches c hu netV _ 0 results hr
          rw [batches_flatten, List.nil_append] at r1 r2
          split at h
          · cases h
          · rename_i hne
            rw [Except.ok.injEq] at h
            subst h
            refine ⟨netV, hn, ⟨k1, ?_, ?_⟩, ?_⟩
            · intro h0
              rw [h0] at k2
              have hnil := k2.eq_nil
              rw [List.flatten_eq_nil_iff] at hnil
              apply hne
              have : (stages.filter fun p => anyNonzero p.2).flatMap (jobsOf c.chunk) = [] := by
                rw [List.eq_nil_iff_forall_not_mem]
                intro g hg
                exact jobs_nonempty _ _ g hg (hnil g hg)
              rw [this] at r2
              rw [r2.eq_nil]; rfl
            · intro m hm
              rw [← k2.mem_iff, List.mem_flatten] at hm
              obtain ⟨g, hg, hm⟩ := hm
              obtain ⟨out, ho⟩ := r1 g hg
              exact (balance_ok _ _ _ _ ho).2 m hm
            · have := r2.flatten
              rw [accOf_flatten _ _ _ r1] at this
              exact this.trans (accOf_perm _ _ k2)

theorem solutions_exists (c : Config η δ ε κ) (hu : Usable c) (net : SRxn η δ ε) (maxCombos : ℕ) (rxns : List (SRxn η δ ε)) (netV : List ℚ)
    (hn : idxVector c.idx c.entries.length net = .ok netV) (h : Runs c netV maxCombos rxns) :
    ∃ sols, solutions c net maxCombos rxns = .ok sols := by
  obtain ⟨stages, hst⟩ := mapM_total (fun k => stage (c.wait₁ k) c.idx c.entries.length rxns netV c.chunk k) (List.range' 1 maxCombos)
    fun k hk => stage_exists _ (hu.wait₁ k) _ _ _ _ _ _ hu.chunk (h.stages k hk)
  obtain ⟨-, k2⟩ := kept_perm c hu netV maxCombos rxns stages hst
  unfold solutions
  rw [hn]
  simp only [hst]
  have hb := batchSize_pos c hu
  rw [if_neg (by
    have := hu.chunk
    simp only [Bool.or_eq_true, Bool.and_eq_true, decide_eq_true_eq, not_or]
    exact ⟨fun h => by omega, by omega⟩)]
  have hjobs : ∀ g ∈ (batches (batchSize c) [] ((stages.filter fun p => anyNonzero p.2).flatMap (jobsOf c.chunk))).flatten,
      ∃ out, balance c.pinv netV g = .ok out := by
    rw [batches_flatten, List.nil_append]
    intro g hg
    apply balance_exists
    intro m hm
    exact h.solved m (k2.mem_iff.mp (List.mem_flatten.mpr ⟨g, hg, hm⟩))
  obtain ⟨results, hr⟩ := run_batches_exists c hu netV _ hjobs
  rw [hr]
  simp only
  obtain ⟨r1, r2⟩ := run_batches c hu netV _ 0 results hr
  rw [if_neg]
  · exact ⟨_, rfl⟩
  · intro h0
    rw [List.isEmpty_iff] at h0
    rw [h0, batches_flatten, List.nil_append] at r2
    have hnil := r2.symm.eq_nil
    apply h.some
    have : (stages.filter fun p => anyNonzero p.2).flatMap (jobsOf c.chunk) = [] := by
      rw [List.eq_nil_iff_forall_not_mem]
      intro g hg
      obtain ⟨out, ho⟩ := hjobs g (by rw [batches_flatten, List.nil_append]; exact hg)
      have : out ∈ ((stages.filter fun p => anyNonzero p.2).flatMap (jobsOf c.chunk)).filterMap (opt (balance c.pinv netV)) :=
        List.mem_filterMap.mpr ⟨g, hg, opt_ok.mpr ho⟩
      rw [hnil] at this; cases this
    rw [this] at k2
    exact k2.symm.eq_nil

/-- The solutions of two ways to run one task are the same up to order. -/
theorem solutions_same (c c' : Config η δ ε κ) (hs : SameTask c c') (hu : Usable c) (hu' : Usable c') (net : SRxn η δ ε)
    (maxCombos : ℕ) (rxns : List (SRxn η δ ε)) (sols : List (Mat × List ℚ)) (h : solutions c net maxCombos rxns = .ok sols) :
    ∃ sols', solutions c' net maxCombos rxns = .ok sols' ∧ sols.Perm sols' := by
  obtain ⟨netV, h1, h2, h3⟩ := solutions_ok c hu net maxCombos rxns sols h
  have hm : allMats c netV maxCombos rxns = allMats c' netV maxCombos rxns := by unfold allMats; rw [hs.idx, hs.entries]
  have h1' : idxVector c'.idx c'.entries.length net = .ok netV := by rw [← hs.idx, ← hs.entries]; exact h1
  obtain ⟨sols', h'⟩ := solutions_exists c' hu' net maxCombos rxns netV h1'
    ⟨by rw [← hs.idx, ← hs.entries]; exact h2.stages, by rw [← hm]; exact h2.some, by rw [← hm, ← hs.pinv]; exact h2.solved⟩
  obtain ⟨netV', g1, -, g3⟩ := solutions_ok c' hu' net maxCombos rxns sols' h'
  cases h1'.symm.trans g1
  refine ⟨sols', h', h3.trans ?_⟩
  rw [hm, hs.pinv]
  exact g3.symm

theorem mapM_perm {α β : Type} (f : α → Except Err β) (l l' : List α) (hp : l.Perm l') (r : List β) (h : l.mapM f = .ok r) :
    ∃ r', l'.mapM f = .ok r' ∧ r.Perm r' := by
  obtain ⟨h1, h2⟩ := mapM_opt f l r h
  obtain ⟨r', hr'⟩ := mapM_total f l' fun a ha => h2 a (hp.mem_iff.mpr ha)
  obtain ⟨h1', -⟩ := mapM_opt f l' r' hr'
  exact ⟨r', hr', by rw [h1, h1']; exact hp.filterMap _⟩

theorem keyed_ok {ρ : Type} (p : Path ρ) (x : ℚ × Path ρ) (h : keyed p = .ok x) : x.2 = p ∧ costsOf [p] = [some x.1] := by
  unfold keyed at h
  cases hc : p.coefficients with
  | none => rw [hc] at h; cases h
  | some m =>
    rw [hc] at h
    simp only at h
    rw [map_ok] at h
    obtain ⟨a, ha, rfl⟩ := h
    refine ⟨rfl, ?_⟩
    unfold averageCost at ha
    split at ha
    · cases ha
    · split at ha
      · cases ha
      · rename_i h1 h2
        rw [Except.ok.injEq] at ha
        subst ha
        simp only [costsOf, List.map_cons, List.map_nil, hc, Option.bind_some]
        rw [if_pos ⟨not_not.mp h1, h2⟩]

theorem sorted_costs {ρ : Type} (l : List (Path ρ)) (ks : List (ℚ × Path ρ)) (h : l.mapM keyed = .ok ks) :
    costsOf ((ks.insertionSort fun a b => a.1 ≤ b.1).map Prod.snd) = (ks.insertionSort fun a b => a.1 ≤ b.1).map fun x => some x.1 := by
  have : ∀ x ∈ ks.insertionSort (fun a b => a.1 ≤ b.1), costsOf [x.2] = [some x.1] := by
    intro x hx
    rw [List.mem_insertionSort] at hx
    obtain ⟨p, -, hp⟩ := mapM_mem _ _ _ h x hx
    obtain ⟨e1, e2⟩ := keyed_ok p x hp
    rw [e1]; exact e2
  generalize ks.insertionSort (fun a b => a.1 ≤ b.1) = l' at this
  induction l' with
  | nil => rfl
  | cons x l' ih =>
    have h1 := this x List.mem_cons_self
    have h2 := ih fun y hy => this y (List.mem_cons_of_mem _ hy)
    unfold costsOf at h1 h2 ⊢
    rw [List.map_cons, List.map_cons, List.map_cons, h2]
    rw [List.map_cons, List.map_nil, List.cons.injEq] at h1
    rw [h1.1]

/-! ### The property -/

/-- **C130**: with the same task, whatever the chunk and batch sizes, the number of CPUs and the order in which workers finish, the solver
succeeds or fails alike; the pathways before the final `set` are the same up to order. Stated for the pathways returned when `set` treats
lists with the same members alike: the same pathways, and the same list of average costs in the same order. -/
theorem C130_same_partial (c c' : Config η δ ε κ) (hs : SameTask c c') (hu : Usable c) (hu' : Usable c')
    (hpick : ∀ l l', l.Perm l' → (c.pick l).Perm (c'.pick l')) (balanced : Bool) (inClean : List (SRxn η δ ε × ℚ) → SRxn η δ ε → Bool)
    (paths : List (Path (SRxn η δ ε))) (inter : List (SRxn η δ ε × ℚ)) (net : SRxn η δ ε) (precursors : Finset κ)
    (maxCombos : ℕ) (filterInter : Bool) (out : List (Path (SRxn η δ ε)))
    (h : solve c balanced inClean paths inter net precursors maxCombos filterInter = .ok out) :
    ∃ out', solve c' balanced inClean paths inter net precursors maxCombos filterInter = .ok out' ∧ out.Perm out' ∧
      costsOf out = costsOf out' := by
  unfold solve at h ⊢
  split at h
  · cases h
  · rename_i hb
    rw [if_neg hb]
    simp only at h ⊢
    rw [← hs.eq]
    split at h
    · cases h
    · rename_i cleaned hcl
      split at h
      · cases h
      · rename_i sols hsol
        obtain ⟨sols', hsol', hperm⟩ := solutions_same c c' hs hu hu' net maxCombos _ sols hsol
        rw [hsol']
        simp only
        unfold finish at h ⊢
        rw [← hs.eq, ← hs.entries, ← hs.data, ← hs.mu, ← hs.order, ← hs.R, ← hs.P]
        split at h
        · cases h
        · rename_i ps hps
          obtain ⟨ps', hps', hpp⟩ := mapM_perm _ _ _ hperm _ hps
          rw [hps']
          simp only
          split at h
          · cases h
          · rename_i ks hks
            have hfil : (if filterInter then ps.filter fun p => !interdependent c.order c.R c.P precursors p.reactions else ps).Perm
                (if filterInter then ps'.filter fun p => !interdependent c.order c.R c.P precursors p.reactions else ps') := by
              split_ifs
              · exact hpp.filter _
              · exact hpp
            obtain ⟨ks', hks', hkk⟩ := mapM_perm _ _ _ (hpick _ _ hfil) _ hks
            rw [hks']
            rw [Except.ok.injEq] at h
            subst h
            have hsorted : (ks.insertionSort fun a b => a.1 ≤ b.1).Perm (ks'.insertionSort fun a b => a.1 ≤ b.1) :=
              (List.perm_insertionSort _ ks).trans (hkk.trans (List.perm_insertionSort _ ks').symm)
            refine ⟨_, rfl, hsorted.map _, ?_⟩
            rw [sorted_costs _ _ hks, sorted_costs _ _ hks']
            have hfst : (ks.insertionSort fun a b => a.1 ≤ b.1).map Prod.fst = (ks'.insertionSort fun a b => a.1 ≤ b.1).map Prod.fst := by
              have pw : ∀ l : List (ℚ × Path (SRxn η δ ε)), ((l.insertionSort fun a b => a.1 ≤ b.1).map Prod.fst).Pairwise (· ≤ ·) := by
                intro l
                rw [List.pairwise_map]
                have : Std.Total (fun a b : ℚ × Path (SRxn η δ ε) => a.1 ≤ b.1) := ⟨fun a b => le_total a.1 b.1⟩
                have : IsTrans (ℚ × Path (SRxn η δ ε)) (fun a b => a.1 ≤ b.1) := ⟨fun a b c => le_trans⟩
                exact List.pairwise_insertionSort _ l
              exact List.Perm.eq_of_pairwise (fun a b _ _ => le_antisymm) (pw ks) (pw ks') (hsorted.map _)
            have : ∀ l : List (ℚ × Path (SRxn η δ ε)), (l.map fun x => some x.1) = (l.map Prod.fst).map some := by
              intro l; rw [List.map_map]; rfl
            rw [this, this, hfst]

theorem SameTask.symm {c c' : Config η δ ε κ} (h : SameTask c c') : SameTask c' c :=
  ⟨h.eq.symm, h.idx.symm, h.entries.symm, h.data.symm, h.mu.symm, h.pinv.symm, h.order.symm, h.R.symm, h.P.symm⟩

/-- **C130**: the solver fails under one schedule exactly when it fails under every other. -/
theorem C130_fails_partial (c c' : Config η δ ε κ) (hs : SameTask c c') (hu : Usable c) (hu' : Usable c')
    (hpick : ∀ l l', l.Perm l' → (c.pick l).Perm (c'.pick l')) (balanced : Bool) (inClean : List (SRxn η δ ε × ℚ) → SRxn η δ ε → Bool)
    (paths : List (Path (SRxn η δ ε))) (inter : List (SRxn η δ ε × ℚ)) (net : SRxn η δ ε) (precursors : Finset κ)
    (maxCombos : ℕ) (filterInter : Bool) :
    (∃ e, solve c balanced inClean paths inter net precursors maxCombos filterInter = .error e) ↔
      ∃ e, solve c' balanced inClean paths inter net precursors maxCombos filterInter = .error e := by
  have key : ∀ a b : Config η δ ε κ, SameTask a b → Usable a → Usable b → (∀ l l', l.Perm l' → (a.pick l).Perm (b.pick l')) →
      (∃ e, solve a balanced inClean paths inter net precursors maxCombos filterInter = .error e) →
      ∃ e, solve b balanced inClean paths inter net precursors maxCombos filterInter = .error e := by
    rintro a b sab ua ub pab ⟨e, he⟩
    cases hb : solve b balanced inClean paths inter net precursors maxCombos filterInter with
    | error e' => exact ⟨e', rfl⟩
    | ok out =>
      obtain ⟨out', h', -⟩ := C130_same_partial b a sab.symm ub ua (fun l l' hl => (pab l' l hl.symm).symm) balanced inClean paths
        inter net precursors maxCombos filterInter out hb
      rw [he] at h'; cases h'
  exact ⟨key c c' hs hu hu' hpick, key c' c hs.symm hu' hu fun l l' hl => (hpick l' l hl.symm).symm⟩

/-- **C130**: whichever representatives `set` keeps, a pathway returned under one schedule is represented under every other by one with the
same multiplicities and equal steps. -/
theorem C130_represented_partial (c c' : Config η δ ε κ) (hs : SameTask c c') (hu : Usable c) (hu' : Usable c') (hsub : ∀ l, ∀ q ∈ c.pick l, q ∈ l)
    (hpick : PickSpec c'.eq c'.pick) (balanced : Bool) (inClean : List (SRxn η δ ε × ℚ) → SRxn η δ ε → Bool)
    (paths : List (Path (SRxn η δ ε))) (inter : List (SRxn η δ ε × ℚ)) (net : SRxn η δ ε) (precursors : Finset κ)
    (maxCombos : ℕ) (filterInter : Bool) (out out' : List (Path (SRxn η δ ε)))
    (h : solve c balanced inClean paths inter net precursors maxCombos filterInter = .ok out)
    (h' : solve c' balanced inClean paths inter net precursors maxCombos filterInter = .ok out') :
    ∀ p ∈ out, ∃ q ∈ out', q.coefficients = p.coefficients ∧ List.Forall₂ (fun a b => a = b ∨ c.eq a b = true) q.reactions p.reactions := by
  unfold solve at h h'
  split at h
  · cases h
  · rename_i hb
    rw [if_neg hb] at h'
    simp only at h h'
    rw [← hs.eq] at h'
    split at h
    · cases h
    · rename_i cleaned hcl
      rw [hcl] at h'
      simp only at h'
      split at h
      · cases h
      · rename_i sols hsol
        obtain ⟨sols', hsol', hperm⟩ := solutions_same c c' hs hu hu' net maxCombos _ sols hsol
        rw [hsol'] at h'
        simp only at h'
        unfold finish at h h'
        rw [← hs.eq, ← hs.entries, ← hs.data, ← hs.mu, ← hs.order, ← hs.R, ← hs.P] at h'
        split at h
        · cases h
        · rename_i ps hps
          obtain ⟨ps', hps', hpp⟩ := mapM_perm _ _ _ hperm _ hps
          rw [hps'] at h'
          simp only at h'
          split at h
          · cases h
          · rename_i ks hks
            split at h'
            · cases h'
            · rename_i ks' hks'
              have hfil : (if filterInter then ps.filter fun p => !interdependent c.order c.R c.P precursors p.reactions else ps).Perm
                  (if filterInter then ps'.filter fun p => !interdependent c.order c.R c.P precursors p.reactions else ps') := by
                split_ifs
                · exact hpp.filter _
                · exact hpp
              rw [Except.ok.injEq] at h h'
              subst h; subst h'
              intro p hp
              obtain ⟨x, hx, rfl⟩ := List.mem_map.mp hp
              rw [List.mem_insertionSort] at hx
              obtain ⟨p, hp, hkp⟩ := mapM_mem _ _ _ hks x hx
              rw [(keyed_ok p x hkp).1]
              obtain ⟨q, hq, hq1, hq2⟩ := hpick.rep _ p (hfil.mem_iff.mp (hsub _ p hp))
              obtain ⟨y, hy, hky⟩ := mapM_at _ _ _ hks' q hq
              refine ⟨q, List.mem_map.mpr ⟨y, (List.mem_insertionSort _).mpr hy, (keyed_ok q y hky).1⟩, hq1, ?_⟩
              rw [hs.eq]; exact hq2

/-- **C130, violated**: the same task succeeds on two CPUs and fails on one. -/
theorem C130_one_cpu_violated : ∃ c c' : Config ℕ Unit ℕ ℕ, SameTask c c' ∧ c.pick = c'.pick ∧ c.cpus = 2 ∧ c'.cpus = 1 ∧
    solve c true (fun _ _ => true) [inPath] [] netAB {0} 2 true = .ok [⟨[stepA, stepB], [3, 5], some [1, 1], true⟩] ∧
    solve c' true (fun _ _ => true) [inPath] [] netAB {0} 2 true = .error .zeroDivision :=
  ⟨exConfig tablePinv 2, exConfig tablePinv 1, ⟨rfl, rfl, rfl, rfl, rfl, rfl, rfl, rfl, rfl⟩, rfl, rfl, rfl, by decide +kernel, by decide +kernel⟩

/-- The example run with chunks of one, batches of two and workers finishing in another order. -/
def exOther : Config ℕ Unit ℕ ℕ := { exConfig tablePinv 2 with
  chunk := 1, batch := some 2, cpus := 1, wait₁ := fun _ _ l => (l.take 1, l.drop 1), wait₂ := fun _ _ l => (l.take 1, l.drop 1) }

theorem fifo_spec {ι : Type} : WaitSpec (fun (_ : ℕ) (l : List ι) => (l.take 1, l.drop 1)) := by
  intro t refs h
  cases refs with
  | nil => exact absurd rfl h
  | cons a l => exact ⟨a, rfl, List.Perm.refl _⟩

/-- The hypotheses of the theorems above. -/
example : SameTask (exConfig tablePinv 2) exOther ∧ Usable (exConfig tablePinv 2) ∧ Usable exOther ∧ PickSpec exOther.eq exOther.pick ∧
    (∀ l l', l.Perm l' → ((exConfig tablePinv 2).pick l).Perm (exOther.pick l')) ∧
    solve (exConfig tablePinv 2) true (fun _ _ => true) [inPath] [] netAB {0} 2 true = .ok [⟨[stepA, stepB], [3, 5], some [1, 1], true⟩] ∧
    solve exOther true (fun _ _ => true) [inPath] [] netAB {0} 2 true = .ok [⟨[stepA, stepB], [3, 5], some [1, 1], true⟩] :=
  ⟨⟨rfl, rfl, rfl, rfl, rfl, rfl, rfl, rfl, rfl⟩, ⟨fun _ => lifo_spec, fun _ => lifo_spec, by decide, Or.inl (le_refl 2)⟩,
    ⟨fun _ => fifo_spec, fun _ => fifo_spec, by decide, Or.inr ⟨1, rfl⟩⟩, ex_pick, fun l l' h => h.dedup, by decide +kernel, by decide +kernel⟩

end Verif.Props.SolverChunks
