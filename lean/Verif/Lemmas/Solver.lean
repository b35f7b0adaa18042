import Mathlib.Algebra.Group.Action.Defs
import Mathlib.Algebra.Module.NatInt
import Mathlib.Data.List.GetD
import Mathlib.Algebra.BigOperators.Group.List.Basic
import Mathlib.Tactic.Linarith
import Mathlib.Tactic.Ring
import Verif.Lemmas.Except
import Verif.Lemmas.Combinations
import Verif.Model.Solver
import Verif.Props.Utils

/-! Helper lemmas about the pathway solver. -/

set_option linter.unusedSectionVars false

namespace Verif.Lemmas.Solver
open Verif.Py Verif.Model.RxnSet Verif.Model.Pathway Verif.Model.Solver Verif.Lemmas.Exc Verif.Props.Utils

variable {η δ ε κ : Type} [DecidableEq κ]

theorem mapM_mem_iff {α β ε' : Type} (f : α → Except ε' β) (l : List α) (r : List β) (h : l.mapM f = .ok r) (b : β) :
    b ∈ r ↔ ∃ a ∈ l, f a = .ok b := by
  constructor
  · exact mapM_mem f l r h b
  · rw [mapM_ok] at h
    rintro ⟨a, ha, hb⟩
    induction h with
    | nil => simp at ha
    | cons h1 _ ih =>
      rcases List.mem_cons.mp ha with rfl | ha
      · rw [h1] at hb
        cases hb
        exact List.mem_cons_self
      · exact List.mem_cons_of_mem _ (ih ha)

theorem mapM_at {α β ε' : Type} (f : α → Except ε' β) (l : List α) (r : List β) (h : l.mapM f = .ok r) (a : α)
    (ha : a ∈ l) : ∃ b ∈ r, f a = .ok b := by
  rw [mapM_ok] at h
  induction h with
  | nil => simp at ha
  | cons h1 _ ih =>
    rcases List.mem_cons.mp ha with rfl | ha
    · exact ⟨_, List.mem_cons_self, h1⟩
    · obtain ⟨b, hb, h'⟩ := ih ha
      exact ⟨b, List.mem_cons_of_mem _ hb, h'⟩

theorem collect_mem {ι β : Type} (wait : ℕ → List ι → List ι × List ι) (hw : WaitSpec wait) (task : ι → Except Err β)
    (refs : List ι) (out : List β) (h : collect wait task refs = .ok out) (b : β) :
    b ∈ out ↔ ∃ r ∈ refs, task r = .ok b := by
  obtain ⟨out', err, consumed, rest, h1, h2, h3, h4, _⟩ := C32_failure task wait hw refs 0
  unfold collect at h
  rw [h1] at h
  cases err with
  | some e => simp at h
  | none =>
    simp only [Except.ok.injEq] at h
    subst h
    rw [h4 rfl, List.append_nil] at h2
    have : b ∈ out' ↔ Except.ok (ε := Err) b ∈ out'.map .ok := by simp
    rw [this, ← h3, List.mem_map]
    constructor
    · rintro ⟨r, hr, hb⟩
      exact ⟨r, h2.mem_iff.mp hr, hb⟩
    · rintro ⟨r, hr, hb⟩
      exact ⟨r, h2.mem_iff.mpr hr, hb⟩

theorem collect_total {ι β : Type} (wait : ℕ → List ι → List ι × List ι) (hw : WaitSpec wait) (task : ι → Except Err β)
    (refs : List ι) (h : ∀ r ∈ refs, ∃ b, task r = .ok b) : ∃ out, collect wait task refs = .ok out := by
  obtain ⟨out', err, consumed, rest, h1, h2, h3, h4, h5⟩ := C32_failure task wait hw refs 0
  unfold collect
  rw [h1]
  cases err with
  | none => exact ⟨out', rfl⟩
  | some e =>
    obtain ⟨r, hr, he⟩ := h5 e rfl
    obtain ⟨b, hb⟩ := h r (h2.subset (List.mem_append_right _ hr))
    rw [hb] at he
    simp at he

theorem createMats_mem (idx : η → ℕ) (n : ℕ) (rxns : List (SRxn η δ ε)) (net : List ℚ) (group : List (Option (List ℕ)))
    (out : List Mat) (h : createMats idx n rxns net group = .ok out) (mat : Mat) :
    mat ∈ out ↔ ∃ combo, some combo ∈ group ∧ matOf idx n rxns combo = .ok mat ∧ covers net mat = true := by
  unfold createMats at h
  split at h
  · simp at h
  · simp at h
  · rename_i m ms hm
    simp only [Except.ok.injEq] at h
    subst h
    rw [List.mem_filter, mapM_mem_iff _ _ _ hm]
    constructor
    · rintro ⟨⟨combo, hc, h1⟩, h2⟩
      rw [List.mem_filterMap] at hc
      obtain ⟨a, ha, hid⟩ := hc
      simp only [id] at hid
      subst hid
      exact ⟨combo, ha, h1, h2⟩
    · rintro ⟨combo, hc, h1, h2⟩
      exact ⟨⟨combo, List.mem_filterMap.mpr ⟨_, hc, rfl⟩, h1⟩, h2⟩

theorem createMats_total (idx : η → ℕ) (n : ℕ) (rxns : List (SRxn η δ ε)) (net : List ℚ) (group : List (Option (List ℕ)))
    (hne : ∃ combo, some combo ∈ group) (hall : ∀ combo, some combo ∈ group → ∃ m, matOf idx n rxns combo = .ok m) :
    ∃ out, createMats idx n rxns net group = .ok out := by
  have hall' : ∀ combo ∈ group.filterMap id, ∃ m, matOf idx n rxns combo = .ok m := by
    intro combo hc
    rw [List.mem_filterMap] at hc
    obtain ⟨a, ha, hid⟩ := hc
    simp only [id] at hid
    subst hid
    exact hall combo ha
  unfold createMats
  cases hm : (group.filterMap id).mapM (matOf idx n rxns) with
  | error e =>
    obtain ⟨a, ha, he⟩ := mapM_error _ _ _ hm
    obtain ⟨m, hm'⟩ := hall' a ha
    rw [hm'] at he
    simp at he
  | ok l =>
    cases l with
    | nil =>
      have := mapM_length _ _ _ hm
      obtain ⟨combo, hc⟩ := hne
      have hmem : combo ∈ group.filterMap id := List.mem_filterMap.mpr ⟨_, hc, rfl⟩
      rw [List.length_nil] at this
      rw [List.length_eq_zero_iff.mp this.symm] at hmem
      simp at hmem
    | cons m ms => exact ⟨_, rfl⟩

theorem grouper_zero {α : Type} (xs : List α) (fill : α) : Verif.Model.Utils.grouper xs 0 fill = [] := by
  unfold Verif.Model.Utils.grouper Verif.Model.Utils.rounds
  simp [Verif.Model.Utils.pull]

theorem grouper_mem {α : Type} (xs : List α) (n : ℕ) (hn : 0 < n) (x : α) :
    (∃ g ∈ Verif.Model.Utils.grouper (xs.map some) n none, some x ∈ g) ↔ x ∈ xs := by
  obtain ⟨m, _, h2, _⟩ := C31_grouper (xs.map some) n hn none
  have : (∃ g ∈ Verif.Model.Utils.grouper (xs.map some) n none, some x ∈ g) ↔
      some x ∈ (Verif.Model.Utils.grouper (xs.map some) n none).flatten := by rw [List.mem_flatten]
  rw [this, h2, List.mem_append, List.mem_replicate]
  simp

/-- Every chunk starts with an actual item. -/
theorem grouper_head {α : Type} (xs : List α) (n : ℕ) (hn : 0 < n) :
    ∀ g ∈ Verif.Model.Utils.grouper (xs.map some) n none, ∃ x, some x ∈ g := by
  obtain ⟨m, h1, h2, h3, _⟩ := C31_grouper (xs.map some) n hn none
  intro g hg
  by_contra hc
  push Not at hc
  have hall : ∀ y ∈ g, y = none := by
    intro y hy
    cases y with
    | none => rfl
    | some x => exact absurd hy (hc x)
  have hcount : n ≤ (Verif.Model.Utils.grouper (xs.map some) n none).flatten.countP fun y => y.isNone := by
    have hsub : g.Sublist (Verif.Model.Utils.grouper (xs.map some) n none).flatten := List.sublist_flatten_of_mem hg
    refine le_trans ?_ (hsub.countP_le)
    rw [List.countP_eq_length.mpr (by intro y hy; rw [hall y hy]; rfl), h3 g hg]
  rw [h2, List.countP_append, List.countP_replicate] at hcount
  have : (xs.map some).countP (fun y => y.isNone) = 0 := by
    rw [List.countP_eq_zero]
    intro y hy
    obtain ⟨x, _, rfl⟩ := List.mem_map.mp hy
    simp
  rw [this] at hcount
  simp at hcount
  omega

theorem stage_mem (wait : ℕ → List (List (Option (List ℕ))) → List (List (Option (List ℕ))) × List (List (Option (List ℕ))))
    (hw : WaitSpec wait) (idx : η → ℕ) (n : ℕ) (rxns : List (SRxn η δ ε)) (net : List ℚ) (chunk k : ℕ)
    (p : ℕ × List Mat) (h : stage wait idx n rxns net chunk k = .ok p) :
    p.1 = k ∧ 0 < chunk ∧ ∀ mat, mat ∈ p.2 ↔ ∃ combo ∈ combinations (List.range rxns.length) k,
      matOf idx n rxns combo = .ok mat ∧ covers net mat = true := by
  unfold stage at h
  split at h
  · simp at h
  · rename_i groups hg
    rw [map_ok] at h
    obtain ⟨mats, hm, rfl⟩ := h
    have hchunk : 0 < chunk := by
      by_contra hc
      have h0 : chunk = 0 := by omega
      subst h0
      rw [grouper_zero] at hg
      simp only [collect, Verif.Model.Utils.toIterator, List.length_nil, Except.ok.injEq] at hg
      subst hg
      simp [concat] at hm
    refine ⟨rfl, hchunk, ?_⟩
    intro mat
    have hfl : mats = groups.flatten := by
      cases groups with
      | nil => simp [concat] at hm
      | cons a l => simp only [concat, Except.ok.injEq] at hm; exact hm.symm
    rw [hfl, List.mem_flatten]
    constructor
    · rintro ⟨g, hgm, hmat⟩
      rw [collect_mem wait hw _ _ _ hg] at hgm
      obtain ⟨r, hr, hok⟩ := hgm
      rw [createMats_mem _ _ _ _ _ _ hok] at hmat
      obtain ⟨combo, hc, h1, h2⟩ := hmat
      exact ⟨combo, (grouper_mem _ _ hchunk _).mp ⟨r, hr, hc⟩, h1, h2⟩
    · rintro ⟨combo, hc, h1, h2⟩
      obtain ⟨r, hr, hcr⟩ := (grouper_mem _ chunk hchunk _).mpr hc
      -- all tasks succeeded
      have hlen : ∃ b, createMats idx n rxns net r = .ok b := by
        obtain ⟨out', err, consumed, rest, g1, g2, g3, g4, g5⟩ := C32_failure (createMats idx n rxns net) wait hw
          (Verif.Model.Utils.grouper ((combinations (List.range rxns.length) k).map some) chunk none) 0
        unfold collect at hg
        rw [g1] at hg
        cases err with
        | some e => simp at hg
        | none =>
          rw [g4 rfl, List.append_nil] at g2
          have hrc := g2.mem_iff.mpr hr
          have : createMats idx n rxns net r ∈ consumed.map (createMats idx n rxns net) := List.mem_map.mpr ⟨r, hrc, rfl⟩
          rw [g3, List.mem_map] at this
          obtain ⟨b, _, hb⟩ := this
          exact ⟨b, hb.symm⟩
      obtain ⟨b, hb⟩ := hlen
      exact ⟨b, (collect_mem wait hw _ _ _ hg b).mpr ⟨r, hr, hb⟩, (createMats_mem _ _ _ _ _ _ hb mat).mpr ⟨combo, hcr, h1, h2⟩⟩

theorem matOf_total (idx : η → ℕ) (n : ℕ) (rxns : List (SRxn η δ ε)) (hv : ∀ r ∈ rxns, ∃ v, idxVector idx n r = .ok v)
    (combo : List ℕ) (hc : ∀ i ∈ combo, i < rxns.length) : ∃ m, matOf idx n rxns combo = .ok m := by
  unfold matOf
  cases hm : combo.mapM fun i => (getIdx rxns i).bind (idxVector idx n) with
  | ok m => exact ⟨m, rfl⟩
  | error e =>
    obtain ⟨i, hi, he⟩ := mapM_error _ _ _ hm
    have hlt := hc i hi
    unfold getIdx at he
    rw [List.getElem?_eq_getElem hlt] at he
    obtain ⟨v, hv⟩ := hv _ (List.getElem_mem hlt)
    simp only [Except.bind, hv] at he
    simp at he

theorem stage_total (wait : ℕ → List (List (Option (List ℕ))) → List (List (Option (List ℕ))) × List (List (Option (List ℕ))))
    (hw : WaitSpec wait) (idx : η → ℕ) (n : ℕ) (rxns : List (SRxn η δ ε)) (net : List ℚ) (chunk k : ℕ) (hchunk : 0 < chunk)
    (hk : k ≤ rxns.length) (hv : ∀ r ∈ rxns, ∃ v, idxVector idx n r = .ok v) :
    ∃ p, stage wait idx n rxns net chunk k = .ok p := by
  have hcomb : ∀ combo ∈ combinations (List.range rxns.length) k, ∃ m, matOf idx n rxns combo = .ok m := by
    intro combo hc
    rw [mem_combinations] at hc
    exact matOf_total idx n rxns hv combo fun i hi => List.mem_range.mp (hc.1.subset hi)
  obtain ⟨groups, hg⟩ := collect_total wait hw (createMats idx n rxns net)
    (Verif.Model.Utils.grouper ((combinations (List.range rxns.length) k).map some) chunk none) (by
      intro g hg
      refine createMats_total idx n rxns net g (grouper_head _ _ hchunk g hg) ?_
      intro combo hc
      exact hcomb combo ((grouper_mem _ _ hchunk _).mp ⟨g, hg, hc⟩))
  unfold stage
  rw [hg]
  -- there is at least one combination
  have hmem : List.range k ∈ combinations (List.range rxns.length) k := by
    rw [mem_combinations]
    exact ⟨List.range_sublist.mpr hk, List.length_range⟩
  obtain ⟨r, hr, hcr⟩ := (grouper_mem _ chunk hchunk _).mpr hmem
  obtain ⟨b, hb⟩ := createMats_total idx n rxns net r ⟨_, hcr⟩ (fun combo hc =>
    hcomb combo ((grouper_mem _ _ hchunk _).mp ⟨r, hr, hc⟩))
  have hbg := (collect_mem wait hw _ _ _ hg b).mpr ⟨r, hr, hb⟩
  cases groups with
  | nil => simp at hbg
  | cons a l => exact ⟨_, rfl⟩

theorem splitSizes_flatten {β : Type} : ∀ (ss : List ℕ) (l : List β), (splitSizes ss l).flatten = l.take ss.sum
  | [], l => by simp [splitSizes]
  | s :: ss, l => by
    rw [splitSizes, List.flatten_cons, splitSizes_flatten ss, List.sum_cons, List.take_add]

theorem arraySplit_flatten {β : Type} (l : List β) (k : ℕ) (hk : 0 < k) : (arraySplit l k).flatten = l := by
  unfold arraySplit
  rw [splitSizes_flatten, List.sum_append, List.sum_replicate, List.sum_replicate, List.take_of_length_le]
  have h1 : l.length % k < k := Nat.mod_lt _ hk
  have h2 := Nat.div_add_mod l.length k
  simp only [smul_eq_mul]
  have h3 : (k - l.length % k) * (l.length / k) + l.length % k * (l.length / k) = k * (l.length / k) := by
    rw [← Nat.add_mul, Nat.sub_add_cancel h1.le]
  rw [Nat.mul_add]
  omega

theorem jobsOf_flatten (chunk : ℕ) (p : ℕ × List Mat) : (jobsOf chunk p).flatten = p.2 := by
  unfold jobsOf
  have : ∀ L : List (List Mat), (L.filter fun g => !g.isEmpty).flatten = L.flatten := by
    intro L
    induction L with
    | nil => rfl
    | cons a l ih =>
      rw [List.filter_cons]
      split
      · rw [List.flatten_cons, List.flatten_cons, ih]
      · rename_i h
        have : a = [] := by simpa using h
        rw [ih, this, List.flatten_cons, List.nil_append]
  rw [this]
  split
  · exact arraySplit_flatten _ _ (Nat.succ_pos _)
  · simp

theorem batches_flatten {β : Type} (b : ℕ) : ∀ (gs pend : List β), (batches b pend gs).flatten = pend ++ gs
  | [], pend => by simp [batches]
  | g :: gs, pend => by
    unfold batches
    split
    · rw [List.flatten_cons, batches_flatten b gs []]; simp
    · rw [batches_flatten b gs (pend ++ [g])]; simp

theorem zipIdx_mem {β : Type} (l : List β) (b : β) : (∃ i, (b, i) ∈ l.zipIdx) ↔ b ∈ l := by
  constructor
  · rintro ⟨i, h⟩
    exact (List.mem_zipIdx' h).2 ▸ List.getElem_mem _
  · intro h
    obtain ⟨i, hi, rfl⟩ := List.mem_iff_getElem.mp h
    exact ⟨i, by rw [List.mem_zipIdx_iff_getElem?]; exact List.getElem?_eq_getElem hi⟩

theorem balance_mem (pinv : Mat → List ℚ → Except Err (List ℚ)) (net : List ℚ) (mats : List Mat)
    (out : List (Mat × List ℚ)) (h : balance pinv net mats = .ok out) (x : Mat × List ℚ) :
    x ∈ out ↔ x.1 ∈ mats ∧ covers net x.1 = true ∧ pinv x.1 net = .ok x.2 ∧ accepted (1 / 10 ^ 6) net x.1 x.2 = true := by
  unfold balance at h
  rw [map_ok] at h
  obtain ⟨l, hl, rfl⟩ := h
  have key : ∀ mat, balanceOne pinv (1 / 10 ^ 6) net mat = .ok (some x) ↔
      mat = x.1 ∧ covers net x.1 = true ∧ pinv x.1 net = .ok x.2 ∧ accepted (1 / 10 ^ 6) net x.1 x.2 = true := by
    intro mat
    unfold balanceOne
    split
    · rename_i hcov
      cases hp : pinv mat net with
      | error e =>
        constructor
        · intro h; simp at h
        · rintro ⟨rfl, _, h, _⟩; rw [hp] at h; simp at h
      | ok mult =>
        simp only
        split
        · rename_i hacc
          constructor
          · intro h
            cases h
            exact ⟨rfl, hcov, hp, hacc⟩
          · rintro ⟨rfl, _, h, _⟩
            rw [hp] at h
            cases h
            rfl
        · rename_i hacc
          constructor
          · intro h; simp at h
          · rintro ⟨rfl, _, h, h'⟩
            rw [hp] at h
            cases h
            exact absurd h' hacc
    · rename_i hcov
      constructor
      · intro h; simp at h
      · rintro ⟨rfl, h, _⟩; exact absurd h hcov
  rw [List.mem_filterMap]
  constructor
  · rintro ⟨a, ha, hid⟩
    simp only [id] at hid
    subst hid
    obtain ⟨mat, hm, hb⟩ := mapM_mem _ _ _ hl _ ha
    obtain ⟨rfl, h⟩ := (key mat).mp hb
    exact ⟨hm, h⟩
  · rintro ⟨h1, h2⟩
    exact ⟨some x, (mapM_mem_iff _ _ _ hl _).mpr ⟨x.1, h1, (key x.1).mpr ⟨rfl, h2⟩⟩, rfl⟩

theorem balance_total (pinv : Mat → List ℚ → Except Err (List ℚ)) (net : List ℚ) (mats : List Mat)
    (hp : ∀ mat ∈ mats, covers net mat = true → ∃ m, pinv mat net = .ok m) : ∃ out, balance pinv net mats = .ok out := by
  unfold balance
  cases hl : mats.mapM (balanceOne pinv (1 / 10 ^ 6) net) with
  | ok l => exact ⟨_, rfl⟩
  | error e =>
    obtain ⟨mat, hm, he⟩ := mapM_error _ _ _ hl
    unfold balanceOne at he
    split at he
    · rename_i hc
      obtain ⟨m, hm'⟩ := hp mat hm hc
      rw [hm'] at he
      simp at he
    · simp at he

/-- What it means to be found: a combination of at most `maxCombos` candidates, all components of the net reaction occur,
and the multiplicities pass the tests. -/
def Found (c : Config η δ ε κ) (netV : List ℚ) (maxCombos : ℕ) (rxns : List (SRxn η δ ε)) (x : Mat × List ℚ) : Prop :=
  ∃ combo : List ℕ, combo.Sublist (List.range rxns.length) ∧ combo ≠ [] ∧ combo.length ≤ maxCombos ∧
    matOf c.idx c.entries.length rxns combo = .ok x.1 ∧ covers netV x.1 = true ∧ c.pinv x.1 netV = .ok x.2 ∧
    accepted (1 / 10 ^ 6) netV x.1 x.2 = true

/-- A covering matrix of a net reaction that is not zero is not zero. -/
theorem covers_nonzero (net : List ℚ) (mat : Mat) (hnet : ∃ j < net.length, net.getD j 0 ≠ 0) (h : covers net mat = true) :
    (mat.any fun row => row.any fun c => decide (c ≠ 0)) = true := by
  obtain ⟨j, hj, hne⟩ := hnet
  unfold covers at h
  rw [List.all_eq_true] at h
  have := h j (List.mem_range.mpr hj)
  rw [Bool.or_eq_true, decide_eq_true_iff, List.any_eq_true] at this
  rcases this with h0 | ⟨row, hr, hx⟩
  · exact absurd h0 hne
  · rw [decide_eq_true_iff] at hx
    rw [List.any_eq_true]
    refine ⟨row, hr, ?_⟩
    rw [List.any_eq_true]
    by_cases hl : j < row.length
    · rw [List.getD_eq_getElem _ _ hl] at hx
      exact ⟨row[j], List.getElem_mem hl, decide_eq_true hx⟩
    · rw [List.getD_eq_default _ _ (by omega)] at hx
      exact absurd rfl hx

/-- Soundness and completeness of the search, when it succeeds. -/
theorem solutions_mem (c : Config η δ ε κ) (hw₁ : ∀ k, WaitSpec (c.wait₁ k)) (hw₂ : ∀ i, WaitSpec (c.wait₂ i))
    (net : SRxn η δ ε) (maxCombos : ℕ) (rxns : List (SRxn η δ ε)) (sols : List (Mat × List ℚ))
    (h : solutions c net maxCombos rxns = .ok sols) :
    ∃ netV, idxVector c.idx c.entries.length net = .ok netV ∧ (∀ x ∈ sols, Found c netV maxCombos rxns x) ∧
      ((∃ j < netV.length, netV.getD j 0 ≠ 0) → ∀ x, Found c netV maxCombos rxns x → x ∈ sols) := by
  unfold solutions at h
  cases hn : idxVector c.idx c.entries.length net with
  | error e => rw [hn] at h; simp at h
  | ok netV =>
    simp only [hn] at h
    cases hs : (List.range' 1 maxCombos).mapM
        fun k => stage (c.wait₁ k) c.idx c.entries.length rxns netV c.chunk k with
    | error e => rw [hs] at h; simp at h
    | ok stages =>
      simp only [hs] at h
      split at h
      · simp at h
      · split at h
        · simp at h
        · rename_i results hr
          split at h
          · simp at h
          · simp only [Except.ok.injEq] at h
            have hmem : ∀ x, x ∈ sols ↔ ∃ st ∈ stages, anyNonzero st.2 = true ∧ x.1 ∈ st.2 ∧ covers netV x.1 = true ∧
                c.pinv x.1 netV = .ok x.2 ∧ accepted (1 / 10 ^ 6) netV x.1 x.2 = true := by
              intro x
              rw [← h, List.mem_flatten]
              simp only [List.mem_flatten]
              constructor
              · rintro ⟨l, ⟨res, hres, hl⟩, hx⟩
                obtain ⟨b, hb, hc⟩ := mapM_mem _ _ _ hr _ hres
                obtain ⟨job, hjob, hbal⟩ := (collect_mem _ (hw₂ b.2) _ _ _ hc l).mp hl
                obtain ⟨hx1, hx2⟩ := (balance_mem _ _ _ _ hbal x).mp hx
                have hjin : job ∈ (batches (batchSize c) []
                    ((stages.filter fun p => anyNonzero p.2).flatMap (jobsOf c.chunk))).flatten :=
                  List.mem_flatten.mpr ⟨b.1, (zipIdx_mem _ _).mp ⟨b.2, hb⟩, hjob⟩
                rw [batches_flatten, List.nil_append, List.mem_flatMap] at hjin
                obtain ⟨st, hst, hj⟩ := hjin
                rw [List.mem_filter] at hst
                refine ⟨st, hst.1, hst.2, ?_, hx2⟩
                rw [← jobsOf_flatten c.chunk st]
                exact List.mem_flatten.mpr ⟨job, hj, hx1⟩
              · rintro ⟨st, hst, hany, hx1, hx2⟩
                rw [← jobsOf_flatten c.chunk st] at hx1
                obtain ⟨job, hj, hx1⟩ := List.mem_flatten.mp hx1
                have hjin : job ∈ (batches (batchSize c) []
                    ((stages.filter fun p => anyNonzero p.2).flatMap (jobsOf c.chunk))).flatten := by
                  rw [batches_flatten, List.nil_append, List.mem_flatMap]
                  exact ⟨st, List.mem_filter.mpr ⟨hst, hany⟩, hj⟩
                obtain ⟨b, hb, hjb⟩ := List.mem_flatten.mp hjin
                obtain ⟨i, hbi⟩ := (zipIdx_mem _ _).mpr hb
                obtain ⟨res, hresm, hc⟩ := mapM_at _ _ _ hr _ hbi
                have hbal : ∃ l, balance c.pinv netV job = .ok l := by
                  obtain ⟨out', err, consumed, rest, g1, g2, g3, g4, g5⟩ := C32_failure (balance c.pinv netV) (c.wait₂ i)
                    (hw₂ i) b 0
                  unfold collect at hc
                  rw [g1] at hc
                  cases err with
                  | some e => simp at hc
                  | none =>
                    rw [g4 rfl, List.append_nil] at g2
                    have hrc := g2.mem_iff.mpr hjb
                    have : balance c.pinv netV job ∈ consumed.map (balance c.pinv netV) := List.mem_map.mpr ⟨job, hrc, rfl⟩
                    rw [g3, List.mem_map] at this
                    obtain ⟨l, _, hl⟩ := this
                    exact ⟨l, hl.symm⟩
                obtain ⟨l, hl⟩ := hbal
                exact ⟨l, ⟨res, hresm, (collect_mem _ (hw₂ i) _ _ _ hc l).mpr ⟨job, hjb, hl⟩⟩,
                  (balance_mem _ _ _ _ hl x).mpr ⟨hx1, hx2⟩⟩
            refine ⟨netV, rfl, ?_, ?_⟩
            · intro x hx
              obtain ⟨st, hst, _, hx1, hx2⟩ := (hmem x).mp hx
              obtain ⟨k, hk, hstage⟩ := mapM_mem _ _ _ hs _ hst
              obtain ⟨_, _, hmats⟩ := stage_mem _ (hw₁ k) _ _ _ _ _ _ _ hstage
              obtain ⟨combo, hcombo, hm, _⟩ := (hmats x.1).mp hx1
              rw [mem_combinations] at hcombo
              rw [List.mem_range'_1] at hk
              refine ⟨combo, hcombo.1, ?_, by omega, hm, hx2⟩
              intro hc
              rw [hc, List.length_nil] at hcombo
              omega
            · rintro hnz x ⟨combo, h1, h2, h3, h4, h5⟩
              rw [hmem]
              have hlen := List.length_pos_iff.mpr h2
              have hk : combo.length ∈ List.range' 1 maxCombos := by rw [List.mem_range'_1]; omega
              obtain ⟨st, hstm, hstage⟩ := mapM_at _ _ _ hs _ hk
              obtain ⟨_, _, hmats⟩ := stage_mem _ (hw₁ _) _ _ _ _ _ _ _ hstage
              have hin : x.1 ∈ st.2 := (hmats x.1).mpr ⟨combo, mem_combinations.mpr ⟨h1, rfl⟩, h4, h5.1⟩
              refine ⟨st, hstm, ?_, hin, h5⟩
              unfold anyNonzero
              rw [List.any_eq_true]
              exact ⟨x.1, hin, covers_nonzero netV x.1 hnz h5.1⟩

/-- The search succeeds when every candidate has a vector, there are enough candidates, and some combination covers the
net reaction. -/
theorem solutions_total (c : Config η δ ε κ) (hw₁ : ∀ k, WaitSpec (c.wait₁ k)) (hw₂ : ∀ i, WaitSpec (c.wait₂ i))
    (net : SRxn η δ ε) (maxCombos : ℕ) (rxns : List (SRxn η δ ε)) (netV : List ℚ)
    (hn : idxVector c.idx c.entries.length net = .ok netV) (hnz : ∃ j < netV.length, netV.getD j 0 ≠ 0)
    (hv : ∀ r ∈ rxns, ∃ v, idxVector c.idx c.entries.length r = .ok v) (hk : maxCombos ≤ rxns.length)
    (hchunk : 0 < c.chunk) (hbatch : 0 < batchSize c)
    (hp : ∀ mat, covers netV mat = true → ∃ m, c.pinv mat netV = .ok m)
    (hex : ∃ combo : List ℕ, combo.Sublist (List.range rxns.length) ∧ combo ≠ [] ∧ combo.length ≤ maxCombos ∧
      ∃ mat, matOf c.idx c.entries.length rxns combo = .ok mat ∧ covers netV mat = true) :
    ∃ sols, solutions c net maxCombos rxns = .ok sols := by
  obtain ⟨stages, hs⟩ : ∃ stages, (List.range' 1 maxCombos).mapM
      (fun k => stage (c.wait₁ k) c.idx c.entries.length rxns netV c.chunk k) = .ok stages := by
    cases hs : (List.range' 1 maxCombos).mapM
        fun k => stage (c.wait₁ k) c.idx c.entries.length rxns netV c.chunk k with
    | ok s => exact ⟨s, rfl⟩
    | error e =>
      obtain ⟨k, hkm, he⟩ := mapM_error _ _ _ hs
      rw [List.mem_range'_1] at hkm
      obtain ⟨p, hp⟩ := stage_total (c.wait₁ k) (hw₁ k) c.idx c.entries.length rxns netV c.chunk k hchunk (by omega) hv
      rw [hp] at he
      simp at he
  set jobs := (stages.filter fun p => anyNonzero p.2).flatMap (jobsOf c.chunk) with hjobs
  obtain ⟨results, hr⟩ : ∃ results, (batches (batchSize c) [] jobs).zipIdx.mapM
      (fun b => collect (c.wait₂ b.2) (balance c.pinv netV) b.1) = .ok results := by
    cases hr : (batches (batchSize c) [] jobs).zipIdx.mapM
        fun b => collect (c.wait₂ b.2) (balance c.pinv netV) b.1 with
    | ok s => exact ⟨s, rfl⟩
    | error e =>
      obtain ⟨b, _, he⟩ := mapM_error _ _ _ hr
      obtain ⟨out, ho⟩ := collect_total (c.wait₂ b.2) (hw₂ b.2) (balance c.pinv netV) b.1
        (fun r _ => balance_total _ _ _ fun mat _ hc => hp mat hc)
      rw [ho] at he
      simp at he
  unfold solutions
  simp only [hn, hs]
  rw [if_neg (by
    rw [Bool.or_eq_true, Bool.and_eq_true, decide_eq_true_iff, decide_eq_true_iff]
    omega)]
  rw [← hjobs]
  simp only [hr]
  rw [if_neg]
  · exact ⟨_, rfl⟩
  -- at least one job was run
  obtain ⟨combo, h1, h2, h3, mat, h4, h5⟩ := hex
  have hlen := List.length_pos_iff.mpr h2
  have hkm : combo.length ∈ List.range' 1 maxCombos := by rw [List.mem_range'_1]; omega
  obtain ⟨st, hst⟩ := stage_total (c.wait₁ combo.length) (hw₁ _) c.idx c.entries.length rxns netV c.chunk combo.length
    hchunk (by omega) hv
  have hstm := (mapM_mem_iff _ _ _ hs st).mpr ⟨_, hkm, hst⟩
  obtain ⟨_, _, hmats⟩ := stage_mem _ (hw₁ _) _ _ _ _ _ _ _ hst
  have hin : mat ∈ st.2 := (hmats mat).mpr ⟨combo, mem_combinations.mpr ⟨h1, rfl⟩, h4, h5⟩
  have hany : anyNonzero st.2 = true := by
    unfold anyNonzero
    rw [List.any_eq_true]
    exact ⟨mat, hin, covers_nonzero netV mat hnz h5⟩
  rw [← jobsOf_flatten c.chunk st] at hin
  obtain ⟨job, hj, _⟩ := List.mem_flatten.mp hin
  have hjin : job ∈ (batches (batchSize c) [] jobs).flatten := by
    rw [batches_flatten, List.nil_append, hjobs, List.mem_flatMap]
    exact ⟨st, List.mem_filter.mpr ⟨hstm, hany⟩, hj⟩
  obtain ⟨b, hb, hjb⟩ := List.mem_flatten.mp hjin
  obtain ⟨i, hbi⟩ := (zipIdx_mem _ _).mpr hb
  obtain ⟨res, hres⟩ := collect_total (c.wait₂ i) (hw₂ i) (balance c.pinv netV) b
    (fun r _ => balance_total _ _ _ fun mat _ hc => hp mat hc)
  have hresm := (mapM_mem_iff _ _ _ hr res).mpr ⟨(b, i), hbi, hres⟩
  obtain ⟨l, hl⟩ := balance_total c.pinv netV job (fun mat _ hc => hp mat hc)
  have hlr := (collect_mem _ (hw₂ i) _ _ _ hres l).mpr ⟨job, hjb, hl⟩
  rw [List.isEmpty_iff]
  intro hc
  have : l ∈ results.flatten := List.mem_flatten.mpr ⟨res, hresm, hlr⟩
  rw [hc] at this
  simp at this

end Verif.Lemmas.Solver
