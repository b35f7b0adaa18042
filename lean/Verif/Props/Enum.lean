import Verif.Model.Enum
import Verif.Lemmas.Except
import Verif.Lemmas.Dict
import Verif.Props.Utils
import Mathlib.Tactic.Linarith
import Mathlib.Tactic.Positivity
import Mathlib.Algebra.Order.Field.Rat
import Mathlib.Tactic.FieldSimp

/-! Properties C33 and C34: work distribution of the enumerators and the reactions they return. -/

namespace Verif.Props.Enum
open Verif.Py Verif.Model Verif.Model.Enum Verif.Lemmas Verif.Lemmas.Exc

variable {ρ τ : Type}

/-- The candidate pairs of a chunk with their references, in order. -/
def work (c : Chunk ρ τ) : List (ρ × τ) := c.flatMap fun s => s.1.map fun r => (r, s.2)

theorem length_work (c : Chunk ρ τ) : (work c).length = load c := by
  unfold work load
  rw [List.length_flatMap]
  congr 1
  apply List.map_congr_left
  intro s _
  simp

theorem work_append (a b : Chunk ρ τ) : work (a ++ b) = work a ++ work b := by unfold work; exact List.flatMap_append

theorem load_append (a b : Chunk ρ τ) : load (a ++ b) = load a + load b := by
  rw [← length_work, ← length_work, ← length_work, work_append, List.length_append]

theorem appendLast_concat (c : Chunk ρ τ) (l : List ρ) (t : τ) (r : ρ) : appendLast (c ++ [(l, t)]) r = c ++ [(l ++ [r], t)] := by
  induction c with
  | nil => rfl
  | cons a c ih =>
    cases c with
    | nil => rfl
    | cons b c =>
      show a :: appendLast ((b :: c) ++ [(l, t)]) r = _
      rw [ih]; rfl

/-- Invariant while the pairs of one system are distributed. -/
structure Inv (size : ℕ) (tag : τ) (before : List (ρ × τ)) (seen : List ρ) (st : St ρ τ) : Prop where
  flat : st.done.flatMap work ++ work st.cur = before ++ seen.map fun r => (r, tag)
  full : ∀ c ∈ st.done, load c = size
  len : st.len = load st.cur
  le : st.len ≤ size
  last : ∃ c l, st.cur = c ++ [(l, tag)]

theorem push_inv (size : ℕ) (hs : 0 < size) (tag : τ) (before : List (ρ × τ)) (seen : List ρ) (st : St ρ τ)
    (h : Inv size tag before seen st) (r : ρ) : Inv size tag before (seen ++ [r]) (pushPair size tag st r) := by
  unfold pushPair
  split_ifs with hl
  · refine ⟨?_, ?_, ?_, ?_, ⟨[], [r], rfl⟩⟩
    · rw [List.flatMap_append, List.map_append, ← List.append_assoc, ← h.flat]
      simp [work]
    · intro c hc
      rcases List.mem_append.mp hc with hc | hc
      · exact h.full c hc
      · rw [List.mem_singleton.mp hc, ← h.len, hl]
    · rfl
    · exact hs
  · obtain ⟨c, l, hc⟩ := h.last
    have hle := h.le
    have hlen := h.len
    have hflat := h.flat
    rw [hc] at hlen hflat
    rw [load_append] at hlen
    rw [work_append] at hflat
    simp only [hc, appendLast_concat]
    refine ⟨?_, h.full, ?_, ?_, ⟨c, l ++ [r], rfl⟩⟩
    · rw [work_append, List.map_append, ← List.append_assoc before, ← hflat]
      simp [work]
    · rw [load_append, hlen]; simp [load]; omega
    · exact Nat.lt_of_le_of_ne hle hl

theorem push_all_inv (size : ℕ) (hs : 0 < size) (tag : τ) (before : List (ρ × τ)) (rs : List ρ) : ∀ (seen : List ρ) (st : St ρ τ),
    Inv size tag before seen st → Inv size tag before (seen ++ rs) (rs.foldl (pushPair size tag) st) := by
  induction rs with
  | nil => intro seen st h; simpa using h
  | cons r rs ih =>
    intro seen st h
    have := ih _ _ (push_inv size hs tag before seen st h r)
    rwa [List.append_assoc] at this

/-- Invariant between systems. -/
structure Outer (size : ℕ) (before : List (ρ × τ)) (st : St ρ τ) : Prop where
  flat : st.done.flatMap work ++ work st.cur = before
  full : ∀ c ∈ st.done, load c = size
  lt : load st.cur < size

theorem pushItem_outer (size : ℕ) (hs : 0 < size) (before : List (ρ × τ)) (st : St ρ τ) (h : Outer size before st)
    (item : List ρ × τ) : Outer size (before ++ item.1.map fun r => (r, item.2)) (pushItem size st item) := by
  have h0 : Inv size item.2 before [] ⟨st.done, st.cur ++ [([], item.2)], load st.cur⟩ := by
    refine ⟨?_, h.full, ?_, h.lt.le, ⟨st.cur, [], rfl⟩⟩
    · rw [work_append]
      simpa [work] using h.flat
    · rw [load_append]; simp [load]
  have h1 := push_all_inv size hs item.2 before item.1 [] _ h0
  rw [List.nil_append] at h1
  unfold pushItem flush
  generalize item.1.foldl (pushPair size item.2) _ = st' at h1 ⊢
  split_ifs with hl
  · refine ⟨?_, ?_, ?_⟩
    · rw [List.flatMap_append, ← h1.flat]; simp [work]
    · intro c hc
      rcases List.mem_append.mp hc with hc | hc
      · exact h1.full c hc
      · rw [List.mem_singleton.mp hc, ← h1.len, hl]
    · exact hs
  · refine ⟨h1.flat, h1.full, ?_⟩
    have := h1.le
    rw [← h1.len]; omega

theorem outer_all (size : ℕ) (hs : 0 < size) (items : List (List ρ × τ)) : ∀ (before : List (ρ × τ)) (st : St ρ τ),
    Outer size before st → Outer size (before ++ work items) (items.foldl (pushItem size) st) := by
  induction items with
  | nil => intro before st h; simpa [work] using h
  | cons a l ih =>
    intro before st h
    have := ih _ _ (pushItem_outer size hs before st h a)
    rw [List.append_assoc] at this
    exact this

theorem final_outer (size : ℕ) (hs : 0 < size) (items : List (List ρ × τ)) :
    Outer size (work items) (items.foldl (pushItem size) ⟨[], [], 0⟩) := by
  have := outer_all size hs items [] ⟨[], [], 0⟩ ⟨rfl, by simp, hs⟩
  simpa using this

/-- Splitting the candidates into chunks covers every (pair, references) exactly once and in order. -/
theorem C33_lossless (size : ℕ) (hs : 0 < size) (items : List (List ρ × τ)) :
    ((buildChunks size items).flatMap fun c => c.flatMap fun s => s.1.map fun r => (r, s.2))
      = items.flatMap fun it => it.1.map fun r => (r, it.2) := by
  have h := final_outer size hs items
  show (buildChunks size items).flatMap work = work items
  unfold buildChunks
  simp only
  split_ifs with hc
  · have := h.flat
    rw [hc] at this
    simpa [work] using this
  · rw [List.flatMap_append, List.flatMap_singleton]; exact h.flat

example := C33_lossless 2 (by decide) [([1, 2, 3], "A-B"), ([], "A-C"), ([4, 5], "B-C")]

/-- No chunk exceeds the chunk size, and every chunk but the last is full. -/
theorem C33_sizes (size : ℕ) (hs : 0 < size) (items : List (List ρ × τ)) :
    (∀ c ∈ buildChunks size items, (c.map fun s => s.1.length).sum ≤ size) ∧
    (∀ c ∈ (buildChunks size items).dropLast, (c.map fun s => s.1.length).sum = size) := by
  have h := final_outer size hs items
  unfold buildChunks
  simp only
  split_ifs with hc
  · exact ⟨fun c hcm => (h.full c hcm).le, fun c hcm => h.full c (List.dropLast_subset _ hcm)⟩
  · refine ⟨fun c hcm => ?_, fun c hcm => ?_⟩
    · rcases List.mem_append.mp hcm with hcm | hcm
      · exact (h.full c hcm).le
      · rw [List.mem_singleton.mp hcm]; exact h.lt.le
    · rw [List.dropLast_concat] at hcm; exact h.full c hcm

example := C33_sizes 2 (by decide) [([1, 2, 3], "A-B"), ([], "A-C"), ([4, 5], "B-C")]

/-- Number of chunks: at most `⌈total / size⌉` chunks contain work, and there is at most one chunk more, without work. Missing
for the full statement: the code can create one unnecessary chunk (counterexample below). -/
theorem C33_count_partial (size : ℕ) (hs : 0 < size) (items : List (List ρ × τ)) :
    let total := (items.map fun it => it.1.length).sum
    let withWork := (buildChunks size items).filter fun c => 0 < (c.map fun s => s.1.length).sum
    withWork.length = (total + size - 1) / size ∧ (buildChunks size items).length ≤ withWork.length + 1 := by
  have h := final_outer size hs items
  have htot : (items.map fun it => it.1.length).sum = (work items).length := (length_work items).symm
  simp only [htot]
  unfold buildChunks
  simp only
  generalize items.foldl (pushItem size) ⟨[], [], 0⟩ = st at h ⊢
  have hdone : ∀ c ∈ st.done, decide (0 < (c.map fun s => s.1.length).sum) = true := by
    intro c hc
    have := h.full c hc
    unfold load at this
    rw [this]; exact decide_eq_true hs
  have hlen : (work items).length = st.done.length * size + load st.cur := by
    rw [← h.flat, List.length_append, length_work, List.length_flatMap]
    congr 1
    have : st.done.map (fun c => (work c).length) = st.done.map fun _ => size := by
      apply List.map_congr_left
      intro c hc
      rw [length_work, h.full c hc]
    rw [this]; simp
  have hlt := h.lt
  have hdiv : 0 < load st.cur → (st.done.length * size + load st.cur + size - 1) / size = st.done.length + 1 := by
    intro hp
    have : st.done.length * size + load st.cur + size - 1 = (load st.cur - 1) + (st.done.length + 1) * size := by
      rw [Nat.add_mul]; omega
    rw [this, Nat.add_mul_div_right _ _ hs, Nat.div_eq_of_lt (by omega)]; omega
  have hdiv0 : load st.cur = 0 → (st.done.length * size + load st.cur + size - 1) / size = st.done.length := by
    intro hp
    have : st.done.length * size + load st.cur + size - 1 = (size - 1) + st.done.length * size := by omega
    rw [this, Nat.add_mul_div_right _ _ hs, Nat.div_eq_of_lt (by omega)]; omega
  rw [hlen]
  split_ifs with hc
  · rw [List.filter_eq_self.mpr hdone]
    have : load st.cur = 0 := by rw [hc]; rfl
    exact ⟨(hdiv0 this).symm, by omega⟩
  · rw [List.filter_append, List.filter_eq_self.mpr hdone]
    by_cases hp : 0 < load st.cur
    · have : [st.cur].filter (fun c => decide (0 < (c.map fun s => s.1.length).sum)) = [st.cur] := by
        have hp' : decide (0 < (st.cur.map fun s => s.1.length).sum) = true := decide_eq_true hp
        rw [List.filter_cons, if_pos hp']; rfl
      rw [this, List.length_append]
      exact ⟨(hdiv hp).symm, by simp⟩
    · have hn : ¬ decide (0 < (st.cur.map fun s => s.1.length).sum) = true := fun hh => hp (of_decide_eq_true hh)
      have : [st.cur].filter (fun c => decide (0 < (c.map fun s => s.1.length).sum)) = [] := by
        rw [List.filter_cons, if_neg hn]; rfl
      rw [this, List.append_nil]
      exact ⟨(hdiv0 (by omega)).symm, by simp⟩

example := C33_count_partial 2 (by decide) [([1, 2, 3], "A-B"), ([], "A-C"), ([4, 5], "B-C")]

/-- A trailing chemical system without pairs (a single combination) makes an extra chunk without work: one more job than
necessary. -/
theorem C33_extra_chunk_counterexample :
    (buildChunks 2 [([1, 2], "A-B"), (([] : List ℕ), "A-C")]).length = 2 ∧ (2 + 2 - 1) / 2 = 1 := by decide

example : buildChunks 2 [([1, 2, 3], "A-B"), ([], "A-C"), ([4, 5], "B-C")]
    = [[([1, 2], "A-B")], [([3], "A-B"), ([], "A-C"), ([4], "B-C")], [([5], "B-C")]] := by decide

/-- With the job limit, at most `max_num_jobs` chunks contain work. -/
theorem C33_job_limit (chunkSize maxJobs : ℕ) (items : List (List ρ × τ)) (size : ℕ)
    (he : effSize chunkSize maxJobs (items.map fun it => it.1.length).sum = .ok size) :
    0 < size ∧ ((buildChunks size items).filter fun c => 0 < (c.map fun s => s.1.length).sum).length ≤ maxJobs := by
  set total := (items.map fun it => it.1.length).sum with ht
  have key : 0 < size ∧ total ≤ maxJobs * size := by
    unfold effSize at he
    split_ifs at he with h1 h2 h3
    · rw [← Except.ok.inj he]
      refine ⟨Nat.succ_pos _, ?_⟩
      have := Nat.lt_mul_div_succ total (Nat.pos_of_ne_zero h3)
      exact this.le
    · rw [← Except.ok.inj he]
      have h1' := Nat.pos_of_ne_zero h1
      refine ⟨h1', ?_⟩
      have hq : (total : ℚ) / chunkSize ≤ maxJobs := not_lt.mp h2
      rw [div_le_iff₀ (by exact_mod_cast h1')] at hq
      exact_mod_cast hq
  refine ⟨key.1, ?_⟩
  rw [(C33_count_partial size key.1 items).1, ← ht]
  apply Nat.le_of_lt_succ
  rw [Nat.div_lt_iff_lt_mul key.1, Nat.succ_mul]
  omega

example : effSize 2 3 100 = .ok 34 := by decide +kernel
example : effSize 50 3 100 = .ok 50 := by decide +kernel

/-! ### Lengths used for the job limit -/

theorem length_pairs2 {α : Type} (l : List α) : (pairs2 l).length = l.length.choose 2 := by
  induction l with
  | nil => rfl
  | cons a l ih =>
    unfold pairs2
    rw [List.length_append, List.length_map, ih, List.length_cons, Nat.choose_succ_succ' l.length 1, Nat.choose_one_right]

/-- The announced number of candidates of the open enumerator is the real one. -/
theorem C33_open_total {η : Type} [DecidableEq η] (combos ocs : List (List η)) :
    (pairsOpen combos ocs).length = iterLengthOpen combos ocs := by
  have h1 : (combosWithOpen combos ocs).length = (combos.map fun i => (ocs.map fun j => if inter i j = [] then 1 else 0).sum).sum := by
    unfold combosWithOpen
    rw [List.length_flatMap]
    congr 1
    apply List.map_congr_left
    intro c _
    rw [List.length_map]
    induction ocs with
    | nil => rfl
    | cons o ocs ih =>
      rw [List.filter_cons, List.map_cons, List.sum_cons, ← ih]
      by_cases h : inter c o = []
      · rw [if_pos (decide_eq_true h), if_pos h, List.length_cons, Nat.add_comm]
      · rw [if_neg (by simpa using h), if_neg h, Nat.zero_add]
  unfold pairsOpen iterLengthOpen
  rw [List.length_flatMap, ← h1]
  simp

example : (pairsOpen [[1], [2], [1, 2]] [[3], [4]]).length = iterLengthOpen [[1], [2], [1, 2]] [[3], [4]] := C33_open_total _ _

/-! ### Results under any schedule -/

/-- The value of a successful computation (`[]` otherwise). -/
def val {α β : Type} (f : α → Except Err (List β)) (a : α) : List β := match f a with
  | .ok v => v
  | .error _ => []

theorem flatM_ok {α β : Type} (f : α → Except Err (List β)) (l : List α) (out : List β) :
    (l.mapM f).map List.flatten = .ok out ↔ (∀ a ∈ l, ∃ v, f a = .ok v) ∧ out = l.flatMap (val f) := by
  have hval : ∀ a v, f a = .ok v → f a = .ok (val f a) := by intro a v h; unfold val; rw [h]
  constructor
  · intro h
    rw [map_ok] at h
    obtain ⟨rs, h1, rfl⟩ := h
    have hall : ∀ a ∈ l, ∃ v, f a = .ok v := by
      intro a ha
      cases hf : f a with
      | ok v => exact ⟨v, rfl⟩
      | error e =>
        obtain ⟨e', he'⟩ := mapM_exists_error f l a ha e hf
        rw [h1] at he'; simp at he'
    refine ⟨hall, ?_⟩
    rw [mapM_eq_map f (val f) l fun a ha => hval a _ (hall a ha).choose_spec] at h1
    rw [← Except.ok.inj h1, List.flatMap_def]
  · rintro ⟨hall, rfl⟩
    rw [mapM_eq_map f (val f) l fun a ha => hval a _ (hall a ha).choose_spec, List.flatMap_def]
    rfl

section Results
variable {η : Type} [DecidableEq η]

/-- Results of all candidates, one after the other, without chunks or parallelism. -/
def serial (cfg : Cfg η) (react : List η → List η → τ → Except Err (List (Rx η)))
    (cands : List ((List η × List η) × τ)) : Except Err (List (Rx η)) :=
  (cands.mapM fun c => reactPair cfg react c.1 c.2).map List.flatten

theorem reactSeg_ok (cfg : Cfg η) (react : List η → List η → τ → Except Err (List (Rx η))) (s : List (List η × List η) × τ) (out) :
    reactSeg cfg react s = .ok out ↔ (∀ c ∈ s.1.map fun r => (r, s.2), ∃ v, reactPair cfg react c.1 c.2 = .ok v) ∧
      out = (s.1.map fun r => (r, s.2)).flatMap (val fun c => reactPair cfg react c.1 c.2) := by
  unfold reactSeg
  rw [flatM_ok]
  simp only [List.mem_map, forall_exists_index, and_imp, forall_apply_eq_imp_iff₂, List.flatMap_map]
  rfl

theorem reactChunk_ok (cfg : Cfg η) (react : List η → List η → τ → Except Err (List (Rx η)))
    (c : Chunk (List η × List η) τ) (out) :
    reactChunk cfg react c = .ok out ↔ (∀ x ∈ work c, ∃ v, reactPair cfg react x.1 x.2 = .ok v) ∧
      out = (work c).flatMap (val fun c => reactPair cfg react c.1 c.2) := by
  unfold reactChunk
  rw [flatM_ok]
  have hv : (∀ s ∈ c, ∀ c ∈ s.1.map (fun r => (r, s.2)), ∃ v, reactPair cfg react c.1 c.2 = .ok v) →
      c.flatMap (val (reactSeg cfg react)) = (work c).flatMap (val fun c => reactPair cfg react c.1 c.2) := by
    intro h
    unfold work
    rw [List.flatMap_assoc, List.flatMap_def, List.flatMap_def]
    congr 1
    apply List.map_congr_left
    intro s hs
    have := (reactSeg_ok cfg react s _).mpr ⟨h s hs, rfl⟩
    unfold val at this ⊢
    rw [this]
  have hiff : (∀ s ∈ c, ∃ v, reactSeg cfg react s = .ok v) ↔ ∀ x ∈ work c, ∃ v, reactPair cfg react x.1 x.2 = .ok v := by
    constructor
    · intro h x hx
      obtain ⟨s, hs, hxs⟩ := List.mem_flatMap.mp hx
      obtain ⟨v, hv⟩ := h s hs
      exact ((reactSeg_ok cfg react s v).mp hv).1 x hxs
    · intro h s hs
      exact ⟨_, (reactSeg_ok cfg react s _).mpr ⟨fun x hx => h x (List.mem_flatMap.mpr ⟨s, hs, hx⟩), rfl⟩⟩
  rw [hiff]
  constructor
  · rintro ⟨h1, h2⟩
    refine ⟨h1, ?_⟩
    rw [h2]
    exact hv fun s hs x hx => h1 x (List.mem_flatMap.mpr ⟨s, hs, hx⟩)
  · rintro ⟨h1, h2⟩
    refine ⟨h1, ?_⟩
    rw [h2]
    exact (hv fun s hs x hx => h1 x (List.mem_flatMap.mpr ⟨s, hs, hx⟩)).symm

/-- For every completion order of the remote tasks, running the chunks gives exactly the reactions of all candidate pairs (up
to order), and it fails exactly when some candidate fails. -/
theorem C33_schedule (cfg : Cfg η) (react : List η → List η → τ → Except Err (List (Rx η)))
    (wait : ℕ → List (Chunk (List η × List η) τ) → List (Chunk (List η × List η) τ) × List (Chunk (List η × List η) τ))
    (hw : Verif.Props.Utils.WaitSpec wait) (size : ℕ) (hs : 0 < size) (items : List (List (List η × List η) × τ)) :
    let cands := items.flatMap fun it => it.1.map fun r => (r, it.2)
    (∀ out, serial cfg react cands = .ok out →
      ∃ out', runChunks cfg react wait (buildChunks size items) = .ok out' ∧ out'.Perm out) ∧
    (∀ out', runChunks cfg react wait (buildChunks size items) = .ok out' →
      ∃ out, serial cfg react cands = .ok out ∧ out'.Perm out) := by
  intro cands
  have hcover : (buildChunks size items).flatMap work = cands := C33_lossless size hs items
  set chunks := buildChunks size items with hch
  have hflat : chunks.flatMap (fun c => (work c).flatMap (val fun c => reactPair cfg react c.1 c.2))
      = cands.flatMap (val fun c => reactPair cfg react c.1 c.2) := by
    rw [← hcover, List.flatMap_assoc]
  have hgo : (∀ c ∈ cands, ∃ v, reactPair cfg react c.1 c.2 = .ok v) → ∃ out', runChunks cfg react wait chunks = .ok out' ∧
      out'.Perm (cands.flatMap (val fun c => reactPair cfg react c.1 c.2)) := by
    intro hall
    have hget : ∀ c ∈ chunks, reactChunk cfg react c = .ok ((work c).flatMap (val fun c => reactPair cfg react c.1 c.2)) := by
      intro c hc
      refine (reactChunk_ok cfg react c _).mpr ⟨fun x hx => hall x ?_, rfl⟩
      rw [← hcover]
      exact List.mem_flatMap.mpr ⟨c, hc, hx⟩
    obtain ⟨out, h1, h2⟩ := Verif.Props.Utils.C32_all_results_once (reactChunk cfg react) _ wait hw chunks hget 0
    refine ⟨out.flatten, ?_, ?_⟩
    · unfold runChunks; rw [h1]
    · rw [← hflat, List.flatMap_def]
      exact h2.flatten
  constructor
  · intro out hser
    obtain ⟨h1, h2⟩ := (flatM_ok _ _ _).mp hser
    rw [h2]
    exact hgo h1
  · intro out' hrun
    obtain ⟨out, err, consumed, rest, h1, h2, h3, h4, h5⟩ := Verif.Props.Utils.C32_failure (reactChunk cfg react) wait hw chunks 0
    unfold runChunks at hrun
    rw [h1] at hrun
    cases err with
    | some e => simp at hrun
    | none =>
      have hrest := h4 rfl
      subst hrest
      rw [List.append_nil] at h2
      have hall : ∀ c ∈ cands, ∃ v, reactPair cfg react c.1 c.2 = .ok v := by
        intro x hx
        rw [← hcover] at hx
        obtain ⟨c, hc, hxc⟩ := List.mem_flatMap.mp hx
        have : reactChunk cfg react c ∈ consumed.map (reactChunk cfg react) := List.mem_map.mpr ⟨c, h2.mem_iff.mpr hc, rfl⟩
        rw [h3] at this
        obtain ⟨v, _, hv⟩ := List.mem_map.mp this
        exact ((reactChunk_ok cfg react c v).mp hv.symm).1 x hxc
      obtain ⟨out'', h6, h7⟩ := hgo hall
      refine ⟨_, (flatM_ok _ _ _).mpr ⟨hall, rfl⟩, ?_⟩
      unfold runChunks at h6
      rw [h1] at h6
      rw [← Except.ok.inj hrun, Except.ok.inj h6]
      exact h7

/-! ### C34 -/

/-- What the user asked for, in terms of the returned reaction. -/
structure Admissible (cfg : Cfg η) (x : Rx η) : Prop where
  notIdentity : x.isIdentity = false
  balanced : cfg.removeUnbalanced = true → x.balanced = true
  clean : cfg.removeChanged = true → x.lne = some 0
  constraints : ∃ k, x.nc = some k ∧ k ≤ cfg.maxConstraints
  precursors : cfg.precursors ≠ [] → cfg.exclP = true → ∀ e ∈ x.reactants, e ∈ cfg.precursors ∨ e ∈ cfg.openEntries
  somePrecursor : cfg.precursors ≠ [] → cfg.exclP = false → ∃ e ∈ x.reactants, e ∈ cfg.precursors ∧ e ∉ cfg.openEntries
  targets : cfg.targets ≠ [] → cfg.exclT = true → ∀ e ∈ x.products, e ∈ cfg.targets ∨ e ∈ cfg.openEntries
  someTarget : cfg.targets ≠ [] → cfg.exclT = false → ∃ e ∈ x.products, e ∈ cfg.targets ∧ e ∉ cfg.openEntries

theorem mem_union {a b : List η} {x : η} : x ∈ union a b ↔ x ∈ a ∨ x ∈ b := by
  unfold union
  rw [List.mem_append, List.mem_filter]
  by_cases h : x ∈ a <;> simp [h]

theorem mem_inter {a b : List η} {x : η} : x ∈ inter a b ↔ x ∈ a ∧ x ∈ b := by
  unfold inter
  rw [List.mem_filter, decide_eq_true_iff]

theorem setFunc_iff {α : Type} [DecidableEq α] (excl : Bool) (base x : List α) : setFunc excl base x = true ↔
    (excl = true → ∀ a ∈ x, a ∈ base) ∧ (excl = false → ∃ a ∈ x, a ∈ base) := by
  cases excl <;> simp [setFunc]

/-- The side condition checked by `precursor_func`/`target_func` on the non-open phases of a side. -/
theorem setFunc_nonopen (excl : Bool) (base opens x : List η) :
    setFunc excl (union base opens) (x.filter fun e => e ∉ opens) = true ↔
      (excl = true → ∀ e ∈ x, e ∈ base ∨ e ∈ opens) ∧ (excl = false → ∃ e ∈ x, e ∈ base ∧ e ∉ opens) := by
  rw [setFunc_iff]
  apply and_congr
  · apply imp_congr_right
    intro _
    constructor
    · intro h e he
      by_cases ho : e ∈ opens
      · exact Or.inr ho
      · exact mem_union.mp (h e (List.mem_filter.mpr ⟨he, by simpa using ho⟩))
    · intro h e he
      exact mem_union.mpr (h e (List.mem_filter.mp he).1)
  · apply imp_congr_right
    intro _
    constructor
    · rintro ⟨e, he, hb⟩
      obtain ⟨h1, h2⟩ := List.mem_filter.mp he
      have h2 : e ∉ opens := by simpa using h2
      exact ⟨e, h1, (mem_union.mp hb).resolve_right h2, h2⟩
    · rintro ⟨e, he, hb, ho⟩
      exact ⟨e, List.mem_filter.mpr ⟨he, by simpa using ho⟩, mem_union.mpr (Or.inl hb)⟩

/-- The final filter accepts exactly the admissible reactions. -/
theorem accept_iff (cfg : Cfg η) (x : Rx η) : accept cfg x = .ok true ↔ Admissible cfg x := by
  unfold accept
  have hP : precFunc cfg (x.reactants.filter fun e => e ∉ cfg.openEntries) = true ↔ (cfg.precursors ≠ [] →
      (cfg.exclP = true → ∀ e ∈ x.reactants, e ∈ cfg.precursors ∨ e ∈ cfg.openEntries) ∧
      (cfg.exclP = false → ∃ e ∈ x.reactants, e ∈ cfg.precursors ∧ e ∉ cfg.openEntries)) := by
    unfold precFunc
    split_ifs with h
    · exact ⟨fun _ h' => absurd h h', fun _ => rfl⟩
    · rw [setFunc_nonopen]; exact ⟨fun h' _ => h', fun h' => h' h⟩
  have hT : targFunc cfg (x.products.filter fun e => e ∉ cfg.openEntries) = true ↔ (cfg.targets ≠ [] →
      (cfg.exclT = true → ∀ e ∈ x.products, e ∈ cfg.targets ∨ e ∈ cfg.openEntries) ∧
      (cfg.exclT = false → ∃ e ∈ x.products, e ∈ cfg.targets ∧ e ∉ cfg.openEntries)) := by
    unfold targFunc
    split_ifs with h
    · exact ⟨fun _ h' => absurd h h', fun _ => rfl⟩
    · rw [setFunc_nonopen]; exact ⟨fun h' _ => h', fun h' => h' h⟩
  split_ifs with h1
  · constructor
    · intro h; simp at h
    · intro a
      exfalso
      rcases h1 with h1 | ⟨h1, h2⟩ | ⟨h1, h2⟩
      · rw [a.notIdentity] at h1; simp at h1
      · exact h2 (a.balanced h1)
      · exact h2 (a.clean h1)
  · push Not at h1
    obtain ⟨n1, n2, n3⟩ := h1
    cases hn : x.nc with
    | none =>
      constructor
      · intro h; simp at h
      · intro a; obtain ⟨k, hk, _⟩ := a.constraints; rw [hn] at hk; simp at hk
    | some k =>
      simp only
      split_ifs with h2
      · constructor
        · intro h; simp at h
        · intro a
          obtain ⟨k', hk, hle⟩ := a.constraints
          rw [hn] at hk
          cases hk
          linarith
      · rw [Except.ok.injEq, Bool.and_eq_true, hP, hT]
        constructor
        · rintro ⟨hp, ht⟩
          exact ⟨by simpa using n1, n2, n3, ⟨k, hn, not_lt.mp h2⟩, fun h => (hp h).1, fun h => (hp h).2,
            fun h => (ht h).1, fun h => (ht h).2⟩
        · intro a
          exact ⟨fun h => ⟨a.precursors h, a.somePrecursor h⟩, fun h => ⟨a.targets h, a.someTarget h⟩⟩

theorem acceptAll_mem (cfg : Cfg η) (l out : List (Rx η)) (h : acceptAll cfg l = .ok out) :
    ∀ x, x ∈ out ↔ x ∈ l ∧ accept cfg x = .ok true := by
  induction l generalizing out with
  | nil => intro x; rw [← Except.ok.inj h]; simp
  | cons a l ih =>
    unfold acceptAll at h
    rw [bind_ok] at h
    obtain ⟨b, hb, h⟩ := h
    rw [bind_ok] at h
    obtain ⟨rest, hrest, h⟩ := h
    have h := Except.ok.inj h
    intro x
    rw [List.mem_cons]
    cases b with
    | true =>
      rw [← h, if_pos rfl, List.mem_cons, ih rest hrest x]
      constructor
      · rintro (rfl | ⟨h1, h2⟩)
        · exact ⟨Or.inl rfl, hb⟩
        · exact ⟨Or.inr h1, h2⟩
      · rintro ⟨rfl | h1, h2⟩
        · exact Or.inl rfl
        · exact Or.inr ⟨h1, h2⟩
    | false =>
      rw [← h]
      simp only [Bool.false_eq_true, if_false]
      rw [ih rest hrest x]
      constructor
      · rintro ⟨h1, h2⟩; exact ⟨Or.inr h1, h2⟩
      · rintro ⟨rfl | h1, h2⟩
        · rw [hb] at h2; simp at h2
        · exact ⟨h1, h2⟩

theorem reactPair_mem (cfg : Cfg η) (react : List η → List η → τ → Except Err (List (Rx η))) (rp : List η × List η) (t : τ) (v)
    (h : reactPair cfg react rp t = .ok v) (x : Rx η) (hx : x ∈ v) :
    Admissible cfg x ∧ earlyOk cfg rp.1 rp.2 = true ∧ ∃ l, react rp.1 rp.2 t = .ok l ∧ x ∈ l := by
  unfold reactPair at h
  split_ifs at h with he
  · rw [bind_ok] at h
    obtain ⟨l, hl, h⟩ := h
    have := (acceptAll_mem cfg l v h x).mp hx
    exact ⟨(accept_iff cfg x).mp this.2, he, l, hl, this.1⟩
  · rw [← Except.ok.inj h] at hx; simp at hx

/-- Every reaction returned by an enumerator is admissible, for every entry set, enumerator type (pair generation and reacting
function), chunking and schedule; and it was suggested for one of the candidate pairs. -/
theorem C34_admissible (elems : η → List Sym) (cfg : Cfg η) (entries : List η) (n : ℤ)
    (pairsOf : List (List η) → List (List η × List η)) (iterLen : List (List η) → ℕ) (tagOf : List Char → τ)
    (chunkSize maxJobs : ℕ) (react : List η → List η → τ → Except Err (List (Rx η)))
    (wait : ℕ → List (Chunk (List η × List η) τ) → List (Chunk (List η × List η) τ) × List (Chunk (List η × List η) τ))
    (hw : Verif.Props.Utils.WaitSpec wait) (out : List (Rx η))
    (h : enumerate elems cfg entries n pairsOf iterLen tagOf chunkSize maxJobs react wait = .ok out) :
    ∀ x ∈ out, Admissible cfg x ∧
      ∃ sys ∈ combosDict elems entries cfg.openEntries n, ∃ rp ∈ pairsOf sys.2, ∃ l, react rp.1 rp.2 (tagOf sys.1) = .ok l ∧ x ∈ l := by
  unfold enumerate at h
  rw [bind_ok] at h
  obtain ⟨size, hsize, h⟩ := h
  have hs : 0 < size := by
    unfold effSize at hsize
    split_ifs at hsize with h1 h2 h3
    · rw [← Except.ok.inj hsize]; exact Nat.succ_pos _
    · rw [← Except.ok.inj hsize]; exact Nat.pos_of_ne_zero h1
  obtain ⟨out', hser, hperm⟩ := (C33_schedule cfg react wait hw size hs _).2 out h
  obtain ⟨hall, hout⟩ := (flatM_ok _ _ _).mp hser
  intro x hx
  have hx' := hperm.mem_iff.mp hx
  rw [hout] at hx'
  obtain ⟨c, hc, hxc⟩ := List.mem_flatMap.mp hx'
  obtain ⟨v, hv⟩ := hall c hc
  have hval : val (fun c : (List η × List η) × τ => reactPair cfg react c.1 c.2) c = v := by unfold val; simp only [hv]
  rw [hval] at hxc
  obtain ⟨h1, _, l, hl, hxl⟩ := reactPair_mem cfg react c.1 c.2 v hv x hxc
  obtain ⟨it, hit, hcit⟩ := List.mem_flatMap.mp hc
  obtain ⟨sys, hsys, rfl⟩ := List.mem_map.mp hit
  obtain ⟨rp, hrp, rfl⟩ := List.mem_map.mp hcit
  exact ⟨h1, sys, (List.mem_filter.mp hsys).1, rp, hrp, l, hl, hxl⟩

end Results

end Verif.Props.Enum
