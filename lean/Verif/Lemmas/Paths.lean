import Verif.Spec.Paths
import Verif.Lemmas.Network

/-! Lemmas on walks, and a search that meets the assumptions made of Dijkstra's algorithm. -/

namespace Verif.Lemmas.Paths

open Verif.Model.Network Verif.Spec.Paths

variable {ν ε : Type}

theorem isWalk_mono {g h : Graph ν ε} (hgh : ∀ e ∈ g.edges, e ∈ h.edges) : ∀ p, IsWalk g p → IsWalk h p
  | [], _ => trivial
  | [_], _ => trivial
  | a :: b :: l, hw => by
    obtain ⟨⟨e, he⟩, hw⟩ := hw
    exact ⟨⟨e, hgh _ he⟩, isWalk_mono hgh (b :: l) hw⟩

theorem realizes_mono (w : ε → ℚ) {g h : Graph ν ε} (hgh : ∀ e ∈ g.edges, e ∈ h.edges) :
    ∀ p c, Realizes w g p c → Realizes w h p c
  | [], _, hc => hc
  | [_], _, hc => hc
  | a :: b :: l, c, hc => by
    obtain ⟨e, c', he, hr, rfl⟩ := hc
    exact ⟨e, c', hgh _ he, realizes_mono w hgh (b :: l) c' hr, rfl⟩

theorem realizes_walk (w : ε → ℚ) (g : Graph ν ε) : ∀ p c, Realizes w g p c → IsWalk g p
  | [], _, _ => trivial
  | [_], _, _ => trivial
  | a :: b :: l, c, hc => by
    obtain ⟨e, c', he, hr, rfl⟩ := hc
    exact ⟨⟨e, he⟩, realizes_walk w g (b :: l) c' hr⟩

theorem walk_realizes (w : ε → ℚ) (g : Graph ν ε) : ∀ p, IsWalk g p → ∃ c, Realizes w g p c
  | [], _ => ⟨0, rfl⟩
  | [_], _ => ⟨0, rfl⟩
  | a :: b :: l, hw => by
    obtain ⟨⟨e, he⟩, hw⟩ := hw
    obtain ⟨c, hc⟩ := walk_realizes w g (b :: l) hw
    exact ⟨_, e, c, he, hc, rfl⟩

theorem realizes_nonneg (w : ε → ℚ) (g : Graph ν ε) (hn : NonNeg w g) : ∀ p c, Realizes w g p c → 0 ≤ c
  | [], _, hc => le_of_eq hc.symm
  | [_], _, hc => le_of_eq hc.symm
  | a :: b :: l, c, hc => by
    obtain ⟨e, c', he, hr, rfl⟩ := hc
    exact add_nonneg (hn _ he) (realizes_nonneg w g hn (b :: l) c' hr)

/-- Splitting a walk at a node. -/
theorem isWalk_append (g : Graph ν ε) (a : ℕ) (m : List ℕ) :
    ∀ l, IsWalk g (l ++ a :: m) ↔ IsWalk g (l ++ [a]) ∧ IsWalk g (a :: m)
  | [] => by simp [IsWalk]
  | [x] => by
    simp only [List.cons_append, List.nil_append, IsWalk]
    tauto
  | x :: y :: l => by
    have := isWalk_append g a m (y :: l)
    simp only [List.cons_append, IsWalk] at this ⊢
    rw [this]
    tauto

theorem realizes_append (w : ε → ℚ) (g : Graph ν ε) (a : ℕ) (m : List ℕ) :
    ∀ l c, Realizes w g (l ++ a :: m) c ↔
      ∃ c₁ c₂, Realizes w g (l ++ [a]) c₁ ∧ Realizes w g (a :: m) c₂ ∧ c = c₁ + c₂
  | [], c => by
    simp only [List.nil_append]
    constructor
    · intro h; exact ⟨0, c, rfl, h, by ring⟩
    · rintro ⟨c₁, c₂, h1, h2, rfl⟩
      have : c₁ = 0 := h1
      subst this
      simpa using h2
  | [x], c => by
    simp only [List.cons_append, List.nil_append]
    constructor
    · rintro ⟨e, c', he, hr, rfl⟩
      exact ⟨w e, c', ⟨e, 0, he, rfl, by ring⟩, hr, rfl⟩
    · rintro ⟨c₁, c₂, ⟨e, c', he, h0, rfl⟩, h2, rfl⟩
      have : c' = 0 := h0
      subst this
      exact ⟨e, c₂, he, h2, by ring⟩
  | x :: y :: l, c => by
    have ih := realizes_append w g a m (y :: l)
    simp only [List.cons_append] at ih ⊢
    constructor
    · rintro ⟨e, c', he, hr, rfl⟩
      obtain ⟨c₁, c₂, h1, h2, rfl⟩ := (ih c').mp hr
      exact ⟨w e + c₁, c₂, ⟨e, c₁, he, h1, rfl⟩, h2, by ring⟩
    · rintro ⟨c₁, c₂, ⟨e, c', he, h0, rfl⟩, h2, rfl⟩
      exact ⟨e, c' + c₂, he, (ih _).mpr ⟨c', c₂, h0, h2, rfl⟩, by ring⟩

/-- Every walk contains a loop-free walk with the same ends that does not cost more. -/
theorem loop_erase (w : ε → ℚ) (g : Graph ν ε) (hn : NonNeg w g) :
    ∀ (n : ℕ) (q : List ℕ) (c : ℚ), q.length ≤ n → q ≠ [] → Realizes w g q c →
      ∃ p c', p.Nodup ∧ p.head? = q.head? ∧ p.getLast? = q.getLast? ∧ p ⊆ q ∧ Realizes w g p c' ∧ c' ≤ c := by
  intro n
  induction n with
  | zero =>
    intro q c hl hne
    exact absurd (List.length_eq_zero_iff.mp (by omega)) hne
  | succ n ih =>
    intro q c hl hne hr
    match q, hl, hr with
    | [a], _, hr => exact ⟨[a], c, by simp, rfl, rfl, fun _ h => h, hr, le_refl _⟩
    | a :: b :: l, hl, hr =>
      by_cases ha : a ∈ b :: l
      · obtain ⟨l1, l2, hsplit⟩ := List.append_of_mem ha
        have hr' := hr
        rw [hsplit, ← List.cons_append, realizes_append] at hr'
        obtain ⟨c₁, c₂, h1, h2, rfl⟩ := hr'
        have hlen : (a :: l2).length ≤ n := by
          have := congrArg List.length hsplit
          simp at this hl ⊢
          omega
        obtain ⟨p, c', hp1, hp2, hp3, hp4, hp5, hp6⟩ := ih (a :: l2) c₂ hlen (by simp) h2
        refine ⟨p, c', hp1, by rw [hp2]; rfl, ?_, ?_, hp5, ?_⟩
        · rw [hp3, hsplit, ← List.cons_append, List.getLast?_append]
          cases h : (a :: l2).getLast? with
          | none => simp at h
          | some z => rfl
        · intro x hx
          have := hp4 hx
          rw [hsplit]
          simp at this ⊢
          tauto
        · have := realizes_nonneg w g hn _ _ h1
          linarith
      · obtain ⟨e, c₀, he, hr0, rfl⟩ := hr
        obtain ⟨p, c', hp1, hp2, hp3, hp4, hp5, hp6⟩ := ih (b :: l) c₀ (by simp at hl ⊢; omega) (by simp) hr0
        match p, hp2 with
        | b' :: p', hp2 =>
          have hb : b' = b := by simpa using hp2
          subst hb
          refine ⟨a :: b' :: p', w e + c', ?_, rfl, ?_, ?_, ⟨e, c', he, hp5, rfl⟩, by linarith⟩
          · rw [List.nodup_cons]
            exact ⟨fun hc => ha (hp4 hc), hp1⟩
          · rw [List.getLast?_cons_cons, hp3, List.getLast?_cons_cons]
          · intro x hx
            rw [List.mem_cons] at hx
            rcases hx with rfl | hx
            · simp
            · exact List.mem_cons_of_mem _ (hp4 hx)

/-- A loop-free walk is not longer than the edge list. -/
theorem nodup_walk_length (g : Graph ν ε) (p : List ℕ) (hp : p.Nodup) (hw : IsWalk g p) :
    p.length ≤ g.edges.length + 1 := by
  have hsub : ∀ p, IsWalk g p → p.dropLast ⊆ g.edges.map (·.1) := by
    intro p
    induction p with
    | nil => intro _ x hx; simp at hx
    | cons a l ih =>
      intro hw x hx
      cases l with
      | nil => simp at hx
      | cons b l =>
        obtain ⟨⟨e, he⟩, hw⟩ := hw
        rw [List.dropLast_cons_cons, List.mem_cons] at hx
        rcases hx with rfl | hx
        · exact List.mem_map_of_mem (f := (·.1)) he
        · exact ih hw hx
  have h1 := (hp.sublist (List.dropLast_sublist p))
  have h2 := (List.subperm_of_subset h1 (hsub p hw)).length_le
  simp at h2
  omega

/-- All loop-free walks from `x` to `t` avoiding `vis`, with their costs. -/
def search (w : ε → ℚ) (g : Graph ν ε) (t : ℕ) : ℕ → List ℕ → ℕ → List (ℚ × List ℕ)
  | 0, _, _ => []
  | n + 1, vis, x =>
    if x = t then [(0, [t])]
    else (g.edges.filter fun e => e.1 = x ∧ e.2.1 ∉ x :: vis).flatMap fun e =>
      (search w g t n (x :: vis) e.2.1).map fun cp => (w e.2.2 + cp.1, x :: cp.2)

/-- The cheapest entry of a list (the first one among equals). -/
def cheapest : List (ℚ × List ℕ) → Option (ℚ × List ℕ)
  | [] => none
  | x :: l => match cheapest l with
    | none => some x
    | some y => if x.1 ≤ y.1 then some x else some y

/-- An exhaustive search, standing in for Dijkstra's algorithm in examples. -/
def shortest (w : ε → ℚ) (g : Graph ν ε) (s t : ℕ) : Option (List ℕ) :=
  (cheapest (search w g t (g.edges.length + 1) [] s)).map (·.2)

theorem cheapest_spec (l : List (ℚ × List ℕ)) :
    (cheapest l = none ↔ l = []) ∧ ∀ x, cheapest l = some x → x ∈ l ∧ ∀ y ∈ l, x.1 ≤ y.1 := by
  induction l with
  | nil => simp [cheapest]
  | cons a l ih =>
    unfold cheapest
    cases hc : cheapest l with
    | none =>
      have := ih.1.mp hc
      subst this
      simp
    | some y =>
      have hy := ih.2 y hc
      simp only
      constructor
      · split <;> simp
      · intro x hx
        split at hx
        · rename_i hle
          simp only [Option.some.injEq] at hx
          subst hx
          refine ⟨List.mem_cons_self, ?_⟩
          intro z hz
          rw [List.mem_cons] at hz
          rcases hz with rfl | hz
          · exact le_refl _
          · exact le_trans hle (hy.2 z hz)
        · rename_i hle
          simp only [Option.some.injEq] at hx
          subst hx
          refine ⟨List.mem_cons_of_mem _ hy.1, ?_⟩
          intro z hz
          rw [List.mem_cons] at hz
          rcases hz with rfl | hz
          · exact le_of_lt (not_le.mp hle)
          · exact hy.2 z hz

theorem search_sound (w : ε → ℚ) (g : Graph ν ε) (t : ℕ) (n : ℕ) (vis : List ℕ) (x : ℕ) (hx : x ∉ vis)
    (cp : ℚ × List ℕ) (h : cp ∈ search w g t n vis x) :
    cp.2.head? = some x ∧ cp.2.getLast? = some t ∧ Realizes w g cp.2 cp.1 ∧ cp.2.Nodup ∧ ∀ y ∈ cp.2, y ∉ vis := by
  induction n generalizing vis x cp with
  | zero => simp [search] at h
  | succ n ih =>
    unfold search at h
    split at h
    · rename_i hxt
      rw [List.mem_singleton] at h
      subst h
      subst hxt
      exact ⟨rfl, rfl, rfl, by simp, by simpa using hx⟩
    · rw [List.mem_flatMap] at h
      obtain ⟨e, he, h⟩ := h
      rw [List.mem_filter, decide_eq_true_iff] at he
      rw [List.mem_map] at h
      obtain ⟨cq, hcq, rfl⟩ := h
      obtain ⟨h1, h2, h3, h4, h5⟩ := ih (x :: vis) e.2.1 he.2.2 cq hcq
      obtain ⟨c, q⟩ := cq
      match q, h1 with
      | y :: q', h1 =>
        have hy : y = e.2.1 := by simpa using h1
        refine ⟨rfl, ?_, ⟨e.2.2, c, ?_, h3, rfl⟩, ?_, ?_⟩
        · rw [List.getLast?_cons_cons]; exact h2
        · rw [hy, ← he.2.1]; exact he.1
        · rw [List.nodup_cons]
          exact ⟨fun hc => h5 x hc List.mem_cons_self, h4⟩
        · intro z hz
          rw [List.mem_cons] at hz
          rcases hz with rfl | hz
          · exact hx
          · exact fun hv => h5 z hz (List.mem_cons_of_mem _ hv)

theorem search_complete (w : ε → ℚ) (g : Graph ν ε) (t : ℕ) (p : List ℕ) (n : ℕ) (vis : List ℕ) (x : ℕ) (c : ℚ)
    (hn : p.length ≤ n) (h1 : p.head? = some x) (h2 : p.getLast? = some t) (h3 : Realizes w g p c) (h4 : p.Nodup)
    (h5 : ∀ y ∈ p, y ∉ vis) : (c, p) ∈ search w g t n vis x := by
  induction p generalizing n vis x c with
  | nil => simp at h1
  | cons a l ih =>
    have ha : a = x := by simpa using h1
    subst ha
    cases n with
    | zero => simp at hn
    | succ n =>
      cases l with
      | nil =>
        have : a = t := by simpa using h2
        subst this
        have hc : c = 0 := h3
        subst hc
        simp [search]
      | cons b l =>
        obtain ⟨e, c', he, hr, rfl⟩ := h3
        rw [List.getLast?_cons_cons] at h2
        have hat : a ≠ t := by
          rintro rfl
          exact (List.nodup_cons.mp h4).1 (List.mem_of_getLast? h2)
        unfold search
        rw [if_neg hat, List.mem_flatMap]
        have hav : b ∉ a :: vis := by
          rw [List.mem_cons]
          rintro (rfl | hv)
          · exact (List.nodup_cons.mp h4).1 List.mem_cons_self
          · exact h5 b (by simp) hv
        refine ⟨(a, b, e), ?_, ?_⟩
        · rw [List.mem_filter, decide_eq_true_iff]
          exact ⟨he, rfl, hav⟩
        · rw [List.mem_map]
          refine ⟨(c', b :: l), ?_, rfl⟩
          apply ih n (a :: vis) b c' (by simp at hn ⊢; omega) rfl h2 hr (List.nodup_cons.mp h4).2
          intro y hy
          rw [List.mem_cons]
          rintro (rfl | hv)
          · exact (List.nodup_cons.mp h4).1 hy
          · exact h5 y (List.mem_cons_of_mem _ hy) hv

/-- The assumptions made of Dijkstra's algorithm can be met. -/
theorem shortest_dijkstra (w : ε → ℚ) : Dijkstra (ν := ν) w (shortest w) := by
  have key : ∀ (g : Graph ν ε) s t p, shortest w g s t = some p →
      ∃ c, (c, p) ∈ search w g t (g.edges.length + 1) [] s ∧
        ∀ y ∈ search w g t (g.edges.length + 1) [] s, c ≤ y.1 := by
    intro g s t p h
    unfold shortest at h
    rw [Option.map_eq_some_iff] at h
    obtain ⟨⟨c, p'⟩, h, rfl⟩ := h
    exact ⟨c, (cheapest_spec _).2 _ h⟩
  have least : ∀ (g : Graph ν ε) s t q c', NonNeg w g → Joins g s t q → Realizes w g q c' →
      ∃ y ∈ search w g t (g.edges.length + 1) [] s, y.1 ≤ c' := by
    intro g s t q c' hn hj hr
    obtain ⟨p, c, h1, h2, h3, _, h5, h6⟩ := loop_erase w g hn q.length q c' (le_refl _)
      (by rintro rfl; simpa using hj.start) hr
    exact ⟨(c, p), search_complete w g t p _ [] s c (nodup_walk_length g p h1 (realizes_walk w g p c h5))
      (h2.trans hj.start) (h3.trans hj.stop) h5 h1 (by simp), h6⟩
  refine ⟨?_, ?_, ?_, ?_⟩
  · intro g s t p _ _ h
    obtain ⟨c, hm, _⟩ := key g s t p h
    obtain ⟨h1, h2, h3, _, _⟩ := search_sound w g t _ [] s (by simp) _ hm
    exact ⟨h1, h2, realizes_walk w g _ _ h3⟩
  · intro g s t p _ _ h
    obtain ⟨c, hm, _⟩ := key g s t p h
    exact (search_sound w g t _ [] s (by simp) _ hm).2.2.2.1
  · intro g s t p hn _ h
    obtain ⟨c, hm, hle⟩ := key g s t p h
    refine ⟨c, (search_sound w g t _ [] s (by simp) _ hm).2.2.1, ?_⟩
    intro q c' hj hr
    obtain ⟨y, hy, hyc⟩ := least g s t q c' hn hj hr
    exact le_trans (hle y hy) hyc
  · intro g s t hn _ h q hj
    unfold shortest at h
    rw [Option.map_eq_none_iff, (cheapest_spec _).1] at h
    obtain ⟨c, hc⟩ := walk_realizes w g q hj.walk
    obtain ⟨y, hy, _⟩ := least g s t q c hn hj hc
    rw [h] at hy
    simp at hy

end Verif.Lemmas.Paths
