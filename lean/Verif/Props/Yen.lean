import Verif.Lemmas.Yen

/-!
# C51, C52: the k-shortest-path search

`d` is `rx.dijkstra_shortest_paths`, assumed to satisfy `Dijkstra`; `shortest` (an exhaustive
search) shows that the assumption can be met and is used in the counterexamples.
-/

namespace Verif.Props.Yen

open Verif.Model.Network Verif.Spec.Paths Verif.Lemmas.Paths

variable {ν ε : Type}

/-- **C51.** For every graph with non-negative weights, every `k` and every shortest-path routine
meeting its specification, the search does not raise; every returned path leads from the precursors
to the target along edges of the graph and reaches the target only at its end; the paths are
pairwise distinct and at most `max k 1` many; nothing is returned only if no path exists; and the
first path has least total weight among all walks.  The caller's graph is not an output of the
search: it works on a copy. -/
theorem C51_paths {w : ε → ℚ} {d : Graph ν ε → ℕ → ℕ → Option (List ℕ)} (hd : Dijkstra w d)
    (g : Graph ν ε) (hn : NonNeg w g) (k s t : ℕ) (hst : s ≠ t) :
    ∃ paths, yens d w g k s t = some paths ∧
      (∀ p ∈ paths, Joins g s t p ∧ t ∉ p.dropLast) ∧ paths.Nodup ∧ paths.length ≤ max k 1 ∧
      (paths = [] ↔ ∀ q, ¬ Joins g s t q) ∧
      ∀ p, paths.head? = some p → p.Nodup ∧
        ∃ c, Realizes w g p c ∧ ∀ q c', Joins g s t q → Realizes w g q c' → c ≤ c' := by
  unfold yens
  cases hf : d g s t with
  | none =>
    have := hd.none_joins g s t hn hst hf
    exact ⟨[], rfl, by simp, by simp, by simp, by simpa using this, by simp⟩
  | some first =>
    have hj := hd.some_joins g s t first hn hst hf
    have hnd := hd.some_nodup g s t first hn hst hf
    obtain ⟨c, hc, _⟩ := pathCost_some w g first hj.walk
    simp only
    rw [hc]
    simp only
    obtain ⟨paths, h1, h2, h3, h4, h5⟩ := yenLoop_spec hd hn (s := s) (t := t) (k - 1) 1 g [first] []
      (List.Perm.refl _) (by intro p hp; rw [List.mem_singleton] at hp; exact hp ▸ good_of_nodup hj hnd)
      (by simp) (by simp)
    obtain ⟨rest, hrest⟩ := h2
    refine ⟨paths, h1, fun p hp => ⟨(h3 p hp).joins, (h3 p hp).avoid⟩, h4, ?_, ?_, ?_⟩
    · simp at h5
      omega
    · constructor
      · intro hp
        rw [hp] at hrest
        simp at hrest
      · intro hno
        exact absurd hj (hno first)
    · intro p hp
      rw [← hrest] at hp
      have : first = p := by simpa using hp
      subst this
      exact ⟨hnd, hd.some_least g s t first hn hst hf⟩

/-! ### Two paths -/

/-- Without parallel edges a node sequence has at most one cost. -/
theorem realizes_unique {w : ε → ℚ} {g : Graph ν ε} (hp : NoParallel g) :
    ∀ p c₁ c₂, Realizes w g p c₁ → Realizes w g p c₂ → c₁ = c₂
  | [], _, _, h1, h2 => h1.trans (Eq.symm h2)
  | [_], _, _, h1, h2 => h1.trans (Eq.symm h2)
  | a :: b :: l, c₁, c₂, h1, h2 => by
    obtain ⟨e₁, d₁, m₁, r₁, rfl⟩ := h1
    obtain ⟨e₂, d₂, m₂, r₂, rfl⟩ := h2
    have he : ((a, b, e₁) : ℕ × ℕ × ε) = (a, b, e₂) := List.inj_on_of_nodup_map hp m₁ m₂ rfl
    have : e₁ = e₂ := by simpa using he
    rw [this, realizes_unique hp (b :: l) d₁ d₂ r₁ r₂]

/-- A walk that never steps from `x` survives the removal of an edge leaving `x`. -/
theorem realizes_away {w : ε → ℚ} {g h : Graph ν ε} (x : ℕ) (hgh : ∀ e ∈ g.edges, e.1 ≠ x → e ∈ h.edges) :
    ∀ p c, x ∉ p → Realizes w g p c → Realizes w h p c
  | [], _, _, hr => hr
  | [_], _, _, hr => hr
  | a :: b :: l, _, hx, hr => by
    obtain ⟨e, c', he, hr, rfl⟩ := hr
    have hx' : x ∉ b :: l := fun hc => hx (List.mem_cons_of_mem _ hc)
    refine ⟨e, c', hgh _ he ?_, realizes_away x hgh (b :: l) c' hx' hr, rfl⟩
    intro hc
    exact hx (by simp [← hc])

/-- Two different loop-free paths with the same ends part at some node. -/
theorem deviate (t : ℕ) : ∀ (p q : List ℕ), p.Nodup → q.Nodup → p.head? = q.head? → p ≠ [] →
    p.getLast? = some t → q.getLast? = some t → p ≠ q →
    ∃ i, i + 1 < p.length ∧ i + 1 < q.length ∧ p.take (i + 1) = q.take (i + 1) ∧ p[i + 1]? ≠ q[i + 1]?
  | [], _, _, _, _, hne, _, _, _ => absurd rfl hne
  | a :: p, [], _, _, hh, _, _, _, _ => by simp at hh
  | [a], b :: q, _, hq, hh, _, hp, hqt, hne => by
    exfalso
    have hab : a = b := by simpa using hh
    have hat : a = t := by simpa using hp
    subst hab
    subst hat
    cases q with
    | nil => exact hne rfl
    | cons c q =>
      rw [List.getLast?_cons_cons] at hqt
      exact (List.nodup_cons.mp hq).1 (List.mem_of_getLast? hqt)
  | a :: c :: p, [b], hp, _, hh, _, hpt, hqt, hne => by
    exfalso
    have hab : a = b := by simpa using hh
    have hat : b = t := by simpa using hqt
    subst hab
    subst hat
    rw [List.getLast?_cons_cons] at hpt
    exact (List.nodup_cons.mp hp).1 (List.mem_of_getLast? hpt)
  | a :: c :: p, b :: e :: q, hp, hq, hh, _, hpt, hqt, hne => by
    have hab : a = b := by simpa using hh
    subst hab
    by_cases hce : c = e
    · subst hce
      obtain ⟨i, h1, h2, h3, h4⟩ := deviate t (c :: p) (c :: q) (List.nodup_cons.mp hp).2 (List.nodup_cons.mp hq).2 rfl
        (by simp) (by rw [List.getLast?_cons_cons] at hpt; exact hpt) (by rw [List.getLast?_cons_cons] at hqt; exact hqt)
        (fun hc => hne (by rw [hc]))
      refine ⟨i + 1, by simp at h1 ⊢; omega, by simp at h2 ⊢; omega, ?_, ?_⟩
      · rw [List.take_succ_cons (as := c :: p), List.take_succ_cons (as := c :: q), h3]
      · rw [List.getElem?_cons_succ, List.getElem?_cons_succ]
        exact h4
    · exact ⟨0, by simp, by simp, by simp, by simpa using hce⟩

/-- The queue after the first round: no candidate is the first path, and every path that leaves the
first path at one of the treated nodes is matched by a candidate that does not cost more. -/
structure Covers (w : ε → ℚ) (G : Graph ν ε) (s t : ℕ) (first : List ℕ) (is : List ℕ) (b : List (ℚ × List ℕ)) : Prop where
  ne : ∀ x ∈ b, x.2 ≠ first
  real : ∀ x ∈ b, Realizes w G x.2 x.1
  cover : ∀ i ∈ is, ∀ q c, q.Nodup → Joins G s t q → q.take (i + 1) = first.take (i + 1) →
    i + 1 < q.length → q[i + 1]? ≠ first[i + 1]? → Realizes w G q c → ∃ x ∈ b, x.1 ≤ c

theorem noParallel_perm {g h : Graph ν ε} (hp : g.edges.Perm h.edges) (hn : NoParallel h) : NoParallel g :=
  (hp.map _).nodup_iff.mpr hn

theorem spur_covers {w : ε → ℚ} {d : Graph ν ε → ℕ → ℕ → Option (List ℕ)} (hd : Dijkstra w d)
    {G : Graph ν ε} (hn : NonNeg w G) (hpar : NoParallel G) {s t : ℕ} (first : List ℕ) (hfirst : Joins G s t first)
    (hfn : first.Nodup) (g : Graph ν ε) (b : List (ℚ × List ℕ)) (hg : g.edges.Perm G.edges) (i : ℕ)
    (hi : i < first.length - 1) (is : List ℕ) (hb : Covers w G s t first is b) (st : Graph ν ε × List (ℚ × List ℕ))
    (hst : spurStep d w t [first] first (g, b) i = some st) :
    Covers w G s t first (is ++ [i]) st.2 := by
  have hlt : i < first.length := by omega
  have hlt' : i + 1 < first.length := by omega
  have hs : first[i]? = some first[i] := List.getElem?_eq_getElem hlt
  have hs' : first[i + 1]? = some first[i + 1] := List.getElem?_eq_getElem hlt'
  have hsplit : first = first.take i ++ first[i] :: first[i + 1] :: first.drop (i + 2) := by
    conv_lhs => rw [← List.take_append_drop i first, List.drop_eq_getElem_cons hlt, List.drop_eq_getElem_cons hlt']
  set x := first[i] with hx
  set y := first[i + 1] with hy
  have hw := hfirst.walk
  rw [hsplit, isWalk_append] at hw
  obtain ⟨e₀, he₀⟩ := hw.2.1
  obtain ⟨e, he⟩ := getEdge_exists g x y ⟨e₀, hg.symm.mem_iff.mp he₀⟩
  have hrm : [first].foldl (removeShared (first.take i) i) (g, []) = (g.removeEdge x y, [(x, y, e)]) := by
    simp only [List.foldl_cons, List.foldl_nil, removeShared, hs, hs']
    rw [if_pos trivial, he]
    rfl
  have hperm := removeEdge_perm g x y e he
  have hpar' := noParallel_perm hg hpar
  have hnot : ∀ e', (x, y, e') ∉ (g.removeEdge x y).edges := by
    intro e' hm
    have h1 := (hperm.map fun e : ℕ × ℕ × ε => (e.1, e.2.1)).nodup_iff.mp hpar'
    rw [List.map_cons, List.nodup_cons] at h1
    exact h1.1 (List.mem_map.mpr ⟨_, hm, rfl⟩)
  have hkeep : ∀ e' ∈ G.edges, (e'.1, e'.2.1) ≠ (x, y) → e' ∈ (g.removeEdge x y).edges := by
    intro e' hm hne
    have := hperm.mem_iff.mp (hg.symm.mem_iff.mp hm)
    rw [List.mem_cons] at this
    rcases this with h | h
    · exact absurd (by rw [h]) hne
    · exact h
  have hsub : ∀ e' ∈ (g.removeEdge x y).edges, e' ∈ G.edges :=
    fun e' hm => hg.mem_iff.mp (hperm.symm.mem_iff.mp (List.mem_cons_of_mem _ hm))
  have hnn : NonNeg w (g.removeEdge x y) := fun e' hm => hn e' (hsub e' hm)
  have hxt : x ≠ t := by
    intro hc
    have := (good_of_nodup hfirst hfn).avoid
    apply this
    rw [← hc, List.mem_iff_getElem?]
    refine ⟨i, ?_⟩
    rw [List.getElem?_dropLast, if_pos hi, hs]
  -- what a covered path looks like
  have hcov : ∀ q c, q.Nodup → Joins G s t q → q.take (i + 1) = first.take (i + 1) → i + 1 < q.length →
      q[i + 1]? ≠ first[i + 1]? → Realizes w G q c →
      ∃ m c₁ c₂, Realizes w G (first.take i ++ [x]) c₁ ∧ Realizes w (g.removeEdge x y) (x :: m) c₂ ∧
        Joins (g.removeEdge x y) x t (x :: m) ∧ c = c₁ + c₂ := by
    intro q c hqn hqj hqt hql hqd hqr
    have hli : i < q.length := by omega
    have hqi : q[i] = x := by
      have h1 : (q.take (i + 1))[i]? = (first.take (i + 1))[i]? := by rw [hqt]
      rw [List.getElem?_take_of_lt (by omega), List.getElem?_take_of_lt (by omega), hs,
        List.getElem?_eq_getElem hli] at h1
      simpa using h1
    have hqti : q.take i = first.take i := by
      have := congrArg (List.take i) hqt
      rwa [List.take_take, List.take_take, Nat.min_eq_left (by omega)] at this
    have hqs : q = first.take i ++ x :: q.drop (i + 1) := by
      conv_lhs => rw [← List.take_append_drop i q, List.drop_eq_getElem_cons hli, hqi, hqti]
    have hqr' := hqr
    rw [hqs, realizes_append] at hqr'
    obtain ⟨c₁, c₂, h1, h2, rfl⟩ := hqr'
    have hxm : x ∉ q.drop (i + 1) := by
      rw [hqs, List.nodup_append] at hqn
      exact (List.nodup_cons.mp hqn.2.1).1
    have hm : q.drop (i + 1) = q[i + 1] :: q.drop (i + 2) := List.drop_eq_getElem_cons hql
    have hne : q[i + 1] ≠ y := by
      intro hc
      apply hqd
      rw [List.getElem?_eq_getElem hql, hs', hc]
    have hr2 : Realizes w (g.removeEdge x y) (x :: q.drop (i + 1)) c₂ := by
      rw [hm] at h2 hxm ⊢
      obtain ⟨e', c', hm', hr', rfl⟩ := h2
      refine ⟨e', c', hkeep _ hm' ?_, ?_, rfl⟩
      · intro hc
        simp only [Prod.mk.injEq, true_and] at hc
        exact hne hc
      · apply realizes_away x _ _ _ hxm hr'
        intro e'' hm'' hne''
        apply hkeep _ hm''
        intro hc
        simp only [Prod.mk.injEq] at hc
        exact hne'' hc.1
    refine ⟨q.drop (i + 1), c₁, c₂, h1, hr2, ⟨rfl, ?_, realizes_walk w _ _ _ hr2⟩, rfl⟩
    have := hqj.stop
    rw [hqs, List.getLast?_append] at this
    cases hl : (x :: q.drop (i + 1)).getLast? with
    | none => simp at hl
    | some z => rw [hl] at this; exact this
  unfold spurStep at hst
  rw [hs] at hst
  simp only at hst
  rw [hrm] at hst
  simp only at hst
  cases hdd : d (g.removeEdge x y) x t with
  | none =>
    rw [hdd] at hst
    simp only [Option.some.injEq] at hst
    subst hst
    refine ⟨hb.ne, hb.real, ?_⟩
    intro j hj q c h1 h2 h3 h4 h5 h6
    rw [List.mem_append, List.mem_singleton] at hj
    rcases hj with hj | rfl
    · exact hb.cover j hj q c h1 h2 h3 h4 h5 h6
    · obtain ⟨m, _, _, _, _, hjm, _⟩ := hcov q c h1 h2 h3 h4 h5 h6
      exact absurd hjm (hd.none_joins _ _ _ hnn hxt hdd _)
  | some p =>
    rw [hdd] at hst
    simp only at hst
    have hpj := hd.some_joins _ _ _ p hnn hxt hdd
    obtain ⟨cp, hpr, hple⟩ := hd.some_least _ _ _ p hnn hxt hdd
    have hg' : ((g.removeEdge x y).addEdgesFrom [(x, y, e)]).edges.Perm G.edges := by
      unfold Graph.addEdgesFrom
      simp only [List.reverse_singleton, List.singleton_append]
      exact hperm.symm.trans hg
    split at hst
    · simp at hst
    · rename_i c hc
      simp only [Option.some.injEq] at hst
      subst hst
      have hr := realizes_mono w (fun e' hm => hg'.mem_iff.mp hm) _ _ (pathCost_realizes w _ _ c hc)
      have hps := hpj.start
      match p, hps, hpj, hpr, hple, hr with
      | x' :: p', hps, hpj, hpr, hple, hr =>
        have hxx : x' = x := by simpa using hps
        subst hxx
        refine ⟨?_, ?_, ?_⟩
        · intro z hz
          simp only [List.mem_append, List.mem_singleton] at hz
          rcases hz with hz | rfl
          · exact hb.ne z hz
          · intro heq
            have heq := heq.trans hsplit
            rw [(List.append_cancel_left_eq _ _ _).mp heq] at hpj
            obtain ⟨⟨e', hm⟩, _⟩ := hpj.walk
            exact hnot e' hm
        · intro z hz
          simp only [List.mem_append, List.mem_singleton] at hz
          rcases hz with hz | rfl
          · exact hb.real z hz
          · exact hr
        · intro j hj q cq h1 h2 h3 h4 h5 h6
          rw [List.mem_append, List.mem_singleton] at hj
          rcases hj with hj | rfl
          · obtain ⟨z, hz, hzc⟩ := hb.cover j hj q cq h1 h2 h3 h4 h5 h6
            exact ⟨z, List.mem_append_left _ hz, hzc⟩
          · obtain ⟨m, c₁, c₂, r1, r2, hjm, rfl⟩ := hcov q cq h1 h2 h3 h4 h5 h6
            refine ⟨(c, first.take j ++ x :: p'), by simp, ?_⟩
            rw [realizes_append] at hr
            obtain ⟨k₁, k₂, s1, s2, rfl⟩ := hr
            have e1 := realizes_unique hpar _ _ _ s1 r1
            have e2 := realizes_unique hpar _ _ _ s2 (realizes_mono w hsub _ _ hpr)
            have := hple _ _ hjm r2
            simp only
            rw [e1, e2]
            linarith

theorem fold_covers {w : ε → ℚ} {d : Graph ν ε → ℕ → ℕ → Option (List ℕ)} (hd : Dijkstra w d)
    {G : Graph ν ε} (hn : NonNeg w G) (hpar : NoParallel G) {s t : ℕ} (first : List ℕ) (hfirst : Joins G s t first)
    (hfn : first.Nodup) (js is : List ℕ) (hjs : ∀ i ∈ js, i < first.length - 1) (g : Graph ν ε) (b : List (ℚ × List ℕ))
    (hg : g.edges.Perm G.edges) (hb : Covers w G s t first is b) (st : Graph ν ε × List (ℚ × List ℕ))
    (hst : js.foldlM (spurStep d w t [first] first) (g, b) = some st) :
    Covers w G s t first (is ++ js) st.2 := by
  induction js generalizing is g b with
  | nil =>
    simp only [List.foldlM_nil, Option.pure_def, Option.some.injEq] at hst
    subst hst
    simpa using hb
  | cons j js ih =>
    have hgood := good_of_nodup hfirst hfn
    obtain ⟨g₁, n₁, h1, h2, h3⟩ := spurStep_spec hd hn [first] first hgood g b hg j (hjs j List.mem_cons_self)
    rw [List.foldlM_cons, h1] at hst
    simp only [Option.bind_eq_bind, Option.bind_some] at hst
    have hc := spur_covers hd hn hpar first hfirst hfn g b hg j (hjs j List.mem_cons_self) is hb _ h1
    have := ih (is ++ [j]) (fun i hi => hjs i (List.mem_cons_of_mem _ hi)) g₁ _ h2 hc hst
    rwa [List.append_assoc, List.singleton_append] at this

theorem queueLE_total : Std.Total queueLE := ⟨by
  intro x y
  unfold queueLE
  rcases lt_trichotomy x.1 y.1 with h | h | h
  · exact Or.inl (Or.inl h)
  · rcases le_total x.2 y.2 with h' | h'
    · exact Or.inl (Or.inr ⟨h, h'⟩)
    · exact Or.inr (Or.inr ⟨h.symm, h'⟩)
  · exact Or.inr (Or.inl h)⟩

theorem queueLE_trans : IsTrans (ℚ × List ℕ) queueLE := ⟨by
  intro x y z hxy hyz
  unfold queueLE at *
  rcases hxy with h1 | ⟨h1, h1'⟩ <;> rcases hyz with h2 | ⟨h2, h2'⟩
  · exact Or.inl (lt_trans h1 h2)
  · exact Or.inl (h2 ▸ h1)
  · exact Or.inl (h1 ▸ h2)
  · exact Or.inr ⟨h1.trans h2, le_trans h1' h2'⟩⟩

/-- The popped path is the cheapest one of the queue if nothing in the queue is already known. -/
theorem popNew_least (a : List (List ℕ)) (b : List (ℚ × List ℕ)) (hb : ∀ x ∈ b, x.2 ∉ a) (hne : b ≠ []) :
    ∃ x ∈ b, (popNew a b).1 = [x.2] ∧ ∀ y ∈ b, x.1 ≤ y.1 := by
  have hperm : (b.insertionSort queueLE).Perm b := List.perm_insertionSort _ _
  have := queueLE_total
  have := queueLE_trans
  have hsort := List.pairwise_insertionSort queueLE b
  cases hs : b.insertionSort queueLE with
  | nil =>
    rw [hs] at hperm
    exact absurd (List.nil_perm.mp hperm) hne
  | cons x l =>
    rw [hs] at hperm hsort
    have hx : x ∈ b := hperm.mem_iff.mp List.mem_cons_self
    refine ⟨x, hx, ?_, ?_⟩
    · unfold popNew
      rw [hs, List.dropWhile_cons_of_neg (by simpa using hb x hx)]
    · intro y hy
      have := hperm.symm.mem_iff.mp hy
      rw [List.mem_cons] at this
      rcases this with rfl | hm
      · exact le_refl _
      · rcases (List.pairwise_cons.mp hsort).1 y hm with h | h
        · exact le_of_lt h
        · exact le_of_eq h.1

/-- **C52, what does hold.**  In a graph without parallel edges, for `k ≥ 2`: if there is any
loop-free path besides the first one, a second path is returned, and it costs no more than any
loop-free path other than the first (and at least as much as the first, `C51_paths`).  Missing from
the full property: from the third path on the result is in general neither complete, nor sorted,
nor loop-free, and with parallel edges not even the second is right (see the theorems below). -/
theorem C52_second_partial {w : ε → ℚ} {d : Graph ν ε → ℕ → ℕ → Option (List ℕ)} (hd : Dijkstra w d)
    (g : Graph ν ε) (hn : NonNeg w g) (hpar : NoParallel g) (k s t : ℕ) (hst : s ≠ t) (hk : 2 ≤ k)
    (paths : List (List ℕ)) (hy : yens d w g k s t = some paths) (p₀ : List ℕ) (hp₀ : paths.head? = some p₀)
    (q : List ℕ) (hq : Joins g s t q) (hqn : q.Nodup) (hne : q ≠ p₀) :
    ∃ p₁, paths[1]? = some p₁ ∧ ∀ q' c₁ c', Joins g s t q' → q'.Nodup → q' ≠ p₀ →
      Realizes w g p₁ c₁ → Realizes w g q' c' → c₁ ≤ c' := by
  unfold yens at hy
  cases hf : d g s t with
  | none =>
    rw [hf] at hy
    simp only [Option.some.injEq] at hy
    rw [← hy] at hp₀
    simp at hp₀
  | some first =>
    rw [hf] at hy
    have hj := hd.some_joins g s t first hn hst hf
    have hnd := hd.some_nodup g s t first hn hst hf
    have hgood := good_of_nodup hj hnd
    obtain ⟨c, hc, _⟩ := pathCost_some w g first hj.walk
    simp only at hy
    rw [hc] at hy
    simp only at hy
    obtain ⟨n, hk'⟩ : ∃ n, k - 1 = n + 1 := ⟨k - 2, by omega⟩
    rw [hk'] at hy
    unfold yenLoop at hy
    simp only [Nat.sub_self, List.getElem?_cons_zero] at hy
    obtain ⟨g', new, h1, h2, h3⟩ := spurFold_spec hd hn [first] first hgood (List.range (first.length - 1))
      (fun i hi => List.mem_range.mp hi) g [] (List.Perm.refl _)
    have hcov := fold_covers hd hn hpar first hj hnd (List.range (first.length - 1)) []
      (fun i hi => List.mem_range.mp hi) g [] (List.Perm.refl _) ⟨by simp, by simp, by simp⟩ _ h1
    rw [List.nil_append, List.nil_append] at hcov
    rw [h1, List.nil_append] at hy
    simp only at hy hcov
    obtain ⟨hqs, hq2⟩ := popNew_spec [first] new
    -- the first path is the head of the result
    have hfirst : p₀ = first := by
      obtain ⟨paths', e1, ⟨rest, e2⟩, _⟩ := yenLoop_spec hd hn (s := s) (t := t) (n + 1) 1 g [first] []
        (List.Perm.refl _) (by intro p hp; rw [List.mem_singleton] at hp; exact hp ▸ hgood) (by simp) (by simp)
      unfold yenLoop at e1
      simp only [Nat.sub_self, List.getElem?_cons_zero] at e1
      rw [h1, List.nil_append] at e1
      simp only at e1
      rw [hy, Option.some.injEq] at e1
      rw [e1, ← e2] at hp₀
      simpa using hp₀.symm
    subst hfirst
    have hcover : ∀ q', Joins g s t q' → q'.Nodup → q' ≠ p₀ → ∀ c', Realizes w g q' c' → ∃ x ∈ new, x.1 ≤ c' := by
      intro q' hq' hqn' hne' c' hr'
      obtain ⟨i, i1, i2, i3, i4⟩ := deviate t p₀ q' hnd hqn' (hj.start.trans hq'.start.symm)
        (by rintro rfl; simpa using hj.start) hj.stop hq'.stop (Ne.symm hne')
      exact hcov.cover i (List.mem_range.mpr (by omega)) q' c' hqn' hq' i3.symm i2 i4.symm hr'
    obtain ⟨cq, hcq⟩ := walk_realizes w g q hq.walk
    obtain ⟨x₀, hx₀, _⟩ := hcover q hq hqn hne cq hcq
    obtain ⟨x, hx, hpop, hleast⟩ := popNew_least [p₀] new (fun y hy => by simpa using hcov.ne y hy)
      (by rintro rfl; simp at hx₀)
    rw [hpop] at hy
    obtain ⟨paths', e1, ⟨rest, e2⟩, _⟩ := yenLoop_spec hd hn (s := s) (t := t) n (1 + 1) g' ([p₀] ++ [x.2])
      (popNew [p₀] new).2 h2 (by
        intro p hp
        simp only [List.singleton_append, List.mem_cons, List.not_mem_nil, or_false] at hp
        rcases hp with rfl | rfl
        · exact hgood
        · exact (h3 x hx).1) (by
        simp only [List.singleton_append, List.nodup_cons, List.mem_singleton, List.not_mem_nil, not_false_eq_true,
          List.nodup_nil, and_true]
        exact fun hc => hcov.ne x hx hc.symm) (fun y hy => h3 y (hqs y hy))
    rw [hy, Option.some.injEq] at e1
    refine ⟨x.2, by rw [e1, ← e2]; rfl, ?_⟩
    intro q' c₁ c' hq' hqn' hne' hr1 hr'
    obtain ⟨y, hy, hyc⟩ := hcover q' hq' hqn' hne' c' hr'
    have := realizes_unique hpar _ _ _ hr1 (hcov.real x hx)
    rw [this]
    exact le_trans (hleast y hy) hyc

section Examples

/-- `0 → 2` costs 10, `0 → 1` costs 1, `1 → 2` costs 99, `1 → 0` costs 1. -/
def loopGraph : Graph Unit ℚ := ⟨[(0, ()), (1, ()), (2, ())], [], 3, [(0, 2, 10), (0, 1, 1), (1, 2, 99), (1, 0, 1)]⟩

/-- **C52 (violated).**  The three paths returned have costs 10, 100, 12: they are not sorted, and the
third runs in a loop through the start. -/
theorem C52_order_violated :
    Dijkstra (ν := Unit) (id : ℚ → ℚ) (shortest id) ∧ NoParallel loopGraph ∧
    yens (shortest id) id loopGraph 3 0 2 = some [[0, 2], [0, 1, 2], [0, 1, 0, 2]] ∧
    [[0, 2], [0, 1, 2], [0, 1, 0, 2]].map (pathCost id loopGraph) = [some 10, some 100, some 12] ∧
    ¬ [0, 1, 0, 2].Nodup := by
  refine ⟨shortest_dijkstra _, ?_, ?_, ?_, by decide⟩
  · unfold NoParallel; decide
  · decide +kernel
  · decide +kernel

/-- `0 → 1` and `1 → 2` doubled, `1 → 3 → 2` an alternative. -/
def doubleGraph : Graph Unit ℚ :=
  ⟨[(0, ()), (1, ()), (2, ()), (3, ())], [], 4, [(0, 1, 1), (1, 2, 0), (1, 2, 0), (1, 3, 1), (3, 2, 1)]⟩

/-- **C52 (violated).**  With a doubled edge the search removes only one copy, finds the first path
again, and misses the other path altogether. -/
theorem C52_parallel_violated :
    yens (shortest id) id doubleGraph 5 0 2 = some [[0, 1, 2]] ∧ Joins doubleGraph 0 2 [0, 1, 3, 2] := by
  refine ⟨by decide +kernel, rfl, rfl, ⟨1, ?_⟩, ⟨1, ?_⟩, ⟨1, ?_⟩, trivial⟩ <;> decide +kernel

/-- Six nodes, four loop-free paths from 0 to 5. -/
def wrongGraph : Graph Unit ℚ :=
  ⟨[(0, ()), (1, ()), (2, ()), (3, ()), (4, ()), (5, ())], [], 6,
    [(0, 1, 1), (0, 2, 2), (1, 3, 1), (2, 3, 1), (3, 5, 1), (1, 4, 5), (4, 5, 5)]⟩

/-- The hypotheses of `C51_paths` and `C52_second_partial` are met by a graph with several paths. -/
example : NoParallel wrongGraph ∧ NonNeg id wrongGraph ∧
    yens (shortest id) id wrongGraph 2 0 5 = some [[0, 1, 3, 5], [0, 2, 3, 5]] := by
  refine ⟨by unfold NoParallel; decide, ?_, by decide +kernel⟩
  unfold NonNeg
  decide +kernel

/-- `C51_paths` on that graph, with a shortest-path routine meeting the specification. -/
example : ∃ paths, yens (shortest id) id wrongGraph 3 0 5 = some paths ∧ (∀ p ∈ paths, Joins wrongGraph 0 5 p ∧ 5 ∉ p.dropLast) ∧ paths.Nodup ∧
    paths.length ≤ 3 := by
  obtain ⟨paths, h1, h2, h3, h4, -⟩ := C51_paths (shortest_dijkstra id) wrongGraph (by unfold NonNeg; decide +kernel) 3 0 5 (by decide)
  exact ⟨paths, h1, h2, h3, h4⟩

/-- `C52_second_partial` on that graph: the second path is the cheapest but one. -/
example : ∀ q' c₁ c', Joins wrongGraph 0 5 q' → q'.Nodup → q' ≠ [0, 1, 3, 5] → Realizes id wrongGraph [0, 2, 3, 5] c₁ → Realizes id wrongGraph q' c' → c₁ ≤ c' := by
  have hy : yens (shortest id) id wrongGraph 2 0 5 = some [[0, 1, 3, 5], [0, 2, 3, 5]] := by decide +kernel
  obtain ⟨paths, a1, a2, -⟩ := C51_paths (shortest_dijkstra id) wrongGraph (by unfold NonNeg; decide +kernel) 2 0 5 (by decide)
  have ha : paths = [[0, 1, 3, 5], [0, 2, 3, 5]] := Option.some.inj (a1.symm.trans hy)
  obtain ⟨p₁, h1, h2⟩ := C52_second_partial (shortest_dijkstra id) wrongGraph (by unfold NonNeg; decide +kernel) (by unfold NoParallel; decide) 2 0 5 (by decide)
    le_rfl _ hy [0, 1, 3, 5] rfl [0, 2, 3, 5] (a2 _ (by rw [ha]; simp)).1 (by decide) (by decide)
  cases h1
  exact h2

end Examples

end Verif.Props.Yen
