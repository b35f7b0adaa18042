import Verif.Lemmas.Paths

/-! Lemmas on the loops of `yens_ksp`. -/

namespace Verif.Lemmas.Paths

open Verif.Model.Network Verif.Spec.Paths

variable {ν ε : Type}

theorem getEdge_mem (g : Graph ν ε) (a b : ℕ) (e : ε) (h : g.getEdge a b = some e) : (a, b, e) ∈ g.edges := by
  unfold Graph.getEdge at h
  rw [Option.map_eq_some_iff] at h
  obtain ⟨x, hx, rfl⟩ := h
  have h1 := List.mem_of_find?_eq_some hx
  have h2 := List.find?_some hx
  rw [Bool.and_eq_true, beq_iff_eq, beq_iff_eq] at h2
  obtain ⟨x1, x2, x3⟩ := x
  simp only at h2
  rw [← h2.1, ← h2.2]
  exact h1

theorem getEdge_exists (g : Graph ν ε) (a b : ℕ) (h : ∃ e, (a, b, e) ∈ g.edges) : ∃ e, g.getEdge a b = some e := by
  obtain ⟨e, he⟩ := h
  unfold Graph.getEdge
  cases hf : g.edges.find? (fun e => e.1 == a && e.2.1 == b) with
  | some x => exact ⟨_, rfl⟩
  | none =>
    rw [List.find?_eq_none] at hf
    exact absurd (hf _ he) (by simp)

theorem find_eraseP_perm {α : Type} (p : α → Bool) (l : List α) (x : α) (h : l.find? p = some x) :
    l.Perm (x :: l.eraseP p) := by
  induction l with
  | nil => simp at h
  | cons a l ih =>
    rw [List.find?_cons] at h
    rw [List.eraseP_cons]
    by_cases hp : p a = true
    · rw [hp] at h
      simp only [Option.some.injEq] at h
      subst h
      rw [hp]
      exact List.Perm.refl _
    · rw [Bool.not_eq_true] at hp
      rw [hp] at h ⊢
      exact ((ih h).cons a).trans (List.Perm.swap _ _ _)

theorem removeEdge_perm (g : Graph ν ε) (a b : ℕ) (e : ε) (h : g.getEdge a b = some e) :
    g.edges.Perm ((a, b, e) :: (g.removeEdge a b).edges) := by
  have hm := h
  unfold Graph.getEdge at hm
  rw [Option.map_eq_some_iff] at hm
  obtain ⟨x, hx, rfl⟩ := hm
  have h2 := List.find?_some hx
  rw [Bool.and_eq_true, beq_iff_eq, beq_iff_eq] at h2
  have := find_eraseP_perm _ _ _ hx
  obtain ⟨x1, x2, x3⟩ := x
  simp only at h2
  rw [← h2.1, ← h2.2] at this ⊢
  exact this

theorem removeShared_perm (root : List ℕ) (i : ℕ) (st : Graph ν ε × List (ℕ × ℕ × ε)) (path : List ℕ) :
    ((removeShared root i st path).1.edges ++ (removeShared root i st path).2).Perm (st.1.edges ++ st.2) := by
  unfold removeShared
  split
  · split
    · split
      · exact List.Perm.refl _
      · rename_i e he
        have := removeEdge_perm st.1 _ _ e he
        simp only
        refine List.Perm.trans ?_ (List.Perm.append_right _ this.symm)
        rw [← List.append_assoc]
        exact (List.perm_append_singleton _ _)
    · exact List.Perm.refl _
  · exact List.Perm.refl _

theorem foldl_removeShared_perm (root : List ℕ) (i : ℕ) (a : List (List ℕ)) (st : Graph ν ε × List (ℕ × ℕ × ε)) :
    ((a.foldl (removeShared root i) st).1.edges ++ (a.foldl (removeShared root i) st).2).Perm (st.1.edges ++ st.2) := by
  induction a generalizing st with
  | nil => exact List.Perm.refl _
  | cons p a ih =>
    rw [List.foldl_cons]
    exact (ih _).trans (removeShared_perm root i st p)

theorem pathCost_some (w : ε → ℚ) (g : Graph ν ε) : ∀ p, IsWalk g p → ∃ c, pathCost w g p = some c ∧ Realizes w g p c
  | [], _ => ⟨0, rfl, rfl⟩
  | [_], _ => ⟨0, rfl, rfl⟩
  | a :: b :: l, hw => by
    obtain ⟨e, he⟩ := getEdge_exists g a b hw.1
    obtain ⟨c, hc, hr⟩ := pathCost_some w g (b :: l) hw.2
    refine ⟨w e + c, ?_, e, c, getEdge_mem g a b e he, hr, rfl⟩
    unfold pathCost
    rw [he]
    simp only
    rw [hc]
    rfl

theorem pathCost_realizes (w : ε → ℚ) (g : Graph ν ε) : ∀ p c, pathCost w g p = some c → Realizes w g p c
  | [], c, h => by unfold pathCost at h; simp only [Option.some.injEq] at h; exact h.symm
  | [_], c, h => by unfold pathCost at h; simp only [Option.some.injEq] at h; exact h.symm
  | a :: b :: l, c, h => by
    unfold pathCost at h
    split at h
    · simp at h
    · rename_i e he
      rw [Option.map_eq_some_iff] at h
      obtain ⟨c', hc', rfl⟩ := h
      exact ⟨e, c', getEdge_mem g a b e he, pathCost_realizes w g (b :: l) c' hc', rfl⟩

/-- A path found by the search: it joins the ends and meets the target only at the end. -/
structure Good (g : Graph ν ε) (s t : ℕ) (p : List ℕ) : Prop where
  joins : Joins g s t p
  avoid : t ∉ p.dropLast

theorem good_of_nodup {g : Graph ν ε} {s t : ℕ} {p : List ℕ} (h : Joins g s t p) (hn : p.Nodup) : Good g s t p := by
  refine ⟨h, ?_⟩
  obtain ⟨l, hl⟩ := List.getLast?_eq_some_iff.mp h.stop
  subst hl
  rw [List.dropLast_concat]
  intro hc
  rw [List.nodup_append] at hn
  exact hn.2.2 t hc t (by simp) rfl

theorem joins_mono {g h : Graph ν ε} (hgh : ∀ e ∈ g.edges, e ∈ h.edges) {s t : ℕ} {p : List ℕ}
    (hj : Joins g s t p) : Joins h s t p := ⟨hj.start, hj.stop, isWalk_mono hgh p hj.walk⟩

/-- Joining a root to a spur path. -/
theorem good_splice {g : Graph ν ε} {s t : ℕ} {prev p : List ℕ} {i : ℕ} {spur : ℕ} (hg : Good g s t prev)
    (hi : i < prev.length - 1) (hs : prev[i]? = some spur) (hp : Good g spur t p) :
    Good g s t (prev.take i ++ p) := by
  have hp1 := hp.joins.start
  match p, hp, hp1 with
  | x :: p', hp, hp1 =>
    have hx : x = spur := by simpa using hp1
    subst hx
    have hlt : i < prev.length := by omega
    have hget : prev[i] = x := by
      rw [List.getElem?_eq_getElem hlt] at hs
      simpa using hs
    have hsplit : prev = prev.take i ++ x :: prev.drop (i + 1) := by
      conv_lhs => rw [← List.take_append_drop i prev, List.drop_eq_getElem_cons hlt, hget]
    have hw := hg.joins.walk
    rw [hsplit, isWalk_append] at hw
    refine ⟨⟨?_, ?_, ?_⟩, ?_⟩
    · have := hg.joins.start
      rw [hsplit] at this
      cases hti : prev.take i with
      | nil => rw [hti] at this; simpa using this
      | cons a l => rw [hti] at this; simpa using this
    · rw [List.getLast?_append, hp.joins.stop]
      rfl
    · rw [isWalk_append]
      exact ⟨hw.1, hp.joins.walk⟩
    · rw [List.dropLast_append_of_ne_nil (by simp), List.mem_append]
      rintro (hc | hc)
      · apply hg.avoid
        rw [hsplit, List.dropLast_append_of_ne_nil (by simp), List.mem_append]
        exact Or.inl hc
      · exact hp.avoid hc

/-- One spur step keeps the edges (as a multiset) and queues only good paths. -/
theorem spurStep_spec {w : ε → ℚ} {d : Graph ν ε → ℕ → ℕ → Option (List ℕ)} (hd : Dijkstra w d)
    {G : Graph ν ε} (hn : NonNeg w G) {s t : ℕ} (a : List (List ℕ)) (prev : List ℕ) (hprev : Good G s t prev)
    (g : Graph ν ε) (b : List (ℚ × List ℕ)) (hg : g.edges.Perm G.edges) (i : ℕ) (hi : i < prev.length - 1) :
    ∃ g' new, spurStep d w t a prev (g, b) i = some (g', b ++ new) ∧ g'.edges.Perm G.edges ∧
      ∀ x ∈ new, Good G s t x.2 ∧ Realizes w G x.2 x.1 := by
  have hlt : i < prev.length := by omega
  have hs : prev[i]? = some prev[i] := List.getElem?_eq_getElem hlt
  unfold spurStep
  rw [hs]
  simp only
  have hperm := foldl_removeShared_perm (prev.take i) i a (g, [])
  rw [List.append_nil] at hperm
  set rm := a.foldl (removeShared (prev.take i) i) (g, []) with hrm
  have hsub : ∀ e ∈ rm.1.edges, e ∈ G.edges := by
    intro e he
    exact hg.mem_iff.mp (hperm.mem_iff.mp (List.mem_append_left _ he))
  have hg' : (rm.1.addEdgesFrom rm.2).edges.Perm G.edges := by
    unfold Graph.addEdgesFrom
    exact ((List.perm_append_comm).trans (List.Perm.append_left _ (List.reverse_perm _))).trans (hperm.trans hg)
  have hnn : NonNeg w rm.1 := fun e he => hn e (hsub e he)
  have hne : prev[i] ≠ t := by
    intro hc
    apply hprev.avoid
    rw [← hc, List.mem_iff_getElem?]
    refine ⟨i, ?_⟩
    rw [List.getElem?_dropLast, if_pos hi, hs]
  cases hdd : d rm.1 prev[i] t with
  | none => exact ⟨_, [], by simp, hg', by simp⟩
  | some p =>
    have hj := hd.some_joins rm.1 _ t p hnn hne hdd
    have hnd := hd.some_nodup rm.1 _ t p hnn hne hdd
    have hgood : Good G s t (prev.take i ++ p) :=
      good_splice hprev hi hs (good_of_nodup (joins_mono hsub hj) hnd)
    have hwalk : IsWalk (rm.1.addEdgesFrom rm.2) (prev.take i ++ p) :=
      isWalk_mono (fun e he => hg'.symm.mem_iff.mp he) _ hgood.joins.walk
    obtain ⟨c, hc, hr⟩ := pathCost_some w _ _ hwalk
    simp only
    rw [hc]
    refine ⟨_, [(c, prev.take i ++ p)], rfl, hg', ?_⟩
    intro x hx
    rw [List.mem_singleton] at hx
    subst hx
    exact ⟨hgood, realizes_mono w (fun e he => hg'.mem_iff.mp he) _ _ hr⟩

theorem spurFold_spec {w : ε → ℚ} {d : Graph ν ε → ℕ → ℕ → Option (List ℕ)} (hd : Dijkstra w d)
    {G : Graph ν ε} (hn : NonNeg w G) {s t : ℕ} (a : List (List ℕ)) (prev : List ℕ) (hprev : Good G s t prev)
    (is : List ℕ) (his : ∀ i ∈ is, i < prev.length - 1)
    (g : Graph ν ε) (b : List (ℚ × List ℕ)) (hg : g.edges.Perm G.edges) :
    ∃ g' new, is.foldlM (spurStep d w t a prev) (g, b) = some (g', b ++ new) ∧ g'.edges.Perm G.edges ∧
      ∀ x ∈ new, Good G s t x.2 ∧ Realizes w G x.2 x.1 := by
  induction is generalizing g b with
  | nil => exact ⟨g, [], by simp, hg, by simp⟩
  | cons i is ih =>
    obtain ⟨g₁, n₁, h1, h2, h3⟩ := spurStep_spec hd hn a prev hprev g b hg i (his i List.mem_cons_self)
    obtain ⟨g₂, n₂, h4, h5, h6⟩ := ih (fun j hj => his j (List.mem_cons_of_mem _ hj)) g₁ (b ++ n₁) h2
    refine ⟨g₂, n₁ ++ n₂, ?_, h5, ?_⟩
    · rw [List.foldlM_cons, h1]
      simp only [Option.bind_eq_bind, Option.bind_some]
      rw [h4, List.append_assoc]
    · intro x hx
      rw [List.mem_append] at hx
      exact hx.elim (h3 x) (h6 x)

theorem popNew_spec (a : List (List ℕ)) (b : List (ℚ × List ℕ)) :
    (∀ x ∈ (popNew a b).2, x ∈ b) ∧
    ((popNew a b).1 = [] ∨ ∃ x ∈ b, (popNew a b).1 = [x.2] ∧ x.2 ∉ a) := by
  have hperm : (b.insertionSort queueLE).Perm b := List.perm_insertionSort _ _
  unfold popNew
  split
  · exact ⟨by simp, Or.inl rfl⟩
  · rename_i x rest hdw
    have hsub : ∀ y ∈ x :: rest, y ∈ b := by
      intro y hy
      rw [← hdw] at hy
      exact hperm.mem_iff.mp ((List.dropWhile_sublist _).subset hy)
    refine ⟨fun y hy => hsub y (List.mem_cons_of_mem _ hy), Or.inr ⟨x, hsub x List.mem_cons_self, rfl, ?_⟩⟩
    have hne : (b.insertionSort queueLE).dropWhile (fun x => decide (x.2 ∈ a)) ≠ [] := by rw [hdw]; simp
    have := List.head_dropWhile_not (fun x : ℚ × List ℕ => decide (x.2 ∈ a)) hne
    simp only [hdw, List.head_cons] at this
    simpa using this

theorem yenLoop_spec {w : ε → ℚ} {d : Graph ν ε → ℕ → ℕ → Option (List ℕ)} (hd : Dijkstra w d)
    {G : Graph ν ε} (hn : NonNeg w G) {s t : ℕ} (n k : ℕ) (g : Graph ν ε) (a : List (List ℕ)) (b : List (ℚ × List ℕ))
    (hg : g.edges.Perm G.edges) (ha : ∀ p ∈ a, Good G s t p) (hnd : a.Nodup)
    (hb : ∀ x ∈ b, Good G s t x.2 ∧ Realizes w G x.2 x.1) :
    ∃ paths, yenLoop d w t n k g a b = some paths ∧ a <+: paths ∧ (∀ p ∈ paths, Good G s t p) ∧ paths.Nodup ∧
      paths.length ≤ a.length + n := by
  induction n generalizing k g a b with
  | zero => exact ⟨a, rfl, List.prefix_refl _, ha, hnd, by simp⟩
  | succ n ih =>
    unfold yenLoop
    cases hk : a[k - 1]? with
    | none => exact ⟨a, rfl, List.prefix_refl _, ha, hnd, by simp⟩
    | some prev =>
      have hprev := ha prev (List.mem_of_getElem? hk)
      obtain ⟨g', new, h1, h2, h3⟩ := spurFold_spec hd hn a prev hprev (List.range (prev.length - 1))
        (fun i hi => List.mem_range.mp hi) g b hg
      simp only
      rw [h1]
      simp only
      have hb' : ∀ x ∈ b ++ new, Good G s t x.2 ∧ Realizes w G x.2 x.1 := by
        intro x hx
        rw [List.mem_append] at hx
        exact hx.elim (hb x) (h3 x)
      obtain ⟨hq, hnew⟩ := popNew_spec a (b ++ new)
      have hstep : (∀ p ∈ a ++ (popNew a (b ++ new)).1, Good G s t p) ∧ (a ++ (popNew a (b ++ new)).1).Nodup ∧
          (a ++ (popNew a (b ++ new)).1).length ≤ a.length + 1 := by
        rcases hnew with h | ⟨x, hx, h, hxa⟩
        · rw [h, List.append_nil]
          exact ⟨ha, hnd, by simp⟩
        · rw [h]
          refine ⟨?_, ?_, by simp⟩
          · intro p hp
            rw [List.mem_append, List.mem_singleton] at hp
            rcases hp with hp | rfl
            · exact ha p hp
            · exact (hb' x hx).1
          · rw [List.nodup_append]
            refine ⟨hnd, List.nodup_singleton _, ?_⟩
            intro p hp q hq hpq
            rw [List.mem_singleton] at hq
            exact hxa (hq ▸ hpq ▸ hp)
      obtain ⟨paths, h4, h5, h6, h7, h8⟩ := ih (k + 1) g' _ _ h2 hstep.1 hstep.2.1 (fun x hx => hb' x (hq x hx))
      exact ⟨paths, h4, (List.prefix_append _ _).trans h5, h6, h7, by omega⟩

end Verif.Lemmas.Paths
