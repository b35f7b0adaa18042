import Verif.Props.Yen

/-! The k-shortest-path search on graphs whose edges all lead from one layer to the next. -/

namespace Verif.Lemmas.YenLayers
open Verif.Model.Network Verif.Spec.Paths Verif.Lemmas.Paths Verif.Props.Yen

variable {ν ε : Type}

/-- Every edge leads from a layer to the next one. -/
def Layered (level : ℕ → ℕ) (g : Graph ν ε) : Prop := ∀ e ∈ g.edges, level e.2.1 = level e.1 + 1

theorem walk_level {level : ℕ → ℕ} {g : Graph ν ε} (hl : Layered level g) : ∀ (p : List ℕ) (s : ℕ), p.head? = some s → IsWalk g p →
    ∀ j u, p[j]? = some u → level u = level s + j
  | [], s, h, _, _, _, _ => by simp at h
  | [a], s, h, _, j, u, hj => by
    have : a = s := by simpa using h
    subst this
    cases j with
    | zero => simp at hj; subst hj; rfl
    | succ j => simp at hj
  | a :: b :: l, s, h, hw, j, u, hj => by
    have : a = s := by simpa using h
    subst this
    obtain ⟨⟨e, he⟩, hw⟩ := hw
    cases j with
    | zero => simp at hj; subst hj; rfl
    | succ j =>
      have := walk_level hl (b :: l) b rfl hw j u (by simpa using hj)
      have h2 := hl _ he
      simp only at h2
      omega

theorem walk_nodup {level : ℕ → ℕ} {g : Graph ν ε} (hl : Layered level g) (p : List ℕ) (hw : IsWalk g p) : p.Nodup := by
  cases p with
  | nil => exact List.nodup_nil
  | cons s p =>
    have hlev := walk_level hl (s :: p) s rfl hw
    rw [List.nodup_iff_getElem?_ne_getElem?]
    intro i j hij hj heq
    have hi' : (s :: p)[i]? = some ((s :: p)[i]'(by omega)) := List.getElem?_eq_getElem (by omega)
    have h1 := hlev i _ hi'
    have h2 := hlev j _ (heq ▸ hi')
    omega

/-- A walk above a layer survives if edges starting above that layer do. -/
theorem realizes_above {w : ε → ℚ} {g h : Graph ν ε} (level : ℕ → ℕ) (L : ℕ) (hgh : ∀ e ∈ g.edges, L < level e.1 → e ∈ h.edges) :
    ∀ p c, (∀ u ∈ p, L < level u) → Realizes w g p c → Realizes w h p c
  | [], _, _, hr => hr
  | [_], _, _, hr => hr
  | a :: b :: l, _, hx, hr => by
    obtain ⟨e, c', he, hr, rfl⟩ := hr
    exact ⟨e, c', hgh _ he (hx a List.mem_cons_self), realizes_above level L hgh (b :: l) c' (fun u hu => hx u (List.mem_cons_of_mem _ hu)) hr, rfl⟩

/-- The path leads through the edge after the given root. -/
def Hit (root : List ℕ) (i : ℕ) (e : ℕ × ℕ × ε) (path : List ℕ) : Prop :=
  root = path.take i ∧ path[i]? = some e.1 ∧ path[i + 1]? = some e.2.1

theorem removeEdge_noParallel (g : Graph ν ε) (hp : NoParallel g) (x y : ℕ) : NoParallel (g.removeEdge x y) := by
  unfold NoParallel at *
  refine List.Nodup.sublist (List.Sublist.map _ ?_) hp
  unfold Graph.removeEdge
  exact List.eraseP_sublist

theorem removeEdge_mem (g : Graph ν ε) (hp : NoParallel g) (x y : ℕ) (e0 : ε) (h : g.getEdge x y = some e0) (e : ℕ × ℕ × ε) :
    e ∈ (g.removeEdge x y).edges ↔ e ∈ g.edges ∧ ¬ (e.1 = x ∧ e.2.1 = y) := by
  have hperm := removeEdge_perm g x y e0 h
  have hnd := (hperm.map fun e : ℕ × ℕ × ε => (e.1, e.2.1)).nodup_iff.mp hp
  rw [List.map_cons, List.nodup_cons] at hnd
  constructor
  · intro he
    refine ⟨hperm.symm.mem_iff.mp (List.mem_cons_of_mem _ he), fun ⟨h1, h2⟩ => hnd.1 (List.mem_map.mpr ⟨e, he, ?_⟩)⟩
    simp only [h1, h2]
  · rintro ⟨he, hne⟩
    rcases List.mem_cons.mp (hperm.mem_iff.mp he) with h | h
    · exact absurd ⟨by rw [h], by rw [h]⟩ hne
    · exact h

/-- Which edges are left after one path was treated. -/
theorem removeShared_mem (root : List ℕ) (i : ℕ) (st : Graph ν ε × List (ℕ × ℕ × ε)) (hp : NoParallel st.1) (path : List ℕ) :
    NoParallel (removeShared root i st path).1 ∧
    ∀ e, e ∈ (removeShared root i st path).1.edges ↔ e ∈ st.1.edges ∧ ¬ Hit root i e path := by
  unfold removeShared
  split
  · rename_i x y hx hy
    split_ifs with hr
    · cases he : st.1.getEdge x y with
      | none =>
        refine ⟨hp, fun e => ⟨fun h => ⟨h, fun ⟨_, h1, h2⟩ => ?_⟩, And.left⟩⟩
        rw [hx] at h1; rw [hy] at h2
        obtain ⟨e', he'⟩ := getEdge_exists st.1 x y ⟨e.2.2, by
          have e1 := Option.some.inj h1
          have e2 := Option.some.inj h2
          rw [e1, e2]; exact h⟩
        rw [he] at he'; cases he'
      | some e0 =>
        refine ⟨removeEdge_noParallel _ hp x y, fun e => ?_⟩
        rw [removeEdge_mem st.1 hp x y e0 he e]
        refine and_congr_right fun _ => not_congr ⟨fun ⟨h1, h2⟩ => ⟨hr, by rw [hx, h1], by rw [hy, h2]⟩, fun ⟨_, h1, h2⟩ => ?_⟩
        rw [hx] at h1; rw [hy] at h2
        exact ⟨(Option.some.inj h1).symm, (Option.some.inj h2).symm⟩
    · exact ⟨hp, fun e => ⟨fun h => ⟨h, fun hh => hr hh.1⟩, And.left⟩⟩
  · rename_i hno
    exact ⟨hp, fun e => ⟨fun h => ⟨h, fun hh => hno _ _ hh.2.1 hh.2.2⟩, And.left⟩⟩

theorem fold_mem (root : List ℕ) (i : ℕ) (a : List (List ℕ)) : ∀ (st : Graph ν ε × List (ℕ × ℕ × ε)), NoParallel st.1 →
    ∀ e, e ∈ (a.foldl (removeShared root i) st).1.edges ↔ e ∈ st.1.edges ∧ ∀ path ∈ a, ¬ Hit root i e path := by
  induction a with
  | nil => intro st _ e; simp
  | cons p a ih =>
    intro st hp e
    obtain ⟨h1, h2⟩ := removeShared_mem root i st hp p
    rw [List.foldl_cons, ih _ h1 e, h2 e]
    simp only [List.mem_cons, forall_eq_or_imp, and_assoc]

/-- The paths that follow `r` and then leave all known paths. -/
def Class (a : List (List ℕ)) (r q : List ℕ) : Prop :=
  q.take r.length = r ∧ r.length < q.length ∧ ∀ p ∈ a, p.take r.length = r → p[r.length]? ≠ q[r.length]?

/-- The queue has a path at most as expensive as any path of the class. -/
def Cov (w : ε → ℚ) (G : Graph ν ε) (s t : ℕ) (a : List (List ℕ)) (b : List (ℚ × List ℕ)) (r : List ℕ) : Prop :=
  ∀ q c, Joins G s t q → Class a r q → Realizes w G q c → ∃ z ∈ b, z.1 ≤ c ∧ Class a r z.2

theorem class_not_mem (a : List (List ℕ)) (r q : List ℕ) (h : Class a r q) : q ∉ a := fun hq => h.2.2 q hq h.1 rfl

theorem take_succ_eq (l m : List ℕ) (i : ℕ) (x : ℕ) (h : l.take i = m.take i) (hl : l[i]? = some x) (hm : m[i]? = some x) :
    l.take (i + 1) = m.take (i + 1) := by
  rw [List.take_add_one, List.take_add_one, h, hl, hm]

theorem spur_cov {w : ε → ℚ} {d : Graph ν ε → ℕ → ℕ → Option (List ℕ)} (hd : Dijkstra w d)
    {G : Graph ν ε} (hn : NonNeg w G) (hpar : NoParallel G) {level : ℕ → ℕ} (hl : Layered level G) {s t : ℕ} (a : List (List ℕ))
    (ha : ∀ p ∈ a, Good G s t p) (prev : List ℕ) (hprev : prev ∈ a) (g : Graph ν ε) (b : List (ℚ × List ℕ))
    (hg : g.edges.Perm G.edges) (i : ℕ) (hi : i < prev.length - 1) (st : Graph ν ε × List (ℚ × List ℕ))
    (hst : spurStep d w t a prev (g, b) i = some st) : Cov w G s t a st.2 (prev.take (i + 1)) := by
  have hlt : i < prev.length := by omega
  have hs : prev[i]? = some prev[i] := List.getElem?_eq_getElem hlt
  set x := prev[i] with hx
  have hlen : (prev.take (i + 1)).length = i + 1 := by rw [List.length_take]; omega
  have hgp : NoParallel g := noParallel_perm hg hpar
  have hmem := fold_mem (prev.take i) i a (g, []) hgp
  unfold spurStep at hst
  rw [hs] at hst
  simp only at hst
  have hperm := foldl_removeShared_perm (prev.take i) i a (g, [])
  rw [List.append_nil] at hperm
  set rm := a.foldl (removeShared (prev.take i) i) (g, []) with hrm
  have hsub : ∀ e ∈ rm.1.edges, e ∈ G.edges := fun e he => hg.mem_iff.mp ((hmem e).mp he).1
  have hg' : (rm.1.addEdgesFrom rm.2).edges.Perm G.edges := by
    unfold Graph.addEdgesFrom
    exact ((List.perm_append_comm).trans (List.Perm.append_left _ (List.reverse_perm _))).trans (hperm.trans hg)
  have hnn : NonNeg w rm.1 := fun e he => hn e (hsub e he)
  have hgood := ha prev hprev
  have hxt : x ≠ t := by
    intro hc
    apply hgood.avoid
    rw [← hc, List.mem_iff_getElem?]
    exact ⟨i, by rw [List.getElem?_dropLast, if_pos hi, hs]⟩
  have hlevx : level x = level s + i := walk_level hl prev s hgood.joins.start hgood.joins.walk i x hs
  -- edges starting above the layer of the spur node stay
  have hkeep : ∀ e ∈ G.edges, level x < level e.1 → e ∈ rm.1.edges := fun e he hlev => (hmem e).mpr ⟨hg.symm.mem_iff.mp he, fun path hp hh => by
    have := walk_level hl path s (ha path hp).joins.start (ha path hp).joins.walk i e.1 hh.2.1
    omega⟩
  -- a path of the class
  have hcov : ∀ q c, Joins G s t q → Class a (prev.take (i + 1)) q → Realizes w G q c →
      ∃ m c₁ c₂, Realizes w G (prev.take i ++ [x]) c₁ ∧ Realizes w rm.1 (x :: m) c₂ ∧ Joins rm.1 x t (x :: m) ∧ c = c₁ + c₂ := by
    rintro q c hqj ⟨hqt, hql, hqd⟩ hqr
    rw [hlen] at hqt hql hqd
    have hli : i < q.length := by omega
    have hqi : q[i] = x := by
      have h1 : (q.take (i + 1))[i]? = (prev.take (i + 1))[i]? := by rw [hqt]
      rw [List.getElem?_take_of_lt (by omega), List.getElem?_take_of_lt (by omega), hs, List.getElem?_eq_getElem hli] at h1
      simpa using h1
    have hqti : q.take i = prev.take i := by
      have := congrArg (List.take i) hqt
      rwa [List.take_take, List.take_take, Nat.min_eq_left (by omega)] at this
    have hqs : q = prev.take i ++ x :: q.drop (i + 1) := by
      conv_lhs => rw [← List.take_append_drop i q, List.drop_eq_getElem_cons hli, hqi, hqti]
    have hqr' := hqr
    rw [hqs, realizes_append] at hqr'
    obtain ⟨c₁, c₂, h1, h2, rfl⟩ := hqr'
    have hm : q.drop (i + 1) = q[i + 1] :: q.drop (i + 2) := List.drop_eq_getElem_cons hql
    have hr2 : Realizes w rm.1 (x :: q.drop (i + 1)) c₂ := by
      have hlevm : ∀ u ∈ q.drop (i + 1), level x < level u := fun u hu => by
        obtain ⟨j, hj⟩ := List.mem_iff_getElem?.mp hu
        rw [List.getElem?_drop] at hj
        have := walk_level hl q s hqj.start hqj.walk _ u hj
        omega
      rw [hm] at h2 hlevm ⊢
      obtain ⟨e', c', hm', hr', rfl⟩ := h2
      refine ⟨e', c', (hmem _).mpr ⟨hg.symm.mem_iff.mp hm', fun path hp hh => ?_⟩, realizes_above level (level x) hkeep _ _ hlevm hr', rfl⟩
      obtain ⟨h1, h2, h3⟩ := hh
      refine hqd path hp (take_succ_eq path prev i x h1.symm h2 hs) ?_
      rw [h3, List.getElem?_eq_getElem hql]
    refine ⟨q.drop (i + 1), c₁, c₂, h1, hr2, ⟨rfl, ?_, realizes_walk w _ _ _ hr2⟩, rfl⟩
    have := hqj.stop
    rw [hqs, List.getLast?_append] at this
    cases hl : (x :: q.drop (i + 1)).getLast? with
    | none => simp at hl
    | some z => rw [hl] at this; exact this
  intro q c hqj hqc hqr
  obtain ⟨m, c₁, c₂, r1, r2, hjm, rfl⟩ := hcov q c hqj hqc hqr
  cases hdd : d rm.1 x t with
  | none => exact absurd hjm (hd.none_joins _ _ _ hnn hxt hdd _)
  | some p =>
    rw [hdd] at hst
    simp only at hst
    have hpj := hd.some_joins _ _ _ p hnn hxt hdd
    obtain ⟨cp, hpr, hple⟩ := hd.some_least _ _ _ p hnn hxt hdd
    split at hst
    · simp at hst
    · rename_i c hc
      simp only [Option.some.injEq] at hst
      subst hst
      have hr := realizes_mono w (fun e' hm => hg'.mem_iff.mp hm) _ _ (pathCost_realizes w _ _ c hc)
      have hps := hpj.start
      have hstop := hpj.stop
      match p, hps, hpj, hpr, hple, hr, hstop with
      | [x'], hps, hpj, hpr, hple, hr, hstop =>
        have h1 : x' = x := by simpa using hps
        have h2 : x' = t := by simpa using hstop
        exact absurd (h1.symm.trans h2) hxt
      | x' :: y' :: p', hps, hpj, hpr, hple, hr, hstop =>
        have hxx : x' = x := by simpa using hps
        subst hxx
        refine ⟨(c, prev.take i ++ x :: y' :: p'), by simp, ?_, ?_, ?_, ?_⟩
        · rw [realizes_append] at hr
          obtain ⟨k₁, k₂, s1, s2, rfl⟩ := hr
          have e1 := realizes_unique hpar _ _ _ s1 r1
          have e2 := realizes_unique hpar _ _ _ s2 (realizes_mono w hsub _ _ hpr)
          have := hple _ _ hjm r2
          simp only
          rw [e1, e2]
          linarith
        · rw [hlen, List.take_add_one (l := prev), hs, show prev.take i ++ x :: y' :: p' = (prev.take i ++ [x]) ++ y' :: p' by simp,
            List.take_append_of_le_length (by simp; omega), List.take_of_length_le (by simp)]
          rfl
        · rw [hlen]; simp; omega
        · intro path hp hpt
          rw [hlen] at hpt ⊢
          have hz : (prev.take i ++ x :: y' :: p')[i + 1]? = some y' := by
            rw [List.getElem?_append_right (by simp)]
            have : i + 1 - (prev.take i).length = 1 := by rw [List.length_take]; omega
            rw [this]; rfl
          dsimp only
          rw [hz]
          intro hpy
          obtain ⟨⟨e', hm⟩, _⟩ := hpj.walk
          refine ((hmem _).mp hm).2 path hp ⟨?_, ?_, hpy⟩
          · have := congrArg (List.take i) hpt
            rw [List.take_take, List.take_take, Nat.min_eq_left (by omega)] at this
            exact this.symm
          · have h1 : (path.take (i + 1))[i]? = (prev.take (i + 1))[i]? := by rw [hpt]
            rw [List.getElem?_take_of_lt (by omega), List.getElem?_take_of_lt (by omega), hs] at h1
            exact h1

theorem cov_mono {w : ε → ℚ} {G : Graph ν ε} {s t : ℕ} {a : List (List ℕ)} {b b' : List (ℚ × List ℕ)} {r : List ℕ}
    (h : Cov w G s t a b r) (hb : ∀ z ∈ b, z ∈ b') : Cov w G s t a b' r := fun q c h1 h2 h3 => by
  obtain ⟨z, hz, h4⟩ := h q c h1 h2 h3
  exact ⟨z, hb z hz, h4⟩

theorem fold_cov {w : ε → ℚ} {d : Graph ν ε → ℕ → ℕ → Option (List ℕ)} (hd : Dijkstra w d)
    {G : Graph ν ε} (hn : NonNeg w G) (hpar : NoParallel G) {level : ℕ → ℕ} (hl : Layered level G) {s t : ℕ} (a : List (List ℕ))
    (ha : ∀ p ∈ a, Good G s t p) (prev : List ℕ) (hprev : prev ∈ a) (is : List ℕ) :
    ∀ (g : Graph ν ε) (b : List (ℚ × List ℕ)), g.edges.Perm G.edges → (∀ i ∈ is, i < prev.length - 1) →
    ∀ st, is.foldlM (spurStep d w t a prev) (g, b) = some st →
    (∀ z ∈ b, z ∈ st.2) ∧ ∀ i ∈ is, Cov w G s t a st.2 (prev.take (i + 1)) := by
  induction is with
  | nil =>
    intro g b _ _ st hst
    simp only [List.foldlM_nil, Option.pure_def, Option.some.injEq] at hst
    subst hst
    exact ⟨fun z hz => hz, by simp⟩
  | cons i is ih =>
    intro g b hg his st hst
    obtain ⟨g₁, n₁, h1, h2, h3⟩ := spurStep_spec hd hn a prev (ha prev hprev) g b hg i (his i List.mem_cons_self)
    rw [List.foldlM_cons, h1] at hst
    simp only [Option.bind_eq_bind, Option.bind_some] at hst
    have hc := spur_cov hd hn hpar hl a ha prev hprev g b hg i (his i List.mem_cons_self) _ h1
    obtain ⟨h4, h5⟩ := ih g₁ _ h2 (fun j hj => his j (List.mem_cons_of_mem _ hj)) st hst
    refine ⟨fun z hz => h4 z (List.mem_append_left _ hz), fun j hj => ?_⟩
    rcases List.mem_cons.mp hj with rfl | hj
    · exact cov_mono hc h4
    · exact h5 j hj

/-- What is popped from the queue. -/
theorem popNew_new (a : List (List ℕ)) (b : List (ℚ × List ℕ)) (hex : ∃ z ∈ b, z.2 ∉ a) :
    ∃ x ∈ b, x.2 ∉ a ∧ (popNew a b).1 = [x.2] ∧ ∀ z ∈ b, z.2 ∉ a → x.1 ≤ z.1 ∧ (z = x ∨ z ∈ (popNew a b).2) := by
  have hperm : (b.insertionSort queueLE).Perm b := List.perm_insertionSort _ _
  have := queueLE_total
  have := queueLE_trans
  have hsort := List.pairwise_insertionSort queueLE b
  have hdrop : ∀ z ∈ b, z.2 ∉ a → z ∈ (b.insertionSort queueLE).dropWhile (fun x => decide (x.2 ∈ a)) := by
    intro z hz hza
    have hz' := hperm.symm.mem_iff.mp hz
    generalize b.insertionSort queueLE = l at hz'
    induction l with
    | nil => simp at hz'
    | cons y l ih =>
      rw [List.dropWhile_cons]
      split_ifs with hy
      · rcases List.mem_cons.mp hz' with rfl | h
        · exact absurd (of_decide_eq_true hy) hza
        · exact ih h
      · exact hz'
  cases hdw : (b.insertionSort queueLE).dropWhile (fun x => decide (x.2 ∈ a)) with
  | nil =>
    obtain ⟨z, hz, hza⟩ := hex
    have := hdrop z hz hza
    rw [hdw] at this
    simp at this
  | cons x rest =>
    have hsub : ∀ y ∈ x :: rest, y ∈ b := fun y hy => by
      rw [← hdw] at hy
      exact hperm.mem_iff.mp ((List.dropWhile_sublist _).subset hy)
    have hne : (b.insertionSort queueLE).dropWhile (fun x => decide (x.2 ∈ a)) ≠ [] := by rw [hdw]; simp
    have hxa := List.head_dropWhile_not (fun x : ℚ × List ℕ => decide (x.2 ∈ a)) hne
    simp only [hdw, List.head_cons] at hxa
    have hs' : (x :: rest).Pairwise queueLE := by
      rw [← hdw]; exact List.Pairwise.sublist (List.dropWhile_sublist _) hsort
    refine ⟨x, hsub x List.mem_cons_self, by simpa using hxa, by unfold popNew; rw [hdw], fun z hz hza => ?_⟩
    have hz' := hdrop z hz hza
    rw [hdw] at hz'
    have hp2 : (popNew a b).2 = rest := by unfold popNew; rw [hdw]
    rw [hp2]
    rcases List.mem_cons.mp hz' with rfl | h
    · exact ⟨le_refl _, Or.inl rfl⟩
    · refine ⟨?_, Or.inr h⟩
      rcases (List.pairwise_cons.mp hs').1 z h with h | h
      · exact le_of_lt h
      · exact le_of_eq h.1

theorem popNew_old (a : List (List ℕ)) (b : List (ℚ × List ℕ)) (h : ∀ z ∈ b, z.2 ∈ a) : (popNew a b).1 = [] := by
  rcases (popNew_spec a b).2 with h0 | ⟨x, hx, -, hxa⟩
  · exact h0
  · exact absurd (h x hx) hxa

/-- Every path not yet known leaves the known ones somewhere. -/
theorem leaves {G : Graph ν ε} {s t : ℕ} (hst : s ≠ t) (a : List (List ℕ)) (hne : a ≠ []) (ha : ∀ p ∈ a, Good G s t p) (q : List ℕ)
    (hq : Good G s t q) (hqa : q ∉ a) :
    ∃ p ∈ a, ∃ i, i + 1 < p.length ∧ Class a (p.take (i + 1)) q := by
  have hlong : ∀ p, Good G s t p → 1 < p.length := fun p hp => by
    match p, hp.joins.start, hp.joins.stop with
    | [x], h1, h2 =>
      have h1 : x = s := by simpa using h1
      have h2 : x = t := by simpa using h2
      exact absurd (h1.symm.trans h2) hst
    | x :: y :: l, _, _ => simp
  let P : ℕ → Prop := fun i => i + 1 < q.length ∧ ∃ p ∈ a, i + 1 < p.length ∧ p.take (i + 1) = q.take (i + 1)
  have hP0 : P 0 := by
    obtain ⟨p, hp⟩ := List.exists_mem_of_ne_nil a hne
    refine ⟨hlong q hq, p, hp, hlong p (ha p hp), ?_⟩
    have h1 := (ha p hp).joins.start
    have h2 := hq.joins.start
    match p, q, h1, h2 with
    | x :: l, y :: m, h1, h2 =>
      have h1 : x = s := by simpa using h1
      have h2 : y = s := by simpa using h2
      simp [h1, h2]
  classical
  obtain ⟨i, hi, hmax⟩ : ∃ i, P i ∧ ∀ j, P j → j ≤ i := by
    refine ⟨Nat.findGreatest P q.length, Nat.findGreatest_spec (Nat.zero_le _) hP0, fun j hj => Nat.le_findGreatest ?_ hj⟩
    exact le_of_lt (lt_trans (Nat.lt_succ_self j) hj.1)
  obtain ⟨hiq, p, hp, hip, hpt⟩ := hi
  have hlen : (p.take (i + 1)).length = i + 1 := by rw [List.length_take]; omega
  refine ⟨p, hp, i, hip, ?_⟩
  unfold Class
  rw [hlen]
  refine ⟨hpt.symm, hiq, fun p' hp' hpt' heq => ?_⟩
  have hsome : q[i + 1]? = some q[i + 1] := List.getElem?_eq_getElem hiq
  have hlt' : i + 1 < p'.length := by
    by_contra hn
    rw [List.getElem?_eq_none (by omega), hsome] at heq
    cases heq
  have htake : p'.take (i + 2) = q.take (i + 2) := take_succ_eq p' q (i + 1) _ (hpt'.trans hpt) (heq.trans hsome) hsome
  -- a path that is a proper beginning of another one would meet the target too early
  have hpre : ∀ u v : List ℕ, Good G s t u → Good G s t v → u.length = i + 2 → i + 2 < v.length → u.take (i + 2) = v.take (i + 2) → False := by
    intro u v hu hv hul hvl huv
    rw [List.take_of_length_le (by omega)] at huv
    apply hv.avoid
    have h1 := hu.joins.stop
    rw [huv] at h1
    have h2 := List.mem_of_getLast? h1
    rw [List.dropLast_eq_take]
    exact List.take_subset_take_left v (by omega) h2
  rcases Nat.lt_or_ge (i + 2) q.length with hq2 | hq2
  · rcases Nat.lt_or_ge (i + 2) p'.length with hp2 | hp2
    · have := hmax (i + 1) ⟨hq2, p', hp', hp2, htake⟩
      omega
    · exact hpre p' q (ha p' hp') hq (by omega) hq2 htake
  · rcases Nat.lt_or_ge (i + 2) p'.length with hp2 | hp2
    · exact hpre q p' hq (ha p' hp') (by omega) hp2 htake.symm
    · rw [List.take_of_length_le (by omega), List.take_of_length_le (by omega)] at htake
      exact hqa (htake ▸ hp')

/-- Known paths are sorted and no unknown path is cheaper. -/
structure Best (w : ε → ℚ) (G : Graph ν ε) (s t : ℕ) (a : List (List ℕ)) : Prop where
  sorted : a.Pairwise fun p q => ∀ c c', Realizes w G p c → Realizes w G q c' → c ≤ c'
  rest : ∀ p ∈ a, ∀ q, Joins G s t q → q ∉ a → ∀ c c', Realizes w G p c → Realizes w G q c' → c ≤ c'

theorem loop_best {w : ε → ℚ} {d : Graph ν ε → ℕ → ℕ → Option (List ℕ)} (hd : Dijkstra w d)
    {G : Graph ν ε} (hn : NonNeg w G) (hpar : NoParallel G) {level : ℕ → ℕ} (hl : Layered level G) {s t : ℕ} (hst : s ≠ t) :
    ∀ (n : ℕ) (g : Graph ν ε) (a : List (List ℕ)) (last : List ℕ) (b : List (ℚ × List ℕ)), g.edges.Perm G.edges →
    (∀ p ∈ a ++ [last], Good G s t p) → (∀ x ∈ b, Good G s t x.2 ∧ Realizes w G x.2 x.1) → Best w G s t (a ++ [last]) →
    (∀ p ∈ a ++ [last], ∀ i, i + 1 < p.length → (i + 1 < last.length ∧ last.take (i + 1) = p.take (i + 1)) ∨
      Cov w G s t (a ++ [last]) b (p.take (i + 1))) →
    ∀ paths, yenLoop d w t n (a.length + 1) g (a ++ [last]) b = some paths →
    Best w G s t paths ∧ (paths.length = a.length + 1 + n ∨ ∀ q, Joins G s t q → q ∈ paths) := by
  intro n
  induction n with
  | zero =>
    intro g a last b _ _ _ hbest _ paths hp
    unfold yenLoop at hp
    cases hp
    exact ⟨hbest, Or.inl (by simp)⟩
  | succ n ih =>
    intro g a last b hg ha hb hbest hcov paths hp
    unfold yenLoop at hp
    have hget : (a ++ [last])[a.length + 1 - 1]? = some last := by simp
    rw [hget] at hp
    simp only at hp
    have hmem : last ∈ a ++ [last] := by simp
    obtain ⟨g', new, h1, h2, h3⟩ := spurFold_spec hd hn (a ++ [last]) last (ha last hmem) (List.range (last.length - 1))
      (fun i hi => List.mem_range.mp hi) g b hg
    obtain ⟨h4, h5⟩ := fold_cov hd hn hpar hl (a ++ [last]) ha last hmem (List.range (last.length - 1)) g b hg
      (fun i hi => List.mem_range.mp hi) _ h1
    rw [h1] at hp
    simp only at hp h4 h5
    have hb' : ∀ x ∈ b ++ new, Good G s t x.2 ∧ Realizes w G x.2 x.1 := fun x hx =>
      (List.mem_append.mp hx).elim (hb x) (h3 x)
    -- now every root is covered
    have hall : ∀ p ∈ a ++ [last], ∀ i, i + 1 < p.length → Cov w G s t (a ++ [last]) (b ++ new) (p.take (i + 1)) := fun p hp' i hi => by
      rcases hcov p hp' i hi with ⟨hl1, hl2⟩ | h
      · rw [← hl2]; exact h5 i (List.mem_range.mpr (by omega))
      · exact cov_mono h h4
    have hunknown : ∀ q, Joins G s t q → q ∉ a ++ [last] → ∀ c, Realizes w G q c → ∃ z ∈ b ++ new, z.1 ≤ c ∧ z.2 ∉ a ++ [last] :=
      fun q hq hqa c hc => by
        obtain ⟨p, hp', i, hi, hcl⟩ := leaves hst (a ++ [last]) (by simp) ha q (good_of_nodup hq (walk_nodup hl q hq.walk)) hqa
        obtain ⟨z, hz, hzc, hzcl⟩ := hall p hp' i hi q c hq hcl hc
        exact ⟨z, hz, hzc, class_not_mem _ _ _ hzcl⟩
    by_cases hex : ∃ z ∈ b ++ new, z.2 ∉ a ++ [last]
    · obtain ⟨x, hx, hxa, hpop, hmin⟩ := popNew_new (a ++ [last]) (b ++ new) hex
      rw [hpop] at hp
      have hxj := (hb' x hx).1.joins
      have hlen : a.length + 1 + 1 = (a ++ [last]).length + 1 := by simp
      rw [hlen] at hp
      have hin : ∀ p ∈ a ++ [last] ++ [x.2], Good G s t p := fun p hp' => by
        rcases List.mem_append.mp hp' with h | h
        · exact ha p h
        · rw [List.mem_singleton.mp h]; exact (hb' x hx).1
      have hbest' : Best w G s t (a ++ [last] ++ [x.2]) := by
        constructor
        · rw [List.pairwise_append]
          refine ⟨hbest.sorted, by simp, fun p hp' q hq c c' hc hc' => ?_⟩
          rw [List.mem_singleton] at hq
          subst hq
          exact hbest.rest p hp' _ hxj hxa c c' hc hc'
        · intro p hp' q hq hqa c c' hc hc'
          have hqa' : q ∉ a ++ [last] := fun h => hqa (List.mem_append_left _ h)
          rcases List.mem_append.mp hp' with h | h
          · exact hbest.rest p h q hq hqa' c c' hc hc'
          · rw [List.mem_singleton] at h
            subst h
            obtain ⟨z, hz, hzc, hza⟩ := hunknown q hq hqa' c' hc'
            rw [realizes_unique hpar _ _ _ hc (hb' x hx).2]
            exact (hmin z hz hza).1.trans hzc
      have hcov' : ∀ p ∈ a ++ [last] ++ [x.2], ∀ i, i + 1 < p.length → (i + 1 < x.2.length ∧ x.2.take (i + 1) = p.take (i + 1)) ∨
          Cov w G s t (a ++ [last] ++ [x.2]) (popNew (a ++ [last]) (b ++ new)).2 (p.take (i + 1)) := by
        intro p hp' i hi
        by_cases hroot : i + 1 < x.2.length ∧ x.2.take (i + 1) = p.take (i + 1)
        · exact Or.inl hroot
        · right
          have hlp : (p.take (i + 1)).length = i + 1 := by rw [List.length_take]; omega
          have hpa : p ∈ a ++ [last] := by
            rcases List.mem_append.mp hp' with h | h
            · exact h
            · rw [List.mem_singleton] at h; subst h; exact absurd ⟨hi, rfl⟩ hroot
          intro q c hq hcl hc
          have hcl' : Class (a ++ [last]) (p.take (i + 1)) q := ⟨hcl.1, hcl.2.1, fun r hr => hcl.2.2 r (List.mem_append_left _ hr)⟩
          obtain ⟨z, hz, hzc, hzcl⟩ := hall p hpa i hi q c hq hcl' hc
          have hzx : z ≠ x := by
            rintro rfl
            refine hroot ⟨?_, ?_⟩
            · have := hzcl.2.1; rwa [hlp] at this
            · have := hzcl.1; rwa [hlp] at this
          refine ⟨z, ((hmin z hz (class_not_mem _ _ _ hzcl)).2).resolve_left hzx, hzc, hzcl.1, hzcl.2.1, fun r hr hrt => ?_⟩
          rcases List.mem_append.mp hr with h | h
          · exact hzcl.2.2 r h hrt
          · rw [List.mem_singleton] at h
            subst h
            rw [hlp] at hrt ⊢
            have hz2 := hzcl.2.1
            rw [hlp] at hz2
            have hge : ¬ i + 1 < x.2.length := fun h => hroot ⟨h, hrt⟩
            rw [List.getElem?_eq_none (by omega), List.getElem?_eq_getElem hz2]
            simp
      obtain ⟨r1, r2⟩ := ih g' (a ++ [last]) x.2 _ h2 hin
        (fun y hy => hb' y ((popNew_spec (a ++ [last]) (b ++ new)).1 y hy)) hbest' hcov' paths hp
      refine ⟨r1, ?_⟩
      rcases r2 with r2 | r2
      · left; rw [r2]; simp; omega
      · exact Or.inr r2
    · push Not at hex
      rw [popNew_old _ _ hex, List.append_nil] at hp
      have hpa : paths = a ++ [last] := by
        cases n with
        | zero => unfold yenLoop at hp; cases hp; rfl
        | succ n =>
          unfold yenLoop at hp
          have : (a ++ [last])[a.length + 1 + 1 - 1]? = none := by simp
          rw [this] at hp
          cases hp; rfl
      rw [hpa]
      refine ⟨hbest, Or.inr fun q hq => ?_⟩
      by_contra hqa
      obtain ⟨c, hc⟩ := walk_realizes w G q hq.walk
      obtain ⟨z, hz, -, hza⟩ := hunknown q hq hqa c hc
      exact hza (hex z hz)

end Verif.Lemmas.YenLayers
