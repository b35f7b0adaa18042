import Verif.Lemmas.HullGeom

namespace Verif.Lemmas.Hull
open Verif.Py Verif.Model.Hull Verif.Spec.Hull Verif.Lemmas

/-- comparison by the first coordinate -/
abbrev leX (a b : ℚ × ℚ) : Prop := a.1 ≤ b.1

theorem orderedInsert_append {a : ℚ × ℚ} (s m : List (ℚ × ℚ)) (h : ∀ b ∈ m, a.1 ≤ b.1) :
    (s ++ m).orderedInsert leX a = s.orderedInsert leX a ++ m := by
  induction s with
  | nil =>
    cases m with
    | nil => rfl
    | cons b m => simp [List.orderedInsert_cons_of_le _ _ (show leX a b from h b (by simp))]
  | cons c s ih =>
    by_cases hc : leX a c
    · simp [List.orderedInsert_cons_of_le _ _ hc]
    · simp [List.orderedInsert_of_not_le _ _ hc, ih]

theorem insertionSort_append (l m : List (ℚ × ℚ)) (hm : m.Pairwise leX) (h : ∀ a ∈ l, ∀ b ∈ m, a.1 ≤ b.1) :
    (l ++ m).insertionSort leX = l.insertionSort leX ++ m := by
  induction l with
  | nil => simpa using hm.insertionSort_eq
  | cons a l ih =>
    rw [List.cons_append, List.insertionSort_cons, ih (fun a' ha' => h a' (by simp [ha'])),
      orderedInsert_append _ _ (h a (by simp)), List.insertionSort_cons]

theorem strict_inj {t : List (ℚ × ℚ)} (ht : t.Pairwise fun a b => a.1 < b.1) {a b : ℚ × ℚ} (ha : a ∈ t)
    (hb : b ∈ t) (h : a.1 = b.1) : a = b := by
  induction t with
  | nil => simp at ha
  | cons c t ih =>
    rw [List.pairwise_cons] at ht
    rcases List.mem_cons.mp ha with rfl | ha' <;> rcases List.mem_cons.mp hb with rfl | hb'
    · rfl
    · have := ht.1 b hb'; exact absurd h (ne_of_lt this)
    · have := ht.1 a ha'; exact absurd h.symm (ne_of_lt this)
    · exact ih ht.2 ha' hb'

theorem insertionSort_strict {l t : List (ℚ × ℚ)} (hp : l.Perm t) (ht : t.Pairwise fun a b => a.1 < b.1) :
    l.insertionSort leX = t := by
  have h1 : (l.insertionSort leX).Perm t := (List.perm_insertionSort leX l).trans hp
  have h2 : (l.insertionSort leX).Pairwise leX := List.pairwise_insertionSort leX l
  refine List.Perm.eq_of_pairwise (le := leX) ?_ h2 (ht.imp fun h => le_of_lt h) h1
  intro a b ha hb hab hba
  exact strict_inj ht (h1.subset ha) hb (le_antisymm hab hba)

theorem hullVertices_nonpos {h : IRH} {i : ℕ} {c : ℚ × ℚ} (hi : i ∈ hullVertices h) (hc : h.coords[i]? = some c) :
    c.2 ≤ 0 := by
  unfold hullVertices at hi
  rw [List.mem_filter] at hi
  simp only [hc, Bool.and_eq_true, decide_eq_true_eq] at hi
  exact hi.2.1

theorem sep_of_mem {h : IRH} {vs} (G : GoodHull h vs) {v : ℚ × ℚ} (hv : v ∈ vs) : Sep vs v.1 := by
  intro w hw hclose
  by_contra hne
  have key : ∀ (l : List (ℚ × ℚ)), (l.Pairwise fun a b => isclose a.1 b.1 = false ∧ isclose b.1 a.1 = false) →
      v ∈ l → w ∈ l → v = w ∨ isclose v.1 w.1 = false := by
    intro l
    induction l with
    | nil => simp
    | cons c l ih =>
      intro hp h1 h2
      rw [List.pairwise_cons] at hp
      rcases List.mem_cons.mp h1 with rfl | h1' <;> rcases List.mem_cons.mp h2 with rfl | h2'
      · exact Or.inl rfl
      · exact Or.inr (hp.1 _ h2').1
      · exact Or.inr (hp.1 _ h1').2
      · exact ih hp.2 h1' h2'
  rcases key vs G.sep hv hw with rfl | h
  · exact hne rfl
  · rw [h] at hclose; exact absurd hclose (by simp)

theorem first_mem {h : IRH} {vs} (G : GoodHull h vs) : ∃ y, (0, y) ∈ vs ∧ vs.head? = some (0, y) := by
  have := G.lower.first
  cases hh : vs.head? with
  | none => simp [hh] at this
  | some v =>
    obtain ⟨a, b⟩ := v
    simp only [hh, Option.map_some, Option.some.injEq] at this
    subst this
    exact ⟨b, List.mem_of_mem_head? (by simp [hh]), rfl⟩

theorem last_mem {h : IRH} {vs} (G : GoodHull h vs) : ∃ y, (1, y) ∈ vs ∧ vs.getLast? = some (1, y) := by
  have := G.lower.last
  cases hh : vs.getLast? with
  | none => simp [hh] at this
  | some v =>
    obtain ⟨a, b⟩ := v
    simp only [hh, Option.map_some, Option.some.injEq] at this
    subst this
    exact ⟨b, List.mem_of_getLast? (by simp [hh]), rfl⟩

theorem two_le_length {h : IRH} {vs} (G : GoodHull h vs) : 2 ≤ vs.length := by
  obtain ⟨y, _, hy⟩ := first_mem G
  obtain ⟨z, _, hz⟩ := last_mem G
  match vs, hy, hz with
  | [a], hy, hz =>
    simp at hy hz
    rw [hy] at hz
    simp at hz
  | a :: b :: r, _, _ => simp

theorem hullEnergy_spec {h : IRH} {vs} (G : GoodHull h vs) {x : ℚ} (h0 : 0 ≤ x) (h1 : x ≤ 1) (hs : Sep vs x) :
    ∃ y, getHullEnergy h x = some y ∧ OnChain vs (x, y) := by
  obtain ⟨y0, _, hy⟩ := first_mem G
  obtain ⟨y1, _, hz⟩ := last_mem G
  obtain ⟨res, y, e1, e2, e3⟩ := lookup_spec h.coords x (sortedVertices h) vs G.verts G.lower.strict hs
    (two_le_length G) (by intro v hv; rw [hy] at hv; cases hv; exact h0)
    (by intro v hv; rw [hz] at hv; cases hv; exact h1)
  refine ⟨y, ?_, e3⟩
  unfold getHullEnergy getReactionsByCoordinate
  rw [e1]
  exact e2

/-- the chain value is unique -/
theorem onChain_unique {pts vs} (L : LowerHull pts vs) {x y y' : ℚ} (h : OnChain vs (x, y)) (h' : OnChain vs (x, y')) :
    y = y' := by
  obtain ⟨a, b, hab, h1, h2, h3⟩ := h
  obtain ⟨c, d, hcd, k1, k2, k3⟩ := h'
  have A := onChain_above L ⟨c, d, hcd, k1, k2, k3⟩ hab
  have B := onChain_above L ⟨a, b, hab, h1, h2, h3⟩ hcd
  have l1 := adjacent_lt L.strict hab
  have l2 := adjacent_lt L.strict hcd
  simp only [OnLine, AboveLine] at *
  rw [← h3] at A
  rw [← k3] at B
  exact le_antisymm (le_of_mul_le_mul_right A (by linarith)) (le_of_mul_le_mul_right B (by linarith))

theorem onChain_vertex {vs : List (ℚ × ℚ)} (hl : 2 ≤ vs.length) (hs : vs.Pairwise fun a b => a.1 < b.1) {v} (hv : v ∈ vs) :
    OnChain vs v := by
  obtain ⟨l, r, rfl⟩ := List.append_of_mem hv
  cases r with
  | cons b r =>
    have hadj : Adjacent (l ++ v :: b :: r) v b := ⟨l, r, rfl⟩
    exact ⟨v, b, hadj, le_refl _, (adjacent_lt hs hadj).le, by simp [OnLine]⟩
  | nil =>
    obtain rfl | ⟨l', a, rfl⟩ := List.eq_nil_or_concat l
    · simp at hl
    · rw [List.concat_eq_append] at hs ⊢
      have hadj : Adjacent ((l' ++ [a]) ++ [v]) a v := ⟨l', [], by simp⟩
      exact ⟨a, v, hadj, (adjacent_lt hs hadj).le, le_refl _, by simp [OnLine]⟩

/-- part of the coordinates strictly inside -/
def interior (vs : List (ℚ × ℚ)) (x1 x2 : ℚ) : List (ℚ × ℚ) := vs.filter fun c => decide (x1 < c.1 ∧ c.1 < x2)

def preRef (x y : ℚ) : List (ℚ × ℚ) := if isclose x 0 && !isclose y 0 then [(0, 0)] else []
def postRef (x y : ℚ) : List (ℚ × ℚ) := if isclose x 1 && !isclose y 0 then [(1, 0)] else []
def endPt (x1 x2 y2 : ℚ) : List (ℚ × ℚ) := if x2 ≠ x1 then [(x2, y2)] else []

theorem isclose_zero_eq {h : IRH} {vs} (G : GoodHull h vs) {x : ℚ} (hs : Sep vs x) (hc : isclose x 0 = true) : x = 0 := by
  obtain ⟨y, hy, _⟩ := first_mem G
  exact hs _ hy hc

theorem isclose_one_eq {h : IRH} {vs} (G : GoodHull h vs) {x : ℚ} (hs : Sep vs x) (hc : isclose x 1 = true) : x = 1 := by
  obtain ⟨y, hy, _⟩ := last_mem G
  exact hs _ hy hc

theorem interior_perm {h : IRH} {vs} (G : GoodHull h vs) (x1 x2 : ℚ) :
    ((hullVertices h).filterMap fun i =>
      match h.coords[i]? with
      | some c => if c.1 < x2 ∧ x1 < c.1 ∧ c.2 ≤ 0 then some c else none
      | none => none).Perm (interior vs x1 x2) := by
  have hperm : (hullVertices h).Perm (sortedVertices h) := (List.perm_insertionSort _ _).symm
  refine (hperm.filterMap _).trans ?_
  have hc : (sortedVertices h).filterMap (fun i =>
      match h.coords[i]? with
      | some c => if c.1 < x2 ∧ x1 < c.1 ∧ c.2 ≤ 0 then some c else none
      | none => none)
      = (sortedVertices h).filterMap (fun i =>
        (h.coords[i]?).bind fun c => if x1 < c.1 ∧ c.1 < x2 then some c else none) := by
    apply List.filterMap_congr
    intro i hi
    have hi' : i ∈ hullVertices h := hperm.mem_iff.mpr hi
    cases hci : h.coords[i]? with
    | none => simp
    | some c =>
      have := hullVertices_nonpos hi' hci
      simp only [this, and_true, Option.bind_some]
      by_cases hA : x1 < c.1 ∧ c.1 < x2
      · simp [hA]
      · rw [if_neg hA, if_neg (by tauto)]
  rw [hc, show (fun i => (h.coords[i]?).bind fun c => if x1 < c.1 ∧ c.1 < x2 then some c else none)
    = ((fun o : Option (ℚ × ℚ) => o.bind fun c => if x1 < c.1 ∧ c.1 < x2 then some c else none) ∘ fun i => h.coords[i]?)
    from rfl, ← List.filterMap_map, G.verts, List.filterMap_map]
  unfold interior
  rw [← List.filterMap_eq_filter]
  apply List.Perm.of_eq
  apply List.filterMap_congr
  intro c _
  simp [Option.guard]

theorem range_form {h : IRH} {vs} (G : GoodHull h vs) {x1 x2 : ℚ} (h0 : 0 ≤ x1) (hx : x1 ≤ x2) (h1 : x2 ≤ 1)
    (s1 : Sep vs x1) (s2 : Sep vs x2) :
    ∃ y1 y2, OnChain vs (x1, y1) ∧ OnChain vs (x2, y2) ∧ getHullEnergy h x1 = some y1 ∧ getHullEnergy h x2 = some y2 ∧
      getCoordsInRange h x1 x2
        = some (preRef x1 y1 ++ ((x1, y1) :: (interior vs x1 x2 ++ endPt x1 x2 y2)) ++ postRef x2 y2) := by
  obtain ⟨y1, e1, c1⟩ := hullEnergy_spec G h0 (hx.trans h1) s1
  obtain ⟨y2, e2, c2⟩ := hullEnergy_spec G (h0.trans hx) h1 s2
  refine ⟨y1, y2, c1, c2, e1, e2, ?_⟩
  unfold getCoordsInRange
  simp only [min_eq_left hx, max_eq_right hx, e1, e2, Option.bind_eq_bind, Option.bind_some]
  show some _ = some _
  congr 1
  set I := ((hullVertices h).filterMap fun i =>
      match h.coords[i]? with
      | some c => if c.1 < x2 ∧ x1 < c.1 ∧ c.2 ≤ 0 then some c else none
      | none => none) with hI
  have hIperm := interior_perm G x1 x2
  rw [← hI] at hIperm
  have hIsort : I.insertionSort leX = interior vs x1 x2 :=
    insertionSort_strict hIperm (G.lower.strict.sublist List.filter_sublist)
  have hImem : ∀ a ∈ I, x1 < a.1 ∧ a.1 < x2 := by
    intro a ha
    have := hIperm.subset ha
    simp only [interior, List.mem_filter, decide_eq_true_eq] at this
    exact this.2
  have hshape : (if (isclose x2 1 && !isclose y2 0) = true then
        (if x2 ≠ x1 then
          (if (isclose x1 0 && !isclose y1 0) = true then [((0 : ℚ), (0 : ℚ))] else []) ++ [(x1, y1)] ++ I ++ [(x2, y2)]
         else (if (isclose x1 0 && !isclose y1 0) = true then [((0 : ℚ), (0 : ℚ))] else []) ++ [(x1, y1)] ++ I) ++ [(1, 0)]
       else
        (if x2 ≠ x1 then
          (if (isclose x1 0 && !isclose y1 0) = true then [((0 : ℚ), (0 : ℚ))] else []) ++ [(x1, y1)] ++ I ++ [(x2, y2)]
         else (if (isclose x1 0 && !isclose y1 0) = true then [((0 : ℚ), (0 : ℚ))] else []) ++ [(x1, y1)] ++ I))
      = preRef x1 y1 ++ (x1, y1) :: (I ++ (endPt x1 x2 y2 ++ postRef x2 y2)) := by
    unfold preRef endPt postRef
    split_ifs <;> simp
  have hend : ∀ b ∈ endPt x1 x2 y2, b = (x2, y2) := by
    intro b hb; unfold endPt at hb; split_ifs at hb <;> simp_all
  have hpost : ∀ b ∈ postRef x2 y2, b = (1, 0) ∧ x2 = 1 := by
    intro b hb; unfold postRef at hb
    split_ifs at hb with hh
    · rw [Bool.and_eq_true] at hh
      exact ⟨by simpa using hb, isclose_one_eq G s2 hh.1⟩
    · simp at hb
  have hpre : ∀ b ∈ preRef x1 y1, b = (0, 0) ∧ x1 = 0 := by
    intro b hb; unfold preRef at hb
    split_ifs at hb with hh
    · rw [Bool.and_eq_true] at hh
      exact ⟨by simpa using hb, isclose_zero_eq G s1 hh.1⟩
    · simp at hb
  have htailsort : (endPt x1 x2 y2 ++ postRef x2 y2).Pairwise leX := by
    rw [List.pairwise_append]
    refine ⟨?_, ?_, ?_⟩
    · unfold endPt; split_ifs <;> simp
    · unfold postRef; split_ifs <;> simp
    · intro a ha b hb
      rw [hend a ha, (hpost b hb).1]; exact h1
  have hmain : ((x1, y1) :: (I ++ (endPt x1 x2 y2 ++ postRef x2 y2))).insertionSort leX
      = (x1, y1) :: (interior vs x1 x2 ++ (endPt x1 x2 y2 ++ postRef x2 y2)) := by
    rw [List.insertionSort_cons_of_forall_rel]
    · rw [insertionSort_append I _ htailsort, hIsort]
      intro a ha b hb
      have := hImem a ha
      rcases List.mem_append.mp hb with hb | hb
      · rw [hend b hb]; exact this.2.le
      · rw [(hpost b hb).1]; exact this.2.le.trans h1
    · intro b hb
      rcases List.mem_append.mp hb with hb | hb
      · exact (hImem b hb).1.le
      · rcases List.mem_append.mp hb with hb | hb
        · rw [hend b hb]; exact hx
        · rw [(hpost b hb).1]; exact hx.trans h1
  refine Eq.trans (congrArg (List.insertionSort leX) hshape) ?_
  have hallge : ∀ b ∈ (x1, y1) :: (I ++ (endPt x1 x2 y2 ++ postRef x2 y2)), x1 ≤ b.1 := by
    intro b hb
    rcases List.mem_cons.mp hb with rfl | hb
    · exact le_refl _
    rcases List.mem_append.mp hb with hb | hb
    · exact (hImem b hb).1.le
    · rcases List.mem_append.mp hb with hb | hb
      · rw [hend b hb]; exact hx
      · rw [(hpost b hb).1]; exact hx.trans h1
  have : preRef x1 y1 = [] ∨ preRef x1 y1 = [(0, 0)] := by
    unfold preRef; split_ifs <;> simp
  rcases this with hp | hp
  · rw [hp, List.nil_append, hmain]; simp
  · rw [hp, List.singleton_append, List.insertionSort_cons_of_forall_rel, hmain]
    · simp
    · intro b hb; exact h0.trans (hallge b hb)

/-- shape facts for triples -/
theorem triple_mid {pre M post : List (ℚ × ℚ)} (hpre : pre.length ≤ 1) (hpost : post.length ≤ 1)
    (hM : M.Pairwise fun a b => a.1 < b.1)
    (h1 : ∀ a ∈ pre, ∀ b ∈ M, a.1 ≤ b.1) (h2 : ∀ a ∈ M, ∀ b ∈ post, a.1 ≤ b.1)
    (h3 : ∀ a ∈ pre, ∀ b ∈ post, a.1 < b.1)
    {i j k : ℕ} {l m r : ℚ × ℚ} (hij : i < j) (hjk : j < k)
    (gi : (pre ++ M ++ post)[i]? = some l) (gj : (pre ++ M ++ post)[j]? = some m)
    (gk : (pre ++ M ++ post)[k]? = some r) :
    m ∈ M ∧ l.1 ≤ m.1 ∧ m.1 ≤ r.1 ∧ l.1 < r.1 := by
  have hk : k < (pre ++ M ++ post).length := (List.getElem?_eq_some_iff.mp gk).1
  simp only [List.length_append] at hk
  have jM : pre.length ≤ j ∧ j - pre.length < M.length := by omega
  have hm' : M[j - pre.length]? = some m := by
    rw [List.append_assoc, List.getElem?_append_right jM.1, List.getElem?_append_left jM.2] at gj; exact gj
  have mM : m ∈ M := List.mem_of_getElem? hm'
  have mono : ∀ (a b : ℕ) (p q : ℚ × ℚ), a < b → M[a]? = some p → M[b]? = some q → p.1 < q.1 := by
    intro a b p q hab ha hb
    obtain ⟨ha', rfl⟩ := List.getElem?_eq_some_iff.mp ha
    obtain ⟨hb', rfl⟩ := List.getElem?_eq_some_iff.mp hb
    exact List.pairwise_iff_getElem.mp hM a b ha' hb' hab
  have hmr : (m.1 < r.1) ∨ (m.1 ≤ r.1 ∧ r ∈ post) := by
    by_cases hkM : k - pre.length < M.length
    · left
      have : M[k - pre.length]? = some r := by
        rw [List.append_assoc, List.getElem?_append_right (by omega), List.getElem?_append_left hkM] at gk; exact gk
      exact mono _ _ _ _ (by omega) hm' this
    · right
      have : post[k - pre.length - M.length]? = some r := by
        rw [List.append_assoc, List.getElem?_append_right (by omega), List.getElem?_append_right (by omega)] at gk
        exact gk
      have hr := List.mem_of_getElem? this
      exact ⟨h2 m mM r hr, hr⟩
  have hlm : (l.1 < m.1) ∨ (l.1 ≤ m.1 ∧ l ∈ pre) := by
    by_cases hi : i < pre.length
    · right
      have : pre[i]? = some l := by
        rw [List.append_assoc, List.getElem?_append_left hi] at gi; exact gi
      have hl := List.mem_of_getElem? this
      exact ⟨h1 l hl m mM, hl⟩
    · left
      have : M[i - pre.length]? = some l := by
        rw [List.append_assoc, List.getElem?_append_right (by omega), List.getElem?_append_left (by omega)] at gi
        exact gi
      exact mono _ _ _ _ (by omega) this hm'
  refine ⟨mM, ?_, ?_, ?_⟩
  · rcases hlm with h | h; exacts [h.le, h.1]
  · rcases hmr with h | h; exacts [h.le, h.1]
  · rcases hlm with h | h <;> rcases hmr with h' | h'
    · linarith
    · linarith [h'.1]
    · linarith [h.1]
    · exact h3 l h.2 r h'.2

/-- all altitudes over any range of a good hull are nonpositive -/
theorem range_altitudes {h : IRH} {vs} (G : GoodHull h vs) {x1 x2 : ℚ} (h0 : 0 ≤ x1) (hx : x1 ≤ x2) (h1 : x2 ≤ 1)
    (s1 : Sep vs x1) (s2 : Sep vs x2) :
    ∃ R, getCoordsInRange h x1 x2 = some R ∧ R ≠ [] ∧
      ∀ (i j k : ℕ) cl cm cr, i < j → j < k → R[i]? = some cl → R[j]? = some cm → R[k]? = some cr →
        calculateAltitude cl cm cr ≤ 0 := by
  obtain ⟨y1, y2, c1, c2, e1, e2, hR⟩ := range_form G h0 hx h1 s1 s2
  refine ⟨_, hR, by simp, ?_⟩
  intro i j k cl cm cr hij hjk gi gj gk
  set M := (x1, y1) :: (interior vs x1 x2 ++ endPt x1 x2 y2) with hMdef
  have hend : ∀ b ∈ endPt x1 x2 y2, b = (x2, y2) ∧ x1 < x2 := by
    intro b hb; unfold endPt at hb
    split_ifs at hb with hh
    · exact ⟨by simpa using hb, lt_of_le_of_ne hx (Ne.symm hh)⟩
    · simp at hb
  have hpost : ∀ b ∈ postRef x2 y2, b = (1, 0) ∧ x2 = 1 := by
    intro b hb; unfold postRef at hb
    split_ifs at hb with hh
    · rw [Bool.and_eq_true] at hh
      exact ⟨by simpa using hb, isclose_one_eq G s2 hh.1⟩
    · simp at hb
  have hpre : ∀ b ∈ preRef x1 y1, b = (0, 0) ∧ x1 = 0 := by
    intro b hb; unfold preRef at hb
    split_ifs at hb with hh
    · rw [Bool.and_eq_true] at hh
      exact ⟨by simpa using hb, isclose_zero_eq G s1 hh.1⟩
    · simp at hb
  have hint : ∀ a ∈ interior vs x1 x2, a ∈ vs ∧ x1 < a.1 ∧ a.1 < x2 := by
    intro a ha
    simpa [interior, List.mem_filter] using ha
  have hMchain : ∀ a ∈ M, OnChain vs a ∧ x1 ≤ a.1 ∧ a.1 ≤ x2 := by
    intro a ha
    rcases List.mem_cons.mp ha with rfl | ha
    · exact ⟨c1, le_refl _, hx⟩
    rcases List.mem_append.mp ha with ha | ha
    · have := hint a ha
      exact ⟨onChain_vertex (two_le_length G) G.lower.strict this.1, this.2.1.le, this.2.2.le⟩
    · rw [(hend a ha).1]; exact ⟨c2, hx, le_refl _⟩
  have hMstrict : M.Pairwise fun a b => a.1 < b.1 := by
    rw [hMdef, List.pairwise_cons, List.pairwise_append]
    refine ⟨?_, G.lower.strict.sublist List.filter_sublist, ?_, ?_⟩
    · intro b hb
      rcases List.mem_append.mp hb with hb | hb
      · exact (hint b hb).2.1
      · rw [(hend b hb).1]; exact (hend b hb).2
    · unfold endPt; split_ifs <;> simp
    · intro a ha b hb
      rw [(hend b hb).1]; exact (hint a ha).2.2
  obtain ⟨mM, t1, t2, t3⟩ := triple_mid (pre := preRef x1 y1) (M := M) (post := postRef x2 y2)
    (by unfold preRef; split_ifs <;> simp) (by unfold postRef; split_ifs <;> simp) hMstrict
    (by intro a ha b hb; rw [(hpre a ha).1]; exact h0.trans (hMchain b hb).2.1)
    (by intro a ha b hb; rw [(hpost b hb).1]; exact (hMchain a ha).2.2.trans h1)
    (by intro a ha b hb; rw [(hpre a ha).1, (hpost b hb).1]; norm_num) hij hjk gi gj gk
  have hall : ∀ c ∈ preRef x1 y1 ++ M ++ postRef x2 y2, ∀ a b, Adjacent vs a b → AboveLine a b c := by
    intro c hc a b hab
    rcases List.mem_append.mp hc with hc | hc
    · rcases List.mem_append.mp hc with hc | hc
      · rw [(hpre c hc).1]; exact G.lower.support a b hab _ G.ends.1
      · exact onChain_above G.lower (hMchain c hc).1 hab
    · rw [(hpost c hc).1]; exact G.lower.support a b hab _ G.ends.2
  obtain ⟨a, b, hab, _, _, hon⟩ := (hMchain cm mM).1
  exact altitude_nonpos (adjacent_lt G.lower.strict hab) hon (hall cl (List.mem_of_getElem? gi) a b hab)
    (hall cr (List.mem_of_getElem? gk) a b hab) t1 t2 t3

end Verif.Lemmas.Hull
