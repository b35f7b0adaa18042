import Verif.Props.HullScore
import Verif.Props.HullInit

/-! Lemmas on hulls made from the same points in another order or from mirrored points, for Props/HullMirror. -/

namespace Verif.Lemmas.HullMirror
open Verif.Py Verif.Model.Hull Verif.Spec.Hull Verif.Lemmas Verif.Lemmas.Hull Verif.Props.Hull Verif.Props.HullInit Finset

/-- the point seen with the reactants exchanged -/
def mir (p : ℚ × ℚ) : ℚ × ℚ := (1 - p.1, p.2)

/-- a chain seen with the reactants exchanged -/
def mirL (l : List (ℚ × ℚ)) : List (ℚ × ℚ) := (l.map mir).reverse

@[simp] theorem mir_mir (p : ℚ × ℚ) : mir (mir p) = p := by simp [mir]

theorem mem_mirL {l : List (ℚ × ℚ)} {p} : p ∈ mirL l ↔ mir p ∈ l := by
  unfold mirL
  rw [List.mem_reverse, List.mem_map]
  constructor
  · rintro ⟨q, hq, rfl⟩; simpa using hq
  · intro h; exact ⟨_, h, by simp⟩

@[simp] theorem length_mirL (l : List (ℚ × ℚ)) : (mirL l).length = l.length := by simp [mirL]

theorem mirL_append (l m : List (ℚ × ℚ)) : mirL (l ++ m) = mirL m ++ mirL l := by simp [mirL]

@[simp] theorem mirL_mirL (l : List (ℚ × ℚ)) : mirL (mirL l) = l := by
  unfold mirL
  rw [List.map_reverse, List.reverse_reverse, List.map_map]
  conv_rhs => rw [← List.map_id l]
  exact List.map_congr_left fun p _ => by simp

theorem altitude_mir (l m r : ℚ × ℚ) (h : l.1 ≠ r.1) :
    calculateAltitude (mir r) (mir m) (mir l) = calculateAltitude l m r := by
  have h1 : r.1 - l.1 ≠ 0 := sub_ne_zero.mpr (Ne.symm h)
  unfold calculateAltitude mir
  simp only
  rw [show (1 - m.1 - (1 - r.1)) = r.1 - m.1 by ring, show (1 - l.1 - (1 - r.1)) = r.1 - l.1 by ring]
  field_simp
  ring

/-- sums over increasing triples -/
theorem triples_box (f : ℕ → ℕ → ℕ → ℚ) (N : ℕ) :
    ∑ i ∈ Ico 0 N, ∑ j ∈ Ico (i + 1) N, ∑ k ∈ Ico (j + 1) N, f i j k
      = ∑ i ∈ range N, ∑ j ∈ range N, ∑ k ∈ range N, if i < j ∧ j < k then f i j k else 0 := by
  rw [← range_eq_Ico]
  refine sum_congr rfl fun i _ => ?_
  have e1 : ∀ j, (Ico (j + 1) N) = (range N).filter (fun k => j < k) := by
    intro j; ext k; simp only [mem_Ico, mem_filter, mem_range]; omega
  rw [e1 i, sum_filter]
  refine sum_congr rfl fun j _ => ?_
  by_cases hij : i < j
  · simp only [hij, if_true, true_and]
    rw [e1 j, sum_filter]
  · simp [hij]

theorem triples_reflect (f g : ℕ → ℕ → ℕ → ℚ) (N : ℕ)
    (h : ∀ i j k, i < j → j < k → k < N → g (N - 1 - k) (N - 1 - j) (N - 1 - i) = f i j k) :
    ∑ i ∈ Ico 0 N, ∑ j ∈ Ico (i + 1) N, ∑ k ∈ Ico (j + 1) N, g i j k
      = ∑ i ∈ Ico 0 N, ∑ j ∈ Ico (i + 1) N, ∑ k ∈ Ico (j + 1) N, f i j k := by
  rw [triples_box, triples_box]
  rw [← sum_range_reflect (fun i => ∑ j ∈ range N, ∑ k ∈ range N, if i < j ∧ j < k then g i j k else 0)]
  have e1 : ∀ i, (∑ j ∈ range N, ∑ k ∈ range N, if i < j ∧ j < k then g i j k else 0)
      = ∑ j ∈ range N, ∑ k ∈ range N, if i < N - 1 - j ∧ N - 1 - j < N - 1 - k then g i (N - 1 - j) (N - 1 - k) else 0 := by
    intro i
    rw [← sum_range_reflect]
    refine sum_congr rfl fun j _ => ?_
    rw [← sum_range_reflect]
  simp only [e1]
  -- exchange the outer and the inner sum
  have e2 : ∑ a ∈ range N, ∑ b ∈ range N, ∑ c ∈ range N,
        (if N - 1 - a < N - 1 - b ∧ N - 1 - b < N - 1 - c then g (N - 1 - a) (N - 1 - b) (N - 1 - c) else 0)
      = ∑ c ∈ range N, ∑ b ∈ range N, ∑ a ∈ range N,
        (if N - 1 - a < N - 1 - b ∧ N - 1 - b < N - 1 - c then g (N - 1 - a) (N - 1 - b) (N - 1 - c) else 0) := by
    rw [sum_comm]
    rw [sum_congr rfl (fun b _ => sum_comm)]
    rw [sum_comm]
  rw [e2]
  refine sum_congr rfl fun i hi => sum_congr rfl fun j hj => sum_congr rfl fun k hk => ?_
  rw [mem_range] at hi hj hk
  by_cases hc : i < j ∧ j < k
  · rw [if_pos hc, if_pos (by omega), h i j k hc.1 hc.2 hk]
  · rw [if_neg hc, if_neg (by omega)]

/-- three increasing positions of the list have different outer coordinates -/
def Wide (R : List (ℚ × ℚ)) : Prop :=
  ∀ (i j k : ℕ) l m r, i < j → j < k → R[i]? = some l → R[j]? = some m → R[k]? = some r → l.1 ≠ r.1

theorem getElem?_mirL (R : List (ℚ × ℚ)) (i : ℕ) (hi : i < R.length) : (mirL R)[i]? = (R[R.length - 1 - i]?).map mir := by
  unfold mirL
  rw [List.getElem?_reverse (by simpa using hi), List.getElem?_map, List.length_map]

theorem decomp_mirL (R : List (ℚ × ℚ)) (hw : Wide R) : decompositionEnergy (mirL R) = decompositionEnergy R := by
  by_cases h2 : R.length ≤ 2
  · unfold decompositionEnergy
    rw [decompositionEnergyWith_short _ _ h2, decompositionEnergyWith_short _ _ (by simpa using h2)]
  · obtain ⟨n, hn⟩ : ∃ n, R.length = n + 2 := ⟨R.length - 2, by omega⟩
    unfold decompositionEnergy
    have a := range_as_map R
    have b := range_as_map (mirL R)
    rw [length_mirL, hn] at b
    rw [hn] at a
    rw [b, decompositionEnergyWith_eq]
    conv_rhs => rw [a]
    rw [decompositionEnergyWith_eq, total_eq_triples, total_eq_triples]
    congr 1
    apply triples_reflect
    intro i j k hij hjk hk
    have g : ∀ t, t < n + 2 → (mirL R).getD (n + 2 - 1 - t) 0 = mir (R.getD t 0) := by
      intro t ht
      rw [List.getD_eq_getElem?_getD, getElem?_mirL _ _ (by omega), List.getD_eq_getElem?_getD,
        show R.length - 1 - (n + 2 - 1 - t) = t by omega, List.getElem?_eq_getElem (by omega)]
      rfl
    rw [g i (by omega), g j (by omega), g k hk]
    have e : ∀ t (ht : t < R.length), R.getD t 0 = R[t] := by
      intro t ht; simp [List.getD_eq_getElem?_getD, ht]
    rw [altitude_mir]
    · rw [show n + 2 - 1 - j - (n + 2 - 1 - k) - 1 = k - j - 1 by omega,
        show n + 2 - 1 - i - (n + 2 - 1 - j) - 1 = j - i - 1 by omega,
        show n + (n + 2 - 1 - k) + 1 - (n + 2 - 1 - i) = n + i + 1 - k by omega]
      ring
    · rw [e i (by omega), e k (by omega)]
      exact hw i j k _ _ _ hij hjk (List.getElem?_eq_getElem (by omega)) (List.getElem?_eq_getElem (by omega))
        (List.getElem?_eq_getElem (by omega))

theorem maxDecomp_mirL (R : List (ℚ × ℚ)) (hw : Wide R) : maxDecompositionEnergy (mirL R) = maxDecompositionEnergy R := by
  -- both are the least of zero and all altitudes
  have bound : ∀ S : List (ℚ × ℚ), ∃ e, maxDecompositionEnergy S = some e ∧ e ≤ 0 ∧
      (∀ (i j k : ℕ) cl cm cr, i < j → j < k → S[i]? = some cl → S[j]? = some cm → S[k]? = some cr → e ≤ calculateAltitude cl cm cr) ∧
      (e = 0 ∨ ∃ (i j k : ℕ) (cl cm cr : ℚ × ℚ), i < j ∧ j < k ∧ S[i]? = some cl ∧ S[j]? = some cm ∧
        S[k]? = some cr ∧ e = calculateAltitude cl cm cr) := by
    intro S
    obtain ⟨e, he, h1, h2⟩ := C03_max_is_extremal S
    obtain ⟨e', he', hle, _⟩ := foldlM_max (combinations (List.range S.length) 3) S 0 (le_refl _) (fun c hc => mem_comb3_range hc)
    have : maxDecompositionEnergy S = some e' := he'
    rw [he] at this
    cases this
    exact ⟨e, he, hle, h1, h2⟩
  obtain ⟨e, he, h0, h1, h2⟩ := bound R
  obtain ⟨e', he', h0', h1', h2'⟩ := bound (mirL R)
  rw [he, he']
  congr 1
  have fwd : ∀ (i j k : ℕ) (cl cm cr : ℚ × ℚ), i < j → j < k → R[i]? = some cl → R[j]? = some cm → R[k]? = some cr →
      e' ≤ calculateAltitude cl cm cr := by
    intro i j k cl cm cr hij hjk gi gj gk
    have hk := (List.getElem?_eq_some_iff.mp gk).1
    rw [← altitude_mir cl cm cr (hw i j k cl cm cr hij hjk gi gj gk)]
    refine h1' (R.length - 1 - k) (R.length - 1 - j) (R.length - 1 - i) _ _ _ (by omega) (by omega) ?_ ?_ ?_
    · rw [getElem?_mirL _ _ (by omega), show R.length - 1 - (R.length - 1 - k) = k by omega, gk]; rfl
    · rw [getElem?_mirL _ _ (by omega), show R.length - 1 - (R.length - 1 - j) = j by omega, gj]; rfl
    · rw [getElem?_mirL _ _ (by omega), show R.length - 1 - (R.length - 1 - i) = i by omega, gi]; rfl
  have bwd : ∀ (i j k : ℕ) (cl cm cr : ℚ × ℚ), i < j → j < k → (mirL R)[i]? = some cl → (mirL R)[j]? = some cm → (mirL R)[k]? = some cr →
      e ≤ calculateAltitude cl cm cr := by
    intro i j k cl cm cr hij hjk gi gj gk
    have hk := (List.getElem?_eq_some_iff.mp gk).1
    rw [length_mirL] at hk
    rw [getElem?_mirL _ _ (by omega), Option.map_eq_some_iff] at gi gj gk
    obtain ⟨l, gl, rfl⟩ := gi
    obtain ⟨m, gm, rfl⟩ := gj
    obtain ⟨r, gr, rfl⟩ := gk
    have hne := hw _ _ _ r m l (by omega) (by omega) gr gm gl
    rw [altitude_mir _ _ _ hne]
    exact h1 _ _ _ r m l (by omega) (by omega) gr gm gl
  apply le_antisymm
  · rcases h2 with rfl | ⟨i, j, k, cl, cm, cr, a, b, c, d, f, rfl⟩
    · exact h0'
    · exact fwd i j k cl cm cr a b c d f
  · rcases h2' with rfl | ⟨i, j, k, cl, cm, cr, a, b, c, d, f, rfl⟩
    · exact h0
    · exact bwd i j k cl cm cr a b c d f

theorem trapz_mirL (R : List (ℚ × ℚ)) : trapz (mirL R) = trapz R := by
  induction R with
  | nil => rfl
  | cons a R ih =>
    cases R with
    | nil => rfl
    | cons b R =>
      have e : mirL (a :: b :: R) = mirL R ++ mir b :: [mir a] := by simp [mirL]
      have e' : mirL (b :: R) = mirL R ++ [mir b] := by simp [mirL]
      rw [e, trapz_append, ← e', ih]
      simp only [trapz, mir]
      ring

theorem fanArea_mirL (R : List (ℚ × ℚ)) : fanArea (mirL R) = fanArea R := by
  match R with
  | [] => rfl
  | [a] => rfl
  | a :: b :: l =>
    rw [C98_fan]
    obtain ⟨a', b', l', h⟩ : ∃ a' b' l', mirL (a :: b :: l) = a' :: b' :: l' := by
      cases h : mirL (a :: b :: l) with
      | nil => simpa using congrArg List.length h
      | cons x t =>
        cases t with
        | nil => have := congrArg List.length h; simp at this
        | cons y t => exact ⟨x, y, t, rfl⟩
    have ha : a' = mir ((b :: l).getLast (by simp)) := by
      have := congrArg List.head? h
      unfold mirL at this
      rw [List.head?_reverse, List.getLast?_map, List.getLast?_cons_cons, List.getLast?_eq_some_getLast (by simp)] at this
      simpa using this.symm
    have hb : (b' :: l').getLast (by simp) = mir a := by
      have := congrArg List.getLast? h
      unfold mirL at this
      rw [List.getLast?_reverse, List.map_cons, List.head?_cons, List.getLast?_cons_cons, List.getLast?_eq_some_getLast (by simp)] at this
      exact (Option.some.inj this).symm
    have ht := trapz_mirL (a :: b :: l)
    rw [h] at ht ⊢
    rw [C98_fan, hb, ht]
    congr 1
    rw [ha]
    simp only [trapz, mir]
    ring

/-! ### the chain -/

theorem adjacent_mirL {vs : List (ℚ × ℚ)} {a b} (h : Adjacent vs a b) : Adjacent (mirL vs) (mir b) (mir a) := by
  obtain ⟨l, r, rfl⟩ := h
  exact ⟨mirL r, mirL l, by simp [mirL]⟩

theorem onChain_mirL {vs : List (ℚ × ℚ)} {x y : ℚ} (h : OnChain vs (x, y)) : OnChain (mirL vs) (1 - x, y) := by
  obtain ⟨a, b, hab, h1, h2, h3⟩ := h
  refine ⟨mir b, mir a, adjacent_mirL hab, ?_, ?_, ?_⟩
  · simp only [mir] at *; linarith
  · simp only [mir] at *; linarith
  · simp only [OnLine, mir] at *; linarith

theorem interior_mirL (vs : List (ℚ × ℚ)) (x1 x2 : ℚ) : interior (mirL vs) (1 - x2) (1 - x1) = mirL (interior vs x1 x2) := by
  unfold interior mirL
  rw [List.filter_reverse, List.filter_map]
  congr 2
  apply List.filter_congr
  intro c _
  rw [Function.comp_apply, decide_eq_decide]
  show (1 - x2 < 1 - c.1 ∧ 1 - c.1 < 1 - x1) ↔ _
  constructor <;> rintro ⟨h1, h2⟩ <;> constructor <;> linarith

theorem range_mirL {h h' : IRH} {vs} (G : GoodHull h vs) (G' : GoodHull h' (mirL vs)) {x1 x2 : ℚ} (h0 : 0 ≤ x1) (hx : x1 ≤ x2)
    (h1 : x2 ≤ 1) (s1 : Sep vs x1) (s2 : Sep vs x2) (s1' : Sep (mirL vs) (1 - x1)) (s2' : Sep (mirL vs) (1 - x2)) :
    ∃ R, getCoordsInRange h x1 x2 = some R ∧ getCoordsInRange h' (1 - x2) (1 - x1) = some (mirL R) ∧ Wide R := by
  obtain ⟨y1, y2, c1, c2, e1, e2, hR⟩ := range_form G h0 hx h1 s1 s2
  obtain ⟨z2, z1, d2, d1, f2, f1, hR'⟩ := range_form G' (x1 := 1 - x2) (x2 := 1 - x1) (by linarith) (by linarith) (by linarith) s2' s1'
  obtain rfl : y1 = z1 := onChain_unique G'.lower (onChain_mirL c1) d1
  obtain rfl : y2 = z2 := onChain_unique G'.lower (onChain_mirL c2) d2
  refine ⟨_, hR, ?_, ?_⟩
  · rw [hR']
    congr 1
    rw [mirL_append, mirL_append]
    have p1 : postRef (1 - x1) y1 = mirL (preRef x1 y1) := by
      unfold postRef preRef
      have : isclose (1 - x1) 1 = isclose x1 0 := by
        rw [Bool.eq_iff_iff]
        constructor
        · intro h
          have := isclose_one_eq G' s1' h
          have : x1 = 0 := by linarith
          rw [this]; exact isclose_self 0
        · intro h
          have := isclose_zero_eq G s1 h
          rw [this, sub_zero]; exact isclose_self 1
      rw [this]
      split_ifs <;> simp [mirL, mir]
    have p2 : preRef (1 - x2) y2 = mirL (postRef x2 y2) := by
      unfold postRef preRef
      have : isclose (1 - x2) 0 = isclose x2 1 := by
        rw [Bool.eq_iff_iff]
        constructor
        · intro h
          have := isclose_zero_eq G' s2' h
          have : x2 = 1 := by linarith
          rw [this]; exact isclose_self 1
        · intro h
          have := isclose_one_eq G s2 h
          rw [this, sub_self]; exact isclose_self 0
      rw [this]
      split_ifs <;> simp [mirL, mir]
    rw [p1, p2, interior_mirL, List.append_assoc]
    congr 1
    congr 1
    by_cases heq : x1 = x2
    · subst heq
      obtain rfl : y1 = y2 := onChain_unique G.lower c1 c2
      have : interior vs x1 x1 = [] := by
        unfold interior; rw [List.filter_eq_nil_iff]; intro a _; simp only [decide_eq_true_eq, not_and, not_lt]; exact fun h => h.le
      rw [this]; simp [endPt, mirL, mir]
    · have n1 : x2 ≠ x1 := fun h => heq h.symm
      have n2 : (1 - x1 : ℚ) ≠ 1 - x2 := fun h => heq (by linarith)
      simp only [endPt, if_pos n1, if_pos n2]
      simp [mirL, mir]
  · intro i j k l m r hij hjk gi gj gk
    set M := (x1, y1) :: (interior vs x1 x2 ++ endPt x1 x2 y2) with hMdef
    have hin : ∀ c ∈ interior vs x1 x2, x1 < c.1 ∧ c.1 < x2 := by
      intro c hc; unfold interior at hc; rw [List.mem_filter] at hc; simpa using hc.2
    have hend : ∀ c ∈ endPt x1 x2 y2, c = (x2, y2) ∧ x1 < x2 := by
      intro c hc; unfold endPt at hc; split_ifs at hc with hne
      · exact ⟨by simpa using hc, lt_of_le_of_ne hx (Ne.symm hne)⟩
      · simp at hc
    have hM : M.Pairwise fun a b => a.1 < b.1 := by
      rw [hMdef, List.pairwise_cons, List.pairwise_append]
      refine ⟨?_, G.lower.strict.filter _, ?_, ?_⟩
      · intro c hc
        rcases List.mem_append.mp hc with hc | hc
        · exact (hin c hc).1
        · obtain ⟨rfl, hlt⟩ := hend c hc; exact hlt
      · unfold endPt; split_ifs <;> simp
      · intro a ha b hb
        obtain ⟨rfl, hlt⟩ := hend b hb
        exact (hin a ha).2
    have hpre : ∀ a ∈ preRef x1 y1, a = (0, 0) ∧ x1 = 0 := by
      intro a ha; unfold preRef at ha; split_ifs at ha with hc
      · rw [Bool.and_eq_true] at hc; exact ⟨by simpa using ha, isclose_zero_eq G s1 hc.1⟩
      · simp at ha
    have hpost : ∀ a ∈ postRef x2 y2, a = (1, 0) ∧ x2 = 1 := by
      intro a ha; unfold postRef at ha; split_ifs at ha with hc
      · rw [Bool.and_eq_true] at hc; exact ⟨by simpa using ha, isclose_one_eq G s2 hc.1⟩
      · simp at ha
    have hMr : ∀ b ∈ M, x1 ≤ b.1 ∧ b.1 ≤ x2 := by
      intro b hb
      rw [hMdef, List.mem_cons, List.mem_append] at hb
      rcases hb with rfl | hb | hb
      · exact ⟨le_refl _, hx⟩
      · exact ⟨(hin b hb).1.le, (hin b hb).2.le⟩
      · obtain ⟨rfl, hlt⟩ := hend b hb; exact ⟨hlt.le, le_refl _⟩
    have := triple_mid (pre := preRef x1 y1) (M := M) (post := postRef x2 y2)
      (by unfold preRef; split_ifs <;> simp) (by unfold postRef; split_ifs <;> simp) hM
      (fun a ha b hb => by obtain ⟨rfl, h⟩ := hpre a ha; have := (hMr b hb).1; simp only; linarith)
      (fun a ha b hb => by obtain ⟨rfl, h⟩ := hpost b hb; have := (hMr a ha).2; simp only; linarith)
      (fun a ha b hb => by obtain ⟨rfl, _⟩ := hpre a ha; obtain ⟨rfl, _⟩ := hpost b hb; norm_num)
      hij hjk gi gj gk
    exact this.2.2.2.ne

theorem range_same {h h' : IRH} {vs} (G : GoodHull h vs) (G' : GoodHull h' vs) {x1 x2 : ℚ} (a1 : 0 ≤ x1 ∧ x1 ≤ 1) (a2 : 0 ≤ x2 ∧ x2 ≤ 1)
    (s1 : Sep vs x1) (s2 : Sep vs x2) : getCoordsInRange h' x1 x2 = getCoordsInRange h x1 x2 := by
  have key : ∀ x1 x2 : ℚ, 0 ≤ x1 → x1 ≤ x2 → x2 ≤ 1 → Sep vs x1 → Sep vs x2 → getCoordsInRange h' x1 x2 = getCoordsInRange h x1 x2 := by
    intro x1 x2 h0 hx h1 s1 s2
    obtain ⟨y1, y2, c1, c2, e1, e2, hR⟩ := range_form G h0 hx h1 s1 s2
    obtain ⟨z1, z2, d1, d2, f1, f2, hR'⟩ := range_form G' h0 hx h1 s1 s2
    rw [onChain_unique G.lower d1 c1, onChain_unique G.lower d2 c2] at hR'
    rw [hR, hR']
  rcases le_total x1 x2 with hx | hx
  · exact key x1 x2 a1.1 hx a2.2 s1 s2
  · have comm : ∀ g : IRH, getCoordsInRange g x1 x2 = getCoordsInRange g x2 x1 := by
      intro g; unfold getCoordsInRange; rw [min_comm, max_comm]
    rw [comm, comm, key x2 x1 a2.1 hx a1.2 s2 s1]

/-- every coordinate in a range is an end point or a vertex -/
theorem range_mem {h : IRH} {vs} (G : GoodHull h vs) {x1 x2 : ℚ} (a1 : 0 ≤ x1 ∧ x1 ≤ 1) (a2 : 0 ≤ x2 ∧ x2 ≤ 1)
    (s1 : Sep vs x1) (s2 : Sep vs x2) : ∃ R, getCoordsInRange h x1 x2 = some R ∧ ∀ c ∈ R, (0 ≤ c.1 ∧ c.1 ≤ 1) ∧ Sep vs c.1 := by
  have key : ∀ x1 x2 : ℚ, 0 ≤ x1 → x1 ≤ x2 → x2 ≤ 1 → Sep vs x1 → Sep vs x2 →
      ∃ R, getCoordsInRange h x1 x2 = some R ∧ ∀ c ∈ R, (0 ≤ c.1 ∧ c.1 ≤ 1) ∧ Sep vs c.1 := by
    intro x1 x2 h0 hx h1 s1 s2
    obtain ⟨y1, y2, c1, c2, e1, e2, hR⟩ := range_form G h0 hx h1 s1 s2
    refine ⟨_, hR, ?_⟩
    intro c hc
    simp only [List.mem_append, List.mem_cons] at hc
    rcases hc with (hc | hc | hc | hc) | hc
    · unfold preRef at hc; split_ifs at hc
      · simp only [List.mem_singleton] at hc; subst hc; exact ⟨by norm_num, sep_zero G⟩
      · simp at hc
    · subst hc; exact ⟨⟨h0, hx.trans h1⟩, s1⟩
    · unfold interior at hc
      have := (List.mem_filter.mp hc).1
      exact ⟨chain_range G c this, sep_of_mem G this⟩
    · unfold endPt at hc; split_ifs at hc
      · simp only [List.mem_singleton] at hc; subst hc; exact ⟨⟨h0.trans hx, h1⟩, s2⟩
      · simp at hc
    · unfold postRef at hc; split_ifs at hc
      · simp only [List.mem_singleton] at hc; subst hc; exact ⟨by norm_num, sep_one G⟩
      · simp at hc
  rcases le_total x1 x2 with hx | hx
  · exact key x1 x2 a1.1 hx a2.2 s1 s2
  · obtain ⟨R, hR, hm⟩ := key x2 x1 a2.1 hx a1.2 s2 s1
    refine ⟨R, ?_, hm⟩
    rw [← hR]; unfold getCoordsInRange; rw [min_comm, max_comm]

theorem foldlM_congr' {α β : Type} {f g : β → α → Option β} (l : List α) (b : β) (h : ∀ a ∈ l, ∀ b, f b a = g b a) :
    l.foldlM f b = l.foldlM g b := by
  induction l generalizing b with
  | nil => rfl
  | cons a l ih =>
    rw [List.foldlM_cons, List.foldlM_cons, h a (by simp)]
    congr 1
    funext b'
    exact ih b' fun a ha => h a (by simp [ha])

/-- what the recursion does after the optional truncation of its range -/
def recTail (h : IRH) (fuel : ℕ) (u v : Bool) (B : List (ℚ × ℚ)) : Option (ℚ × ℕ) := do
    let cMin ← B.head?
    let cMax ← B.getLast?
    let coords := B.tail.dropLast
    match coords with
    | [] => pure (0, 1)
    | [c] => pure (calculateAltitude cMin c cMax, 1)
    | _ =>
      let st ← coords.foldlM (init := ((0 : ℚ), (0 : ℕ), u, v)) fun st c => do
        let (val, total, uMin, uMax) := st
        let cond0 : Bool := decide (c.1 = 0) && !isclose c.2 0
        let cond1 : Bool := decide (c.1 = 1) && !isclose c.2 0
        let uMin' := if cond0 then false else uMin
        let uMax' := if cond0 then uMax else if cond1 then false else uMax
        let height := calculateAltitude cMin c cMax
        let (ld, lt) ← recDecomp h fuel cMin.1 c.1 uMin' uMax'
        let (rd, rt) ← recDecomp h fuel c.1 cMax.1 uMin' uMax'
        pure (val + (height * (lt * rt) + ld * rt + rd * lt), total + lt * rt, uMin', uMax')
      pure (st.1, st.2.1)

def truncL (u : Bool) (R : List (ℚ × ℚ)) : Option (List (ℚ × ℚ)) :=
  if u then some R else (R[1]?).map fun r => if r.1 = 0 then R.drop 1 else R

def truncR (v : Bool) (R : List (ℚ × ℚ)) : Option (List (ℚ × ℚ)) :=
  if v then some R else (R.getLast?).map fun r => if r.1 = 1 then R.dropLast else R

theorem truncL_sub {u : Bool} {R A : List (ℚ × ℚ)} (h : truncL u R = some A) : A ⊆ R := by
  unfold truncL at h
  split_ifs at h
  · cases h; exact List.Subset.refl _
  · rw [Option.map_eq_some_iff] at h
    obtain ⟨r, _, rfl⟩ := h
    split_ifs
    · exact List.drop_subset _ _
    · exact List.Subset.refl _

theorem truncR_sub {v : Bool} {R A : List (ℚ × ℚ)} (h : truncR v R = some A) : A ⊆ R := by
  unfold truncR at h
  split_ifs at h
  · cases h; exact List.Subset.refl _
  · rw [Option.map_eq_some_iff] at h
    obtain ⟨r, _, rfl⟩ := h
    split_ifs
    · exact List.dropLast_subset _
    · exact List.Subset.refl _

theorem recDecomp_succ (h : IRH) (fuel : ℕ) (x1 x2 : ℚ) (u v : Bool) :
    recDecomp h (fuel + 1) x1 x2 u v
      = (getCoordsInRange h x1 x2).bind fun R => (truncL u R).bind fun A => (truncR v A).bind (recTail h fuel u v) := by
  rw [recDecomp]
  simp only [Option.bind_eq_bind]
  congr 1
  funext R
  cases u <;> cases v
  · simp only [truncL, truncR, Bool.not_false, if_true, Bool.false_eq_true, if_false]
    cases R[1]? with
    | none => rfl
    | some r =>
      simp only [Option.bind_some, Option.map_some]
      show ((some (if r.1 = 0 then R.drop 1 else R)).bind _) = _
      simp only [Option.bind_some]
      cases (if r.1 = 0 then R.drop 1 else R).getLast? <;> rfl
  · simp only [truncL, truncR, Bool.not_false, Bool.not_true, if_true, Bool.false_eq_true, if_false]
    cases R[1]? <;> rfl
  · simp only [truncL, truncR, Bool.not_false, Bool.not_true, if_true, Bool.false_eq_true, if_false]
    show ((some R).bind _) = _
    simp only [Option.bind_some]
    cases R.getLast? <;> rfl
  · rfl

theorem rec_same {h h' : IRH} {vs} (G : GoodHull h vs) (G' : GoodHull h' vs) (fuel : ℕ) : ∀ {x1 x2 : ℚ} (_ : 0 ≤ x1 ∧ x1 ≤ 1)
    (_ : 0 ≤ x2 ∧ x2 ≤ 1) (_ : Sep vs x1) (_ : Sep vs x2) (u v : Bool), recDecomp h' fuel x1 x2 u v = recDecomp h fuel x1 x2 u v := by
  induction fuel with
  | zero => intros; rfl
  | succ fuel ih =>
    intro x1 x2 a1 a2 s1 s2 u v
    obtain ⟨R, hR, hm⟩ := range_mem G a1 a2 s1 s2
    rw [recDecomp_succ, recDecomp_succ, range_same G G' a1 a2 s1 s2, hR]
    simp only [Option.bind_some]
    cases hA : truncL u R with
    | none => rfl
    | some A =>
      simp only [Option.bind_some]
      cases hB : truncR v A with
      | none => rfl
      | some B =>
        have hBR : B ⊆ R := fun c hc => truncL_sub hA (truncR_sub hB hc)
        simp only [Option.bind_some]
        unfold recTail
        cases h1 : B.head? with
        | none => rfl
        | some cMin =>
          cases h2 : B.getLast? with
          | none => rfl
          | some cMax =>
            simp only [Option.bind_eq_bind, Option.bind_some]
            have m1 := hm cMin (hBR (List.mem_of_mem_head? (by simp [h1])))
            have m2 := hm cMax (hBR (List.mem_of_getLast? h2))
            split
            · rfl
            · rfl
            · congr 1
              apply foldlM_congr'
              intro c hc b
              have mc := hm c (hBR (List.tail_subset _ (List.dropLast_subset _ hc)))
              rw [ih m1.1 mc.1 m1.2 mc.2, ih mc.1 m2.1 mc.2 m2.2]

theorem hullEnergy_same {h h' : IRH} {vs} (G : GoodHull h vs) (G' : GoodHull h' vs) {x : ℚ} (a : 0 ≤ x ∧ x ≤ 1) (s : Sep vs x) :
    getHullEnergy h' x = getHullEnergy h x := by
  obtain ⟨y, e, c⟩ := hullEnergy_spec G a.1 a.2 s
  obtain ⟨z, f, d⟩ := hullEnergy_spec G' a.1 a.2 s
  rw [e, f, onChain_unique G.lower c d]

theorem hullEnergy_mirL {h h' : IRH} {vs} (G : GoodHull h vs) (G' : GoodHull h' (mirL vs)) {x : ℚ} (a : 0 ≤ x ∧ x ≤ 1) (s : Sep vs x)
    (s' : Sep (mirL vs) (1 - x)) : getHullEnergy h' (1 - x) = getHullEnergy h x := by
  obtain ⟨y, e, c⟩ := hullEnergy_spec G a.1 a.2 s
  obtain ⟨z, f, d⟩ := hullEnergy_spec G' (x := 1 - x) (by linarith [a.2]) (by linarith [a.1]) s'
  rw [e, f, onChain_unique G'.lower (onChain_mirL c) d]

theorem combineSides_comm (a b : ℚ) (m n : ℕ) (nz : Bool) (e : Option ℚ) : combineSides a b m n nz e = combineSides b a n m nz e := by
  unfold combineSides
  simp only
  rw [add_comm, Nat.mul_comm]

/-- strictly sorted lists with the same members are equal -/
theorem eq_of_strict {l m : List (ℚ × ℚ)} (hl : l.Pairwise fun a b => a.1 < b.1) (hm : m.Pairwise fun a b => a.1 < b.1)
    (h : ∀ p, p ∈ l ↔ p ∈ m) : l = m := by
  have nd : ∀ {t : List (ℚ × ℚ)}, (t.Pairwise fun a b => a.1 < b.1) → t.Nodup := fun ht =>
    ht.imp fun {a b} hab heq => by rw [heq] at hab; exact lt_irrefl _ hab
  have hp : l.Perm m := (List.perm_ext_iff_of_nodup (nd hl) (nd hm)).mpr h
  refine List.Perm.eq_of_pairwise (le := leX) ?_ (hl.imp le_of_lt) (hm.imp le_of_lt) hp
  intro a b ha hb hab hba
  exact strict_inj hm (hp.subset ha) hb (le_antisymm hab hba)

theorem min?_congr {l m : List ℚ} (h : ∀ y, y ∈ l ↔ y ∈ m) : l.min? = m.min? := by
  cases hl : l.min? with
  | none =>
    rw [List.min?_eq_none_iff] at hl
    subst hl
    cases m with
    | nil => rfl
    | cons a m => exact absurd ((h a).mpr (by simp)) (by simp)
  | some a =>
    rw [List.min?_eq_some_iff] at hl
    symm
    rw [List.min?_eq_some_iff]
    exact ⟨(h a).mp hl.1, fun b hb => hl.2 b ((h b).mpr hb)⟩

end Verif.Lemmas.HullMirror
