import Verif.Lemmas.HullRange

namespace Verif.Lemmas.Hull
open Verif.Py Verif.Model.Hull Verif.Spec.Hull Verif.Lemmas

/-- altitude of list positions -/
def altOf (R : List (ℚ × ℚ)) (i j k : ℕ) : ℚ := calculateAltitude (R.getD i 0) (R.getD j 0) (R.getD k 0)

theorem treeEnergy_congr {alt alt' : ℕ → ℕ → ℕ → ℚ} (t : BinaryTree Unit) (p q : ℕ)
    (h : ∀ i j k, i ≤ t.numNodes + 1 → j ≤ t.numNodes + 1 → k ≤ t.numNodes + 1 → alt (p + i) (p + j) (p + k) = alt' (q + i) (q + j) (q + k)) :
    treeEnergy alt p t = treeEnergy alt' q t := by
  induction t generalizing p q with
  | nil => rfl
  | node u l r ihl ihr =>
    simp only [treeEnergy]
    have e1 : alt p (p + l.numNodes + 1) (p + l.numNodes + r.numNodes + 2)
        = alt' q (q + l.numNodes + 1) (q + l.numNodes + r.numNodes + 2) := by
      have := h 0 (l.numNodes + 1) (l.numNodes + r.numNodes + 2) (by omega)
        (by simp only [BinaryTree.numNodes]; omega) (by simp only [BinaryTree.numNodes]; omega)
      simpa [add_assoc] using this
    rw [e1, ihl p q, ihr (p + l.numNodes + 1) (q + l.numNodes + 1)]
    · intro i j k hi hj hk
      have := h (l.numNodes + 1 + i) (l.numNodes + 1 + j) (l.numNodes + 1 + k)
        (by simp only [BinaryTree.numNodes]; omega) (by simp only [BinaryTree.numNodes]; omega)
        (by simp only [BinaryTree.numNodes]; omega)
      simpa [add_assoc] using this
    · intro i j k hi hj hk
      exact h i j k (by simp only [BinaryTree.numNodes]; omega) (by simp only [BinaryTree.numNodes]; omega)
        (by simp only [BinaryTree.numNodes]; omega)

theorem totalTreeEnergy_congr {alt alt' : ℕ → ℕ → ℕ → ℚ} (n p q : ℕ)
    (h : ∀ i j k, i ≤ n + 1 → j ≤ n + 1 → k ≤ n + 1 → alt (p + i) (p + j) (p + k) = alt' (q + i) (q + j) (q + k)) :
    totalTreeEnergy alt p n = totalTreeEnergy alt' q n := by
  unfold totalTreeEnergy
  apply Finset.sum_congr rfl
  intro t ht
  rw [BinaryTree.mem_treesOfNumNodesEq] at ht
  apply treeEnergy_congr
  rw [ht]; exact h

theorem foldlM_pair {β : Type} (l : List β) (step : (ℚ × ℕ × Bool × Bool) → β → Option (ℚ × ℕ × Bool × Bool))
    (f : β → ℚ) (g : β → ℕ) (v : ℚ) (t : ℕ)
    (h : ∀ c ∈ l, ∀ v t, step (v, t, true, true) c = some (v + f c, t + g c, true, true)) :
    l.foldlM step (v, t, true, true) = some (v + (l.map f).sum, t + (l.map g).sum, true, true) := by
  induction l generalizing v t with
  | nil => simp
  | cons b l ih =>
    rw [List.foldlM_cons, h b (by simp)]
    simp only [Option.bind_eq_bind, Option.bind_some]
    rw [ih _ _ (fun b' hb' => h b' (by simp [hb']))]
    simp [add_assoc]

/-- No decomposition of the pure end members: the chain starts and ends at zero energy. -/
def FlatEnds (vs : List (ℚ × ℚ)) : Prop := (0, 0) ∈ vs ∧ (1, 0) ∈ vs

theorem range_flat {h : IRH} {vs} (G : GoodHull h vs) (F : FlatEnds vs) {x1 x2 : ℚ} (h0 : 0 ≤ x1) (hx : x1 ≤ x2)
    (h1 : x2 ≤ 1) (s1 : Sep vs x1) (s2 : Sep vs x2) :
    ∃ y1 y2, OnChain vs (x1, y1) ∧ OnChain vs (x2, y2) ∧
      getCoordsInRange h x1 x2 = some ((x1, y1) :: (interior vs x1 x2 ++ endPt x1 x2 y2)) := by
  obtain ⟨y1, y2, c1, c2, _, _, hR⟩ := range_form G h0 hx h1 s1 s2
  refine ⟨y1, y2, c1, c2, ?_⟩
  have hpre : preRef x1 y1 = [] := by
    unfold preRef
    rw [if_neg]
    intro hh
    rw [Bool.and_eq_true] at hh
    have hz := isclose_zero_eq G s1 hh.1
    subst hz
    have := onChain_unique G.lower c1 (onChain_vertex (two_le_length G) G.lower.strict F.1)
    rw [this] at hh
    have h00 := isclose_self 0
    simp [h00] at hh
  have hpost : postRef x2 y2 = [] := by
    unfold postRef
    rw [if_neg]
    intro hh
    rw [Bool.and_eq_true] at hh
    have hz := isclose_one_eq G s2 hh.1
    subst hz
    have := onChain_unique G.lower c2 (onChain_vertex (two_le_length G) G.lower.strict F.2)
    rw [this] at hh
    have h00 := isclose_self 0
    simp [h00] at hh
  rw [hR, hpre, hpost]
  simp

theorem strict_filter_split (vs : List (ℚ × ℚ)) (hs : vs.Pairwise fun a b => a.1 < b.1) (x1 x2 : ℚ) {c : ℚ × ℚ} {l r}
    (hI : interior vs x1 x2 = l ++ c :: r) : interior vs x1 c.1 = l ∧ interior vs c.1 x2 = r := by
  have hst : (l ++ c :: r).Pairwise fun a b => a.1 < b.1 := by
    rw [← hI]; exact hs.sublist List.filter_sublist
  rw [List.pairwise_append, List.pairwise_cons] at hst
  obtain ⟨_, ⟨hcr, _⟩, hlr⟩ := hst
  have hall : ∀ a ∈ l ++ c :: r, x1 < a.1 ∧ a.1 < x2 := by
    intro a ha; rw [← hI] at ha; simpa [interior, List.mem_filter] using (List.mem_filter.mp ha).2
  have hc := hall c (by simp)
  have e1 : interior vs x1 c.1 = (interior vs x1 x2).filter fun a => decide (a.1 < c.1) := by
    unfold interior
    rw [List.filter_filter]
    apply List.filter_congr
    intro a _
    rw [← Bool.decide_and]
    apply decide_eq_decide.mpr
    constructor
    · rintro ⟨p, q⟩; exact ⟨q, p, q.trans hc.2⟩
    · rintro ⟨p, q, _⟩; exact ⟨q, p⟩
  have e2 : interior vs c.1 x2 = (interior vs x1 x2).filter fun a => decide (c.1 < a.1) := by
    unfold interior
    rw [List.filter_filter]
    apply List.filter_congr
    intro a _
    rw [← Bool.decide_and]
    apply decide_eq_decide.mpr
    constructor
    · rintro ⟨p, q⟩; exact ⟨p, hc.1.trans p, q⟩
    · rintro ⟨p, _, q⟩; exact ⟨p, q⟩
  rw [e1, e2, hI]
  constructor
  · rw [List.filter_append, List.filter_cons_of_neg (by simp), List.filter_eq_self.mpr, List.filter_eq_nil_iff.mpr]
    · simp
    · intro a ha; have := hcr a ha; simp; linarith
    · intro a ha; have := hlr a ha c (by simp); simpa using this
  · rw [List.filter_append, List.filter_cons_of_neg (by simp), List.filter_eq_nil_iff.mpr, List.filter_eq_self.mpr]
    · simp
    · intro a ha; have := hcr a ha; simpa using this
    · intro a ha; have := hlr a ha c (by simp); simp; linarith

theorem sum_split {M : Type*} [AddCommMonoid M] (l : List (ℚ × ℚ)) (f : ℚ × ℚ → M) (F : ℕ → M)
    (h : ∀ a (ha : a < l.length), f l[a] = F a) : (l.map f).sum = ∑ a ∈ Finset.range l.length, F a := by
  induction l generalizing F with
  | nil => simp
  | cons c l ih =>
    rw [List.map_cons, List.sum_cons, List.length_cons, Finset.sum_range_succ', add_comm]
    congr 1
    · apply ih (fun a => F (a + 1))
      intro a ha
      have := h (a + 1) (by simp; omega)
      simpa using this
    · exact h 0 (by simp)

/-- Energy/count of the recursive procedure on a good hull with flat ends. -/
theorem recDecomp_flat {h : IRH} {vs} (G : GoodHull h vs) (F : FlatEnds vs) (n : ℕ) :
    ∀ (x1 x2 : ℚ), 0 ≤ x1 → x1 ≤ x2 → x2 ≤ 1 → Sep vs x1 → Sep vs x2 → (interior vs x1 x2).length = n →
      ∀ fuel, n < fuel → ∀ R, getCoordsInRange h x1 x2 = some R →
        recDecomp h fuel x1 x2 true true = some (totalTreeEnergy (altOf R) 0 n, catalan n) := by
  induction n using Nat.strong_induction_on with
  | _ n ih =>
    intro x1 x2 h0 hx h1 s1 s2 hn fuel hf R hR
    obtain ⟨fuel, rfl⟩ : ∃ k, fuel = k + 1 := ⟨fuel - 1, by omega⟩
    obtain ⟨y1, y2, c1, c2, hform⟩ := range_flat G F h0 hx h1 s1 s2
    have hRe : R = (x1, y1) :: (interior vs x1 x2 ++ endPt x1 x2 y2) := by
      rw [hR] at hform; exact Option.some.inj hform
    rcases eq_or_lt_of_le hx with heq | hlt
    · -- degenerate interval
      subst heq
      have hI : interior vs x1 x1 = [] := by
        unfold interior; rw [List.filter_eq_nil_iff]; intro a _; simp; intro h; linarith
      have hn0 : n = 0 := by rw [← hn, hI]; rfl
      subst hn0
      have hR1 : R = [(x1, y1)] := by rw [hRe, hI]; simp [endPt]
      simp [recDecomp, hR, hR1, total_zero]
    · have hend : endPt x1 x2 y2 = [(x2, y2)] := by unfold endPt; rw [if_pos (ne_of_gt hlt)]
      set I := interior vs x1 x2 with hI
      have hR1 : R = (x1, y1) :: (I ++ [(x2, y2)]) := by rw [hRe, hend]
      have hlast : R.getLast? = some (x2, y2) := by rw [hR1]; simp [List.getLast?_cons]
      have htail : R.tail.dropLast = I := by rw [hR1]; simp
      have hhead : R.head? = some (x1, y1) := by rw [hR1]; rfl
      rcases n with _ | n
      · have hI0 : I = [] := List.length_eq_zero_iff.mp hn
        rw [hI0] at htail
        simp [recDecomp, hR, hhead, hlast, htail, total_zero]
      rcases n with _ | n
      · obtain ⟨c, hc⟩ := List.length_eq_one_iff.mp hn
        rw [hc] at htail
        simp only [recDecomp, hR, hhead, hlast, htail, Bool.not_true, Bool.false_eq_true, if_false,
          Option.bind_eq_bind, Option.bind_some, Option.pure_def]
        have : totalTreeEnergy (altOf R) 0 (0 + 1) = calculateAltitude (x1, y1) c (x2, y2) := by
          rw [total_succ]
          simp [total_zero, altOf, hR1, hc]
        rw [this]; simp
      · -- at least two interior points
        have hmatch : ∃ a b r, I = a :: b :: r := by
          match I, hn with
          | a :: b :: r, _ => exact ⟨a, b, r, rfl⟩
        obtain ⟨a0, b0, r0, hI2⟩ := hmatch
        have hIlen : I.length = n + 2 := hn
        have hmemI : ∀ c ∈ I, c ∈ vs ∧ x1 < c.1 ∧ c.1 < x2 := by
          intro c hc; simpa [hI, interior, List.mem_filter] using hc
        -- value at each split point
        have hstep : ∀ a (ha : a < I.length),
            recDecomp h fuel x1 I[a].1 true true
              = some (totalTreeEnergy (altOf R) 0 a, catalan a) ∧
            recDecomp h fuel I[a].1 x2 true true
              = some (totalTreeEnergy (altOf R) (a + 1) (n + 1 - a), catalan (n + 1 - a)) := by
          intro a ha
          have hmem : I[a] ∈ I := List.getElem_mem ha
          obtain ⟨hv, hx1c, hcx2⟩ := hmemI _ hmem
          have hsplit : I = I.take a ++ I[a] :: I.drop (a + 1) := by
            rw [List.cons_getElem_drop_succ, List.take_append_drop]
          obtain ⟨eL, eR⟩ := strict_filter_split vs G.lower.strict x1 x2 (by rw [← hI]; exact hsplit)
          have sc := sep_of_mem G hv
          have hcc : OnChain vs I[a] := onChain_vertex (two_le_length G) G.lower.strict hv
          have hc0 : 0 ≤ I[a].1 := h0.trans hx1c.le
          have hc1 : I[a].1 ≤ 1 := hcx2.le.trans h1
          obtain ⟨z1, z2, d1, d2, hL⟩ := range_flat G F h0 hx1c.le hc1 s1 sc
          obtain ⟨w1, w2, f1, f2, hRr⟩ := range_flat G F hc0 hcx2.le h1 sc s2
          have hz1 : z1 = y1 := onChain_unique G.lower d1 c1
          have hz2 : z2 = I[a].2 := onChain_unique G.lower d2 hcc
          have hw1 : w1 = I[a].2 := onChain_unique G.lower f1 hcc
          have hw2 : w2 = y2 := onChain_unique G.lower f2 c2
          subst hz1 hz2 hw1 hw2
          have hendL : endPt x1 I[a].1 I[a].2 = [I[a]] := by
            unfold endPt; rw [if_pos (ne_of_gt hx1c)]
          have hendR : endPt I[a].1 x2 w2 = [(x2, w2)] := by
            unfold endPt; rw [if_pos (ne_of_gt hcx2)]
          rw [hendL, eL] at hL
          rw [hendR, eR] at hRr
          have hlL : (interior vs x1 I[a].1).length = a := by rw [eL]; simp; omega
          have hlR : (interior vs I[a].1 x2).length = n + 1 - a := by rw [eR]; simp; omega
          constructor
          · rw [ih a (by omega) x1 I[a].1 h0 hx1c.le hc1 s1 sc hlL fuel (by omega) _ hL]
            congr 2
            apply totalTreeEnergy_congr
            intro i j k hi hj hk
            have g : ∀ i, i ≤ a + 1 →
                (((x1, z1) :: (List.take a I ++ [I[a]])).getD (0 + i) 0) = R.getD (0 + i) 0 := by
              intro i hi
              have hp : (x1, z1) :: (List.take a I ++ [I[a]]) = R.take (a + 2) := by
                rw [hR1]
                rw [show a + 2 = (a + 1) + 1 from rfl, List.take_succ_cons,
                  List.take_append_of_le_length (by omega), List.take_succ_eq_append_getElem ha]
              rw [hp, List.getD_eq_getElem?_getD, List.getD_eq_getElem?_getD,
                List.getElem?_take_of_lt (by omega)]
            simp only [altOf]
            rw [g i hi, g j hj, g k hk]
          · rw [ih (n + 1 - a) (by omega) I[a].1 x2 hc0 hcx2.le h1 sc s2 hlR fuel (by omega) _ hRr]
            congr 2
            apply totalTreeEnergy_congr
            intro i j k hi hj hk
            have g : ∀ i, 
                ((((I[a].1, I[a].2) :: (List.drop (a + 1) I ++ [(x2, w2)])).getD (0 + i) 0) : ℚ × ℚ) = R.getD (a + 1 + i) 0 := by
              intro i
              have hp : (I[a].1, I[a].2) :: (List.drop (a + 1) I ++ [(x2, w2)]) = R.drop (a + 1) := by
                rw [hR1, List.drop_succ_cons, List.drop_append_of_le_length (by omega)]
                rw [List.drop_eq_getElem_cons ha]
                rfl
              rw [hp, List.getD_eq_getElem?_getD, List.getD_eq_getElem?_getD, List.getElem?_drop, zero_add]
            simp only [altOf]
            rw [g i, g j, g k]
        -- now the fold
        have hidx : ∀ a (ha : a < I.length), R.getD (a + 1) 0 = I[a] := by
          intro a ha
          rw [hR1, List.getD_cons_succ, List.getD_eq_getElem?_getD, List.getElem?_append_left ha,
            List.getElem?_eq_getElem ha]; rfl
        have hR0 : R.getD 0 0 = (x1, y1) := by rw [hR1]; rfl
        have hRn : R.getD (n + 3) 0 = (x2, y2) := by
          rw [hR1, List.getD_cons_succ, List.getD_eq_getElem?_getD, List.getElem?_append_right (by omega)]
          simp [hIlen]
        rw [recDecomp]
        simp only [hR, hhead, hlast, htail, Bool.not_true, Bool.false_eq_true, if_false,
          Option.bind_eq_bind, Option.bind_some, Option.pure_def]
        simp only [hI2]
        rw [← hI2]
        have hval : ∀ c ∈ I, ∃ a, ∃ ha : a < I.length, I[a] = c := by
          intro c hc; obtain ⟨a, ha, hac⟩ := List.getElem_of_mem hc; exact ⟨a, ha, hac⟩
        let fF : ℚ × ℚ → ℚ := fun c => 
          match recDecomp h fuel x1 c.1 true true, recDecomp h fuel c.1 x2 true true with
          | some l, some r => calculateAltitude (x1, y1) c (x2, y2) * (l.2 * r.2) + l.1 * r.2 + r.1 * l.2
          | _, _ => 0
        let gF : ℚ × ℚ → ℕ := fun c => 
          match recDecomp h fuel x1 c.1 true true, recDecomp h fuel c.1 x2 true true with
          | some l, some r => l.2 * r.2
          | _, _ => 0
        rw [foldlM_pair I _ fF gF]
        · simp only [Option.bind_some, zero_add]
          have e1 : (I.map fF).sum = totalTreeEnergy (altOf R) 0 (n + 1 + 1) := by
            rw [total_succ, Finset.Nat.sum_antidiagonal_eq_sum_range_succ_mk, 
              sum_split I fF (fun a => (catalan a * catalan (n + 1 - a) : ℚ) * altOf R 0 (0 + a + 1) (0 + (n + 1) + 2)
                + catalan (n + 1 - a) * totalTreeEnergy (altOf R) 0 a
                + catalan a * totalTreeEnergy (altOf R) (0 + a + 1) (n + 1 - a)), hIlen]
            intro a ha
            obtain ⟨q1, q2⟩ := hstep a ha
            simp only [fF, q1, q2]
            have : altOf R 0 (0 + a + 1) (0 + (n + 1) + 2) = calculateAltitude (x1, y1) I[a] (x2, y2) := by
              simp only [altOf]
              rw [hR0, show 0 + a + 1 = a + 1 by omega, hidx a ha, show 0 + (n + 1) + 2 = n + 3 by omega, hRn]
            rw [this, show 0 + a + 1 = a + 1 by omega]
            ring
          have e2 : (I.map gF).sum = catalan (n + 1 + 1) := by
            rw [catalan_rec, sum_split I gF (fun a => catalan a * catalan (n + 1 - a)), hIlen]
            intro a ha
            obtain ⟨q1, q2⟩ := hstep a ha
            simp only [gF, q1, q2]
          rw [e1, e2]
        · intro c hc v t
          obtain ⟨a, ha, rfl⟩ := hval c hc
          obtain ⟨q1, q2⟩ := hstep a ha
          obtain ⟨_, hx1c, hcx2⟩ := hmemI _ hc
          have z0 : decide (I[a].1 = 0) = false := by
            simp only [decide_eq_false_iff_not]; intro hh; rw [hh] at hx1c; linarith
          have z1 : decide (I[a].1 = 1) = false := by
            simp only [decide_eq_false_iff_not]; intro hh; rw [hh] at hcx2; linarith
          simp only [z0, z1, Bool.false_and, Bool.false_eq_true, if_false, q1, q2, Option.bind_some, fF, gF]

end Verif.Lemmas.Hull
