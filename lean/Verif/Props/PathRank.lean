import Verif.Props.Solver

/-! Property C125: balanced pathways are ranked by the mean cost of their steps. -/

namespace Verif.Props.PathRank
open Verif.Py Verif.Model.RxnSet Verif.Model.Pathway Verif.Model.Solver Verif.Lemmas.Exc Verif.Spec.Solver Verif.Props.Solver Verif.Props.Utils

/-! ### The mean -/

/-- Specification: `m` is the mean of the costs with the given weights, of which there is one per cost. -/
structure IsMean (weights costs : List ℚ) (m : ℚ) : Prop where
  aligned : weights.length = costs.length
  some : weights.sum ≠ 0
  mean : (weights.zip costs |>.map fun p => p.1 * (p.2 - m)).sum = 0

theorem mean_eq (w c : List ℚ) (m : ℚ) (h : w.length = c.length) :
    ((w.zip c).map fun p => p.1 * (p.2 - m)).sum = (w.zipWith (· * ·) c).sum - m * w.sum := by
  induction w generalizing c with
  | nil => simp
  | cons a w ih =>
    cases c with
    | nil => simp at h
    | cons b c =>
      simp only [List.zip_cons_cons, List.map_cons, List.sum_cons, List.zipWith_cons_cons]
      rw [ih c (by simpa using h)]
      ring

/-- **C125.**  `average_cost` is the mean of the costs of the steps weighted with their multiplicities; it fails exactly if numbers of
costs and multiplicities differ, or the multiplicities add up to zero. -/
theorem C125_mean (w c : List ℚ) (m : ℚ) : averageCost w c = .ok m ↔ IsMean w c m := by
  unfold averageCost
  constructor
  · intro h
    split_ifs at h with h1 h2
    have h1' : w.length = c.length := not_not.mp h1
    refine ⟨h1', h2, ?_⟩
    rw [mean_eq w c m h1', ← Except.ok.inj h]
    field_simp
    ring
  · rintro ⟨h1, h2, h3⟩
    rw [if_neg (not_not.mpr h1), if_neg h2, mean_eq w c m h1] at *
    congr 1
    rw [div_eq_iff h2]
    linarith

example := (C125_mean [1/2, 1] [1, 3] (7/3)).mp (by decide +kernel)

/-- **C125.**  The ways it fails. -/
theorem C125_error (w c : List ℚ) : (w.length ≠ c.length → averageCost w c = .error .valueError) ∧
    (w.length = c.length → w.sum = 0 → averageCost w c = .error .nonFinite) := by
  unfold averageCost
  exact ⟨fun h => by rw [if_pos h], fun h h0 => by rw [if_neg (not_not.mpr h), if_pos h0]⟩

theorem zipWith_bounds (w c : List ℚ) (lo hi : ℚ) (h : w.length = c.length) (hw : ∀ x ∈ w, 0 < x) (hlo : ∀ x ∈ c, lo ≤ x) (hhi : ∀ x ∈ c, x ≤ hi) :
    lo * w.sum ≤ (w.zipWith (· * ·) c).sum ∧ (w.zipWith (· * ·) c).sum ≤ hi * w.sum := by
  induction w generalizing c with
  | nil => simp
  | cons a w ih =>
    cases c with
    | nil => simp at h
    | cons b c =>
      obtain ⟨i1, i2⟩ := ih c (by simpa using h) (fun x hx => hw x (List.mem_cons_of_mem _ hx))
        (fun x hx => hlo x (List.mem_cons_of_mem _ hx)) (fun x hx => hhi x (List.mem_cons_of_mem _ hx))
      have ha := hw a List.mem_cons_self
      have h1 := hlo b List.mem_cons_self
      have h2 := hhi b List.mem_cons_self
      simp only [List.zipWith_cons_cons, List.sum_cons]
      constructor
      · nlinarith
      · nlinarith

/-- **C125.**  With positive multiplicities the mean lies between the cheapest and the dearest step. -/
theorem C125_between (w c : List ℚ) (m lo hi : ℚ) (h : averageCost w c = .ok m) (hw : ∀ x ∈ w, 0 < x) (hlo : ∀ x ∈ c, lo ≤ x)
    (hhi : ∀ x ∈ c, x ≤ hi) : lo ≤ m ∧ m ≤ hi := by
  obtain ⟨h1, h2, h3⟩ := (C125_mean w c m).mp h
  rw [mean_eq w c m h1] at h3
  have hne : w ≠ [] := by rintro rfl; simp at h2
  have hpos : 0 < w.sum := List.sum_pos _ hw hne
  obtain ⟨b1, b2⟩ := zipWith_bounds w c lo hi h1 hw hlo hhi
  constructor
  · by_contra hc
    push Not at hc
    nlinarith
  · by_contra hc
    push Not at hc
    nlinarith

example := C125_between [1/2, 1] [1, 3] (7/3) 1 3 (by decide +kernel) (by decide +kernel) (by decide +kernel) (by decide +kernel)

/-- **C125.**  The mean does not depend on the overall amount the pathway is carried out for. -/
theorem C125_scale (w c : List ℚ) (t : ℚ) (ht : t ≠ 0) : averageCost (w.map fun x => t * x) c = averageCost w c := by
  have hs : (w.map fun x => t * x).sum = t * w.sum := by
    induction w with
    | nil => simp
    | cons a w ih => simp only [List.map_cons, List.sum_cons, ih]; ring
  have hz : ∀ w c : List ℚ, ((w.map fun x => t * x).zipWith (· * ·) c).sum = t * (w.zipWith (· * ·) c).sum := by
    intro w
    induction w with
    | nil => intro c; simp
    | cons a w ih =>
      intro c
      cases c with
      | nil => simp
      | cons b c => simp only [List.map_cons, List.zipWith_cons_cons, List.sum_cons, ih]; ring
  unfold averageCost
  rw [List.length_map, hs, hz]
  by_cases h0 : w.sum = 0
  · rw [h0, mul_zero]
    simp
  · rw [if_neg h0, if_neg (mul_ne_zero ht h0), mul_div_mul_left _ _ ht]

example : averageCost [1, 2] [1, 3] = averageCost [1/2, 1] [1, 3] := by
  have h := C125_scale [1/2, 1] [1, 3] 2 (by norm_num)
  norm_num at h
  exact h

/-- **C125.**  Nor on the order in which the steps are listed. -/
theorem C125_order (p q : List (ℚ × ℚ)) (h : p.Perm q) :
    averageCost (p.map Prod.fst) (p.map Prod.snd) = averageCost (q.map Prod.fst) (q.map Prod.snd) := by
  have hz : ∀ l : List (ℚ × ℚ), ((l.map Prod.fst).zipWith (· * ·) (l.map Prod.snd)).sum = (l.map fun a => a.1 * a.2).sum := by
    intro l
    induction l with
    | nil => rfl
    | cons a l ih => simp only [List.map_cons, List.zipWith_cons_cons, List.sum_cons, ih]
  unfold averageCost
  rw [hz, hz, (h.map Prod.fst).sum_eq, (h.map fun a : ℚ × ℚ => a.1 * a.2).sum_eq]
  simp

example := C125_order [(1/2, 1), (1, 3)] [(1, 3), (1/2, 1)] (List.Perm.swap _ _ _)

/-! ### The solver -/

variable {η δ ε κ : Type} [DecidableEq η] [DecidableEq κ]

/-- **C125.**  The pathways returned by the solver are in the order of their mean costs, cheapest first; each has one cost per step,
which is the cost a given candidate equal to that step came with, and positive multiplicities, so its mean cost exists. -/
theorem C125_ranked (c : Config η δ ε κ) (hw₁ : ∀ k, WaitSpec (c.wait₁ k)) (hw₂ : ∀ i, WaitSpec (c.wait₂ i))
    (hpick : ∀ l, ∀ q ∈ c.pick l, q ∈ l) (hpinv : ∀ mat v m, c.pinv mat v = .ok m → m.length = mat.length) (balanced : Bool)
    (inClean : List (SRxn η δ ε × ℚ) → SRxn η δ ε → Bool)
    (paths : List (Path (SRxn η δ ε))) (inter : List (SRxn η δ ε × ℚ)) (net : SRxn η δ ε) (precursors : Finset κ)
    (maxCombos : ℕ) (filterInter : Bool) (out : List (Path (SRxn η δ ε)))
    (h : solve c balanced inClean paths inter net precursors maxCombos filterInter = .ok out) :
    (∃ keys : List ℚ, keys.Pairwise (· ≤ ·) ∧ List.Forall₂ (fun m p => ∃ w, p.coefficients = some w ∧ IsMean w p.costs m) keys out) ∧
    ∀ p ∈ out, List.Forall₂ (fun r v => ∃ a ∈ pathPairs paths ++ inter, c.eq a.1 r = true ∧ a.2 = v) p.reactions p.costs := by
  have hfin : ∃ ks : List (ℚ × Path (SRxn η δ ε)), out = (ks.insertionSort fun a b => a.1 ≤ b.1).map Prod.snd ∧
      ∀ a ∈ ks, keyed a.2 = .ok a := by
    unfold solve at h
    split at h
    · simp at h
    · simp only at h
      split at h
      · simp at h
      · split at h
        · simp at h
        · unfold finish at h
          split at h
          · simp at h
          · split at h
            · simp at h
            · rename_i ks hks
              refine ⟨ks, (Except.ok.inj h).symm, ?_⟩
              intro a ha
              obtain ⟨p, _, hp⟩ := mapM_mem _ _ _ hks a ha
              have : a.2 = p := by
                unfold keyed at hp
                split at hp
                · simp at hp
                · rw [map_ok] at hp
                  obtain ⟨_, _, rfl⟩ := hp
                  rfl
              rw [this]
              exact hp
  obtain ⟨ks, hout, hkey⟩ := hfin
  have hmean : ∀ a ∈ ks, ∃ w, a.2.coefficients = some w ∧ IsMean w a.2.costs a.1 := by
    intro a ha
    have h1 := hkey a ha
    unfold keyed at h1
    split at h1
    · simp at h1
    · rename_i w hw
      rw [map_ok] at h1
      obtain ⟨m, hm, he⟩ := h1
      refine ⟨w, hw, ?_⟩
      rw [← he]
      rw [← he] at hm
      exact (C125_mean _ _ _).mp hm
  constructor
  · refine ⟨(ks.insertionSort fun a b => a.1 ≤ b.1).map Prod.fst, ?_, ?_⟩
    · rw [List.pairwise_map]
      exact List.pairwise_insertionSort (fun a b : ℚ × Path (SRxn η δ ε) => a.1 ≤ b.1) ks
    · rw [hout, List.forall₂_map_left_iff, List.forall₂_map_right_iff, List.forall₂_same]
      intro a ha
      exact hmean a ((List.perm_insertionSort _ _).mem_iff.mp ha)
  · intro p hp
    obtain ⟨netV, cleaned, _, hcl, hall⟩ := solve_sound c hw₁ hw₂ hpick balanced inClean paths inter net precursors maxCombos
      filterInter out h
    obtain ⟨hfl, x, ⟨combo, _, _, _, _, _, hpv, _⟩, hpf⟩ := hall p hp
    clear hfl
    have hcl' : cleaned = (collectRxns c.eq (collectRxns c.eq [] (pathPairs paths)) inter).filter
        fun a => inClean (collectRxns c.eq (collectRxns c.eq [] (pathPairs paths)) inter) a.1 && !c.eq a.1 net := by
      unfold clean at hcl
      split at hcl
      · simp at hcl
      · simp only [Except.ok.injEq] at hcl
        exact hcl.symm
    have hsrc : ∀ a ∈ cleaned, a ∈ pathPairs paths ++ inter := by
      intro a ha
      rw [hcl'] at ha
      rw [List.mem_append]
      rcases collectRxns_mem c.eq _ _ a (List.mem_filter.mp ha).1 with h1 | h1
      · rcases collectRxns_mem c.eq _ _ a h1 with h2 | h2
        · simp at h2
        · exact .inl h2
      · exact .inr h1
    unfold pathFrom at hpf
    rw [map_ok] at hpf
    obtain ⟨rs, hrs, rfl⟩ := hpf
    have hlen : rs.length = x.1.length := mapM_length _ _ _ hrs
    rw [hout] at hp
    obtain ⟨a, ha, hap⟩ := List.mem_map.mp hp
    obtain ⟨w, hw, hm⟩ := hmean a ((List.perm_insertionSort _ _).mem_iff.mp ha)
    rw [hap] at hw hm
    simp only [Option.some.injEq] at hw
    have hl2 := hm.aligned
    rw [← hw, hpinv _ _ _ hpv, ← hlen] at hl2
    simp only at hl2 ⊢
    clear hm hw hap ha hp hrs hlen hpv
    induction rs with
    | nil => exact .nil
    | cons r rs ih =>
      cases hco : costOf c.eq cleaned r with
      | none =>
        rw [List.filterMap_cons_none hco, List.length_cons] at hl2
        have := List.length_filterMap_le (costOf c.eq cleaned) rs
        omega
      | some v =>
        rw [List.filterMap_cons_some hco] at hl2 ⊢
        refine .cons ?_ (ih (by simpa using hl2))
        unfold costOf at hco
        rw [Option.map_eq_some_iff] at hco
        obtain ⟨b, hb, rfl⟩ := hco
        exact ⟨b, hsrc b (List.mem_of_find?_eq_some hb), by simpa using List.find?_some hb, rfl⟩

/-! ### Example and violation -/

/-- Four phases: `0 → 1 → 2` and `0 → 3 → 2`, and the net reaction `0 → 2`. -/
def exA : SRxn ℕ Unit ℕ := ⟨[0, 1], [-1, 1], (), []⟩
def exA2 : SRxn ℕ Unit ℕ := ⟨[0, 1], [-2, 2], (), []⟩
def exB : SRxn ℕ Unit ℕ := ⟨[1, 2], [-1, 1], (), []⟩
def exC : SRxn ℕ Unit ℕ := ⟨[0, 3], [-1, 1], (), []⟩
def exD : SRxn ℕ Unit ℕ := ⟨[2, 3], [1, -1], (), []⟩
def exNet : SRxn ℕ Unit ℕ := ⟨[0, 2], [-1, 1], (), []⟩

/-- The exact solutions of the balanceable combinations. -/
def exPinv (mat : Mat) (_ : List ℚ) : Except Err (List ℚ) :=
  if mat = [[-1, 1, 0, 0], [0, -1, 1, 0]] then .ok [1, 1]
  else if mat = [[-2, 2, 0, 0], [0, -1, 1, 0]] then .ok [1/2, 1]
  else if mat = [[-1, 0, 0, 1], [0, 0, 1, -1]] then .ok [1, 1]
  else .ok (List.replicate mat.length 0)

def exFour : Config ℕ Unit ℕ ℕ :=
  { exConfig exPinv 2 with
    eq := fun a b => (List.range 4).all fun e => decide (amount (pairs a) e = amount (pairs b) e)
    entries := [0, 1, 2, 3] }

/-- Mean costs 2 and 21/10: in order. -/
example : solve exFour true (fun _ _ => true) [⟨[exC, exD], [21/10, 21/10], none, false⟩, ⟨[exA, exB], [1, 3], none, false⟩] [] exNet {0} 2 true
    = .ok [⟨[exA, exB], [1, 3], some [1, 1], true⟩, ⟨[exC, exD], [21/10, 21/10], some [1, 1], true⟩] := by decide +kernel

example : (∀ mat v m, exFour.pinv mat v = .ok m → m.length = mat.length) ∧ averageCost [1/2, 1] [1, 3] = .ok (7/3) ∧
    averageCost [1, 1] [1] = .error .valueError ∧ averageCost [1, -1] [1, 3] = .error .nonFinite := by
  refine ⟨?_, by decide +kernel, by decide +kernel, by decide +kernel⟩
  intro mat v m h
  change exPinv mat v = .ok m at h
  unfold exPinv at h
  split_ifs at h with h1 h2 h3 <;> rw [← Except.ok.inj h] <;> simp [*]

/-- **C125 is violated** as regards the way a reaction is written: if the first step of the cheaper pathway is given with doubled
coefficients, at the same cost, the two pathways, which carry out the same steps to the same extent as before, change places. -/
theorem C125_written_violated :
    solve exFour true (fun _ _ => true) [⟨[exC, exD], [21/10, 21/10], none, false⟩, ⟨[exA, exB], [1, 3], none, false⟩] [] exNet {0} 2 true
      = .ok [⟨[exA, exB], [1, 3], some [1, 1], true⟩, ⟨[exC, exD], [21/10, 21/10], some [1, 1], true⟩] ∧
    solve exFour true (fun _ _ => true) [⟨[exC, exD], [21/10, 21/10], none, false⟩, ⟨[exA2, exB], [1, 3], none, false⟩] [] exNet {0} 2 true
      = .ok [⟨[exC, exD], [21/10, 21/10], some [1, 1], true⟩, ⟨[exA2, exB], [1, 3], some [1/2, 1], true⟩] ∧
    exA2.entries = exA.entries ∧ exA2.coeffs = exA.coeffs.map (2 * ·) := by
  refine ⟨by decide +kernel, by decide +kernel, rfl, by decide +kernel⟩

end Verif.Props.PathRank
