import Verif.Props.Pathfinding

/-! Property C143: a wider search loses nothing (src/rxn_network/network/network.py:89-112, 227-261, 347-445). -/

set_option linter.unusedSectionVars false

namespace Verif.Props.Search
open Verif.Py Verif.Model.Network Verif.Spec.Network Verif.Spec.Paths Verif.Spec.Pathfinding
open Verif.Props.Network Verif.Props.Pathfinding Verif.Lemmas.Paths

variable {η ρ φ ν ε : Type} [DecidableEq η] [DecidableEq ρ]

/-! ### Specification -/

/-- The cost of a reported pathway. -/
def total (p : List (Edge ρ × ℚ)) : ℚ := (p.map (·.2)).sum

/-- `out` is the answer to a search for `k` pathways to `t` in a network of the reactions `rxns` (with reactants `R`, products `P`, costs `c`) built
afresh, with the precursors `ps`. -/
def Finds (R P : ρ → Finset η) (rxns : List ρ) (c : ρ → ℚ) (ps : List η) (t : η) (k : ℕ) (out : List (List (Edge ρ × ℚ))) : Prop :=
  ∃ (E : Finset η) (minEntry : String → Except Err η) (d : Graph (Node η) (Edge ρ) → ℕ → ℕ → Option (List ℕ)) (n n' : Net η ρ),
    t ∈ E ∧ Dijkstra (weightOf c) d ∧
    ((Net.new rxns E).build R P).setPrecursors minEntry (ps.map .entry) = .ok n ∧
    findPathways minEntry d c n [.entry t] k = .ok (n', out)

/-- Reactions between the same phases cost the same. -/
def NoRivals (R P : ρ → Finset η) (rxns : List ρ) (c : ρ → ℚ) : Prop := ∀ r ∈ rxns, ∀ r' ∈ rxns, R r = R r' → P r = P r' → c r = c r'

/-! ### Helper lemmas -/

theorem yenLoop_prefix (d : Graph ν ε → ℕ → ℕ → Option (List ℕ)) (w : ε → ℚ) (t : ℕ) : ∀ (n k : ℕ) (g : Graph ν ε) (a : List (List ℕ))
    (b : List (ℚ × List ℕ)) (qs : List (List ℕ)), yenLoop d w t n k g a b = some qs → a <+: qs
  | 0, _, _, a, _, qs, h => by
    obtain rfl : a = qs := by simpa [yenLoop] using h
    exact List.prefix_rfl
  | n + 1, k, g, a, b, qs, h => by
    unfold yenLoop at h
    cases hp : a[k - 1]? with
    | none =>
      simp only [hp, Option.some.injEq] at h
      exact h ▸ List.prefix_rfl
    | some prev =>
      simp only [hp] at h
      cases hf : (List.range (prev.length - 1)).foldlM (spurStep d w t a prev) (g, b) with
      | none => simp [hf] at h
      | some st =>
        simp only [hf] at h
        exact (List.prefix_append _ _).trans (yenLoop_prefix d w t n _ _ _ _ _ h)

theorem popNew_length (a : List (List ℕ)) (b : List (ℚ × List ℕ)) : (popNew a b).1.length ≤ 1 := by
  unfold popNew
  split <;> simp

theorem yenLoop_take (d : Graph ν ε → ℕ → ℕ → Option (List ℕ)) (w : ε → ℚ) (t : ℕ) : ∀ (n n' k : ℕ) (g : Graph ν ε) (a : List (List ℕ))
    (b : List (ℚ × List ℕ)) (qs : List (List ℕ)), n ≤ n' → 1 ≤ k → a.length ≤ k → yenLoop d w t n' k g a b = some qs →
    yenLoop d w t n k g a b = some (qs.take (k + n))
  | 0, n', k, g, a, b, qs, _, hk, ha, h => by
    have hpre := yenLoop_prefix d w t n' k g a b qs h
    have : qs.take (k + 0) = a := by
      rcases ha.lt_or_eq with ha' | ha'
      · have hq : qs = a := by
          cases n' with
          | zero => simpa [yenLoop] using h.symm
          | succ m =>
            unfold yenLoop at h
            rw [List.getElem?_eq_none (by omega)] at h
            simpa using h.symm
        rw [hq]
        exact List.take_of_length_le (by omega)
      · rw [add_zero, ← ha']
        exact (List.prefix_iff_eq_take.mp hpre).symm
    rw [this]
    rfl
  | n + 1, 0, _, _, _, _, _, hn, _, _, _ => by omega
  | n + 1, n' + 1, k, g, a, b, qs, hn, hk, ha, h => by
    unfold yenLoop at h ⊢
    cases hp : a[k - 1]? with
    | none =>
      simp only [hp, Option.some.injEq] at h ⊢
      subst h
      exact (List.take_of_length_le (by omega)).symm
    | some prev =>
      simp only [hp] at h ⊢
      cases hf : (List.range (prev.length - 1)).foldlM (spurStep d w t a prev) (g, b) with
      | none => simp [hf] at h
      | some st =>
        simp only [hf] at h ⊢
        rw [yenLoop_take d w t n n' (k + 1) _ _ _ qs (by omega) (by omega)
          (by rw [List.length_append]; have := popNew_length a st.2; omega) h]
        congr 2
        omega

theorem mapM_take {α β : Type} (f : α → Except Err β) : ∀ (l : List α) (m : ℕ) (out : List β), l.mapM f = .ok out →
    (l.take m).mapM f = .ok (out.take m)
  | [], m, out, h => by
    obtain rfl : [] = out := by simpa [pure, Except.pure] using h
    simp [pure, Except.pure]
  | x :: l, 0, out, _ => by simp [pure, Except.pure]
  | x :: l, m + 1, out, h => by
    rw [List.mapM_cons] at h
    obtain ⟨y, hy, h⟩ := (Verif.Lemmas.Exc.bind_ok _ _ _).mp h
    obtain ⟨ys, hys, h⟩ := (Verif.Lemmas.Exc.bind_ok _ _ _).mp h
    obtain rfl : y :: ys = out := by simpa [pure, Except.pure] using h
    rw [List.take_succ_cons, List.mapM_cons, hy, mapM_take f l m ys hys]
    rfl

theorem kShortest_take (d : Graph (Node η) (Edge ρ) → ℕ → ℕ → Option (List ℕ)) (c : ρ → ℚ) (n : Net η ρ) (k k' : ℕ) (hk : k ≤ k')
    (out : List (List (Edge ρ × ℚ))) (h : kShortest d c n k' = .ok out) : kShortest d c n k = .ok (out.take (max k 1)) := by
  unfold kShortest at h ⊢
  cases hu : usable n with
  | none => simp [hu] at h
  | some g =>
    simp only [hu] at h ⊢
    cases hp : n.precursors with
    | none => simp [hp] at h
    | some ps =>
      cases ht : n.target with
      | none => simp [hp, ht] at h
      | some t =>
        simp only [hp, ht] at h ⊢
        cases hs : findNode g ⟨.precursors, ps⟩ with
        | none => simp [hs] at h
        | some s =>
          cases he : findNode g ⟨.target, {t}⟩ with
          | none => simp [hs, he] at h
          | some e =>
            simp only [hs, he] at h ⊢
            cases hy : yens d (weightOf c) g k' s e with
            | none => simp [hy] at h
            | some qs =>
              simp only [hy] at h
              have : yens d (weightOf c) g k s e = some (qs.take (max k 1)) := by
                unfold yens at hy ⊢
                cases hd : d g s e with
                | none =>
                  simp only [hd, Option.some.injEq] at hy ⊢
                  subst hy
                  simp
                | some p =>
                  simp only [hd] at hy ⊢
                  cases hc : pathCost (weightOf c) g p with
                  | none => simp [hc] at hy
                  | some v =>
                    simp only [hc] at hy ⊢
                    rw [yenLoop_take d (weightOf c) e (k - 1) (k' - 1) 1 g [p] [] qs (by omega) (le_refl _) (by simp) hy]
                    congr 2
                    omega
              simp only [this]
              exact mapM_take _ qs _ out h

theorem sum_scaled (a : ℚ) (c : ρ → ℚ) : ∀ rs : List ρ, (rs.map fun r => a * c r).sum = a * (rs.map c).sum
  | [] => by simp
  | r :: rs => by rw [List.map_cons, List.sum_cons, List.map_cons, List.sum_cons, sum_scaled a c rs, mul_add]

/-- The answer of a search, from C69. -/
theorem finds_answer {R P : ρ → Finset η} {rxns : List ρ} {c : ρ → ℚ} {ps : List η} {t : η} {k : ℕ} {out : List (List (Edge ρ × ℚ))}
    (hc : ∀ r ∈ rxns, 0 ≤ c r) (hps : ps ≠ []) (h : Finds R P rxns c ps t k out) :
    ∃ Ls : List (List ρ), out = Ls.map (asPath c) ∧ Answer R P rxns c ps.toFinset k t Ls := by
  obtain ⟨E, minEntry, d, n, n', ht, hd, hset, hfind⟩ := h
  obtain ⟨n'', l, Lss, hl, hf, hall⟩ := C69_find R P rxns E minEntry c hc (ps.map .entry) (by simpa using hps) n hset hd k [.entry t]
    (by intro a ha; rw [List.mem_singleton.mp ha]; exact ⟨t, rfl, ht⟩)
  have hl' : ∀ ps : List η, (ps.map Arg.entry).mapM (resolve minEntry) = .ok ps := by
    intro ps
    induction ps with
    | nil => rfl
    | cons e ps ih => rw [List.map_cons, List.mapM_cons, ih]; rfl
  rw [hl'] at hl
  obtain rfl := Except.ok.inj hl
  rw [hfind] at hf
  obtain ⟨_, hf2⟩ := Prod.mk.inj (Except.ok.inj hf)
  cases hall with
  | @cons _ L _ Lss' h1 h2 =>
    cases h2
    obtain ⟨t', ht', ans⟩ := h1
    obtain rfl : t = t' := Except.ok.inj ht'
    exact ⟨L, by simpa using hf2, ans⟩

/-! ### Theorems -/

/-- **C143, more pathways.** Asking for more pathways to the targets keeps the ones already found: for each target, the answer for `k` is the first
`max k 1` pathways of the answer for a larger `k'`. On any network with any history and any search routine. -/
theorem C143_more_pathways (minEntry : φ → Except Err η) (d : Graph (Node η) (Edge ρ) → ℕ → ℕ → Option (List ℕ)) (c : ρ → ℚ) (n n' : Net η ρ)
    (targets : List (Arg η φ)) (k k' : ℕ) (hk : k ≤ k') (out : List (List (Edge ρ × ℚ)))
    (h : findPathways minEntry d c n targets k' = .ok (n', out)) :
    ∃ outs : List (List (List (Edge ρ × ℚ))), outs.length = targets.length ∧ out = outs.flatten ∧
      findPathways minEntry d c n targets k = .ok (n', (outs.map (List.take (max k 1))).flatten) := by
  unfold findPathways at h ⊢
  cases hp : n.precursors with
  | none => simp [hp] at h
  | some ps =>
    simp only [hp] at h ⊢
    by_cases he : ps = ∅
    · simp [he] at h
    · rw [if_neg he] at h ⊢
      have key : ∀ (l : List (Arg η φ)) (m m' : Net η ρ) (o o' o₂ : List (List (Edge ρ × ℚ))),
          l.foldlM (findOne minEntry d c k') (m, o) = .ok (m', o₂) →
          ∃ outs : List (List (List (Edge ρ × ℚ))), outs.length = l.length ∧ o₂ = o ++ outs.flatten ∧
            l.foldlM (findOne minEntry d c k) (m, o') = .ok (m', o' ++ (outs.map (List.take (max k 1))).flatten) := by
        intro l
        induction l with
        | nil =>
          intro m m' o o' o₂ h
          have h := Prod.mk.inj (Except.ok.inj h)
          refine ⟨[], rfl, by simp [h.2], ?_⟩
          rw [h.1]
          simp [pure, Except.pure]
        | cons a l ih =>
          intro m m' o o' o₂ h
          rw [List.foldlM_cons] at h
          obtain ⟨⟨m₁, o₁⟩, h1, h2⟩ := (Verif.Lemmas.Exc.bind_ok _ _ _).mp h
          unfold findOne at h1
          cases hset : m.setTarget minEntry a with
          | error e => simp [hset] at h1
          | ok m₂ =>
            simp only [hset] at h1
            cases hks : kShortest d c m₂ k' with
            | error e => simp [hks] at h1
            | ok ps =>
              simp only [hks] at h1
              obtain ⟨rfl, rfl⟩ := Prod.mk.inj (Except.ok.inj h1)
              obtain ⟨outs, g1, g2, g3⟩ := ih m₂ m' _ (o' ++ ps.take (max k 1)) o₂ h2
              refine ⟨ps :: outs, by simp [g1], by simp [g2], ?_⟩
              rw [List.foldlM_cons]
              have : findOne minEntry d c k (m, o') a = .ok (m₂, o' ++ ps.take (max k 1)) := by
                unfold findOne
                simp only [hset, kShortest_take d c m₂ k k' hk ps hks]
              rw [this]
              show l.foldlM (findOne minEntry d c k) (m₂, o' ++ ps.take (max k 1)) = _
              rw [g3]
              simp
      obtain ⟨outs, g1, g2, g3⟩ := key targets n n' [] [] out h
      exact ⟨outs, g1, by simpa using g2, by simpa using g3⟩

/-- **C143, more reactions, more precursors, lower costs.** If the target is found, it is still found when reactions or precursors are added and
costs are lowered, and the first pathway does not become more expensive (given that in the larger network reactions between the same phases cost the
same; see `C143_rivals_violated`). -/
theorem C143_monotone_partial {R P : ρ → Finset η} {rxns rxns' : List ρ} {c c' : ρ → ℚ} {ps ps' : List η} {t : η} {k k' : ℕ}
    {out out' : List (List (Edge ρ × ℚ))} (hc : ∀ r ∈ rxns, 0 ≤ c r) (hc' : ∀ r ∈ rxns', 0 ≤ c' r) (hps : ps ≠ [])
    (h : Finds R P rxns c ps t k out) (h' : Finds R P rxns' c' ps' t k' out') (hr : rxns ⊆ rxns') (hp : ps ⊆ ps') :
    (out ≠ [] → out' ≠ []) ∧
    (NoRivals R P rxns' c' → (∀ r ∈ rxns, c' r ≤ c r) → ∀ p ∈ out, ∀ p', out'.head? = some p' → total p' ≤ total p) := by
  have hps' : ps' ≠ [] := by
    rintro rfl
    cases ps with
    | nil => exact hps rfl
    | cons a l => exact absurd (hp List.mem_cons_self) (by simp)
  obtain ⟨Ls, rfl, A⟩ := finds_answer hc hps h
  obtain ⟨Ls', rfl, A'⟩ := finds_answer hc' hps' h'
  have hsub : ps.toFinset ⊆ ps'.toFinset := by
    intro x hx
    rw [List.mem_toFinset] at hx ⊢
    exact hp hx
  have still : ∀ rs ∈ Ls, (∀ r ∈ rs, r ∈ rxns') ∧ Pathway R P ps'.toFinset t rs := by
    intro rs hrs
    obtain ⟨h1, h2⟩ := A.sound rs hrs
    exact ⟨fun r hr' => hr (h1 r hr'), runs_mono hsub rs ∅ h2⟩
  refine ⟨fun hne he => ?_, fun hpar hle p hpm p' hhead => ?_⟩
  · obtain ⟨rs, hrs⟩ := List.exists_mem_of_ne_nil Ls (by simpa using hne)
    have := A'.none.mp (by simpa using he) rs (still rs hrs).1
    exact this (still rs hrs).2
  · obtain ⟨rs, hrs, rfl⟩ := List.mem_map.mp hpm
    rw [List.head?_map] at hhead
    cases hL : Ls'.head? with
    | none => simp [hL] at hhead
    | some rs' =>
      obtain rfl : asPath c' rs' = p' := by simpa [hL] using hhead
      unfold total
      rw [asPath_cost, asPath_cost]
      refine (A'.first hpar rs' hL rs (still rs hrs).1 (still rs hrs).2).trans ?_
      exact List.sum_le_sum fun r hr' => hle r ((A.sound rs hrs).1 r hr')

/-- **C143, the unit of costs.** Multiplying all costs by one positive factor changes neither whether the target is found nor, apart from the
factor, the cost of the first pathway. -/
theorem C143_unit_partial {R P : ρ → Finset η} {rxns : List ρ} {c : ρ → ℚ} {a : ℚ} (ha : 0 < a) {ps : List η} {t : η} {k k' : ℕ}
    {out out' : List (List (Edge ρ × ℚ))} (hc : ∀ r ∈ rxns, 0 ≤ c r) (hps : ps ≠ [])
    (h : Finds R P rxns c ps t k out) (h' : Finds R P rxns (fun r => a * c r) ps t k' out') (hpar : NoRivals R P rxns c) :
    (out = [] ↔ out' = []) ∧ ∀ p p', out.head? = some p → out'.head? = some p' → total p' = a * total p := by
  obtain ⟨Ls, rfl, A⟩ := finds_answer hc hps h
  obtain ⟨Ls', rfl, A'⟩ := finds_answer (fun r hr => mul_nonneg ha.le (hc r hr)) hps h'
  have hpar' : NoRivals R P rxns fun r => a * c r := fun r hr r' hr' e1 e2 => by
    show a * c r = a * c r'
    rw [hpar r hr r' hr' e1 e2]
  refine ⟨by rw [List.map_eq_nil_iff, List.map_eq_nil_iff, A.none, A'.none], fun p p' hp hp' => ?_⟩
  rw [List.head?_map] at hp hp'
  cases hL : Ls.head? with
  | none => simp [hL] at hp
  | some rs =>
    cases hL' : Ls'.head? with
    | none => simp [hL'] at hp'
    | some rs' =>
      obtain rfl : asPath c rs = p := by simpa [hL] using hp
      obtain rfl : asPath (fun r => a * c r) rs' = p' := by simpa [hL'] using hp'
      unfold total
      rw [asPath_cost, asPath_cost]
      have s1 := A.sound rs (List.mem_of_head? hL)
      have s2 := A'.sound rs' (List.mem_of_head? hL')
      have e1 := A.first hpar rs hL rs' s2.1 s2.2
      have e2 := A'.first hpar' rs' hL' rs s1.1 s1.2
      rw [sum_scaled, sum_scaled] at e2
      rw [sum_scaled]
      exact le_antisymm e2 (mul_le_mul_of_nonneg_left e1 ha.le)

/-! ### Cases -/

/-- A search on a small network, computed. -/
theorem finds_of (R P : ℕ → Finset ℕ) (rxns : List ℕ) (E : Finset ℕ) (c : ℕ → ℚ) (ps : List ℕ) (t k : ℕ) (ht : t ∈ E)
    (out : List (List (Edge ℕ × ℚ)))
    (h : (((Net.new rxns E).build R P).setPrecursors (fun _ : String => (.error .keyError : Except Err ℕ)) (ps.map .entry)).bind (fun n =>
      (findPathways (fun _ : String => (.error .keyError : Except Err ℕ)) (shortest (weightOf c)) c n [.entry t] k).map Prod.snd) = .ok out) :
    Finds R P rxns c ps t k out := by
  cases hs : ((Net.new rxns E).build R P).setPrecursors (fun _ : String => (.error .keyError : Except Err ℕ)) (ps.map .entry) with
  | error e => rw [hs] at h; simp [Except.bind] at h
  | ok n =>
    rw [hs] at h
    simp only [Except.bind] at h
    cases hf : findPathways (fun _ : String => (.error .keyError : Except Err ℕ)) (shortest (weightOf c)) c n [.entry t] k with
    | error e => rw [hf] at h; simp [Except.map] at h
    | ok r =>
      rw [hf] at h
      simp only [Except.map, Except.ok.injEq] at h
      exact ⟨E, _, _, n, r.1, ht, shortest_dijkstra _, hs, by rw [hf, ← h]⟩

/-- **C143, rivals.** Adding a second, more expensive reaction between the same phases makes the first pathway more expensive: with `0 → 1` of cost 1
the answer costs 1, with a further `0 → 1` of cost 9 it costs 9. -/
theorem C143_rivals_violated :
    ∃ (R P : ℕ → Finset ℕ) (rxns rxns' : List ℕ) (c : ℕ → ℚ) (p p' : List (Edge ℕ × ℚ)), rxns ⊆ rxns' ∧ (∀ r, 0 ≤ c r) ∧
      Finds R P rxns c [0] 1 1 [p] ∧ Finds R P rxns' c [0] 1 1 [p'] ∧ total p = 1 ∧ total p' = 9 := by
  refine ⟨parR, parP, [0], [0, 1], parC, [(.rxn 0, 1)], [(.rxn 1, 9)], by simp, ?_,
    finds_of _ _ _ {0, 1, 2} _ _ _ _ (by decide) _ (by decide +kernel), finds_of _ _ _ {0, 1, 2} _ _ _ _ (by decide) _ (by decide +kernel),
    by decide +kernel, by decide +kernel⟩
  intro r
  unfold parC
  split <;> norm_num

/-! `0 → 1` (cost 5), `0 → 2` and `2 → 1` (cost 2): the direct pathway alone, and with the detour added at cost 2 or 1 per step. -/
def rR : ℕ → Finset ℕ
  | 2 => {2}
  | _ => {0}

def rP : ℕ → Finset ℕ
  | 1 => {2}
  | _ => {1}

def rC : ℕ → ℚ
  | 0 => 5
  | _ => 2

theorem rOne : Finds rR rP [0] rC [0] 1 3 [[(.rxn 0, 5)]] := finds_of _ _ _ {0, 1, 2} _ _ _ _ (by decide) _ (by decide +kernel)
theorem rAll : Finds rR rP [0, 1, 2] rC [0] 1 3 [[(.rxn 1, 2), (.rxn 2, 2)], [(.rxn 0, 5)]] :=
  finds_of _ _ _ {0, 1, 2} _ _ _ _ (by decide) _ (by decide +kernel)
theorem rTriple : Finds rR rP [0, 1, 2] (fun r => 3 * rC r) [0] 1 1 [[(.rxn 1, 6), (.rxn 2, 6)]] :=
  finds_of _ _ _ {0, 1, 2} _ _ _ _ (by decide) _ (by decide +kernel)

example := C143_monotone_partial (by decide +kernel) (by decide +kernel) (by decide) rOne rAll (by decide) (by decide)
example : NoRivals rR rP [0, 1, 2] rC := by unfold NoRivals; decide +kernel
example := C143_unit_partial (by norm_num : (0 : ℚ) < 3) (by decide +kernel) (by decide) rAll rTriple (by unfold NoRivals; decide +kernel)

-- the answer for one pathway is the first of the answer for three
example : (fun k => (((Net.new [0, 1, 2] {0, 1, 2}).build rR rP).setPrecursors noFormula [.entry 0]).bind fun n =>
      (findPathways noFormula (shortest (weightOf rC)) rC n [.entry 1, .entry 2] k).map Prod.snd) 3
      = .ok [[(.rxn 1, 2), (.rxn 2, 2)], [(.rxn 0, 5)], [(.rxn 1, 2)]] ∧
    (fun k => (((Net.new [0, 1, 2] {0, 1, 2}).build rR rP).setPrecursors noFormula [.entry 0]).bind fun n =>
      (findPathways noFormula (shortest (weightOf rC)) rC n [.entry 1, .entry 2] k).map Prod.snd) 1
      = .ok [[(.rxn 1, 2), (.rxn 2, 2)], [(.rxn 1, 2)]] := by decide +kernel

end Verif.Props.Search
