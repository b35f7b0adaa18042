import Verif.Model.PathEnergy
import Verif.Props.Solver
import Verif.Props.ReactionEnergy

/-! Property C123: energies of pathways and of their net reactions (src/rxn_network/pathways/base.py). -/

set_option linter.unusedSectionVars false

namespace Verif.Props.PathEnergy
open Verif.Py Verif.Model Verif.Model.Reaction Verif.Model.Solver Verif.Model.Pathway Verif.Model.RxnSet Verif.Model.PathEnergy Verif.Lemmas.Exc
  Verif.Props.Utils Verif.Spec.Solver Verif.Props.Solver Verif.Props.Reaction

/-! ### Sums over phases -/

variable {η : Type} [DecidableEq η]

theorem amount_sum (g : η → ℚ) (S : List η) (hS : S.Nodup) (l : List (η × ℚ)) (hl : ∀ p ∈ l, p.1 ∈ S) :
    (l.map fun p => p.2 * g p.1).sum = (S.map fun e => amount l e * g e).sum := by
  induction l with
  | nil => simp [amount]
  | cons p l ih =>
    rw [List.map_cons, List.sum_cons, ih fun q hq => hl q (List.mem_cons_of_mem _ hq)]
    have h1 : ∀ T : List η, T.Nodup → p.1 ∈ T → (T.map fun e => (if p.1 = e then p.2 else 0) * g e).sum = p.2 * g p.1 := by
      intro T hT hp
      induction T with
      | nil => simp at hp
      | cons t T ih =>
        rw [List.map_cons, List.sum_cons]
        rw [List.nodup_cons] at hT
        by_cases ht : p.1 = t
        · rw [if_pos ht]
          have : (T.map fun e => (if p.1 = e then p.2 else 0) * g e).sum = 0 := by
            apply List.sum_eq_zero
            intro y hy
            obtain ⟨e, he, rfl⟩ := List.mem_map.mp hy
            rw [if_neg (fun h => hT.1 (by rw [← ht, h]; exact he)), zero_mul]
          rw [this, ht, add_zero]
        · rw [if_neg ht, zero_mul, zero_add]
          exact ih hT.2 ((List.mem_cons.mp hp).resolve_left ht)
    rw [← h1 S hS (hl p List.mem_cons_self), ← List.sum_map_add]
    congr 1
    apply List.map_congr_left
    intro e _
    rw [amount_cons]
    ring

theorem total_cons (r : List (η × ℚ)) (rs : List (List (η × ℚ))) (m : ℚ) (ms : List ℚ) (e : η) :
    total (r :: rs) (m :: ms) e = m * amount r e + total rs ms e := rfl

theorem total_sum (g : η → ℚ) (S : List η) (hS : S.Nodup) (rs : List (List (η × ℚ))) :
    ∀ ms : List ℚ, (∀ r ∈ rs, ∀ p ∈ r, p.1 ∈ S) →
      ((rs.map fun l => (l.map fun p => p.2 * g p.1).sum).zipWith (fun E m => m * E) ms).sum
        = (S.map fun e => total rs ms e * g e).sum := by
  induction rs with
  | nil => intro ms _; simp [total]
  | cons r rs ih =>
    intro ms h
    cases ms with
    | nil => simp [total]
    | cons m ms =>
      rw [List.map_cons, List.zipWith_cons_cons, List.sum_cons, ih ms fun r' hr' => h r' (List.mem_cons_of_mem _ hr'),
        amount_sum g S hS r (h r List.mem_cons_self), ← List.sum_map_mul_left, ← List.sum_map_add]
      congr 1
      apply List.map_congr_left
      intro e _
      rw [total_cons]
      ring

theorem abs_sum_le (S : List η) (f b : η → ℚ) (h : ∀ e ∈ S, |f e| ≤ b e) : |(S.map f).sum| ≤ (S.map b).sum := by
  induction S with
  | nil => simp
  | cons s S ih =>
    rw [List.map_cons, List.map_cons, List.sum_cons, List.sum_cons]
    have h1 := h s List.mem_cons_self
    have h2 := ih fun e he => h e (List.mem_cons_of_mem _ he)
    exact (abs_add_le _ _).trans (by linarith)

/-! ### Energies of reactions -/

variable {κ ε δ ω : Type} [DecidableEq κ] [DecidableEq ε]

/-- The energy of an open reaction between phases with different reduced compositions. -/
theorem oenergy_distinct (X : Chem κ ε) (entries : List (Entry κ)) (coeffs : List ℚ) (mu : List (ε × ℚ))
    (data : List (String × ℚ)) (lne : Option ℕ) (hn : (entries.map fun e => X.red e.comp).Nodup) :
    oenergy X (oinit X entries coeffs mu data lne)
      = .ok ((entries.zip coeffs).map fun p => p.2 * (grandEnergy X mu p.1 / X.fac p.1.comp)).sum := by
  have h := C17_energy_distinct X (entries.map fun e => (⟨e.comp, grandEnergy X mu e⟩ : Entry κ)) coeffs data lne
    (by rw [List.map_map]; exact hn)
  rw [List.zip_map_left, List.map_map] at h
  have h2 : oenergy X (oinit X entries coeffs mu data lne)
      = energy X (cinit X (entries.map fun e => (⟨e.comp, grandEnergy X mu e⟩ : Entry κ)) coeffs data lne) := by
    unfold oenergy energy oinit cinit calcEnergies
    simp only [List.foldl_map, List.map_map]
    rfl
  rw [h2, h]
  rfl

/-- The energy of a phase per formula unit of its reduced composition. -/
def perUnit (X : Chem κ ε) (e : Entry κ) : ℚ := e.energy / X.fac e.comp

/-- One polymorph per composition: every reaction takes its phases from `S`, each at most once. -/
def From (S : List (Entry κ)) (r : SRxn (Entry κ) δ ω) : Prop := r.entries.Sublist S ∨ r.entries.Nodup ∧ ∀ e ∈ r.entries, e ∈ S

theorem from_nodup (X : Chem κ ε) (S : List (Entry κ)) (hS : (S.map fun e => X.red e.comp).Nodup) (r : SRxn (Entry κ) δ ω)
    (h : From S r) : (r.entries.map fun e => X.red e.comp).Nodup ∧ ∀ e ∈ r.entries, e ∈ S := by
  rcases h with h | ⟨h1, h2⟩
  · exact ⟨hS.sublist (h.map _), h.subset⟩
  · exact ⟨h1.map_on fun a ha b hb hab => List.inj_on_of_nodup_map hS (h2 a ha) (h2 b hb) hab, h2⟩

theorem mapM_map_ok {α β : Type} (f : α → Except Err β) (g : α → β) (l : List α) (h : ∀ a ∈ l, f a = .ok (g a)) :
    l.mapM f = .ok (l.map g) := by
  rw [mapM_ok]
  induction l with
  | nil => exact .nil
  | cons a l ih => exact .cons (h a List.mem_cons_self) (ih fun b hb => h b (List.mem_cons_of_mem _ hb))

/-! ### C123 -/

/-- Hess's law with error bounds, for any way of giving one energy per phase. -/
theorem hess (g : Entry κ → ℚ) (energyOf : SRxn (Entry κ) δ ω → Except Err ℚ) (X : Chem κ ε) (S : List (Entry κ))
    (hS : (S.map fun e => X.red e.comp).Nodup)
    (hg : ∀ r : SRxn (Entry κ) δ ω, (r.entries.map fun e => X.red e.comp).Nodup →
      energyOf r = .ok ((pairs r).map fun p => p.2 * g p.1).sum)
    (rs : List (SRxn (Entry κ) δ ω)) (net : SRxn (Entry κ) δ ω) (hrs : ∀ r ∈ rs, From S r) (hnet : From S net)
    (ms : List ℚ) (tol : Entry κ → ℚ) (htot : ∀ e ∈ S, |total (rs.map pairs) ms e - amount (pairs net) e| ≤ tol e) :
    ∃ Es E, rs.mapM energyOf = .ok Es ∧ energyOf net = .ok E ∧
      |(Es.zipWith (fun E m => m * E) ms).sum - E| ≤ (S.map fun e => tol e * |g e|).sum := by
  have hSn : S.Nodup := List.Nodup.of_map _ hS
  have hmem : ∀ r : SRxn (Entry κ) δ ω, From S r → ∀ p ∈ pairs r, p.1 ∈ S := fun r hr p hp =>
    (from_nodup X S hS r hr).2 _ (List.of_mem_zip (a := p.1) (b := p.2) hp).1
  refine ⟨_, _, mapM_map_ok _ (fun r => ((pairs r).map fun p => p.2 * g p.1).sum) rs
    (fun r hr => hg r (from_nodup X S hS r (hrs r hr)).1), hg net (from_nodup X S hS net hnet).1, ?_⟩
  have ht := total_sum g S hSn (rs.map pairs) ms (by
    intro l hl
    obtain ⟨r, hr, rfl⟩ := List.mem_map.mp hl
    exact hmem r (hrs r hr))
  rw [List.map_map] at ht
  rw [show (fun r : SRxn (Entry κ) δ ω => ((pairs r).map fun p => p.2 * g p.1).sum)
    = (fun l : List (Entry κ × ℚ) => (l.map fun p => p.2 * g p.1).sum) ∘ pairs from rfl, ht, amount_sum g S hSn _ (hmem net hnet)]
  rw [show ∀ a b : ℚ, a - b = a + (-1) * b from fun a b => by ring, ← List.sum_map_mul_left, ← List.sum_map_add]
  apply abs_sum_le
  intro e he
  rw [show total (rs.map pairs) ms e * g e + -1 * (amount (pairs net) e * g e)
    = (total (rs.map pairs) ms e - amount (pairs net) e) * g e from by ring, abs_mul]
  exact mul_le_mul_of_nonneg_right (htot e he) (abs_nonneg _)

theorem closed_energy (X : Chem κ ε) (r : SRxn (Entry κ) δ ω) (h : (r.entries.map fun e => X.red e.comp).Nodup) :
    energy X (stepRxn X r) = .ok ((pairs r).map fun p => p.2 * perUnit X p.1).sum :=
  C17_energy_distinct X r.entries r.coeffs [] none h

/-- **C123 (partial: for the energies weighted with the multiplicities, not for `energy`).**  If the steps of a pathway,
carried out `ms` times, make exactly what the net reaction makes of every phase, then the weighted sum of their energies is
the energy of the net reaction. -/
theorem C123_hess_partial (X : Chem κ ε) (S : List (Entry κ)) (hS : (S.map fun e => X.red e.comp).Nodup)
    (rs : List (SRxn (Entry κ) δ ω)) (net : SRxn (Entry κ) δ ω) (hrs : ∀ r ∈ rs, From S r) (hnet : From S net)
    (ms : List ℚ) (htot : ∀ e ∈ S, total (rs.map pairs) ms e = amount (pairs net) e) :
    ∃ Es E, rs.mapM (fun r => energy X (stepRxn X r)) = .ok Es ∧ energy X (stepRxn X net) = .ok E ∧
      (Es.zipWith (fun E m => m * E) ms).sum = E := by
  obtain ⟨Es, E, h1, h2, h3⟩ := hess (perUnit X) (fun r => energy X (stepRxn X r)) X S hS (closed_energy X) rs net hrs hnet
    ms (fun _ => 0) (fun e he => by rw [htot e he]; simp)
  refine ⟨Es, E, h1, h2, ?_⟩
  simp only [zero_mul] at h3
  have h0 : (S.map fun _ => (0 : ℚ)).sum = 0 := by simp
  rw [h0] at h3
  exact sub_eq_zero.mp (abs_nonpos_iff.mp h3)

/-- The same for reactions open to elements of fixed chemical potential. -/
theorem C123_hess_open_partial (X : Chem κ ε) (S : List (Entry κ)) (hS : (S.map fun e => X.red e.comp).Nodup)
    (mu : List (ε × ℚ))
    (rs : List (SRxn (Entry κ) δ ω)) (net : SRxn (Entry κ) δ ω) (hrs : ∀ r ∈ rs, From S r) (hnet : From S net)
    (ms : List ℚ) (htot : ∀ e ∈ S, total (rs.map pairs) ms e = amount (pairs net) e) :
    ∃ Es E, rs.mapM (fun r => oenergy X (oinit X r.entries r.coeffs mu [] none)) = .ok Es ∧
      oenergy X (oinit X net.entries net.coeffs mu [] none) = .ok E ∧ (Es.zipWith (fun E m => m * E) ms).sum = E := by
  obtain ⟨Es, E, h1, h2, h3⟩ := hess (fun e => grandEnergy X mu e / X.fac e.comp)
    (fun r : SRxn (Entry κ) δ ω => oenergy X (oinit X r.entries r.coeffs mu [] none)) X S hS
    (fun r hr => oenergy_distinct X r.entries r.coeffs mu [] none hr) rs net hrs hnet
    ms (fun _ => 0) (fun e he => by rw [htot e he]; simp)
  refine ⟨Es, E, h1, h2, ?_⟩
  simp only [zero_mul] at h3
  have h0 : (S.map fun _ => (0 : ℚ)).sum = 0 := by simp
  rw [h0] at h3
  exact sub_eq_zero.mp (abs_nonpos_iff.mp h3)

theorem zipWith_ones (Es : List ℚ) : ∀ ms : List ℚ, ms.length = Es.length → (∀ m ∈ ms, m = 1) →
    (Es.zipWith (fun E m => m * E) ms).sum = Es.sum := by
  induction Es with
  | nil => intro ms _ _; simp
  | cons E Es ih =>
    intro ms hl h1
    cases ms with
    | nil => simp at hl
    | cons m ms =>
      rw [List.zipWith_cons_cons, List.sum_cons, List.sum_cons, ih ms (by simpa using hl) fun x hx =>
        h1 x (List.mem_cons_of_mem _ hx), h1 m List.mem_cons_self, one_mul]

/-- **C123 (partial: only if every step happens once).**  The `energy` of such a pathway is the energy of its net
reaction. -/
theorem C123_energy_partial (X : Chem κ ε) (S : List (Entry κ)) (hS : (S.map fun e => X.red e.comp).Nodup)
    (rs : List (SRxn (Entry κ) δ ω)) (net : SRxn (Entry κ) δ ω) (hrs : ∀ r ∈ rs, From S r) (hnet : From S net)
    (ms : List ℚ) (hl : ms.length = rs.length) (hone : ∀ m ∈ ms, m = 1)
    (htot : ∀ e ∈ S, total (rs.map pairs) ms e = amount (pairs net) e) :
    ∃ E, energy X (stepRxn X net) = .ok E ∧ pathEnergy (fun r => energy X (stepRxn X r)) rs = .ok E := by
  obtain ⟨Es, E, h1, h2, h3⟩ := C123_hess_partial X S hS rs net hrs hnet ms htot
  refine ⟨E, h2, ?_⟩
  unfold pathEnergy
  rw [h1]
  show Except.ok Es.sum = Except.ok E
  rw [← h3, zipWith_ones Es ms (by rw [hl]; exact (mapM_length _ _ _ h1).symm) hone]

theorem rebuild_from (S : List (Entry κ)) (data : δ) (mu : List (ω × ℚ)) (row : List ℚ) (r : SRxn (Entry κ) δ ω)
    (h : rebuild S data mu row = .ok r) : From S r := by
  unfold rebuild at h
  split at h
  · simp at h
  · rename_i l hne
    simp only [Except.ok.injEq] at h
    subst h
    left
    refine (List.filter_sublist.map Prod.fst).trans ?_
    have : ∀ (a : List (Entry κ)) (b : List ℚ), ((a.zip b).map Prod.fst).Sublist a := by
      intro a
      induction a with
      | nil => intro b; simp
      | cons x a ih =>
        intro b
        cases b with
        | nil => simp
        | cons y b => exact (ih b).cons_cons x
    exact this _ _

/-- **C123 (partial: as `C123_hess_partial`).**  For every pathway the solver returns, the energies of its steps weighted with the
multiplicities give the energy of the net reaction, up to numpy's closeness of the amounts. -/
theorem C123_solver_partial (X : Chem κ ε) (c : Config (Entry κ) δ ω κ) (hw₁ : ∀ k, WaitSpec (c.wait₁ k))
    (hw₂ : ∀ i, WaitSpec (c.wait₂ i)) (hpick : ∀ l, ∀ q ∈ c.pick l, q ∈ l)
    (hS : (c.entries.map fun e => X.red e.comp).Nodup) (balanced : Bool)
    (inClean : List (SRxn (Entry κ) δ ω × ℚ) → SRxn (Entry κ) δ ω → Bool)
    (paths : List (Path (SRxn (Entry κ) δ ω))) (inter : List (SRxn (Entry κ) δ ω × ℚ)) (net : SRxn (Entry κ) δ ω)
    (precursors : Finset κ) (maxCombos : ℕ) (filterInter : Bool) (hnet : WellIndexed c net) (hwi : InputsIndexed c paths inter)
    (out : List (Path (SRxn (Entry κ) δ ω)))
    (h : solve c balanced inClean paths inter net precursors maxCombos filterInter = .ok out) :
    ∀ p ∈ out, ∃ ms Es E, p.coefficients = some ms ∧ p.reactions.mapM (fun r => energy X (stepRxn X r)) = .ok Es ∧
      energy X (stepRxn X net) = .ok E ∧
      |(Es.zipWith (fun E m => m * E) ms).sum - E| ≤ (c.entries.map fun e =>
        (1 / 10 ^ 8 + 1 / 10 ^ 5 * |amount (pairs net) e| + 1 / 10 ^ 8 * ms.sum) * |e.energy / X.fac e.comp|).sum := by
  intro p hp
  have hE : c.entries.Nodup := List.Nodup.of_map _ hS
  obtain ⟨ms, h1, _, _, h4⟩ := C56_sum c hw₁ hw₂ hpick hE balanced inClean paths inter net precursors maxCombos filterInter
    hnet hwi out h p hp
  obtain ⟨_, _, _, _, hall⟩ := solve_sound c hw₁ hw₂ hpick balanced inClean paths inter net precursors maxCombos
    filterInter out h
  obtain ⟨_, x, _, hpf⟩ := hall p hp
  have hfrom : ∀ r ∈ p.reactions, From c.entries r := by
    unfold pathFrom at hpf
    rw [map_ok] at hpf
    obtain ⟨rs, hrs, rfl⟩ := hpf
    intro r hr
    obtain ⟨row, _, hrow⟩ := mapM_mem _ _ _ hrs r hr
    exact rebuild_from _ _ _ _ _ hrow
  obtain ⟨Es, E, g1, g2, g3⟩ := hess (perUnit X) (fun r => energy X (stepRxn X r)) X c.entries hS (closed_energy X)
    p.reactions net hfrom (.inr ⟨hnet.1, fun e he => List.mem_of_getElem? (hnet.2.2 e he)⟩) ms _ fun e _ => h4 e
  exact ⟨ms, Es, E, h1, g1, g2, g3⟩

/-! ### Where it fails, and examples -/

/-- Phases `A`, `B`, `AB`, `A₂B`. -/
def eA : Entry TComp := ⟨A, 0⟩
def eB : Entry TComp := ⟨B1, 0⟩
def eAB : Entry TComp := ⟨AB, -3⟩
def eA2B : Entry TComp := ⟨A2B, -5⟩
def phases : List (Entry TComp) := [eA, eB, eAB, eA2B]

/-- `A + B → AB`. -/
def form : SRxn (Entry TComp) Unit (Fin 3) := ⟨[eA, eB, eAB], [-1, -1, 1], (), []⟩
/-- `2 AB → A₂B + B`. -/
def split : SRxn (Entry TComp) Unit (Fin 3) := ⟨[eB, eAB, eA2B], [1, -2, 1], (), []⟩
/-- `A + AB → A₂B`. -/
def grow : SRxn (Entry TComp) Unit (Fin 3) := ⟨[eA, eAB, eA2B], [-1, -1, 1], (), []⟩
/-- `2 A + B → A₂B`. -/
def whole : SRxn (Entry TComp) Unit (Fin 3) := ⟨[eA, eB, eA2B], [-2, -1, 1], (), []⟩

theorem phases_distinct : (phases.map fun e => toy.red e.comp).Nodup := by decide +kernel

theorem ex_from : From phases form ∧ From phases split ∧ From phases grow ∧ From phases whole := by
  refine ⟨.inr ?_, .inr ?_, .inr ?_, .inr ?_⟩ <;> decide +kernel

/-- **C123 (violated).**  `A + B → AB` twice and `2 AB → A₂B + B` once amount to `2 A + B → A₂B`, whose energy is `-5`; the
`energy` of the pathway is `-2`. -/
theorem C123_multiplicity_violated :
    (∀ e ∈ phases, total ([form, split].map pairs) [2, 1] e = amount (pairs whole) e) ∧
      energy toy (stepRxn toy whole) = .ok (-5) ∧
      pathEnergy (fun r => energy toy (stepRxn toy r)) [form, split] = .ok (-2) := by
  decide +kernel

/-- **C123 (violated).**  Even if every step happens once, `energy_per_atom` of the pathway is not that of the net reaction:
the steps are divided by different numbers of atoms. -/
theorem C123_per_atom_violated :
    (∀ e ∈ phases, total ([form, grow].map pairs) [1, 1] e = amount (pairs whole) e) ∧
      energyPerAtom toy (stepRxn toy whole) = .ok (-5 / 3) ∧
      pathEnergyPerAtom (fun r => energyPerAtom toy (stepRxn toy r)) [form, grow] = .ok (-13 / 6) := by
  decide +kernel

/-- An instance of `C123_hess_partial` and one of its open version (element 1 open at chemical potential -1). -/
example : ∃ Es E, [form, split].mapM (fun r => energy toy (stepRxn toy r)) = .ok Es ∧ energy toy (stepRxn toy whole) = .ok E ∧
    (Es.zipWith (fun E m => m * E) [2, 1]).sum = E :=
  C123_hess_partial toy phases phases_distinct [form, split] whole
    (by simp only [List.mem_cons, List.not_mem_nil, or_false]; rintro r (rfl | rfl); exacts [ex_from.1, ex_from.2.1])
    ex_from.2.2.2 [2, 1] C123_multiplicity_violated.1

example : ∃ Es E, [form, split].mapM (fun r => oenergy toy (oinit toy r.entries r.coeffs [(1, -1)] [] none)) = .ok Es ∧
    oenergy toy (oinit toy whole.entries whole.coeffs [(1, -1)] [] none) = .ok E ∧ (Es.zipWith (fun E m => m * E) [2, 1]).sum = E :=
  C123_hess_open_partial toy phases phases_distinct [(1, -1)] [form, split] whole
    (by simp only [List.mem_cons, List.not_mem_nil, or_false]; rintro r (rfl | rfl); exacts [ex_from.1, ex_from.2.1])
    ex_from.2.2.2 [2, 1] C123_multiplicity_violated.1

/-- An instance of `C123_energy_partial`. -/
example : ∃ E, energy toy (stepRxn toy whole) = .ok E ∧ pathEnergy (fun r => energy toy (stepRxn toy r)) [form, grow] = .ok E :=
  C123_energy_partial toy phases phases_distinct [form, grow] whole
    (by simp only [List.mem_cons, List.not_mem_nil, or_false]; rintro r (rfl | rfl); exacts [ex_from.1, ex_from.2.2.1])
    ex_from.2.2.2 [1, 1] rfl (by simp) C123_per_atom_violated.1

/-- A solver run on these phases, meeting the hypotheses of `C123_solver_partial`: it finds the pathway with multiplicities
2 and 1. -/
def exCfg : Config (Entry TComp) Unit (Fin 3) TComp where
  eq := fun a b => phases.all fun e => decide (amount (pairs a) e = amount (pairs b) e)
  idx := fun e => phases.idxOf e
  entries := phases
  data := ()
  mu := []
  chunk := 3
  batch := none
  cpus := 2
  pinv := fun mat _ => if mat = [[-1, -1, 1, 0], [0, 1, -2, 1]] then .ok [2, 1] else .ok (List.replicate mat.length 0)
  wait₁ := fun _ => lifo
  wait₂ := fun _ => lifo
  order := fun l => l
  R := fun r => (((pairs r).filter fun p => decide (p.2 < (0 : ℚ))).map fun p => p.1.comp).toFinset
  P := fun r => (((pairs r).filter fun p => decide ((0 : ℚ) < p.2)).map fun p => p.1.comp).toFinset
  pick := fun l => l

theorem ex_solve : solve exCfg true (fun _ _ => true) [⟨[form, split], [3, 5], none, false⟩] [] whole {A, B1} 2 true
    = .ok [⟨[form, split], [3, 5], some [2, 1], true⟩] := by decide +kernel

example : ∃ ms Es E, (some [2, 1] : Option (List ℚ)) = some ms ∧
    [form, split].mapM (fun r => energy toy (stepRxn toy r)) = .ok Es ∧ energy toy (stepRxn toy whole) = .ok E ∧
    |(Es.zipWith (fun E m => m * E) ms).sum - E| ≤ (phases.map fun e =>
      (1 / 10 ^ 8 + 1 / 10 ^ 5 * |amount (pairs whole) e| + 1 / 10 ^ 8 * ms.sum) * |e.energy / toy.fac e.comp|).sum :=
  C123_solver_partial toy exCfg (fun _ => lifo_spec) (fun _ => lifo_spec) (fun _ _ h => h) phases_distinct true (fun _ _ => true)
    [⟨[form, split], [3, 5], none, false⟩] [] whole {A, B1} 2 true
    (by unfold WellIndexed; decide +kernel) (by unfold InputsIndexed WellIndexed; decide +kernel) _ ex_solve _ List.mem_cons_self

end Verif.Props.PathEnergy
