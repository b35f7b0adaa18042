import Verif.Props.Written

/-!
C141: reaction energies, and the hulls built from them, depend neither on the reference energies of the elements nor on the size of the
cells in which the phases were computed (src/rxn_network/reactions/{computed,open,hull}.py).
-/

set_option linter.unusedSectionVars false

namespace Verif.Props.Reference
open Verif.Py Verif.Model Verif.Model.Reaction Verif.Spec.Reaction Verif.Lemmas.Dict Verif.Lemmas.Reaction Verif.Props.Reaction
  Verif.Props.Written

variable {κ ε : Type} [DecidableEq κ] [DecidableEq ε]

/-! ### Specification -/

/-- How much the energy of an amount `c` of matter changes when the reference energy of every element `s` is moved by `δ s`. -/
def carried (X : Chem κ ε) (δ : ε → ℚ) (c : κ) : ℚ := ((X.elems c).map fun s => X.amt c s * δ s).sum

/-- `e'` describes the same phase as `e`, computed in a cell of any size, with the references of the elements moved by `δ`. -/
structure Rereferenced (X : Chem κ ε) (δ : ε → ℚ) (e e' : Entry κ) : Prop where
  phase : X.red e'.comp = X.red e.comp
  energy : e'.energy / X.fac e'.comp = e.energy / X.fac e.comp + carried X δ (X.red e.comp)

/-- The chemical potentials measured against the moved references. -/
def moved (δ : ε → ℚ) (mu : List (ε × ℚ)) : List (ε × ℚ) := mu.map fun m => (m.1, m.2 + δ m.1)

/-- The two ways of changing a description that are meant: moving the references of an entry, -/
theorem rereferenced_shift (X : Chem κ ε) (hX : X.Lawful) (δ : ε → ℚ) (e : Entry κ) :
    Rereferenced X δ e ⟨e.comp, e.energy + carried X δ e.comp⟩ := by
  refine ⟨rfl, ?_⟩
  have hf := (hX.fac_pos e.comp).ne'
  have hel : (X.elems e.comp).Perm (X.elems (X.red e.comp)) := by
    rw [List.perm_ext_iff_of_nodup (hX.nodup _) (hX.nodup _)]
    intro s
    rw [hX.mem_elems, hX.mem_elems, hX.red_amt e.comp s]
    simp [hf]
  have : carried X δ e.comp = X.fac e.comp * carried X δ (X.red e.comp) := by
    unfold carried
    rw [(hel.map fun s => X.amt e.comp s * δ s).sum_eq, ← List.sum_map_mul_left]
    congr 1
    apply List.map_congr_left
    intro s _
    rw [hX.red_amt e.comp s]
    ring
  show (e.energy + carried X δ e.comp) / X.fac e.comp = _
  rw [this]
  field_simp

/-- and taking `k` times as much of it. -/
theorem rereferenced_supercell (X : Chem κ ε) (hX : X.Lawful) (e : Entry κ) (c : κ) (k : ℚ) (hk : 0 < k) (hr : X.red c = X.red e.comp)
    (hc : ∀ s, X.amt c s = k * X.amt e.comp s) (hne : X.elems e.comp ≠ []) : Rereferenced X (fun _ => 0) e ⟨c, k * e.energy⟩ := by
  refine ⟨hr, ?_⟩
  have hf := (hX.fac_pos e.comp).ne'
  have h0 : carried X (fun _ => 0) (X.red e.comp) = 0 := by simp [carried]
  obtain ⟨s, hs⟩ := List.exists_mem_of_ne_nil _ hne
  have hs0 := (hX.mem_elems _ _).mp hs
  have hsr : X.amt (X.red e.comp) s ≠ 0 := by
    intro h
    rw [hX.red_amt, h, mul_zero] at hs0
    exact hs0 rfl
  have hfac : X.fac c = k * X.fac e.comp := by
    have h1 := hc s
    rw [hX.red_amt c s, hX.red_amt e.comp s, hr, ← mul_assoc] at h1
    exact mul_right_cancel₀ hsr h1
  show k * e.energy / X.fac c = _
  rw [h0, add_zero, hfac, mul_div_mul_left _ _ hk.ne']

/-! ### Helper lemmas -/

theorem forall₂_mem_left {α β : Type} {R : α → β → Prop} {l : List α} {l' : List β} (h : List.Forall₂ R l l') :
    ∀ a ∈ l, ∃ b ∈ l', R a b := by
  induction h with
  | nil => simp
  | cons hab _ ih =>
    intro a ha
    rcases List.mem_cons.mp ha with rfl | ha
    · exact ⟨_, List.mem_cons_self, hab⟩
    · obtain ⟨b, hb, hr⟩ := ih a ha
      exact ⟨b, List.mem_cons_of_mem _ hb, hr⟩

theorem forall₂_mem_right {α β : Type} {R : α → β → Prop} {l : List α} {l' : List β} (h : List.Forall₂ R l l') :
    ∀ b ∈ l', ∃ a ∈ l, R a b :=
  forall₂_mem_left (R := fun b a => R a b) h.flip

/-- Tables of lowest energies when every energy is moved by an amount that depends on the phase only. -/
theorem calcEnergies_moved (X : Chem κ ε) (en en' : Entry κ → ℚ) (d : κ → ℚ) {l l' : List (Entry κ)}
    (h : List.Forall₂ (fun e e' => X.red e'.comp = X.red e.comp ∧ en' e' / X.fac e'.comp = en e / X.fac e.comp + d (X.red e.comp)) l l') (c : κ) :
    dictGet (calcEnergies X en' l') c = (dictGet (calcEnergies X en l) c).map fun v => v + d c := by
  obtain ⟨a1, a2⟩ := calc_spec X en' l' c
  obtain ⟨b1, b2⟩ := calc_spec X en l c
  cases ha : dictGet (calcEnergies X en' l') c with
  | none =>
    have : dictGet (calcEnergies X en l) c = none := b1.mpr fun e he hr => by
      obtain ⟨e', he', h1, -⟩ := forall₂_mem_left h e he
      exact a1.mp ha e' he' (h1.trans hr)
    rw [this]; rfl
  | some v =>
    cases hb : dictGet (calcEnergies X en l) c with
    | none =>
      obtain ⟨⟨e', he', hr, -⟩, -⟩ := a2 v ha
      obtain ⟨e, he, h1, -⟩ := forall₂_mem_right h e' he'
      exact absurd (h1.symm.trans hr) (b1.mp hb e he)
    | some w =>
      obtain ⟨⟨e', he', hr, hv⟩, hle⟩ := a2 v ha
      obtain ⟨⟨f, hf, hs, hw⟩, hle'⟩ := b2 w hb
      obtain ⟨e, he, h1, h2⟩ := forall₂_mem_right h e' he'
      obtain ⟨f', hf', h3, h4⟩ := forall₂_mem_left h f hf
      have i1 := hle f' hf' (h3.trans hs)
      have i2 := hle' e he (h1.symm.trans hr)
      rw [h2, ← h1, hr] at hv
      rw [h4, hs] at i1
      show some v = some (w + d c)
      congr 1
      linarith

theorem comps_same (X : Chem κ ε) {R : Entry κ → Entry κ → Prop} (hR : ∀ e e', R e e' → X.red e'.comp = X.red e.comp)
    {l l' : List (Entry κ)} (h : List.Forall₂ R l l') : (l'.map fun e => X.red e.comp) = l.map fun e => X.red e.comp := by
  induction h with
  | nil => rfl
  | cons hab _ ih => rw [List.map_cons, List.map_cons, hR _ _ hab, ih]

theorem sumEnergies_moved (X : Chem κ ε) (en en' : Entry κ → ℚ) (d : κ → ℚ) {l l' : List (Entry κ)}
    (h : List.Forall₂ (fun e e' => X.red e'.comp = X.red e.comp ∧ en' e' / X.fac e'.comp = en e / X.fac e.comp + d (X.red e.comp)) l l')
    (k : List ℚ) :
    sumEnergies (calcEnergies X en' l') (l'.map fun e => X.red e.comp) k
      = (sumEnergies (calcEnergies X en l) (l.map fun e => X.red e.comp) k).map fun E =>
          E + (((l.map fun e => X.red e.comp).zip k).map fun p => p.2 * d p.1).sum := by
  have hg : ∀ c ∈ l.map (fun e => X.red e.comp),
      dictGet (calcEnergies X en l) c = some ((dictGet (calcEnergies X en l) c).getD 0) := by
    intro c hc
    obtain ⟨e, he, rfl⟩ := List.mem_map.mp hc
    cases hd : dictGet (calcEnergies X en l) (X.red e.comp) with
    | none => exact absurd rfl ((calc_spec X en l _).1.mp hd e he)
    | some v => rfl
  rw [comps_same X (fun _ _ hh => hh.1) h, sumEnergies_eq _ _ k _ hg,
    sumEnergies_eq _ _ k (fun c => (dictGet (calcEnergies X en l) c).getD 0 + d c)
      (fun c hc => by rw [calcEnergies_moved X en en' d h c, hg c hc]; rfl)]
  show Except.ok _ = Except.ok _
  congr 1
  dsimp only
  rw [← List.sum_map_add]
  congr 1
  apply List.map_congr_left
  intro p _
  ring

theorem sum_swap {α β : Type} (l : List α) (m : List β) (f : α → β → ℚ) :
    (l.map fun a => (m.map fun b => f a b).sum).sum = (m.map fun b => (l.map fun a => f a b).sum).sum := by
  induction l with
  | nil => simp
  | cons a l ih => rw [List.map_cons, List.sum_cons, ih, ← List.sum_map_add]; simp

/-- A sum over the elements of a phase is a sum over any list of different elements that contains them. -/
theorem sum_elems (X : Chem κ ε) (hX : X.Lawful) (f : ε → ℚ) (c : κ) (els : List ε) (hn : els.Nodup) (hs : ∀ s ∈ X.elems c, s ∈ els) :
    ((X.elems c).map fun s => X.amt c s * f s).sum = (els.map fun s => X.amt c s * f s).sum := by
  have h1 : (els.map fun s => X.amt c s * f s).sum = ((els.filter fun s => s ∈ X.elems c).map fun s => X.amt c s * f s).sum := by
    clear hs
    induction els with
    | nil => rfl
    | cons s els ih =>
      rw [List.map_cons, List.sum_cons, ih (List.nodup_cons.mp hn).2]
      by_cases hm : s ∈ X.elems c
      · rw [List.filter_cons_of_pos (by simpa using hm)]; simp
      · rw [List.filter_cons_of_neg (by simpa using hm)]
        have : X.amt c s = 0 := by
          by_contra h
          exact hm ((hX.mem_elems _ _).mpr h)
        rw [this]; simp
  rw [h1]
  refine (List.Perm.map _ ?_).sum_eq
  rw [List.perm_ext_iff_of_nodup (hX.nodup _) (hn.filter _)]
  intro s
  simp only [List.mem_filter, decide_eq_true_eq]
  exact ⟨fun h => ⟨hs s h, h⟩, fun h => h.2⟩

theorem net_sum (X : Chem κ ε) (hX : X.Lawful) (f : ε → ℚ) (comps : List κ) (coeffs : List ℚ) :
    ((comps.zip coeffs).map fun p => p.2 * carried X f p.1).sum = ((elements X comps).map fun s => f s * net X comps coeffs s).sum := by
  have h1 : ∀ p ∈ comps.zip coeffs, p.2 * carried X f p.1 = ((elements X comps).map fun s => f s * (p.2 * X.amt p.1 s)).sum := by
    intro p hp
    unfold carried
    rw [sum_elems X hX f p.1 (elements X comps) (nodup_elements X comps)
      (fun s hs => (mem_elements X comps s).mpr ⟨p.1, (List.of_mem_zip hp).1, hs⟩), ← List.sum_map_mul_left]
    congr 1
    apply List.map_congr_left
    intro s _
    ring
  rw [List.map_congr_left h1, sum_swap]
  congr 1
  apply List.map_congr_left
  intro s _
  rw [List.sum_map_mul_left]
  rfl

/-! ### Closed reactions -/

/-- Moving the references changes the energy of a reaction by the references times what the reaction does not conserve. -/
theorem C141_energy (X : Chem κ ε) (hX : X.Lawful) (δ : ε → ℚ) (entries entries' : List (Entry κ)) (coeffs : List ℚ)
    (data data' : List (String × ℚ)) (lne lne' : Option ℕ) (h : List.Forall₂ (Rereferenced X δ) entries entries') :
    let comps := entries.map fun e => X.red e.comp
    energy X (cinit X entries' coeffs data' lne')
      = (energy X (cinit X entries coeffs data lne)).map fun E => E + ((elements X comps).map fun s => δ s * net X comps coeffs s).sum := by
  intro comps
  have := sumEnergies_moved X Entry.energy Entry.energy (carried X δ) (h.imp fun _ _ hh => ⟨hh.phase, hh.energy⟩) coeffs
  rw [net_sum X hX] at this
  exact this

/-- The energy and the energy per atom of a reaction that conserves the elements do not depend on the references or the cells; neither do the
compositions, the amounts and the balanced flag of any reaction. -/
theorem C141_conserving (X : Chem κ ε) (hX : X.Lawful) (δ : ε → ℚ) (entries entries' : List (Entry κ)) (coeffs : List ℚ)
    (data : List (String × ℚ)) (lne : Option ℕ) (h : List.Forall₂ (Rereferenced X δ) entries entries') :
    (cinit X entries' coeffs data lne).base = (cinit X entries coeffs data lne).base ∧
    (Conserved X (entries.map fun e => X.red e.comp) coeffs →
      energy X (cinit X entries' coeffs data lne) = energy X (cinit X entries coeffs data lne) ∧
      energyPerAtom X (cinit X entries' coeffs data lne) = energyPerAtom X (cinit X entries coeffs data lne)) := by
  have hb : (cinit X entries' coeffs data lne).base = (cinit X entries coeffs data lne).base := by
    show init X _ coeffs none data lne = init X _ coeffs none data lne
    rw [comps_same X (fun _ _ hh => hh.phase) h]
  refine ⟨hb, fun hc => ?_⟩
  have he : energy X (cinit X entries' coeffs data lne) = energy X (cinit X entries coeffs data lne) := by
    rw [C141_energy X hX δ entries entries' coeffs data data lne lne h]
    simp only [hc _, mul_zero, List.map_const', List.sum_replicate, smul_zero, add_zero]
    cases energy X (cinit X entries coeffs data lne) <;> rfl
  exact ⟨he, by unfold energyPerAtom; rw [he, hb]⟩

/-- For a reaction between different phases that is only flagged balanced, the energy changes by at most the tolerance of the flag for every
element, times the change of the reference. -/
theorem C141_flagged (X : Chem κ ε) (hX : X.Lawful) (δ : ε → ℚ) (entries entries' : List (Entry κ)) (coeffs : List ℚ)
    (data : List (String × ℚ)) (lne : Option ℕ) (h : List.Forall₂ (Rereferenced X δ) entries entries')
    (hn : (entries.map fun e => X.red e.comp).Nodup) (hb : (cinit X entries coeffs data lne).base.balanced = true) :
    ∃ E E', energy X (cinit X entries coeffs data lne) = .ok E ∧ energy X (cinit X entries' coeffs data lne) = .ok E' ∧
      |E' - E| ≤ ((elements X (entries.map fun e => X.red e.comp)).map fun s => |δ s|).sum / 1000000 := by
  obtain ⟨g, hE, -⟩ := C17_energy_formula X entries coeffs data lne
  have hE' := C141_energy X hX δ entries entries' coeffs data data lne lne h
  rw [hE] at hE'
  refine ⟨_, _, hE, hE', ?_⟩
  rw [add_sub_cancel_left]
  have hnet := (C09_computed X hX entries coeffs data lne hn).mp hb
  generalize elements X (entries.map fun e => X.red e.comp) = els
  induction els with
  | nil => simp
  | cons s els ih =>
    simp only [List.map_cons, List.sum_cons]
    refine (abs_add_le _ _).trans ?_
    have h1 : |δ s * net X (entries.map fun e => X.red e.comp) coeffs s| ≤ |δ s| / 1000000 := by
      rw [abs_mul]
      calc |δ s| * |net X (entries.map fun e => X.red e.comp) coeffs s| ≤ |δ s| * (1 / 1000000) :=
            mul_le_mul_of_nonneg_left (hnet s) (abs_nonneg _)
        _ = |δ s| / 1000000 := by ring
    rw [add_div]
    exact add_le_add h1 ih

open Verif.Model.Hull Verif.Props.HullInit in
/-- The points of an interface hull, hence everything scored on it, are the same for all references and cells, if its reactions conserve the
elements. -/
theorem C141_hull (X : Chem κ ε) (hX : X.Lawful) (δ : ε → ℚ) (ident : Entry κ → CRxn κ) (argsort : List ℚ → List ℕ) (c1 c2 : κ)
    (as bs : List (Eqn κ))
    (h : List.Forall₂ (fun a b => b.coeffs = a.coeffs ∧ List.Forall₂ (Rereferenced X δ) a.entries b.entries ∧
      Conserved X (a.comps X) a.coeffs) as bs) :
    (hullInit reactantEntries (fun e => X.red e.comp) (closedPlace X c1 c2) (energyPerAtom X) ident argsort c1 c2
        (bs.map fun b => b.closed X [] none)).map Built.coords
      = (hullInit reactantEntries (fun e => X.red e.comp) (closedPlace X c1 c2) (energyPerAtom X) ident argsort c1 c2
        (as.map fun a => a.closed X [] none)).map Built.coords := by
  refine hull_congr _ _ _ _ _ _ _ _ _ _ ?_
  rw [List.forall₂_map_left_iff, List.forall₂_map_right_iff]
  refine h.imp ?_
  rintro ⟨es, ks, hl⟩ ⟨es', ks', hl'⟩ ⟨hk, hr, hc⟩
  dsimp only at hk hr
  subst hk
  obtain ⟨h1, h2⟩ := C141_conserving X hX δ es es' ks' [] none hr
  refine ⟨?_, (h2 hc).2, fun c => ?_⟩
  · show closedPlace X c1 c2 (cinit X es' ks' [] none) = closedPlace X c1 c2 (cinit X es ks' [] none)
    unfold closedPlace
    rw [h1]
  · show (∃ e ∈ ((es'.zip ks').filter fun p => p.2 < (0 : ℚ)).map Prod.fst, X.red e.comp = c) ↔
      ∃ e ∈ ((es.zip ks').filter fun p => p.2 < (0 : ℚ)).map Prod.fst, X.red e.comp = c
    clear hl hl' h1 h2 hc
    induction hr generalizing ks' with
    | nil => simp
    | cons hab _ ih =>
      cases ks' with
      | nil => simp
      | cons k ks' =>
        simp only [List.zip_cons_cons]
        by_cases hk : k < 0
        · rw [List.filter_cons_of_pos (by simpa using hk), List.filter_cons_of_pos (by simpa using hk)]
          simp only [List.map_cons, List.mem_cons, exists_eq_or_imp]
          rw [hab.phase, ih ks']
        · rw [List.filter_cons_of_neg (by simpa using hk), List.filter_cons_of_neg (by simpa using hk)]
          exact ih ks'

/-! ### Open reactions -/

/-- Amount of the elements that are not open, times the change of their references. -/
def carriedClosed (X : Chem κ ε) (δ : ε → ℚ) (opens : List ε) (c : κ) : ℚ :=
  carried X (fun s => if s ∈ opens then 0 else δ s) c

theorem moved_fst (δ : ε → ℚ) (mu : List (ε × ℚ)) : (moved δ mu).map Prod.fst = mu.map Prod.fst := by
  simp [moved]

/-- What remains of the change of a phase when the potentials follow the references. -/
theorem carried_split (X : Chem κ ε) (hX : X.Lawful) (δ : ε → ℚ) (mu : List (ε × ℚ)) (hmu : (mu.map Prod.fst).Nodup) (c : κ) :
    carried X δ c - ((mu.map fun p => X.amt c p.1 * δ p.1).sum) = carriedClosed X δ (mu.map Prod.fst) c := by
  have h1 : (mu.map fun p => X.amt c p.1 * δ p.1).sum = carried X (fun s => if s ∈ mu.map Prod.fst then δ s else 0) c := by
    have hun : (X.elems c ∪ mu.map Prod.fst).Nodup := List.Nodup.union _ hmu
    have e1 := sum_elems X hX (fun s => if s ∈ mu.map Prod.fst then δ s else 0) c _ hun (fun s hs => List.mem_union_left hs _)
    unfold carried
    rw [e1]
    have e2 : (mu.map fun p => X.amt c p.1 * δ p.1) = (mu.map Prod.fst).map fun s => X.amt c s * δ s := by simp
    rw [e2]
    have e3 : ∀ l : List ε, l.Nodup → (l.map fun s => X.amt c s * (if s ∈ mu.map Prod.fst then δ s else 0)).sum
        = ((l.filter fun s => s ∈ mu.map Prod.fst).map fun s => X.amt c s * δ s).sum := by
      intro l _
      induction l with
      | nil => rfl
      | cons s l ih =>
        rw [List.map_cons, List.sum_cons, ih (by simp_all)]
        by_cases hs : s ∈ mu.map Prod.fst
        · rw [List.filter_cons_of_pos (by simpa using hs), if_pos hs]; simp
        · rw [List.filter_cons_of_neg (by simpa using hs), if_neg hs]; simp
    rw [e3 _ hun]
    refine (List.Perm.map _ ?_).sum_eq
    rw [List.perm_ext_iff_of_nodup hmu (hun.filter _)]
    intro s
    simp only [List.mem_filter, decide_eq_true_eq]
    exact ⟨fun h => ⟨List.mem_union_right _ h, h⟩, fun h => h.2⟩
  rw [h1, sub_eq_iff_eq_add]
  unfold carriedClosed carried
  rw [← List.sum_map_add]
  congr 1
  apply List.map_congr_left
  intro s _
  dsimp only
  split_ifs <;> ring

theorem carriedClosed_pure (X : Chem κ ε) (δ : ε → ℚ) (opens : List ε) (c : κ) (h : PureOpen X opens c) : carriedClosed X δ opens c = 0 := by
  obtain ⟨el, hel, he⟩ := h
  simp [carriedClosed, carried, he, hel]

/-- If the chemical potentials of the open elements are measured against the moved references too, the energy of an open reaction changes by the
references of the closed elements times what the reaction does not conserve of them — and by the references of the open elements times the amounts
in phases that consist of one open element, because such phases are not counted against the potential. -/
theorem C141_open (X : Chem κ ε) (hX : X.Lawful) (δ : ε → ℚ) (entries entries' : List (Entry κ)) (coeffs : List ℚ) (mu : List (ε × ℚ))
    (hmu : (mu.map Prod.fst).Nodup) (data data' : List (String × ℚ)) (lne lne' : Option ℕ)
    [DecidablePred (PureOpen X (mu.map Prod.fst))] (h : List.Forall₂ (Rereferenced X δ) entries entries') :
    let comps := entries.map fun e => X.red e.comp
    oenergy X (oinit X entries' coeffs (moved δ mu) data' lne')
      = (oenergy X (oinit X entries coeffs mu data lne)).map fun E =>
          E + ((elements X comps).map fun s => (if s ∈ mu.map Prod.fst then 0 else δ s) * net X comps coeffs s).sum
            + (((comps.zip coeffs).filter fun p => PureOpen X (mu.map Prod.fst) p.1).map fun p => p.2 * carried X δ p.1).sum := by
  intro comps
  classical
  let d : κ → ℚ := fun c => carriedClosed X δ (mu.map Prod.fst) c + if PureOpen X (mu.map Prod.fst) c then carried X δ c else 0
  have hd : ∀ c, shift X (moved δ mu) c = shift X mu c + carried X δ c - d c := by
    intro c
    unfold shift
    rw [moved_fst]
    by_cases hp : PureOpen X (mu.map Prod.fst) c
    · simp only [d, if_pos hp, carriedClosed_pure X δ _ c hp]; ring
    · simp only [d, if_neg hp]
      rw [← carried_split X hX δ mu hmu c]
      have : ((moved δ mu).map fun p => X.amt c p.1 * p.2).sum
          = (mu.map fun p => X.amt c p.1 * p.2).sum + (mu.map fun p => X.amt c p.1 * δ p.1).sum := by
        unfold moved
        rw [List.map_map, ← List.sum_map_add]
        congr 1
        apply List.map_congr_left
        intro p _
        show X.amt c p.1 * (p.2 + δ p.1) = _
        ring
      rw [this]; ring
  have := sumEnergies_moved X (grandEnergy X mu) (grandEnergy X (moved δ mu)) d (l := entries) (l' := entries')
    (h.imp fun e e' hh => ⟨hh.phase, by rw [grandEnergy_eq X hX, grandEnergy_eq X hX, hh.phase, hh.energy, hd]; ring⟩) coeffs
  have hsum : (((entries.map fun e => X.red e.comp).zip coeffs).map fun p => p.2 * d p.1).sum
      = ((elements X comps).map fun s => (if s ∈ mu.map Prod.fst then 0 else δ s) * net X comps coeffs s).sum
        + (((comps.zip coeffs).filter fun p => PureOpen X (mu.map Prod.fst) p.1).map fun p => p.2 * carried X δ p.1).sum := by
    rw [← net_sum X hX]
    show ((comps.zip coeffs).map fun p => p.2 * d p.1).sum = _
    generalize comps.zip coeffs = z
    induction z with
    | nil => simp
    | cons p z ih =>
      rw [List.map_cons, List.sum_cons, ih, List.map_cons, List.sum_cons]
      by_cases hp : PureOpen X (mu.map Prod.fst) p.1
      · rw [List.filter_cons_of_pos (by simpa using hp), List.map_cons, List.sum_cons]
        simp only [d, if_pos hp, carriedClosed]
        ring
      · rw [List.filter_cons_of_neg (by simpa using hp)]
        simp only [d, if_neg hp, carriedClosed]
        ring
  rw [hsum] at this
  refine Eq.trans this ?_
  show Except.map _ _ = Except.map _ _
  congr 1
  funext E
  ring

/-- So energy and energy per atom of an open reaction do not depend on the references if it conserves the closed elements and no phase of it
consists of one open element. -/
theorem C141_open_partial (X : Chem κ ε) (hX : X.Lawful) (δ : ε → ℚ) (entries entries' : List (Entry κ)) (coeffs : List ℚ) (mu : List (ε × ℚ))
    (hmu : (mu.map Prod.fst).Nodup) (data : List (String × ℚ)) (lne : Option ℕ) (h : List.Forall₂ (Rereferenced X δ) entries entries')
    (hc : ∀ s ∉ mu.map Prod.fst, net X (entries.map fun e => X.red e.comp) coeffs s = 0)
    (hp : ∀ e ∈ entries, ¬ PureOpen X (mu.map Prod.fst) (X.red e.comp)) :
    oenergy X (oinit X entries' coeffs (moved δ mu) data lne) = oenergy X (oinit X entries coeffs mu data lne) ∧
    oenergyPerAtom X (oinit X entries' coeffs (moved δ mu) data lne) = oenergyPerAtom X (oinit X entries coeffs mu data lne) := by
  classical
  have he : oenergy X (oinit X entries' coeffs (moved δ mu) data lne) = oenergy X (oinit X entries coeffs mu data lne) := by
    rw [C141_open X hX δ entries entries' coeffs mu hmu data data lne lne h]
    have h1 : ∀ s, (if s ∈ mu.map Prod.fst then 0 else δ s) * net X (entries.map fun e => X.red e.comp) coeffs s = 0 := by
      intro s
      by_cases hs : s ∈ mu.map Prod.fst
      · rw [if_pos hs, zero_mul]
      · rw [hc s hs, mul_zero]
    have h2 : (((entries.map fun e => X.red e.comp).zip coeffs).filter fun p => PureOpen X (mu.map Prod.fst) p.1) = [] := by
      rw [List.filter_eq_nil_iff]
      intro p hpz
      obtain ⟨e, he, hq⟩ := List.mem_map.mp (List.of_mem_zip hpz).1
      rw [← hq]
      simpa using hp e he
    simp only [h1, h2, List.map_const', List.sum_replicate, smul_zero, add_zero, List.map_nil, List.sum_nil]
    cases oenergy X (oinit X entries coeffs mu data lne) <;> rfl
  refine ⟨he, ?_⟩
  have hb : (oinit X entries' coeffs (moved δ mu) data lne).base = (oinit X entries coeffs mu data lne).base := by
    show init X _ coeffs none data lne = init X _ coeffs none data lne
    rw [comps_same X (fun _ _ hh => hh.phase) h]
  have ho : oelements X (oinit X entries' coeffs (moved δ mu) data lne) = oelements X (oinit X entries coeffs mu data lne) := by
    unfold oelements
    rw [hb]
    show (elements X _).filter (fun e => e ∉ (moved δ mu).map Prod.fst) = (elements X _).filter (fun e => e ∉ mu.map Prod.fst)
    rw [moved_fst]
  unfold oenergyPerAtom
  rw [he, hb, ho]

/-! ### Examples and limits -/

/-- The references of the elements moved by 1, 10 and 100. -/
def exδ : Fin 3 → ℚ := ![1, 10, 100]

/-- `2 A + 2 B -> 2 AB` with formation energies, and with absolute energies; `AB` is taken from a cell of two formula units. -/
def exEnts : List (Entry TComp) := [⟨A, 0⟩, ⟨B2, 0⟩, ⟨AB, -3⟩]
def exEnts' : List (Entry TComp) := [⟨A2, 2⟩, ⟨B2, 20⟩, ⟨![2, 2, 0], 16⟩]

theorem ex_rereferenced : List.Forall₂ (Rereferenced toy exδ) exEnts exEnts' :=
  .cons ⟨by decide +kernel, by decide +kernel⟩ (.cons ⟨by decide +kernel, by decide +kernel⟩ (.cons ⟨by decide +kernel, by decide +kernel⟩ .nil))

example : Conserved toy (exEnts.map fun e => toy.red e.comp) [-2, -2, 2] ∧ (exEnts.map fun e => toy.red e.comp).Nodup ∧
    (cinit toy exEnts [-2, -2, 2] [] none).base.balanced = true ∧
    energy toy (cinit toy exEnts [-2, -2, 2] [] none) = .ok (-6) ∧ energy toy (cinit toy exEnts' [-2, -2, 2] [] none) = .ok (-6) ∧
    energyPerAtom toy (cinit toy exEnts' [-2, -2, 2] [] none) = .ok (-3/2) := by
  refine ⟨fun e => ?_, by decide +kernel, by decide +kernel, by decide +kernel, by decide +kernel, by decide +kernel⟩
  revert e
  decide +kernel

example : List.Forall₂ (fun a b : Eqn TComp => b.coeffs = a.coeffs ∧ List.Forall₂ (Rereferenced toy exδ) a.entries b.entries ∧
    Conserved toy (a.comps toy) a.coeffs) [⟨exEnts, [-2, -2, 2], rfl⟩] [⟨exEnts', [-2, -2, 2], rfl⟩] := by
  refine .cons ⟨rfl, ex_rereferenced, fun e => ?_⟩ .nil
  revert e
  decide +kernel

example : toy.elems AB ≠ [] ∧ toy.red (![2, 2, 0] : TComp) = toy.red AB ∧ ∀ s, toy.amt (![2, 2, 0] : TComp) s = 2 * toy.amt AB s := by
  decide +kernel

/-- An open reaction without such a phase, `A2B -> 2 A`, gives up one atom of the open element. -/
example : oenergy toy (oinit toy [⟨A2B, -5⟩, ⟨A, 0⟩] [-1, 2] [(1, -1)] [] none) = .ok 4 ∧
    oenergy toy (oinit toy [⟨A2B, 7⟩, ⟨A, 1⟩] [-1, 2] (moved exδ [(1, -1)]) [] none) = .ok 4 ∧
    (∀ s ∉ [(1 : Fin 3)], net toy [A2B, A] [-1, 2] s = 0) := by
  refine ⟨by decide +kernel, by decide +kernel, by decide +kernel⟩

/-- The references moved the other way. -/
def exγ : Fin 3 → ℚ := ![-1, -10, -100]

/-- Violated for reactions that name the open element as a phase: the same conserving reaction `A + B -> AB` with `B` open has another grand
potential change, even of the other sign, when the energies are absolute instead of formation energies, although the chemical potential
follows. -/
theorem C141_open_violated :
    ∃ entries entries' : List (Entry TComp), List.Forall₂ (Rereferenced toy exγ) entries entries' ∧
      Conserved toy (entries.map fun e => toy.red e.comp) [-1, -1, 1] ∧
      energy toy (cinit toy entries [-1, -1, 1] [] none) = .ok (-3) ∧ energy toy (cinit toy entries' [-1, -1, 1] [] none) = .ok (-3) ∧
      oenergy toy (oinit toy entries [-1, -1, 1] [(1, -1)] [] none) = .ok (-2) ∧
      oenergy toy (oinit toy entries' [-1, -1, 1] (moved exγ [(1, -1)]) [] none) = .ok 8 := by
  refine ⟨[⟨A, 0⟩, ⟨B1, 0⟩, ⟨AB, -3⟩], [⟨A, -1⟩, ⟨B1, -10⟩, ⟨AB, -14⟩],
    .cons ⟨by decide +kernel, by decide +kernel⟩ (.cons ⟨by decide +kernel, by decide +kernel⟩ (.cons ⟨by decide +kernel, by decide +kernel⟩ .nil)),
    fun e => ?_, by decide +kernel, by decide +kernel, by decide +kernel, by decide +kernel⟩
  revert e
  decide +kernel

/-- Violated in the last digits for reactions that are balanced within the tolerance only. -/
theorem C141_tolerance_violated :
    ∃ coeffs : List ℚ, (cinit toy exEnts coeffs [] none).base.balanced = true ∧
      energy toy (cinit toy exEnts coeffs [] none) = .ok (-3) ∧ energy toy (cinit toy exEnts' coeffs [] none) = .ok (-3 - 1/100000) := by
  exact ⟨[-1, -1 - 1/1000000, 1], by decide +kernel, by decide +kernel, by decide +kernel⟩

theorem ex_conserved : Conserved toy (exEnts.map fun e => toy.red e.comp) [-2, -2, 2] := by
  intro e
  revert e
  decide +kernel

example := C141_energy toy toy_lawful exδ exEnts exEnts' [-2, -1, 2] [] [] none none ex_rereferenced
example := (C141_conserving toy toy_lawful exδ exEnts exEnts' [-2, -2, 2] [] none ex_rereferenced).2 ex_conserved
example := C141_flagged toy toy_lawful exδ exEnts exEnts' [-2, -2, 2] [] none ex_rereferenced (by decide +kernel) (by decide +kernel)

end Verif.Props.Reference
