import Verif.Props.Reaction

/-! Properties C17 (what the reaction energy is) and C19 (open reactions: change in grand potential). -/

set_option linter.unusedSectionVars false

namespace Verif.Props.Reaction
open Verif.Py Verif.Model Verif.Model.Reaction Verif.Spec.Reaction Verif.Lemmas.Dict Verif.Lemmas.Reaction

variable {κ ε : Type} [DecidableEq κ] [DecidableEq ε]

/-- one step of the `calc_energies` loop -/
def cstep (X : Chem κ ε) (en : Entry κ → ℚ) (d : List (κ × ℚ)) (e : Entry κ) : List (κ × ℚ) :=
  dictSet d (X.red e.comp) (match dictGet d (X.red e.comp) with
      | none => en e / X.fac e.comp
      | some m => min m (en e / X.fac e.comp))

theorem calcEnergies_eq (X : Chem κ ε) (en : Entry κ → ℚ) (entries : List (Entry κ)) :
    calcEnergies X en entries = entries.foldl (cstep X en) [] := rfl

/-- Lookup in the energy table: the lowest energy per reduced formula unit among the entries with that composition. -/
theorem calc_spec (X : Chem κ ε) (en : Entry κ → ℚ) (entries : List (Entry κ)) (c : κ) :
    (dictGet (calcEnergies X en entries) c = none ↔ ∀ e ∈ entries, X.red e.comp ≠ c) ∧
    ∀ v, dictGet (calcEnergies X en entries) c = some v →
      (∃ e ∈ entries, X.red e.comp = c ∧ v = en e / X.fac e.comp) ∧
      (∀ e ∈ entries, X.red e.comp = c → v ≤ en e / X.fac e.comp) := by
  rw [calcEnergies_eq]
  induction entries using List.reverseRecOn with
  | nil => simp [dictGet]
  | append_singleton es e ih =>
    obtain ⟨ih1, ih2⟩ := ih
    rw [List.foldl_append, List.foldl_cons, List.foldl_nil]
    set d := es.foldl (cstep X en) [] with hd
    simp only [cstep, dictGet_dictSet]
    by_cases h : X.red e.comp = c
    · rw [if_pos h]
      subst h
      refine ⟨?_, ?_⟩
      · simp only [reduceCtorEq, false_iff, not_forall]
        exact ⟨e, by simp, by simp⟩
      · intro v hv
        cases hg : dictGet d (X.red e.comp) with
        | none =>
          rw [hg] at hv
          simp only [Option.some.injEq] at hv
          subst hv
          refine ⟨⟨e, by simp, rfl, rfl⟩, ?_⟩
          intro e' he' hr
          rcases List.mem_append.mp he' with h' | h'
          · exact absurd hr (ih1.mp hg e' h')
          · simp at h'; subst h'; exact le_refl _
        | some m =>
          rw [hg] at hv
          simp only [Option.some.injEq] at hv
          subst hv
          obtain ⟨⟨e0, he0, hr0, hm0⟩, hle⟩ := ih2 m hg
          refine ⟨?_, ?_⟩
          · rcases le_total m (en e / X.fac e.comp) with h' | h'
            · exact ⟨e0, by simp [he0], hr0, by rw [min_eq_left h', hm0]⟩
            · exact ⟨e, by simp, rfl, by rw [min_eq_right h']⟩
          · intro e' he' hr
            rcases List.mem_append.mp he' with h' | h'
            · exact (min_le_left _ _).trans (hle e' h' hr)
            · simp at h'; subst h'; exact min_le_right _ _
    · rw [if_neg h]
      refine ⟨?_, ?_⟩
      · rw [ih1]
        constructor
        · intro h1 e' he'
          rcases List.mem_append.mp he' with h' | h'
          · exact h1 e' h'
          · simp at h'; subst h'; exact h
        · intro h1 e' he'
          exact h1 e' (by simp [he'])
      · intro v hv
        obtain ⟨⟨e0, he0, hr0, hm0⟩, hle⟩ := ih2 v hv
        refine ⟨⟨e0, by simp [he0], hr0, hm0⟩, ?_⟩
        intro e' he' hr
        rcases List.mem_append.mp he' with h' | h'
        · exact hle e' h' hr
        · simp at h'; subst h'; exact absurd hr h

/-- sum of products over a table, when every lookup succeeds -/
theorem sumEnergies_eq (ce : List (κ × ℚ)) (comps : List κ) (coeffs : List ℚ) (g : κ → ℚ)
    (h : ∀ c ∈ comps, dictGet ce c = some (g c)) :
    sumEnergies ce comps coeffs = .ok ((comps.zip coeffs).map fun p => p.2 * g p.1).sum := by
  have key : (coeffs.zip comps).mapM (fun p => (dictGet ce p.2).map fun v => p.1 * v)
      = some ((comps.zip coeffs).map fun p => p.2 * g p.1) := by
    induction comps generalizing coeffs with
    | nil => cases coeffs <;> rfl
    | cons c cs ih =>
      cases coeffs with
      | nil => rfl
      | cons v vs =>
        simp only [List.zip_cons_cons, List.mapM_cons, ih vs (fun c hc => h c (List.mem_cons_of_mem _ hc)),
          h c List.mem_cons_self, Option.map_some, List.map_cons]
        rfl
  simp [sumEnergies, key]

/-- The energy of a computed reaction never fails, and equals the sum of coefficients times the lowest energy (per reduced
formula unit) available among its entries for that composition. -/
theorem C17_energy_formula (X : Chem κ ε) (entries : List (Entry κ)) (coeffs : List ℚ) (data : List (String × ℚ))
    (lne : Option ℕ) :
    ∃ g : κ → ℚ,
      energy X (cinit X entries coeffs data lne)
        = .ok (((entries.map fun e => X.red e.comp).zip coeffs).map fun p => p.2 * g p.1).sum ∧
      ∀ e ∈ entries, g (X.red e.comp) ≤ e.energy / X.fac e.comp ∧
        ∃ e' ∈ entries, X.red e'.comp = X.red e.comp ∧ g (X.red e.comp) = e'.energy / X.fac e'.comp := by
  have hs := calc_spec X Entry.energy entries
  refine ⟨fun c => (dictGet (calcEnergies X Entry.energy entries) c).getD 0, ?_, ?_⟩
  · refine sumEnergies_eq (calcEnergies X Entry.energy entries) (entries.map fun e => X.red e.comp) coeffs
      (fun c => (dictGet (calcEnergies X Entry.energy entries) c).getD 0) ?_
    intro c hc
    obtain ⟨e, he, rfl⟩ := List.mem_map.mp hc
    cases h : dictGet (calcEnergies X Entry.energy entries) (X.red e.comp) with
    | none => exact absurd rfl ((hs _).1.mp h e he)
    | some v => rfl
  · intro e he
    cases h : dictGet (calcEnergies X Entry.energy entries) (X.red e.comp) with
    | none => exact absurd rfl ((hs _).1.mp h e he)
    | some v =>
      obtain ⟨⟨e0, he0, hr0, hm0⟩, hle⟩ := (hs _).2 v h
      simp only [h, Option.getD_some]
      exact ⟨hle e he rfl, e0, he0, hr0, hm0⟩

example : ∃ g : TComp → ℚ,
    energy toy (cinit toy [⟨A, -1⟩, ⟨B1, -2⟩, ⟨AB, -5⟩, ⟨AB, -4⟩] [-2, -2, 1, 1] [] none)
      = .ok (([A, B1, AB, AB].zip [-2, -2, 1, 1]).map fun p => p.2 * g p.1).sum := by
  obtain ⟨g, h, -⟩ := C17_energy_formula toy [⟨A, -1⟩, ⟨B1, -2⟩, ⟨AB, -5⟩, ⟨AB, -4⟩] [-2, -2, 1, 1] [] none
  exact ⟨g, h.trans (by rw [show ([⟨A, -1⟩, ⟨B1, -2⟩, ⟨AB, -5⟩, ⟨AB, -4⟩] : List (Entry TComp)).map (fun e => toy.red e.comp)
    = [A, B1, AB, AB] by decide +kernel])⟩

/-- For entries with pairwise distinct reduced compositions this is the plain sum of coefficient times energy per reduced
formula unit. -/
theorem C17_energy_distinct (X : Chem κ ε) (entries : List (Entry κ)) (coeffs : List ℚ) (data : List (String × ℚ))
    (lne : Option ℕ) (hn : (entries.map fun e => X.red e.comp).Nodup) :
    energy X (cinit X entries coeffs data lne)
      = .ok ((entries.zip coeffs).map fun p => p.2 * (p.1.energy / X.fac p.1.comp)).sum := by
  obtain ⟨g, h1, h2⟩ := C17_energy_formula X entries coeffs data lne
  rw [h1]
  congr 2
  rw [List.zip_map_left, List.map_map]
  apply List.map_congr_left
  intro p hp
  have hm := (List.of_mem_zip (a := p.1) (b := p.2) hp).1
  obtain ⟨_, e', he', hr, hg⟩ := h2 p.1 hm
  have : e' = p.1 := List.inj_on_of_nodup_map hn he' hm hr
  subst this
  simp only [Function.comp, Prod.map]
  rw [hg]
  rfl

example : energy toy (cinit toy exEntries [-2, -2, 2] [] none) = .ok (-2) :=
  (C17_energy_distinct toy exEntries [-2, -2, 2] [] none (by decide +kernel)).trans (by decide +kernel)

/-- amount to subtract per reduced formula unit for an open reaction -/
noncomputable def shift (X : Chem κ ε) (mu : List (ε × ℚ)) (c : κ) : ℚ :=
  open Classical in
  if PureOpen X (mu.map Prod.fst) c then 0 else (mu.map fun p => X.amt c p.1 * p.2).sum

theorem grandEnergy_eq (X : Chem κ ε) (hX : X.Lawful) (mu : List (ε × ℚ)) (e : Entry κ) :
    grandEnergy X mu e / X.fac e.comp = e.energy / X.fac e.comp - shift X mu (X.red e.comp) := by
  have hf := (hX.fac_pos e.comp).ne'
  have hsum : (mu.map fun p => X.amt e.comp p.1 * p.2).sum / X.fac e.comp = (mu.map fun p => X.amt (X.red e.comp) p.1 * p.2).sum := by
    rw [div_eq_iff hf, ← List.sum_map_mul_right]
    congr 1
    apply List.map_congr_left
    intro p _
    rw [hX.red_amt e.comp p.1]
    ring
  have hnot : ¬ PureOpen X (mu.map Prod.fst) (X.red e.comp) →
      (e.energy - (mu.map fun p => X.amt e.comp p.1 * p.2).sum) / X.fac e.comp
        = e.energy / X.fac e.comp - shift X mu (X.red e.comp) := by
    intro h
    unfold shift
    rw [if_neg h, sub_div, hsum]
  unfold grandEnergy
  split
  · rename_i el hel
    by_cases h : el ∈ mu.map Prod.fst
    · rw [if_pos h]
      unfold shift
      rw [if_pos ⟨el, h, hel⟩, sub_zero]
    · rw [if_neg h]
      apply hnot
      rintro ⟨el', h', he'⟩
      rw [hel] at he'
      simp at he'
      exact h (he' ▸ h')
  · rename_i hne
    apply hnot
    rintro ⟨el', _, he'⟩
    exact hne el' he'

/-- Energy of an open reaction: the closed reaction energy, minus for every open element its chemical potential times the net
change of its amount over the phases that are not that pure open element. -/
theorem C19_grand_potential (X : Chem κ ε) (hX : X.Lawful) (entries : List (Entry κ)) (coeffs : List ℚ) (mu : List (ε × ℚ))
    (data : List (String × ℚ)) (lne : Option ℕ) [DecidablePred (PureOpen X (mu.map Prod.fst))] :
    let comps := entries.map fun e => X.red e.comp
    oenergy X (oinit X entries coeffs mu data lne)
      = (energy X (cinit X entries coeffs data lne)).map fun E =>
          E - (mu.map fun m => m.2 *
            (((comps.zip coeffs).filter fun p => ¬ PureOpen X (mu.map Prod.fst) p.1).map fun p => p.2 * X.amt p.1 m.1).sum).sum := by
  intro comps
  -- the open table is the closed table shifted by a constant per composition
  have hget : ∀ c ∈ comps, ∃ v, dictGet (calcEnergies X Entry.energy entries) c = some v ∧
      dictGet (calcEnergies X (grandEnergy X mu) entries) c = some (v - shift X mu c) := by
    intro c hc
    obtain ⟨e, he, rfl⟩ := List.mem_map.mp hc
    have hs := calc_spec X Entry.energy entries (X.red e.comp)
    have hs' := calc_spec X (grandEnergy X mu) entries (X.red e.comp)
    cases h : dictGet (calcEnergies X Entry.energy entries) (X.red e.comp) with
    | none => exact absurd rfl (hs.1.mp h e he)
    | some v =>
      cases h' : dictGet (calcEnergies X (grandEnergy X mu) entries) (X.red e.comp) with
      | none => exact absurd rfl (hs'.1.mp h' e he)
      | some v' =>
        refine ⟨v, rfl, ?_⟩
        obtain ⟨⟨e0, he0, hr0, hm0⟩, hle⟩ := hs.2 v h
        obtain ⟨⟨e1, he1, hr1, hm1⟩, hle1⟩ := hs'.2 v' h'
        have a1 := hle e1 he1 hr1
        have a2 := hle1 e0 he0 hr0
        rw [grandEnergy_eq X hX, hr0] at a2
        rw [grandEnergy_eq X hX, hr1] at hm1
        congr 1
        linarith
  have h1 : energy X (cinit X entries coeffs data lne) = .ok ((comps.zip coeffs).map fun p =>
      p.2 * (dictGet (calcEnergies X Entry.energy entries) p.1).getD 0).sum := by
    refine sumEnergies_eq (calcEnergies X Entry.energy entries) comps coeffs
      (fun c => (dictGet (calcEnergies X Entry.energy entries) c).getD 0) ?_
    intro c hc
    obtain ⟨v, hv, _⟩ := hget c hc
    rw [hv]; rfl
  have h2 : oenergy X (oinit X entries coeffs mu data lne) = .ok ((comps.zip coeffs).map fun p =>
      p.2 * ((dictGet (calcEnergies X Entry.energy entries) p.1).getD 0 - shift X mu p.1)).sum := by
    refine sumEnergies_eq (calcEnergies X (grandEnergy X mu) entries) comps coeffs
      (fun c => (dictGet (calcEnergies X Entry.energy entries) c).getD 0 - shift X mu c) ?_
    intro c hc
    obtain ⟨v, hv, hv'⟩ := hget c hc
    rw [hv]; exact hv'
  rw [h1, h2]
  simp only [Except.map]
  congr 1
  have h3 : ((comps.zip coeffs).map fun p => p.2 * ((dictGet (calcEnergies X Entry.energy entries) p.1).getD 0 - shift X mu p.1)).sum
      = ((comps.zip coeffs).map fun p => p.2 * (dictGet (calcEnergies X Entry.energy entries) p.1).getD 0).sum
        - ((comps.zip coeffs).map fun p => p.2 * shift X mu p.1).sum := by
    generalize comps.zip coeffs = l
    induction l with
    | nil => simp
    | cons p l ih => simp only [List.map_cons, List.sum_cons, ih]; ring
  rw [h3]
  congr 1
  -- exchange the two sums
  generalize comps.zip coeffs = l
  induction l with
  | nil => simp
  | cons p l ih =>
    simp only [List.map_cons, List.sum_cons, ih]
    by_cases hp : PureOpen X (mu.map Prod.fst) p.1
    · have : shift X mu p.1 = 0 := by unfold shift; rw [if_pos hp]
      rw [this, List.filter_cons_of_neg (by simpa using hp)]
      ring
    · have : shift X mu p.1 = (mu.map fun m => X.amt p.1 m.1 * m.2).sum := by unfold shift; rw [if_neg hp]
      rw [this, List.filter_cons_of_pos (by simpa using hp)]
      simp only [List.map_cons, List.sum_cons, mul_add]
      rw [List.sum_map_add, ← List.sum_map_mul_left]
      congr 2
      apply List.map_congr_left
      intro m _
      ring

/-- Consequence: with the entries fixed, raising the chemical potential of one open element by `δ` lowers the energy by `δ`
times the net amount of that element taken up by the phases other than the pure element. -/
theorem C19_affine (X : Chem κ ε) (hX : X.Lawful) (entries : List (Entry κ)) (coeffs : List ℚ) (el : ε) (m δ : ℚ)
    (data : List (String × ℚ)) (lne : Option ℕ) [DecidablePred (PureOpen X [el])] :
    oenergy X (oinit X entries coeffs [(el, m + δ)] data lne)
      = (oenergy X (oinit X entries coeffs [(el, m)] data lne)).map fun E =>
          E - δ * ((((entries.map fun e => X.red e.comp).zip coeffs).filter fun p => ¬ PureOpen X [el] p.1).map
            fun p => p.2 * X.amt p.1 el).sum := by
  have i1 : DecidablePred (PureOpen X (([(el, m + δ)] : List (ε × ℚ)).map Prod.fst)) := ‹DecidablePred (PureOpen X [el])›
  have i2 : DecidablePred (PureOpen X (([(el, m)] : List (ε × ℚ)).map Prod.fst)) := ‹DecidablePred (PureOpen X [el])›
  have h1 := C19_grand_potential X hX entries coeffs [(el, m + δ)] data lne
  have h2 := C19_grand_potential X hX entries coeffs [(el, m)] data lne
  simp only at h1 h2
  rw [h1, h2]
  cases energy X (cinit X entries coeffs data lne) with
  | error e => rfl
  | ok E =>
    simp only [Except.map, List.map_cons, List.map_nil, List.sum_cons, List.sum_nil, add_zero, Except.ok.injEq]
    ring_nf

/-- `A + B1 -> AB` with B open at `mu = -3`: closed energy -2, the phase AB takes up one B, so -2 + 3 = 1. -/
example : oenergy toy (oinit toy [⟨A, -1⟩, ⟨B2, -4⟩, ⟨AB, -5⟩] [-1, -1, 1] [(1, -3)] [] (some 0)) = .ok 1 := by decide +kernel
example : energy toy (cinit toy [⟨A, -1⟩, ⟨B2, -4⟩, ⟨AB, -5⟩] [-1, -1, 1] [] (some 0)) = .ok (-2) := by decide +kernel
/-- polymorphs: the lower of two entries of the same composition is used for both -/
example : energy toy (cinit toy [⟨A, -1⟩, ⟨B1, -2⟩, ⟨AB, -5⟩, ⟨AB, -4⟩] [-2, -2, 1, 1] [] (some 0)) = .ok (-4) := by decide +kernel

end Verif.Props.Reaction
