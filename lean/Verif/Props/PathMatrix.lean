import Verif.Model.PathMatrix
import Verif.Lemmas.Except
import Verif.Lemmas.Dict
import Verif.Props.Reaction
import Mathlib.Tactic.Linarith

/-! C119: coefficient matrix and vectors of a balanced pathway. -/

set_option linter.unusedSectionVars false

namespace Verif.Props.PathMatrix
open Verif.Py Verif.Model Verif.Model.Reaction Verif.Model.PathMatrix Verif.Lemmas Verif.Lemmas.Exc

variable {κ : Type} [DecidableEq κ]

/-! ### Specification -/

/-- The amount of a phase formed (negative: consumed) by a reaction. -/
def stoich (r : Rxn κ) (c : κ) : ℚ := (((r.comps.zip r.coeffs).filter fun p => decide (p.1 = c)).map Prod.snd).sum

/-- A reaction with one coefficient for each of its different phases. -/
def Plain (r : Rxn κ) : Prop := r.comps.Nodup ∧ r.comps.length = r.coeffs.length

/-- The pathway, each reaction taken as often as its multiplicity says, amounts to the net reaction. -/
def SumsTo (rs : List (Rxn κ)) (ms : List ℚ) (net : Rxn κ) : Prop := ∀ c, ((rs.zip ms).map fun p => p.2 * stoich p.1 c).sum = stoich net c

/-! ### Vectors -/

theorem component_eq (comps : List κ) (coeffs : List ℚ) (hn : comps.Nodup) (hl : comps.length = coeffs.length) (c : κ) (hc : c ∈ comps) :
    ∃ i, (comps.findIdx? fun x => decide (x = c)) = some i ∧
      coeffs[i]? = some (((comps.zip coeffs).filter fun p => decide (p.1 = c)).map Prod.snd).sum := by
  induction comps generalizing coeffs with
  | nil => cases hc
  | cons a comps ih =>
    cases coeffs with
    | nil => simp at hl
    | cons q coeffs =>
      obtain ⟨h1, h2⟩ := List.nodup_cons.mp hn
      by_cases hac : a = c
      · subst hac
        refine ⟨0, by simp [List.findIdx?_cons], ?_⟩
        have : ((comps.zip coeffs).filter fun p => decide (p.1 = a)) = [] := by
          rw [List.filter_eq_nil_iff]
          intro p hp h
          have h := of_decide_eq_true h
          subst h
          exact h1 (List.of_mem_zip (a := p.1) (b := p.2) hp).1
        simp [this]
      · obtain ⟨i, hi, hv⟩ := ih coeffs h2 (by simpa using hl) (by rcases List.mem_cons.mp hc with rfl | h; exacts [absurd rfl hac, h])
        refine ⟨i + 1, ?_, ?_⟩
        · rw [List.findIdx?_cons]
          simp [hac, hi]
        · simp [hac, hv]

theorem stoich_absent (r : Rxn κ) (c : κ) (hc : c ∉ r.comps) : stoich r c = 0 := by
  unfold stoich
  have : ((r.comps.zip r.coeffs).filter fun p => decide (p.1 = c)) = [] := by
    rw [List.filter_eq_nil_iff]
    intro p hp h
    have h := of_decide_eq_true h
    subst h
    exact hc (List.of_mem_zip (a := p.1) (b := p.2) hp).1
  rw [this]
  rfl

theorem component_ok (r : Rxn κ) (hr : Plain r) (c : κ) : component r c = .ok (stoich r c) := by
  unfold component
  split_ifs with hc
  · obtain ⟨i, hi, hv⟩ := component_eq r.comps r.coeffs hr.1 hr.2 c hc
    simp [getCoeff, hi, hv, stoich]
  · rw [stoich_absent r c hc]

/-- **C119, vectors.** For a reaction with different phases, the vector has one component per phase, the amount of that phase in the reaction and zero if it takes
no part. -/
theorem C119_vector (r : Rxn κ) (hr : Plain r) (phases : List κ) : coeffVector phases r = .ok (phases.map (stoich r)) :=
  mapM_eq_map _ _ _ fun c _ => component_ok r hr c

/-- A phase that no reaction of the pathway consumes or forms has amount zero in each of them. -/
theorem outside (rs : List (Rxn κ)) (r : Rxn κ) (hr : r ∈ rs) (c : κ) (hc : c ∉ phaseSet rs) : stoich r c = 0 := by
  unfold stoich
  have : ∀ p ∈ (r.comps.zip r.coeffs).filter fun p => decide (p.1 = c), p.2 = 0 := by
    intro p hp
    obtain ⟨h1, h2⟩ := List.mem_filter.mp hp
    have h2 := of_decide_eq_true h2
    by_contra h0
    apply hc
    unfold phaseSet
    rw [Finset.mem_union, List.mem_toFinset, List.mem_toFinset, List.mem_flatMap, List.mem_flatMap]
    rcases lt_or_gt_of_ne h0 with h | h
    · refine Or.inl ⟨r, hr, ?_⟩
      refine (Dict.mem_keys_dictOf _ _).mpr (List.mem_map.mpr ⟨p, List.mem_filter.mpr ⟨h1, decide_eq_true h⟩, h2⟩)
    · refine Or.inr ⟨r, hr, ?_⟩
      refine (Dict.mem_keys_dictOf _ _).mpr (List.mem_map.mpr ⟨p, List.mem_filter.mpr ⟨h1, decide_eq_true h⟩, h2⟩)
  rw [List.sum_eq_zero]
  intro x hx
  obtain ⟨p, hp, rfl⟩ := List.mem_map.mp hx
  exact this p hp

/-- **C119, balancing.** Multiplicities balance the pathway to the net reaction exactly when they solve the linear system of the vectors, one equation per phase of
the pathway, and the net reaction involves no other phase. (The system is built from the vectors, since the matrix cannot be computed.) -/
theorem C119_balance_partial (rs : List (Rxn κ)) (hrs : ∀ r ∈ rs, Plain r) (net : Rxn κ) (hnet : Plain net) (ms : List ℚ)
    (phases : List κ) (hp : ∀ c, c ∈ phases ↔ c ∈ phaseSet rs) :
    ∃ rows v, rs.mapM (coeffVector phases) = .ok rows ∧ coeffVector phases net = .ok v ∧ v.length = phases.length ∧
      rows.length = rs.length ∧
      (SumsTo rs ms net ↔ (∀ j < phases.length, ((rows.zip ms).map fun p => p.2 * p.1.getD j 0).sum = v.getD j 0) ∧
        ∀ c ∉ phases, stoich net c = 0) := by
  refine ⟨rs.map fun r => phases.map (stoich r), phases.map (stoich net),
    mapM_eq_map _ _ _ fun r hr => C119_vector r (hrs r hr) phases, C119_vector net hnet phases, by simp, by simp, ?_⟩
  have hz : ∀ j (hj : j < phases.length), (((rs.map fun r => phases.map (stoich r)).zip ms).map fun p => p.2 * p.1.getD j 0).sum
      = ((rs.zip ms).map fun p => p.2 * stoich p.1 phases[j]).sum := by
    intro j hj
    rw [List.zip_map_left, List.map_map]
    refine congrArg List.sum (List.map_congr_left fun p _ => ?_)
    simp [hj]
  constructor
  · intro h
    refine ⟨fun j hj => ?_, fun c hc => ?_⟩
    · rw [hz j hj, h phases[j]]
      simp [hj]
    · rw [← h c, List.sum_eq_zero]
      intro x hx
      obtain ⟨p, hpm, rfl⟩ := List.mem_map.mp hx
      rw [outside rs p.1 (List.of_mem_zip (a := p.1) (b := p.2) hpm).1 c (fun hh => hc ((hp c).mpr hh)), mul_zero]
  · rintro ⟨h1, h2⟩ c
    by_cases hc : c ∈ phases
    · obtain ⟨j, hj, rfl⟩ := List.getElem_of_mem hc
      rw [← hz j hj, h1 j hj]
      simp [hj]
    · rw [h2 c hc, List.sum_eq_zero]
      intro x hx
      obtain ⟨p, hpm, rfl⟩ := List.mem_map.mp hx
      rw [outside rs p.1 (List.of_mem_zip (a := p.1) (b := p.2) hpm).1 c (fun hh => hc ((hp c).mpr hh)), mul_zero]

/-- **C119 (violated).** The matrix can be computed for no pathway that has a reaction and a phase. -/
theorem C119_matrix_violated (phases : List κ) (rs : List (Rxn κ)) (hp : phases ≠ []) (hr : rs ≠ []) :
    compMatrix phases rs = .error .attributeError := by
  cases rs with
  | nil => exact absurd rfl hr
  | cons r rs =>
    cases phases with
    | nil => exact absurd rfl hp
    | cons c phases =>
      unfold compMatrix
      rw [mapM_cons, mapM_cons]
      rfl

section examples
open Verif.Props.Reaction (A B1 AB A2B)

def exA : Rxn TComp := init toy [A, B1, A2B] [-2, -1, 1] none [] none
def exB : Rxn TComp := init toy [A2B, A, AB] [-1, 1, 1] none [] none
def exNet : Rxn TComp := init toy [A, B1, AB] [-1, -1, 1] none [] none

/-- Example for `C119_vector` and `C119_balance_partial`: the pathway has the phases listed, and both reactions once give the net reaction. -/
example : Plain exA ∧ Plain exB ∧ Plain exNet ∧ phaseSet [exA, exB] = [A, B1, AB, A2B].toFinset ∧
    coeffVector [A, B1, AB, A2B] exA = .ok [-2, -1, 0, 1] ∧ coeffVector [A, B1, AB, A2B] exB = .ok [1, 0, 1, -1] ∧
    coeffVector [A, B1, AB, A2B] exNet = .ok [-1, -1, 1, 0] := by
  unfold Plain
  decide +kernel

example : SumsTo [exA, exB] [1, 1] exNet := by
  obtain ⟨rows, v, h1, h2, -, -, h⟩ := C119_balance_partial [exA, exB] (by unfold Plain; decide +kernel) exNet (by unfold Plain; decide +kernel) [1, 1]
    [A, B1, AB, A2B] (by
      have : phaseSet [exA, exB] = [A, B1, AB, A2B].toFinset := by decide +kernel
      intro c
      rw [this, List.mem_toFinset])
  have e1 : [exA, exB].mapM (coeffVector [A, B1, AB, A2B]) = .ok [[-2, -1, 0, 1], [1, 0, 1, -1]] := by decide +kernel
  have e2 : coeffVector [A, B1, AB, A2B] exNet = .ok [-1, -1, 1, 0] := by decide +kernel
  rw [e1] at h1
  rw [e2] at h2
  have h1 := Except.ok.inj h1
  have h2 := Except.ok.inj h2
  subst h1
  subst h2
  refine h.mpr ⟨by decide +kernel, fun c hc => stoich_absent _ _ fun hh => hc ?_⟩
  have : ∀ c ∈ exNet.comps, c ∈ [A, B1, AB, A2B] := by decide +kernel
  exact this c hh

/-- **C119 (violated).** A phase that occurs twice in a reaction, e.g. as two polymorphs, counts with its first coefficient only. -/
theorem C119_twice_violated : ∃ r : Rxn TComp, coeffVector [A, AB] r = .ok [-1, 1] ∧ stoich r A = -3 := by
  refine ⟨init toy [A, A, AB] [-1, -2, 1] none [] none, ?_, ?_⟩ <;> decide +kernel

end examples

example := Verif.Props.PathMatrix.C119_vector exB (by unfold Plain; decide +kernel) [Reaction.A, Reaction.AB, Reaction.C1]

end Verif.Props.PathMatrix
