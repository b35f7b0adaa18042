import Verif.Lemmas.HullTree
import Verif.Lemmas.Combinations

namespace Verif.Lemmas.Hull
open Verif.Py Verif.Model.Hull Verif.Spec.Hull Finset Verif.Lemmas

theorem altitudeMultiplicity_eq (a b n : ℕ) (h : a + b + 1 ≤ n) :
    altitudeMultiplicity a b n = some (catalan a * catalan b * catalan (n - a - b - 1)) := by
  unfold altitudeMultiplicity
  have e : (n : ℤ) - a - b - 1 = ((n - a - b - 1 : ℕ) : ℤ) := by omega
  simp only [e, count_eq]
  simp

theorem decompositionEnergyWith_eq {γ : Type} (alt : γ → γ → γ → ℚ) (pt : ℕ → γ) (n : ℕ) :
    decompositionEnergyWith alt ((List.range (n + 2)).map pt)
      = some (totalTreeEnergy (fun i j k => alt (pt i) (pt j) (pt k)) 0 n) := by
  unfold decompositionEnergyWith
  simp only [List.length_map, List.length_range]
  rw [foldlM_sum (f := fun c => match c with
    | [i, j, k] => (catalan (j - i - 1) * catalan (k - j - 1) * catalan (n + i + 1 - k) : ℚ)
        * alt (pt i) (pt j) (pt k)
    | _ => 0)]
  · rw [List.range_eq_range', sum_comb3, total_eq_triples]
    simp
  · intro c hc acc
    obtain ⟨i, j, k, rfl, hij, hjk, hk⟩ := mem_comb3_range hc
    have g : ∀ t, t < n + 2 → ((List.range (n + 2)).map pt)[t]? = some (pt t) := by
      intro t ht; simp [List.getElem?_range ht]
    simp only [g i (by omega), g j (by omega), g k hk, Option.bind_eq_bind, Option.bind_some]
    have e1 : (j : ℤ) - i - 1 = ((j - i - 1 : ℕ) : ℤ) := by omega
    have e2 : (k : ℤ) - j - 1 = ((k - j - 1 : ℕ) : ℤ) := by omega
    have e3 : ((n + 2 : ℕ) : ℤ) - 2 = (n : ℤ) := by omega
    rw [e1, e2, e3, altitudeMultiplicity_eq _ _ _ (by omega), Option.bind_some]
    rw [show n - (j - i - 1) - (k - j - 1) - 1 = n + i + 1 - k by omega]
    push_cast
    rfl

theorem decompositionEnergyWith_short {γ : Type} (alt : γ → γ → γ → ℚ) (coords : List γ) (h : coords.length ≤ 2) :
    decompositionEnergyWith alt coords = some 0 := by
  unfold decompositionEnergyWith
  have : combinations (List.range coords.length) 3 = [] := by
    rw [← List.length_eq_zero_iff, length_combinations, List.length_range]
    exact Nat.choose_eq_zero_of_lt (by omega)
  simp [this]

end Verif.Lemmas.Hull
