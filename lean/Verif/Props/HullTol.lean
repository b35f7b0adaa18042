import Verif.Props.HullMirror

/-!
C03 and C07 within the tolerance of `np.isclose` (src/rxn_network/reactions/hull.py:101-113): the vertex lookup takes the first vertex that is
close, also for a reaction at another coordinate. Why the claims exclude such reactions.
-/

namespace Verif.Props.HullTol
open Verif.Model Verif.Model.Hull Verif.Spec.Hull Verif.Props.HullMirror

def tolC : IRH := ⟨[(0, 0), (1/4, -1), (1/4 + 1/10^6, -1 - 3/10^6), (1, 0)], List.range 4⟩

/-- **C07, tolerance.** Two corners of the hull closer than the tolerance of `np.isclose`: the second is stable, but its energy above the hull is
not zero and negative. -/
theorem C07_tolerance_violated :
    ∃ (P : List (ℚ × ℚ)) (h : IRH), IsHullOf P h ∧ 2 ∈ hullVertices h ∧ getEnergyAboveHull h 2 = some (-3/10^6) := by
  refine ⟨[(1/4, -1), (1/4 + 1/10^6, -1 - 3/10^6)], tolC, ⟨by decide +kernel, by decide +kernel, indices_of_corners (pts := tolC.coords) (by decide +kernel) ?_⟩,
    by decide +kernel, by decide +kernel⟩
  intro p hp
  have hp : p ∈ [((0 : ℚ), (0 : ℚ)), (1/4, -1), (1/4 + 1/10^6, -1 - 3/10^6), (1, 0)] := hp
  simp only [List.mem_cons, List.not_mem_nil, or_false] at hp
  rcases hp with rfl | rfl | rfl | rfl
  · exact ⟨-1, 0, by decide +kernel⟩
  · exact ⟨-7/2, -1, by decide +kernel⟩
  · exact ⟨0, -1, by decide +kernel⟩
  · exact ⟨1, 0, by decide +kernel⟩

def tolD : IRH := ⟨[(0, 0), (9/10, -1), (9/10 + 1/10^6, -1 + 9/10^6), (92/100, -8/10 - 1/10^6), (1, 0)], List.range 5⟩

/-- **C03, tolerance.** A corner of the hull within the tolerance of another one: the search for competing decompositions starts at the energy
of the other one, and the secondary competition is negative. -/
theorem C03_tolerance_violated :
    ∃ (P : List (ℚ × ℚ)) (h : IRH) (v : ℚ), IsHullOf P h ∧ 2 ∈ hullVertices h ∧ getSecondaryCompetition h 2 true false = some v ∧ v < 0 := by
  refine ⟨[(9/10, -1), (9/10 + 1/10^6, -1 + 9/10^6), (92/100, -8/10 - 1/10^6)], tolD, -530002600001 / 89999199999000000,
    ⟨by decide +kernel, by decide +kernel, indices_of_corners (pts := tolD.coords) (by decide +kernel) ?_⟩, by decide +kernel, by decide +kernel,
    by norm_num⟩
  intro p hp
  have hp : p ∈ [((0 : ℚ), (0 : ℚ)), (9/10, -1), (9/10 + 1/10^6, -1 + 9/10^6), (92/100, -8/10 - 1/10^6), (1, 0)] := hp
  simp only [List.mem_cons, List.not_mem_nil, or_false] at hp
  rcases hp with rfl | rfl | rfl | rfl | rfl
  · exact ⟨-1, 0, by decide +kernel⟩
  · exact ⟨0, -1, by decide +kernel⟩
  · exact ⟨19/2, -1, by decide +kernel⟩
  · exact ⟨10 + 1/10^5, -1, by decide +kernel⟩
  · exact ⟨1, 0, by decide +kernel⟩

end Verif.Props.HullTol
