import Verif.Lemmas.HullMisc

/-! A concrete hull used in the examples next to the property theorems. -/

namespace Verif.Lemmas.Hull
open Verif.Py Verif.Model.Hull Verif.Spec.Hull Verif.Lemmas

theorem adjacent_zip {vs : List (ℚ × ℚ)} {a b} (h : Adjacent vs a b) : (a, b) ∈ vs.zip vs.tail := by
  obtain ⟨l, r, rfl⟩ := h
  induction l with
  | nil => simp
  | cons c l ih =>
    cases l with
    | nil => simp
    | cons d l => simp only [List.cons_append, List.tail_cons, List.zip_cons_cons] at ih ⊢; exact List.mem_cons_of_mem _ ih

instance (a b p : ℚ × ℚ) : Decidable (AboveLine a b p) := by unfold AboveLine; infer_instance

theorem lowerHull_of {pts vs : List (ℚ × ℚ)} (h1 : vs.Pairwise fun a b => a.1 < b.1) (h2 : ∀ v ∈ vs, v ∈ pts)
    (h3 : (vs.head?.map Prod.fst) = some 0) (h4 : (vs.getLast?.map Prod.fst) = some 1)
    (h5 : ∀ q ∈ vs.zip vs.tail, ∀ p ∈ pts, AboveLine q.1 q.2 p) : LowerHull pts vs :=
  ⟨h1, h2, h3, h4, fun a b hab p hp => h5 (a, b) (adjacent_zip hab) p hp⟩

/-- Four reactions: `(1/2,-2)`, `(1/4,-1/2)`, `(3/4,-3/2)` and an unfavourable one `(1/2,3)`. -/
def exHull : IRH := ⟨mkCoords [(1/2, -2), (1/4, -1/2), (3/4, -3/2), (1/2, 3)], [0, 3, 4, 5, 2]⟩
def exVs : List (ℚ × ℚ) := [(0, 0), (1/2, -2), (3/4, -3/2), (1, 0)]

theorem exHull_good : GoodHull exHull exVs :=
  ⟨by decide +kernel, lowerHull_of (by decide +kernel) (by decide +kernel) (by decide +kernel) (by decide +kernel)
    (by decide +kernel), by decide +kernel, by decide +kernel⟩

theorem exHull_flat : FlatEnds exVs := by unfold FlatEnds; decide +kernel

instance (vs : List (ℚ × ℚ)) (x : ℚ) : Decidable (Sep vs x) := by unfold Sep; infer_instance

end Verif.Lemmas.Hull
