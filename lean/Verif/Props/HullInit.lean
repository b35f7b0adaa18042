import Verif.Model.HullInit
import Verif.Lemmas.Except
import Verif.Props.HullConvex
import Verif.Lemmas.HullExample
import Verif.Lemmas.Solver

/-!
C92: construction of the interface hull. C98: areas.
-/

namespace Verif.Props.HullInit
open Verif.Py Verif.Model.Hull Verif.Spec.Hull Verif.Lemmas.Hull Verif.Lemmas.HullConvex Verif.Props.Hull Verif.Props.HullConvex

variable {ρ η κ : Type} [DecidableEq κ]

/-! ### C92 -/

/-- What is assumed of numpy's `argsort`: the positions in an order that sorts the values; nothing about ties. -/
def SortsBy (argsort : List ℚ → List ℕ) : Prop :=
  ∀ l, (argsort l).Perm (List.range l.length) ∧ ((argsort l).map fun i => l.getD i 0).Pairwise (· ≤ ·)

theorem scan_spec (red : η → κ) (c1 c2 : κ) (es : List η) (s : Option η × Option η) :
    ((scanEntries red c1 c2 es s).1 = none ↔ s.1 = none ∧ ∀ e ∈ es, red e ≠ c1) ∧
    ((scanEntries red c1 c2 es s).2 = none ↔ s.2 = none ∧ ∀ e ∈ es, red e = c2 → red e = c1) ∧
    (∀ a, (scanEntries red c1 c2 es s).1 = some a → s.1 = some a ∨ (a ∈ es ∧ red a = c1)) ∧
    (∀ b, (scanEntries red c1 c2 es s).2 = some b → s.2 = some b ∨ (b ∈ es ∧ red b = c2 ∧ red b ≠ c1)) := by
  induction es generalizing s with
  | nil => simp [scanEntries]
  | cons e es ih =>
    have hs : scanEntries red c1 c2 (e :: es) s
        = scanEntries red c1 c2 es (if red e = c1 then (some e, s.2) else if red e = c2 then (s.1, some e) else s) := rfl
    obtain ⟨h1, h2, h3, h4⟩ := ih (if red e = c1 then (some e, s.2) else if red e = c2 then (s.1, some e) else s)
    rw [hs]
    by_cases g1 : red e = c1
    · simp only [g1, if_true] at h1 h2 h3 h4 ⊢
      refine ⟨by simp [h1, g1], by simp [h2, g1], fun a ha => ?_, fun b hb => ?_⟩
      · rcases h3 a ha with h | h
        · right; simp only [Option.some.injEq] at h; subst h; simp [g1]
        · right; simp [h]
      · rcases h4 b hb with h | h
        · exact Or.inl h
        · right; exact ⟨by simp [h.1], h.2⟩
    · by_cases g2 : red e = c2
      · have g1' : c2 ≠ c1 := g2 ▸ g1
        simp only [g2, if_true, if_false, g1'] at h1 h2 h3 h4 ⊢
        refine ⟨by simp [h1, g2, g1'], by simp [h2, g2, g1'], fun a ha => ?_, fun b hb => ?_⟩
        · rcases h3 a ha with h | h
          · exact Or.inl h
          · right; simp [h]
        · rcases h4 b hb with h | h
          · right; simp only [Option.some.injEq] at h; subst h; simp [g2, g1']
          · right; exact ⟨by simp [h.1], h.2⟩
      · simp only [g1, g2, if_false] at h1 h2 h3 h4 ⊢
        refine ⟨by simp [h1, g1], by simp [h2, g2], fun a ha => ?_, fun b hb => ?_⟩
        · rcases h3 a ha with h | h
          · exact Or.inl h
          · right; simp [h]
        · rcases h4 b hb with h | h
          · exact Or.inl h
          · right; exact ⟨by simp [h.1], h.2⟩

/-- Both reactants occur: some reaction consumes an entry of `c1` and some reaction an entry of `c2`, a different composition. -/
def BothOccur (reactants : ρ → List η) (red : η → κ) (c1 c2 : κ) (rs : List ρ) : Prop :=
  c1 ≠ c2 ∧ (∃ r ∈ rs, ∃ e ∈ reactants r, red e = c1) ∧ ∃ r ∈ rs, ∃ e ∈ reactants r, red e = c2

theorem findEnds_spec (reactants : ρ → List η) (red : η → κ) (c1 c2 : κ) (rs : List ρ) (s : Option η × Option η)
    (hs : s.1 = none ∨ s.2 = none) (h1 : ∀ a, s.1 = some a → red a = c1) (h2 : ∀ b, s.2 = some b → red b = c2 ∧ c2 ≠ c1) :
    (∀ e, findEnds reactants red c1 c2 rs s = .error e → e = .valueError ∧
      ((s.1 = none ∧ ∀ r ∈ rs, ∀ e ∈ reactants r, red e ≠ c1) ∨
        (s.2 = none ∧ ∀ r ∈ rs, ∀ e ∈ reactants r, red e = c2 → red e = c1))) ∧
    (∀ a b, findEnds reactants red c1 c2 rs s = .ok (a, b) → c1 ≠ c2 ∧
      (s.1 = some a ∨ ∃ r ∈ rs, a ∈ reactants r) ∧ (s.2 = some b ∨ ∃ r ∈ rs, b ∈ reactants r) ∧ red a = c1 ∧ red b = c2) := by
  induction rs generalizing s with
  | nil =>
    refine ⟨fun e h => ?_, fun a b h => by simp [findEnds] at h⟩
    simp only [findEnds, Except.error.injEq] at h
    exact ⟨h.symm, by rcases hs with h | h <;> simp [h]⟩
  | cons r rs ih =>
    obtain ⟨g1, g2, g3, g4⟩ := scan_spec red c1 c2 (reactants r) s
    rcases hsc : scanEntries red c1 c2 (reactants r) s with ⟨u, v⟩
    rw [hsc] at g1 g2 g3 g4
    simp only at g1 g2 g3 g4
    have ha : ∀ a, u = some a → red a = c1 := fun a h => by
      rcases g3 a h with h | h
      · exact h1 a h
      · exact h.2
    have hb : ∀ b, v = some b → red b = c2 ∧ c2 ≠ c1 := fun b h => by
      rcases g4 b h with h | h
      · exact h2 b h
      · exact ⟨h.2.1, h.2.1 ▸ h.2.2⟩
    have step : (u = none ∨ v = none) → findEnds reactants red c1 c2 (r :: rs) s = findEnds reactants red c1 c2 rs (u, v) := by
      intro h
      simp only [findEnds, hsc]
      rcases h with rfl | rfl
      · rfl
      · cases u <;> rfl
    by_cases huv : u = none ∨ v = none
    · rw [step huv]
      obtain ⟨k1, k2⟩ := ih (u, v) huv ha hb
      refine ⟨fun e h => ?_, fun a b h => ?_⟩
      · obtain ⟨he, h⟩ := k1 e h
        refine ⟨he, ?_⟩
        rcases h with ⟨h, h'⟩ | ⟨h, h'⟩
        · left
          obtain ⟨p, q⟩ := g1.mp h
          exact ⟨p, by simpa using ⟨q, h'⟩⟩
        · right
          obtain ⟨p, q⟩ := g2.mp h
          exact ⟨p, by simpa using ⟨q, h'⟩⟩
      · obtain ⟨hne, p, q, k⟩ := k2 a b h
        refine ⟨hne, ?_, ?_, k⟩
        · rcases p with p | ⟨r', hr', p⟩
          · rcases g3 a p with p | p
            · exact Or.inl p
            · exact Or.inr ⟨r, by simp, p.1⟩
          · exact Or.inr ⟨r', by simp [hr'], p⟩
        · rcases q with q | ⟨r', hr', q⟩
          · rcases g4 b q with q | q
            · exact Or.inl q
            · exact Or.inr ⟨r, by simp, q.1⟩
          · exact Or.inr ⟨r', by simp [hr'], q⟩
    · push Not at huv
      obtain ⟨a, rfl⟩ := Option.ne_none_iff_exists'.mp huv.1
      obtain ⟨b, rfl⟩ := Option.ne_none_iff_exists'.mp huv.2
      have : findEnds reactants red c1 c2 (r :: rs) s = .ok (a, b) := by simp [findEnds, hsc]
      rw [this]
      refine ⟨fun e h => by simp at h, fun a' b' h => ?_⟩
      simp only [Except.ok.injEq, Prod.mk.injEq] at h
      obtain ⟨rfl, rfl⟩ := h
      refine ⟨fun h => (hb b rfl).2 h.symm, ?_, ?_, ha a rfl, (hb b rfl).1⟩
      · rcases g3 a rfl with p | p
        · exact Or.inl p
        · exact Or.inr ⟨r, by simp, p.1⟩
      · rcases g4 b rfl with p | p
        · exact Or.inl p
        · exact Or.inr ⟨r, by simp, p.1⟩

theorem findEnds_iff (reactants : ρ → List η) (red : η → κ) (c1 c2 : κ) (rs : List ρ) :
    (∃ ab, findEnds reactants red c1 c2 rs (none, none) = .ok ab) ↔ BothOccur reactants red c1 c2 rs := by
  obtain ⟨h1, h2⟩ := findEnds_spec reactants red c1 c2 rs (none, none) (by simp) (by simp) (by simp)
  constructor
  · rintro ⟨⟨a, b⟩, h⟩
    obtain ⟨hne, p, q, ra, rb⟩ := h2 a b h
    rcases p with p | ⟨r, hr, p⟩
    · simp at p
    rcases q with q | ⟨r', hr', q⟩
    · simp at q
    exact ⟨hne, ⟨r, hr, a, p, ra⟩, r', hr', b, q, rb⟩
  · rintro ⟨hne, ⟨r, hr, a, ha, ra⟩, r', hr', b, hb, rb⟩
    cases h : findEnds reactants red c1 c2 rs (none, none) with
    | ok ab => exact ⟨ab, rfl⟩
    | error e =>
      obtain ⟨-, h | h⟩ := h1 e h
      · exact absurd ra (h.2 r hr a ha)
      · exact absurd ((h.2 r' hr' b hb rb).symm.trans rb) hne

theorem perm_filterMap_getElem {α : Type} (l : List α) (idx : List ℕ) (h : idx.Perm (List.range l.length)) :
    (idx.filterMap fun i => l[i]?).Perm l := by
  refine (h.filterMap _).trans (List.Perm.of_eq ?_)
  clear h
  induction l using List.reverseRecOn with
  | nil => rfl
  | append_singleton l a ih =>
    rw [List.length_append, List.length_singleton, List.range_succ, List.filterMap_append]
    congr 1
    · conv_rhs => rw [← ih]
      apply List.filterMap_congr
      intro i hi
      rw [List.getElem?_append_left (List.mem_range.mp hi)]
    · simp

theorem filterMap_zip {α β : Type} (l : List α) (m : List β) (hlm : l.length = m.length) (idx : List ℕ) (h : ∀ i ∈ idx, i < l.length) :
    (idx.filterMap fun i => l[i]?).zip (idx.filterMap fun i => m[i]?) = idx.filterMap fun i => (l.zip m)[i]? := by
  induction idx with
  | nil => rfl
  | cons i idx ih =>
    have hi : i < l.length := h i (by simp)
    have hi' : i < m.length := hlm ▸ hi
    have hz : i < (l.zip m).length := by rw [List.length_zip]; omega
    rw [List.filterMap_cons_some (List.getElem?_eq_getElem hi), List.filterMap_cons_some (List.getElem?_eq_getElem hi'),
      List.filterMap_cons_some (List.getElem?_eq_getElem hz), List.zip_cons_cons, ih (fun j hj => h j (by simp [hj])), List.getElem_zip]

theorem filterMap_length {α : Type} (l : List α) (idx : List ℕ) (h : ∀ i ∈ idx, i < l.length) :
    (idx.filterMap fun i => l[i]?).length = idx.length := by
  induction idx with
  | nil => rfl
  | cons i idx ih =>
    rw [List.filterMap_cons_some (List.getElem?_eq_getElem (h i (by simp))), List.length_cons, List.length_cons,
      ih fun j hj => h j (by simp [hj])]

theorem filterMap_fst (l : List (ℚ × ℚ)) (idx : List ℕ) (h : ∀ i ∈ idx, i < l.length) :
    (idx.filterMap fun i => l[i]?).map Prod.fst = idx.map fun i => (l.map Prod.fst).getD i 0 := by
  induction idx with
  | nil => rfl
  | cons i idx ih =>
    have hi := h i (by simp)
    rw [List.filterMap_cons_some (List.getElem?_eq_getElem hi), List.map_cons, List.map_cons, ih fun j hj => h j (by simp [hj])]
    congr 1
    simp [List.getD_eq_getElem?_getD, hi]

/-- **C92, errors.** Construction fails with `ValueError` if the two reactants do not both occur (always if they are the same), and otherwise
exactly when a coordinate or an energy cannot be computed, with that error. -/
theorem C92_raises (reactants : ρ → List η) (red : η → κ) (coord epa : ρ → Except Err ℚ) (ident : η → ρ) (argsort : List ℚ → List ℕ)
    (c1 c2 : κ) (rs : List ρ) :
    (¬ BothOccur reactants red c1 c2 rs → hullInit reactants red coord epa ident argsort c1 c2 rs = .error .valueError) ∧
    (BothOccur reactants red c1 c2 rs →
      ((∃ h, hullInit reactants red coord epa ident argsort c1 c2 rs = .ok h) ↔
        ∀ r ∈ rs, (∃ x, coord r = .ok x) ∧ ∃ y, epa r = .ok y) ∧
      ∀ e, hullInit reactants red coord epa ident argsort c1 c2 rs = .error e → ∃ r ∈ rs, coord r = .error e ∨ epa r = .error e) := by
  constructor
  · intro h
    rw [← findEnds_iff] at h
    cases hf : findEnds reactants red c1 c2 rs (none, none) with
    | ok ab => exact absurd ⟨ab, hf⟩ h
    | error e =>
      have := ((findEnds_spec reactants red c1 c2 rs (none, none) (by simp) (by simp) (by simp)).1 e hf).1
      subst this
      simp only [hullInit, hf]; rfl
  · intro h
    obtain ⟨ab, hab⟩ := (findEnds_iff reactants red c1 c2 rs).mpr h
    have row : ∀ r v, coordRow coord epa r = .ok v ↔ coord r = .ok v.1 ∧ epa r = .ok v.2 := by
      intro r v
      unfold coordRow
      cases hx : coord r with
      | error e => constructor <;> intro h <;> simp_all [bind, Except.bind]
      | ok x =>
        cases hy : epa r with
        | error e => constructor <;> intro h <;> simp_all [bind, Except.bind]
        | ok y =>
          obtain ⟨v1, v2⟩ := v
          constructor
          · intro h
            injection h with h
            injection h with h1 h2
            simp [h1, h2]
          · rintro ⟨h1, h2⟩
            injection h1 with h1
            injection h2 with h2
            simp only at h1 h2
            rw [h1, h2]; rfl
    have hi : hullInit reactants red coord epa ident argsort c1 c2 rs = (do
        let rows ← rs.mapM (coordRow coord epa)
        let all := rows ++ [(0, 0), (1, 0)]
        let idx := argsort (all.map Prod.fst)
        pure ⟨idx.filterMap fun i => all[i]?, idx.filterMap fun i => (rs ++ [ident ab.1, ident ab.2])[i]?, [ident ab.1, ident ab.2]⟩) := by
      simp only [hullInit, hab]; rfl
    cases hm : rs.mapM (coordRow coord epa) with
    | error e =>
      rw [hi, hm]
      obtain ⟨r, hr, he⟩ := Verif.Lemmas.Exc.mapM_error _ _ _ hm
      have he' : coord r = .error e ∨ epa r = .error e := by
        unfold coordRow at he
        cases hx : coord r with
        | error e' => rw [hx] at he; injection he with he; left; rw [he]
        | ok x =>
          cases hy : epa r with
          | error e' => rw [hx, hy] at he; injection he with he; right; rw [he]
          | ok y => rw [hx, hy] at he; cases he
      refine ⟨⟨fun ⟨_, h⟩ => (by cases h), fun h => ?_⟩, fun e' h => ?_⟩
      · obtain ⟨⟨x, hx⟩, y, hy⟩ := h r hr
        rcases he' with h | h
        · rw [hx] at h; cases h
        · rw [hy] at h; cases h
      · injection h with h
        subst h
        exact ⟨r, hr, he'⟩
    | ok rows =>
      rw [hi, hm]
      refine ⟨⟨fun _ r hr => ?_, fun _ => ⟨_, rfl⟩⟩, fun e h => by cases h⟩
      obtain ⟨v, -, hv⟩ := Verif.Lemmas.Solver.mapM_at _ _ _ hm r hr
      obtain ⟨h1, h2⟩ := (row r v).mp hv
      exact ⟨⟨_, h1⟩, _, h2⟩

/-- **C92, alignment.** For every sorting routine: `reactions` and `coords` have the same length, the pairs of coordinates and reactions at
equal positions are the given reactions with their own coordinates, each once, and the two identity reactions at `(0, 0)` and `(1, 0)`, and
the coordinates are in order. The identity reactions are those of reactant entries of the two compositions. -/
theorem C92_aligned (reactants : ρ → List η) (red : η → κ) (coord epa : ρ → Except Err ℚ) (ident : η → ρ) (argsort : List ℚ → List ℕ)
    (hsort : SortsBy argsort) (c1 c2 : κ) (rs : List ρ) (h : Built ρ)
    (hh : hullInit reactants red coord epa ident argsort c1 c2 rs = .ok h) :
    ∃ a b, ∃ pts : List (ℚ × ℚ), red a = c1 ∧ red b = c2 ∧ (∃ r ∈ rs, a ∈ reactants r) ∧ (∃ r ∈ rs, b ∈ reactants r) ∧
      List.Forall₂ (fun r p => coord r = .ok p.1 ∧ epa r = .ok p.2) rs pts ∧
      h.endpoints = [ident a, ident b] ∧ h.coords.length = h.reactions.length ∧
      (h.coords.zip h.reactions).Perm (pts.zip rs ++ [((0, 0), ident a), ((1, 0), ident b)]) ∧
      h.coords.Perm (pts ++ [(0, 0), (1, 0)]) ∧ h.coords.Pairwise fun p q => p.1 ≤ q.1 := by
  unfold hullInit at hh
  cases hf : findEnds reactants red c1 c2 rs (none, none) with
  | error e => rw [hf] at hh; cases hh
  | ok ab =>
    rw [hf] at hh
    obtain ⟨a, b⟩ := ab
    obtain ⟨hne, p, q, ra, rb⟩ := (findEnds_spec reactants red c1 c2 rs (none, none) (by simp) (by simp) (by simp)).2 a b hf
    cases hm : rs.mapM (coordRow coord epa) with
    | error e => simp only [hm] at hh; cases hh
    | ok rows =>
      simp only [hm] at hh
      injection hh with hh
      subst hh
      have hlen := Verif.Lemmas.Exc.mapM_length _ _ _ hm
      set all := rows ++ [((0 : ℚ), (0 : ℚ)), (1, 0)] with hall
      have hal : all.length = (rs ++ [ident a, ident b]).length := by simp [hall, hlen]
      obtain ⟨hp, hs⟩ := hsort (all.map Prod.fst)
      rw [List.length_map] at hp
      have hlt : ∀ i ∈ argsort (all.map Prod.fst), i < all.length := fun i hi => List.mem_range.mp (hp.subset hi)
      have hlt' : ∀ i ∈ argsort (all.map Prod.fst), i < (rs ++ [ident a, ident b]).length := fun i hi => hal ▸ hlt i hi
      refine ⟨a, b, rows, ra, rb, by simpa using p, by simpa using q, ?_, rfl, ?_, ?_, ?_, ?_⟩
      · replace hm := (Verif.Lemmas.Exc.mapM_ok _ _ _).mp hm
        clear hsort hp hs hlt hlt' hal hlen
        clear_value all
        clear hall
        clear hf p q
        induction hm with
        | nil => exact .nil
        | @cons r v rs rows h _ ih =>
          refine .cons ?_ ih
          unfold coordRow at h
          cases hx : coord r with
          | error e => rw [hx] at h; cases h
          | ok x =>
            cases hy : epa r with
            | error e => rw [hx, hy] at h; cases h
            | ok y =>
              rw [hx, hy] at h
              injection h with h
              subst h
              exact ⟨rfl, rfl⟩
      · show (List.filterMap _ _).length = (List.filterMap _ _).length
        rw [filterMap_length _ _ hlt, filterMap_length _ _ hlt']
      · show ((List.filterMap _ _).zip (List.filterMap _ _)).Perm _
        rw [filterMap_zip _ _ hal _ hlt]
        have hz : all.zip (rs ++ [ident a, ident b]) = rows.zip rs ++ [((0, 0), ident a), ((1, 0), ident b)] := by
          rw [hall, List.zip_append hlen]; rfl
        rw [← hz]
        refine perm_filterMap_getElem _ _ ?_
        rw [List.length_zip, ← hal, Nat.min_self]
        exact hp
      · exact perm_filterMap_getElem _ _ hp
      · show List.Pairwise _ (List.filterMap _ _)
        rw [← filterMap_fst all _ hlt, List.pairwise_map] at hs
        exact hs

/-- **C92, lower hull.** With coordinates in `[0, 1]` (`C08_coordinate_partial`) and whatever complete list of corners the convex hull routine
returns, the vertices kept by the constructed object form the lower convex hull of its coordinates, so that the claims about hull energies,
stability and competition hold for it, however ties were sorted. -/
theorem C92_lower_hull (reactants : ρ → List η) (red : η → κ) (coord epa : ρ → Except Err ℚ) (ident : η → ρ) (argsort : List ℚ → List ℕ)
    (hsort : SortsBy argsort) (c1 c2 : κ) (rs : List ρ) (h : Built ρ)
    (hh : hullInit reactants red coord epa ident argsort c1 c2 rs = .ok h)
    (hx : ∀ r ∈ rs, ∀ x, coord r = .ok x → 0 ≤ x ∧ x ≤ 1) (raw : List ℕ) (H : HullIndices h.coords raw) (A : Apart' h.coords) :
    ∃ vs, GoodHull ⟨h.coords, raw⟩ vs ∧ ∀ p, p ∈ vs ↔ LowerCorner h.coords p := by
  obtain ⟨a, b, pts, -, -, -, -, hf, -, -, -, hp, hs⟩ :=
    C92_aligned reactants red coord epa ident argsort hsort c1 c2 rs h hh
  have hr : ∀ p ∈ pts, 0 ≤ p.1 ∧ p.1 ≤ 1 := by
    clear hp hs hh
    induction hf with
    | nil => simp
    | @cons r p rs pts h _ ih =>
      intro q hq
      rcases List.mem_cons.mp hq with rfl | hq
      · exact hx r (by simp) _ h.1
      · exact ih (fun r hr => hx r (by simp [hr])) q hq
  have C : Coords h.coords := by
    refine ⟨hs, fun p hm => ?_, by rw [hp.mem_iff]; simp, by rw [hp.mem_iff]; simp⟩
    rcases List.mem_append.mp (hp.mem_iff.mp hm) with h' | h'
    · exact hr p h'
    · simp only [List.mem_cons, List.not_mem_nil, or_false] at h'
      rcases h' with rfl | rfl <;> norm_num
  obtain ⟨vs, G, h'⟩ := goodHull_of_indices (h := ⟨h.coords, raw⟩) C H (apart_of A)
  exact ⟨vs, G, fun p => (h' p).trans (low_iff C p)⟩

/-! Concrete case: reactions are `(coordinate, energy)` with the entries `[0, 1]` as reactants; a sorting routine that reverses ties. -/

def exArgsort (l : List ℚ) : List ℕ :=
  (List.range l.length).reverse.insertionSort fun i j => l.getD i 0 ≤ l.getD j 0

theorem exArgsort_sorts : SortsBy exArgsort := by
  intro l
  have : Std.Total (fun i j : ℕ => l.getD i 0 ≤ l.getD j 0) := ⟨fun _ _ => le_total _ _⟩
  have : IsTrans ℕ (fun i j : ℕ => l.getD i 0 ≤ l.getD j 0) := ⟨fun _ _ _ => le_trans⟩
  refine ⟨(List.perm_insertionSort _ _).trans (List.reverse_perm _), ?_⟩
  rw [List.pairwise_map]
  exact List.pairwise_insertionSort _ _

def exBuild (c1 c2 : ℕ) : Except Err (Built (ℚ × ℚ)) :=
  hullInit (fun _ : ℚ × ℚ => [0, 1]) (fun n : ℕ => n) (fun r => .ok r.1) (fun r => .ok r.2) (fun n => (n, 0)) exArgsort c1 c2
    [(1/2, -2), (1/4, -1/2), (1/2, 3)]

example : exBuild 0 1 = .ok ⟨[(0, 0), (1/4, -1/2), (1/2, 3), (1/2, -2), (1, 0)], [(0, 0), (1/4, -1/2), (1/2, 3), (1/2, -2), (1, 0)],
    [(0, 0), (1, 0)]⟩ := by decide +kernel

example : exBuild 1 1 = .error .valueError ∧ exBuild 0 2 = .error .valueError := by decide +kernel

/-! ### C98 -/

/-- Specification: area between a polygonal chain and the axis, by trapezia (negative below the axis). -/
def trapz : List (ℚ × ℚ) → ℚ
  | a :: b :: l => (b.1 - a.1) * (a.2 + b.2) / 2 + trapz (b :: l)
  | _ => 0

/-- The fan of triangles is the area between the chain and the chord of its end points. -/
theorem C98_fan (a b : ℚ × ℚ) (l : List (ℚ × ℚ)) :
    fanArea (a :: b :: l) = trapz [a, (b :: l).getLast (by simp)] - trapz (a :: b :: l) := by
  induction l generalizing b with
  | nil => simp [fanArea, fanFrom]
  | cons c l ih =>
    have e : fanArea (a :: b :: c :: l) = cross2 a b c / 2 + fanArea (a :: c :: l) := rfl
    rw [e, ih c]
    simp only [trapz, cross2, List.getLast_cons_cons, add_zero]
    ring

theorem trapz_append (l : List (ℚ × ℚ)) (m : ℚ × ℚ) (r : List (ℚ × ℚ)) : trapz (l ++ m :: r) = trapz (l ++ [m]) + trapz (m :: r) := by
  induction l with
  | nil => simp [trapz]
  | cons a l ih =>
    cases l with
    | nil => simp [trapz]
    | cons b l =>
      simp only [List.cons_append, trapz] at ih ⊢
      rw [ih]; ring

theorem trapz_insert (l : List (ℚ × ℚ)) (a m b : ℚ × ℚ) (r : List (ℚ × ℚ)) (h : OnLine a b m) :
    trapz (l ++ a :: m :: b :: r) = trapz (l ++ a :: b :: r) := by
  rw [trapz_append l a (m :: b :: r), trapz_append l a (b :: r)]
  unfold OnLine at h
  simp only [trapz]
  linarith

theorem cross_nonneg {a b c : ℚ × ℚ} (hab : a.1 ≤ b.1) (hbc : b.1 ≤ c.1) (h : calculateAltitude a b c ≤ 0) : 0 ≤ cross2 a b c := by
  rcases lt_or_eq_of_le (hab.trans hbc) with hlt | heq
  · have := C02_altitude_is_vertical_distance a b c hlt
    unfold OnLine at this
    simp only at this
    have h2 := mul_nonpos_of_nonpos_of_nonneg h (sub_nonneg.mpr (hab.trans hbc))
    unfold cross2
    nlinarith
  · have h1 : b.1 = a.1 := le_antisymm (heq ▸ hbc) hab
    simp [cross2, h1, ← heq]

theorem fan_nonneg (a : ℚ × ℚ) (l : List (ℚ × ℚ)) (hs : (a :: l).Pairwise fun p q => p.1 ≤ q.1)
    (h : ∀ (i j : ℕ) (b c : ℚ × ℚ), i < j → l[i]? = some b → l[j]? = some c → calculateAltitude a b c ≤ 0) : 0 ≤ fanArea (a :: l) := by
  induction l with
  | nil => simp [fanArea, fanFrom]
  | cons b l ih =>
    cases l with
    | nil => simp [fanArea, fanFrom]
    | cons c l =>
      have e : fanArea (a :: b :: c :: l) = cross2 a b c / 2 + fanArea (a :: c :: l) := rfl
      rw [e]
      have h1 : 0 ≤ cross2 a b c := by
        rw [List.pairwise_cons, List.pairwise_cons] at hs
        exact cross_nonneg (hs.1 b (by simp)) (hs.2.1 c (by simp)) (h 0 1 b c (by omega) rfl rfl)
      have h2 := ih (hs.sublist (by simp)) fun i j b' c' hij hb hc =>
        h (i + 1) (j + 1) b' c' (by omega) (by simpa using hb) (by simpa using hc)
      positivity

theorem split_filter {vs : List (ℚ × ℚ)} (l r : List (ℚ × ℚ)) (hvs : vs = l ++ r) (x : ℚ)
    (hl : ∀ c ∈ l, c.1 < x) (hr : ∀ c ∈ r, x ≤ c.1) : vs.filter (fun c => decide (c.1 < x)) = l := by
  rw [hvs, List.filter_append, List.filter_eq_self.mpr (by simpa using hl), List.filter_eq_nil_iff.mpr (by simpa using hr), List.append_nil]

theorem split_filter' {vs : List (ℚ × ℚ)} (l r : List (ℚ × ℚ)) (hvs : vs = l ++ r) (x : ℚ)
    (hl : ∀ c ∈ l, c.1 ≤ x) (hr : ∀ c ∈ r, x < c.1) : vs.filter (fun c => decide (x < c.1)) = r := by
  rw [hvs, List.filter_append, List.filter_eq_nil_iff.mpr (by simpa using hl), List.filter_eq_self.mpr (by simpa using hr), List.nil_append]

/-- Cutting a chain at one of its points does not change the area under it. -/
theorem trapz_cut {vs : List (ℚ × ℚ)} (hs : vs.Pairwise fun a b => a.1 < b.1) {x y : ℚ} (h : OnChain vs (x, y)) :
    trapz (vs.filter (fun c => decide (c.1 < x)) ++ [(x, y)]) + trapz ((x, y) :: vs.filter (fun c => decide (x < c.1))) = trapz vs := by
  obtain ⟨a, b, hab, h1, h2, h3⟩ := h
  have hlt := adjacent_lt hs hab
  obtain ⟨l, r, hvs⟩ := hab
  have hs' := hs
  rw [hvs, List.pairwise_append, List.pairwise_cons, List.pairwise_cons] at hs'
  obtain ⟨-, ⟨ha, hb, -⟩, hl⟩ := hs'
  simp only at h1 h2
  rw [← trapz_append]
  rcases lt_or_eq_of_le h1 with h1 | h1
  · rcases lt_or_eq_of_le h2 with h2 | h2
    · rw [split_filter (vs := vs) (l ++ [a]) (b :: r) (by simp [hvs]) x, split_filter' (vs := vs) (l ++ [a]) (b :: r) (by simp [hvs]) x]
      · rw [List.append_assoc, List.singleton_append, trapz_insert _ _ _ _ _ h3, hvs]
      · intro c hc
        rcases List.mem_append.mp hc with hc | hc
        · exact ((hl c hc a (by simp)).trans h1).le
        · rw [List.mem_singleton.mp hc]; exact h1.le
      · intro c hc
        rcases List.mem_cons.mp hc with rfl | hc
        · exact h2
        · exact h2.trans (hb c hc)
      · intro c hc
        rcases List.mem_append.mp hc with hc | hc
        · exact (hl c hc a (by simp)).trans h1
        · rw [List.mem_singleton.mp hc]; exact h1
      · intro c hc
        rcases List.mem_cons.mp hc with rfl | hc
        · exact h2.le
        · exact (h2.trans (hb c hc)).le
    · have hy : b = (x, y) := by
        unfold OnLine at h3
        simp only at h3
        refine Prod.ext h2.symm ?_
        rw [h2] at h3
        have : (y - b.2) * (b.1 - a.1) = 0 := by linarith
        rcases mul_eq_zero.mp this with h | h <;> simp only <;> linarith
      rw [split_filter (vs := vs) (l ++ [a]) (b :: r) (by simp [hvs]) x, split_filter' (vs := vs) (l ++ [a, b]) r (by simp [hvs]) x]
      · rw [hvs, hy]; simp
      · intro c hc
        simp only [List.mem_append, List.mem_cons, List.not_mem_nil, or_false] at hc
        rcases hc with hc | rfl | rfl
        · rw [h2]; exact (hl c hc b (by simp)).le
        · exact h1.le
        · exact h2.symm.le
      · intro c hc
        rw [h2]; exact hb c hc
      · intro c hc
        rcases List.mem_append.mp hc with hc | hc
        · exact (hl c hc a (by simp)).trans h1
        · rw [List.mem_singleton.mp hc]; exact h1
      · intro c hc
        rcases List.mem_cons.mp hc with rfl | hc
        · exact h2.le
        · exact (h2.trans_lt (hb c hc)).le
  · have hy : a = (x, y) := by
      unfold OnLine at h3
      simp only at h3
      refine Prod.ext h1 ?_
      rw [← h1] at h3
      have : (y - a.2) * (b.1 - a.1) = 0 := by linarith
      rcases mul_eq_zero.mp this with h | h <;> simp only <;> linarith
    rw [split_filter (vs := vs) l (a :: b :: r) (by simp [hvs]) x, split_filter' (vs := vs) (l ++ [a]) (b :: r) (by simp [hvs]) x]
    · rw [hvs, hy]
    · intro c hc
      rcases List.mem_append.mp hc with hc | hc
      · rw [← h1]; exact (hl c hc a (by simp)).le
      · rw [List.mem_singleton.mp hc]; exact h1.le
    · intro c hc
      rw [← h1]
      exact ha c hc
    · intro c hc
      rw [← h1]; exact hl c hc a (by simp)
    · intro c hc
      rcases List.mem_cons.mp hc with rfl | hc
      · exact h1.symm.le
      · rw [← h1]; exact (ha c hc).le

theorem interior_left {h : IRH} {vs} (G : GoodHull h vs) {x y0 : ℚ} (hx : 0 < x) (hy : OnChain vs (0, y0)) :
    vs.filter (fun c => decide (c.1 < x)) = (0, y0) :: interior vs 0 x := by
  obtain ⟨z, hz, hh⟩ := first_mem G
  have : z = y0 := onChain_unique G.lower (onChain_vertex (two_le_length G) G.lower.strict hz) hy
  subst this
  cases vs with
  | nil => simp at hh
  | cons v vs =>
    simp only [List.head?_cons, Option.some.injEq] at hh
    subst hh
    have hs := (List.pairwise_cons.mp G.lower.strict).1
    unfold interior
    rw [List.filter_cons_of_pos (by simpa using hx), List.filter_cons_of_neg (by simp)]
    congr 1
    apply List.filter_congr
    intro c hc
    have := hs c hc
    simp only at this
    simp [this]

theorem interior_right {h : IRH} {vs} (G : GoodHull h vs) {x y1 : ℚ} (hx : x < 1) (hy : OnChain vs (1, y1)) :
    vs.filter (fun c => decide (x < c.1)) = interior vs x 1 ++ [(1, y1)] := by
  obtain ⟨z, hz, hh⟩ := last_mem G
  have : z = y1 := onChain_unique G.lower (onChain_vertex (two_le_length G) G.lower.strict hz) hy
  subst this
  obtain ⟨l, rfl⟩ := List.getLast?_eq_some_iff.mp hh
  have hs := (List.pairwise_append.mp G.lower.strict).2.2
  unfold interior
  rw [List.filter_append, List.filter_append, List.filter_cons_of_pos (by simpa using hx), List.filter_cons_of_neg (by simp)]
  simp only [List.filter_nil, List.append_nil]
  congr 1
  apply List.filter_congr
  intro c hc
  have := hs c hc (1, z) (by simp)
  simp only at this
  simp [this]

theorem chain_range {h : IRH} {vs} (G : GoodHull h vs) (p : ℚ × ℚ) (hp : p ∈ vs) : 0 ≤ p.1 ∧ p.1 ≤ 1 := by
  obtain ⟨y, -, hy⟩ := first_mem G
  obtain ⟨z, -, hz⟩ := last_mem G
  constructor
  · cases vs with
    | nil => simp at hp
    | cons v vs =>
      simp only [List.head?_cons, Option.some.injEq] at hy
      subst hy
      rcases List.mem_cons.mp hp with rfl | hp
      · exact le_refl _
      · exact ((List.pairwise_cons.mp G.lower.strict).1 p hp).le
  · obtain ⟨l, rfl⟩ := List.getLast?_eq_some_iff.mp hz
    rcases List.mem_append.mp hp with hp | hp
    · exact ((List.pairwise_append.mp G.lower.strict).2.2 p hp (1, z) (by simp)).le
    · rw [List.mem_singleton.mp hp]

/-- An end member whose lowest energy is within tolerance of zero has exactly zero as its lowest energy. -/
def ExactEnds (vs : List (ℚ × ℚ)) : Prop := ∀ v ∈ vs, v.1 = 0 ∨ v.1 = 1 → isclose v.2 0 = true → v.2 = 0

theorem area_of_range {h : IRH} {x1 x2 : ℚ} {a b : ℚ × ℚ} {l : List (ℚ × ℚ)} (hR : getCoordsInRange h x1 x2 = some (a :: b :: l)) :
    getDecompositionArea h x1 x2 = some (fanArea (a :: b :: l)) := by
  unfold getDecompositionArea
  rw [hR]
  cases l with
  | nil => simp [fanArea, fanFrom]
  | cons c l => simp

/-- **C98.** For a reaction strictly between the end members: the areas left and right of it, together with the (signed) area of the
triangle spanned by the point on the hull at its coordinate and the two pure reactants, make up the area enclosed by the lower hull and the
axis of the reactants; and the value is not negative. -/
theorem C98_area {h : IRH} {vs} (G : GoodHull h vs) (E : ExactEnds vs) (idx : ℕ) (c : ℚ × ℚ) (hc : h.coords[idx]? = some c)
    (h0 : 0 < c.1) (h1 : c.1 < 1) (s : Sep vs c.1) :
    ∃ y A, getHullEnergy h c.1 = some y ∧ OnChain vs (c.1, y) ∧ getSecondaryCompetitionArea h idx = some A ∧
      A + fanArea [(0, 0), (c.1, y), (1, 0)] = - trapz vs ∧ 0 ≤ A := by
  obtain ⟨x, w⟩ := c
  simp only at h0 h1 s ⊢
  have s0 := sep_zero G
  have s1 := sep_one G
  obtain ⟨y0, y, o0, oy, -, e, hL⟩ := range_form G (le_refl 0) h0.le h1.le s0 s
  obtain ⟨y', y1, oy', o1, -, -, hR⟩ := range_form G h0.le h1.le (le_refl 1) s s1
  obtain rfl : y = y' := onChain_unique G.lower oy oy'
  obtain ⟨RL, hRL, -, altL⟩ := range_altitudes G (le_refl 0) h0.le h1.le s0 s
  obtain ⟨RR, hRR, -, altR⟩ := range_altitudes G h0.le h1.le (le_refl 1) s s1
  have m0 : (0, y0) ∈ vs := by
    obtain ⟨z, hz, -⟩ := first_mem G
    rwa [onChain_unique G.lower (onChain_vertex (two_le_length G) G.lower.strict hz) o0] at hz
  have m1 : (1, y1) ∈ vs := by
    obtain ⟨z, hz, -⟩ := last_mem G
    rwa [onChain_unique G.lower (onChain_vertex (two_le_length G) G.lower.strict hz) o1] at hz
  have post : postRef x y = [] := by
    unfold postRef
    rw [if_neg]
    rw [Bool.and_eq_true]
    rintro ⟨hh, -⟩
    exact absurd (isclose_one_eq G s hh) h1.ne
  have pre : preRef x y = [] := by
    unfold preRef
    rw [if_neg]
    rw [Bool.and_eq_true]
    rintro ⟨hh, -⟩
    exact absurd (isclose_zero_eq G s hh) h0.ne'
  rw [post, show endPt 0 x y = [(x, y)] by unfold endPt; rw [if_pos h0.ne'], List.append_nil] at hL
  rw [pre, show endPt x 1 y1 = [(1, y1)] by unfold endPt; rw [if_pos h1.ne'], List.nil_append] at hR
  have hcut := trapz_cut G.lower.strict oy
  rw [interior_left G h0 o0, interior_right G h1 o1] at hcut
  -- the left range
  have left : ∃ A, getDecompositionArea h 0 x = some A ∧
      A = x * y / 2 - trapz ((0, y0) :: (interior vs 0 x ++ [(x, y)])) ∧ 0 ≤ A := by
    obtain ⟨a, b, l, hform, ha, hlast, htr⟩ : ∃ a b l, preRef 0 y0 ++ (0, y0) :: (interior vs 0 x ++ [(x, y)]) = a :: b :: l ∧
        a = (0, 0) ∧ (b :: l).getLast (by simp) = (x, y) ∧
        trapz (a :: b :: l) = trapz ((0, y0) :: (interior vs 0 x ++ [(x, y)])) := by
      by_cases hp : isclose y0 0 = true
      · have : y0 = 0 := E _ m0 (Or.inl rfl) hp
        subst this
        have hpr : preRef 0 0 = [] := by unfold preRef; rw [if_neg]; simp [isclose_self]
        rw [hpr, List.nil_append]
        cases hi : interior vs 0 x with
        | nil => exact ⟨_, _, _, rfl, rfl, rfl, rfl⟩
        | cons b l => exact ⟨_, _, _, rfl, rfl, by simp, rfl⟩
      · have hpr : preRef 0 y0 = [(0, 0)] := by unfold preRef; rw [if_pos]; simp [isclose_self, hp]
        rw [hpr]
        refine ⟨(0, 0), (0, y0), interior vs 0 x ++ [(x, y)], rfl, rfl, by simp, ?_⟩
        rw [trapz]; simp
    rw [hform] at hL
    refine ⟨_, area_of_range hL, ?_, ?_⟩
    · rw [C98_fan, hlast, htr, ha]
      simp only [trapz]
      ring
    · rw [hL] at hRL
      injection hRL with hRL
      refine fan_nonneg a (b :: l) ?_ fun i j p q hij hp hq => altL 0 (i + 1) (j + 1) a p q (by omega) (by omega) (by rw [← hRL]; rfl)
        (by rw [← hRL]; simpa using hp) (by rw [← hRL]; simpa using hq)
      rw [← hform]
      have hst : ((0, y0) :: (interior vs 0 x ++ [(x, y)])).Pairwise fun p q => p.1 ≤ q.1 := by
        rw [← List.cons_append, ← interior_left G h0 o0, List.pairwise_append]
        refine ⟨(G.lower.strict.sublist List.filter_sublist).imp fun h => h.le, by simp, fun p hp q hq => ?_⟩
        rw [List.mem_singleton.mp hq]
        exact (of_decide_eq_true (List.mem_filter.mp hp).2).le
      unfold preRef
      split_ifs
      · rw [List.singleton_append, List.pairwise_cons]
        refine ⟨fun p hp => ?_, hst⟩
        rw [← List.cons_append, ← interior_left G h0 o0] at hp
        rcases List.mem_append.mp hp with hp | hp
        · exact (chain_range G p (List.mem_filter.mp hp).1).1
        · rw [List.mem_singleton.mp hp]; exact h0.le
      · exact hst
  have right : ∃ A, getDecompositionArea h x 1 = some A ∧
      A = (1 - x) * y / 2 - trapz ((x, y) :: (interior vs x 1 ++ [(1, y1)])) ∧ 0 ≤ A := by
    obtain ⟨b, l, hform, hlast, htr⟩ : ∃ b l, (x, y) :: (interior vs x 1 ++ [(1, y1)]) ++ postRef 1 y1 = (x, y) :: b :: l ∧
        (b :: l).getLast (by simp) = (1, 0) ∧
        trapz ((x, y) :: b :: l) = trapz ((x, y) :: (interior vs x 1 ++ [(1, y1)])) := by
      by_cases hp : isclose y1 0 = true
      · have : y1 = 0 := E _ m1 (Or.inr rfl) hp
        subst this
        have hpr : postRef 1 0 = [] := by unfold postRef; rw [if_neg]; simp [isclose_self]
        rw [hpr, List.append_nil]
        cases hi : interior vs x 1 with
        | nil => exact ⟨_, _, rfl, rfl, rfl⟩
        | cons b l => exact ⟨_, _, rfl, by simp, rfl⟩
      · have hpr : postRef 1 y1 = [(1, 0)] := by unfold postRef; rw [if_pos]; simp [isclose_self, hp]
        rw [hpr]
        have ht : trapz ((x, y) :: (interior vs x 1 ++ [(1, y1)]) ++ [(1, 0)]) = trapz ((x, y) :: (interior vs x 1 ++ [(1, y1)])) := by
          have := trapz_append ((x, y) :: interior vs x 1) (1, y1) [(1, 0)]
          simp only [List.cons_append, List.append_assoc, List.nil_append, trapz] at this ⊢
          rw [this]; simp
        rw [← ht]
        cases hi : interior vs x 1 with
        | nil => exact ⟨_, _, rfl, rfl, rfl⟩
        | cons b l => exact ⟨_, _, rfl, by simp, rfl⟩
    rw [hform] at hR
    refine ⟨_, area_of_range hR, ?_, ?_⟩
    · rw [C98_fan, hlast, htr]
      simp only [trapz]
      ring
    · rw [hR] at hRR
      injection hRR with hRR
      refine fan_nonneg (x, y) (b :: l) ?_ fun i j p q hij hp hq => altR 0 (i + 1) (j + 1) (x, y) p q (by omega) (by omega)
        (by rw [← hRR]; rfl) (by rw [← hRR]; simpa using hp) (by rw [← hRR]; simpa using hq)
      rw [← hform]
      have hst : ((x, y) :: (interior vs x 1 ++ [(1, y1)])).Pairwise fun p q => p.1 ≤ q.1 := by
        rw [← interior_right G h1 o1, List.pairwise_cons]
        refine ⟨fun p hp => (of_decide_eq_true (List.mem_filter.mp hp).2).le, ?_⟩
        exact (G.lower.strict.sublist List.filter_sublist).imp fun h => h.le
      unfold postRef
      split_ifs
      · rw [List.pairwise_append]
        refine ⟨hst, by simp, fun p hp q hq => ?_⟩
        rw [List.mem_singleton.mp hq]
        rw [← interior_right G h1 o1] at hp
        rcases List.mem_cons.mp hp with rfl | hp
        · exact h1.le
        · exact (chain_range G p (List.mem_filter.mp hp).1).2
      · rw [List.append_nil]; exact hst
  obtain ⟨AL, l1, l2, l3⟩ := left
  obtain ⟨AR, r1, r2, r3⟩ := right
  refine ⟨y, AL + AR, e, oy, ?_, ?_, by linarith⟩
  · simp [getSecondaryCompetitionArea, hc, l1, r1]
  · rw [List.cons_append] at hcut
    rw [l2, r2, ← hcut]
    simp only [fanArea, fanFrom, cross2]
    ring

/-- **C98, violated.** A reaction at an end member, in particular each of the two identity reactions that every hull contains, has no such
area: the range has a single coordinate and the hull routine raises. -/
theorem C98_violated : exHull.coords[0]? = some (0, 0) ∧ getSecondaryCompetitionArea exHull 0 = none ∧
    getSecondaryCompetitionArea exHull 5 = none := by decide +kernel

example : getSecondaryCompetitionArea exHull 4 = some (3/8) ∧ ExactEnds exVs := by
  refine ⟨by decide +kernel, by unfold ExactEnds; decide +kernel⟩

example := (C92_raises (fun _ : ℚ × ℚ => [0, 1]) (fun n : ℕ => n) (fun r => .ok r.1) (fun r => .ok r.2) (fun n => (n, 0)) exArgsort 0 1
  [(1/2, -2), (1/4, -1/2), (1/2, 3)]).2 (by unfold BothOccur; decide +kernel)
example := (C92_raises (fun _ : ℚ × ℚ => [0, 1]) (fun n : ℕ => n) (fun r => .ok r.1) (fun r => .ok r.2) (fun n => (n, 0)) exArgsort 0 2
  [(1/2, -2), (1/4, -1/2), (1/2, 3)]).1 (by unfold BothOccur; decide +kernel)
example := C92_aligned (fun _ : ℚ × ℚ => [0, 1]) (fun n : ℕ => n) (fun r => .ok r.1) (fun r => .ok r.2) (fun n => (n, 0)) exArgsort
  exArgsort_sorts 0 1 [(1/2, -2), (1/4, -1/2), (1/2, 3)]
  ⟨[(0, 0), (1/4, -1/2), (1/2, 3), (1/2, -2), (1, 0)], [(0, 0), (1/4, -1/2), (1/2, 3), (1/2, -2), (1, 0)], [(0, 0), (1, 0)]⟩
  (by decide +kernel)
example : fanArea [(0, 0), (1/2, -2), (3/4, -3/2), (1, 0)] = 9/8 :=
  (C98_fan (0, 0) (1/2, -2) [(3/4, -3/2), (1, 0)]).trans (by decide +kernel)
example := C98_area exHull_good (by unfold ExactEnds; decide +kernel) 1 (1/4, -1/2) (by decide +kernel) (by norm_num) (by norm_num)
  (by decide +kernel)

end Verif.Props.HullInit
