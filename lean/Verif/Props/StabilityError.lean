import Verif.Props.StabilityFilter

/-!
Property C159: how the stability of the entries of a set (`get_e_above_hull`, `filter_by_stability`) responds to more entries, to errors of
the energies, to lower energies of competing entries, to another zero of energy and to other units; and that filtering can be done part by
part.
-/

namespace Verif.Props.StabilityError
open Verif.Py Verif.Model Verif.Model.Entries Verif.Model.Thermo Verif.Model.StabilityFilter Verif.Spec.Stability
open Verif.Lemmas.Stability Verif.Props.StabilityFilter

set_option linter.unusedSectionVars false

variable {η φ : Type} [DecidableEq η] [DecidableEq φ]
variable {elems : η → List Enum.Sym} {amt : η → Enum.Sym → ℚ} {E E' atoms epa epa' : η → ℚ} {form : η → φ}
variable {build build' : List η → Except Err (PD η)}

section Helpers

/-- A mixture that contains the elements of an entry contains as many atoms. -/
theorem mix_atoms (C : Chemistry elems amt E atoms epa form) (S : Finset η) (w : η → ℚ) (e : η)
    (h : ∀ x, ∑ t ∈ S, w t * amt t x = amt e x) : ∑ t ∈ S, w t * atoms t = atoms e := by
  classical
  let X : Finset Enum.Sym := (insert e S).biUnion fun t => (elems t).toFinset
  have hat : ∀ t ∈ insert e S, atoms t = ∑ x ∈ X, amt t x := fun t ht => by
    rw [C.count t, ← List.sum_toFinset _ (C.sym.nodup t)]
    exact Finset.sum_subset (fun x hx => Finset.mem_biUnion.mpr ⟨t, ht, hx⟩)
      fun x _ hx => amt_zero C t x fun hm => hx (List.mem_toFinset.mpr hm)
  rw [hat e (Finset.mem_insert_self e S), Finset.sum_congr rfl fun t ht => by rw [hat t (Finset.mem_insert_of_mem ht), Finset.mul_sum],
    Finset.sum_comm]
  exact Finset.sum_congr rfl fun x _ => h x

/-- A mixture with the elements of an entry contains at most one of that entry. -/
theorem weight_le (C : Chemistry elems amt E atoms epa form) (S : Finset η) (w : η → ℚ) (e : η) (he : e ∈ S) (hw : ∀ t ∈ S, 0 ≤ w t)
    (h : ∀ x, ∑ t ∈ S, w t * amt t x = amt e x) : w e ≤ 1 := by
  obtain ⟨x, hx⟩ := (matter C).some e
  have h1 : w e * amt e x ≤ amt e x :=
    (Finset.single_le_sum (f := fun t => w t * amt t x) (fun t ht => mul_nonneg (hw t ht) (C.nonneg t x)) he).trans_eq (h x)
  by_contra hn
  push Not at hn
  have := mul_lt_mul_of_pos_right hn hx
  linarith

/-- What `get_e_above_hull` reports is the distance from the hull. -/
theorem reported (C : Chemistry elems amt E atoms epa form) (D : Diagrams elems amt E atoms build) (es : List η) (hR : References elems es)
    (e : η) (he : e ∈ es) (d : ℚ) (h : aboveHull elems build es e = .ok d) : Above amt E es.toFinset (atoms e) e d := by
  obtain ⟨d', hd', ha⟩ := C138_reported C D es hR e he
  rw [h] at hd'
  exact (Except.ok.inj hd') ▸ ha

/-- A larger set has a lower hull. -/
theorem above_mono (C : Chemistry elems amt E atoms epa form) {S T : Finset η} (hST : S ⊆ T) (e : η) (d d' : ℚ)
    (h : Above amt E S (atoms e) e d) (h' : Above amt E T (atoms e) e d') : d ≤ d' := by
  have := h'.2 (energies_mono hST _ h.1)
  have hp := atoms_pos C e
  by_contra hn
  push Not at hn
  have := mul_lt_mul_of_pos_right hn hp
  linarith

/-- One side of the error estimate. -/
theorem above_error (C : Chemistry elems amt E atoms epa form) (S : Finset η) (δ : ℚ) (e : η) (he : e ∈ S)
    (hE : ∀ t ∈ S, |E' t - E t| ≤ δ * atoms t) (d d' : ℚ) (h : Above amt E S (atoms e) e d) (h' : Above amt E' S (atoms e) e d') :
    d - 2 * δ ≤ d' := by
  obtain ⟨w, w1, w2, w3⟩ := h.1
  have hp := atoms_pos C e
  have h1 : E' e - d' * atoms e ≤ ∑ t ∈ S, w t * E' t := h'.2 ⟨w, w1, w2, rfl⟩
  have h2 : ∑ t ∈ S, w t * E' t ≤ ∑ t ∈ S, (w t * E t + δ * (w t * atoms t)) := Finset.sum_le_sum fun t ht => by
    have := mul_le_mul_of_nonneg_left (abs_le.mp (hE t ht)).2 (w1 t ht)
    linarith
  rw [Finset.sum_add_distrib, ← Finset.mul_sum, w3, mix_atoms C S w e w2] at h2
  have h3 := (abs_le.mp (hE e he)).1
  have h4 : (d - 2 * δ) * atoms e ≤ d' * atoms e := by linarith
  exact le_of_mul_le_mul_right h4 hp

/-- If every mixture of `A` can be replaced by one of `a`, and every mixture of `B` by one of `b`, then every mixture of both by one of
both. -/
theorem replace_union {ε : Type} {amt : η → ε → ℚ} (A B a b : Finset η)
    (hA : ∀ c, ∀ v ∈ energies amt E A c, ∃ v' ∈ energies amt E a c, v' ≤ v)
    (hB : ∀ c, ∀ v ∈ energies amt E B c, ∃ v' ∈ energies amt E b c, v' ≤ v) (c : ε → ℚ) (v : ℚ) (hv : v ∈ energies amt E (A ∪ B) c) :
    ∃ v' ∈ energies amt E (a ∪ b) c, v' ≤ v := by
  classical
  obtain ⟨w, w1, w2, w3⟩ := hv
  have split : ∀ f : η → ℚ, ∑ e ∈ A ∪ B, f e = ∑ e ∈ A, f e + ∑ e ∈ B, if e ∈ A then 0 else f e := fun f => by
    rw [← Finset.union_sdiff_self_eq_union, Finset.sum_union Finset.disjoint_sdiff, Finset.sdiff_eq_filter, Finset.sum_filter]
    congr 1
    exact Finset.sum_congr rfl fun e _ => by by_cases h : e ∈ A <;> simp [h]
  obtain ⟨v1, hv1, h1⟩ := hA (fun x => ∑ e ∈ A, w e * amt e x) _ ⟨w, fun e he => w1 e (Finset.mem_union_left _ he), fun _ => rfl, rfl⟩
  obtain ⟨v2, hv2, h2⟩ := hB (fun x => ∑ e ∈ B, (if e ∈ A then 0 else w e) * amt e x) _
    ⟨fun e => if e ∈ A then 0 else w e, fun e he => by
      dsimp only; split_ifs
      · exact le_refl _
      · exact w1 e (Finset.mem_union_right _ he), fun _ => rfl, rfl⟩
  obtain ⟨p, p1, p2, p3⟩ := energies_mono (Finset.subset_union_left (s₁ := a) (s₂ := b)) _ hv1
  obtain ⟨q, q1, q2, q3⟩ := energies_mono (Finset.subset_union_right (s₁ := a) (s₂ := b)) _ hv2
  refine ⟨v1 + v2, ⟨fun e => p e + q e, fun e he => add_nonneg (p1 e he) (q1 e he), fun x => ?_, ?_⟩, ?_⟩
  · rw [← w2 x, split]
    simp only [add_mul, Finset.sum_add_distrib, p2 x, q2 x]
    congr 1
    exact Finset.sum_congr rfl fun e _ => by by_cases h : e ∈ A <;> simp [h]
  · simp only [add_mul, Finset.sum_add_distrib, p3, q3]
  · rw [← w3, split]
    refine add_le_add h1 (h2.trans (le_of_eq ?_))
    exact Finset.sum_congr rfl fun e _ => by by_cases h : e ∈ A <;> simp [h]

/-- Every mixture of a set can be replaced by one of the filtered set. -/
theorem filter_replaces (C : Chemistry elems amt E atoms epa form) (D : Diagrams elems amt E atoms build) (es : List η) (cut : ℚ) (poly : Bool)
    (l : List η) (h : filterSet elems form epa build es cut poly = .ok l) (hcut : 0 ≤ cut) (c : Enum.Sym → ℚ) :
    ∀ v ∈ energies amt E es.toFinset c, ∃ v' ∈ energies amt E l.toFinset c, v' ≤ v := fun v hv => by
  obtain ⟨m, hm⟩ := exists_least (E := E) (matter C) es.toFinset c ⟨v, hv⟩
  exact ⟨m, ((C138_hull C D es cut poly l h hcut c m).mp hm).1, hm.2 hv⟩

/-- Filtering in two parts, for parts that are filtered or left alone. -/
theorem parts (C : Chemistry elems amt E atoms epa form) (D : Diagrams elems amt E atoms build) (cut : ℚ) (poly : Bool)
    (A B a b l m : List η) (hsa : ∀ e ∈ a, e ∈ A) (hsb : ∀ e ∈ b, e ∈ B)
    (hA : ∀ c, ∀ v ∈ energies amt E A.toFinset c, ∃ v' ∈ energies amt E a.toFinset c, v' ≤ v)
    (hB : ∀ c, ∀ v ∈ energies amt E B.toFinset c, ∃ v' ∈ energies amt E b.toFinset c, v' ≤ v)
    (hkA : ∀ e ∈ A, e ∉ a → (∃ x, Above amt E A.toFinset (atoms e) e x ∧ cut < x) ∨ (poly = false ∧ ∃ t ∈ a, form t = form e ∧ epa t ≤ epa e))
    (hkB : ∀ e ∈ B, e ∉ b → (∃ x, Above amt E B.toFinset (atoms e) e x ∧ cut < x) ∨ (poly = false ∧ ∃ t ∈ b, form t = form e ∧ epa t ≤ epa e))
    (hl : filterSet elems form epa build (A ++ B) cut poly = .ok l) (hm : filterSet elems form epa build (a ++ b) cut poly = .ok m)
    (hties : poly = false → NoTies epa form (A ++ B)) (e : η) : e ∈ l ↔ e ∈ m := by
  have hsub : ∀ x ∈ a ++ b, x ∈ A ++ B := fun x hx => by
    rcases List.mem_append.mp hx with h | h
    · exact List.mem_append_left _ (hsa x h)
    · exact List.mem_append_right _ (hsb x h)
  have hdist : ∀ e d, Above amt E (A ++ B).toFinset (atoms e) e d ↔ Above amt E (a ++ b).toFinset (atoms e) e d := fun e d => by
    refine least_iff (energies_mono (fun x hx => List.mem_toFinset.mpr (hsub x (List.mem_toFinset.mp hx))) _) (fun v hv => ?_) _
    rw [List.toFinset_append] at hv ⊢
    exact replace_union A.toFinset B.toFinset a.toFinset b.toFinset hA hB _ v hv
  have hAs : A.toFinset ⊆ (A ++ B).toFinset := fun x hx => by rw [List.toFinset_append]; exact Finset.mem_union_left _ hx
  have hBs : B.toFinset ⊆ (A ++ B).toFinset := fun x hx => by rw [List.toFinset_append]; exact Finset.mem_union_right _ hx
  -- what is missing from both parts lies beyond the cutoff, or has a polymorph at most as high
  have hk : ∀ e ∈ A ++ B, e ∉ a ++ b → (∃ x, Above amt E (A ++ B).toFinset (atoms e) e x ∧ cut < x) ∨
      (poly = false ∧ ∃ t ∈ a ++ b, form t = form e ∧ epa t ≤ epa e) := fun e he hn => by
    rw [List.mem_append, not_or] at hn
    obtain ⟨y, hy⟩ := exists_above (E := E) (matter C) (A ++ B).toFinset (atoms e) (atoms_pos C e) e (List.mem_toFinset.mpr he)
    rcases List.mem_append.mp he with h | h
    · rcases hkA e h hn.1 with ⟨x, hx, hlt⟩ | ⟨hp, t, ht, hf⟩
      · exact Or.inl ⟨y, hy, lt_of_lt_of_le hlt (above_mono C hAs e x y hx hy)⟩
      · exact Or.inr ⟨hp, t, List.mem_append_left _ ht, hf⟩
    · rcases hkB e h hn.2 with ⟨x, hx, hlt⟩ | ⟨hp, t, ht, hf⟩
      · exact Or.inl ⟨y, hy, lt_of_lt_of_le hlt (above_mono C hBs e x y hx hy)⟩
      · exact Or.inr ⟨hp, t, List.mem_append_right _ ht, hf⟩
  cases poly with
  | true =>
    rw [C138_members C D _ cut l hl, C138_members C D _ cut m hm]
    constructor
    · rintro ⟨he, x, hx, hle⟩
      refine ⟨?_, x, (hdist e x).mp hx, hle⟩
      by_contra hn
      rcases hk e he hn with ⟨y, hy, hlt⟩ | ⟨h0, -⟩
      · rw [above_unique (atoms_pos C e) hx hy] at hle; exact absurd hle (not_le.mpr hlt)
      · cases h0
    · rintro ⟨he, x, hx, hle⟩
      exact ⟨hsub e he, x, (hdist e x).mpr hx, hle⟩
  | false =>
    have ht := hties rfl
    rw [C138_ground_states C D _ cut l hl ht, C138_ground_states C D _ cut m hm fun p hp q hq => ht p (hsub p hp) q (hsub q hq)]
    constructor
    · rintro ⟨he, ⟨x, hx, hle⟩, hmin⟩
      refine ⟨?_, ⟨x, (hdist e x).mp hx, hle⟩, fun e' he' hf => hmin e' (hsub e' he') hf⟩
      by_contra hn
      rcases hk e he hn with ⟨y, hy, hlt⟩ | ⟨-, t, htm, hf, hle'⟩
      · rw [above_unique (atoms_pos C e) hx hy] at hle; exact absurd hle (not_le.mpr hlt)
      · have := hsub t htm
        exact hn (ht t this e he hf (le_antisymm hle' (hmin t this hf)) ▸ htm)
    · rintro ⟨he, ⟨x, hx, hle⟩, hmin⟩
      have hx' := (hdist e x).mpr hx
      refine ⟨hsub e he, ⟨x, hx', hle⟩, fun e' he' hf => ?_⟩
      by_cases hn : e' ∈ a ++ b
      · exact hmin e' hn hf
      · rcases hk e' he' hn with ⟨y, hy, hlt⟩ | ⟨-, t, htm, hft, hle'⟩
        · have := above_unique (atoms_pos C e') hy (same_above C _ e e' hf.symm x hx')
          linarith
        · exact (hmin t htm (hft.trans hf)).trans hle'

end Helpers

/-! ### C159 -/

/-- **C159, more entries.** Adding entries to a set never brings an entry closer to the hull. -/
theorem C159_add (C : Chemistry elems amt E atoms epa form) (D : Diagrams elems amt E atoms build) (es es' : List η)
    (hsub : ∀ e ∈ es, e ∈ es') (hR : References elems es) (hR' : References elems es') (e : η) (he : e ∈ es) :
    ∃ d d', aboveHull elems build es e = .ok d ∧ aboveHull elems build es' e = .ok d' ∧ d ≤ d' := by
  obtain ⟨d, hd, ha⟩ := C138_reported C D es hR e he
  obtain ⟨d', hd', ha'⟩ := C138_reported C D es' hR' e (hsub e he)
  exact ⟨d, d', hd, hd', above_mono C (fun x hx => List.mem_toFinset.mpr (hsub x (List.mem_toFinset.mp hx))) e d d' ha ha'⟩

/-- **C159, more entries and the filter.** What the filter keeps of a larger set, it keeps of every smaller set that contains it (the
others of its formula told apart by energy if polymorphs are dropped). -/
theorem C159_add_filter (C : Chemistry elems amt E atoms epa form) (D : Diagrams elems amt E atoms build) (es es' : List η)
    (hsub : ∀ e ∈ es, e ∈ es') (cut : ℚ) (poly : Bool) (l l' : List η) (h : filterSet elems form epa build es cut poly = .ok l)
    (h' : filterSet elems form epa build es' cut poly = .ok l') (hties : poly = false → NoTies epa form es') (e : η) (he : e ∈ es)
    (hl' : e ∈ l') : e ∈ l := by
  obtain ⟨-, x, hx, hle⟩ := mem_filter C D es' cut poly l' h' e hl'
  by_contra hn
  rcases not_mem C D es cut poly l h e he hn with ⟨y, hy, hlt⟩ | ⟨hp, t, ht, hf, hte⟩
  · have := above_mono C (fun x hx => List.mem_toFinset.mpr (hsub x (List.mem_toFinset.mp hx))) e y x hy hx
    linarith
  · subst hp
    have ht' := (mem_filter C D es cut false l h t ht).1
    have := ((C138_ground_states C D es' cut l' h' (hties rfl) e).mp hl').2.2 t (hsub t ht') hf
    exact hn (hties rfl t (hsub t ht') e (hsub e he) hf (le_antisymm hte this) ▸ ht)

/-- **C159, errors.** If no energy is wrong by more than `δ` per atom, no distance from the hull is wrong by more than `2 * δ`, whatever
the number of entries and elements. -/
theorem C159_error (C : Chemistry elems amt E atoms epa form) (C' : Chemistry elems amt E' atoms epa' form)
    (D : Diagrams elems amt E atoms build) (D' : Diagrams elems amt E' atoms build') (es : List η) (hR : References elems es) (δ : ℚ)
    (hE : ∀ t ∈ es, |E' t - E t| ≤ δ * atoms t) (e : η) (he : e ∈ es) :
    ∃ d d', aboveHull elems build es e = .ok d ∧ aboveHull elems build' es e = .ok d' ∧ |d' - d| ≤ 2 * δ := by
  obtain ⟨d, hd, ha⟩ := C138_reported C D es hR e he
  obtain ⟨d', hd', ha'⟩ := C138_reported C' D' es hR e he
  refine ⟨d, d', hd, hd', abs_le.mpr ⟨?_, ?_⟩⟩
  · have := above_error C es.toFinset δ e (List.mem_toFinset.mpr he) (fun t ht => hE t (List.mem_toFinset.mp ht)) d d' ha ha'
    linarith
  · have := above_error C' es.toFinset δ e (List.mem_toFinset.mpr he)
      (fun t ht => by rw [abs_sub_comm]; exact hE t (List.mem_toFinset.mp ht)) d' d ha' ha
    linarith

/-- **C159, errors and the filter.** If no energy is wrong by more than `δ` per atom, what the filter keeps with the wrong energies it
keeps with the right ones and a cutoff larger by `2 * δ` (polymorphs included). -/
theorem C159_error_filter (C : Chemistry elems amt E atoms epa form) (C' : Chemistry elems amt E' atoms epa' form)
    (D : Diagrams elems amt E atoms build) (D' : Diagrams elems amt E' atoms build') (es : List η) (δ cut : ℚ)
    (hE : ∀ t ∈ es, |E' t - E t| ≤ δ * atoms t) (l l' : List η) (h : filterSet elems form epa build es (cut + 2 * δ) true = .ok l)
    (h' : filterSet elems form epa' build' es cut true = .ok l') (e : η) (he : e ∈ l') : e ∈ l := by
  obtain ⟨hes, x', hx', hle⟩ := (C138_members C' D' es cut l' h' e).mp he
  obtain ⟨x, hx⟩ := exists_above (E := E) (matter C) es.toFinset (atoms e) (atoms_pos C e) e (List.mem_toFinset.mpr hes)
  have := above_error C es.toFinset δ e (List.mem_toFinset.mpr hes) (fun t ht => hE t (List.mem_toFinset.mp ht)) x x' hx hx'
  exact (C138_members C D es _ l h e).mpr ⟨hes, x, hx, by linarith⟩

/-- **C159, competitors.** If the energies of the other entries do not rise and that of an entry does not fall, it does not come closer
to the hull. -/
theorem C159_competitors (C : Chemistry elems amt E atoms epa form) (C' : Chemistry elems amt E' atoms epa' form)
    (D : Diagrams elems amt E atoms build) (D' : Diagrams elems amt E' atoms build') (es : List η) (hR : References elems es)
    (e : η) (he : e ∈ es) (hE : ∀ t ∈ es, t ≠ e → E' t ≤ E t) (hEe : E e ≤ E' e) :
    ∃ d d', aboveHull elems build es e = .ok d ∧ aboveHull elems build' es e = .ok d' ∧ d ≤ d' := by
  obtain ⟨d, hd, ha⟩ := C138_reported C D es hR e he
  obtain ⟨d', hd', ha'⟩ := C138_reported C' D' es hR e he
  refine ⟨d, d', hd, hd', ?_⟩
  obtain ⟨w, w1, w2, w3⟩ := ha.1
  have hes := List.mem_toFinset.mpr he
  have h1 : E' e - d' * atoms e ≤ ∑ t ∈ es.toFinset, w t * E' t := ha'.2 ⟨w, w1, w2, rfl⟩
  have h2 : ∑ t ∈ es.toFinset, w t * E' t ≤ ∑ t ∈ es.toFinset, (w t * E t + if t = e then w e * (E' e - E e) else 0) :=
    Finset.sum_le_sum fun t ht => by
      by_cases hte : t = e
      · subst hte; rw [if_pos rfl]; linarith
      · rw [if_neg hte]
        have := mul_le_mul_of_nonneg_left (hE t (List.mem_toFinset.mp ht) hte) (w1 t ht)
        linarith
  rw [Finset.sum_add_distrib, w3, Finset.sum_ite_eq' es.toFinset e, if_pos hes] at h2
  have h3 : w e * (E' e - E e) ≤ 1 * (E' e - E e) := mul_le_mul_of_nonneg_right (weight_le C es.toFinset w e hes w1 w2) (by linarith)
  have h4 : d * atoms e ≤ d' * atoms e := by linarith
  exact le_of_mul_le_mul_right h4 (atoms_pos C e)

/-- **C159, zero of energy and units.** Adding an energy for each atom of each element (another reference state) changes no distance
from the hull, and measuring energies in other units (`k > 0`) multiplies all distances. -/
theorem C159_reference (C : Chemistry elems amt E atoms epa form) (C' : Chemistry elems amt E' atoms epa' form)
    (D : Diagrams elems amt E atoms build) (D' : Diagrams elems amt E' atoms build') (es : List η) (hR : References elems es)
    (k : ℚ) (hk : 0 < k) (μ : Enum.Sym → ℚ) (hE : ∀ t, E' t = k * E t + ((elems t).map fun x => μ x * amt t x).sum) (e : η) (he : e ∈ es) :
    ∃ d, aboveHull elems build es e = .ok d ∧ aboveHull elems build' es e = .ok (k * d) := by
  classical
  obtain ⟨d, hd, ha⟩ := C138_reported C D es hR e he
  obtain ⟨d', hd', ha'⟩ := C138_reported C' D' es hR e he
  refine ⟨d, hd, ?_⟩
  rw [hd']
  congr 1
  let X : Finset Enum.Sym := (insert e es.toFinset).biUnion fun t => (elems t).toFinset
  have hμ : ∀ t ∈ insert e es.toFinset, ((elems t).map fun x => μ x * amt t x).sum = ∑ x ∈ X, μ x * amt t x := fun t ht => by
    rw [← List.sum_toFinset _ (C.sym.nodup t)]
    exact Finset.sum_subset (fun x hx => Finset.mem_biUnion.mpr ⟨t, ht, hx⟩)
      fun x _ hx => by rw [amt_zero C t x fun hm => hx (List.mem_toFinset.mpr hm), mul_zero]
  have key : ∀ w : η → ℚ, (∀ x, ∑ t ∈ es.toFinset, w t * amt t x = amt e x) →
      ∑ t ∈ es.toFinset, w t * E' t = k * ∑ t ∈ es.toFinset, w t * E t + (E' e - k * E e) := fun w hw => by
    have h1 : E' e - k * E e = ∑ x ∈ X, μ x * amt e x := by rw [hE e, hμ e (Finset.mem_insert_self _ _)]; ring
    have h2 : ∀ t ∈ es.toFinset, w t * E' t = k * (w t * E t) + ∑ x ∈ X, μ x * (w t * amt t x) := fun t ht => by
      rw [hE t, hμ t (Finset.mem_insert_of_mem ht), mul_add, Finset.mul_sum]
      congr 1
      · ring
      · exact Finset.sum_congr rfl fun x _ => by ring
    rw [Finset.sum_congr rfl h2, Finset.sum_add_distrib, ← Finset.mul_sum, Finset.sum_comm, h1]
    congr 1
    exact Finset.sum_congr rfl fun x _ => by rw [← Finset.mul_sum, hw x]
  have hp := atoms_pos C e
  obtain ⟨w, w1, w2, w3⟩ := ha.1
  obtain ⟨z, z1, z2, z3⟩ := ha'.1
  have h1 := ha'.2 ⟨w, w1, w2, rfl⟩
  have h2 := ha.2 ⟨z, z1, z2, rfl⟩
  rw [key w w2, w3] at h1
  rw [key z z2] at z3
  have h3 := mul_le_mul_of_nonneg_left h2 hk.le
  have h4 : (d' - k * d) * atoms e = 0 := by
    have : (d' - k * d) * atoms e = d' * atoms e - k * (d * atoms e) := by ring
    rw [this]
    apply le_antisymm <;> linarith
  rcases mul_eq_zero.mp h4 with h5 | h5
  · linarith
  · exact absurd h5 hp.ne'

/-- **C159, zero of energy, units and the filter.** With another zero of energy, other units, and the cutoff in these units, the filter
returns the same entries (the entries of a formula told apart by energy if polymorphs are dropped). -/
theorem C159_reference_filter (C : Chemistry elems amt E atoms epa form) (C' : Chemistry elems amt E' atoms epa' form)
    (D : Diagrams elems amt E atoms build) (D' : Diagrams elems amt E' atoms build') (es : List η) (k : ℚ) (hk : 0 < k) (μ : Enum.Sym → ℚ)
    (hE : ∀ t, E' t = k * E t + ((elems t).map fun x => μ x * amt t x).sum) (cut : ℚ) (poly : Bool) (l l' : List η)
    (h : filterSet elems form epa build es cut poly = .ok l) (h' : filterSet elems form epa' build' es (k * cut) poly = .ok l')
    (hties : poly = false → NoTies epa form es) (e : η) : e ∈ l ↔ e ∈ l' := by
  have hR := ((C138_succeeds C D es cut poly).1).mp ⟨l, h⟩
  have hdist : ∀ e ∈ es, ∀ d d', Above amt E es.toFinset (atoms e) e d → Above amt E' es.toFinset (atoms e) e d' → d' = k * d :=
    fun e he d d' hd hd' => by
      obtain ⟨x, hx, hx'⟩ := C159_reference C C' D D' es hR k hk μ hE e he
      rw [above_unique (atoms_pos C e) hd (reported C D es hR e he x hx), above_unique (atoms_pos C e) hd' (reported C' D' es hR e he _ hx')]
  have hin : ∀ e ∈ es, (∃ x, Above amt E es.toFinset (atoms e) e x ∧ x ≤ cut) ↔ ∃ x, Above amt E' es.toFinset (atoms e) e x ∧ x ≤ k * cut :=
    fun e he => by
      obtain ⟨d, hd⟩ := exists_above (E := E) (matter C) es.toFinset (atoms e) (atoms_pos C e) e (List.mem_toFinset.mpr he)
      obtain ⟨d', hd'⟩ := exists_above (E := E') (matter C) es.toFinset (atoms e) (atoms_pos C e) e (List.mem_toFinset.mpr he)
      have := hdist e he d d' hd hd'
      constructor
      · rintro ⟨x, hx, hle⟩
        rw [above_unique (atoms_pos C e) hx hd] at hle
        exact ⟨d', hd', by rw [this]; exact mul_le_mul_of_nonneg_left hle hk.le⟩
      · rintro ⟨x, hx, hle⟩
        rw [above_unique (atoms_pos C e) hx hd', this] at hle
        exact ⟨d, hd, le_of_mul_le_mul_left hle hk⟩
  have hepa : ∀ e e', form e = form e' → (epa' e - epa' e') = k * (epa e - epa e') := fun e e' hf => by
    obtain ⟨j, hj, ha, hat⟩ := same_atoms C e e' hf
    have hp : (elems e).Perm (elems e') := (List.perm_ext_iff_of_nodup (C.sym.nodup e) (C.sym.nodup e')).mpr (same_elems C e e' hf)
    have hs : ((elems e).map fun x => μ x * amt e x).sum = j * ((elems e').map fun x => μ x * amt e' x).sum := by
      rw [(hp.map _).sum_eq, ← List.sum_map_mul_left]
      exact congrArg List.sum (List.map_congr_left fun x _ => by rw [ha x]; ring)
    have hpos := atoms_pos C e'
    rw [C'.per, C'.per, C.per, C.per, hE, hE, hs, hat]
    field_simp
    ring
  cases poly with
  | true =>
    rw [C138_members C D es cut l h, C138_members C' D' es _ l' h']
    exact and_congr_right fun he => hin e he
  | false =>
    have ht := hties rfl
    have ht' : NoTies epa' form es := fun a ha b hb hf heq => by
      refine ht a ha b hb hf ?_
      have h0 := hepa a b hf
      rw [heq, sub_self] at h0
      rcases mul_eq_zero.mp h0.symm with h1 | h1
      · exact absurd h1 hk.ne'
      · linarith
    rw [C138_ground_states C D es cut l h ht, C138_ground_states C' D' es _ l' h' ht']
    refine and_congr_right fun he => and_congr (hin e he) ?_
    refine forall_congr' fun e' => forall_congr' fun _ => forall_congr' fun hf => ?_
    have h0 := hepa e' e hf
    constructor
    · intro hle
      have := mul_nonneg hk.le (sub_nonneg.mpr hle)
      linarith
    · intro hle
      have : 0 ≤ k * (epa e' - epa e) := by rw [← h0]; linarith
      have := nonneg_of_mul_nonneg_right this hk
      linarith

/-- **C159, part by part.** Filtering two sets and then the union of what is kept gives what filtering the union gives (the entries of a
formula told apart by energy if polymorphs are dropped). -/
theorem C159_parts (C : Chemistry elems amt E atoms epa form) (D : Diagrams elems amt E atoms build) (A B : List η) (cut : ℚ) (hcut : 0 ≤ cut)
    (poly : Bool) (a b l m : List η) (ha : filterSet elems form epa build A cut poly = .ok a) (hb : filterSet elems form epa build B cut poly = .ok b)
    (hl : filterSet elems form epa build (A ++ B) cut poly = .ok l) (hm : filterSet elems form epa build (a ++ b) cut poly = .ok m)
    (hties : poly = false → NoTies epa form (A ++ B)) (e : η) : e ∈ l ↔ e ∈ m :=
  parts C D cut poly A B a b l m (fun e he => (mem_filter C D A cut poly a ha e he).1) (fun e he => (mem_filter C D B cut poly b hb e he).1)
    (filter_replaces C D A cut poly a ha hcut) (filter_replaces C D B cut poly b hb hcut)
    (fun e he hn => not_mem C D A cut poly a ha e he hn) (fun e he hn => not_mem C D B cut poly b hb e he hn) hl hm hties e

/-- **C159, entries added later.** Filtering a set, adding entries (whatever they are, without elemental entries of their own) and
filtering again gives what filtering everything at once gives. -/
theorem C159_later (C : Chemistry elems amt E atoms epa form) (D : Diagrams elems amt E atoms build) (A B : List η) (cut : ℚ) (hcut : 0 ≤ cut)
    (poly : Bool) (a l m : List η) (ha : filterSet elems form epa build A cut poly = .ok a)
    (hl : filterSet elems form epa build (A ++ B) cut poly = .ok l) (hm : filterSet elems form epa build (a ++ B) cut poly = .ok m)
    (hties : poly = false → NoTies epa form (A ++ B)) (e : η) : e ∈ l ↔ e ∈ m :=
  parts C D cut poly A B a B l m (fun e he => (mem_filter C D A cut poly a ha e he).1) (fun _ he => he)
    (filter_replaces C D A cut poly a ha hcut) (fun _ v hv => ⟨v, hv, le_refl _⟩)
    (fun e he hn => not_mem C D A cut poly a ha e he hn) (fun _ he hn => absurd he hn) hl hm hties e

/-- **C159, success part by part.** If the whole can be filtered, and the first part, so can what is kept together with the entries added
later. -/
theorem C159_later_succeeds (C : Chemistry elems amt E atoms epa form) (D : Diagrams elems amt E atoms build) (A B : List η) (cut : ℚ)
    (hcut : 0 ≤ cut) (poly : Bool) (a l : List η) (ha : filterSet elems form epa build A cut poly = .ok a)
    (hl : filterSet elems form epa build (A ++ B) cut poly = .ok l) : ∃ m, filterSet elems form epa build (a ++ B) cut poly = .ok m := by
  refine ((C138_succeeds C D _ cut poly).1).mpr fun e he x hx => ?_
  have hR := ((C138_succeeds C D _ cut poly).1).mp ⟨l, hl⟩
  obtain ⟨hall, hRa, -⟩ := C138_succeeds_again C D A cut poly a ha hcut
  rcases List.mem_append.mp he with h | h
  · obtain ⟨r, hr, hrx⟩ := hRa e h x hx
    exact ⟨r, List.mem_append_left _ hr, hrx⟩
  · obtain ⟨r, hr, hrx⟩ := hR e (List.mem_append_right _ h) x hx
    rcases List.mem_append.mp hr with h' | h'
    · obtain ⟨t, ht, htx⟩ := (hall x).mpr ⟨r, h', by rw [hrx]; exact List.mem_singleton_self x⟩
      obtain ⟨r', hr', hrx'⟩ := hRa t ht x htx
      exact ⟨r', List.mem_append_left _ hr', hrx'⟩
    · exact ⟨r, List.mem_append_right _ h', hrx⟩

/-! ### Examples -/

section Examples

/-- The five entries of C138 (A, B, AB, A2B2, AB2) with other energies. -/
theorem chem (E : Fin 5 → ℚ) : Chemistry exElems exAmt E exAtoms (fun e => E e / exAtoms e) exForm :=
  { exChemistry with per := fun _ => rfl }

theorem refs : References exElems [0, 1, 2, 3, 4] := by unfold References; decide

theorem mem_all : ∀ t : Fin 5, t ∈ ([0, 1, 2, 3, 4] : List (Fin 5)).toFinset := by decide

/-- If no entry lies below `-u` per atom and `A2B2` or twice `AB` does lie there, this is the hull at A2B2. -/
theorem hull_at (E : Fin 5 → ℚ) (u d : ℚ) (hlow : ∀ t, -u * exAtoms t ≤ E t) (t : Fin 5) (k : ℚ) (hk : 0 ≤ k) (ht : ∀ x, exAmt 3 x = k * exAmt t x)
    (hE : k * E t = -u * exAtoms 3) (hd : E 3 - d * exAtoms 3 = -u * exAtoms 3) :
    Above exAmt E ([0, 1, 2, 3, 4] : List (Fin 5)).toFinset (exAtoms 3) 3 d := by
  unfold Above
  rw [hd]
  refine ⟨hE ▸ single _ t (mem_all t) k hk _ ht, ?_⟩
  rintro v ⟨w, w1, w2, rfl⟩
  rw [← mix_atoms (chem E) _ w 3 w2, Finset.mul_sum]
  exact Finset.sum_le_sum fun t ht => by
    have := mul_le_mul_of_nonneg_left (hlow t) (w1 t ht)
    linarith

theorem amt_three (x : Enum.Sym) : exAmt 3 x = 2 * exAmt 2 x := by
  by_cases hA : x = ['A']
  · subst hA; decide +kernel
  · by_cases hB : x = ['B']
    · subst hB; decide +kernel
    · unfold exAmt; rw [if_neg hA, if_neg hB, if_neg hA, if_neg hB, mul_zero]

/-- AB and A2B2 equally low. -/
def tieE (e : Fin 5) : ℚ := [0, 0, -2, -4, -17/10].getD e 0
/-- The same with AB lower by 1/10 per atom and A2B2 higher by 1/10 per atom. -/
def tieE' (e : Fin 5) : ℚ := [0, 0, -22/10, -36/10, -17/10].getD e 0

/-- **C159, the factor is attained**: energies wrong by 1/10 per atom, a distance from the hull wrong by 2/10. -/
theorem C159_error_tight : (∀ t, |tieE' t - tieE t| ≤ 1/10 * exAtoms t) ∧
    aboveHull exElems (pdOf exElems exAmt tieE exAtoms) [0, 1, 2, 3, 4] 3 = .ok 0 ∧
    aboveHull exElems (pdOf exElems exAmt tieE' exAtoms) [0, 1, 2, 3, 4] 3 = .ok (2 * (1/10)) := by
  refine ⟨by decide +kernel, ?_, ?_⟩
  · obtain ⟨d, hd, ha⟩ := C138_reported (chem tieE) (diagrams_exist (chem tieE)) _ refs 3 (by decide)
    rw [hd, above_unique (atoms_pos (chem tieE) 3) ha (hull_at tieE 1 0 (by decide +kernel) 3 1 zero_le_one (fun x => (one_mul _).symm)
      (by decide +kernel) (by decide +kernel))]
  · obtain ⟨d, hd, ha⟩ := C138_reported (chem tieE') (diagrams_exist (chem tieE')) _ refs 3 (by decide)
    rw [hd, above_unique (atoms_pos (chem tieE') 3) ha (hull_at tieE' (11/10) (2 * (1/10)) (by decide +kernel) 2 2 (by norm_num) amt_three
      (by decide +kernel) (by decide +kernel))]

/-- AB a little lower than A2B2. -/
def polyE (e : Fin 5) : ℚ := [0, 0, -2, -39/10, -17/10].getD e 0
/-- A2B2 a little lower than AB. -/
def polyE' (e : Fin 5) : ℚ := [0, 0, -39/20, -4, -17/10].getD e 0

/-- **C159, errors and the filter without polymorphs**: the bound on the cutoff does not carry over. Errors of 1/40 per atom change which
polymorph is kept; the one kept with the wrong energies is kept with no cutoff at all with the right ones. -/
theorem C159_error_polymorph_violated : (∀ t, |polyE' t - polyE t| ≤ 1/40 * exAtoms t) ∧
    (∃ l', filterSet exElems exForm (fun e => polyE' e / exAtoms e) (pdOf exElems exAmt polyE' exAtoms) [0, 1, 2, 3, 4] 0 false = .ok l' ∧ 3 ∈ l') ∧
    ∀ cut, ∃ l, filterSet exElems exForm (fun e => polyE e / exAtoms e) (pdOf exElems exAmt polyE exAtoms) [0, 1, 2, 3, 4] cut false = .ok l ∧
      3 ∉ l := by
  refine ⟨by decide +kernel, ?_, fun cut => ?_⟩
  · obtain ⟨l, hl⟩ := (C138_succeeds (chem polyE') (diagrams_exist (chem polyE')) [0, 1, 2, 3, 4] 0 false).1.mpr refs
    refine ⟨l, hl, (C138_ground_states (chem polyE') (diagrams_exist (chem polyE')) _ _ l hl (by unfold NoTies; decide +kernel) 3).mpr
      ⟨by decide, ⟨0, hull_at polyE' 1 0 (by decide +kernel) 3 1 zero_le_one (fun x => (one_mul _).symm) (by decide +kernel)
        (by decide +kernel), le_refl _⟩, by decide +kernel⟩⟩
  · obtain ⟨l, hl⟩ := (C138_succeeds (chem polyE) (diagrams_exist (chem polyE)) [0, 1, 2, 3, 4] cut false).1.mpr refs
    refine ⟨l, hl, fun h => ?_⟩
    have := ((C138_ground_states (chem polyE) (diagrams_exist (chem polyE)) _ _ l hl (by unfold NoTies; decide +kernel) 3).mp h).2.2 2
      (by decide) (by decide)
    exact absurd this (by decide +kernel)

/-- The hypotheses of `C159_add` and `C159_competitors` can be met: without AB, A2B2 is closer to the hull; raising A2B2 and lowering AB
takes A2B2 away from it. -/
example : (∃ d d', aboveHull exElems (pdOf exElems exAmt exE exAtoms) [0, 1, 3, 4] 3 = .ok d ∧
      aboveHull exElems (pdOf exElems exAmt exE exAtoms) [0, 1, 2, 3, 4] 3 = .ok d' ∧ d ≤ d') ∧
    ∃ d d', aboveHull exElems (pdOf exElems exAmt tieE exAtoms) [0, 1, 2, 3, 4] 3 = .ok d ∧
      aboveHull exElems (pdOf exElems exAmt tieE' exAtoms) [0, 1, 2, 3, 4] 3 = .ok d' ∧ d ≤ d' :=
  ⟨C159_add exChemistry (diagrams_exist exChemistry) _ _ (by decide) (by unfold References; decide) refs 3 (by decide),
    C159_competitors (chem tieE) (chem tieE') (diagrams_exist (chem tieE)) (diagrams_exist (chem tieE')) _ refs 3 (by decide)
      (by decide +kernel) (by decide +kernel)⟩

/-- The hypotheses of `C159_error_filter` can be met. -/
example : ∃ l l', filterSet exElems exForm (fun e => tieE e / exAtoms e) (pdOf exElems exAmt tieE exAtoms) [0, 1, 2, 3, 4] (1/20 + 2 * (1/10)) true = .ok l ∧
    filterSet exElems exForm (fun e => tieE' e / exAtoms e) (pdOf exElems exAmt tieE' exAtoms) [0, 1, 2, 3, 4] (1/20) true = .ok l' ∧
    ∀ e ∈ l', e ∈ l := by
  obtain ⟨l, hl⟩ := (C138_succeeds (chem tieE) (diagrams_exist (chem tieE)) [0, 1, 2, 3, 4] (1/20 + 2 * (1/10)) true).1.mpr refs
  obtain ⟨l', hl'⟩ := (C138_succeeds (chem tieE') (diagrams_exist (chem tieE')) [0, 1, 2, 3, 4] (1/20) true).1.mpr refs
  exact ⟨l, l', hl, hl', C159_error_filter (chem tieE) (chem tieE') (diagrams_exist (chem tieE)) (diagrams_exist (chem tieE')) _ _ _
    (fun t _ => C159_error_tight.1 t) l l' hl hl'⟩

/-- Other units (half the size) and another zero (1 per atom of A). -/
def refE (e : Fin 5) : ℚ := [1, 0, -3, -4, -24/10].getD e 0

/-- The hypotheses of `C159_reference` can be met. -/
example : ∃ d, aboveHull exElems (pdOf exElems exAmt exE exAtoms) [0, 1, 2, 3, 4] 3 = .ok d ∧
    aboveHull exElems (pdOf exElems exAmt refE exAtoms) [0, 1, 2, 3, 4] 3 = .ok (2 * d) :=
  C159_reference exChemistry (chem refE) (diagrams_exist exChemistry) (diagrams_exist (chem refE)) _ refs 2 (by norm_num)
    (fun x => if x = ['A'] then 1 else 0) (by decide +kernel) 3 (by decide)

/-- The hypotheses of `C159_later` can be met: AB2 and AB come later, without elemental entries. -/
example : ∃ a l m, filterSet exElems exForm (fun e => exE e / exAtoms e) (pdOf exElems exAmt exE exAtoms) [0, 1, 3] (1/20) false = .ok a ∧
    filterSet exElems exForm (fun e => exE e / exAtoms e) (pdOf exElems exAmt exE exAtoms) ([0, 1, 3] ++ [4, 2]) (1/20) false = .ok l ∧
    filterSet exElems exForm (fun e => exE e / exAtoms e) (pdOf exElems exAmt exE exAtoms) (a ++ [4, 2]) (1/20) false = .ok m ∧
    ∀ e, e ∈ l ↔ e ∈ m := by
  have D := diagrams_exist exChemistry
  obtain ⟨a, ha⟩ := (C138_succeeds exChemistry D [0, 1, 3] (1/20) false).1.mpr (by unfold References; decide)
  obtain ⟨l, hl⟩ := (C138_succeeds exChemistry D ([0, 1, 3] ++ [4, 2]) (1/20) false).1.mpr (by unfold References; decide)
  obtain ⟨m, hm⟩ := C159_later_succeeds exChemistry D [0, 1, 3] [4, 2] (1/20) (by norm_num) false a l ha hl
  exact ⟨a, l, m, ha, hl, hm, C159_later exChemistry D _ _ _ (by norm_num) false a l m ha hl hm fun _ => by unfold NoTies; decide +kernel⟩

end Examples

end Verif.Props.StabilityError
