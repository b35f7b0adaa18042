import Verif.Model.StabilityFilter
import Verif.Lemmas.Stability
import Verif.Props.EntrySet
import Verif.Props.Thermo
import Mathlib.Algebra.BigOperators.Group.List.Basic
import Mathlib.Algebra.Order.BigOperators.Group.List

/-!
Property C138: filtering an entry set by stability does not move the hull, so that filters compose and commute with taking a chemical
subsystem.
-/

namespace Verif.Props.StabilityFilter
open Verif.Py Verif.Model Verif.Model.Entries Verif.Model.Thermo Verif.Model.StabilityFilter Verif.Spec.Stability
open Verif.Lemmas.Stability Verif.Props.Thermo Verif.Props.EntrySet

set_option linter.unusedSectionVars false

variable {η φ : Type} [DecidableEq η] [DecidableEq φ]

/-- What the theorems assume about compositions (pymatgen): symbols are proper, the elements are those with a positive amount, atoms are
counted, and two entries have the same reduced formula exactly when one composition is a multiple of the other. -/
structure Chemistry (elems : η → List Enum.Sym) (amt : η → Enum.Sym → ℚ) (E atoms epa : η → ℚ) (form : η → φ) : Prop where
  sym : Symbols elems
  nonneg : ∀ e x, 0 ≤ amt e x
  elem : ∀ e x, 0 < amt e x ↔ x ∈ elems e
  count : ∀ e, atoms e = ((elems e).map (amt e)).sum
  per : ∀ e, epa e = E e / atoms e
  same : ∀ e e', form e = form e' ↔ ∃ k, 0 < k ∧ ∀ x, amt e x = k * amt e' x

/-- What the theorems assume about phase diagrams (pymatgen): they hold the entries given, report the distance from the hull of these
entries, and can be built exactly if each element has an elemental entry (`ValueError` otherwise). -/
structure Diagrams (elems : η → List Enum.Sym) (amt : η → Enum.Sym → ℚ) (E atoms : η → ℚ) (build : List η → Except Err (PD η)) : Prop where
  all : ∀ es pd, build es = .ok pd → ∀ e, e ∈ pd.all ↔ e ∈ es
  dist : ∀ es pd, build es = .ok pd → ∀ e ∈ es, Above amt E es.toFinset (atoms e) e (pd.ehull e)
  ok : ∀ es, es ≠ [] → ((∃ pd, build es = .ok pd) ↔ ∀ e ∈ es, ∀ x ∈ elems e, ∃ r ∈ es, elems r = [x])
  err : ∀ es r, build es = .error r → r = .valueError

variable {elems : η → List Enum.Sym} {amt : η → Enum.Sym → ℚ} {E atoms epa : η → ℚ} {form : η → φ} {build : List η → Except Err (PD η)}

section Helpers

theorem matter (C : Chemistry elems amt E atoms epa form) : Matter amt where
  nonneg := C.nonneg
  some e := by
    obtain ⟨x, hx⟩ := List.exists_mem_of_ne_nil _ (C.sym.ne e)
    exact ⟨x, (C.elem e x).mpr hx⟩

theorem atoms_pos (C : Chemistry elems amt E atoms epa form) (e : η) : 0 < atoms e := by
  obtain ⟨x, hx⟩ := List.exists_mem_of_ne_nil _ (C.sym.ne e)
  rw [C.count e]
  have h1 : amt e x ≤ ((elems e).map (amt e)).sum :=
    List.single_le_sum (fun y hy => by obtain ⟨z, -, rfl⟩ := List.mem_map.mp hy; exact C.nonneg e z) _ (List.mem_map.mpr ⟨x, hx, rfl⟩)
  exact lt_of_lt_of_le ((C.elem e x).mpr hx) h1

theorem amt_zero (C : Chemistry elems amt E atoms epa form) (e : η) (x : Enum.Sym) (h : x ∉ elems e) : amt e x = 0 :=
  le_antisymm (not_lt.mp fun h' => h ((C.elem e x).mp h')) (C.nonneg e x)

/-- The same formula: the same elements, and amounts, atoms in proportion. -/
theorem same_elems (C : Chemistry elems amt E atoms epa form) (e e' : η) (h : form e = form e') (x : Enum.Sym) :
    x ∈ elems e ↔ x ∈ elems e' := by
  obtain ⟨k, hk, ha⟩ := (C.same e e').mp h
  rw [← C.elem, ← C.elem, ha x]
  exact ⟨fun h => pos_of_mul_pos_right h hk.le, fun h => mul_pos hk h⟩

theorem same_atoms (C : Chemistry elems amt E atoms epa form) (e e' : η) (h : form e = form e') :
    ∃ k, 0 < k ∧ (∀ x, amt e x = k * amt e' x) ∧ atoms e = k * atoms e' := by
  obtain ⟨k, hk, ha⟩ := (C.same e e').mp h
  refine ⟨k, hk, ha, ?_⟩
  have hp : (elems e).Perm (elems e') := (List.perm_ext_iff_of_nodup (C.sym.nodup e) (C.sym.nodup e')).mpr (same_elems C e e' h)
  rw [C.count, C.count, (hp.map (amt e)).sum_eq, ← List.sum_map_mul_left]
  exact congrArg List.sum (List.map_congr_left fun x _ => ha x)

theorem scale {ε : Type} {amt : η → ε → ℚ} (S : Finset η) (c c' : ε → ℚ) (k : ℚ) (hk : 0 ≤ k) (hc : ∀ x, c x = k * c' x) (v : ℚ)
    (hv : v ∈ energies amt E S c') : k * v ∈ energies amt E S c := by
  obtain ⟨w, w1, w2, w3⟩ := hv
  refine ⟨fun e => k * w e, fun e he => mul_nonneg hk (w1 e he), fun x => ?_, ?_⟩
  · rw [hc x, ← w2 x, Finset.mul_sum]; exact Finset.sum_congr rfl fun e _ => by ring
  · rw [← w3, Finset.mul_sum]; exact Finset.sum_congr rfl fun e _ => by ring

/-- Entries of the same formula lie above the same point of the hull. -/
theorem same_above (C : Chemistry elems amt E atoms epa form) (S : Finset η) (e e' : η) (h : form e = form e') (d : ℚ)
    (hd : Above amt E S (atoms e) e d) : Above amt E S (atoms e') e' (d + (epa e' - epa e)) := by
  obtain ⟨k, hk, ha, hat⟩ := same_atoms C e e' h
  have hp := atoms_pos C e'
  have hv : E e' - (d + (epa e' - epa e)) * atoms e' = k⁻¹ * (E e - d * atoms e) := by
    rw [C.per, C.per, hat]; field_simp; ring
  have ha' : ∀ x, amt e' x = k⁻¹ * amt e x := fun x => by rw [ha x]; field_simp
  unfold Above at hd ⊢
  rw [hv]
  refine ⟨scale S _ _ _ (inv_nonneg.mpr hk.le) ha' _ hd.1, fun v h' => ?_⟩
  have h1 := hd.2 (scale S _ _ k hk.le ha v h')
  rw [inv_mul_le_iff₀ hk]; exact h1

/-- The hull over a chemical system is that over all entries. -/
theorem above_sub (C : Chemistry elems amt E atoms epa form) (es sub : List η) (K : List Enum.Sym)
    (hsub : ∀ x, x ∈ sub ↔ x ∈ es ∧ ∀ s ∈ elems x, s ∈ K) (e : η) (he : ∀ s ∈ elems e, s ∈ K) (n d : ℚ) :
    Above amt E sub.toFinset n e d ↔ Above amt E es.toFinset n e d := by
  unfold Above
  rw [restrict (matter C) (S := es.toFinset) (T := sub.toFinset)
    (fun x hx => List.mem_toFinset.mpr ((hsub x).mp (List.mem_toFinset.mp hx)).1) (amt e)
    fun x hx hn => by
      rw [List.mem_toFinset, hsub] at hn
      push Not at hn
      obtain ⟨s, hs, hsK⟩ := hn (List.mem_toFinset.mp hx)
      exact ⟨s, (C.elem x s).mpr hs, amt_zero C e s fun h => hsK (he s h)⟩]

/-- The entries admitted by the filter are those within the cutoff of the hull of the whole set. -/
theorem adm_iff (C : Chemistry elems amt E atoms epa form) (D : Diagrams elems amt E atoms build) (es : List η)
    (d : List (List Char × PD η)) (hd : expandPd elems build es = .ok d) (cut : ℚ) (e : η) :
    Admissible (d.map Prod.snd) cut e ↔ e ∈ es ∧ ∃ h, Above amt E es.toFinset (atoms e) e h ∧ h ≤ cut := by
  obtain ⟨h1, -, h3⟩ := C44_expand elems C.sym build es d hd
  constructor
  · rintro ⟨pd, hpd, hm, hle⟩
    obtain ⟨p, hp, rfl⟩ := List.mem_map.mp hpd
    obtain ⟨sub, hb, hs⟩ := h3 p hp
    have hes := (D.all sub _ hb e).mp hm
    exact ⟨((hs e).mp hes).1, _, (above_sub C es sub (system p.1) hs e ((hs e).mp hes).2 _ _).mp (D.dist sub _ hb e hes), hle⟩
  · rintro ⟨he, h, ha, hle⟩
    obtain ⟨p, hp, hc⟩ := h1 e he
    obtain ⟨sub, hb, hs⟩ := h3 p hp
    have hes := (hs e).mpr ⟨he, hc⟩
    have := (above_sub C es sub (system p.1) hs e hc _ _).mp (D.dist sub _ hb e hes)
    exact ⟨p.2, List.mem_map.mpr ⟨p, hp, rfl⟩, (D.all sub _ hb e).mpr hes, above_unique (atoms_pos C e) this ha ▸ hle⟩

theorem filterSet_ok (es : List η) (cut : ℚ) (poly : Bool) (l : List η) (h : filterSet elems form epa build es cut poly = .ok l) :
    ∃ d, expandPd elems build es = .ok d ∧ filterByStability form epa (d.map Prod.snd) cut poly = .ok l := by
  unfold filterSet at h
  cases hd : expandPd elems build es with
  | error r => rw [hd] at h; cases h
  | ok d => rw [hd] at h; exact ⟨d, rfl, h⟩

/-- What an entry returned by the filter is. -/
theorem mem_filter (C : Chemistry elems amt E atoms epa form) (D : Diagrams elems amt E atoms build) (es : List η) (cut : ℚ) (poly : Bool)
    (l : List η) (h : filterSet elems form epa build es cut poly = .ok l) (e : η) (he : e ∈ l) :
    e ∈ es ∧ ∃ x, Above amt E es.toFinset (atoms e) e x ∧ x ≤ cut := by
  obtain ⟨d, hd, hf⟩ := filterSet_ok es cut poly l h
  rw [← adm_iff C D es d hd cut e]
  cases poly with
  | true =>
    obtain ⟨l', hl, -, hm⟩ := C39_polymorphs form epa (d.map Prod.snd) cut
    rw [hf] at hl; cases hl
    exact (hm e).mp he
  | false =>
    obtain ⟨l', hl, -, hm, -⟩ := C39_filter form epa (d.map Prod.snd) cut
    rw [hf] at hl; cases hl
    exact (hm e he).1

/-- What is left out: entries beyond the cutoff, or (without polymorphs) entries that have a kept polymorph at most as high. -/
theorem not_mem (C : Chemistry elems amt E atoms epa form) (D : Diagrams elems amt E atoms build) (es : List η) (cut : ℚ) (poly : Bool)
    (l : List η) (h : filterSet elems form epa build es cut poly = .ok l) (e : η) (he : e ∈ es) (hn : e ∉ l) :
    (∃ x, Above amt E es.toFinset (atoms e) e x ∧ cut < x) ∨ (poly = false ∧ ∃ t ∈ l, form t = form e ∧ epa t ≤ epa e) := by
  obtain ⟨d, hd, hf⟩ := filterSet_ok es cut poly l h
  obtain ⟨x, hx⟩ := exists_above (E := E) (matter C) es.toFinset (atoms e) (atoms_pos C e) e (List.mem_toFinset.mpr he)
  rcases lt_or_ge cut x with hlt | hge
  · exact Or.inl ⟨x, hx, hlt⟩
  · have hadm := (adm_iff C D es d hd cut e).mpr ⟨he, x, hx, hge⟩
    cases poly with
    | true =>
      obtain ⟨l', hl, -, hm⟩ := C39_polymorphs form epa (d.map Prod.snd) cut
      rw [hf] at hl; cases hl
      exact absurd ((hm e).mpr hadm) hn
    | false =>
      obtain ⟨l', hl, -, hm, hex, -⟩ := C39_filter form epa (d.map Prod.snd) cut
      rw [hf] at hl; cases hl
      obtain ⟨t, ht, hft⟩ := hex e hadm
      exact Or.inr ⟨rfl, t, ht, hft, (hm t ht).2 e hadm hft.symm⟩

end Helpers

/-! ### C138 -/

/-- **C138, the hull.** For every entry set and every cutoff that is not negative, with or without polymorphs: the lowest energy of
every mixture of entries is the same before and after the filter. -/
theorem C138_hull (C : Chemistry elems amt E atoms epa form) (D : Diagrams elems amt E atoms build) (es : List η) (cut : ℚ) (poly : Bool)
    (l : List η) (h : filterSet elems form epa build es cut poly = .ok l) (hcut : 0 ≤ cut) (c : Enum.Sym → ℚ) (v : ℚ) :
    IsLeast (energies amt E es.toFinset c) v ↔ IsLeast (energies amt E l.toFinset c) v := by
  have hsub : l.toFinset ⊆ es.toFinset := fun e he =>
    List.mem_toFinset.mpr (mem_filter C D es cut poly l h e (List.mem_toFinset.mp he)).1
  refine least_iff (energies_mono hsub c) (keep (matter C) l.toFinset _ es.toFinset rfl hsub (fun u hu hul => ?_) c) v
  rcases not_mem C D es cut poly l h u (List.mem_toFinset.mp hu) fun h => hul (List.mem_toFinset.mpr h) with ⟨x, hx, hlt⟩ | ⟨-, t, ht, hf, hle⟩
  · exact Or.inl ⟨_, hx.1, by have := mul_pos (lt_of_le_of_lt hcut hlt) (atoms_pos C u); linarith⟩
  · obtain ⟨k, hk, ha, hat⟩ := same_atoms C u t hf.symm
    refine Or.inr ⟨t, List.mem_toFinset.mpr ht, k, hk.le, ha, ?_⟩
    rw [C.per, C.per, hat, div_le_div_iff₀ (atoms_pos C t) (mul_pos hk (atoms_pos C t))] at hle
    have hp := atoms_pos C t
    by_contra hn
    push Not at hn
    have := mul_lt_mul_of_pos_right hn hp
    linarith

/-- **C138, distances.** Every entry is as far above the hull of the filtered set as above that of the original set. -/
theorem C138_distances (C : Chemistry elems amt E atoms epa form) (D : Diagrams elems amt E atoms build) (es : List η) (cut : ℚ) (poly : Bool)
    (l : List η) (h : filterSet elems form epa build es cut poly = .ok l) (hcut : 0 ≤ cut) (e : η) (d : ℚ) :
    Above amt E es.toFinset (atoms e) e d ↔ Above amt E l.toFinset (atoms e) e d := C138_hull C D es cut poly l h hcut _ _

/-- **C138, with polymorphs** the filter returns exactly the entries within the cutoff of the hull of the whole set (although the
distances come from smaller phase diagrams). -/
theorem C138_members (C : Chemistry elems amt E atoms epa form) (D : Diagrams elems amt E atoms build) (es : List η) (cut : ℚ)
    (l : List η) (h : filterSet elems form epa build es cut true = .ok l) (e : η) :
    e ∈ l ↔ e ∈ es ∧ ∃ x, Above amt E es.toFinset (atoms e) e x ∧ x ≤ cut := by
  refine ⟨mem_filter C D es cut true l h e, fun ⟨he, x, hx, hle⟩ => ?_⟩
  by_contra hn
  rcases not_mem C D es cut true l h e he hn with ⟨y, hy, hlt⟩ | ⟨h0, -⟩
  · rw [above_unique (atoms_pos C e) hx hy] at hle; exact absurd hle (not_le.mpr hlt)
  · cases h0

/-- Entries of the same formula can be told apart by their energies per atom. -/
def NoTies (epa : η → ℚ) (form : η → φ) (es : List η) : Prop := ∀ e ∈ es, ∀ e' ∈ es, form e = form e' → epa e = epa e' → e = e'

/-- **C138, without polymorphs** the filter returns exactly the ground states of their formulas that lie within the cutoff (if no two
entries of a formula have the same energy). -/
theorem C138_ground_states (C : Chemistry elems amt E atoms epa form) (D : Diagrams elems amt E atoms build) (es : List η) (cut : ℚ)
    (l : List η) (h : filterSet elems form epa build es cut false = .ok l) (hties : NoTies epa form es) (e : η) :
    e ∈ l ↔ e ∈ es ∧ (∃ x, Above amt E es.toFinset (atoms e) e x ∧ x ≤ cut) ∧ ∀ e' ∈ es, form e' = form e → epa e ≤ epa e' := by
  constructor
  · intro he
    obtain ⟨hes, x, hx, hle⟩ := mem_filter C D es cut false l h e he
    refine ⟨hes, ⟨x, hx, hle⟩, fun e' he' hf => ?_⟩
    obtain ⟨d, hd, hf'⟩ := filterSet_ok es cut false l h
    obtain ⟨l', hl, -, hm, -⟩ := C39_filter form epa (d.map Prod.snd) cut
    rw [hf'] at hl; cases hl
    by_contra hlt
    push Not at hlt
    have h1 := same_above C es.toFinset e e' hf.symm x hx
    exact absurd ((hm e he).2 e' ((adm_iff C D es d hd cut e').mpr ⟨he', _, h1, by linarith⟩) hf) (not_le.mpr hlt)
  · rintro ⟨hes, ⟨x, hx, hle⟩, hmin⟩
    by_contra hn
    rcases not_mem C D es cut false l h e hes hn with ⟨y, hy, hlt⟩ | ⟨-, t, ht, hf, hle'⟩
    · rw [above_unique (atoms_pos C e) hx hy] at hle; exact absurd hle (not_le.mpr hlt)
    · have hte := (mem_filter C D es cut false l h t ht).1
      exact hn (hties t hte e hes hf (le_antisymm hle' (hmin t hte hf)) ▸ ht)

/-- **C138, filtering again** with the same or a larger cutoff returns the same entries. -/
theorem C138_again (C : Chemistry elems amt E atoms epa form) (D : Diagrams elems amt E atoms build) (es : List η) (cut cut' : ℚ) (poly : Bool)
    (l l' : List η) (h : filterSet elems form epa build es cut poly = .ok l) (h' : filterSet elems form epa build l cut' poly = .ok l')
    (hle : cut ≤ cut') (e : η) : e ∈ l' ↔ e ∈ l := by
  refine ⟨fun he => (mem_filter C D l cut' poly l' h' e he).1, fun he => ?_⟩
  obtain ⟨hes, x, hx, hxc⟩ := mem_filter C D es cut poly l h e he
  have hcut : 0 ≤ cut := (above_nonneg (atoms_pos C e) (List.mem_toFinset.mpr hes) hx).trans hxc
  have hx' := (C138_distances C D es cut poly l h hcut e x).mp hx
  by_contra hn
  rcases not_mem C D l cut' poly l' h' e he hn with ⟨y, hy, hlt⟩ | ⟨hp, t, ht, hf, -⟩
  · rw [above_unique (atoms_pos C e) hx' hy] at hxc; linarith
  · subst hp
    obtain ⟨d, hd, hf'⟩ := filterSet_ok es cut false l h
    obtain ⟨m, hm, -, -, -, huniq⟩ := C39_filter form epa (d.map Prod.snd) cut
    rw [hf'] at hm; cases hm
    exact hn (huniq t (mem_filter C D l cut' false l' h' t ht).1 e he hf ▸ ht)

/-- **C138, two cutoffs.** Filtering with one cutoff and then with another is filtering with the smaller one. -/
theorem C138_twice (C : Chemistry elems amt E atoms epa form) (D : Diagrams elems amt E atoms build) (es : List η) (cut cut' : ℚ) (poly : Bool)
    (l l' m : List η) (h : filterSet elems form epa build es cut poly = .ok l) (h' : filterSet elems form epa build l cut' poly = .ok l')
    (hm : filterSet elems form epa build es (min cut cut') poly = .ok m) (hties : poly = false → NoTies epa form es) (e : η) :
    e ∈ l' ↔ e ∈ m := by
  have hsub : ∀ x ∈ l, x ∈ es := fun x hx => (mem_filter C D es cut poly l h x hx).1
  rcases lt_or_ge cut 0 with hneg | hcut
  · have hl : ∀ x, x ∉ l := fun x hx => by
      obtain ⟨hes, y, hy, hle⟩ := mem_filter C D es cut poly l h x hx
      have := above_nonneg (atoms_pos C x) (List.mem_toFinset.mpr hes) hy
      linarith
    constructor
    · intro he; exact absurd (mem_filter C D l cut' poly l' h' e he).1 (hl e)
    · intro he
      obtain ⟨hes, y, hy, hle⟩ := mem_filter C D es _ poly m hm e he
      have := above_nonneg (atoms_pos C e) (List.mem_toFinset.mpr hes) hy
      have := min_le_left cut cut'
      linarith
  · have hdist := fun e d => C138_distances C D es cut poly l h hcut e d
    cases poly with
    | true =>
      rw [C138_members C D l cut' l' h', C138_members C D es _ m hm, C138_members C D es cut l h]
      constructor
      · rintro ⟨⟨hes, x, hx, hxc⟩, y, hy, hyc⟩
        rw [← hdist] at hy
        rw [above_unique (atoms_pos C e) hx hy] at hxc
        exact ⟨hes, y, hy, le_min hxc hyc⟩
      · rintro ⟨hes, x, hx, hxc⟩
        exact ⟨⟨hes, x, hx, hxc.trans (min_le_left _ _)⟩, x, (hdist e x).mp hx, hxc.trans (min_le_right _ _)⟩
    | false =>
      have ht := hties rfl
      rw [C138_ground_states C D l cut' l' h' (fun a ha b hb => ht a (hsub a ha) b (hsub b hb)), C138_ground_states C D es _ m hm ht,
        C138_ground_states C D es cut l h ht]
      constructor
      · rintro ⟨⟨hes, ⟨x, hx, hxc⟩, hmin⟩, ⟨y, hy, hyc⟩, -⟩
        rw [← hdist] at hy
        rw [above_unique (atoms_pos C e) hx hy] at hxc
        exact ⟨hes, ⟨y, hy, le_min hxc hyc⟩, hmin⟩
      · rintro ⟨hes, ⟨x, hx, hxc⟩, hmin⟩
        exact ⟨⟨hes, ⟨x, hx, hxc.trans (min_le_left _ _)⟩, hmin⟩, ⟨x, (hdist e x).mp hx, hxc.trans (min_le_right _ _)⟩,
          fun e' he' hf => hmin e' (hsub e' he') hf⟩

/-- **C138, subsystems.** Taking a chemical subsystem and filtering gives the same entries as filtering and taking the subsystem. -/
theorem C138_subsystem (C : Chemistry elems amt E atoms epa form) (D : Diagrams elems amt E atoms build) (es : List η) (K : List Enum.Sym)
    (cut : ℚ) (poly : Bool) (s a l b : List η) (hs : subsetInChemsys elems es K = .ok s) (ha : filterSet elems form epa build s cut poly = .ok a)
    (hl : filterSet elems form epa build es cut poly = .ok l) (hb : subsetInChemsys elems l K = .ok b)
    (hties : poly = false → NoTies epa form es) (e : η) : e ∈ a ↔ e ∈ b := by
  have sub : ∀ (t u : List η), subsetInChemsys elems t K = .ok u → ∀ x, x ∈ u ↔ x ∈ t ∧ ∀ y ∈ elems x, y ∈ K := fun t u h x => by
    obtain ⟨h1, h2⟩ := C40_subset elems t K
    by_cases hK : ∀ x ∈ K, ∃ e ∈ t, x ∈ elems e
    · obtain ⟨u', hu, hmem⟩ := h1 hK
      rw [h] at hu; cases hu
      exact hmem x
    · push Not at hK
      rw [h2 hK] at h; cases h
  have hS := sub es s hs
  have hd : ∀ x, (∀ y ∈ elems x, y ∈ K) → ∀ d, Above amt E s.toFinset (atoms x) x d ↔ Above amt E es.toFinset (atoms x) x d :=
    fun x hx d => above_sub C es s K hS x hx _ _
  rw [sub l b hb e]
  cases poly with
  | true =>
    rw [C138_members C D s cut a ha, C138_members C D es cut l hl, hS]
    constructor
    · rintro ⟨⟨h1, h2⟩, x, hx, hle⟩
      exact ⟨⟨h1, x, (hd e h2 x).mp hx, hle⟩, h2⟩
    · rintro ⟨⟨h1, x, hx, hle⟩, h2⟩
      exact ⟨⟨h1, h2⟩, x, (hd e h2 x).mpr hx, hle⟩
  | false =>
    have ht := hties rfl
    rw [C138_ground_states C D s cut a ha (fun p hp q hq => ht p ((hS p).mp hp).1 q ((hS q).mp hq).1),
      C138_ground_states C D es cut l hl ht, hS]
    constructor
    · rintro ⟨⟨h1, h2⟩, ⟨x, hx, hle⟩, hmin⟩
      exact ⟨⟨h1, ⟨x, (hd e h2 x).mp hx, hle⟩, fun e' he' hf =>
        hmin e' ((hS e').mpr ⟨he', fun y hy => h2 y ((same_elems C e' e hf y).mp hy)⟩) hf⟩, h2⟩
    · rintro ⟨⟨h1, ⟨x, hx, hle⟩, hmin⟩, h2⟩
      exact ⟨⟨h1, h2⟩, ⟨x, (hd e h2 x).mpr hx, hle⟩, fun e' he' hf => hmin e' ((hS e').mp he').1 hf⟩

/-- Every element of every entry has an elemental entry. -/
def References (elems : η → List Enum.Sym) (es : List η) : Prop := ∀ e ∈ es, ∀ x ∈ elems e, ∃ r ∈ es, elems r = [x]

theorem expand_ok (C : Chemistry elems amt E atoms epa form) (D : Diagrams elems amt E atoms build) (es : List η) :
    ((∃ d, expandPd elems build es = .ok d) ↔ References elems es) ∧ ∀ r, expandPd elems build es = .error r → r = .valueError := by
  refine ⟨⟨fun ⟨d, hd⟩ e he x hx => ?_, fun h => ?_⟩, fun r hr => ?_⟩
  · obtain ⟨h1, -, h3⟩ := C44_expand elems C.sym build es d hd
    obtain ⟨p, hp, hc⟩ := h1 e he
    obtain ⟨sub, hb, hs⟩ := h3 p hp
    have hes := (hs e).mpr ⟨he, hc⟩
    obtain ⟨r, hr, hr'⟩ := (D.ok sub (List.ne_nil_of_mem hes)).mp ⟨_, hb⟩ e hes x hx
    exact ⟨r, ((hs r).mp hr).1, hr'⟩
  · have hb : ∀ e ∈ es, ∃ pd, build (inside elems es e) = .ok pd := fun e he =>
      (D.ok _ (List.ne_nil_of_mem ((mem_inside elems es e e).mpr ⟨he, fun _ h => h⟩))).mpr fun y hy x hx => by
        obtain ⟨hye, hyi⟩ := (mem_inside elems es e y).mp hy
        obtain ⟨r, hr, hr'⟩ := h y hye x hx
        exact ⟨r, (mem_inside elems es e r).mpr ⟨hr, fun s hs => by
          rw [hr', List.mem_singleton] at hs; exact hs ▸ hyi x hx⟩, hr'⟩
    have key : ∀ (l : List η) (d : List (List Char × PD η)), (∀ e ∈ l, e ∈ es) → ∃ d', l.foldlM (expandStep elems build es) d = Except.ok d' := by
      intro l
      induction l with
      | nil => intro d _; exact ⟨d, rfl⟩
      | cons e l ih =>
        intro d hl
        obtain ⟨pd, hpd⟩ := hb e (hl e List.mem_cons_self)
        rw [List.foldlM_cons]
        have : ∃ d1, expandStep elems build es d e = .ok d1 := by
          unfold expandStep
          split_ifs
          · exact ⟨_, rfl⟩
          · unfold inside at hpd; rw [hpd]; exact ⟨_, rfl⟩
        obtain ⟨d1, hd1⟩ := this
        rw [hd1]
        exact ih d1 fun x hx => hl x (List.mem_cons_of_mem _ hx)
    exact key _ _ fun e he => (List.perm_insertionSort _ es).subset he
  · have key : ∀ (l : List η) (d : List (List Char × PD η)) (r : Err), l.foldlM (expandStep elems build es) d = .error r → r = .valueError := by
      intro l
      induction l with
      | nil => intro d r h; cases h
      | cons e l ih =>
        intro d r h
        rw [List.foldlM_cons] at h
        cases hs : expandStep elems build es d e with
        | ok d1 => rw [hs] at h; exact ih d1 r h
        | error r' =>
          rw [hs] at h
          cases h
          unfold expandStep at hs
          split_ifs at hs
          cases hb : build (es.filter fun x => (elems x).all fun s => s ∈ elems e) with
          | ok pd => rw [hb] at hs; cases hs
          | error r'' => rw [hb] at hs; cases hs; exact D.err _ _ hb
    exact key _ _ r hr

/-- **C138, success.** The filter succeeds exactly if every element has an elemental entry, whatever the cutoff; otherwise it raises
`ValueError`. -/
theorem C138_succeeds (C : Chemistry elems amt E atoms epa form) (D : Diagrams elems amt E atoms build) (es : List η) (cut : ℚ) (poly : Bool) :
    ((∃ l, filterSet elems form epa build es cut poly = .ok l) ↔ References elems es) ∧
    (¬ References elems es → filterSet elems form epa build es cut poly = .error .valueError) := by
  obtain ⟨h1, h2⟩ := expand_ok C D es
  have hok : ∀ d, ∃ l, filterByStability form epa (d : List (PD η)) cut poly = .ok l := fun d => by
    cases poly with
    | true => obtain ⟨l, hl, -⟩ := C39_polymorphs form epa d cut; exact ⟨l, hl⟩
    | false => obtain ⟨l, hl, -⟩ := C39_filter form epa d cut; exact ⟨l, hl⟩
  constructor
  · rw [← h1]
    constructor
    · rintro ⟨l, hl⟩
      obtain ⟨d, hd, -⟩ := filterSet_ok es cut poly l hl
      exact ⟨d, hd⟩
    · rintro ⟨d, hd⟩
      obtain ⟨l, hl⟩ := hok (d.map Prod.snd)
      exact ⟨l, by unfold filterSet; rw [hd]; exact hl⟩
  · intro hn
    unfold filterSet
    cases hd : expandPd elems build es with
    | ok d => exact absurd (h1.mp ⟨d, hd⟩) hn
    | error r => rw [h2 r hd]; rfl

/-- **C138, success afterwards.** With a cutoff that is not negative the filtered set still has all elements, each with an elemental
entry: it can be filtered again, and the same chemical subsystems can be taken and filtered. -/
theorem C138_succeeds_again (C : Chemistry elems amt E atoms epa form) (D : Diagrams elems amt E atoms build) (es : List η) (cut : ℚ)
    (poly : Bool) (l : List η) (h : filterSet elems form epa build es cut poly = .ok l) (hcut : 0 ≤ cut) :
    (∀ x, (∃ e ∈ l, x ∈ elems e) ↔ ∃ e ∈ es, x ∈ elems e) ∧ References elems l ∧
    ∀ K s, subsetInChemsys elems es K = .ok s → References elems s ∧ ∃ b, subsetInChemsys elems l K = .ok b := by
  have hR := ((C138_succeeds C D es cut poly).1).mp ⟨l, h⟩
  have hsub : ∀ x ∈ l, x ∈ es := fun x hx => (mem_filter C D es cut poly l h x hx).1
  -- the elemental ground state of every element is kept
  have hel : ∀ x, (∃ e ∈ es, x ∈ elems e) → ∃ r ∈ l, elems r = [x] := by
    rintro x ⟨e, he, hx⟩
    obtain ⟨r, hr, hrx⟩ := hR e he x hx
    obtain ⟨m, hm⟩ := exists_least (E := E) (matter C) es.toFinset (amt r) ⟨1 * E r, single _ r (List.mem_toFinset.mpr hr) 1 zero_le_one _ fun x => (one_mul _).symm⟩
    obtain ⟨w, w1, w2, -⟩ := ((C138_hull C D es cut poly l h hcut (amt r) m).mp hm).1
    have hpos : 0 < amt r x := (C.elem r x).mpr (by rw [hrx]; exact List.mem_singleton_self x)
    have hne : ∑ e ∈ l.toFinset, w e * amt e x ≠ 0 := by rw [w2 x]; exact hpos.ne'
    obtain ⟨t, ht, htne⟩ := Finset.exists_ne_zero_of_sum_ne_zero hne
    have htl := List.mem_toFinset.mp ht
    have hwt : 0 < w t := lt_of_le_of_ne (w1 t ht) fun h0 => htne (by rw [← h0, zero_mul])
    have honly : ∀ y ∈ elems t, y = x := fun y hy => by
      by_contra hyx
      have h0 : amt r y = 0 := amt_zero C r y (by rw [hrx, List.mem_singleton]; exact hyx)
      have h1 : ∀ i ∈ l.toFinset, 0 ≤ w i * amt i y := fun i hi => mul_nonneg (w1 i hi) (C.nonneg i y)
      have h2 : w t * amt t y ≤ 0 := le_trans (Finset.single_le_sum h1 ht) (by rw [w2 y, h0])
      exact absurd (mul_pos hwt ((C.elem t y).mpr hy)) (not_lt.mpr h2)
    refine ⟨t, htl, ?_⟩
    have hnd := C.sym.nodup t
    have hne := C.sym.ne t
    match helt : elems t, hne, hnd with
    | [y], _, _ => rw [honly y (by rw [helt]; exact List.mem_singleton_self y)]
    | y :: z :: rest, _, hnd =>
      have h1 := honly y (by rw [helt]; simp)
      have h2 := honly z (by rw [helt]; simp)
      rw [h1, h2] at hnd
      exact absurd hnd (by simp)
  have hall : ∀ x, (∃ e ∈ l, x ∈ elems e) ↔ ∃ e ∈ es, x ∈ elems e := fun x => by
    constructor
    · rintro ⟨e, he, hx⟩; exact ⟨e, hsub e he, hx⟩
    · intro hx
      obtain ⟨r, hr, hrx⟩ := hel x hx
      exact ⟨r, hr, by rw [hrx]; exact List.mem_singleton_self x⟩
  refine ⟨hall, fun e he x hx => hel x ⟨e, hsub e he, hx⟩, fun K s hs => ⟨?_, ?_⟩⟩
  · intro e he x hx
    obtain ⟨hc1, hc2⟩ := C40_subset elems es K
    unfold subsetInChemsys at hs
    split_ifs at hs with hc
    have hs' := Except.ok.inj hs
    rw [← hs', List.mem_filter] at he
    obtain ⟨r, hr, hrx⟩ := hR e he.1 x hx
    refine ⟨r, ?_, hrx⟩
    rw [← hs', List.mem_filter]
    refine ⟨hr, ?_⟩
    rw [hrx]
    have := List.all_eq_true.mp he.2 x hx
    simpa using this
  · obtain ⟨hc1, -⟩ := C40_subset elems l K
    obtain ⟨-, hc2⟩ := C40_subset elems es K
    have hin : ∀ x ∈ K, ∃ e ∈ l, x ∈ elems e := fun x hx => by
      rw [hall]
      by_contra hno
      push Not at hno
      rw [hc2 ⟨x, hx, hno⟩] at hs
      cases hs
    obtain ⟨b, hb, -⟩ := hc1 hin
    exact ⟨b, hb⟩

/-- **C138, reported distances.** `get_e_above_hull` of an entry set reports the distance from the hull of the whole set. -/
theorem C138_reported (C : Chemistry elems amt E atoms epa form) (D : Diagrams elems amt E atoms build) (es : List η)
    (hR : References elems es) (e : η) (he : e ∈ es) :
    ∃ d, aboveHull elems build es e = .ok d ∧ Above amt E es.toFinset (atoms e) e d := by
  obtain ⟨ds, hd⟩ := (expand_ok C D es).1.mpr hR
  obtain ⟨h1, -, h3⟩ := C44_expand elems C.sym build es ds hd
  obtain ⟨p, hp, hc⟩ := h1 e he
  have hcov := (covers_iff elems C.sym e p.1).mpr hc
  unfold aboveHull
  rw [hd]
  simp only [bind, Except.bind, Chempot.eAboveHull]
  cases hf : ds.find? fun p => covers elems e p.1 with
  | none => rw [List.find?_eq_none] at hf; exact absurd hcov (hf p hp)
  | some q =>
    have hq0 : covers elems e q.1 = true := by have := List.find?_some hf; exact this
    have hq := (covers_iff elems C.sym e q.1).mp hq0
    obtain ⟨sub, hb, hs⟩ := h3 q (List.mem_of_find?_eq_some hf)
    have hes := (hs e).mpr ⟨he, hq⟩
    exact ⟨q.2.ehull e, rfl, (above_sub C es sub (system q.1) hs e hq _ _).mp (D.dist sub _ hb e hes)⟩

/-- **C138 does not extend to negative cutoffs**: they leave nothing at all. -/
theorem C138_negative (C : Chemistry elems amt E atoms epa form) (D : Diagrams elems amt E atoms build) (es : List η) (cut : ℚ) (poly : Bool)
    (l : List η) (h : filterSet elems form epa build es cut poly = .ok l) (hcut : cut < 0) : l = [] := by
  refine List.eq_nil_iff_forall_not_mem.mpr fun x hx => ?_
  obtain ⟨hes, y, hy, hle⟩ := mem_filter C D es cut poly l h x hx
  have := above_nonneg (atoms_pos C x) (List.mem_toFinset.mpr hes) hy
  linarith

/-! ### Examples -/

section Examples

open Classical in
/-- Phase diagrams as assumed: the entries with their distances from the hull. -/
noncomputable def pdOf (elems : η → List Enum.Sym) (amt : η → Enum.Sym → ℚ) (E atoms : η → ℚ) (es : List η) : Except Err (PD η) :=
  if ∀ e ∈ es, ∀ x ∈ elems e, ∃ r ∈ es, elems r = [x] then
    .ok ⟨es, fun e => if h : ∃ d, Above amt E es.toFinset (atoms e) e d then h.choose else 0⟩
  else .error .valueError

/-- Phase diagrams with the assumed properties exist for every chemistry. -/
theorem diagrams_exist (C : Chemistry elems amt E atoms epa form) : Diagrams elems amt E atoms (pdOf elems amt E atoms) where
  all es pd h e := by
    unfold pdOf at h
    split_ifs at h
    rw [← Except.ok.inj h]
  dist es pd h e he := by
    unfold pdOf at h
    split_ifs at h
    rw [← Except.ok.inj h]
    have hex := exists_above (E := E) (matter C) es.toFinset (atoms e) (atoms_pos C e) e (List.mem_toFinset.mpr he)
    simp only [dif_pos hex]
    exact hex.choose_spec
  ok es _ := by
    constructor
    · rintro ⟨pd, h⟩
      unfold pdOf at h
      split_ifs at h with h0
      exact h0
    · intro h0
      exact ⟨_, by unfold pdOf; rw [if_pos h0]⟩
  err es r h := by
    unfold pdOf at h
    split_ifs at h
    cases h; rfl

/-- A, B, AB, a metastable A2B2 (1/4 eV/atom above the hull) and AB2 (1/10 eV/atom above the hull). -/
def exElems (e : Fin 5) : List Enum.Sym := if e = 0 then [['A']] else if e = 1 then [['B']] else [['A'], ['B']]
/-- Their amounts. -/
def exAmt (e : Fin 5) (x : Enum.Sym) : ℚ :=
  if x = ['A'] then [1, 0, 1, 2, 1].getD e 0 else if x = ['B'] then [0, 1, 1, 2, 2].getD e 0 else 0
/-- Their atoms. -/
def exAtoms (e : Fin 5) : ℚ := [1, 1, 2, 4, 3].getD e 0
/-- Their energies. -/
def exE (e : Fin 5) : ℚ := [0, 0, -2, -3, -17/10].getD e 0
/-- Their formulas. -/
def exForm (e : Fin 5) : Fin 4 := [0, 1, 2, 2, 3].getD e 0

theorem exChemistry : Chemistry exElems exAmt exE exAtoms (fun e => exE e / exAtoms e) exForm where
  sym := ⟨by decide, by decide, by decide⟩
  nonneg e x := by
    unfold exAmt
    split_ifs
    · revert e; decide +kernel
    · revert e; decide +kernel
    · exact le_refl _
  elem e x := by
    by_cases hA : x = ['A']
    · subst hA; revert e; decide +kernel
    · by_cases hB : x = ['B']
      · subst hB; revert e; decide +kernel
      · have h1 : exAmt e x = 0 := by unfold exAmt; rw [if_neg hA, if_neg hB]
        have h2 : x ∉ exElems e := by unfold exElems; split_ifs <;> simp [hA, hB]
        rw [h1]; simp [h2]
  count := by decide +kernel
  per _ := rfl
  same e e' := by
    constructor
    · intro h
      refine ⟨exAtoms e / exAtoms e', by revert e e'; decide +kernel, fun x => ?_⟩
      by_cases hA : x = ['A']
      · subst hA; revert e e'; decide +kernel
      · by_cases hB : x = ['B']
        · subst hB; revert e e'; decide +kernel
        · unfold exAmt; rw [if_neg hA, if_neg hB, if_neg hA, if_neg hB, mul_zero]
    · rintro ⟨k, -, hk⟩
      have h1 : exAmt e ['A'] * exAmt e' ['B'] = exAmt e ['B'] * exAmt e' ['A'] := by rw [hk ['A'], hk ['B']]; ring
      clear hk
      revert e e'; decide +kernel

/-- The hypotheses can be met: the five entries can be filtered, and the hull stays. -/
example : ∃ l, filterSet exElems exForm (fun e => exE e / exAtoms e) (pdOf exElems exAmt exE exAtoms) [0, 1, 2, 3, 4] (1/20) false = .ok l ∧
    NoTies (fun e => exE e / exAtoms e) exForm [0, 1, 2, 3, 4] ∧
    ∀ c v, IsLeast (energies exAmt exE [0, 1, 2, 3, 4].toFinset c) v ↔ IsLeast (energies exAmt exE l.toFinset c) v := by
  obtain ⟨l, hl⟩ := (C138_succeeds exChemistry (diagrams_exist exChemistry) [0, 1, 2, 3, 4] (1/20) false).1.mpr
    (by unfold References; decide)
  exact ⟨l, hl, by unfold NoTies; decide +kernel,
    C138_hull exChemistry (diagrams_exist exChemistry) _ _ _ l hl (by norm_num)⟩

/-- With the distances filled in: 1/20 keeps the three stable phases, 1/5 also AB2, and 3/10 with polymorphs everything. -/
example : let build := fun es : List (Fin 5) => (Except.ok ⟨es, fun e => [0, 0, 0, 1/4, 1/10].getD e 0⟩ : Except Err (PD (Fin 5)))
    filterSet exElems exForm (fun e => exE e / exAtoms e) build [0, 1, 2, 3, 4] (1/20) false = .ok [0, 1, 2] ∧
    filterSet exElems exForm (fun e => exE e / exAtoms e) build [0, 1, 3, 2, 4] (3/10) false = .ok [0, 1, 2, 4] ∧
    filterSet exElems exForm (fun e => exE e / exAtoms e) build [0, 1, 2, 3, 4] (3/10) true = .ok [0, 1, 2, 3, 4] ∧
    aboveHull exElems build [0, 1, 2, 3, 4] 4 = .ok (1/10) := by
  decide +kernel

/-- Filtering twice, filtering again with a larger cutoff, and filtering a subsystem: the hypotheses of `C138_twice`, `C138_again` and `C138_subsystem` are met. -/
example : ∃ l l' m, filterSet exElems exForm (fun e => exE e / exAtoms e) (pdOf exElems exAmt exE exAtoms) [0, 1, 2, 3, 4] (3/10) false = .ok l ∧
    filterSet exElems exForm (fun e => exE e / exAtoms e) (pdOf exElems exAmt exE exAtoms) l (1/20) false = .ok l' ∧
    filterSet exElems exForm (fun e => exE e / exAtoms e) (pdOf exElems exAmt exE exAtoms) [0, 1, 2, 3, 4] (min (3/10) (1/20)) false = .ok m ∧
    (∀ e, e ∈ l' ↔ e ∈ m) ∧ ∃ l'', filterSet exElems exForm (fun e => exE e / exAtoms e) (pdOf exElems exAmt exE exAtoms) l 1 false = .ok l'' ∧ ∀ e, e ∈ l'' ↔ e ∈ l := by
  have D := diagrams_exist exChemistry
  obtain ⟨l, hl⟩ := (C138_succeeds exChemistry D [0, 1, 2, 3, 4] (3/10) false).1.mpr (by unfold References; decide)
  have hR := (C138_succeeds_again exChemistry D _ _ _ l hl (by norm_num)).2.1
  obtain ⟨l', hl'⟩ := (C138_succeeds exChemistry D l (1/20) false).1.mpr hR
  obtain ⟨l'', hl''⟩ := (C138_succeeds exChemistry D l 1 false).1.mpr hR
  obtain ⟨m, hm⟩ := (C138_succeeds exChemistry D [0, 1, 2, 3, 4] (min (3/10) (1/20)) false).1.mpr (by unfold References; decide)
  exact ⟨l, l', m, hl, hl', hm, C138_twice exChemistry D _ _ _ false l l' m hl hl' hm fun _ => by unfold NoTies; decide +kernel, l'', hl'',
    C138_again exChemistry D _ _ _ false l l'' hl hl'' (by norm_num)⟩

/-- Without B the set cannot be filtered. -/
example : ¬ References exElems [0, 2] := by unfold References; decide

end Examples

end Verif.Props.StabilityFilter
