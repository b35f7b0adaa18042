import Verif.Props.StabilityError
import Verif.Props.TempLine
import Verif.Props.EntryTable
import Verif.Model.EntryFlow

/-!
Property C164: the stability of entries between two temperatures, and for mixed energies (`get_e_above_hull`, `filter_by_stability`,
`get_new_temperature`).
-/

set_option linter.unusedSectionVars false

namespace Verif.Props.StabilityTemp
open Verif.Py Verif.Model Verif.Model.Thermo Verif.Model.StabilityFilter Verif.Spec.Stability
open Verif.Model.Entries (Gibbs PD Exper Adj experInit)
open Verif.Model.EntryFlow (Ent World)
open Verif.Props.EntryTable (line Neighbours Grid C43_linear)
open Verif.Model.Gibbs (Env)
open Verif.Lemmas.Stability Verif.Props.StabilityFilter Verif.Props.StabilityError
open Verif.Props.TempLine (heat fixed rise share Straight energy_at energy_at_element carried_bend)
open Verif.Props.Reference (carried)
open Verif.Lemmas.Exc

variable {η φ κ : Type} [DecidableEq η] [DecidableEq φ] [DecidableEq κ]
variable {elems : η → List Enum.Sym} {amt : η → Enum.Sym → ℚ} {E1 E2 E atoms epa1 epa2 epa : η → ℚ} {form : η → φ}
variable {build1 build2 build : List η → Except Err (PD η)}

/-! ### Specification -/

/-- The energy of each entry at a temperature. -/
def Energies (X : Chem κ Enum.Sym) (G : Env Enum.Sym) (g : η → Gibbs κ) (t : ℚ) (es : List η) (E : η → ℚ) : Prop :=
  ∀ e ∈ es, ∃ e', (g e).newTemperature (heat X G) t = .ok e' ∧ E e = e'.energy (heat X G)

/-- How far the logarithmic part of the correction bends above its interpolation, per atom. -/
def bend (log : ℚ → ℚ) (s t1 t2 t : ℚ) : ℚ := 181 / 1000 * (log t - ((1 - s) * log t1 + s * log t2))

/-- The same for entries of all kinds: computed, experimental and interpolated. -/
def EnergiesAll {φ' : Type} (W : World κ Enum.Sym φ') (g : η → Ent κ) (t : ℚ) (es : List η) (E : η → ℚ) : Prop :=
  ∀ e ∈ es, ∃ e', (g e).newTemperature W t = .ok e' ∧ E e = e'.energy W

/-- The temperatures are in one interval of the table of an experimental entry (which is not needed for formulas without a table). -/
def Tabulated {φ' : Type} (W : World κ Enum.Sym φ') (t1 t2 : ℚ) (c : κ) : Prop :=
  W.deprecated c = false → ∃ d k a0 g0 a1 g1, W.table c = some d ∧ Grid k d ∧ Neighbours d a0 g0 a1 g1 ∧ a0 ≤ t1 ∧ t2 ≤ a1

/-- How far the energy of an entry can be above the interpolation, per atom: only that of computed compounds is. -/
def slack (X : Chem κ Enum.Sym) (G : Env Enum.Sym) (s t1 t2 t : ℚ) : Ent κ → ℚ
  | .gibbs e => if (X.elems e.comp).length = 1 then 0 else bend G.log s t1 t2 t
  | .exper _ => 0
  | .interp _ _ _ => 0

/-! ### Helper lemmas -/

/-- The value of an adjustment per Kelvin, after `get_new_temperature`. -/
def rate : Adj → ℚ
  | .co2 n _ lnp => n * (1 / 3 * (8617 / 100000000) * lnp)
  | _ => 0

theorem adjs_at (t : ℚ) : ∀ (l l' : List Adj), l.mapM (Adj.setTemp t) = .ok l' → (l'.map Adj.value).sum = t * (l.map rate).sum
  | [], l', h => by
    have : l' = [] := (Except.ok.inj h).symm
    subst this
    simp
  | a :: l, l', h => by
    rw [List.mapM_cons, bind_ok] at h
    obtain ⟨a', ha, h⟩ := h
    rw [bind_ok] at h
    obtain ⟨m, hm, h⟩ := h
    have h := Except.ok.inj h
    subst h
    have ih := adjs_at t l m hm
    cases a with
    | const n v => cases ha
    | carbonate n v => cases ha
    | co2 n u lnp =>
      have ha := Except.ok.inj ha
      subst ha
      simp only [List.map_cons, List.sum_cons, ih, Adj.value, rate]
      ring

/-- The energy of an experimental entry at a temperature in an interval of its table. -/
theorem exper_at (table : κ → Option (List (ℚ × ℚ))) (dep : κ → Bool) (e e' : Exper κ) (t : ℚ) (h : e.newTemperature table dep t = .ok e') (d : List (ℚ × ℚ))
    (k : ℤ) (a0 g0 a1 g1 : ℚ) (ht : dep e.comp = false → table e.comp = some d ∧ Grid k d ∧ Neighbours d a0 g0 a1 g1 ∧ a0 ≤ t ∧ t ≤ a1) :
    e'.energy = (if dep e.comp then 0 else line a0 g0 a1 g1 t) + t * (e.adjs.map rate).sum := by
  unfold Exper.newTemperature at h
  rw [bind_ok] at h
  obtain ⟨l, hl, h⟩ := h
  unfold experInit at h
  split_ifs at h with hd
  · have h := Except.ok.inj h
    subst h
    rw [if_pos hd]
    unfold Exper.energy
    rw [adjs_at t _ _ hl]
  · rw [if_neg hd]
    obtain ⟨h1, h2, h3, h4, h5⟩ := ht (by simpa using hd)
    rw [bind_ok] at h
    obtain ⟨d', hd', h⟩ := h
    rw [bind_ok] at h
    obtain ⟨v, hv, h⟩ := h
    have h := Except.ok.inj h
    subst h
    have : d' = d := by
      rw [h1] at hd'
      unfold Verif.Model.Entries.validate at hd'
      dsimp only at hd'
      split at hd'
      · split_ifs at hd'
        exact (Except.ok.inj hd').symm
      · cases hd'
    subst this
    rw [C43_linear d' k h2 a0 g0 a1 g1 t h3 h4 h5] at hv
    unfold Exper.energy
    rw [adjs_at t _ _ hl, ← Except.ok.inj hv]

theorem above_mix (C : Chemistry elems amt E atoms epa form) (S : Finset η) (s J : ℚ) (hs0 : 0 ≤ s) (hs1 : s ≤ 1) (e : η)
    (hlow : ∀ t ∈ S, (1 - s) * E1 t + s * E2 t ≤ E t) (hup : E e ≤ (1 - s) * E1 e + s * E2 e + J * atoms e) (d1 d2 d : ℚ)
    (h1 : Above amt E1 S (atoms e) e d1) (h2 : Above amt E2 S (atoms e) e d2) (h : Above amt E S (atoms e) e d) :
    d ≤ (1 - s) * d1 + s * d2 + J := by
  obtain ⟨w, w1, w2, w3⟩ := h.1
  have hp := atoms_pos C e
  have k1 : E1 e - d1 * atoms e ≤ ∑ t ∈ S, w t * E1 t := h1.2 ⟨w, w1, w2, rfl⟩
  have k2 : E2 e - d2 * atoms e ≤ ∑ t ∈ S, w t * E2 t := h2.2 ⟨w, w1, w2, rfl⟩
  have k3 : (1 - s) * (∑ t ∈ S, w t * E1 t) + s * (∑ t ∈ S, w t * E2 t) ≤ ∑ t ∈ S, w t * E t := by
    rw [Finset.mul_sum, Finset.mul_sum, ← Finset.sum_add_distrib]
    refine Finset.sum_le_sum fun t ht => ?_
    have := mul_le_mul_of_nonneg_left (hlow t ht) (w1 t ht)
    linarith
  have m1 := mul_le_mul_of_nonneg_left k1 (sub_nonneg.mpr hs1)
  have m2 := mul_le_mul_of_nonneg_left k2 hs0
  have h4 : d * atoms e ≤ ((1 - s) * d1 + s * d2 + J) * atoms e := by linarith
  exact le_of_mul_le_mul_right h4 hp

/-- Between two nodes of the table the energy of a compound is above the interpolation by `bend` per atom, that of an element on it. -/
theorem energies_bend (X : Chem κ Enum.Sym) (G : Env Enum.Sym) (g : η → Gibbs κ) (s t1 t2 t : ℚ) (hs : t = (1 - s) * t1 + s * t2) (ht : t1 < t2)
    (es : List η) (h1 : Energies X G g t1 es E1) (h2 : Energies X G g t2 es E2) (h : Energies X G g t es E)
    (hmu : ∀ e ∈ es, ∀ x ∈ X.elems (g e).comp, Straight G t1 t2 t x) (e : η) (he : e ∈ es) :
    E e = (1 - s) * E1 e + s * E2 e + (if (X.elems (g e).comp).length = 1 then 0 else bend G.log s t1 t2 t) * X.natoms (g e).comp := by
  obtain ⟨a1, b1, c1⟩ := h1 e he
  obtain ⟨a2, b2, c2⟩ := h2 e he
  obtain ⟨a, b, c⟩ := h e he
  rw [c1, c2, c]
  by_cases hc : (X.elems (g e).comp).length = 1
  · rw [if_pos hc, (energy_at_element X G _ _ _ hc b1).2, (energy_at_element X G _ _ _ hc b2).2, (energy_at_element X G _ _ _ hc b).2]
    ring
  · rw [if_neg hc, (energy_at X G _ _ _ hc b1).2, (energy_at X G _ _ _ hc b2).2, (energy_at X G _ _ _ hc b).2]
    have hb := carried_bend G t1 t2 t (X.elems (g e).comp) (X.amt (g e).comp) (hmu e he)
    have hD : 0 < t2 - t1 := sub_pos.mpr ht
    have e1 : t2 - t = (1 - s) * (t2 - t1) := by rw [hs]; ring
    have e2 : t - t1 = s * (t2 - t1) := by rw [hs]; ring
    rw [e1, e2] at hb
    have hb' : carried X (share G t) (g e).comp - (1 - s) * carried X (share G t1) (g e).comp - s * carried X (share G t2) (g e).comp
        = bend G.log s t1 t2 t * X.natoms (g e).comp := by
      unfold carried bend Chem.natoms
      apply mul_left_cancel₀ hD.ne'
      linarith
    rw [show t * rise X G (g e) = ((1 - s) * t1 + s * t2) * rise X G (g e) by rw [← hs]]
    linarith

/-- Entries of all kinds. -/
theorem all_bend {φ' : Type} (X : Chem κ Enum.Sym) (G : Env Enum.Sym) (W : World κ Enum.Sym φ') (hW : W.thermo = heat X G) (g : η → Ent κ) (s t1 t2 t : ℚ)
    (hs0 : 0 ≤ s) (hs1 : s ≤ 1) (hs : t = (1 - s) * t1 + s * t2) (ht : t1 < t2)
    (es : List η) (h1 : EnergiesAll W g t1 es E1) (h2 : EnergiesAll W g t2 es E2) (h : EnergiesAll W g t es E)
    (hmu : ∀ e ∈ es, ∀ x ∈ X.elems (g e).comp, Straight G t1 t2 t x) (htab : ∀ e ∈ es, ∀ a, g e = .exper a → Tabulated W t1 t2 a.comp) (e : η) (he : e ∈ es) :
    E e = (1 - s) * E1 e + s * E2 e + slack X G s t1 t2 t (g e) * X.natoms (g e).comp := by
  obtain ⟨a1, b1, c1⟩ := h1 e he
  obtain ⟨a2, b2, c2⟩ := h2 e he
  obtain ⟨a, b, c⟩ := h e he
  have hmu := hmu e he
  have htab := htab e he
  generalize g e = x at *
  cases x with
  | gibbs y =>
    simp only [Ent.newTemperature, map_ok, hW] at b1 b2 b
    obtain ⟨y1, b1, rfl⟩ := b1
    obtain ⟨y2, b2, rfl⟩ := b2
    obtain ⟨y', b, rfl⟩ := b
    have := energies_bend (η := Unit) X G (fun _ => y) s t1 t2 t hs ht [()] (E1 := fun _ => E1 e) (E2 := fun _ => E2 e) (E := fun _ => E e)
      (fun _ _ => ⟨y1, b1, by rw [c1, Ent.energy, hW]⟩) (fun _ _ => ⟨y2, b2, by rw [c2, Ent.energy, hW]⟩) (fun _ _ => ⟨y', b, by rw [c, Ent.energy, hW]⟩)
      (fun _ _ => hmu) () (by simp)
    exact this
  | exper y =>
    simp only [Ent.newTemperature, map_ok] at b1 b2 b
    obtain ⟨y1, b1, rfl⟩ := b1
    obtain ⟨y2, b2, rfl⟩ := b2
    obtain ⟨y', b, rfl⟩ := b
    have l1 : t1 ≤ t := by rw [hs]; nlinarith [mul_nonneg hs0 (sub_pos.mpr ht).le]
    have l2 : t ≤ t2 := by rw [hs]; nlinarith [mul_nonneg (sub_nonneg.mpr hs1) (sub_pos.mpr ht).le]
    by_cases hd : W.deprecated y.comp = false
    · obtain ⟨d, k, p0, q0, p1, q1, k1, k2, k3, k4, k5⟩ := htab y rfl hd
      have hp : p0 < p1 := by linarith
      rw [c1, c2, c]
      simp only [Ent.energy]
      rw [exper_at _ _ _ _ _ b1 d k p0 q0 p1 q1 fun _ => ⟨k1, k2, k3, k4, by linarith⟩, exper_at _ _ _ _ _ b2 d k p0 q0 p1 q1 fun _ => ⟨k1, k2, k3, by linarith, k5⟩,
        exper_at _ _ _ _ _ b d k p0 q0 p1 q1 fun _ => ⟨k1, k2, k3, by linarith, by linarith⟩, hd, hs]
      simp only [slack, line]
      have : p1 - p0 ≠ 0 := (sub_pos.mpr hp).ne'
      simp only [Bool.false_eq_true, if_false]
      field_simp
      ring
    · rw [c1, c2, c]
      simp only [Ent.energy]
      rw [exper_at _ _ _ _ _ b1 [] 0 0 0 0 0 fun h => absurd h hd, exper_at _ _ _ _ _ b2 [] 0 0 0 0 0 fun h => absurd h hd,
        exper_at _ _ _ _ _ b [] 0 0 0 0 0 fun h => absurd h hd, hs]
      have : W.deprecated y.comp = true := by simpa using hd
      simp only [slack, this, if_true]
      ring
  | interp c0 v m =>
    cases b1; cases b2; cases b
    rw [c1, c2, c]
    simp only [Ent.energy, slack]
    ring

/-! ### C164 -/

/-- **C164, mixed energies.** If the energy of every entry is at least the mean of two energies (with weights `1 - s` and `s`), and that of one entry at
most `J` per atom above it, then this entry is at most `J` further from the hull than the mean of its two distances. -/
theorem C164_mix (C1 : Chemistry elems amt E1 atoms epa1 form) (C2 : Chemistry elems amt E2 atoms epa2 form) (C : Chemistry elems amt E atoms epa form)
    (D1 : Diagrams elems amt E1 atoms build1) (D2 : Diagrams elems amt E2 atoms build2) (D : Diagrams elems amt E atoms build) (es : List η)
    (hR : References elems es) (s J : ℚ) (hs0 : 0 ≤ s) (hs1 : s ≤ 1) (hlow : ∀ t ∈ es, (1 - s) * E1 t + s * E2 t ≤ E t) (e : η) (he : e ∈ es)
    (hup : E e ≤ (1 - s) * E1 e + s * E2 e + J * atoms e) :
    ∃ d1 d2 d, aboveHull elems build1 es e = .ok d1 ∧ aboveHull elems build2 es e = .ok d2 ∧ aboveHull elems build es e = .ok d ∧
      d ≤ (1 - s) * d1 + s * d2 + J := by
  obtain ⟨d1, h1, a1⟩ := C138_reported C1 D1 es hR e he
  obtain ⟨d2, h2, a2⟩ := C138_reported C2 D2 es hR e he
  obtain ⟨d, h, a⟩ := C138_reported C D es hR e he
  exact ⟨d1, d2, d, h1, h2, h, above_mix C es.toFinset s J hs0 hs1 e (fun t ht => hlow t (List.mem_toFinset.mp ht)) hup d1 d2 d a1 a2 a⟩

/-- **C164, mixed energies and the filter.** What the filter keeps with both energies, it keeps with their mean (polymorphs included). -/
theorem C164_mix_filter (C1 : Chemistry elems amt E1 atoms epa1 form) (C2 : Chemistry elems amt E2 atoms epa2 form) (C : Chemistry elems amt E atoms epa form)
    (D1 : Diagrams elems amt E1 atoms build1) (D2 : Diagrams elems amt E2 atoms build2) (D : Diagrams elems amt E atoms build) (es : List η)
    (s J cut : ℚ) (hs0 : 0 ≤ s) (hs1 : s ≤ 1) (hlow : ∀ t ∈ es, (1 - s) * E1 t + s * E2 t ≤ E t) (l1 l2 l : List η)
    (h1 : filterSet elems form epa1 build1 es cut true = .ok l1) (h2 : filterSet elems form epa2 build2 es cut true = .ok l2)
    (h : filterSet elems form epa build es (cut + J) true = .ok l) (e : η) (he1 : e ∈ l1) (he2 : e ∈ l2)
    (hup : E e ≤ (1 - s) * E1 e + s * E2 e + J * atoms e) : e ∈ l := by
  obtain ⟨hes, d1, a1, k1⟩ := (C138_members C1 D1 es cut l1 h1 e).mp he1
  obtain ⟨-, d2, a2, k2⟩ := (C138_members C2 D2 es cut l2 h2 e).mp he2
  obtain ⟨d, a⟩ := exists_above (E := E) (matter C) es.toFinset (atoms e) (atoms_pos C e) e (List.mem_toFinset.mpr hes)
  have := above_mix C es.toFinset s J hs0 hs1 e (fun t ht => hlow t (List.mem_toFinset.mp ht)) hup d1 d2 d a1 a2 a
  have m1 := mul_le_mul_of_nonneg_left k1 (sub_nonneg.mpr hs1)
  have m2 := mul_le_mul_of_nonneg_left k2 hs0
  exact (C138_members C D es _ l h e).mpr ⟨hes, d, a, by linarith⟩

/-- **C164, temperature.** Between two neighbouring nodes of the table of the elements, a computed entry is at most `bend` further from the hull than the
interpolated distances at the nodes, an elemental one not at all: so an entry stable at both nodes is at most `bend` above the hull in between. -/
theorem C164_temperature (X : Chem κ Enum.Sym) (G : Env Enum.Sym) (g : η → Gibbs κ)
    (C1 : Chemistry (fun e => X.elems (g e).comp) (fun e => X.amt (g e).comp) E1 (fun e => X.natoms (g e).comp) epa1 form)
    (C2 : Chemistry (fun e => X.elems (g e).comp) (fun e => X.amt (g e).comp) E2 (fun e => X.natoms (g e).comp) epa2 form)
    (C : Chemistry (fun e => X.elems (g e).comp) (fun e => X.amt (g e).comp) E (fun e => X.natoms (g e).comp) epa form)
    (D1 : Diagrams (fun e => X.elems (g e).comp) (fun e => X.amt (g e).comp) E1 (fun e => X.natoms (g e).comp) build1)
    (D2 : Diagrams (fun e => X.elems (g e).comp) (fun e => X.amt (g e).comp) E2 (fun e => X.natoms (g e).comp) build2)
    (D : Diagrams (fun e => X.elems (g e).comp) (fun e => X.amt (g e).comp) E (fun e => X.natoms (g e).comp) build) (es : List η)
    (hR : References (fun e => X.elems (g e).comp) es) (s t1 t2 t : ℚ) (hs0 : 0 ≤ s) (hs1 : s ≤ 1) (hs : t = (1 - s) * t1 + s * t2) (ht : t1 < t2)
    (hlog : (1 - s) * G.log t1 + s * G.log t2 ≤ G.log t) (hmu : ∀ e ∈ es, ∀ x ∈ X.elems (g e).comp, Straight G t1 t2 t x)
    (h1 : Energies X G g t1 es E1) (h2 : Energies X G g t2 es E2) (h : Energies X G g t es E) (e : η) (he : e ∈ es) :
    ∃ d1 d2 d, aboveHull (fun e => X.elems (g e).comp) build1 es e = .ok d1 ∧ aboveHull (fun e => X.elems (g e).comp) build2 es e = .ok d2 ∧
      aboveHull (fun e => X.elems (g e).comp) build es e = .ok d ∧
      d ≤ (1 - s) * d1 + s * d2 + (if (X.elems (g e).comp).length = 1 then 0 else bend G.log s t1 t2 t) := by
  have hJ : 0 ≤ bend G.log s t1 t2 t := by
    unfold bend
    have := sub_nonneg.mpr hlog
    positivity
  refine C164_mix C1 C2 C D1 D2 D es hR s _ hs0 hs1 (fun x hx => ?_) e he (energies_bend X G g s t1 t2 t hs ht es h1 h2 h hmu e he).le
  rw [energies_bend X G g s t1 t2 t hs ht es h1 h2 h hmu x hx]
  have hp := atoms_pos C x
  split_ifs
  · simp
  · have := mul_nonneg hJ hp.le
    linarith


/-- **C164, temperature, all entries.** The same with experimental entries (whose tables are read on a line between nodes, with the corrections of the
atmosphere proportional to the temperature) and interpolated entries (which keep their energy): these are no further from the hull than interpolation says. -/
theorem C164_entries {φ' : Type} (X : Chem κ Enum.Sym) (G : Env Enum.Sym) (W : World κ Enum.Sym φ') (hW : W.thermo = heat X G) (g : η → Ent κ)
    (C1 : Chemistry (fun e => X.elems (g e).comp) (fun e => X.amt (g e).comp) E1 (fun e => X.natoms (g e).comp) epa1 form)
    (C2 : Chemistry (fun e => X.elems (g e).comp) (fun e => X.amt (g e).comp) E2 (fun e => X.natoms (g e).comp) epa2 form)
    (C : Chemistry (fun e => X.elems (g e).comp) (fun e => X.amt (g e).comp) E (fun e => X.natoms (g e).comp) epa form)
    (D1 : Diagrams (fun e => X.elems (g e).comp) (fun e => X.amt (g e).comp) E1 (fun e => X.natoms (g e).comp) build1)
    (D2 : Diagrams (fun e => X.elems (g e).comp) (fun e => X.amt (g e).comp) E2 (fun e => X.natoms (g e).comp) build2)
    (D : Diagrams (fun e => X.elems (g e).comp) (fun e => X.amt (g e).comp) E (fun e => X.natoms (g e).comp) build) (es : List η)
    (hR : References (fun e => X.elems (g e).comp) es) (s t1 t2 t : ℚ) (hs0 : 0 ≤ s) (hs1 : s ≤ 1) (hs : t = (1 - s) * t1 + s * t2) (ht : t1 < t2)
    (hlog : (1 - s) * G.log t1 + s * G.log t2 ≤ G.log t) (hmu : ∀ e ∈ es, ∀ x ∈ X.elems (g e).comp, Straight G t1 t2 t x)
    (htab : ∀ e ∈ es, ∀ a, g e = .exper a → Tabulated W t1 t2 a.comp)
    (h1 : EnergiesAll W g t1 es E1) (h2 : EnergiesAll W g t2 es E2) (h : EnergiesAll W g t es E) (e : η) (he : e ∈ es) :
    ∃ d1 d2 d, aboveHull (fun e => X.elems (g e).comp) build1 es e = .ok d1 ∧ aboveHull (fun e => X.elems (g e).comp) build2 es e = .ok d2 ∧
      aboveHull (fun e => X.elems (g e).comp) build es e = .ok d ∧ d ≤ (1 - s) * d1 + s * d2 + slack X G s t1 t2 t (g e) := by
  refine C164_mix C1 C2 C D1 D2 D es hR s _ hs0 hs1 (fun x hx => ?_) e he (all_bend X G W hW g s t1 t2 t hs0 hs1 hs ht es h1 h2 h hmu htab e he).le
  rw [all_bend X G W hW g s t1 t2 t hs0 hs1 hs ht es h1 h2 h hmu htab x hx]
  have hp := atoms_pos C x
  have hJ : 0 ≤ slack X G s t1 t2 t (g x) := by
    have hb : 0 ≤ bend G.log s t1 t2 t := by
      unfold bend
      have := sub_nonneg.mpr hlog
      positivity
    cases g x with
    | gibbs y => simp only [slack]; split_ifs <;> simp [hb]
    | exper y => exact le_refl _
    | interp c v m => exact le_refl _
  have := mul_nonneg hJ hp.le
  linarith

/-! ### Examples -/

/-- The five entries of `exChemistry` as compositions. -/
def exX : Chem (Fin 5) Enum.Sym := ⟨exAmt, exElems, id, fun _ => 1⟩

/-- Masses, a logarithm, no reduction and potentials on a line. -/
def exG : Env Enum.Sym where
  m _ := 120
  log x := if x = 5 then 161 / 100 else if x = 300 then 57 / 10 else if x = 400 then 599 / 100 else 621 / 100
  factor _ := 1
  mu t s := .ok (if s = ['A'] then -72981 / 125000 - 101053 / 50000000 * (t - 300) else 0)

/-- Their free energies per atom. -/
def exg (e : Fin 5) : Gibbs (Fin 5) := ⟨e, [0, 0, 0, 1, 3].getD e 0, 5, 300, [], none⟩

/-- Their energies at a temperature. -/
def exAt (t : ℚ) (e : Fin 5) : ℚ := (((exg e).newTemperature (heat exX exG) t).toOption.map fun e' => e'.energy (heat exX exG)).getD 0

theorem ex_ok : ∀ t ∈ [(300 : ℚ), 400, 500], Energies exX exG exg t [0, 1, 2, 3, 4] (exAt t) := by
  intro t ht e he
  obtain ⟨e', h, -⟩ := Verif.Props.Gibbs.ok_of (x := (exg e).newTemperature (heat exX exG) t) (fun _ => true)
    ((by decide +kernel : ∀ t ∈ [(300 : ℚ), 400, 500], ∀ e : Fin 5,
      (((exg e).newTemperature (heat exX exG) t).toOption.map fun _ => true).getD false = true) t ht e)
  exact ⟨e', h, by unfold exAt; rw [h]; rfl⟩

theorem ex_straight (x : Enum.Sym) : Straight exG 300 500 400 x := by
  refine ⟨_, _, _, rfl, rfl, rfl, ?_⟩
  split_ifs <;> norm_num

theorem ex_natoms : (fun e => exX.natoms (exg e).comp) = exAtoms := by
  funext e
  revert e
  decide +kernel

theorem ex_chem (E : Fin 5 → ℚ) : Chemistry (fun e => exX.elems (exg e).comp) (fun e => exX.amt (exg e).comp) E (fun e => exX.natoms (exg e).comp)
    (fun e => E e / exAtoms e) exForm := by
  rw [ex_natoms]
  exact chem E

/-- If the elements have no energy and the others no negative one, AB is above the hull by its energy. -/
theorem hull_zero (E : Fin 5 → ℚ) (h0 : E 0 = 0) (h1 : E 1 = 0) (hE : ∀ t, 0 ≤ E t) :
    Above exAmt E ([0, 1, 2, 3, 4] : List (Fin 5)).toFinset (exAtoms 2) 2 (E 2 / 2) := by
  unfold Above
  rw [show E 2 - E 2 / 2 * exAtoms 2 = 0 by rw [show exAtoms 2 = 2 from rfl]; ring]
  refine ⟨⟨fun e => [1, 1, 0, 0, 0].getD e 0, by decide +kernel, fun x => ?_, ?_⟩, ?_⟩
  · by_cases hA : x = ['A']
    · subst hA; decide +kernel
    · by_cases hB : x = ['B']
      · subst hB; decide +kernel
      · unfold exAmt; simp [hA, hB]
  · rw [show ([0, 1, 2, 3, 4] : List (Fin 5)).toFinset = Finset.univ from by decide]
    simp [Fin.sum_univ_succ, h0, h1]
  · rintro v ⟨w, w1, -, rfl⟩
    exact Finset.sum_nonneg fun t ht => mul_nonneg (w1 t ht) (hE t)

theorem ex_above (t : ℚ) (h0 : exAt t 0 = 0) (h1 : exAt t 1 = 0) (hE : ∀ e, 0 ≤ exAt t e) :
    aboveHull exElems (pdOf exElems exAmt (exAt t) exAtoms) [0, 1, 2, 3, 4] 2 = .ok (exAt t 2 / 2) := by
  obtain ⟨d, hd, ha⟩ := C138_reported (chem (exAt t)) (diagrams_exist (chem (exAt t))) _ refs 2 (by decide)
  rw [hd, above_unique (atoms_pos (chem (exAt t)) 2) ha (hull_zero _ h0 h1 hE)]

/-- **C164, the bound is reached**: an entry on the hull at 300 K and at 500 K, with potentials of the elements on a line, is above the hull by all of
`bend` at 400 K. A study that keeps phases that are stable at the ends of an interval can rely on a phase that is not stable inside. -/
theorem C164_between_violated : aboveHull exElems (pdOf exElems exAmt (exAt 300) exAtoms) [0, 1, 2, 3, 4] 2 = .ok 0 ∧
    aboveHull exElems (pdOf exElems exAmt (exAt 500) exAtoms) [0, 1, 2, 3, 4] 2 = .ok 0 ∧
    aboveHull exElems (pdOf exElems exAmt (exAt 400) exAtoms) [0, 1, 2, 3, 4] 2 = .ok (bend exG.log (1 / 2) 300 500 400) ∧
    0 < bend exG.log (1 / 2) 300 500 400 := by
  refine ⟨?_, ?_, ?_, by decide +kernel⟩
  · rw [ex_above 300 (by decide +kernel) (by decide +kernel) (by decide +kernel), show exAt 300 2 / 2 = 0 by decide +kernel]
  · rw [ex_above 500 (by decide +kernel) (by decide +kernel) (by decide +kernel), show exAt 500 2 / 2 = 0 by decide +kernel]
  · rw [ex_above 400 (by decide +kernel) (by decide +kernel) (by decide +kernel),
      show exAt 400 2 / 2 = bend exG.log (1 / 2) 300 500 400 by decide +kernel]

example := fun e he => C164_temperature exX exG exg (ex_chem _) (ex_chem _) (ex_chem _) (diagrams_exist (ex_chem _)) (diagrams_exist (ex_chem _))
  (diagrams_exist (ex_chem _)) [0, 1, 2, 3, 4] refs (1 / 2) 300 500 400 (by norm_num) (by norm_num) (by norm_num) (by norm_num) (by decide +kernel)
  (fun _ _ x _ => ex_straight x) (ex_ok 300 (by simp)) (ex_ok 500 (by simp)) (ex_ok 400 (by simp)) e he

/-- A table for AB2, the elements and AB computed, A2B2 interpolated. -/
def exW : World (Fin 5) Enum.Sym (Fin 4) :=
  ⟨heat exX exG, fun c => if c = 4 then some [(300, -1), (400, -3/2), (500, -3)] else none, fun _ => false, exElems, exForm, fun f => [0, 1, 2, 4].getD f 0⟩
def exEnt (e : Fin 5) : Ent (Fin 5) :=
  if e = 4 then .exper ⟨4, 300, -1, [.co2 3 300 (-8)]⟩ else if e = 3 then .interp 3 (-1) 300 else .gibbs (exg e)

/-- Their energies at a temperature. -/
def exAll (t : ℚ) (e : Fin 5) : ℚ := (((exEnt e).newTemperature exW t).toOption.map fun e' => e'.energy exW).getD 0

theorem exAll_ok : ∀ t ∈ [(300 : ℚ), 350, 400], EnergiesAll exW exEnt t [0, 1, 2, 3, 4] (exAll t) := by
  intro t ht e he
  obtain ⟨e', h, -⟩ := Verif.Props.Gibbs.ok_of (x := (exEnt e).newTemperature exW t) (fun _ => true)
    ((by decide +kernel : ∀ t ∈ [(300 : ℚ), 350, 400], ∀ e : Fin 5,
      (((exEnt e).newTemperature exW t).toOption.map fun _ => true).getD false = true) t ht e)
  exact ⟨e', h, by unfold exAll; rw [h]; rfl⟩

theorem exEnt_comp : ∀ e, (exEnt e).comp = e := by decide +kernel

theorem exAll_chem (E : Fin 5 → ℚ) : Chemistry (fun e => exX.elems (exEnt e).comp) (fun e => exX.amt (exEnt e).comp) E (fun e => exX.natoms (exEnt e).comp)
    (fun e => E e / exAtoms e) exForm := by
  have h : (fun e => exX.natoms (exEnt e).comp) = exAtoms := by
    funext e
    revert e
    decide +kernel
  rw [h]
  simp only [exEnt_comp]
  exact chem E

example := fun e he => C164_entries exX exG exW rfl exEnt (exAll_chem _) (exAll_chem _) (exAll_chem _) (diagrams_exist (exAll_chem _)) (diagrams_exist (exAll_chem _))
  (diagrams_exist (exAll_chem _)) [0, 1, 2, 3, 4] (by simp only [exEnt_comp]; exact refs) (1 / 2) 300 400 350 (by norm_num) (by norm_num) (by norm_num)
  (by norm_num) (by decide +kernel)
  (fun _ _ x _ => ⟨_, _, _, rfl, rfl, rfl, by split_ifs <;> norm_num⟩)
  (fun e _ a ha _ => by
    have : a.comp = 4 := by
      revert ha
      unfold exEnt
      split_ifs
      · intro h; cases h; rfl
      · intro h; cases h
      · intro h; cases h
    refine ⟨[(300, -1), (400, -3/2), (500, -3)], 3, 300, -1, 400, -3/2, by rw [this]; rfl, by simp only [Grid]; norm_num, ⟨[], [(500, -3)], rfl⟩, by norm_num, by norm_num⟩)
  (exAll_ok 300 (by simp)) (exAll_ok 400 (by simp)) (exAll_ok 350 (by simp)) e he

example : exAll 350 4 = -5/4 + 350 * (3 * (1 / 3 * (8617 / 100000000) * (-8))) := by decide +kernel

/-- The mean of two energies: A2B2 is on the hull with both, so with their mean. -/
example : ∃ d, aboveHull exElems (pdOf exElems exAmt (fun e => (1 - 1 / 3) * tieE e + 1 / 3 * polyE' e) exAtoms) [0, 1, 2, 3, 4] 3 = .ok d ∧ d ≤ 0 := by
  obtain ⟨d1, d2, d, h1, h2, h, hd⟩ := C164_mix (chem tieE) (chem polyE') (chem fun e => (1 - 1 / 3) * tieE e + 1 / 3 * polyE' e) (diagrams_exist (chem _))
    (diagrams_exist (chem _)) (diagrams_exist (chem _)) [0, 1, 2, 3, 4] refs (1 / 3) 0 (by norm_num) (by norm_num) (fun _ _ => le_refl _) 3 (by decide)
    (by simp)
  obtain ⟨x1, k1, a1⟩ := C138_reported (chem tieE) (diagrams_exist (chem tieE)) _ refs 3 (by decide)
  obtain ⟨x2, k2, a2⟩ := C138_reported (chem polyE') (diagrams_exist (chem polyE')) _ refs 3 (by decide)
  have e1 := above_unique (atoms_pos (chem tieE) 3) a1 (hull_at tieE 1 0 (by decide +kernel) 3 1 zero_le_one (fun x => (one_mul _).symm)
      (by decide +kernel) (by decide +kernel))
  have e2 := above_unique (atoms_pos (chem polyE') 3) a2 (hull_at polyE' 1 0 (by decide +kernel) 3 1 zero_le_one (fun x => (one_mul _).symm)
      (by decide +kernel) (by decide +kernel))
  have f1 := Except.ok.inj (h1.symm.trans k1)
  have f2 := Except.ok.inj (h2.symm.trans k2)
  refine ⟨d, h, ?_⟩
  rw [f1, f2, e1, e2] at hd
  linarith

/-- And the filter, at its default cutoff, keeps A2B2 with both energies and so with their mean. -/
example : ∃ l, filterSet exElems exForm (fun e => ((1 - 1 / 3) * tieE e + 1 / 3 * polyE' e) / exAtoms e)
    (pdOf exElems exAmt (fun e => (1 - 1 / 3) * tieE e + 1 / 3 * polyE' e) exAtoms) [0, 1, 2, 3, 4] (0 + 0) true = .ok l ∧ 3 ∈ l := by
  obtain ⟨l1, h1⟩ := (C138_succeeds (chem tieE) (diagrams_exist (chem tieE)) [0, 1, 2, 3, 4] 0 true).1.mpr refs
  obtain ⟨l2, h2⟩ := (C138_succeeds (chem polyE') (diagrams_exist (chem polyE')) [0, 1, 2, 3, 4] 0 true).1.mpr refs
  obtain ⟨l, h⟩ := (C138_succeeds (chem fun e => (1 - 1 / 3) * tieE e + 1 / 3 * polyE' e) (diagrams_exist (chem _)) [0, 1, 2, 3, 4] (0 + 0) true).1.mpr refs
  refine ⟨l, h, C164_mix_filter (chem tieE) (chem polyE') (chem fun e => (1 - 1 / 3) * tieE e + 1 / 3 * polyE' e) (diagrams_exist (chem _))
    (diagrams_exist (chem _)) (diagrams_exist (chem _)) [0, 1, 2, 3, 4] (1 / 3) 0 0 (by norm_num) (by norm_num) (fun _ _ => le_refl _) l1 l2 l h1 h2 h 3
    ?_ ?_ (by simp)⟩
  · exact (C138_members (chem tieE) (diagrams_exist (chem tieE)) _ _ l1 h1 3).mpr ⟨by decide, 0, hull_at tieE 1 0 (by decide +kernel) 3 1 zero_le_one
      (fun x => (one_mul _).symm) (by decide +kernel) (by decide +kernel), le_refl _⟩
  · exact (C138_members (chem polyE') (diagrams_exist (chem polyE')) _ _ l2 h2 3).mpr ⟨by decide, 0, hull_at polyE' 1 0 (by decide +kernel) 3 1 zero_le_one
      (fun x => (one_mul _).symm) (by decide +kernel) (by decide +kernel), le_refl _⟩

end Verif.Props.StabilityTemp
