import Verif.Props.EnergyError
import Verif.Props.Gibbs
import Verif.Props.EntryTemp

/-!
C162: how the energies of reactions between computed phases, and the hulls made of them, depend on temperature
(src/rxn_network/entries/gibbs.py, src/rxn_network/reactions/{computed,hull}.py).
-/

set_option linter.unusedSectionVars false

namespace Verif.Props.TempLine
open Verif.Py Verif.Model Verif.Model.Reaction Verif.Spec.Reaction Verif.Lemmas.Exc Verif.Props.Reaction
open Verif.Model.Entries (Gibbs Thermo Adj gibbsInit sisso)
open Verif.Model.Gibbs (Env Amts gibbsAdjustment reducedMass gDelta sumG atoms)
open Verif.Model.Hull Verif.Props.HullConvex
open Verif.Props.Written
open Verif.Props.Reference (carried Rereferenced C141_conserving)

variable {κ ε : Type} [DecidableEq κ] [DecidableEq ε]

/-! ### Specification -/

/-- `composition.get_el_amt_dict()` for a composition of the reaction model, src/rxn_network/entries/gibbs.py:200. -/
def amounts (X : Chem κ ε) (c : κ) : Amts ε := (X.elems c).map fun s => (s, X.amt c s)

/-- The external facts used by entries, from those of compositions and of the correction, src/rxn_network/entries/gibbs.py:82-120. -/
def heat (X : Chem κ ε) (G : Env ε) : Thermo κ := ⟨X.natoms, fun c => gibbsAdjustment G (amounts X c)⟩

/-- What a reaction reads of an entry: composition and energy. -/
def seen (X : Chem κ ε) (G : Env ε) (e : Gibbs κ) : Entry κ := ⟨e.comp, e.energy (heat X G)⟩

/-- The entries of a list at a temperature. -/
def At (X : Chem κ ε) (G : Env ε) (t : ℚ) (es out : List (Gibbs κ)) : Prop :=
  List.Forall₂ (fun e e' => e.newTemperature (heat X G) t = .ok e') es out

/-- The entry is a compound: it has not just one element. -/
def Compound (X : Chem κ ε) (e : Gibbs κ) : Prop := (X.elems e.comp).length ≠ 1

/-- The points of an interface at a temperature between two others: energies interpolated with weight `s` of the second. -/
def Blend (s : ℚ) (P Q R : List (ℚ × ℚ)) : Prop :=
  P.length = R.length ∧ Q.length = R.length ∧ ∀ (i : ℕ) (r : ℚ × ℚ), R[i]? = some r →
    ∃ p q, P[i]? = some p ∧ Q[i]? = some q ∧ p.1 = r.1 ∧ q.1 = r.1 ∧ r.2 = (1 - s) * p.2 + s * q.2

/-- The reactions with these entries at a temperature: `os` has the entries of each at that temperature, `rs` the entries and coefficients of each. -/
def rxnsAt (X : Chem κ ε) (G : Env ε) (os : List (List (Gibbs κ))) (rs : List (List (Gibbs κ) × List ℚ)) : List (CRxn κ) :=
  (os.zip rs).map fun p => cinit X (p.1.map (seen X G)) p.2.2 [] none

/-- The potential of an element is on a straight line through three temperatures, as between neighbouring nodes of the table. -/
def Straight (G : Env ε) (t1 t2 t : ℚ) (s : ε) : Prop :=
  ∃ m1 m2 m, G.mu t1 s = .ok m1 ∧ G.mu t2 s = .ok m2 ∧ G.mu t s = .ok m ∧ (t2 - t1) * m = (t2 - t) * m1 + (t - t1) * m2

/-- The number of atoms in elemental phases that a reaction produces, less those it consumes. -/
def freed (X : Chem κ ε) (es : List (Gibbs κ)) (ks : List ℚ) : ℚ :=
  ((es.zip ks).map fun p => if (X.elems p.1.comp).length = 1 then p.2 * (X.natoms p.1.comp / X.fac p.1.comp) else 0).sum

/-! ### Helper lemmas -/

/-- The part of the energy of a compound that is proportional to the temperature, per formula. -/
def rise (X : Chem κ ε) (G : Env ε) (e : Gibbs κ) : ℚ :=
  match reducedMass G.m G.factor (amounts X e.comp) with
  | .ok rm => X.natoms e.comp * (-(248 / 1000000) * G.log e.vol - 894 / 10000000 * rm / e.vol)
  | .error _ => 0

/-- The part that does not depend on the temperature. -/
def fixed (X : Chem κ ε) (e : Gibbs κ) : ℚ :=
  X.natoms e.comp * e.feAtom + (((e.adjs.filter fun a => a.name ≠ sisso)).map Adj.value).sum

/-- What remains is proportional to the amounts of the elements. -/
def share (G : Env ε) (t : ℚ) (s : ε) : ℚ :=
  181 / 1000 * G.log t - 882 / 1000 - match G.mu t s with
    | .ok m => m
    | .error _ => 0

theorem sumG_ok (mu : ε → Except Err ℚ) (a : Amts ε) (s : ℚ) (h : sumG mu a = .ok s) :
    s = (a.map fun p => p.2 * match mu p.1 with
      | .ok m => m
      | .error _ => 0).sum := by
  unfold sumG at h
  rw [bind_ok] at h
  obtain ⟨l, hl, h⟩ := h
  have h := Except.ok.inj h
  subst h
  have hl := (mapM_ok _ _ _).1 hl
  congr 1
  clear * - hl
  induction hl with
  | nil => rfl
  | cons hp _ ih =>
    rw [map_ok] at hp
    obtain ⟨m, hm, rfl⟩ := hp
    simp [hm, ih]

/-- The energy of a compound at a temperature. -/
theorem energy_at (X : Chem κ ε) (G : Env ε) (e e' : Gibbs κ) (t : ℚ) (hc : Compound X e) (h : e.newTemperature (heat X G) t = .ok e') :
    e'.comp = e.comp ∧ e'.energy (heat X G) = fixed X e + t * rise X G e + carried X (share G t) e.comp := by
  unfold Verif.Model.Entries.Gibbs.newTemperature gibbsInit at h
  split_ifs at h
  rw [bind_ok] at h
  obtain ⟨g, hg, h⟩ := h
  have h := Except.ok.inj h
  subst h
  refine ⟨rfl, ?_⟩
  have hlen : (amounts X e.comp).length ≠ 1 := by
    unfold amounts
    rw [List.length_map]
    exact hc
  change gibbsAdjustment G (amounts X e.comp) e.vol t = .ok g at hg
  unfold gibbsAdjustment at hg
  rw [if_neg hlen, bind_ok] at hg
  obtain ⟨rm, hrm, hg⟩ := hg
  rw [bind_ok] at hg
  obtain ⟨d, hd, hg⟩ := hg
  rw [bind_ok] at hg
  obtain ⟨s, hs, hg⟩ := hg
  have hg := Except.ok.inj hg
  subst hg
  unfold gDelta at hd
  split_ifs at hd
  have hd := Except.ok.inj hd
  subst hd
  have hs := sumG_ok _ _ _ hs
  have ha : atoms (amounts X e.comp) = X.natoms e.comp := by
    unfold atoms amounts Chem.natoms
    rw [List.map_map]
    rfl
  have hcar : carried X (share G t) e.comp = X.natoms e.comp * (181 / 1000 * G.log t - 882 / 1000) - s := by
    rw [hs]
    unfold carried share amounts Chem.natoms
    rw [List.map_map]
    generalize X.elems e.comp = l
    induction l with
    | nil => simp
    | cons a l ih =>
      simp only [List.map_cons, List.sum_cons, ih, Function.comp]
      ring
  rw [hcar]
  unfold Verif.Model.Entries.Gibbs.energy fixed rise
  simp only [hrm, ha]
  rw [List.map_append, List.sum_append]
  simp [Adj.value, heat]
  ring

/-- The energies at a temperature are, up to the references of the elements, on a straight line. -/
theorem lines (X : Chem κ ε) (hX : X.Lawful) (G : Env ε) (t : ℚ) {es out : List (Gibbs κ)} (h : At X G t es out) (hc : ∀ e ∈ es, Compound X e) :
    List.Forall₂ (Rereferenced X (share G t)) (es.map fun e => (⟨e.comp, fixed X e + t * rise X G e⟩ : Entry κ)) (out.map (seen X G)) := by
  unfold At at h
  induction h with
  | nil => exact .nil
  | @cons e e' es out he _ ih =>
    refine .cons ?_ (ih fun x hx => hc x (List.mem_cons_of_mem _ hx))
    obtain ⟨h1, h2⟩ := energy_at X G e e' t (hc e (by simp)) he
    have := Verif.Props.Reference.rereferenced_shift X hX (share G t) (⟨e.comp, fixed X e + t * rise X G e⟩ : Entry κ)
    unfold seen
    rw [h1, h2]
    exact this

theorem seen_comps (X : Chem κ ε) (G : Env ε) (t : ℚ) {es out : List (Gibbs κ)} (h : At X G t es out) :
    (out.map (seen X G)).map (fun e => X.red e.comp) = es.map fun e => X.red e.comp := by
  unfold At at h
  induction h with
  | nil => rfl
  | @cons e e' es out he _ ih =>
    have := ((Verif.Props.EntryTemp.C42_range (heat X G) e t).2 e' he).2.2.2
    simp only [List.map_cons, ih]
    unfold seen
    rw [this]

/-- The energy of a reaction between compounds: a constant and a part proportional to the temperature. -/
theorem energy_line (X : Chem κ ε) (hX : X.Lawful) (G : Env ε) (es : List (Gibbs κ)) (ks : List ℚ) (data : List (String × ℚ)) (lne : Option ℕ)
    (hn : (es.map fun e => X.red e.comp).Nodup) (hc : ∀ e ∈ es, Compound X e) (hk : Conserved X (es.map fun e => X.red e.comp) ks) (t : ℚ)
    (out : List (Gibbs κ)) (h : At X G t es out) :
    energy X (cinit X (out.map (seen X G)) ks data lne)
      = .ok (((es.zip ks).map fun p => p.2 * (fixed X p.1 / X.fac p.1.comp)).sum + t * ((es.zip ks).map fun p => p.2 * (rise X G p.1 / X.fac p.1.comp)).sum) ∧
    energyPerAtom X (cinit X (out.map (seen X G)) ks data lne)
      = perAtom (energy X (cinit X (out.map (seen X G)) ks data lne)) (numAtoms X (elements X (es.map fun e => X.red e.comp)) (es.map fun e => X.red e.comp) ks) := by
  have hm : (es.map fun e => (⟨e.comp, fixed X e + t * rise X G e⟩ : Entry κ)).map (fun e => X.red e.comp) = es.map fun e => X.red e.comp := by
    rw [List.map_map]; rfl
  have hl := (C141_conserving X hX (share G t) _ _ ks data lne (lines X hX G t h hc)).2 (by rw [hm]; exact hk)
  constructor
  · rw [hl.1, C17_energy_distinct X _ ks data lne (by rw [hm]; exact hn)]
    congr 1
    rw [List.zip_map_left, List.map_map, ← List.sum_map_mul_left, ← List.sum_map_add]
    congr 1
    apply List.map_congr_left
    intro p _
    simp only [Function.comp, Prod.map]
    simp only [id]
    ring
  · rw [← seen_comps X G t h]
    simp [energyPerAtom, cinit, Verif.Model.Reaction.init]

/-- The entry of an element has no correction. -/
theorem energy_at_element (X : Chem κ ε) (G : Env ε) (e e' : Gibbs κ) (t : ℚ) (hc : (X.elems e.comp).length = 1) (h : e.newTemperature (heat X G) t = .ok e') :
    e'.comp = e.comp ∧ e'.energy (heat X G) = fixed X e := by
  unfold Verif.Model.Entries.Gibbs.newTemperature gibbsInit at h
  split_ifs at h
  rw [bind_ok] at h
  obtain ⟨g, hg, h⟩ := h
  have h := Except.ok.inj h
  subst h
  refine ⟨rfl, ?_⟩
  have hlen : (amounts X e.comp).length = 1 := by
    unfold amounts
    rw [List.length_map]
    exact hc
  change gibbsAdjustment G (amounts X e.comp) e.vol t = .ok g at hg
  unfold gibbsAdjustment at hg
  rw [if_pos hlen] at hg
  have hg := Except.ok.inj hg
  subst hg
  unfold Verif.Model.Entries.Gibbs.energy fixed
  rw [List.map_append, List.sum_append]
  simp [Adj.value, heat]

/-- The part of the energy without the common references. -/
def rest (X : Chem κ ε) (G : Env ε) (t : ℚ) (e : Gibbs κ) : ℚ :=
  if (X.elems e.comp).length = 1 then fixed X e - carried X (share G t) e.comp else fixed X e + t * rise X G e

theorem energy_rest (X : Chem κ ε) (hX : X.Lawful) (G : Env ε) (es : List (Gibbs κ)) (ks : List ℚ) (data : List (String × ℚ)) (lne : Option ℕ)
    (hn : (es.map fun e => X.red e.comp).Nodup) (hk : Conserved X (es.map fun e => X.red e.comp) ks) (t : ℚ)
    (out : List (Gibbs κ)) (h : At X G t es out) :
    energy X (cinit X (out.map (seen X G)) ks data lne) = .ok ((es.zip ks).map fun p => p.2 * (rest X G t p.1 / X.fac p.1.comp)).sum := by
  have hm : (es.map fun e => (⟨e.comp, rest X G t e⟩ : Entry κ)).map (fun e => X.red e.comp) = es.map fun e => X.red e.comp := by
    rw [List.map_map]; rfl
  have hR : List.Forall₂ (Rereferenced X (share G t)) (es.map fun e => (⟨e.comp, rest X G t e⟩ : Entry κ)) (out.map (seen X G)) := by
    clear hm hn hk
    unfold At at h
    induction h with
    | nil => exact .nil
    | @cons e e' es out he _ ih =>
      refine .cons ?_ ih
      have := Verif.Props.Reference.rereferenced_shift X hX (share G t) (⟨e.comp, rest X G t e⟩ : Entry κ)
      unfold rest at this ⊢
      unfold seen
      dsimp only
      by_cases hc : (X.elems e.comp).length = 1
      · obtain ⟨h1, h2⟩ := energy_at_element X G e e' t hc he
        rw [if_pos hc] at this ⊢
        rw [h1, h2]
        simpa using this
      · obtain ⟨h1, h2⟩ := energy_at X G e e' t hc he
        rw [if_neg hc] at this ⊢
        rw [h1, h2]
        exact this
  have hl := (C141_conserving X hX (share G t) _ _ ks data lne hR).2 (by rw [hm]; exact hk)
  rw [hl.1, C17_energy_distinct X _ ks data lne (by rw [hm]; exact hn)]
  congr 1
  rw [List.zip_map_left, List.map_map]
  rfl

theorem carried_bend (G : Env ε) (t1 t2 t : ℚ) (l : List ε) (a : ε → ℚ) (h : ∀ s ∈ l, Straight G t1 t2 t s) :
    (t2 - t1) * (l.map fun s => a s * share G t s).sum - (t2 - t) * (l.map fun s => a s * share G t1 s).sum - (t - t1) * (l.map fun s => a s * share G t2 s).sum
      = 181 / 1000 * ((t2 - t1) * G.log t - (t2 - t) * G.log t1 - (t - t1) * G.log t2) * (l.map a).sum := by
  induction l with
  | nil => simp
  | cons s l ih =>
    have ih := ih fun x hx => h x (List.mem_cons_of_mem _ hx)
    obtain ⟨m1, m2, m, e1, e2, e, hl⟩ := h s (by simp)
    simp only [List.map_cons, List.sum_cons]
    have hs : (t2 - t1) * share G t s - (t2 - t) * share G t1 s - (t - t1) * share G t2 s
        = 181 / 1000 * ((t2 - t1) * G.log t - (t2 - t) * G.log t1 - (t - t1) * G.log t2) := by
      unfold share
      simp only [e1, e2, e]
      linarith
    have := congrArg (a s * ·) hs
    linarith

theorem rest_bend (X : Chem κ ε) (G : Env ε) (t1 t2 t : ℚ) (l : List (Gibbs κ × ℚ))
    (h : ∀ p ∈ l, (X.elems p.1.comp).length = 1 → ∀ s ∈ X.elems p.1.comp, Straight G t1 t2 t s) :
    (t2 - t1) * (l.map fun p => p.2 * (rest X G t p.1 / X.fac p.1.comp)).sum - (t2 - t) * (l.map fun p => p.2 * (rest X G t1 p.1 / X.fac p.1.comp)).sum
        - (t - t1) * (l.map fun p => p.2 * (rest X G t2 p.1 / X.fac p.1.comp)).sum
      = -(181 / 1000 * ((t2 - t1) * G.log t - (t2 - t) * G.log t1 - (t - t1) * G.log t2)
        * (l.map fun p => if (X.elems p.1.comp).length = 1 then p.2 * (X.natoms p.1.comp / X.fac p.1.comp) else 0).sum) := by
  induction l with
  | nil => simp
  | cons p l ih =>
    have ih := ih fun x hx => h x (List.mem_cons_of_mem _ hx)
    simp only [List.map_cons, List.sum_cons]
    have hp : (t2 - t1) * rest X G t p.1 - (t2 - t) * rest X G t1 p.1 - (t - t1) * rest X G t2 p.1
        = -(181 / 1000 * ((t2 - t1) * G.log t - (t2 - t) * G.log t1 - (t - t1) * G.log t2)
          * if (X.elems p.1.comp).length = 1 then X.natoms p.1.comp else 0) := by
      unfold rest
      by_cases hc : (X.elems p.1.comp).length = 1
      · simp only [if_pos hc]
        have := carried_bend G t1 t2 t _ (X.amt p.1.comp) (h p (by simp) hc)
        unfold carried Chem.natoms
        linarith
      · simp only [if_neg hc]
        ring
    have e : ∀ r : ℚ, p.2 * (r / X.fac p.1.comp) = p.2 / X.fac p.1.comp * r := fun r => by ring
    have hp := congrArg (p.2 / X.fac p.1.comp * ·) hp
    simp only [e]
    by_cases hc : (X.elems p.1.comp).length = 1
    · simp only [if_pos hc] at hp ⊢
      linarith
    · simp only [if_neg hc] at hp ⊢
      linarith

/-! ### C162 -/

/-- **C162, a straight line.** The energy of a conserving reaction between different computed compounds is on a straight line: its values at two
temperatures give the value at every other, in total and per atom. -/
theorem C162_line (X : Chem κ ε) (hX : X.Lawful) (G : Env ε) (es : List (Gibbs κ)) (ks : List ℚ) (data : List (String × ℚ)) (lne : Option ℕ)
    (hn : (es.map fun e => X.red e.comp).Nodup) (hc : ∀ e ∈ es, Compound X e) (hk : Conserved X (es.map fun e => X.red e.comp) ks) (t1 t2 t : ℚ)
    (o1 o2 o : List (Gibbs κ)) (h1 : At X G t1 es o1) (h2 : At X G t2 es o2) (h : At X G t es o) :
    (∃ v1 v2 v, energy X (cinit X (o1.map (seen X G)) ks data lne) = .ok v1 ∧ energy X (cinit X (o2.map (seen X G)) ks data lne) = .ok v2 ∧
      energy X (cinit X (o.map (seen X G)) ks data lne) = .ok v ∧ (t2 - t1) * v = (t2 - t) * v1 + (t - t1) * v2) ∧
    ∀ v1 v2 v, energyPerAtom X (cinit X (o1.map (seen X G)) ks data lne) = .ok v1 → energyPerAtom X (cinit X (o2.map (seen X G)) ks data lne) = .ok v2 →
      energyPerAtom X (cinit X (o.map (seen X G)) ks data lne) = .ok v → (t2 - t1) * v = (t2 - t) * v1 + (t - t1) * v2 := by
  obtain ⟨a1, b1⟩ := energy_line X hX G es ks data lne hn hc hk t1 o1 h1
  obtain ⟨a2, b2⟩ := energy_line X hX G es ks data lne hn hc hk t2 o2 h2
  obtain ⟨a, b⟩ := energy_line X hX G es ks data lne hn hc hk t o h
  refine ⟨⟨_, _, _, a1, a2, a, by ring⟩, ?_⟩
  intro v1 v2 v e1 e2 e
  rw [b1, a1] at e1
  rw [b2, a2] at e2
  rw [b, a] at e
  unfold perAtom at e1 e2 e
  dsimp only at e1 e2 e
  split_ifs at e1 e2 e with hN
  have e1 := Except.ok.inj e1
  have e2 := Except.ok.inj e2
  have e := Except.ok.inj e
  subst e1 e2 e
  ring

/-- **C162, in between.** Between two temperatures the energy per atom lies between its values there; a reaction favourable (or unfavourable) at both
is so at all temperatures in between. -/
theorem C162_between (X : Chem κ ε) (hX : X.Lawful) (G : Env ε) (es : List (Gibbs κ)) (ks : List ℚ) (data : List (String × ℚ)) (lne : Option ℕ)
    (hn : (es.map fun e => X.red e.comp).Nodup) (hc : ∀ e ∈ es, Compound X e) (hk : Conserved X (es.map fun e => X.red e.comp) ks) (t1 t2 t : ℚ)
    (ht1 : t1 ≤ t) (ht2 : t ≤ t2) (o1 o2 o : List (Gibbs κ)) (h1 : At X G t1 es o1) (h2 : At X G t2 es o2) (h : At X G t es o) (v1 v2 v : ℚ)
    (e1 : energyPerAtom X (cinit X (o1.map (seen X G)) ks data lne) = .ok v1) (e2 : energyPerAtom X (cinit X (o2.map (seen X G)) ks data lne) = .ok v2)
    (e : energyPerAtom X (cinit X (o.map (seen X G)) ks data lne) = .ok v) : min v1 v2 ≤ v ∧ v ≤ max v1 v2 := by
  have hl := (C162_line X hX G es ks data lne hn hc hk t1 t2 t o1 o2 o h1 h2 h).2 v1 v2 v e1 e2 e
  rcases lt_or_eq_of_le (ht1.trans ht2) with hlt | heq
  · have hpos : 0 < t2 - t1 := by linarith
    have a : 0 ≤ t2 - t := by linarith
    have b : 0 ≤ t - t1 := by linarith
    constructor
    · have c1 := mul_le_mul_of_nonneg_left (min_le_left v1 v2) a
      have c2 := mul_le_mul_of_nonneg_left (min_le_right v1 v2) b
      nlinarith
    · have c1 := mul_le_mul_of_nonneg_left (le_max_left v1 v2) a
      have c2 := mul_le_mul_of_nonneg_left (le_max_right v1 v2) b
      nlinarith
  · have : t = t1 := by linarith
    subst this
    obtain ⟨a1, b1⟩ := energy_line X hX G es ks data lne hn hc hk t o1 h1
    obtain ⟨a, b⟩ := energy_line X hX G es ks data lne hn hc hk t o h
    rw [b1, a1] at e1
    rw [b, a, e1] at e
    have e := Except.ok.inj e
    subst e
    exact ⟨min_le_left _ _, le_max_left _ _⟩

/-- **C162, one change of sign.** A reaction that is unfavourable at one temperature and was favourable at a lower one stays unfavourable at all higher
temperatures; and the other way round. -/
theorem C162_once (X : Chem κ ε) (hX : X.Lawful) (G : Env ε) (es : List (Gibbs κ)) (ks : List ℚ) (data : List (String × ℚ)) (lne : Option ℕ)
    (hn : (es.map fun e => X.red e.comp).Nodup) (hc : ∀ e ∈ es, Compound X e) (hk : Conserved X (es.map fun e => X.red e.comp) ks) (t1 t2 t : ℚ)
    (ht1 : t1 < t2) (ht2 : t2 ≤ t) (o1 o2 o : List (Gibbs κ)) (h1 : At X G t1 es o1) (h2 : At X G t2 es o2) (h : At X G t es o) (v1 v2 v : ℚ)
    (e1 : energyPerAtom X (cinit X (o1.map (seen X G)) ks data lne) = .ok v1) (e2 : energyPerAtom X (cinit X (o2.map (seen X G)) ks data lne) = .ok v2)
    (e : energyPerAtom X (cinit X (o.map (seen X G)) ks data lne) = .ok v) : (v1 ≤ 0 → 0 < v2 → 0 < v) ∧ (0 ≤ v1 → v2 < 0 → v < 0) := by
  have hl := (C162_line X hX G es ks data lne hn hc hk t1 t2 t o1 o2 o h1 h2 h).2 v1 v2 v e1 e2 e
  have hpos : 0 < t2 - t1 := by linarith
  have a : 0 ≤ t - t2 := by linarith
  have b : 0 < t - t1 := by linarith
  constructor
  · intro k1 k2
    have c1 := mul_nonneg a (neg_nonneg.mpr k1)
    have c2 := mul_pos b k2
    by_contra hv
    have c3 := mul_nonneg hpos.le (neg_nonneg.mpr (not_lt.mp hv))
    nlinarith
  · intro k1 k2
    have c1 := mul_nonneg a k1
    have c2 := mul_pos b (neg_pos.mpr k2)
    by_contra hv
    have c3 := mul_nonneg hpos.le (not_lt.mp hv)
    nlinarith

/-- **C162, no reference data needed.** The energy of such a reaction does not depend on the tabulated chemical potentials of the elements. -/
theorem C162_references (X : Chem κ ε) (hX : X.Lawful) (G G' : Env ε) (hm : G'.m = G.m) (hf : G'.factor = G.factor) (hlog : G'.log = G.log)
    (es : List (Gibbs κ)) (ks : List ℚ) (data : List (String × ℚ)) (lne : Option ℕ)
    (hn : (es.map fun e => X.red e.comp).Nodup) (hc : ∀ e ∈ es, Compound X e) (hk : Conserved X (es.map fun e => X.red e.comp) ks) (t : ℚ)
    (o o' : List (Gibbs κ)) (h : At X G t es o) (h' : At X G' t es o') :
    energy X (cinit X (o'.map (seen X G')) ks data lne) = energy X (cinit X (o.map (seen X G)) ks data lne) ∧
    energyPerAtom X (cinit X (o'.map (seen X G')) ks data lne) = energyPerAtom X (cinit X (o.map (seen X G)) ks data lne) := by
  obtain ⟨a, b⟩ := energy_line X hX G es ks data lne hn hc hk t o h
  obtain ⟨a', b'⟩ := energy_line X hX G' es ks data lne hn hc hk t o' h'
  have hr : rise X G' = rise X G := by
    funext e
    unfold rise
    rw [hm, hf, hlog]
  rw [hr] at a'
  exact ⟨by rw [a, a'], by rw [b, b', a, a']⟩

/-- **C162, hulls.** At a temperature between two others the hull of an interface lies nowhere below the interpolated hulls; so an interface that does not
react at either temperature does not react in between. -/
theorem C162_hull {s : ℚ} (hs0 : 0 ≤ s) (hs1 : s ≤ 1) {P Q R : List (ℚ × ℚ)} {h1 h2 h : List (ℚ × ℚ)} (H1 : h1.Perm (P ++ [(0, 0), (1, 0)]))
    (H2 : h2.Perm (Q ++ [(0, 0), (1, 0)])) (H : h.Perm (R ++ [(0, 0), (1, 0)])) (B : Blend s P Q R) :
    (∀ x y1 y2 y, Envelope h1 x y1 → Envelope h2 x y2 → Envelope h x y → (1 - s) * y1 + s * y2 ≤ y) ∧
    ((∀ p ∈ h1, 0 ≤ p.2) → (∀ p ∈ h2, 0 ≤ p.2) → ∀ p ∈ h, 0 ≤ p.2) := by
  have key : ∀ r ∈ h, ∃ p ∈ h1, ∃ q ∈ h2, p.1 = r.1 ∧ q.1 = r.1 ∧ r.2 = (1 - s) * p.2 + s * q.2 := by
    intro r hr
    rcases List.mem_append.mp (H.mem_iff.mp hr) with hr | hr
    · obtain ⟨i, hi⟩ := List.mem_iff_getElem?.mp hr
      obtain ⟨p, q, hp, hq, k⟩ := B.2.2 i r hi
      exact ⟨p, H1.mem_iff.mpr (List.mem_append_left _ (List.mem_of_getElem? hp)), q,
        H2.mem_iff.mpr (List.mem_append_left _ (List.mem_of_getElem? hq)), k⟩
    · refine ⟨r, H1.mem_iff.mpr (List.mem_append_right _ hr), r, H2.mem_iff.mpr (List.mem_append_right _ hr), rfl, rfl, by ring⟩
  constructor
  · rintro x y1 y2 y ⟨⟨a1, b1, k1, rfl⟩, -⟩ ⟨⟨a2, b2, k2, rfl⟩, -⟩ ⟨-, hmax⟩
    have := hmax ((1 - s) * a1 + s * a2) ((1 - s) * b1 + s * b2) fun r hr => by
      obtain ⟨p, hp, q, hq, e1, e2, e3⟩ := key r hr
      have c1 := mul_le_mul_of_nonneg_left (k1 p hp) (sub_nonneg.mpr hs1)
      have c2 := mul_le_mul_of_nonneg_left (k2 q hq) hs0
      rw [e1] at c1
      rw [e2] at c2
      rw [e3]
      linarith
    linarith
  · intro n1 n2 r hr
    obtain ⟨p, hp, q, hq, -, -, e3⟩ := key r hr
    rw [e3]
    exact add_nonneg (mul_nonneg (sub_nonneg.mpr hs1) (n1 p hp)) (mul_nonneg hs0 (n2 q hq))

/-- **C162, points of an interface.** The hulls of the same conserving reactions between compounds, built at three temperatures, have energies that are
interpolated; so `C162_hull` applies to them. -/
theorem C162_points (X : Chem κ ε) (hX : X.Lawful) (G : Env ε) (ident : Entry κ → CRxn κ) (argsort : List ℚ → List ℕ)
    (hsort : Verif.Props.HullInit.SortsBy argsort) (c1 c2 : κ) (rs : List (List (Gibbs κ) × List ℚ))
    (hrs : ∀ r ∈ rs, (r.1.map fun e => X.red e.comp).Nodup ∧ (∀ e ∈ r.1, Compound X e) ∧ Conserved X (r.1.map fun e => X.red e.comp) r.2)
    (t1 t2 t : ℚ) (ht : t1 < t2) (o1 o2 o : List (List (Gibbs κ))) (h1 : List.Forall₂ (fun r x => At X G t1 r.1 x) rs o1)
    (h2 : List.Forall₂ (fun r x => At X G t2 r.1 x) rs o2) (h : List.Forall₂ (fun r x => At X G t r.1 x) rs o) (H1 H2 H : Built (CRxn κ))
    (k1 : hullInit reactantEntries (fun e => X.red e.comp) (closedPlace X c1 c2) (energyPerAtom X) ident argsort c1 c2 (rxnsAt X G o1 rs) = .ok H1)
    (k2 : hullInit reactantEntries (fun e => X.red e.comp) (closedPlace X c1 c2) (energyPerAtom X) ident argsort c1 c2 (rxnsAt X G o2 rs) = .ok H2)
    (k : hullInit reactantEntries (fun e => X.red e.comp) (closedPlace X c1 c2) (energyPerAtom X) ident argsort c1 c2 (rxnsAt X G o rs) = .ok H) :
    ∃ P Q R, Blend ((t - t1) / (t2 - t1)) P Q R ∧ H1.coords.Perm (P ++ [(0, 0), (1, 0)]) ∧ H2.coords.Perm (Q ++ [(0, 0), (1, 0)]) ∧
      H.coords.Perm (R ++ [(0, 0), (1, 0)]) ∧ (H1.coords.Pairwise fun p q => p.1 ≤ q.1) ∧ (H2.coords.Pairwise fun p q => p.1 ≤ q.1) ∧
      (H.coords.Pairwise fun p q => p.1 ≤ q.1) ∧
      List.Forall₂ (fun r p => closedPlace X c1 c2 r = .ok p.1 ∧ energyPerAtom X r = .ok p.2) (rxnsAt X G o1 rs) P ∧
      List.Forall₂ (fun r p => closedPlace X c1 c2 r = .ok p.1 ∧ energyPerAtom X r = .ok p.2) (rxnsAt X G o2 rs) Q ∧
      List.Forall₂ (fun r p => closedPlace X c1 c2 r = .ok p.1 ∧ energyPerAtom X r = .ok p.2) (rxnsAt X G o rs) R := by
  obtain ⟨-, -, P, -, -, -, -, fP, -, -, -, pP, sP⟩ := Verif.Props.HullInit.C92_aligned _ _ _ _ _ _ hsort _ _ _ _ k1
  obtain ⟨-, -, Q, -, -, -, -, fQ, -, -, -, pQ, sQ⟩ := Verif.Props.HullInit.C92_aligned _ _ _ _ _ _ hsort _ _ _ _ k2
  obtain ⟨-, -, R, -, -, -, -, fR, -, -, -, pR, sR⟩ := Verif.Props.HullInit.C92_aligned _ _ _ _ _ _ hsort _ _ _ _ k
  refine ⟨P, Q, R, ?_, pP, pQ, pR, sP, sQ, sR, fP, fQ, fR⟩
  clear k1 k2 k pP pQ pR sP sQ sR H1 H2 H
  unfold rxnsAt at fP fQ fR
  induction h1 generalizing o2 o P Q R with
  | nil =>
    cases fP
    cases h2
    cases h
    cases fQ
    cases fR
    exact ⟨rfl, rfl, by simp⟩
  | @cons r x rs o1 hx _ ih =>
    cases h2 with
    | @cons _ y _ o2 hy h2 =>
    cases h with
    | @cons _ z _ o hz h =>
    simp only [List.zip_cons_cons, List.map_cons] at fP fQ fR
    cases fP with
    | @cons _ p _ P p1 fP =>
    cases fQ with
    | @cons _ q _ Q q1 fQ =>
    cases fR with
    | @cons _ w _ R w1 fR =>
    obtain ⟨b1, b2, b3⟩ := ih (fun r hr => hrs r (List.mem_cons_of_mem _ hr)) o2 o h2 h P fP Q fQ R fR
    obtain ⟨hn, hc, hk⟩ := hrs r (by simp)
    have hl := (C162_line X hX G r.1 r.2 [] none hn hc hk t1 t2 t x y z hx hy hz).2 _ _ _ p1.2 q1.2 w1.2
    have place : ∀ (t : ℚ) (x : List (Gibbs κ)), At X G t r.1 x → closedPlace X c1 c2 (cinit X (x.map (seen X G)) r.2 [] none)
        = closedPlace X c1 c2 (⟨[], Verif.Model.Reaction.init X (r.1.map fun e => X.red e.comp) r.2 none [] none⟩ : CRxn κ) := by
      intro t x hx
      unfold closedPlace cinit
      rw [seen_comps X G t hx]
    have e1 := p1.1
    have e2 := q1.1
    have e3 := w1.1
    rw [place t1 x hx] at e1
    rw [place t2 y hy, e1] at e2
    rw [place t z hz, e1] at e3
    refine ⟨by simp [b1], by simp [b2], ?_⟩
    intro i v hv
    cases i with
    | succ i => simpa using b3 i v (by simpa using hv)
    | zero =>
      have hv : w = v := by simpa using hv
      subst hv
      refine ⟨p, q, by simp, by simp, Except.ok.inj e3, (Except.ok.inj e2).symm.trans (Except.ok.inj e3), ?_⟩
      have hpos : t2 - t1 ≠ 0 := by linarith
      field_simp
      linarith

/-- **C162, with elements.** Between neighbouring nodes of the table of the elements, the energy of a conserving reaction that consumes more atoms from
elemental phases than it produces is nowhere below the line between its values at the nodes, and of one that produces more nowhere above. So a reaction
that consumes elements and is unfavourable at both nodes is unfavourable in between. -/
theorem C162_elements (X : Chem κ ε) (hX : X.Lawful) (G : Env ε) (es : List (Gibbs κ)) (ks : List ℚ) (data : List (String × ℚ)) (lne : Option ℕ)
    (hn : (es.map fun e => X.red e.comp).Nodup) (hk : Conserved X (es.map fun e => X.red e.comp) ks) (t1 t2 t : ℚ) (ht1 : t1 ≤ t) (ht2 : t ≤ t2)
    (hlog : (t2 - t) * G.log t1 + (t - t1) * G.log t2 ≤ (t2 - t1) * G.log t) (hmu : ∀ e ∈ es, (X.elems e.comp).length = 1 → ∀ s ∈ X.elems e.comp, Straight G t1 t2 t s)
    (o1 o2 o : List (Gibbs κ)) (h1 : At X G t1 es o1) (h2 : At X G t2 es o2) (h : At X G t es o) :
    ∃ v1 v2 v, energy X (cinit X (o1.map (seen X G)) ks data lne) = .ok v1 ∧ energy X (cinit X (o2.map (seen X G)) ks data lne) = .ok v2 ∧
      energy X (cinit X (o.map (seen X G)) ks data lne) = .ok v ∧
      (freed X es ks ≤ 0 → (t2 - t) * v1 + (t - t1) * v2 ≤ (t2 - t1) * v ∧ (t1 < t2 → 0 ≤ v1 → 0 ≤ v2 → 0 ≤ v)) ∧
      (0 ≤ freed X es ks → (t2 - t1) * v ≤ (t2 - t) * v1 + (t - t1) * v2 ∧ (t1 < t2 → v1 ≤ 0 → v2 ≤ 0 → v ≤ 0)) := by
  have hb := rest_bend X G t1 t2 t (es.zip ks) fun p hp => hmu p.1 (List.of_mem_zip hp).1
  have hJ : 0 ≤ 181 / 1000 * ((t2 - t1) * G.log t - (t2 - t) * G.log t1 - (t - t1) * G.log t2) := by
    have : 0 ≤ (t2 - t1) * G.log t - (t2 - t) * G.log t1 - (t - t1) * G.log t2 := by linarith
    positivity
  refine ⟨_, _, _, energy_rest X hX G es ks data lne hn hk t1 o1 h1, energy_rest X hX G es ks data lne hn hk t2 o2 h2,
    energy_rest X hX G es ks data lne hn hk t o h, ?_, ?_⟩
  · intro hf
    have key := mul_nonneg hJ (neg_nonneg.mpr hf)
    unfold freed at key
    refine ⟨by linarith, fun hlt n1 n2 => ?_⟩
    have c1 := mul_nonneg (sub_nonneg.mpr ht2) n1
    have c2 := mul_nonneg (sub_nonneg.mpr ht1) n2
    exact le_of_mul_le_mul_left (by linarith) (sub_pos.mpr hlt)
  · intro hf
    have key := mul_nonneg hJ hf
    unfold freed at key
    refine ⟨by linarith, fun hlt n1 n2 => ?_⟩
    have c1 := mul_nonneg (sub_nonneg.mpr ht2) (neg_nonneg.mpr n1)
    have c2 := mul_nonneg (sub_nonneg.mpr ht1) (neg_nonneg.mpr n2)
    exact le_of_mul_le_mul_left (by linarith) (sub_pos.mpr hlt)

/-! ### Examples -/

/-- Masses, logarithm, no reduction, and chemical potentials of the elements that are not on a line. -/
def exG : Env (Fin 3) where
  m := ![120, 120, 60]
  log x := if x = 5 then 161 / 100 else if x = 20 then 3 else if x = 300 then 57 / 10 else if x = 400 then 599 / 100 else 621 / 100
  factor _ := 1
  mu t i := .ok (if i = 0 then (if t = 300 then 0 else if t = 400 then -1 / 100 else -1) else 0)

/-- Compounds AB, BC and AB₂C. -/
def exAB : Gibbs TComp := ⟨![1, 1, 0], -1, 5, 300, [], none⟩
def exBC : Gibbs TComp := ⟨![0, 1, 1], -1, 5, 300, [.carbonate 1 (1 / 10)], none⟩
def exABC : Gibbs TComp := ⟨![1, 2, 1], -11 / 10, 20, 300, [], none⟩

/-- The three entries at a temperature. -/
def exAt (t : ℚ) : List (Gibbs TComp) := [exAB, exBC, exABC].filterMap fun e => (e.newTemperature (heat toy exG) t).toOption

theorem ex_at (t : ℚ) (ht : t ∈ [(300 : ℚ), 400, 500]) : At toy exG t [exAB, exBC, exABC] (exAt t) := by
  have h : ∀ e ∈ [exAB, exBC, exABC], ∃ e', e.newTemperature (heat toy exG) t = .ok e' := by
    intro e he
    obtain ⟨e', h, -⟩ := Verif.Props.Gibbs.ok_of (x := e.newTemperature (heat toy exG) t) (fun _ => true)
      ((by decide +kernel : ∀ t ∈ [(300 : ℚ), 400, 500], ∀ e ∈ [exAB, exBC, exABC],
        ((e.newTemperature (heat toy exG) t).toOption.map fun _ => true).getD false = true) t ht e he)
    exact ⟨e', h⟩
  obtain ⟨a, ha⟩ := h exAB (by simp)
  obtain ⟨b, hb⟩ := h exBC (by simp)
  obtain ⟨c, hc⟩ := h exABC (by simp)
  have : exAt t = [a, b, c] := by
    simp [exAt, ha, hb, hc, Except.toOption]
  rw [this]
  exact .cons ha (.cons hb (.cons hc .nil))

theorem ex_nodup : ([exAB, exBC, exABC].map fun e => toy.red e.comp).Nodup := by decide +kernel
theorem ex_compound : ∀ e ∈ [exAB, exBC, exABC], Compound toy e := by unfold Compound; decide +kernel
theorem ex_conserved : Conserved toy ([exAB, exBC, exABC].map fun e => toy.red e.comp) [-1, -1, 1] := by unfold Conserved; decide +kernel

/-- The energies per atom of AB + BC → AB₂C at the three temperatures. -/
example := C162_line toy toy_lawful exG [exAB, exBC, exABC] [-1, -1, 1] [] none ex_nodup ex_compound ex_conserved 300 500 400 _ _ _
  (ex_at 300 (by simp)) (ex_at 500 (by simp)) (ex_at 400 (by simp))

/-- Unfavourable above, favourable below: the energy changes sign once although the potentials of the elements bend. -/
theorem ex_values : energyPerAtom toy (cinit toy ((exAt 300).map (seen toy exG)) [-1, -1, 1] [] none) = .ok (-47827 / 2000000) ∧
    energyPerAtom toy (cinit toy ((exAt 400).map (seen toy exG)) [-1, -1, 1] [] none) = .ok (4891 / 500000) ∧
    energyPerAtom toy (cinit toy ((exAt 500).map (seen toy exG)) [-1, -1, 1] [] none) = .ok (17391 / 400000) := by decide +kernel

example := C162_between toy toy_lawful exG [exAB, exBC, exABC] [-1, -1, 1] [] none ex_nodup ex_compound ex_conserved 300 500 400 (by norm_num) (by norm_num)
  _ _ _ (ex_at 300 (by simp)) (ex_at 500 (by simp)) (ex_at 400 (by simp)) _ _ _ ex_values.1 ex_values.2.2 ex_values.2.1
example := (C162_once toy toy_lawful exG [exAB, exBC, exABC] [-1, -1, 1] [] none ex_nodup ex_compound ex_conserved 300 400 500 (by norm_num) (by norm_num)
  _ _ _ (ex_at 300 (by simp)) (ex_at 400 (by simp)) (ex_at 500 (by simp)) _ _ _ ex_values.1 ex_values.2.1 ex_values.2.2).1 (by norm_num) (by norm_num)

/-- Other chemical potentials of the elements. -/
def exG' : Env (Fin 3) := { exG with mu := fun t i => .ok (t * t / 1000 - i) }

example : ∃ o', At toy exG' 400 [exAB, exBC, exABC] o' ∧ o'.map (seen toy exG') ≠ (exAt 400).map (seen toy exG) ∧
    energyPerAtom toy (cinit toy (o'.map (seen toy exG')) [-1, -1, 1] [] none) = energyPerAtom toy (cinit toy ((exAt 400).map (seen toy exG)) [-1, -1, 1] [] none) := by
  obtain ⟨a, ha, pa⟩ := Verif.Props.Gibbs.ok_of (x := exAB.newTemperature (heat toy exG') 400)
    (fun e => decide (seen toy exG' e ∉ (exAt 400).map (seen toy exG))) (by decide +kernel)
  obtain ⟨b, hb, -⟩ := Verif.Props.Gibbs.ok_of (x := exBC.newTemperature (heat toy exG') 400) (fun _ => true) (by decide +kernel)
  obtain ⟨c, hc, -⟩ := Verif.Props.Gibbs.ok_of (x := exABC.newTemperature (heat toy exG') 400) (fun _ => true) (by decide +kernel)
  have h : At toy exG' 400 [exAB, exBC, exABC] [a, b, c] := .cons ha (.cons hb (.cons hc .nil))
  refine ⟨_, h, fun he => ?_, (C162_references toy toy_lawful exG exG' rfl rfl rfl _ [-1, -1, 1] [] none ex_nodup ex_compound ex_conserved 400 _ _
    (ex_at 400 (by simp)) h).2⟩
  have pa := of_decide_eq_true pa
  rw [← he] at pa
  exact pa (by simp)

/-- A reaction at 1/2 that is favourable at the first temperature only. -/
example := C162_hull (s := 1 / 4) (by norm_num) (by norm_num) (P := [(1/2, -2)]) (Q := [(1/2, 6)]) (R := [(1/2, 0)])
  (h1 := [(0, 0), (1/2, -2), (1, 0)]) (h2 := [(0, 0), (1/2, 6), (1, 0)]) (h := [(0, 0), (1/2, 0), (1, 0)]) (by decide +kernel) (by decide +kernel) (by decide +kernel)
  ⟨rfl, rfl, fun i r hr => by
    cases i with
    | zero =>
      have hr : (((1 : ℚ)/2, (0 : ℚ)) : ℚ × ℚ) = r := by simpa using hr
      subst hr
      exact ⟨(1/2, -2), (1/2, 6), rfl, rfl, rfl, rfl, by norm_num⟩
    | succ i => simp at hr⟩

theorem ex_built (t : ℚ) (ht : t ∈ [(300 : ℚ), 400, 500]) : ∃ H, hullInit reactantEntries (fun e : Entry TComp => toy.red e.comp)
    (closedPlace toy ![1, 1, 0] ![0, 1, 1]) (energyPerAtom toy) (fun e => cinit toy [e] [1] [] none) Verif.Props.HullInit.exArgsort ![1, 1, 0] ![0, 1, 1]
    (rxnsAt toy exG [exAt t] [([exAB, exBC, exABC], [-1, -1, 1])]) = .ok H := by
  obtain ⟨H, h, -⟩ := Verif.Props.Gibbs.ok_of (x := hullInit reactantEntries (fun e : Entry TComp => toy.red e.comp)
    (closedPlace toy ![1, 1, 0] ![0, 1, 1]) (energyPerAtom toy) (fun e => cinit toy [e] [1] [] none) Verif.Props.HullInit.exArgsort ![1, 1, 0] ![0, 1, 1]
    (rxnsAt toy exG [exAt t] [([exAB, exBC, exABC], [-1, -1, 1])])) (fun _ => true) (by
      revert t
      decide +kernel)
  exact ⟨H, h⟩

example : ∃ H1 H2 H : Built (CRxn TComp), ∃ P Q R, Blend ((400 - 300) / (500 - 300)) P Q R ∧ H1.coords.Perm (P ++ [(0, 0), (1, 0)]) ∧
    H2.coords.Perm (Q ++ [(0, 0), (1, 0)]) ∧ H.coords.Perm (R ++ [(0, 0), (1, 0)]) := by
  obtain ⟨H1, k1⟩ := ex_built 300 (by simp)
  obtain ⟨H2, k2⟩ := ex_built 500 (by simp)
  obtain ⟨H, k⟩ := ex_built 400 (by simp)
  obtain ⟨P, Q, R, h1, h2, h3, h4, -⟩ := C162_points toy toy_lawful exG _ _ Verif.Props.HullInit.exArgsort_sorts _ _ [([exAB, exBC, exABC], [-1, -1, 1])]
    (by
      intro r hr
      rw [List.mem_singleton.mp hr]
      exact ⟨ex_nodup, ex_compound, ex_conserved⟩) 300 500 400 (by norm_num) [exAt 300] [exAt 500] [exAt 400] (.cons (ex_at 300 (by simp)) .nil)
    (.cons (ex_at 500 (by simp)) .nil) (.cons (ex_at 400 (by simp)) .nil) H1 H2 H k1 k2 k
  exact ⟨H1, H2, H, P, Q, R, h1, h2, h3, h4⟩

/-- Elements A and B and a compound of them. -/
def exA : Gibbs TComp := ⟨![1, 0, 0], 0, 5, 300, [], none⟩
def exB : Gibbs TComp := ⟨![0, 1, 0], 0, 5, 300, [], none⟩
def exWeak : Gibbs TComp := ⟨![1, 1, 0], 35 / 100, 5, 300, [], none⟩

/-- **C162 is violated by reactions with elements**: the entry of an element has no correction and the potentials of the elements bend, so a formation
reaction can be unfavourable at two temperatures and favourable in between. -/
theorem C162_elements_violated : ∃ (G : Env (Fin 3)) (es o1 o2 o : List (Gibbs TComp)) (ks : List ℚ) (v1 v2 v : ℚ),
    (es.map fun e => toy.red e.comp).Nodup ∧ Conserved toy (es.map fun e => toy.red e.comp) ks ∧ At toy G 300 es o1 ∧ At toy G 500 es o2 ∧ At toy G 400 es o ∧
    energyPerAtom toy (cinit toy (o1.map (seen toy G)) ks [] none) = .ok v1 ∧ energyPerAtom toy (cinit toy (o2.map (seen toy G)) ks [] none) = .ok v2 ∧
    energyPerAtom toy (cinit toy (o.map (seen toy G)) ks [] none) = .ok v ∧ 0 < v1 ∧ 0 < v2 ∧ v < 0 := by
  have h : ∀ t ∈ [(300 : ℚ), 400, 500], ∀ e ∈ [exA, exB, exWeak], ∃ e', e.newTemperature (heat toy exG) t = .ok e' := by
    intro t ht e he
    obtain ⟨e', h, -⟩ := Verif.Props.Gibbs.ok_of (x := e.newTemperature (heat toy exG) t) (fun _ => true)
      ((by decide +kernel : ∀ t ∈ [(300 : ℚ), 400, 500], ∀ e ∈ [exA, exB, exWeak],
        ((e.newTemperature (heat toy exG) t).toOption.map fun _ => true).getD false = true) t ht e he)
    exact ⟨e', h⟩
  have hat : ∀ t ∈ [(300 : ℚ), 400, 500], At toy exG t [exA, exB, exWeak]
      ([exA, exB, exWeak].filterMap fun e => (e.newTemperature (heat toy exG) t).toOption) := by
    intro t ht
    obtain ⟨a, ha⟩ := h t ht exA (by simp)
    obtain ⟨b, hb⟩ := h t ht exB (by simp)
    obtain ⟨c, hc⟩ := h t ht exWeak (by simp)
    simp only [List.filterMap_cons, List.filterMap_nil, ha, hb, hc, Except.toOption]
    exact .cons ha (.cons hb (.cons hc .nil))
  have hv : ∀ t ∈ [(300 : ℚ), 400, 500], ∃ v, energyPerAtom toy (cinit toy (([exA, exB, exWeak].filterMap fun e =>
      (e.newTemperature (heat toy exG) t).toOption).map (seen toy exG)) [-1, -1, 1] [] none) = .ok v ∧ decide (if t = 400 then v < 0 else 0 < v) = true := by
    intro t ht
    refine Verif.Props.Gibbs.ok_of (fun v => decide (if t = 400 then v < 0 else 0 < v)) ?_
    revert t
    decide +kernel
  obtain ⟨v1, a1, b1⟩ := hv 300 (by simp)
  obtain ⟨v2, a2, b2⟩ := hv 500 (by simp)
  obtain ⟨v, a, b⟩ := hv 400 (by simp)
  refine ⟨exG, [exA, exB, exWeak], _, _, _, [-1, -1, 1], v1, v2, v, by decide +kernel, by unfold Conserved; decide +kernel, hat 300 (by simp), hat 500 (by simp),
    hat 400 (by simp), a1, a2, a, ?_, ?_, ?_⟩
  · simpa using b1
  · simpa using b2
  · simpa using b

/-- Potentials on a line. -/
def exG2 : Env (Fin 3) := { exG with mu := fun t i => .ok (-t / 1000 * (i + 1)) }

/-- Between 300 and 500 K the formation of AB is above the line. -/
example : ∃ o1 o2 o : List (Gibbs TComp), ∃ v1 v2 v : ℚ, freed toy [exA, exB, exWeak] [-1, -1, 1] = -2 ∧
    energy toy (cinit toy (o1.map (seen toy exG2)) [-1, -1, 1] [] none) = .ok v1 ∧ energy toy (cinit toy (o2.map (seen toy exG2)) [-1, -1, 1] [] none) = .ok v2 ∧
    energy toy (cinit toy (o.map (seen toy exG2)) [-1, -1, 1] [] none) = .ok v ∧ (500 - 400) * v1 + (400 - 300) * v2 ≤ (500 - 300) * v := by
  have h : ∀ t ∈ [(300 : ℚ), 400, 500], ∃ o, At toy exG2 t [exA, exB, exWeak] o := by
    intro t ht
    have h : ∀ e ∈ [exA, exB, exWeak], ∃ e', e.newTemperature (heat toy exG2) t = .ok e' := by
      intro e he
      obtain ⟨e', h, -⟩ := Verif.Props.Gibbs.ok_of (x := e.newTemperature (heat toy exG2) t) (fun _ => true)
        ((by decide +kernel : ∀ t ∈ [(300 : ℚ), 400, 500], ∀ e ∈ [exA, exB, exWeak],
          ((e.newTemperature (heat toy exG2) t).toOption.map fun _ => true).getD false = true) t ht e he)
      exact ⟨e', h⟩
    obtain ⟨a, ha⟩ := h exA (by simp)
    obtain ⟨b, hb⟩ := h exB (by simp)
    obtain ⟨c, hc⟩ := h exWeak (by simp)
    exact ⟨_, .cons ha (.cons hb (.cons hc .nil))⟩
  obtain ⟨o1, h1⟩ := h 300 (by simp)
  obtain ⟨o2, h2⟩ := h 500 (by simp)
  obtain ⟨o, h⟩ := h 400 (by simp)
  have hf : freed toy [exA, exB, exWeak] [-1, -1, 1] = -2 := by decide +kernel
  obtain ⟨v1, v2, v, e1, e2, e, hv, -⟩ := C162_elements toy toy_lawful exG2 [exA, exB, exWeak] [-1, -1, 1] [] none (by decide +kernel)
    (by unfold Conserved; decide +kernel) 300 500 400 (by norm_num) (by norm_num) (by decide +kernel)
    (fun _ _ _ s _ => ⟨_, _, _, rfl, rfl, rfl, by ring⟩) o1 o2 o h1 h2 h
  exact ⟨o1, o2, o, v1, v2, v, hf, e1, e2, e, (hv (by rw [hf]; norm_num)).1⟩

end Verif.Props.TempLine
