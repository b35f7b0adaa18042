import Verif.Props.StabilityTemp
import Verif.Props.EntryFlow
import Verif.Props.EnergyError

/-!
Property C162, entries of all kinds: the energy of a reaction between computed, elemental, experimental and interpolated entries between two
temperatures (`energy_per_atom`, `get_new_temperature`).
-/

set_option linter.unusedSectionVars false

namespace Verif.Props.TempAny
open Verif.Py Verif.Model Verif.Model.Thermo
open Verif.Spec.Reaction (Conserved)
open Verif.Model.Reaction
open Verif.Model.EntryFlow (Ent World)
open Verif.Model.Gibbs (Env)
open Verif.Props.Reaction Verif.Props.EnergyError Verif.Props.StabilityTemp
open Verif.Props.TempLine (heat Straight)
open Verif.Model.Hull Verif.Props.HullConvex Verif.Props.Written
open Verif.Props.Reference (carried Rereferenced rereferenced_shift C141_conserving)

variable {φ κ : Type} [DecidableEq κ]

/-! ### Specification -/

/-- The entries of a list at a temperature. -/
def AtAll (W : World κ Enum.Sym φ) (t : ℚ) (es out : List (Ent κ)) : Prop :=
  List.Forall₂ (fun e e' => e.newTemperature W t = .ok e') es out

/-- What a reaction reads from an entry. -/
def seenAll (W : World κ Enum.Sym φ) (e : Ent κ) : Entry κ := ⟨e.comp, e.energy W⟩

/-- Reactions at a temperature: coefficients with the entries there. -/
def rxnsAll (X : Chem κ Enum.Sym) (W : World κ Enum.Sym φ) (os : List (List (Ent κ))) (rs : List (List (Ent κ) × List ℚ)) : List (CRxn κ) :=
  (os.zip rs).map fun p => cinit X (p.1.map (seenAll W)) p.2.2 [] none

/-! ### Helper lemmas -/

/-- The energy of an entry at a temperature. -/
def energyAt (W : World κ Enum.Sym φ) (t : ℚ) (e : Ent κ) : ℚ := (((e.newTemperature W t).toOption.map fun e' => e'.energy W)).getD 0

theorem seen_eq (W : World κ Enum.Sym φ) (t : ℚ) {es out : List (Ent κ)} (h : AtAll W t es out) :
    out.map (seenAll W) = (es.map fun e => (⟨e.comp, energyAt W t e⟩ : Entry κ)) ∧ EnergiesAll W id t es (energyAt W t) := by
  unfold AtAll at h
  induction h with
  | nil => exact ⟨rfl, by intro e he; simp at he⟩
  | @cons e e' es out he _ ih =>
    have hE : energyAt W t e = e'.energy W := by unfold energyAt; rw [he]; rfl
    have hc : e'.comp = e.comp := by
      classical exact Verif.Props.EntryFlow.newTemperature_comp W t e e' he
    refine ⟨?_, ?_⟩
    · simp only [List.map_cons, ih.1, hE]
      unfold seenAll
      rw [hc]
    · intro x hx
      rcases List.mem_cons.mp hx with rfl | hx
      · exact ⟨e', he, hE⟩
      · exact ih.2 x hx

theorem slack_bounds (X : Chem κ Enum.Sym) (G : Env Enum.Sym) (s t1 t2 t : ℚ) (hJ : 0 ≤ bend G.log s t1 t2 t) (e : Ent κ) :
    |slack X G s t1 t2 t e - bend G.log s t1 t2 t / 2| ≤ bend G.log s t1 t2 t / 2 := by
  rw [abs_le]
  unfold slack
  split
  · split_ifs <;> constructor <;> linarith
  all_goals constructor <;> linarith

theorem natoms_fac (X : Chem κ Enum.Sym) (hX : X.Lawful) (c : κ) : X.natoms c / X.fac c = X.natoms (X.red c) := by
  have := (rereferenced_shift X hX (fun _ => 1) ⟨c, 0⟩).energy
  simpa [carried, Chem.natoms] using this

/-! ### C162 -/

/-- **C162, entries of all kinds.** Between two temperatures of one interval of all tables, the energy of a conserving reaction among computed, elemental,
experimental and interpolated entries, per atom, differs from the interpolation of its values there by at most `bend`: the same bound for every reaction.
It can be reported at all of the three temperatures or at none. -/
theorem C162_any (X : Chem κ Enum.Sym) (hX : X.Lawful) (G : Env Enum.Sym) (W : World κ Enum.Sym φ) (hW : W.thermo = heat X G) (es : List (Ent κ)) (ks : List ℚ)
    (data : List (String × ℚ)) (lne : Option ℕ) (hn : (es.map fun e => X.red e.comp).Nodup) (hk : Conserved X (es.map fun e => X.red e.comp) ks)
    (s t1 t2 t : ℚ) (hs0 : 0 ≤ s) (hs1 : s ≤ 1) (hs : t = (1 - s) * t1 + s * t2) (ht : t1 < t2) (hJ : 0 ≤ bend G.log s t1 t2 t)
    (hmu : ∀ e ∈ es, ∀ x ∈ X.elems e.comp, Straight G t1 t2 t x) (htab : ∀ e ∈ es, ∀ a, e = .exper a → Tabulated W t1 t2 a.comp)
    (o1 o2 o : List (Ent κ)) (h1 : AtAll W t1 es o1) (h2 : AtAll W t2 es o2) (h : AtAll W t es o) (v1 v2 : ℚ)
    (e1 : energyPerAtom X (cinit X (o1.map (seenAll W)) ks data lne) = .ok v1) (e2 : energyPerAtom X (cinit X (o2.map (seenAll W)) ks data lne) = .ok v2) :
    ∃ v, energyPerAtom X (cinit X (o.map (seenAll W)) ks data lne) = .ok v ∧ |v - ((1 - s) * v1 + s * v2)| ≤ bend G.log s t1 t2 t := by
  obtain ⟨s1, m1⟩ := seen_eq W t1 h1
  obtain ⟨s2, m2⟩ := seen_eq W t2 h2
  obtain ⟨s3, m3⟩ := seen_eq W t h
  rw [s1] at e1
  rw [s2] at e2
  rw [s3]
  have hall := all_bend X G W hW id s t1 t2 t hs0 hs1 hs ht es m1 m2 m3 hmu htab
  simp only [id] at hall
  generalize energyAt W t1 = E1 at *
  generalize energyAt W t2 = E2 at *
  generalize energyAt W t = E at *
  have hJs := slack_bounds X G s t1 t2 t hJ
  generalize bend G.log s t1 t2 t = J at *
  have hm : ∀ F : Ent κ → ℚ, (es.map fun e => (⟨e.comp, F e⟩ : Entry κ)).map (fun e => X.red e.comp) = es.map fun e => X.red e.comp := by
    intro F; rw [List.map_map]; rfl
  -- the interpolated energies
  set I : Ent κ → ℚ := fun e => (1 - s) * E1 e + s * E2 e with hI
  have hper : ∀ F : Ent κ → ℚ, energyPerAtom X (cinit X (es.map fun e => (⟨e.comp, F e⟩ : Entry κ)) ks data lne)
      = perAtom (.ok ((es.zip ks).map fun p => p.2 * (F p.1 / X.fac p.1.comp)).sum)
        (numAtoms X (elements X (es.map fun e => X.red e.comp)) (es.map fun e => X.red e.comp) ks) := by
    intro F
    have hd := C17_energy_distinct X (es.map fun e => (⟨e.comp, F e⟩ : Entry κ)) ks data lne (by rw [hm]; exact hn)
    rw [List.zip_map_left, List.map_map] at hd
    rw [← hm F]
    have : energyPerAtom X (cinit X (es.map fun e => (⟨e.comp, F e⟩ : Entry κ)) ks data lne)
        = perAtom (energy X (cinit X (es.map fun e => (⟨e.comp, F e⟩ : Entry κ)) ks data lne))
          (numAtoms X (elements X ((es.map fun e => (⟨e.comp, F e⟩ : Entry κ)).map fun e => X.red e.comp))
            ((es.map fun e => (⟨e.comp, F e⟩ : Entry κ)).map fun e => X.red e.comp) ks) := by
      simp [energyPerAtom, cinit, Verif.Model.Reaction.init]
    rw [this, hd]
    rfl
  have hline : energyPerAtom X (cinit X (es.map fun e => (⟨e.comp, I e⟩ : Entry κ)) ks data lne) = .ok ((1 - s) * v1 + s * v2) := by
    rw [hper] at e1 e2 ⊢
    have hsum : ((es.zip ks).map fun p => p.2 * (I p.1 / X.fac p.1.comp)).sum
        = (1 - s) * ((es.zip ks).map fun p => p.2 * (E1 p.1 / X.fac p.1.comp)).sum + s * ((es.zip ks).map fun p => p.2 * (E2 p.1 / X.fac p.1.comp)).sum := by
      rw [← List.sum_map_mul_left, ← List.sum_map_mul_left, ← List.sum_map_add]
      congr 1
      apply List.map_congr_left
      intro p _
      simp only [hI]
      ring
    unfold perAtom at e1 e2 ⊢
    simp only at e1 e2 ⊢
    split_ifs at e1 e2 ⊢ with h0
    rw [← Except.ok.inj e1, ← Except.ok.inj e2, hsum]
    congr 1
    ring
  -- half of the bend at every atom changes nothing
  have hmid : energyPerAtom X (cinit X (es.map fun e => (⟨e.comp, I e + carried X (fun _ => J / 2) e.comp⟩ : Entry κ)) ks data lne)
      = .ok ((1 - s) * v1 + s * v2) := by
    rw [← hline]
    refine ((C141_conserving X hX (fun _ => J / 2) _ _ ks data lne ?_).2 (by rw [hm]; exact hk)).2
    rw [List.forall₂_map_left_iff, List.forall₂_map_right_iff, List.forall₂_same]
    intro e _
    exact rereferenced_shift X hX (fun _ => J / 2) (⟨e.comp, I e⟩ : Entry κ)
  have hw : List.Forall₂ (Within X (J / 2)) (es.map fun e => (⟨e.comp, I e + carried X (fun _ => J / 2) e.comp⟩ : Entry κ))
      (es.map fun e => (⟨e.comp, E e⟩ : Entry κ)) := by
    rw [List.forall₂_map_left_iff, List.forall₂_map_right_iff, List.forall₂_same]
    intro e he
    refine ⟨rfl, ?_⟩
    dsimp only
    have hc : carried X (fun _ => J / 2) e.comp = J / 2 * X.natoms e.comp := by
      unfold carried Chem.natoms
      rw [List.sum_map_mul_right, mul_comm]
    rw [hall e he, hc, ← natoms_fac X hX e.comp, ← sub_div, abs_div, abs_of_pos (hX.fac_pos e.comp), ← mul_div_assoc]
    refine div_le_div_of_nonneg_right ?_ (hX.fac_pos e.comp).le
    have hnn : 0 ≤ X.natoms e.comp := Verif.Props.Reaction.natoms_nonneg X hX _
    rw [show (1 - s) * E1 e + s * E2 e + slack X G s t1 t2 t e * X.natoms e.comp - (I e + J / 2 * X.natoms e.comp)
      = (slack X G s t1 t2 t e - J / 2) * X.natoms e.comp by simp only [hI]; ring, abs_mul, abs_of_nonneg hnn]
    exact mul_le_mul_of_nonneg_right (hJs e) hnn
  obtain ⟨-, g2, g3⟩ := C158_reaction X hX (J / 2) _ _ ks data lne hw (by rw [hm]; exact hn) (by rw [hm]; exact hk)
  cases hv : energyPerAtom X (cinit X (es.map fun e => (⟨e.comp, E e⟩ : Entry κ)) ks data lne) with
  | error x => rw [(g2 x).mp hv] at hmid; cases hmid
  | ok v =>
    refine ⟨v, rfl, ?_⟩
    have := g3 _ _ hmid hv
    linarith

/-- **C162, interfaces of all kinds of entries.** The hull of an interface between two temperatures of one interval of all tables is at most `bend` below the
interpolated hulls. So an interface that does not react at both temperatures reacts in between, if at all, with an energy of at most `bend` per atom. -/
theorem C162_any_interface (X : Chem κ Enum.Sym) (hX : X.Lawful) (G : Env Enum.Sym) (W : World κ Enum.Sym φ) (hW : W.thermo = heat X G) (ident : Entry κ → CRxn κ)
    (argsort : List ℚ → List ℕ) (hsort : Verif.Props.HullInit.SortsBy argsort) (c1 c2 : κ) (rs : List (List (Ent κ) × List ℚ))
    (hrs : ∀ r ∈ rs, (r.1.map fun e => X.red e.comp).Nodup ∧ Conserved X (r.1.map fun e => X.red e.comp) r.2)
    (s t1 t2 t : ℚ) (hs0 : 0 ≤ s) (hs1 : s ≤ 1) (hs : t = (1 - s) * t1 + s * t2) (ht : t1 < t2) (hJ : 0 ≤ bend G.log s t1 t2 t)
    (hmu : ∀ r ∈ rs, ∀ e ∈ r.1, ∀ x ∈ X.elems e.comp, Straight G t1 t2 t x)
    (htab : ∀ r ∈ rs, ∀ e ∈ r.1, ∀ a, e = .exper a → Tabulated W t1 t2 a.comp)
    (o1 o2 o : List (List (Ent κ))) (h1 : List.Forall₂ (fun r x => AtAll W t1 r.1 x) rs o1)
    (h2 : List.Forall₂ (fun r x => AtAll W t2 r.1 x) rs o2) (h : List.Forall₂ (fun r x => AtAll W t r.1 x) rs o) (H1 H2 H : Built (CRxn κ))
    (k1 : hullInit reactantEntries (fun e => X.red e.comp) (closedPlace X c1 c2) (energyPerAtom X) ident argsort c1 c2 (rxnsAll X W o1 rs) = .ok H1)
    (k2 : hullInit reactantEntries (fun e => X.red e.comp) (closedPlace X c1 c2) (energyPerAtom X) ident argsort c1 c2 (rxnsAll X W o2 rs) = .ok H2)
    (k : hullInit reactantEntries (fun e => X.red e.comp) (closedPlace X c1 c2) (energyPerAtom X) ident argsort c1 c2 (rxnsAll X W o rs) = .ok H) :
    (∀ x y1 y2 y, Envelope H1.coords x y1 → Envelope H2.coords x y2 → Envelope H.coords x y → (1 - s) * y1 + s * y2 - bend G.log s t1 t2 t ≤ y) ∧
    ((∀ p ∈ H1.coords, 0 ≤ p.2) → (∀ p ∈ H2.coords, 0 ≤ p.2) → ∀ p ∈ H.coords, -bend G.log s t1 t2 t ≤ p.2) := by
  obtain ⟨-, -, P, -, -, -, -, fP, -, -, -, pP, -⟩ := Verif.Props.HullInit.C92_aligned _ _ _ _ _ _ hsort _ _ _ _ k1
  obtain ⟨-, -, Q, -, -, -, -, fQ, -, -, -, pQ, -⟩ := Verif.Props.HullInit.C92_aligned _ _ _ _ _ _ hsort _ _ _ _ k2
  obtain ⟨-, -, R, -, -, -, -, fR, -, -, -, pR, -⟩ := Verif.Props.HullInit.C92_aligned _ _ _ _ _ _ hsort _ _ _ _ k
  have pts : ∀ r ∈ R, ∃ p ∈ P, ∃ q ∈ Q, p.1 = r.1 ∧ q.1 = r.1 ∧ (1 - s) * p.2 + s * q.2 - bend G.log s t1 t2 t ≤ r.2 := by
    clear k1 k2 k pP pQ pR H1 H2 H
    unfold rxnsAll at fP fQ fR
    induction h1 generalizing o2 o P Q R with
    | nil =>
      cases h2; cases h; cases fR
      intro r hr
      cases hr
    | @cons r x rs o1 hx _ ih =>
      cases h2 with
      | @cons _ y _ o2 hy h2 =>
      cases h with
      | @cons _ z _ o hz h =>
      simp only [List.zip_cons_cons, List.map_cons] at fP fQ fR
      cases fP with
      | @cons _ p _ P p1 fP =>
      cases fQ with
      | @cons _ q _ Q q1 fQ =>
      cases fR with
      | @cons _ w _ R w1 fR =>
      have ih := ih (fun r hr => hrs r (List.mem_cons_of_mem _ hr)) (fun r hr => hmu r (List.mem_cons_of_mem _ hr))
        (fun r hr => htab r (List.mem_cons_of_mem _ hr)) o2 o h2 h P fP Q fQ R fR
      intro u hu
      rcases List.mem_cons.mp hu with rfl | hu
      · obtain ⟨hn, hk⟩ := hrs r (by simp)
        obtain ⟨v, hv, hb⟩ := C162_any X hX G W hW r.1 r.2 [] none hn hk s t1 t2 t hs0 hs1 hs ht hJ (hmu r (by simp)) (htab r (by simp)) x y z hx hy hz _ _
          p1.2 q1.2
        have place : ∀ (t : ℚ) (x : List (Ent κ)), AtAll W t r.1 x → closedPlace X c1 c2 (cinit X (x.map (seenAll W)) r.2 [] none)
            = closedPlace X c1 c2 (⟨[], Verif.Model.Reaction.init X (r.1.map fun e => X.red e.comp) r.2 none [] none⟩ : CRxn κ) := by
          intro t x hx
          unfold closedPlace cinit
          rw [(seen_eq W t hx).1, List.map_map]
          rfl
        have q0 := p1.1
        have q2 := q1.1
        have q3 := w1.1
        rw [place _ _ hx] at q0
        rw [place _ _ hy] at q2
        rw [place _ _ hz] at q3
        have hw : v = u.2 := Except.ok.inj (hv.symm.trans w1.2)
        refine ⟨p, by simp, q, by simp, Except.ok.inj (q0.symm.trans q3), Except.ok.inj (q2.symm.trans q3), ?_⟩
        rw [← hw]
        have := (abs_le.mp hb).1
        linarith
      · obtain ⟨p', hp', q', hq', rest⟩ := ih u hu
        exact ⟨p', List.mem_cons_of_mem _ hp', q', List.mem_cons_of_mem _ hq', rest⟩
  have key : ∀ r ∈ H.coords, ∃ p ∈ H1.coords, ∃ q ∈ H2.coords, p.1 = r.1 ∧ q.1 = r.1 ∧ (1 - s) * p.2 + s * q.2 - bend G.log s t1 t2 t ≤ r.2 := by
    intro r hr
    rcases List.mem_append.mp (pR.mem_iff.mp hr) with hr | hr
    · obtain ⟨p, hp, q, hq, rest⟩ := pts r hr
      exact ⟨p, pP.mem_iff.mpr (List.mem_append_left _ hp), q, pQ.mem_iff.mpr (List.mem_append_left _ hq), rest⟩
    · exact ⟨r, pP.mem_iff.mpr (List.mem_append_right _ hr), r, pQ.mem_iff.mpr (List.mem_append_right _ hr), rfl, rfl, by linarith⟩
  constructor
  · rintro x y1 y2 y ⟨⟨a1, b1, k1, rfl⟩, -⟩ ⟨⟨a2, b2, k2, rfl⟩, -⟩ ⟨-, hmax⟩
    have := hmax ((1 - s) * a1 + s * a2) ((1 - s) * b1 + s * b2 - bend G.log s t1 t2 t) fun r hr => by
      obtain ⟨p, hp, q, hq, e1, e2, e3⟩ := key r hr
      have c1 := mul_le_mul_of_nonneg_left (k1 p hp) (sub_nonneg.mpr hs1)
      have c2 := mul_le_mul_of_nonneg_left (k2 q hq) hs0
      rw [e1] at c1
      rw [e2] at c2
      linarith
    linarith
  · intro n1 n2 r hr
    obtain ⟨p, hp, q, hq, -, -, e3⟩ := key r hr
    have := add_nonneg (mul_nonneg (sub_nonneg.mpr hs1) (n1 p hp)) (mul_nonneg hs0 (n2 q hq))
    linarith

/-! ### Examples -/

theorem ex_lawful : exX.Lawful where
  nonneg c e := by
    revert c
    by_cases hA : e = ['A']
    · subst hA; decide +kernel
    · by_cases hB : e = ['B']
      · subst hB; decide +kernel
      · intro c; simp [exX, Verif.Props.StabilityFilter.exAmt, hA, hB]
  mem_elems c e := by
    revert c
    by_cases hA : e = ['A']
    · subst hA; decide +kernel
    · by_cases hB : e = ['B']
      · subst hB; decide +kernel
      · intro c
        have h2 : ∀ c, ∀ x ∈ exX.elems c, x = ['A'] ∨ x = ['B'] := by decide +kernel
        have h3 : exX.amt c e = 0 := by simp [exX, Verif.Props.StabilityFilter.exAmt, hA, hB]
        simp only [h3, ne_eq, not_true_eq_false, iff_false]
        intro h
        rcases h2 c e h with h | h
        · exact hA h
        · exact hB h
  nodup := by decide +kernel
  fac_pos _ := one_pos
  red_amt c e := (one_mul _).symm
  red_red _ := rfl

theorem ex_conserved (es : List (Ent (Fin 5))) (ks : List ℚ) (hA : Verif.Spec.Reaction.net exX (es.map fun e => exX.red e.comp) ks ['A'] = 0)
    (hB : Verif.Spec.Reaction.net exX (es.map fun e => exX.red e.comp) ks ['B'] = 0) : Conserved exX (es.map fun e => exX.red e.comp) ks := by
  intro x
  by_cases h1 : x = ['A']
  · rw [h1]; exact hA
  · by_cases h2 : x = ['B']
    · rw [h2]; exact hB
    · have h0 : ∀ c, exX.amt c x = 0 := by intro c; simp [exX, Verif.Props.StabilityFilter.exAmt, h1, h2]
      unfold Verif.Spec.Reaction.net
      simp [h0]

/-- 3 B + AB + A2B2 → 3 AB2, with elemental, computed, interpolated and experimental entries. -/
def exEs : List (Ent (Fin 5)) := [exEnt 1, exEnt 2, exEnt 3, exEnt 4]
def exKs : List ℚ := [-3, -1, -1, 3]
def exOut (t : ℚ) (es : List (Ent (Fin 5))) : List (Ent (Fin 5)) := es.filterMap fun e => (e.newTemperature exW t).toOption

theorem ex_at (t : ℚ) : ∀ es : List (Ent (Fin 5)), (∀ e ∈ es, (e.newTemperature exW t).toOption.isSome = true) → AtAll exW t es (exOut t es)
  | [], _ => .nil
  | e :: es, h => by
    have he := h e (by simp)
    have ih := ex_at t es fun x hx => h x (List.mem_cons_of_mem _ hx)
    unfold exOut AtAll at *
    cases hx : e.newTemperature exW t with
    | error y => rw [hx] at he; cases he
    | ok e' =>
      rw [List.filterMap_cons_some (b := e') (by rw [hx]; rfl)]
      exact .cons hx ih

example :=
  C162_any exX ex_lawful exG exW rfl exEs exKs [] none (by decide +kernel) (ex_conserved _ _ (by decide +kernel) (by decide +kernel)) (1 / 2) 300 400 350
    (by norm_num) (by norm_num) (by norm_num) (by norm_num) (by decide +kernel)
    (fun _ _ x _ => ⟨_, _, _, rfl, rfl, rfl, by split_ifs <;> norm_num⟩)
    (fun e he a ha _ => by
      have : a.comp = 4 := by
        subst ha
        simp only [exEs, List.mem_cons, List.not_mem_nil, or_false] at he
        rcases he with h | h | h | h <;> cases h
        rfl
      refine ⟨[(300, -1), (400, -3/2), (500, -3)], 3, 300, -1, 400, -3/2, by rw [this]; rfl, by simp only [Verif.Props.EntryTable.Grid]; norm_num,
        ⟨[], [(500, -3)], rfl⟩, by norm_num, by norm_num⟩)
    _ _ _ (ex_at 300 exEs (by decide +kernel)) (ex_at 400 exEs (by decide +kernel)) (ex_at 350 exEs (by decide +kernel))
    (((energyPerAtom exX (cinit exX ((exOut 300 exEs).map (seenAll exW)) exKs [] none)).toOption).getD 0)
    (((energyPerAtom exX (cinit exX ((exOut 400 exEs).map (seenAll exW)) exKs [] none)).toOption).getD 0) (by decide +kernel) (by decide +kernel)

/-- The interface of B and AB: they form AB2. -/
def exRs : List (List (Ent (Fin 5)) × List ℚ) := [([exEnt 1, exEnt 2, exEnt 4], [-1, -1, 1])]

theorem ex_hulls (t : ℚ) (ht : t ∈ [(300 : ℚ), 350, 400]) : ∃ H, hullInit reactantEntries (fun e : Entry (Fin 5) => exX.red e.comp)
    (closedPlace exX 1 2) (energyPerAtom exX) (fun e => cinit exX [e] [1] [] none) Verif.Props.HullInit.exArgsort 1 2
    (rxnsAll exX exW [exOut t [exEnt 1, exEnt 2, exEnt 4]] exRs) = .ok H := by
  obtain ⟨H, h, -⟩ := Verif.Props.Gibbs.ok_of (x := hullInit reactantEntries (fun e : Entry (Fin 5) => exX.red e.comp)
    (closedPlace exX 1 2) (energyPerAtom exX) (fun e => cinit exX [e] [1] [] none) Verif.Props.HullInit.exArgsort 1 2
    (rxnsAll exX exW [exOut t [exEnt 1, exEnt 2, exEnt 4]] exRs)) (fun _ => true) (by
      revert t
      decide +kernel)
  exact ⟨H, h⟩

example : ∃ H1 H2 H : Built (CRxn (Fin 5)), H1.coords.length = 3 ∧
    ∀ x y1 y2 y, Envelope H1.coords x y1 → Envelope H2.coords x y2 → Envelope H.coords x y → (1 - 1 / 2) * y1 + 1 / 2 * y2 - bend exG.log (1 / 2) 300 400 350 ≤ y := by
  obtain ⟨H1, k1⟩ := ex_hulls 300 (by simp)
  obtain ⟨H2, k2⟩ := ex_hulls 400 (by simp)
  obtain ⟨H, k⟩ := ex_hulls 350 (by simp)
  refine ⟨H1, H2, H, ?_, (C162_any_interface exX ex_lawful exG exW rfl _ _ Verif.Props.HullInit.exArgsort_sorts _ _ exRs (fun r hr => ?_) (1 / 2) 300 400 350
    (by norm_num) (by norm_num) (by norm_num) (by norm_num) (by decide +kernel)
    (fun _ _ _ _ x _ => ⟨_, _, _, rfl, rfl, rfl, by split_ifs <;> norm_num⟩) (fun r hr e he a ha _ => ?_) _ _ _
    (.cons (ex_at 300 _ (by decide +kernel)) .nil) (.cons (ex_at 400 _ (by decide +kernel)) .nil) (.cons (ex_at 350 _ (by decide +kernel)) .nil)
    H1 H2 H k1 k2 k).1⟩
  · obtain ⟨-, -, P, -, -, -, -, f, -, -, -, p, -⟩ := Verif.Props.HullInit.C92_aligned _ _ _ _ _ _ Verif.Props.HullInit.exArgsort_sorts _ _ _ _ k1
    rw [p.length_eq, List.length_append, ← f.length_eq]
    rfl
  · rw [List.mem_singleton.mp hr]
    exact ⟨by decide +kernel, ex_conserved _ _ (by decide +kernel) (by decide +kernel)⟩
  · rw [List.mem_singleton.mp hr] at he
    have : a.comp = 4 := by
      subst ha
      simp only [List.mem_cons, List.not_mem_nil, or_false] at he
      rcases he with h | h | h <;> cases h
      rfl
    exact ⟨[(300, -1), (400, -3/2), (500, -3)], 3, 300, -1, 400, -3/2, by rw [this]; rfl, by simp only [Verif.Props.EntryTable.Grid]; norm_num,
      ⟨[], [(500, -3)], rfl⟩, by norm_num, by norm_num⟩

/-- **C162, the bound is reached**: A + B → AB is at equilibrium at 300 K and at 500 K, but at 400 K unfavourable by all of `bend`. -/
theorem C162_any_reached :
    (∀ t ∈ [(300 : ℚ), 400, 500], AtAll exW t [exEnt 0, exEnt 1, exEnt 2] (exOut t [exEnt 0, exEnt 1, exEnt 2])) ∧
    energyPerAtom exX (cinit exX ((exOut 300 [exEnt 0, exEnt 1, exEnt 2]).map (seenAll exW)) [-1, -1, 1] [] none) = .ok 0 ∧
    energyPerAtom exX (cinit exX ((exOut 500 [exEnt 0, exEnt 1, exEnt 2]).map (seenAll exW)) [-1, -1, 1] [] none) = .ok 0 ∧
    energyPerAtom exX (cinit exX ((exOut 400 [exEnt 0, exEnt 1, exEnt 2]).map (seenAll exW)) [-1, -1, 1] [] none) = .ok (bend exG.log (1 / 2) 300 500 400) ∧
    0 < bend exG.log (1 / 2) 300 500 400 :=
  ⟨fun t ht => ex_at t _ ((by decide +kernel : ∀ t ∈ [(300 : ℚ), 400, 500], ∀ e ∈ [exEnt 0, exEnt 1, exEnt 2], (e.newTemperature exW t).toOption.isSome = true) t ht),
    by decide +kernel, by decide +kernel, by decide +kernel, by decide +kernel⟩

end Verif.Props.TempAny
