import Verif.Props.TempLine

/-!
Property C162, polymorphs: reactions that list several computed entries of one composition, between two temperatures
(src/rxn_network/reactions/computed.py, src/rxn_network/entries/gibbs.py).
-/

set_option linter.unusedSectionVars false

namespace Verif.Props.TempPoly
open Verif.Py Verif.Model Verif.Model.Reaction Verif.Spec.Reaction Verif.Props.Reaction
open Verif.Model.Entries (Gibbs)
open Verif.Model.Gibbs (Env)
open Verif.Props.TempLine
open Verif.Props.Reference (C141_conserving)

variable {κ ε : Type} [DecidableEq κ] [DecidableEq ε]

/-! ### Specification -/

/-- No other entry of the list has the composition of this one. -/
def Alone (X : Chem κ ε) (es : List (Gibbs κ)) (e : Gibbs κ) : Prop := ∀ e' ∈ es, X.red e'.comp = X.red e.comp → e' = e

/-! ### Helper lemmas -/

/-- The energy of a reaction of compounds: each composition counts with its lowest line. -/
theorem energy_lowest (X : Chem κ ε) (hX : X.Lawful) (G : Env ε) (es : List (Gibbs κ)) (ks : List ℚ) (data : List (String × ℚ)) (lne : Option ℕ)
    (hc : ∀ e ∈ es, Compound X e) (hk : Conserved X (es.map fun e => X.red e.comp) ks) (t : ℚ) (out : List (Gibbs κ)) (h : At X G t es out) :
    ∃ g : κ → ℚ, energy X (cinit X (out.map (seen X G)) ks data lne) = .ok ((es.zip ks).map fun p => p.2 * g (X.red p.1.comp)).sum ∧
      ∀ e ∈ es, g (X.red e.comp) ≤ (fixed X e + t * rise X G e) / X.fac e.comp ∧
        ∃ e' ∈ es, X.red e'.comp = X.red e.comp ∧ g (X.red e.comp) = (fixed X e' + t * rise X G e') / X.fac e'.comp := by
  have hm : (es.map fun e => (⟨e.comp, fixed X e + t * rise X G e⟩ : Entry κ)).map (fun e => X.red e.comp) = es.map fun e => X.red e.comp := by
    rw [List.map_map]; rfl
  have hl := (C141_conserving X hX (share G t) _ _ ks data lne (lines X hX G t h hc)).2 (by rw [hm]; exact hk)
  obtain ⟨g, g1, g2⟩ := C17_energy_formula X (es.map fun e => (⟨e.comp, fixed X e + t * rise X G e⟩ : Entry κ)) ks data lne
  refine ⟨g, ?_, fun e he => ?_⟩
  · rw [hl.1, g1, hm, List.zip_map_left, List.map_map]
    rfl
  · obtain ⟨a, x, hx, b, c⟩ := g2 _ (List.mem_map_of_mem (f := fun e => (⟨e.comp, fixed X e + t * rise X G e⟩ : Entry κ)) he)
    obtain ⟨y, hy, rfl⟩ := List.mem_map.mp hx
    exact ⟨a, y, hy, b, c⟩

theorem sum_le {α : Type} (f f' : α → ℚ) : ∀ l : List α, (∀ p ∈ l, f p ≤ f' p) → (l.map f).sum ≤ (l.map f').sum
  | [], _ => le_refl _
  | p :: l, h => by
    simp only [List.map_cons, List.sum_cons]
    exact add_le_add (h p (by simp)) (sum_le f f' l fun q hq => h q (List.mem_cons_of_mem _ hq))

/-! ### C162 -/

/-- **C162, polymorphs.** A conserving reaction between compounds may list several entries of one composition; the lowest one counts, at each temperature
another one perhaps. If no composition that is consumed is listed with several entries, the energy between two temperatures is nowhere below the line
between its values there, so the reaction is unfavourable in between if it is at both; if none that is produced is, it is nowhere above. -/
theorem C162_polymorphs (X : Chem κ ε) (hX : X.Lawful) (G : Env ε) (es : List (Gibbs κ)) (ks : List ℚ) (data : List (String × ℚ)) (lne : Option ℕ)
    (hc : ∀ e ∈ es, Compound X e) (hk : Conserved X (es.map fun e => X.red e.comp) ks) (s t1 t2 t : ℚ) (hs0 : 0 ≤ s) (hs1 : s ≤ 1)
    (hs : t = (1 - s) * t1 + s * t2) (o1 o2 o : List (Gibbs κ)) (h1 : At X G t1 es o1) (h2 : At X G t2 es o2) (h : At X G t es o) :
    ∃ v1 v2 v, energy X (cinit X (o1.map (seen X G)) ks data lne) = .ok v1 ∧ energy X (cinit X (o2.map (seen X G)) ks data lne) = .ok v2 ∧
      energy X (cinit X (o.map (seen X G)) ks data lne) = .ok v ∧
      ((∀ p ∈ es.zip ks, p.2 < 0 → Alone X es p.1) → (1 - s) * v1 + s * v2 ≤ v ∧ (0 ≤ v1 → 0 ≤ v2 → 0 ≤ v)) ∧
      ((∀ p ∈ es.zip ks, 0 < p.2 → Alone X es p.1) → v ≤ (1 - s) * v1 + s * v2 ∧ (v1 ≤ 0 → v2 ≤ 0 → v ≤ 0)) := by
  obtain ⟨g1, a1, b1⟩ := energy_lowest X hX G es ks data lne hc hk t1 o1 h1
  obtain ⟨g2, a2, b2⟩ := energy_lowest X hX G es ks data lne hc hk t2 o2 h2
  obtain ⟨g, a, b⟩ := energy_lowest X hX G es ks data lne hc hk t o h
  have conc : ∀ e ∈ es, (1 - s) * g1 (X.red e.comp) + s * g2 (X.red e.comp) ≤ g (X.red e.comp) := by
    intro e he
    obtain ⟨-, x, hx, hr, hg⟩ := b e he
    have c1 := mul_le_mul_of_nonneg_left (b1 x hx).1 (sub_nonneg.mpr hs1)
    have c2 := mul_le_mul_of_nonneg_left (b2 x hx).1 hs0
    rw [hr] at c1 c2
    rw [hg, hs]
    calc _ ≤ _ := add_le_add c1 c2
      _ = _ := by ring
  have same : ∀ e ∈ es, Alone X es e → g (X.red e.comp) = (1 - s) * g1 (X.red e.comp) + s * g2 (X.red e.comp) := by
    intro e he ha
    obtain ⟨-, x1, m1, r1, q1⟩ := b1 e he
    obtain ⟨-, x2, m2, r2, q2⟩ := b2 e he
    obtain ⟨-, x, m, r, q⟩ := b e he
    rw [q1, q2, q, ha x1 m1 r1, ha x2 m2 r2, ha x m r, hs]
    ring
  have hsum : (1 - s) * ((es.zip ks).map fun p => p.2 * g1 (X.red p.1.comp)).sum + s * ((es.zip ks).map fun p => p.2 * g2 (X.red p.1.comp)).sum
      = ((es.zip ks).map fun p => p.2 * ((1 - s) * g1 (X.red p.1.comp) + s * g2 (X.red p.1.comp))).sum := by
    rw [← List.sum_map_mul_left, ← List.sum_map_mul_left, ← List.sum_map_add]
    congr 1
    apply List.map_congr_left
    intro p _
    ring
  refine ⟨_, _, _, a1, a2, a, fun hu => ?_, fun hu => ?_⟩
  · have key : (1 - s) * ((es.zip ks).map fun p => p.2 * g1 (X.red p.1.comp)).sum + s * ((es.zip ks).map fun p => p.2 * g2 (X.red p.1.comp)).sum
        ≤ ((es.zip ks).map fun p => p.2 * g (X.red p.1.comp)).sum := by
      rw [hsum]
      refine sum_le _ _ _ fun p hp => ?_
      have he := (List.of_mem_zip hp).1
      by_cases hp0 : p.2 < 0
      · rw [same p.1 he (hu p hp hp0)]
      · exact mul_le_mul_of_nonneg_left (conc p.1 he) (not_lt.mp hp0)
    refine ⟨key, fun n1 n2 => ?_⟩
    have c1 := mul_nonneg (sub_nonneg.mpr hs1) n1
    have c2 := mul_nonneg hs0 n2
    linarith
  · have key : ((es.zip ks).map fun p => p.2 * g (X.red p.1.comp)).sum
        ≤ (1 - s) * ((es.zip ks).map fun p => p.2 * g1 (X.red p.1.comp)).sum + s * ((es.zip ks).map fun p => p.2 * g2 (X.red p.1.comp)).sum := by
      rw [hsum]
      refine sum_le _ _ _ fun p hp => ?_
      have he := (List.of_mem_zip hp).1
      by_cases hp0 : 0 < p.2
      · rw [same p.1 he (hu p hp hp0)]
      · exact mul_le_mul_of_nonpos_left (conc p.1 he) (not_lt.mp hp0)
    refine ⟨key, fun n1 n2 => ?_⟩
    have c1 := mul_nonneg (sub_nonneg.mpr hs1) (neg_nonneg.mpr n1)
    have c2 := mul_nonneg hs0 (neg_nonneg.mpr n2)
    linarith

/-! ### Examples -/

/-- A logarithm with a value at 4. -/
def exG4 : Env (Fin 3) := { exG with log := fun x => if x = 4 then 139 / 100 else exG.log x }

/-- A polymorph of AB₂C that is preferred at high temperatures; AB + BC → AB₂C with either. -/
def exPoly : Gibbs TComp := ⟨![1, 2, 1], -92 / 100, 4, 300, [], none⟩
def exEs : List (Gibbs TComp) := [exAB, exBC, exABC, exPoly]
def exKs : List ℚ := [-1, -1, 1 / 2, 1 / 2]
def exOut (t : ℚ) : List (Gibbs TComp) := exEs.filterMap fun e => (e.newTemperature (heat toy exG4) t).toOption

theorem ex_out (t : ℚ) (ht : t ∈ [(300 : ℚ), 400, 500]) : At toy exG4 t exEs (exOut t) := by
  have h : ∀ e ∈ exEs, ∃ e', e.newTemperature (heat toy exG4) t = .ok e' := by
    intro e he
    obtain ⟨e', h, -⟩ := Verif.Props.Gibbs.ok_of (x := e.newTemperature (heat toy exG4) t) (fun _ => true)
      ((by decide +kernel : ∀ t ∈ [(300 : ℚ), 400, 500], ∀ e ∈ exEs,
        ((e.newTemperature (heat toy exG4) t).toOption.map fun _ => true).getD false = true) t ht e he)
    exact ⟨e', h⟩
  obtain ⟨a, ha⟩ := h exAB (by simp [exEs])
  obtain ⟨b, hb⟩ := h exBC (by simp [exEs])
  obtain ⟨c, hc⟩ := h exABC (by simp [exEs])
  obtain ⟨d, hd⟩ := h exPoly (by simp [exEs])
  have : exOut t = [a, b, c, d] := by
    simp [exOut, exEs, ha, hb, hc, hd, Except.toOption]
  rw [this]
  exact .cons ha (.cons hb (.cons hc (.cons hd .nil)))

theorem ex_compounds : ∀ e ∈ exEs, Compound toy e := by unfold Compound; decide +kernel
theorem ex_conserving : Conserved toy (exEs.map fun e => toy.red e.comp) exKs := by unfold Conserved; decide +kernel
theorem ex_alone : ∀ p ∈ exEs.zip exKs, p.2 < 0 → Alone toy exEs p.1 := by unfold Alone; decide +kernel

example : ∃ v1 v2 v, energy toy (cinit toy ((exOut 300).map (seen toy exG4)) exKs [] none) = .ok v1 ∧
    energy toy (cinit toy ((exOut 500).map (seen toy exG4)) exKs [] none) = .ok v2 ∧ energy toy (cinit toy ((exOut 400).map (seen toy exG4)) exKs [] none) = .ok v ∧
    (1 - 1 / 2) * v1 + 1 / 2 * v2 ≤ v := by
  obtain ⟨v1, v2, v, a1, a2, a, b, -⟩ := C162_polymorphs toy toy_lawful exG4 exEs exKs [] none ex_compounds ex_conserving (1 / 2) 300 500 400 (by norm_num) (by norm_num)
    (by norm_num) _ _ _ (ex_out 300 (by simp)) (ex_out 500 (by simp)) (ex_out 400 (by simp))
  exact ⟨v1, v2, v, a1, a2, a, (b ex_alone).1⟩

/-- **C162 is violated with polymorphs**: AB + BC → AB₂C is favourable at 300 K and, with another polymorph, at 500 K, but with neither at 400 K. -/
theorem C162_polymorphs_violated : ∃ (G : Env (Fin 3)) (es o1 o2 o : List (Gibbs TComp)) (ks : List ℚ) (v1 v2 v : ℚ),
    (∀ e ∈ es, Compound toy e) ∧ Conserved toy (es.map fun e => toy.red e.comp) ks ∧ At toy G 300 es o1 ∧ At toy G 500 es o2 ∧ At toy G 400 es o ∧
    energyPerAtom toy (cinit toy (o1.map (seen toy G)) ks [] none) = .ok v1 ∧ energyPerAtom toy (cinit toy (o2.map (seen toy G)) ks [] none) = .ok v2 ∧
    energyPerAtom toy (cinit toy (o.map (seen toy G)) ks [] none) = .ok v ∧ v1 < 0 ∧ v2 < 0 ∧ 0 < v := by
  let v := fun t => ((energyPerAtom toy (cinit toy ((exOut t).map (seen toy exG4)) exKs [] none)).toOption).getD 0
  exact ⟨exG4, exEs, _, _, _, exKs, v 300, v 500, v 400, ex_compounds, ex_conserving, ex_out 300 (by simp), ex_out 500 (by simp), ex_out 400 (by simp),
    by decide +kernel, by decide +kernel, by decide +kernel, by decide +kernel, by decide +kernel, by decide +kernel⟩

end Verif.Props.TempPoly
