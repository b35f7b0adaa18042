import Verif.Props.HullGrow
import Verif.Props.ExperData
import Verif.Props.ReactionFrac
import Verif.Props.ReactionEnergy
import Verif.Props.Reference

/-!
C158: how errors of the energies of the phases carry over to reaction energies, hulls and scores (src/rxn_network/reactions/{computed,open,hull}.py).
-/

set_option linter.unusedSectionVars false

namespace Verif.Props.EnergyError
open Verif.Py Verif.Model Verif.Model.Reaction Verif.Spec.Reaction Verif.Lemmas.Dict Verif.Lemmas.Reaction Verif.Props.Reaction Verif.Props.Written
open Verif.Model.Hull Verif.Spec.Hull Verif.Lemmas.Hull Verif.Lemmas.HullConvex Verif.Props.Hull Verif.Props.HullConvex Verif.Props.HullMirror
  Verif.Props.HullGrow

variable {κ ε : Type} [DecidableEq κ] [DecidableEq ε]

/-! ### Specification -/

/-- `e'` describes the same phase as `e`, in a cell of any size, with an energy per formula unit that differs by at most `δ` for every atom. -/
structure Within (X : Chem κ ε) (δ : ℚ) (e e' : Entry κ) : Prop where
  phase : X.red e'.comp = X.red e.comp
  energy : |e'.energy / X.fac e'.comp - e.energy / X.fac e.comp| ≤ δ * X.natoms (X.red e.comp)

/-- For phases with atoms this says that the energies per atom differ by at most `δ`. -/
theorem within_iff (X : Chem κ ε) (hX : X.Lawful) (δ : ℚ) (e e' : Entry κ) (hp : X.red e'.comp = X.red e.comp) (hne : X.elems (X.red e.comp) ≠ []) :
    Within X δ e e' ↔ |e'.energy / X.natoms e'.comp - e.energy / X.natoms e.comp| ≤ δ := by
  have hn := Verif.Props.Reaction.natoms_pos X hX _ hne
  have h1 := Verif.Props.ExperData.natoms_red X hX e.comp
  have h2 := Verif.Props.ExperData.natoms_red X hX e'.comp
  rw [hp] at h2
  rw [h1, h2, ← div_div, ← div_div, ← sub_div, abs_div, abs_of_pos hn, div_le_iff₀ hn]
  exact ⟨fun h => h.energy, fun h => ⟨hp, h⟩⟩

/-- The same points with energies that differ by at most `η`. -/
def Near (η : ℚ) (P Q : List (ℚ × ℚ)) : Prop := List.Forall₂ (fun p q => q.1 = p.1 ∧ |q.2 - p.2| ≤ η) P Q

/-! ### Helper lemmas -/

theorem near_symm {η : ℚ} {P Q : List (ℚ × ℚ)} (h : Near η P Q) : Near η Q P := by
  refine List.Forall₂.flip (h.imp ?_)
  intro p q hpq
  exact ⟨hpq.1.symm, by rw [abs_sub_comm]; exact hpq.2⟩

theorem near_mem {η : ℚ} {P Q : List (ℚ × ℚ)} (h : Near η P Q) (p : ℚ × ℚ) (hp : p ∈ P) : ∃ q ∈ Q, q.1 = p.1 ∧ |q.2 - p.2| ≤ η := by
  unfold Near at h
  induction h with
  | nil => simp at hp
  | cons hab _ ih =>
    rcases List.mem_cons.mp hp with rfl | hp
    · exact ⟨_, List.mem_cons_self, hab⟩
    · obtain ⟨q, hq, h⟩ := ih hp
      exact ⟨q, List.mem_cons_of_mem _ hq, h⟩

/-- What points of one hull say about the points of another. -/
def Shadow (η : ℚ) (P Q : List (ℚ × ℚ)) : Prop := ∀ p ∈ P, ∃ q ∈ Q, q.1 = p.1 ∧ |q.2 - p.2| ≤ η

theorem shadow_perm {η : ℚ} (hη : 0 ≤ η) {P Q C D : List (ℚ × ℚ)} (h : Near η P Q) (hC : C.Perm (P ++ [(0, 0), (1, 0)])) (hD : D.Perm (Q ++ [(0, 0), (1, 0)])) :
    Shadow η C D := by
  intro p hp
  rcases List.mem_append.mp (hC.mem_iff.mp hp) with hp | hp
  · obtain ⟨q, hq, h⟩ := near_mem h p hp
    exact ⟨q, hD.mem_iff.mpr (List.mem_append_left _ hq), h⟩
  · exact ⟨p, hD.mem_iff.mpr (List.mem_append_right _ hp), rfl, by simpa using hη⟩

theorem sum_abs (X : Chem κ ε) (hX : X.Lawful) (comps : List κ) (coeffs : List ℚ) (h : comps.Nodup) (hc : Conserved X comps coeffs) :
    ((comps.zip coeffs).map fun p => |p.2| * X.natoms p.1).sum = 2 * numAtoms X (elements X comps) comps coeffs := by
  have hs := sidesNodup_of_nodup comps coeffs h
  have hw : ∀ p ∈ comps.zip coeffs, ((elements X comps).map (X.amt p.1)).sum = X.natoms p.1 := by
    intro p hp
    have hm : p.1 ∈ comps := (List.of_mem_zip (a := p.1) (b := p.2) hp).1
    rw [natoms_eq X hX p.1 _ (nodup_elements X comps) (fun e he => (mem_elements X comps e).mpr ⟨_, hm, he⟩)]
  have hN1 : numAtoms X (elements X comps) comps coeffs = ((pos comps coeffs).map fun p => p.2 * X.natoms p.1).sum := by
    unfold numAtoms
    rw [productCoeffs_eq _ _ hs]
    congr 1
    exact List.map_congr_left fun p hp => by rw [hw p (List.mem_filter.mp hp).1]
  have hN2 : numAtoms X (elements X comps) comps coeffs = ((neg comps coeffs).map fun p => -p.2 * X.natoms p.1).sum := by
    rw [← numAtoms_reactants X _ comps coeffs hs (fun e _ => hc e), reactantCoeffs_eq _ _ hs]
    congr 1
    exact List.map_congr_left fun p hp => by rw [hw p (List.mem_filter.mp hp).1]
  rw [two_mul]
  nth_rewrite 1 [hN1]
  rw [hN2]
  unfold pos neg
  clear hN1 hN2 hw hs hc h
  induction comps.zip coeffs with
  | nil => simp
  | cons p l ih =>
    rw [List.map_cons, List.sum_cons, ih]
    rcases lt_trichotomy p.2 0 with h | h | h
    · rw [List.filter_cons_of_neg (by simpa using h.le), List.filter_cons_of_pos (by simpa using h), List.map_cons, List.sum_cons, abs_of_neg h]
      ring
    · rw [List.filter_cons_of_neg (by simp [h]), List.filter_cons_of_neg (by simp [h]), h]
      simp
    · rw [List.filter_cons_of_pos (by simpa using h), List.filter_cons_of_neg (by simpa using h.le), List.map_cons, List.sum_cons, abs_of_pos h]
      ring

theorem comps_eq (X : Chem κ ε) {δ : ℚ} {es es' : List (Entry κ)} (h : List.Forall₂ (Within X δ) es es') :
    (es'.map fun e => X.red e.comp) = es.map fun e => X.red e.comp := by
  induction h with
  | nil => rfl
  | cons hab _ ih => rw [List.map_cons, List.map_cons, ih, hab.phase]

theorem energy_diff (X : Chem κ ε) {δ : ℚ} {es es' : List (Entry κ)} (h : List.Forall₂ (Within X δ) es es') (ks : List ℚ) :
    |((es'.zip ks).map fun p => p.2 * (p.1.energy / X.fac p.1.comp)).sum - ((es.zip ks).map fun p => p.2 * (p.1.energy / X.fac p.1.comp)).sum|
      ≤ δ * (((es.map fun e => X.red e.comp).zip ks).map fun p => |p.2| * X.natoms p.1).sum := by
  induction h generalizing ks with
  | nil => simp
  | @cons e e' es es' hab _ ih =>
    cases ks with
    | nil => simp
    | cons k ks =>
      simp only [List.zip_cons_cons, List.map_cons, List.sum_cons]
      have h1 := ih ks
      have h2 : |k * (e'.energy / X.fac e'.comp) - k * (e.energy / X.fac e.comp)| ≤ δ * (|k| * X.natoms (X.red e.comp)) := by
        rw [← mul_sub, abs_mul]
        have := mul_le_mul_of_nonneg_left hab.energy (abs_nonneg k)
        linarith
      rw [abs_le] at h1 h2 ⊢
      constructor <;> linarith [h1.1, h1.2, h2.1, h2.2]

/-- `get_max_decomposition_energy` is at most the depth of any point between two corners below the straight line between them. -/
theorem side_below {h' : IRH} {vs' : List (ℚ × ℚ)} (G' : GoodHull h' vs') (F' : FlatEnds vs') {p1 p2 : ℚ × ℚ} (n1 : p1 ∈ vs') (n2 : p2 ∈ vs') (h0 : 0 ≤ p1.1)
    (hx : p1.1 < p2.1) (h1 : p2.1 ≤ 1) :
    ∃ e', getMaxDecompositionEnergy h' p1.1 p2.1 = some e' ∧ e' ≤ 0 ∧ ∀ v ∈ h'.coords, p1.1 < v.1 → v.1 < p2.1 → e' ≤ calculateAltitude p1 v p2 := by
  obtain ⟨e', he', hle', hall', -⟩ := side_spec G' F' n1 n2 h0 hx h1
  refine ⟨e', he', hle', fun v hv v1 v2 => ?_⟩
  -- the edge of the hull under `v`
  have hchain : ∃ a b, Adjacent vs' a b ∧ a.1 ≤ v.1 ∧ v.1 ≤ b.1 := by
    have hf : ∃ y, vs'.head? = some (0, y) := (first_mem G').imp fun _ hh => hh.2
    have hl : ∃ y, vs'.getLast? = some (1, y) := (last_mem G').imp fun _ hh => hh.2
    obtain ⟨y0, hf⟩ := hf
    obtain ⟨y1, hl⟩ := hl
    have key : ∀ (l : List (ℚ × ℚ)) (a : ℚ × ℚ), a.1 ≤ v.1 → (∀ b ∈ (a :: l).getLast?, v.1 < b.1) → ∃ u w, Adjacent (a :: l) u w ∧ u.1 ≤ v.1 ∧ v.1 ≤ w.1 := by
      intro l
      induction l with
      | nil =>
        intro a ha hb
        exact absurd (hb a (by simp)) (not_lt.mpr ha)
      | cons b l ih =>
        intro a ha hb
        by_cases hbv : b.1 ≤ v.1
        · obtain ⟨u, w, hadj, r1, r2⟩ := ih b hbv (by simpa using hb)
          exact ⟨u, w, adjacent_tail hadj, r1, r2⟩
        · exact ⟨a, b, ⟨[], l, rfl⟩, ha, (not_le.mp hbv).le⟩
    cases hvs : vs' with
    | nil => rw [hvs] at hf; simp at hf
    | cons a l =>
      rw [hvs] at hf hl
      refine key l a ?_ ?_
      · simp only [List.head?_cons, Option.some.injEq] at hf
        rw [hf]
        exact (h0.trans v1.le)
      · intro b hb
        rw [hl] at hb
        cases hb
        exact lt_of_lt_of_le v2 h1
  obtain ⟨a, b, hab, a1, b1⟩ := hchain
  have ⟨ma, mb⟩ := adjacent_mem hab
  have hlt := adjacent_lt G'.lower.strict hab
  have inj : ∀ u ∈ vs', ∀ w ∈ vs', u.1 = w.1 → u = w := by
    intro u hu w hw he
    exact Prod.ext he (onChain_unique G'.lower (x := u.1) (onChain_vertex (two_le_length G') G'.lower.strict hu)
      (he ▸ onChain_vertex (two_le_length G') G'.lower.strict hw))
  have hD : 0 < p2.1 - p1.1 := by linarith
  have bound : ∀ u ∈ vs', p1.1 ≤ u.1 → u.1 ≤ p2.1 → e' ≤ calculateAltitude p1 u p2 := by
    intro u hu u1 u2
    rcases u1.lt_or_eq with u1 | u1
    · rcases u2.lt_or_eq with u2 | u2
      · exact hall' u hu u1 u2
      · rw [inj u hu p2 n2 u2, altitude_linear, div_mul_cancel₀ _ hD.ne']
        simpa using hle'
    · rw [inj u hu p1 n1 u1.symm, altitude_linear]
      simpa using hle'
  have pa : p1.1 ≤ a.1 := by
    rcases adjacent_between G'.lower.strict hab n1 with h | h
    · exact h
    · linarith
  have pb : b.1 ≤ p2.1 := by
    rcases adjacent_between G'.lower.strict hab n2 with h | h
    · linarith
    · exact h
  have ba := bound a ma pa (by linarith)
  have bb := bound b mb (by linarith) pb
  have hs := G'.lower.support a b hab v hv
  unfold AboveLine at hs
  have hd : 0 < b.1 - a.1 := by linarith
  rw [altitude_linear] at ba bb ⊢
  set k0 := (p2.2 - p1.2) / (p2.1 - p1.1)
  have q1 := mul_le_mul_of_nonneg_right ba (sub_nonneg.mpr b1)
  have q2 := mul_le_mul_of_nonneg_right bb (sub_nonneg.mpr a1)
  have : e' * (b.1 - a.1) ≤ (v.2 - p1.2 - k0 * (v.1 - p1.1)) * (b.1 - a.1) := by nlinarith
  exact le_of_mul_le_mul_right this hd

/-- The largest depth between two corners that are corners of both hulls, up to `η`, grows by `2 η` at most. -/
theorem side_near {η : ℚ} {h h' : IRH} {vs vs' : List (ℚ × ℚ)} (G : GoodHull h vs) (G' : GoodHull h' vs') (F : FlatEnds vs) (F' : FlatEnds vs') (hη : 0 ≤ η)
    (T : Shadow η h.coords h'.coords) {p1 p2 p1' p2' : ℚ × ℚ} (m1 : p1 ∈ vs) (m2 : p2 ∈ vs) (n1 : p1' ∈ vs') (n2 : p2' ∈ vs') (e1 : p1'.1 = p1.1)
    (e2 : p2'.1 = p2.1) (d1 : |p1'.2 - p1.2| ≤ η) (d2 : |p2'.2 - p2.2| ≤ η) (h0 : 0 ≤ p1.1) (hx : p1.1 < p2.1) (h1 : p2.1 ≤ 1) :
    ∃ e e', getMaxDecompositionEnergy h p1.1 p2.1 = some e ∧ getMaxDecompositionEnergy h' p1.1 p2.1 = some e' ∧ e' ≤ e + 2 * η := by
  obtain ⟨e, he, -, -, hatt⟩ := side_spec G F m1 m2 h0 hx h1
  obtain ⟨e', he', hle', hall'⟩ := side_below G' F' n1 n2 (e1 ▸ h0) (by rw [e1, e2]; exact hx) (e2 ▸ h1)
  rw [e1, e2] at he'
  refine ⟨e, e', he, he', ?_⟩
  rcases hatt with rfl | ⟨v, hv, v1, v2, hva⟩
  · linarith
  obtain ⟨q, hq, hqx, hqy⟩ := T v (G.lower.sub v hv)
  have hb := hall' q hq (by rw [e1, hqx]; exact v1) (by rw [e2, hqx]; exact v2)
  rw [altitude_linear] at hva hb
  rw [e1, e2, hqx] at hb
  have hD : 0 < p2.1 - p1.1 := by linarith
  set t := (v.1 - p1.1) / (p2.1 - p1.1) with ht
  have t0 : 0 ≤ t := div_nonneg (by linarith) hD.le
  have t1 : t ≤ 1 := by rw [ht, div_le_one hD]; linarith
  have r1 : (p2.2 - p1.2) / (p2.1 - p1.1) * (v.1 - p1.1) = (p2.2 - p1.2) * t := by rw [ht]; ring
  have r2 : (p2'.2 - p1'.2) / (p2.1 - p1.1) * (v.1 - p1.1) = (p2'.2 - p1'.2) * t := by rw [ht]; ring
  rw [r1] at hva
  rw [r2] at hb
  rw [abs_le] at hqy d1 d2
  have c1 := mul_le_mul_of_nonneg_right (sub_le_sub_right d1.1 0) (sub_nonneg.mpr t1)
  have c2 := mul_le_mul_of_nonneg_right (sub_le_sub_right d2.1 0) t0
  nlinarith

theorem flat_of {h : IRH} {vs : List (ℚ × ℚ)} (G : GoodHull h vs) (hz : ∀ p ∈ h.coords, p.1 = 0 ∨ p.1 = 1 → 0 ≤ p.2) : FlatEnds vs := by
  -- the first and the last corner are not above the idle end members
  have low : ∀ v ∈ vs, ∀ q ∈ h.coords, q.1 = v.1 → v.2 ≤ q.2 := by
    intro v hv q hq hqv
    obtain ⟨a, b, hab, g1, g2, g3⟩ := onChain_vertex (two_le_length G) G.lower.strict hv
    have := G.lower.support a b hab q hq
    unfold AboveLine at this
    unfold OnLine at g3
    rw [hqv, ← g3] at this
    exact le_of_mul_le_mul_right this (by linarith [adjacent_lt G.lower.strict hab])
  obtain ⟨y0, my0, -⟩ := first_mem G
  obtain ⟨y1, my1, -⟩ := last_mem G
  have a0 : y0 = 0 := le_antisymm (low _ my0 _ G.ends.1 rfl) (hz _ (G.lower.sub _ my0) (Or.inl rfl))
  have a1 : y1 = 0 := le_antisymm (low _ my1 _ G.ends.2 rfl) (hz _ (G.lower.sub _ my1) (Or.inr rfl))
  exact ⟨a0 ▸ my0, a1 ▸ my1⟩

/-! ### Reactions -/

/-- **One reaction.** If the energies per atom of all phases are off by at most `δ`, the energy per atom of a conserving reaction between different phases is
off by at most `2 δ`, and it is undefined only if it was before. -/
theorem C158_reaction (X : Chem κ ε) (hX : X.Lawful) (δ : ℚ) (es es' : List (Entry κ)) (ks : List ℚ) (data : List (String × ℚ)) (lne : Option ℕ)
    (h : List.Forall₂ (Within X δ) es es') (hn : (es.map fun e => X.red e.comp).Nodup) (hc : Conserved X (es.map fun e => X.red e.comp) ks) :
    (cinit X es' ks data lne).base = (cinit X es ks data lne).base ∧
    (∀ err, energyPerAtom X (cinit X es' ks data lne) = .error err ↔ energyPerAtom X (cinit X es ks data lne) = .error err) ∧
    ∀ v v', energyPerAtom X (cinit X es ks data lne) = .ok v → energyPerAtom X (cinit X es' ks data lne) = .ok v' → |v' - v| ≤ 2 * δ := by
  have hce := comps_eq X h
  have hb : (cinit X es' ks data lne).base = (cinit X es ks data lne).base := by
    unfold cinit
    simp only [hce]
  have hE := C17_energy_distinct X es ks data lne hn
  have hE' := C17_energy_distinct X es' ks data lne (hce ▸ hn)
  have hd := energy_diff X h ks
  rw [sum_abs X hX _ ks hn hc] at hd
  have hN : 0 ≤ numAtoms X (elements X (es.map fun e => X.red e.comp)) (es.map fun e => X.red e.comp) ks := by
    have := sum_abs X hX _ ks hn hc
    have h0 : 0 ≤ (((es.map fun e => X.red e.comp).zip ks).map fun p => |p.2| * X.natoms p.1).sum := by
      apply List.sum_nonneg
      intro v hv
      obtain ⟨p, -, rfl⟩ := List.mem_map.mp hv
      exact mul_nonneg (abs_nonneg _) (Verif.Props.Reaction.natoms_nonneg X hX _)
    linarith
  have hp : energyPerAtom X (cinit X es ks data lne) = perAtom (energy X (cinit X es ks data lne))
      (numAtoms X (elements X (es.map fun e => X.red e.comp)) (es.map fun e => X.red e.comp) ks) := by
    simp [energyPerAtom, cinit, Verif.Model.Reaction.init]
  have hp' : energyPerAtom X (cinit X es' ks data lne) = perAtom (energy X (cinit X es' ks data lne))
      (numAtoms X (elements X (es.map fun e => X.red e.comp)) (es.map fun e => X.red e.comp) ks) := by
    rw [← hce]
    simp [energyPerAtom, cinit, Verif.Model.Reaction.init]
  rw [hp, hp', hE, hE']
  generalize numAtoms X (elements X (es.map fun e => X.red e.comp)) (es.map fun e => X.red e.comp) ks = N at hd hN
  refine ⟨hb, fun err => ?_, fun v v' hv hv' => ?_⟩
  · unfold perAtom
    simp only
    split_ifs <;> simp
  · unfold perAtom at hv hv'
    simp only at hv hv'
    split_ifs at hv hv' with h0
    rw [← Except.ok.inj hv, ← Except.ok.inj hv', ← sub_div, abs_div, abs_of_nonneg hN, div_le_iff₀ (lt_of_le_of_ne hN (Ne.symm h0))]
    linarith

/-- **An open reaction.** The energy is off by as much as that of the closed reaction, but counted per atom that is not exchanged: the error grows with the
share of the open elements. -/
theorem C158_open (X : Chem κ ε) (hX : X.Lawful) (δ : ℚ) (es es' : List (Entry κ)) (ks : List ℚ) (mu : List (ε × ℚ)) (data : List (String × ℚ)) (lne : Option ℕ)
    (h : List.Forall₂ (Within X δ) es es') (hn : (es.map fun e => X.red e.comp).Nodup) (hc : Conserved X (es.map fun e => X.red e.comp) ks) (v v' : ℚ)
    (hv : oenergyPerAtom X (oinit X es ks mu data lne) = .ok v) (hv' : oenergyPerAtom X (oinit X es' ks mu data lne) = .ok v') :
    |v' - v| * numAtoms X (oelements X (oinit X es ks mu data lne)) (es.map fun e => X.red e.comp) ks
      ≤ 2 * δ * numAtoms X (elements X (es.map fun e => X.red e.comp)) (es.map fun e => X.red e.comp) ks := by
  classical
  have hce := comps_eq X h
  have hd := energy_diff X h ks
  rw [sum_abs X hX _ ks hn hc] at hd
  have g := C19_grand_potential X hX es ks mu data lne
  have g' := C19_grand_potential X hX es' ks mu data lne
  simp only at g g'
  rw [C17_energy_distinct X es ks data lne hn] at g
  rw [C17_energy_distinct X es' ks data lne (hce ▸ hn), hce] at g'
  set sh := (mu.map fun m => m.2 *
            ((((es.map fun e => X.red e.comp).zip ks).filter fun p => ¬ PureOpen X (mu.map Prod.fst) p.1).map fun p => p.2 * X.amt p.1 m.1).sum).sum
  set M := numAtoms X (oelements X (oinit X es ks mu data lne)) (es.map fun e => X.red e.comp) ks with hM
  have hp : oenergyPerAtom X (oinit X es ks mu data lne) = perAtom (oenergy X (oinit X es ks mu data lne)) M := by
    rw [hM]
    simp [oenergyPerAtom, oinit, Verif.Model.Reaction.init]
  have hp' : oenergyPerAtom X (oinit X es' ks mu data lne) = perAtom (oenergy X (oinit X es' ks mu data lne)) M := by
    rw [hM]
    simp [oenergyPerAtom, oelements, oinit, Verif.Model.Reaction.init, hce]
  have hM0 : 0 ≤ M := by
    rw [hM]
    unfold numAtoms
    apply List.sum_nonneg
    intro x hx
    obtain ⟨p, hp, rfl⟩ := List.mem_map.mp hx
    refine mul_nonneg (mem_productCoeffs_pos _ _ p hp).le (List.sum_nonneg ?_)
    intro x hx
    obtain ⟨e, _, rfl⟩ := List.mem_map.mp hx
    exact hX.nonneg _ _
  rw [hp, g] at hv
  rw [hp', g'] at hv'
  unfold perAtom at hv hv'
  simp only [Except.map] at hv hv'
  split_ifs at hv hv' with h0
  rw [← Except.ok.inj hv, ← Except.ok.inj hv', ← sub_div, abs_div, abs_of_nonneg hM0, div_mul_cancel₀ _ h0, sub_sub_sub_cancel_right]
  linarith

/-! ### Hulls -/

/-- **The points of the hull.** If the hull of a list of conserving reactions can be built with the energies as they are, it can with the energies off by
`δ`, and the points then are the same up to `2 δ` in the energy. -/
theorem C158_points (X : Chem κ ε) (hX : X.Lawful) (δ : ℚ) (ident : Entry κ → CRxn κ) (argsort : List ℚ → List ℕ)
    (hsort : Verif.Props.HullInit.SortsBy argsort) (c1 c2 : κ) (as bs : List (Eqn κ))
    (h : List.Forall₂ (fun a b => b.coeffs = a.coeffs ∧ List.Forall₂ (Within X δ) a.entries b.entries ∧ (a.comps X).Nodup ∧
      Conserved X (a.comps X) a.coeffs) as bs) (H : Built (CRxn κ))
    (hH : hullInit reactantEntries (fun e => X.red e.comp) (closedPlace X c1 c2) (energyPerAtom X) ident argsort c1 c2 (as.map fun a => a.closed X [] none) = .ok H) :
    ∃ H' P Q, hullInit reactantEntries (fun e => X.red e.comp) (closedPlace X c1 c2) (energyPerAtom X) ident argsort c1 c2
        (bs.map fun b => b.closed X [] none) = .ok H' ∧ Near (2 * δ) P Q ∧
      H.coords.Perm (P ++ [(0, 0), (1, 0)]) ∧ H'.coords.Perm (Q ++ [(0, 0), (1, 0)]) ∧
      (H.coords.Pairwise fun p q => p.1 ≤ q.1) ∧ H'.coords.Pairwise fun p q => p.1 ≤ q.1 := by
  have hr := Verif.Props.HullInit.C92_raises reactantEntries (fun e : Entry κ => X.red e.comp) (closedPlace X c1 c2) (energyPerAtom X) ident argsort c1 c2
    (as.map fun a => a.closed X [] none)
  have hr' := Verif.Props.HullInit.C92_raises reactantEntries (fun e : Entry κ => X.red e.comp) (closedPlace X c1 c2) (energyPerAtom X) ident argsort c1 c2
    (bs.map fun a => a.closed X [] none)
  have hR : List.Forall₂ (fun (a b : CRxn κ) => closedPlace X c1 c2 b = closedPlace X c1 c2 a ∧
      (∀ err, energyPerAtom X b = .error err ↔ energyPerAtom X a = .error err) ∧
      (∀ v v', energyPerAtom X a = .ok v → energyPerAtom X b = .ok v' → |v' - v| ≤ 2 * δ) ∧
      ∀ c, (∃ e ∈ reactantEntries b, X.red e.comp = c) ↔ ∃ e ∈ reactantEntries a, X.red e.comp = c)
      (as.map fun a => a.closed X [] none) (bs.map fun b => b.closed X [] none) := by
    rw [List.forall₂_map_left_iff, List.forall₂_map_right_iff]
    refine h.imp ?_
    rintro ⟨es, ks, hl⟩ ⟨es', ks', hl'⟩ ⟨hk, hw, hn, hc⟩
    dsimp only at hk hw
    subst hk
    obtain ⟨h1, h2, h3⟩ := C158_reaction X hX δ es es' ks' [] none hw hn hc
    refine ⟨?_, h2, h3, fun c => ?_⟩
    · show closedPlace X c1 c2 (cinit X es' ks' [] none) = closedPlace X c1 c2 (cinit X es ks' [] none)
      unfold closedPlace
      rw [h1]
    · show (∃ e ∈ ((es'.zip ks').filter fun p => p.2 < (0 : ℚ)).map Prod.fst, X.red e.comp = c) ↔
        ∃ e ∈ ((es.zip ks').filter fun p => p.2 < (0 : ℚ)).map Prod.fst, X.red e.comp = c
      clear hl hl' h1 h2 h3 hc hn hr hr' hH h
      induction hw generalizing ks' with
      | nil => simp
      | cons hab _ ih =>
        cases ks' with
        | nil => simp
        | cons k ks' =>
          simp only [List.zip_cons_cons]
          by_cases hk : k < 0
          · rw [List.filter_cons_of_pos (by simpa using hk), List.filter_cons_of_pos (by simpa using hk)]
            simp only [List.map_cons, List.mem_cons, exists_eq_or_imp]
            rw [hab.phase, ih ks']
          · rw [List.filter_cons_of_neg (by simpa using hk), List.filter_cons_of_neg (by simpa using hk)]
            exact ih ks'
  clear h
  generalize (as.map fun a => a.closed X [] none) = ra at hR hH hr
  generalize (bs.map fun a => a.closed X [] none) = rb at hR hr' ⊢
  have back : ∀ b ∈ rb, ∃ a ∈ ra, closedPlace X c1 c2 b = closedPlace X c1 c2 a ∧ (∀ err, energyPerAtom X b = .error err ↔ energyPerAtom X a = .error err) := by
    clear hr hr' hH
    induction hR with
    | nil => simp
    | cons hab _ ih =>
      intro b hb
      rcases List.mem_cons.mp hb with rfl | hb
      · exact ⟨_, List.mem_cons_self, hab.1, hab.2.1⟩
      · obtain ⟨a, ha, h⟩ := ih b hb
        exact ⟨a, List.mem_cons_of_mem _ ha, h⟩
  have fwd : ∀ a ∈ ra, ∃ b ∈ rb, ∀ c, (∃ e ∈ reactantEntries b, X.red e.comp = c) ↔ ∃ e ∈ reactantEntries a, X.red e.comp = c := by
    clear hr hr' hH back
    induction hR with
    | nil => simp
    | cons hab _ ih =>
      intro a ha
      rcases List.mem_cons.mp ha with rfl | ha
      · exact ⟨_, List.mem_cons_self, hab.2.2.2⟩
      · obtain ⟨b, hb, h⟩ := ih a ha
        exact ⟨b, List.mem_cons_of_mem _ hb, h⟩
  have hb : Verif.Props.HullInit.BothOccur reactantEntries (fun e : Entry κ => X.red e.comp) c1 c2 ra := by
    by_contra hc
    rw [hr.1 hc] at hH
    cases hH
  have hb' : Verif.Props.HullInit.BothOccur reactantEntries (fun e : Entry κ => X.red e.comp) c1 c2 rb := by
    obtain ⟨h1, ⟨r, hr, h2⟩, r', hr', h3⟩ := hb
    obtain ⟨b, hb, h⟩ := fwd r hr
    obtain ⟨b', hb', h'⟩ := fwd r' hr'
    exact ⟨h1, ⟨b, hb, (h c1).mpr h2⟩, b', hb', (h' c2).mpr h3⟩
  have hall := (hr.2 hb).1.mp ⟨H, hH⟩
  obtain ⟨H', hH'⟩ := (hr'.2 hb').1.mpr (by
    intro b hb
    obtain ⟨a, ha, h1, h2⟩ := back b hb
    obtain ⟨⟨x, hx⟩, y, hy⟩ := hall a ha
    refine ⟨⟨x, h1.trans hx⟩, ?_⟩
    cases he : energyPerAtom X b with
    | ok v => exact ⟨v, rfl⟩
    | error err =>
      rw [(h2 err).mp he] at hy
      cases hy)
  obtain ⟨-, -, P, -, -, -, -, fP, -, -, -, pP, sP⟩ := Verif.Props.HullInit.C92_aligned _ _ _ _ _ _ hsort _ _ _ _ hH
  obtain ⟨-, -, Q, -, -, -, -, fQ, -, -, -, pQ, sQ⟩ := Verif.Props.HullInit.C92_aligned _ _ _ _ _ _ hsort _ _ _ _ hH'
  refine ⟨H', P, Q, hH', ?_, pP, pQ, sP, sQ⟩
  clear hr hr' hH hH' back fwd hb hb' hall pP pQ sP sQ
  unfold Near
  induction hR generalizing P Q with
  | nil =>
    cases fP
    cases fQ
    exact List.Forall₂.nil
  | cons hab _ ih =>
    cases fP with
    | cons p fP =>
      cases fQ with
      | cons q fQ =>
        refine List.Forall₂.cons ⟨?_, hab.2.2.1 _ _ p.2 q.2⟩ (ih _ fP _ fQ)
        have := q.1
        rw [hab.1, p.1] at this
        exact (Except.ok.inj this).symm

/-- **The hull.** Points that are the same up to `η` have lower envelopes that are the same up to `η`, and if the hull reaches below `-η`, the other one
reaches below zero. -/
theorem C158_envelope {η : ℚ} (hη : 0 ≤ η) {P Q : List (ℚ × ℚ)} {h h' : IRH} (H : IsHullOf P h) (H' : IsHullOf Q h') (N : Near η P Q) :
    (∀ x y y', Envelope h.coords x y → Envelope h'.coords x y' → |y' - y| ≤ η) ∧
    ((∃ p ∈ h.coords, p.2 < -η) → ∃ p ∈ h'.coords, p.2 < 0) := by
  have S := shadow_perm hη N H.perm H'.perm
  have S' := shadow_perm hη (near_symm N) H'.perm H.perm
  have half : ∀ {C D : List (ℚ × ℚ)} (x y y' : ℚ), Shadow η C D → Envelope C x y → Envelope D x y' → y' - η ≤ y := by
    rintro C D x y y' S e ⟨⟨s, t, hs, rfl⟩, -⟩
    have := e.2 s (t - η) fun q hq => by
      obtain ⟨q', hq', h1, h2⟩ := S q hq
      have := hs q' hq'
      rw [h1] at this
      rw [abs_le] at h2
      linarith [h2.2]
    linarith
  refine ⟨fun x y y' e e' => ?_, ?_⟩
  · have a := half x y y' S e e'
    have b := half x y' y S' e' e
    rw [abs_le]
    constructor <;> linarith
  · rintro ⟨p, hp, hlt⟩
    obtain ⟨q, hq, -, h2⟩ := S p hp
    rw [abs_le] at h2
    exact ⟨q, hq, by linarith [h2.2]⟩

/-! ### Scores -/

/-- **Primary competition** changes by at most twice as much as the energies of the reactions. -/
theorem C158_primary {η : ℚ} (hη : 0 ≤ η) {P Q : List (ℚ × ℚ)} {h h' : IRH} (H : IsHullOf P h) (H' : IsHullOf Q h') (N : Near η P Q) (e e' x : ℚ)
    (he : |e' - e| ≤ η) (hx : ∃ c ∈ h.coords, c.1 = x) :
    ∃ v v', getPrimaryCompetition h e x = some v ∧ getPrimaryCompetition h' e' x = some v' ∧ |v' - v| ≤ 2 * η := by
  have S := shadow_perm hη N H.perm H'.perm
  have S' := shadow_perm hη (near_symm N) H'.perm H.perm
  have hx' : ∃ c ∈ h'.coords, c.1 = x := by
    obtain ⟨c, hc, hcx⟩ := hx
    obtain ⟨q, hq, h1, -⟩ := S c hc
    exact ⟨q, hq, h1.trans hcx⟩
  rw [primary_eq h H.sorted x e hx, primary_eq h' H'.sorted x e' hx']
  have hne : ∀ {P : List (ℚ × ℚ)} {h : IRH}, IsHullOf P h → ∃ m, ((h.coords.filter fun c => decide (c.1 ≠ x)).map Prod.snd).min? = some m := by
    intro P h H
    have : ∃ c ∈ h.coords, c.1 ≠ x := by
      by_cases h0 : x = 0
      · exact ⟨(1, 0), H.perm.mem_iff.mpr (by simp), by rw [h0]; norm_num⟩
      · exact ⟨(0, 0), H.perm.mem_iff.mpr (by simp), fun hh => h0 hh.symm⟩
    obtain ⟨c, hc, hcx⟩ := this
    cases hm : ((h.coords.filter fun c => decide (c.1 ≠ x)).map Prod.snd).min? with
    | none =>
      exact absurd (List.min?_eq_none_iff.mp hm)
        (List.ne_nil_of_mem (List.mem_map_of_mem (List.mem_filter.mpr ⟨hc, by simpa using hcx⟩)))
    | some m => exact ⟨m, rfl⟩
  have half : ∀ {C D : List (ℚ × ℚ)} (m m' : ℚ), Shadow η C D → ((C.filter fun c => decide (c.1 ≠ x)).map Prod.snd).min? = some m →
      ((D.filter fun c => decide (c.1 ≠ x)).map Prod.snd).min? = some m' → m' ≤ m + η := by
    intro C D m m' S hm hm'
    obtain ⟨hmem, -⟩ := List.min?_eq_some_iff.mp hm
    obtain ⟨c, hc, rfl⟩ := List.mem_map.mp hmem
    obtain ⟨hc, hcx⟩ := List.mem_filter.mp hc
    obtain ⟨q, hq, h1, h2⟩ := S c hc
    have := (List.min?_eq_some_iff.mp hm').2 q.2 (List.mem_map_of_mem (List.mem_filter.mpr ⟨hq, by rw [h1]; exact hcx⟩))
    rw [abs_le] at h2
    linarith [h2.2]
  obtain ⟨m, hm⟩ := hne H
  obtain ⟨m', hm'⟩ := hne H'
  rw [hm, hm']
  refine ⟨_, _, rfl, rfl, ?_⟩
  have a := half m m' S hm hm'
  have b := half m' m S' hm' hm
  rw [abs_le] at he ⊢
  constructor <;> linarith [he.1, he.2]

/-- The energy above the hull is measured from the lower envelope. -/
theorem above_envelope {P : List (ℚ × ℚ)} {h : IRH} (H : IsHullOf P h) (hr : ∀ p ∈ P, 0 ≤ p.1 ∧ p.1 ≤ 1) (A : Apart' h.coords) (i : ℕ) (c : ℚ × ℚ)
    (hi : h.coords[i]? = some c) (s : Apart1 h.coords c.1) : ∃ y, getEnergyAboveHull h i = some (c.2 - y) ∧ Envelope h.coords c.1 y := by
  obtain ⟨y, a, b, hy, ha, hb, a1, b1, hab, hline, hall⟩ := above_eq H hr A i c hi s
  refine ⟨y, hy, ⟨(b.2 - a.2) / (b.1 - a.1), a.2 - (b.2 - a.2) / (b.1 - a.1) * a.1, fun q hq => ?_, ?_⟩, fun s t hst => ?_⟩
  · have := hall q hq
    unfold AboveLine at this
    have hd : 0 < b.1 - a.1 := by linarith
    refine le_of_mul_le_mul_right ?_ hd
    have e1 : ((b.2 - a.2) / (b.1 - a.1) * q.1 + (a.2 - (b.2 - a.2) / (b.1 - a.1) * a.1)) * (b.1 - a.1) = (b.2 - a.2) * (q.1 - a.1) + a.2 * (b.1 - a.1) := by
      field_simp
      ring
    rw [e1]
    linarith
  · unfold OnLine at hline
    dsimp only at hline
    have hd : b.1 - a.1 ≠ 0 := by linarith
    refine mul_right_cancel₀ hd ?_
    rw [hline]
    field_simp
    ring
  · have ka := mul_le_mul_of_nonneg_right (hst a ha) (sub_nonneg.mpr b1)
    have kb := mul_le_mul_of_nonneg_right (hst b hb) (sub_nonneg.mpr a1)
    unfold OnLine at hline
    dsimp only at hline
    have hd : 0 < b.1 - a.1 := by linarith
    refine le_of_mul_le_mul_right ?_ hd
    rw [hline]
    nlinarith

/-- **Energy above the hull** changes by at most twice as much as the energies of the reactions; a reaction that lies further above the hull than that is
unstable with both. -/
theorem C158_above_hull {η : ℚ} (hη : 0 ≤ η) {P Q : List (ℚ × ℚ)} {h h' : IRH} (H : IsHullOf P h) (H' : IsHullOf Q h') (hr : ∀ p ∈ P, 0 ≤ p.1 ∧ p.1 ≤ 1)
    (hr' : ∀ p ∈ Q, 0 ≤ p.1 ∧ p.1 ≤ 1) (A : Apart' h.coords) (A' : Apart' h'.coords) (N : Near η P Q) (i j : ℕ) (c c' : ℚ × ℚ)
    (hi : h.coords[i]? = some c) (hj : h'.coords[j]? = some c') (hcx : c'.1 = c.1) (hcy : |c'.2 - c.2| ≤ η) (s : Apart1 h.coords c.1) (s' : Apart1 h'.coords c.1) :
    ∃ v v', getEnergyAboveHull h i = some v ∧ getEnergyAboveHull h' j = some v' ∧ |v' - v| ≤ 2 * η ∧ (2 * η < v → 0 < v' ∧ ¬ LowerCorner h'.coords c') := by
  obtain ⟨y, hy, e⟩ := above_envelope H hr A i c hi s
  obtain ⟨y', hy', e'⟩ := above_envelope H' hr' A' j c' hj (hcx ▸ s')
  rw [hcx] at e'
  have := (C158_envelope hη H H' N).1 c.1 y y' e e'
  rw [abs_le] at this hcy
  refine ⟨_, _, hy, hy', ?_, fun hlt => ?_⟩
  · rw [abs_le]
    constructor <;> linarith [this.1, this.2, hcy.1, hcy.2]
  · have hp : 0 < c'.2 - y' := by linarith [this.1, this.2, hcy.1, hcy.2]
    refine ⟨hp, ?_⟩
    rintro ⟨-, s, hs⟩
    have := e'.2 s (c'.2 - s * c'.1) fun q hq => by
      by_cases hqc : q = c'
      · rw [hqc]
        linarith
      · have := hs q hq hqc
        nlinarith
    rw [hcx] at this
    linarith

/-- **Secondary competition by maximum energies** changes by at most four times as much as the energies of the reactions, for a reaction of both reactants
that is stable in both hulls, if no reactant decomposes. -/
theorem C158_secondary_max_partial {η : ℚ} (hη : 0 ≤ η) {P Q : List (ℚ × ℚ)} {h h' : IRH} (H : IsHullOf P h) (H' : IsHullOf Q h')
    (hr : ∀ p ∈ P, 0 ≤ p.1 ∧ p.1 ≤ 1) (hr' : ∀ p ∈ Q, 0 ≤ p.1 ∧ p.1 ≤ 1) (A : Apart' h.coords) (A' : Apart' h'.coords) (N : Near η P Q)
    (hends : ∀ p ∈ P, p.1 = 0 ∨ p.1 = 1 → 0 ≤ p.2) (hends' : ∀ p ∈ Q, p.1 = 0 ∨ p.1 = 1 → 0 ≤ p.2) (i j : ℕ) (c c' : ℚ × ℚ)
    (hi : h.coords[i]? = some c) (hj : h'.coords[j]? = some c') (hcx : c'.1 = c.1) (hcy : |c'.2 - c.2| ≤ η) (c0 : 0 < c.1) (c1 : c.1 < 1)
    (hs : LowerCorner h.coords c) (hs' : LowerCorner h'.coords c') :
    ∃ v v', getSecondaryCompetitionMaxEnergy h i = some v ∧ getSecondaryCompetitionMaxEnergy h' j = some v' ∧ |v' - v| ≤ 4 * η := by
  have S := shadow_perm hη N H.perm H'.perm
  have S' := shadow_perm hη (near_symm N) H'.perm H.perm
  obtain ⟨vs, G, hvs⟩ := chain_of H hr A
  obtain ⟨vs', G', hvs'⟩ := chain_of H' hr' A'
  have hz : ∀ {P : List (ℚ × ℚ)} {h : IRH}, IsHullOf P h → (∀ p ∈ P, p.1 = 0 ∨ p.1 = 1 → 0 ≤ p.2) → ∀ p ∈ h.coords, p.1 = 0 ∨ p.1 = 1 → 0 ≤ p.2 := by
    intro P h H hends p hp he
    rcases List.mem_append.mp (H.perm.mem_iff.mp hp) with hp | hp
    · exact hends p hp he
    · simp only [List.mem_cons, List.not_mem_nil, or_false] at hp
      rcases hp with rfl | rfl <;> exact le_refl _
  have F := flat_of G (hz H hends)
  have F' := flat_of G' (hz H' hends')
  have mc := (hvs c).mpr hs
  have mc' := (hvs' c').mpr hs'
  have hcy' : |c.2 - c'.2| ≤ η := by rw [abs_sub_comm]; exact hcy
  obtain ⟨l, l', hl, hl', hll⟩ := side_near G G' F F' hη S F.1 mc F'.1 mc' rfl hcx (by simpa using hη) hcy (le_refl _) c0 c1.le
  obtain ⟨m', m, hm', hm, hmm⟩ := side_near G' G F' F hη S' F'.1 mc' F.1 mc rfl hcx.symm (by simpa using hη) hcy' (le_refl _) (hcx ▸ c0) (hcx ▸ c1.le)
  obtain ⟨r, r', hr1, hr1', hrr⟩ := side_near G G' F F' hη S mc F.2 mc' F'.2 hcx rfl hcy (by simpa using hη) c0.le c1 (le_refl _)
  obtain ⟨q', q, hq', hq, hqq⟩ := side_near G' G F' F hη S' mc' F'.2 mc F.2 hcx.symm rfl hcy' (by simpa using hη) (hcx ▸ c0.le) (hcx ▸ c1) (le_refl _)
  simp only [hcx] at hm hm' hq hq'
  dsimp only at hl hl' hr1 hr1'
  rw [hl] at hm
  rw [hl'] at hm'
  rw [hr1] at hq
  rw [hr1'] at hq'
  have e1 := Option.some.inj hm
  have e2 := Option.some.inj hm'
  have e3 := Option.some.inj hq
  have e4 := Option.some.inj hq'
  refine ⟨-1 * (l + r), -1 * (l' + r'), ?_, ?_, ?_⟩
  · unfold getSecondaryCompetitionMaxEnergy
    simp only [hi, Option.bind_eq_bind, Option.bind_some]
    rw [hl, hr1]
    rfl
  · unfold getSecondaryCompetitionMaxEnergy
    simp only [hj, Option.bind_eq_bind, Option.bind_some, hcx]
    rw [hl', hr1']
    rfl
  · rw [abs_le]
    constructor <;> linarith

/-! ### What does not hold -/

/-- The energy per atom of an open reaction can be off by more than twice the error of the phases: `A + B -> AB` with B open, off by four times. -/
theorem C158_open_violated : ∃ es es' : List (Entry TComp), List.Forall₂ (Within toy (1 / 10)) es es' ∧ (es.map fun e => toy.red e.comp).Nodup ∧
    Conserved toy (es.map fun e => toy.red e.comp) [-1, -1, 1] ∧
    oenergyPerAtom toy (oinit toy es [-1, -1, 1] [(1, 0)] [] none) = .ok (-3) ∧
    oenergyPerAtom toy (oinit toy es' [-1, -1, 1] [(1, 0)] [] none) = .ok (-3 - 4 / 10) := by
  refine ⟨[⟨A, 0⟩, ⟨B1, 0⟩, ⟨AB, -3⟩], [⟨A, 1 / 10⟩, ⟨B1, 1 / 10⟩, ⟨AB, -32 / 10⟩],
    .cons ⟨by decide +kernel, by decide +kernel⟩ (.cons ⟨by decide +kernel, by decide +kernel⟩ (.cons ⟨by decide +kernel, by decide +kernel⟩ .nil)),
    by decide +kernel, fun e => ?_, by decide +kernel, by decide +kernel⟩
  revert e
  decide +kernel

def exS : IRH := ⟨[(0, 0), (1/8, -8), (1/2, -8 - 1/10^9), (7/8, -8), (1, 0)], [0, 1, 2, 3, 4]⟩
def exU : IRH := ⟨[(0, 0), (1/8, -8), (1/2, -8 + 1/10^9), (7/8, -8), (1, 0)], [0, 1, 3, 4]⟩

theorem exS_hull : IsHullOf [(1/8, -8), (1/2, -8 - 1/10^9), (7/8, -8)] exS := by
  refine ⟨by decide +kernel, by decide +kernel, by decide, ?_, ?_, by decide +kernel⟩
  · intro i hi
    have hi : i ∈ [0, 1, 2, 3, 4] := hi
    simp only [List.mem_cons, List.not_mem_nil, or_false] at hi
    rcases hi with rfl | rfl | rfl | rfl | rfl
    · exact ⟨(0, 0), rfl, by decide +kernel, -1, 0, by decide +kernel⟩
    · exact ⟨(1/8, -8), rfl, by decide +kernel, -10, -1, by decide +kernel⟩
    · exact ⟨(1/2, -8 - 1/10^9), rfl, by decide +kernel, 0, -1, by decide +kernel⟩
    · exact ⟨(7/8, -8), rfl, by decide +kernel, 10, -1, by decide +kernel⟩
    · exact ⟨(1, 0), rfl, by decide +kernel, 1, 0, by decide +kernel⟩
  · rintro p ⟨hp, u, w, h⟩
    have hp : p ∈ [((0 : ℚ), (0 : ℚ)), (1/8, -8), (1/2, -8 - 1/10^9), (7/8, -8), (1, 0)] := hp
    simp only [List.mem_cons, List.not_mem_nil, or_false] at hp
    rcases hp with rfl | rfl | rfl | rfl | rfl
    · exact ⟨0, by decide, rfl⟩
    · exact ⟨1, by decide, rfl⟩
    · exact ⟨2, by decide, rfl⟩
    · exact ⟨3, by decide, rfl⟩
    · exact ⟨4, by decide, rfl⟩

theorem exU_hull : IsHullOf [(1/8, -8), (1/2, -8 + 1/10^9), (7/8, -8)] exU := by
  refine ⟨by decide +kernel, by decide +kernel, by decide, ?_, ?_, by decide +kernel⟩
  · intro i hi
    have hi : i ∈ [0, 1, 3, 4] := hi
    simp only [List.mem_cons, List.not_mem_nil, or_false] at hi
    rcases hi with rfl | rfl | rfl | rfl
    · exact ⟨(0, 0), rfl, by decide +kernel, -1, 0, by decide +kernel⟩
    · exact ⟨(1/8, -8), rfl, by decide +kernel, -10, -1, by decide +kernel⟩
    · exact ⟨(7/8, -8), rfl, by decide +kernel, 10, -1, by decide +kernel⟩
    · exact ⟨(1, 0), rfl, by decide +kernel, 1, 0, by decide +kernel⟩
  · rintro p ⟨hp, u, w, h⟩
    have hp : p ∈ [((0 : ℚ), (0 : ℚ)), (1/8, -8), (1/2, -8 + 1/10^9), (7/8, -8), (1, 0)] := hp
    simp only [List.mem_cons, List.not_mem_nil, or_false] at hp
    rcases hp with rfl | rfl | rfl | rfl | rfl
    · exact ⟨0, by decide, rfl⟩
    · exact ⟨1, by decide, rfl⟩
    · exfalso
      have h0 := h (0, 0) (by decide +kernel) (by decide +kernel)
      have h1 := h (1/8, -8) (by decide +kernel) (by decide +kernel)
      have h2 := h (7/8, -8) (by decide +kernel) (by decide +kernel)
      have h3 := h (1, 0) (by decide +kernel) (by decide +kernel)
      simp only at h0 h1 h2 h3
      linarith
    · exact ⟨3, by decide, rfl⟩
    · exact ⟨4, by decide, rfl⟩

theorem exNear : Near (2 / 10 ^ 9) [(1/8, -8), (1/2, -8 - 1/10^9), (7/8, -8)] [(1/8, -8), (1/2, -8 + 1/10^9), (7/8, -8)] :=
  .cons (by norm_num) (.cons (by norm_num [abs_of_pos]) (.cons (by norm_num) .nil))

theorem exApartS : Apart' exS.coords := apart_of_list (by decide +kernel) (by decide +kernel)
theorem exApartU : Apart' exU.coords := apart_of_list (by decide +kernel) (by decide +kernel)

/-- The default secondary competition, averaged or not, jumps: moving another reaction by `2e-9` across the hull changes the score of an unchanged stable
reaction by more than 1. -/
theorem C158_secondary_violated : ∃ (P Q : List (ℚ × ℚ)) (h h' : IRH) (i : ℕ) (c : ℚ × ℚ), Near (2 / 10 ^ 9) P Q ∧ IsHullOf P h ∧ IsHullOf Q h' ∧
    Apart' h.coords ∧ Apart' h'.coords ∧ h.coords[i]? = some c ∧ h'.coords[i]? = some c ∧ i ∈ hullVertices h ∧ i ∈ hullVertices h' ∧
    (∃ v v', getSecondaryCompetition h i true true = some v ∧ getSecondaryCompetition h' i true true = some v' ∧ 1 < |v' - v|) ∧
    ∃ v v', getSecondaryCompetition h i false true = some v ∧ getSecondaryCompetition h' i false true = some v' ∧ 1 < |v' - v| :=
  ⟨_, _, exS, exU, 3, (7/8, -8), exNear, exS_hull, exU_hull, exApartS, exApartU, rfl, rfl, by decide +kernel, by decide +kernel,
    ⟨(getSecondaryCompetition exS 3 true true).getD 0, (getSecondaryCompetition exU 3 true true).getD 0, by decide +kernel, by decide +kernel,
      by decide +kernel⟩,
    ⟨(getSecondaryCompetition exS 3 false true).getD 0, (getSecondaryCompetition exU 3 false true).getD 0, by decide +kernel, by decide +kernel,
      by decide +kernel⟩⟩

/-! ### Concrete cases -/

theorem ex_within : List.Forall₂ (Within toy (1 / 10)) [⟨A, 0⟩, ⟨B1, 0⟩, ⟨AB, -3⟩] [⟨A, 1 / 10⟩, ⟨B1, 1 / 10⟩, ⟨AB, -32 / 10⟩] :=
  .cons ⟨by decide +kernel, by decide +kernel⟩ (.cons ⟨by decide +kernel, by decide +kernel⟩ (.cons ⟨by decide +kernel, by decide +kernel⟩ .nil))

theorem ex_conserved : Conserved toy (([⟨A, 0⟩, ⟨B1, 0⟩, ⟨AB, -3⟩] : List (Entry TComp)).map fun e => toy.red e.comp) [-1, -1, 1] := by
  intro e
  revert e
  decide +kernel

/-- The bound of a closed reaction is reached: all phases off by 1/10 per atom, the reaction by 2/10. -/
example : energyPerAtom toy (cinit toy [⟨A, 0⟩, ⟨B1, 0⟩, ⟨AB, -3⟩] [-1, -1, 1] [] none) = .ok (-3 / 2) ∧
    energyPerAtom toy (cinit toy [⟨A, 1 / 10⟩, ⟨B1, 1 / 10⟩, ⟨AB, -32 / 10⟩] [-1, -1, 1] [] none) = .ok (-3 / 2 - 2 / 10) := by decide +kernel

example := C158_reaction toy toy_lawful (1 / 10) _ _ [-1, -1, 1] [] none ex_within (by decide +kernel) ex_conserved

/-- So is the bound of the open reaction: 4/10 for one of two atoms exchanged. -/
example := C158_open toy toy_lawful (1 / 10) _ _ [-1, -1, 1] [(1, 0)] [] none ex_within (by decide +kernel) ex_conserved (-3) (-3 - 4 / 10)
  (by decide +kernel) (by decide +kernel)

/-- The hull of the interface between A and B with this reaction. -/
example : ∃ H H' P Q, hullInit reactantEntries (fun e : Entry TComp => toy.red e.comp) (closedPlace toy A B1) (energyPerAtom toy)
      (fun e => cinit toy [e] [1] [] none) Verif.Props.HullInit.exArgsort A B1 [cinit toy [⟨A, 0⟩, ⟨B1, 0⟩, ⟨AB, -3⟩] [-1, -1, 1] [] none] = .ok H ∧
    hullInit reactantEntries (fun e : Entry TComp => toy.red e.comp) (closedPlace toy A B1) (energyPerAtom toy)
      (fun e => cinit toy [e] [1] [] none) Verif.Props.HullInit.exArgsort A B1
      [cinit toy [⟨A, 1 / 10⟩, ⟨B1, 1 / 10⟩, ⟨AB, -32 / 10⟩] [-1, -1, 1] [] none] = .ok H' ∧ Near (2 * (1 / 10)) P Q ∧
    H.coords.Perm (P ++ [(0, 0), (1, 0)]) ∧ H'.coords.Perm (Q ++ [(0, 0), (1, 0)]) := by
  obtain ⟨H, hH⟩ := ((Verif.Props.HullInit.C92_raises reactantEntries (fun e : Entry TComp => toy.red e.comp) (closedPlace toy A B1) (energyPerAtom toy)
    (fun e => cinit toy [e] [1] [] none) Verif.Props.HullInit.exArgsort A B1 [cinit toy [⟨A, 0⟩, ⟨B1, 0⟩, ⟨AB, -3⟩] [-1, -1, 1] [] none]).2
    ⟨by decide +kernel, ⟨_, List.mem_cons_self, by decide +kernel⟩, _, List.mem_cons_self, by decide +kernel⟩).1.mpr (by
      intro r hr
      rw [List.mem_singleton.mp hr]
      exact ⟨⟨1 / 2, by decide +kernel⟩, -3 / 2, by decide +kernel⟩)
  obtain ⟨H', P, Q, h1, h2, h3, h4, -⟩ := C158_points toy toy_lawful (1 / 10) _ _ Verif.Props.HullInit.exArgsort_sorts A B1
    [⟨[⟨A, 0⟩, ⟨B1, 0⟩, ⟨AB, -3⟩], [-1, -1, 1], rfl⟩] [⟨[⟨A, 1 / 10⟩, ⟨B1, 1 / 10⟩, ⟨AB, -32 / 10⟩], [-1, -1, 1], rfl⟩]
    (.cons ⟨rfl, ex_within, (by decide +kernel : (([⟨A, 0⟩, ⟨B1, 0⟩, ⟨AB, -3⟩] : List (Entry TComp)).map fun e => toy.red e.comp).Nodup), ex_conserved⟩ .nil) H hH
  exact ⟨H, H', P, Q, hH, h1, h2, h3, h4⟩

example := C158_envelope (by norm_num) exS_hull exU_hull exNear
example := C158_primary (by norm_num) exS_hull exU_hull exNear (-8) (-8) (7/8) (by norm_num) ⟨(7/8, -8), by decide +kernel, rfl⟩
example :=
  C158_above_hull (by norm_num) exS_hull exU_hull (by decide +kernel) (by decide +kernel) exApartS exApartU exNear 2 2 (1/2, -8 - 1/10^9) (1/2, -8 + 1/10^9)
    rfl rfl rfl (by norm_num [abs_of_pos])
    (fun p hp => (by decide +kernel : ∀ q ∈ exS.coords, isclose (1/2) q.1 = true → 1/2 = q.1) p hp.1)
    (fun p hp => (by decide +kernel : ∀ q ∈ exU.coords, isclose (1/2) q.1 = true → 1/2 = q.1) p hp.1)
example : getEnergyAboveHull exS 2 = some 0 ∧ getEnergyAboveHull exU 2 = some (1 / 10 ^ 9) := by decide +kernel

/-- The two scores by maximum energies agree, where the default ones differ by more than 1. -/
example := C158_secondary_max_partial (by norm_num) exS_hull exU_hull (by decide +kernel) (by decide +kernel) exApartS exApartU exNear (by decide +kernel)
  (by decide +kernel) 3 3 (7/8, -8) (7/8, -8) rfl rfl rfl (by norm_num) (by norm_num) (by norm_num)
  ⟨by decide +kernel, 10, by decide +kernel⟩ ⟨by decide +kernel, 10, by decide +kernel⟩
example : getSecondaryCompetitionMaxEnergy exS 3 = some (48 / 7) ∧ getSecondaryCompetitionMaxEnergy exU 3 = some (48 / 7) := by decide +kernel

example : Within toy (1 / 10) ⟨AB, -3⟩ ⟨AB, -32 / 10⟩ :=
  (within_iff toy toy_lawful (1 / 10) ⟨AB, -3⟩ ⟨AB, -32 / 10⟩ rfl (by decide +kernel)).mpr (by decide +kernel)

end Verif.Props.EnergyError
