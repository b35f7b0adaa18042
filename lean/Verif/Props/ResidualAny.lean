import Verif.Props.Residual
import Verif.Props.MetaDomains

/-!
C148 for every phase, also those without a stable domain: metastable phases (through their metastable domain and their offset) and
polymorphs above the ground state (src/rxn_network/costs/calculators.py, src/rxn_network/thermo/chempot_diagram.py).
-/

set_option linter.unusedSectionVars false

namespace Verif.Props.ResidualAny
open Verif.Py Verif.Model Verif.Model.Reaction Verif.Model.Chempot Verif.Model.Thermo Verif.Model.Costs Verif.Spec.Reaction Verif.Lemmas.Dict
  Verif.Props.Reaction Verif.Props.Chempot Verif.Props.DomainDistance Verif.Props.Coexist Verif.Props.Residual Verif.Props.Thermo
  Verif.Props.MetaDomains

variable {κ ε φ : Type} [DecidableEq κ] [DecidableEq ε] [DecidableEq φ]

/-! ### Specification -/

/-- A diagram over the ground states `ms` was built, with domains `ds`; scipy's points satisfy their half-spaces. This is what
`ChemicalPotentialDiagram(entries)` gives, for the original entries or for those with a stabilized entry added. -/
def Listing (X : Chem κ ε) (elements : List ε) (formula : Entry κ → φ) (ms : List (Entry κ)) (ds : List (φ × List (List ℚ))) : Prop :=
  ∃ refs borders hsInt, Refs elements (fraction X) ms refs ∧ (∀ e ∈ ms, ∀ el ∈ elements, 0 ≤ fraction X e el) ∧
    Sharp elements (fraction X) (perAtomEnergy X) ms refs ∧ (∀ a ∈ ms, ∀ b ∈ ms, formula a = formula b → a = b) ∧
    (∀ H, Intersects elements.length H (hsInt H)) ∧
    cpdDomains elements (fraction X) (perAtomEnergy X) formula ms refs borders hsInt = .ok ds

/-- Same composition, as fractions. -/
def Alike (X : Chem κ ε) (elements : List ε) (a b : Entry κ) : Prop := ∀ s ∈ elements, fraction X a s = fraction X b s

/-- What is known about a phase `e` of a reaction, with `h` its energy above the hull (0 for a ground state with a domain) and `pts` the
points used for it: they are the domain of its formula, stable or metastable, in a diagram in which every ground state is as low or
lower than in the original one, and in which the phase was lowered by at most its energy above the hull and the padding `tol`. -/
structure Placed (X : Chem κ ε) (elements : List ε) (mins : List (Entry κ)) (formula : Entry κ → φ) (doms : List (φ × List (List ℚ)))
    {ι : Type} [DecidableEq ι] (Y : Ext ι φ (List (List ℚ))) (es : List ι) (eAbove : Entry κ → Except Err ℝ) (tol : ℝ)
    (e : Entry κ) (pts : List (List ℚ)) (h : ℝ) : Prop where
  harmless : dictGet doms (formula e) = none → Good Y es (formula e)
  answers : (pointsOf Y (dictGet doms) ⟨es, []⟩ (formula e)).2 = .ok pts
  height : if e ∈ mins ∧ (dictGet doms (formula e)).isSome = true then h = 0 else eAbove e = .ok h ∧ 0 ≤ h
  listed : ∃ ms ds e₀, Listing X elements formula ms ds ∧ (∀ m ∈ mins, ∃ m' ∈ ms, Alike X elements m m' ∧ perAtomEnergy X m' ≤ perAtomEnergy X m) ∧
    e₀ ∈ ms ∧ Alike X elements e e₀ ∧ (formula e₀, pts) ∈ ds ∧ (perAtomEnergy X e : ℝ) ≤ perAtomEnergy X e₀ + h + tol

/-! ### Helper lemmas -/

theorem weighted_alike (X : Chem κ ε) (elements : List ε) (a b : Entry κ) (h : Alike X elements a b) (μ : List ℚ) :
    weighted elements (fraction X) a μ = weighted elements (fraction X) b μ := by
  unfold weighted
  congr 1
  unfold Alike at h
  induction elements generalizing μ with
  | nil => rfl
  | cons s l ih =>
    cases μ with
    | nil => rfl
    | cons m μ =>
      simp only [List.zipWith_cons_cons, h s (by simp)]
      rw [ih (fun t ht => h t (List.mem_cons_of_mem _ ht))]

section
variable {X : Chem κ ε} {elements : List ε} {all mins : List (Entry κ)} {formula : Entry κ → φ} {refs : List (ε × Entry κ)}
  {borders : List (List ℚ)} {hsInt : List (List ℚ) → List (List ℚ × List ℕ)} {doms : List (φ × List (List ℚ))}

/-- The points of a phase: they exist, satisfy the half-spaces of the original diagram, and the phase is at most its height and the padding
away from equilibrium there. -/
theorem placed_points (hne : elements.Nodup) {ι : Type} [DecidableEq ι] {Y : Ext ι φ (List (List ℚ))} {es : List ι}
    {eAbove : Entry κ → Except Err ℝ} {tol : ℝ} {e : Entry κ} {pts : List (List ℚ)} {h : ℝ}
    (P : Placed X elements mins formula doms Y es eAbove tol e pts h) :
    pts ≠ [] ∧ ∀ p ∈ pts, p.length = elements.length ∧ (∀ m ∈ mins, weighted elements (fraction X) m p ≤ perAtomEnergy X m) ∧
      (slack X elements p e : ℝ) ≤ h + tol := by
  obtain ⟨ms, ds, e₀, ⟨refs', borders', hsInt', r1, r2, r3, r4, r5, r6⟩, below, he₀, hal, hd, hen⟩ := P.listed
  obtain ⟨-, -, -, -, -, -, hnep, -⟩ := C93_contents elements _ _ formula ms refs' borders' hsInt' ds r6
  refine ⟨hnep _ hd, fun p hp => ?_⟩
  have hr := listed_region hne r1 r2 r3 r6 r4 r5 e₀ he₀ pts hd p hp
  refine ⟨hr.1, fun m hm => ?_, ?_⟩
  · obtain ⟨m', hm', h1, h2⟩ := below m hm
    rw [weighted_alike X elements m m' h1]
    exact (hr.2.2.1 m' hm').trans h2
  · unfold slack
    rw [weighted_alike X elements e e₀ hal, hr.2.1]
    push_cast
    linarith

/-- The points a query uses do not depend on earlier harmless queries. -/
theorem points_clean {ι : Type} [DecidableEq ι] (Y : Ext ι φ (List (List ℚ))) (es : List ι) (s : CPD ι φ (List (List ℚ))) (hs : Clean Y es s)
    (f : φ) (hg : dictGet doms f = none → Good Y es f) :
    (pointsOf Y (dictGet doms) s f).2 = (pointsOf Y (dictGet doms) ⟨es, []⟩ f).2 ∧ Clean Y es (pointsOf Y (dictGet doms) s f).1 := by
  unfold pointsOf
  cases hd : dictGet doms f with
  | some d => exact ⟨rfl, hs⟩
  | none =>
    obtain ⟨a, b⟩ := clean_step Y es s f hs (hg hd)
    exact ⟨a, b⟩

theorem norm_le_one (l : List ℚ) (h0 : ∀ x ∈ l, 0 ≤ x) (h1 : l.sum = 1) :
    0 < ((l.map fun x : ℚ => (x : ℝ)).map fun x => x ^ 2).sum ∧ ((l.map fun x : ℚ => (x : ℝ)).map fun x => x ^ 2).sum ≤ 1 := by
  have hle : ∀ x ∈ l, x ≤ 1 := fun x hx => h1 ▸ List.single_le_sum h0 x hx
  have e : ((l.map fun x : ℚ => (x : ℝ)).map fun x => x ^ 2).sum = (((l.map fun x => x ^ 2).sum : ℚ) : ℝ) := by
    rw [Rat.cast_list_sum, List.map_map, List.map_map]
    congr 1
    apply List.map_congr_left
    intro x _
    simp
  rw [e]
  constructor
  · have : (0 : ℚ) < (l.map fun x => x ^ 2).sum := by
      have hn : 0 ≤ (l.map fun x => x ^ 2).sum := List.sum_nonneg (by
        intro y hy
        obtain ⟨x, -, rfl⟩ := List.mem_map.mp hy
        exact sq_nonneg x)
      rcases hn.lt_or_eq with h | h
      · exact h
      · exfalso
        have hz : ∀ x ∈ l, x = 0 := by
          intro x hx
          have h2 := List.single_le_sum (l := l.map fun x => x ^ 2) (by
            intro y hy
            obtain ⟨x, -, rfl⟩ := List.mem_map.mp hy
            exact sq_nonneg x) (x ^ 2) (List.mem_map.mpr ⟨x, hx, rfl⟩)
          rw [← h] at h2
          exact pow_eq_zero_iff (two_ne_zero) |>.mp (le_antisymm h2 (sq_nonneg x))
        rw [List.sum_eq_zero hz] at h1
        exact zero_ne_one h1
    exact_mod_cast this
  · have : (l.map fun x => x ^ 2).sum ≤ 1 := by
      rw [← h1]
      conv_rhs => rw [← List.map_id l]
      apply List.sum_le_sum
      intro x hx
      show x ^ 2 ≤ x
      nlinarith [h0 x hx, hle x hx]
    exact_mod_cast this

/-- The offset of a phase is at least its energy above the hull. -/
theorem offset_ge {ι : Type} [DecidableEq ι] {Y : Ext ι φ (List (List ℚ))} {es : List ι}
    {eAbove : Entry κ → Except Err ℝ} {tol : ℝ} {e : Entry κ} {pts : List (List ℚ)} {h : ℝ}
    (P : Placed X elements mins formula doms Y es eAbove tol e pts h)
    (h0 : ∀ s ∈ elements, 0 ≤ fraction X e s) (h1 : (elements.map (fraction X e)).sum = 1) :
    ∃ o, getOffset mins (dictGet doms (formula e)).isSome eAbove (fun e => (elements.map (fraction X e)).map fun x : ℚ => (x : ℝ)) e = .ok o ∧
      h ≤ o ∧ 0 ≤ h := by
  have hh := P.height
  unfold getOffset
  split_ifs at hh ⊢ with hc
  · exact ⟨0, rfl, hh.le, hh.ge⟩
  · obtain ⟨ha, hp⟩ := hh
    obtain ⟨n0, n1⟩ := norm_le_one (elements.map (fraction X e)) (by
      intro x hx
      obtain ⟨s, hs, rfl⟩ := List.mem_map.mp hx
      exact h0 s hs) h1
    refine ⟨parallelDistance ((elements.map (fraction X e)).map fun x : ℚ => (x : ℝ)) h, by rw [ha]; rfl, ?_, hp⟩
    unfold parallelDistance
    rw [abs_of_nonneg hp, le_div_iff₀ (Real.sqrt_pos.mpr n0)]
    have : Real.sqrt (((elements.map (fraction X e)).map fun x : ℚ => (x : ℝ)).map fun x => x ^ 2).sum ≤ 1 :=
      Real.sqrt_le_one.mpr n1
    nlinarith

/-- Every entry has the fractions of a ground state: non-negative, with sum 1. -/
theorem fractions (D : Diagram elements (fraction X) (perAtomEnergy X) formula mins refs borders hsInt doms) (P : Phases X elements all mins)
    (e : Entry κ) (he : e ∈ all) : (∀ s ∈ elements, 0 ≤ fraction X e s) ∧ (elements.map (fraction X e)).sum = 1 := by
  obtain ⟨m, hm, hf, -⟩ := P.ground e he
  refine ⟨fun s hs => hf s hs ▸ D.nonneg m hm s hs, ?_⟩
  rw [List.map_congr_left hf, D.total m hm]

/-- Moving to other potentials changes how far a phase is from equilibrium by at most the distance. -/
theorem slack_move (e : Entry κ) (h0 : ∀ s ∈ elements, 0 ≤ fraction X e s) (h1 : (elements.map (fraction X e)).sum = 1)
    (μ ν : List ℚ) (hl : μ.length = elements.length) (hl' : ν.length = elements.length) :
    (slack X elements μ e : ℝ) ≤ slack X elements ν e + euclid ν μ := by
  have h := weighted_close elements (fraction X e) h0 (euclid ν μ) ν μ hl' hl (coord_le_euclid ν μ)
  rw [h1] at h
  unfold slack weighted
  push_cast at h ⊢
  linarith

/-- The energy released per atom by a reaction, when at two points of the diagram every reactant is away from equilibrium by at most `b`
in total. -/
theorem release_le (hX : X.Lawful) (D : Diagram elements (fraction X) (perAtomEnergy X) formula mins refs borders hsInt doms)
    (P : Phases X elements all mins) (p q : List ℚ) (hp : p.length = elements.length) (hq : q.length = elements.length)
    (hp' : ∀ m ∈ mins, weighted elements (fraction X) m p ≤ perAtomEnergy X m) (hq' : ∀ m ∈ mins, weighted elements (fraction X) m q ≤ perAtomEnergy X m)
    (entries : List (Entry κ)) (hsub : ∀ x ∈ entries, x ∈ all) (coeffs : List ℚ) (b : ℝ)
    (hsl : ∀ x ∈ entries.zip coeffs, x.2 < 0 → ((slack X elements p x.1 + slack X elements q x.1 : ℚ) : ℝ) ≤ b)
    (hn : (entries.map fun e => X.red e.comp).Nodup)
    (hc : Conserved X (entries.map fun e => X.red e.comp) coeffs) (data : List (String × ℚ)) (lne : Option ℕ) (w : ℚ)
    (hw : energyPerAtom X (cinit X entries coeffs data lne) = .ok w) : -(b / 2) ≤ w := by
  obtain ⟨E, hE, b1⟩ := gain_bound hX D P p hp hp' entries hsub coeffs hc data lne
  obtain ⟨E', hE', b2⟩ := gain_bound hX D P q hq hq' entries hsub coeffs hc data lne
  rw [hE] at hE'
  cases hE'
  unfold energyPerAtom at hw
  rw [hE] at hw
  have hN := numAtoms_neg hX entries coeffs hn hc
  have hN' : numAtoms X (Verif.Model.Reaction.elements X (cinit X entries coeffs data lne).base.comps)
      (cinit X entries coeffs data lne).base.comps (cinit X entries coeffs data lne).base.coeffs = _ := hN
  rw [hN'] at hw
  unfold perAtom at hw
  dsimp only at hw
  split_ifs at hw with h0
  cases hw
  have hnat : ∀ x ∈ entries, 0 ≤ X.natoms (X.red x.comp) := fun x _ => List.sum_nonneg (by
    intro y hy
    obtain ⟨s, -, rfl⟩ := List.mem_map.mp hy
    exact hX.nonneg _ _)
  have key : ∀ l : List (Entry κ × ℚ), (∀ x ∈ l, x ∈ entries.zip coeffs) →
      0 ≤ (l.map fun p => if p.2 < 0 then -p.2 * X.natoms (X.red p.1.comp) else 0).sum ∧
      -(b * ((l.map fun p => if p.2 < 0 then -p.2 * X.natoms (X.red p.1.comp) else 0).sum : ℚ)) ≤
        (((l.map fun x => if x.2 < 0 then x.2 * (X.natoms (X.red x.1.comp) * slack X elements p x.1) else 0).sum : ℚ) : ℝ) +
        ((l.map fun x => if x.2 < 0 then x.2 * (X.natoms (X.red x.1.comp) * slack X elements q x.1) else 0).sum : ℚ) := by
    intro l hl
    induction l with
    | nil => simp
    | cons x l ih =>
      obtain ⟨i1, i2⟩ := ih fun y hy => hl y (List.mem_cons_of_mem _ hy)
      have hx := hl x (by simp)
      simp only [List.map_cons, List.sum_cons]
      split_ifs with hneg
      · have k0 : 0 ≤ -x.2 * X.natoms (X.red x.1.comp) := mul_nonneg (by linarith) (hnat _ (List.of_mem_zip hx).1)
        refine ⟨add_nonneg k0 i1, ?_⟩
        have k1 := mul_le_mul_of_nonneg_left (hsl x hx hneg)
          (show (0:ℝ) ≤ ((-x.2 * X.natoms (X.red x.1.comp) : ℚ) : ℝ) by exact_mod_cast k0)
        rw [Rat.cast_add, Rat.cast_add, Rat.cast_add]
        have k2 : ((x.2 * (X.natoms (X.red x.1.comp) * slack X elements p x.1) : ℚ) : ℝ) +
            ((x.2 * (X.natoms (X.red x.1.comp) * slack X elements q x.1) : ℚ) : ℝ)
            = -(((-x.2 * X.natoms (X.red x.1.comp) : ℚ) : ℝ) * ((slack X elements p x.1 + slack X elements q x.1 : ℚ) : ℝ)) := by
          push_cast; ring
        rw [mul_add]
        linarith
      · simp only [zero_add]
        exact ⟨i1, i2⟩
  obtain ⟨n0, hsum⟩ := key _ fun _ h => h
  have hpos := lt_of_le_of_ne n0 (Ne.symm h0)
  have b1' : ((((entries.zip coeffs).map fun x => if x.2 < 0 then x.2 * (X.natoms (X.red x.1.comp) * slack X elements p x.1) else 0).sum : ℚ) : ℝ)
      ≤ (E : ℝ) := by exact_mod_cast b1
  have b2' : ((((entries.zip coeffs).map fun x => if x.2 < 0 then x.2 * (X.natoms (X.red x.1.comp) * slack X elements q x.1) else 0).sum : ℚ) : ℝ)
      ≤ (E : ℝ) := by exact_mod_cast b2
  rw [Rat.cast_div, le_div_iff₀ (by exact_mod_cast hpos)]
  linarith

/-- The value of one interface: computed without error, non-negative, and (up to float error and padding) an upper bound of what can
be released there. -/
theorem pair_any (hX : X.Lawful) (D : Diagram elements (fraction X) (perAtomEnergy X) formula mins refs borders hsInt doms)
    (P : Phases X elements all mins) {ι : Type} [DecidableEq ι] (fl : ℝ → ℚ) (δ : ℝ) (hfl : Rounds fl δ) (Y : Ext ι φ (List (List ℚ)))
    (es : List ι) (s : CPD ι φ (List (List ℚ))) (hs : Clean Y es s) (eAbove : Entry κ → Except Err ℝ) (tol : ℝ)
    (a b : Entry κ) (ha : a ∈ all) (hb : b ∈ all) (pa pb : List (List ℚ)) (ka kb : ℝ)
    (Ha : Placed X elements mins formula doms Y es eAbove tol a pa ka) (Hb : Placed X elements mins formula doms Y es eAbove tol b pb kb) :
    ∃ d, pairDistance fl Y s doms formula mins eAbove (fun e => (elements.map (fraction X e)).map fun x : ℚ => (x : ℝ)) a b = .ok d ∧ 0 ≤ d ∧
      ∀ (entries : List (Entry κ)) (_ : ∀ x ∈ entries, x ∈ all) (coeffs : List ℚ)
          (_ : ∀ p ∈ entries.zip coeffs, p.2 < 0 → p.1 = a ∨ p.1 = b) (_ : (entries.map fun e => X.red e.comp).Nodup)
          (_ : Conserved X (entries.map fun e => X.red e.comp) coeffs) (data : List (String × ℚ)) (lne : Option ℕ) (w : ℚ)
          (_ : energyPerAtom X (cinit X entries coeffs data lne) = .ok w), -((d : ℝ) + δ + tol) ≤ w := by
  obtain ⟨fa0, fa1⟩ := fractions D P a ha
  obtain ⟨fb0, fb1⟩ := fractions D P b hb
  obtain ⟨na, qa⟩ := placed_points D.nodup Ha
  obtain ⟨nb, qb⟩ := placed_points D.nodup Hb
  obtain ⟨oa, ea, la, pka⟩ := offset_ge Ha fa0 fa1
  obtain ⟨ob, eb, lb, pkb⟩ := offset_ge Hb fb0 fb1
  obtain ⟨m, h1, ⟨p, hp, q, hq, hm⟩, -⟩ := C46_minimal euclid euclid_symm pa pb na nb (oa + ob)
  have hm0 : 0 ≤ m := hm ▸ euclid_nonneg p q
  obtain ⟨g1, g2⟩ := hfl (m + (oa + ob)) (by linarith)
  have hsh : (shortest Y (dictGet doms) euclid s (formula a) (formula b) (oa + ob)).2 = .ok (m + (oa + ob)) := by
    obtain ⟨r1, c1⟩ := points_clean Y es s hs (formula a) Ha.harmless
    rw [Ha.answers] at r1
    unfold shortest
    rcases hx : pointsOf Y (dictGet doms) s (formula a) with ⟨s1, res⟩
    rw [hx] at r1 c1
    simp only at r1 c1
    subst r1
    obtain ⟨r2, -⟩ := points_clean Y es s1 c1 (formula b) Hb.harmless
    rw [Hb.answers] at r2
    rcases hy : pointsOf Y (dictGet doms) s1 (formula b) with ⟨s2, res2⟩
    rw [hy] at r2
    simp only at r2
    subst r2
    simp only [hy]
    exact h1
  refine ⟨fl (m + (oa + ob)), ?_, g1, ?_⟩
  · unfold pairDistance
    rw [ea, eb]
    show ((shortest Y (dictGet doms) euclid s (formula a) (formula b) (oa + ob)).2).map fl = _
    rw [hsh]
    rfl
  · intro entries hsub coeffs hr hn hc data lne w hw
    obtain ⟨p1, p2, p3⟩ := qa p hp
    obtain ⟨q1, q2, q3⟩ := qb q hq
    have hb := release_le hX D P p q p1 q1 p2 q2 entries hsub coeffs (2 * (ka + kb + tol) + m) (by
      intro x hx hneg
      rw [Rat.cast_add]
      rcases hr x hx hneg with h | h
      · rw [h]
        have := slack_move a fa0 fa1 q p q1 p1
        rw [hm] at this
        linarith
      · rw [h]
        have := slack_move b fb0 fb1 p q p1 q1
        rw [euclid_symm q p, hm] at this
        linarith) hn hc data lne w hw
    have := (abs_le.mp g2).1
    linarith

/-! ### C148 -/

/-- **C148, every phase.** Also for reactions with metastable phases and polymorphs, after any harmless use of the diagram: the distance is
computed, and at every interface the reaction creates no further reaction releases more energy per atom than the reaction's chemical
potential distance (aggregated with `sum` or `max`; up to the rounding to five digits, the float error and the padding with which
phases are stabilized). For stable phases half of the distance is enough (`C148_interfaces`). -/
theorem C148_any_phase (hX : X.Lawful) (D : Diagram elements (fraction X) (perAtomEnergy X) formula mins refs borders hsInt doms)
    (P : Phases X elements all mins) {ι : Type} [DecidableEq ι] (fl : ℝ → ℚ) (δ : ℝ) (hfl : Rounds fl δ) (Y : Ext ι φ (List (List ℚ)))
    (es : List ι) (earlier : List φ) (hearlier : ∀ f ∈ earlier, Good Y es f) (eAbove : Entry κ → Except Err ℝ) (tol : ℝ)
    (mu : List ℚ → Except Err ℚ) (hmu : mu = aggSum ∨ mu = aggMax) (r : DRxn (Entry κ))
    (hst : ∀ p ∈ r.entries, p.1 ∈ all ∧ ∃ pts k, Placed X elements mins formula doms Y es eAbove tol p.1 pts k)
    (s : CPD ι φ (List (List ℚ))) (hs : s = (queries Y ⟨es, []⟩ earlier).1)
    (dist : Entry κ → Entry κ → Except Err ℚ)
    (hd : dist = pairDistance fl Y s doms formula mins eAbove fun e => (elements.map (fraction X e)).map fun x : ℚ => (x : ℝ)) :
    (combos r ≠ [] → ∃ v, chempotDistance (some mu) dist r = .ok v) ∧
    ∀ v, chempotDistance (some mu) dist r = .ok v →
      ∀ a b, (a ∈ r.reactants ∧ b ∈ r.products ∨ (a, b) ∈ pairs r.products) →
        ∀ (entries : List (Entry κ)) (_ : ∀ x ∈ entries, x ∈ all) (coeffs : List ℚ)
          (_ : ∀ p ∈ entries.zip coeffs, p.2 < 0 → p.1 = a ∨ p.1 = b) (_ : (entries.map fun e => X.red e.comp).Nodup)
          (_ : Conserved X (entries.map fun e => X.red e.comp) coeffs) (data : List (String × ℚ)) (lne : Option ℕ) (w : ℚ)
          (_ : energyPerAtom X (cinit X entries coeffs data lne) = .ok w), -((v : ℝ) + 1 / 200000 + δ + tol) ≤ w := by
  have hclean : Clean Y es s := hs ▸ clean_queries Y es earlier hearlier _ ⟨rfl, fun f dom h => by simp [dictGet] at h⟩
  have hside : ∀ e, (e ∈ r.reactants ∨ e ∈ r.products) → e ∈ all ∧ ∃ pts k, Placed X elements mins formula doms Y es eAbove tol e pts k := by
    intro e he
    rcases he with he | he <;>
    · obtain ⟨p, hp, rfl⟩ := List.mem_map.mp he
      exact hst p (List.mem_filter.mp hp).1
  have hpairs : ∀ (l : List (Entry κ)) (p : Entry κ × Entry κ), p ∈ pairs l → p.1 ∈ l ∧ p.2 ∈ l := by
    intro l
    induction l with
    | nil => simp [pairs]
    | cons x l ih =>
      intro p hp
      rcases List.mem_append.mp hp with h | h
      · obtain ⟨y, hy, rfl⟩ := List.mem_map.mp h
        exact ⟨by simp, List.mem_cons_of_mem _ hy⟩
      · obtain ⟨h1, h2⟩ := ih p h
        exact ⟨List.mem_cons_of_mem _ h1, List.mem_cons_of_mem _ h2⟩
  have hdist : ∀ p ∈ combos r, ∃ d, dist p.1 p.2 = .ok d ∧ 0 ≤ d ∧
      ∀ (entries : List (Entry κ)) (_ : ∀ x ∈ entries, x ∈ all) (coeffs : List ℚ)
          (_ : ∀ q ∈ entries.zip coeffs, q.2 < 0 → q.1 = p.1 ∨ q.1 = p.2) (_ : (entries.map fun e => X.red e.comp).Nodup)
          (_ : Conserved X (entries.map fun e => X.red e.comp) coeffs) (data : List (String × ℚ)) (lne : Option ℕ) (w : ℚ)
          (_ : energyPerAtom X (cinit X entries coeffs data lne) = .ok w), -((d : ℝ) + δ + tol) ≤ w := by
    intro p hp
    have hh : (p.1 ∈ r.reactants ∨ p.1 ∈ r.products) ∧ (p.2 ∈ r.reactants ∨ p.2 ∈ r.products) := by
      rcases List.mem_append.mp hp with h | h
      · obtain ⟨a, ha, h⟩ := List.mem_flatMap.mp h
        obtain ⟨b, hb, rfl⟩ := List.mem_map.mp h
        exact ⟨.inl ha, .inr hb⟩
      · obtain ⟨h1, h2⟩ := hpairs _ p h
        exact ⟨.inr h1, .inr h2⟩
    obtain ⟨a1, pa, ka, Ha⟩ := hside _ hh.1
    obtain ⟨b1, pb, kb, Hb⟩ := hside _ hh.2
    rw [hd]
    exact pair_any hX D P fl δ hfl Y es s hclean eAbove tol p.1 p.2 a1 b1 pa pb ka kb Ha Hb
  let dv : Entry κ × Entry κ → ℚ := fun p => match dist p.1 p.2 with | .ok d => d | .error _ => 0
  have hmap : (combos r).mapM (fun p => dist p.1 p.2) = .ok ((combos r).map dv) := by
    apply Verif.Lemmas.Exc.mapM_eq_map
    intro p hp
    obtain ⟨d, h, -⟩ := hdist p hp
    show _ = Except.ok (dv p)
    simp only [dv, h]
  unfold chempotDistance
  simp only [hmap]
  constructor
  · intro hne
    rcases hmu with rfl | rfl
    · exact ⟨_, rfl⟩
    · cases hc : (combos r).map dv with
      | nil => exact absurd (List.map_eq_nil_iff.mp hc) hne
      | cons x xs => exact ⟨_, rfl⟩
  · intro v hv a b hab entries hsub coeffs hr hn hc data lne w hw
    have hin : (a, b) ∈ combos r := by
      rcases hab with ⟨h1, h2⟩ | h
      · exact List.mem_append.mpr (.inl (List.mem_flatMap.mpr ⟨a, h1, List.mem_map.mpr ⟨b, h2, rfl⟩⟩))
      · exact List.mem_append.mpr (.inr h)
    cases hagg : mu ((combos r).map dv) with
    | error x => rw [hagg] at hv; cases hv
    | ok t =>
      rw [hagg] at hv
      cases hv
      obtain ⟨d, h2, h3, h4⟩ := hdist _ hin
      have hdv : dv (a, b) = d := by simp only [dv, h2]
      have hle := mem_le_agg mu hmu _ (by
        intro y hy
        obtain ⟨p, hp, rfl⟩ := List.mem_map.mp hy
        obtain ⟨d', h2', h3', -⟩ := hdist p hp
        show 0 ≤ dv p
        simp only [dv, h2']
        exact h3') t hagg d (List.mem_map.mpr ⟨(a, b), hin, hdv⟩)
      have h5 := hle.trans (roundDigits5 t)
      have h5' : (d : ℝ) ≤ (roundDigits 5 t : ℚ) + 1 / 200000 := by
        have : ((d : ℚ) : ℝ) ≤ ((roundDigits 5 t + 1 / 200000 : ℚ) : ℝ) := by exact_mod_cast h5
        simpa using this
      have := h4 entries hsub coeffs hr hn hc data lne w hw
      linarith

end

/-! Concrete case: the phases of C147 by composition; A3B is 2 per atom above the hull and gets its domain from a diagram in which it is
lowered to `-8 - 1/100`. -/

def mDoms : List (TComp × List (List ℚ)) := cDoms.map fun p => (p.1.comp, p.2)

theorem mDiagram : Diagram [0, 1] (fraction toy) (perAtomEnergy toy) Entry.comp cMins cRefs exBorders exInt mDoms :=
  { cDiagram with inj := by decide +kernel, built := by decide +kernel }

def low : Entry TComp := ⟨![3, 1, 0], -801/100⟩
def mMins : List (Entry TComp) := [⟨A, -1⟩, ⟨B1, -2⟩, ⟨AB, -6⟩, low]
def mPts : List (List ℚ) := [[-1, -501/100], [-201/200, -999/200]]
def mInt (H : List (List ℚ)) : List (List ℚ × List ℕ) :=
  if H = [[1/2, 1/2, 3], [3/4, 1/4, 801/400], [1, 0, 1], [0, 1, 2]] ++ exBorders then
    [([-1, -501/100], [1, 2]), ([-201/200, -999/200], [0, 1]), ([-4, -2], [0, 3]), ([-1, -10], [2, 5]), ([-10, -2], [3, 4]), ([-10, -10], [4, 5])]
  else []
def mDoms' : List (TComp × List (List ℚ)) :=
  [(AB, [[-201/200, -999/200], [-4, -2]]), (low.comp, mPts), (A, [[-1, -501/100], [-1, -10]]), (B1, [[-4, -2], [-10, -2]])]

theorem mInt_spec : ∀ H, Intersects 2 H (mInt H) := by
  intro H p hp
  unfold mInt at hp
  split_ifs at hp with h
  · subst h
    revert p
    decide +kernel
  · simp at hp

theorem mListing : Listing toy [0, 1] Entry.comp mMins mDoms' := by
  refine ⟨cRefs, exBorders, mInt, ⟨by decide +kernel, by decide +kernel⟩, by decide +kernel, ?_, by decide +kernel, mInt_spec, by decide +kernel⟩
  intro x hx vec hvec
  have : vec = [-1, -2] := by
    cases hvec with
    | cons h1 h => cases h with
      | cons h2 h => cases h with
        | nil =>
          obtain ⟨r, hr, rfl⟩ := h1
          obtain ⟨r', hr', rfl⟩ := h2
          simp [cRefs] at hr hr'
          rw [hr, hr']
          decide +kernel
  subst this
  revert x
  decide +kernel

/-- The queries: ground state by composition, stabilization of A3B, and the diagram with it. -/
def mExt : Ext (Entry TComp) TComp (List (List ℚ)) where
  minEntry l f := match l.find? fun e => e.comp = f with
    | some e => .ok e
    | none => .error .keyError
  stab _ e _ := .ok ⟨e.comp, e.energy - 801/100⟩
  build _ := .ok (dictGet mDoms')

noncomputable def mAbove (_ : Entry TComp) : Except Err ℝ := .ok 2

def mRxn : DRxn (Entry TComp) := ⟨[(⟨![3, 1, 0], 0⟩, -1), (⟨AB, -6⟩, 1), (⟨A, -1⟩, 2)], none⟩

theorem mListing₀ : Listing toy [0, 1] Entry.comp cMins mDoms :=
  ⟨cRefs, exBorders, exInt, mDiagram.isRefs, mDiagram.nonneg, mDiagram.sharp, mDiagram.inj, mDiagram.intersects, mDiagram.built⟩

theorem mPlaced : ∀ p ∈ mRxn.entries, p.1 ∈ cAll ∧ ∃ pts k,
    Placed toy [0, 1] cMins Entry.comp mDoms mExt cMins mAbove (1/100) p.1 pts k := by
  have hgood : Good mExt cMins ![3, 1, 0] := Or.inr ⟨⟨![3, 1, 0], 0⟩, by decide +kernel, Or.inr ⟨⟨![3, 1, 0], 0 - 801/100⟩, dictGet mDoms', rfl,
    by decide +kernel, rfl, Or.inl ⟨mPts, by decide +kernel⟩⟩⟩
  intro p hp
  simp only [mRxn, List.mem_cons, List.not_mem_nil, or_false] at hp
  rcases hp with rfl | rfl | rfl
  · refine ⟨by decide +kernel, mPts, 2, fun _ => hgood, by decide +kernel, ?_, mMins, mDoms', low, mListing, by unfold Alike; decide +kernel, by decide +kernel,
      by unfold Alike; decide +kernel, by decide +kernel, ?_⟩
    · rw [if_neg (by decide +kernel)]
      exact ⟨rfl, by norm_num⟩
    · have h1 : perAtomEnergy toy ⟨![3, 1, 0], 0⟩ = 0 := by decide +kernel
      have h2 : perAtomEnergy toy low = -801/400 := by decide +kernel
      rw [h1, h2]
      norm_num
  · refine ⟨by decide +kernel, [[-1, -5], [-4, -2]], 0, fun h => absurd h (by decide +kernel), by decide +kernel, ?_, cMins, mDoms, ⟨AB, -6⟩, mListing₀,
      fun m hm => ⟨m, hm, fun _ _ => rfl, le_rfl⟩, by decide +kernel, fun _ _ => rfl, by decide +kernel, by simp⟩
    rw [if_pos (by decide +kernel)]
  · refine ⟨by decide +kernel, [[-1, -5], [-1, -10]], 0, fun h => absurd h (by decide +kernel), by decide +kernel, ?_, cMins, mDoms, ⟨A, -1⟩, mListing₀,
      fun m hm => ⟨m, hm, fun _ _ => rfl, le_rfl⟩, by decide +kernel, fun _ _ => rfl, by decide +kernel, by simp⟩
    rw [if_pos (by decide +kernel)]

/-- A3B decomposes to AB and A with a release of 2 per atom, so the distance of its reactions is at least that. -/
example : ∃ v : ℚ, chempotDistance (some aggMax) (pairDistance fl6 mExt (queries mExt ⟨cMins, []⟩ [![3, 1, 0]]).1 mDoms Entry.comp cMins mAbove
      fun e => (([0, 1] : List (Fin 3)).map (fraction toy e)).map fun x : ℚ => (x : ℝ)) mRxn = .ok v ∧
      -((v : ℝ) + 1 / 200000 + 1 / 10 ^ 6 + 1 / 100) ≤ ((-2 : ℚ) : ℝ) := by
  obtain ⟨h1, h2⟩ := C148_any_phase toy_lawful mDiagram cPhases fl6 (1 / 10 ^ 6) fl6_rounds mExt cMins [![3, 1, 0]] (by
      intro f hf
      rw [List.mem_singleton.mp hf]
      exact Or.inr ⟨⟨![3, 1, 0], 0⟩, by decide +kernel, Or.inr ⟨⟨![3, 1, 0], 0 - 801/100⟩, dictGet mDoms', rfl,
        by decide +kernel, rfl, Or.inl ⟨mPts, by decide +kernel⟩⟩⟩) mAbove (1 / 100) aggMax (.inr rfl) mRxn mPlaced _ rfl _ rfl
  obtain ⟨v, hv⟩ := h1 (by decide +kernel)
  exact ⟨v, hv, h2 v hv ⟨![3, 1, 0], 0⟩ ⟨A, -1⟩ (.inl (by decide +kernel)) [⟨![3, 1, 0], 0⟩, ⟨AB, -6⟩, ⟨A, -1⟩] (by decide +kernel) [-1, 1, 2]
    (by decide +kernel) (by decide +kernel) (fun e => by revert e; decide +kernel) [] none (-2) (by decide +kernel)⟩

end Verif.Props.ResidualAny
