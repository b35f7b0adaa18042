import Verif.Props.ReactionEnergy
import Verif.Props.ReactionEq
import Verif.Props.HullInit

/-!
C128: what is computed for a reaction does not depend on how the reaction is written: on the order in which its phases are listed
and on a common factor of its coefficients (src/rxn_network/reactions/{basic,computed,open,hull}.py).
-/

set_option linter.unusedSectionVars false

namespace Verif.Props.Written
open Verif.Py Verif.Model Verif.Model.Reaction Verif.Spec.Reaction Verif.Lemmas.Dict Verif.Lemmas.Reaction Verif.Props.Reaction

variable {κ ε : Type} [DecidableEq κ] [DecidableEq ε]

/-! ### Specification -/

/-- A reaction as a user writes it: a list of entries and a list of as many coefficients. -/
structure Eqn (κ : Type) where
  entries : List (Entry κ)
  coeffs : List ℚ
  same : entries.length = coeffs.length

/-- `b` is `a` with the phases listed in another order and all amounts multiplied by `s`. -/
def Rewritten (s : ℚ) (a b : Eqn κ) : Prop :=
  (b.entries.zip b.coeffs).Perm ((a.entries.zip a.coeffs).map fun p => (p.1, p.2 * s))

/-- The reduced compositions of the phases, in the order written. -/
def Eqn.comps (X : Chem κ ε) (a : Eqn κ) : List κ := a.entries.map fun e => X.red e.comp

/-- The closed and the open reaction made from what is written. -/
def Eqn.closed (X : Chem κ ε) (a : Eqn κ) (data : List (String × ℚ)) (lne : Option ℕ) : CRxn κ := cinit X a.entries a.coeffs data lne
def Eqn.opened (X : Chem κ ε) (a : Eqn κ) (mu : List (ε × ℚ)) (data : List (String × ℚ)) (lne : Option ℕ) : ORxn κ ε :=
  oinit X a.entries a.coeffs mu data lne

/-! ### Helper lemmas -/

/-- Same amounts in another order, at the level of compositions. -/
structure PermOf (c' : List κ) (k' : List ℚ) (c : List κ) (k : List ℚ) : Prop where
  zip : (c'.zip k').Perm (c.zip k)
  left : c'.length = k'.length
  right : c.length = k.length

theorem PermOf.comps {c' c : List κ} {k' k : List ℚ} (h : PermOf c' k' c k) : c'.Perm c := by
  have := h.zip.map Prod.fst
  rwa [List.map_fst_zip (by have := h.left; omega), List.map_fst_zip (by have := h.right; omega)] at this

theorem PermOf.products {c' c : List κ} {k' k : List ℚ} (h : PermOf c' k' c k) (hn : c.Nodup) :
    (productCoeffs c' k').Perm (productCoeffs c k) := by
  rw [productCoeffs_eq _ _ (sidesNodup_of_nodup _ _ hn), productCoeffs_eq _ _ (sidesNodup_of_nodup _ _ (h.comps.nodup_iff.mpr hn))]
  exact h.zip.filter _

theorem PermOf.reactants {c' c : List κ} {k' k : List ℚ} (h : PermOf c' k' c k) (hn : c.Nodup) :
    (reactantCoeffs c' k').Perm (reactantCoeffs c k) := by
  rw [reactantCoeffs_eq _ _ (sidesNodup_of_nodup _ _ hn), reactantCoeffs_eq _ _ (sidesNodup_of_nodup _ _ (h.comps.nodup_iff.mpr hn))]
  exact h.zip.filter _

theorem elements_perm (X : Chem κ ε) {c' c : List κ} (h : c'.Perm c) : (elements X c').Perm (elements X c) := by
  rw [List.perm_ext_iff_of_nodup (nodup_elements X c') (nodup_elements X c)]
  intro e
  rw [mem_elements, mem_elements]
  exact ⟨fun ⟨x, hx, h'⟩ => ⟨x, h.mem_iff.mp hx, h'⟩, fun ⟨x, hx, h'⟩ => ⟨x, h.mem_iff.mpr hx, h'⟩⟩

theorem numAtoms_perm (X : Chem κ ε) {els els' : List ε} (he : els'.Perm els) {c' c : List κ} {k' k : List ℚ} (h : PermOf c' k' c k)
    (hn : c.Nodup) : numAtoms X els' c' k' = numAtoms X els c k := by
  unfold numAtoms
  have h1 : (fun p : κ × ℚ => p.2 * (els'.map (X.amt p.1)).sum) = fun p => p.2 * (els.map (X.amt p.1)).sum := by
    funext p
    rw [(he.map (X.amt p.1)).sum_eq]
  rw [h1]
  exact ((h.products hn).map _).sum_eq

theorem sideAmt_perm (X : Chem κ ε) {d d' : List (κ × ℚ)} (h : d'.Perm d) (e : ε) : sideAmt X d' e = sideAmt X d e :=
  (h.map _).sum_eq

theorem isBalanced_perm (X : Chem κ ε) {c' c : List κ} {k' k : List ℚ} (h : PermOf c' k' c k) (hn : c.Nodup) :
    isBalanced X c' k' = isBalanced X c k := by
  unfold isBalanced
  rw [Bool.eq_iff_iff, List.all_eq_true, List.all_eq_true]
  have hm := fun e => (elements_perm X h.comps).mem_iff (a := e)
  constructor
  · intro hh e he
    rw [← sideAmt_perm X (h.products hn), ← sideAmt_perm X (h.reactants hn)]
    exact hh e ((hm e).mpr he)
  · intro hh e he
    rw [sideAmt_perm X (h.products hn), sideAmt_perm X (h.reactants hn)]
    exact hh e ((hm e).mp he)

theorem calcEnergies_perm (X : Chem κ ε) (en : Entry κ → ℚ) {l l' : List (Entry κ)} (h : l'.Perm l) (c : κ) :
    dictGet (calcEnergies X en l') c = dictGet (calcEnergies X en l) c := by
  obtain ⟨a1, a2⟩ := calc_spec X en l' c
  obtain ⟨b1, b2⟩ := calc_spec X en l c
  cases ha : dictGet (calcEnergies X en l') c with
  | none => exact (b1.mpr fun e he => a1.mp ha e (h.mem_iff.mpr he)).symm
  | some v =>
    cases hb : dictGet (calcEnergies X en l) c with
    | none =>
      obtain ⟨⟨e, he, hr, -⟩, -⟩ := a2 v ha
      exact absurd hr (b1.mp hb e (h.mem_iff.mp he))
    | some w =>
      obtain ⟨⟨e, he, hr, hv⟩, hle⟩ := a2 v ha
      obtain ⟨⟨f, hf, hs, hw⟩, hle'⟩ := b2 w hb
      have h1 := hle f (h.mem_iff.mpr hf) hs
      have h2 := hle' e (h.mem_iff.mp he) hr
      rw [← hv] at h2
      rw [← hw] at h1
      rw [le_antisymm h1 h2]

theorem sumEnergies_perm (X : Chem κ ε) (en : Entry κ → ℚ) {l l' : List (Entry κ)} {k k' : List ℚ} (h : (l'.zip k').Perm (l.zip k))
    (hl' : l'.length = k'.length) (hl : l.length = k.length) :
    sumEnergies (calcEnergies X en l') (l'.map fun e => X.red e.comp) k' = sumEnergies (calcEnergies X en l) (l.map fun e => X.red e.comp) k := by
  have hp : l'.Perm l := by
    have := h.map Prod.fst
    rwa [List.map_fst_zip (by omega), List.map_fst_zip (by omega)] at this
  have hg : ∀ m : List (Entry κ), m.Perm l → ∀ c ∈ m.map (fun e => X.red e.comp),
      dictGet (calcEnergies X en m) c = some ((dictGet (calcEnergies X en l) c).getD 0) := by
    intro m hm c hc
    obtain ⟨e, he, rfl⟩ := List.mem_map.mp hc
    rw [calcEnergies_perm X en hm]
    cases hd : dictGet (calcEnergies X en l) (X.red e.comp) with
    | none => exact absurd rfl ((calc_spec X en l _).1.mp hd e (hm.mem_iff.mp he))
    | some v => rfl
  rw [sumEnergies_eq _ _ k' _ (hg l' hp), sumEnergies_eq _ _ k _ (hg l (List.Perm.refl _))]
  congr 1
  rw [List.zip_map_left, List.zip_map_left, List.map_map, List.map_map]
  exact (h.map _).sum_eq

theorem rewritten_scaled {s : ℚ} {a b : Eqn κ} (h : Rewritten s a b) :
    (b.entries.zip b.coeffs).Perm (a.entries.zip (a.coeffs.map fun c => c * s)) := by
  have h1 : a.entries.zip (a.coeffs.map fun c => c * s) = (a.entries.zip a.coeffs).map fun p => (p.1, p.2 * s) := by
    rw [List.zip_map_right]
    rfl
  rw [h1]
  exact h

theorem rewritten_comps (X : Chem κ ε) {s : ℚ} {a b : Eqn κ} (h : Rewritten s a b) :
    PermOf (b.comps X) b.coeffs (a.comps X) (a.coeffs.map fun c => c * s) where
  zip := by
    unfold Eqn.comps
    rw [List.zip_map_left, List.zip_map_left]
    exact (rewritten_scaled h).map _
  left := by simpa [Eqn.comps] using b.same
  right := by simpa [Eqn.comps] using a.same

theorem dictGet_perm {d d' : List (κ × ℚ)} (h : d'.Perm d) (hn : (d.map Prod.fst).Nodup) (k : κ) : dictGet d' k = dictGet d k := by
  have hn' : (d'.map Prod.fst).Nodup := (h.map Prod.fst).nodup_iff.mpr hn
  cases hd : dictGet d k with
  | none =>
    rw [dictGet_eq_none] at hd ⊢
    exact fun hk => hd ((h.map Prod.fst).mem_iff.mp hk)
  | some v => exact dictGet_eq_some_of_mem d' hn' k v (h.mem_iff.mpr (mem_of_dictGet d k v hd))

/-! ### C128 -/

/-- The energy is multiplied by the common factor, whatever the order of the phases (even if phases are listed twice), for closed and
for open reactions. -/
theorem C128_energy (X : Chem κ ε) (mu : List (ε × ℚ)) (data data' : List (String × ℚ)) (lne lne' : Option ℕ) (s : ℚ) (a b : Eqn κ)
    (h : Rewritten s a b) :
    energy X (b.closed X data' lne') = (energy X (a.closed X data lne)).map (fun v => v * s) ∧
    oenergy X (b.opened X mu data' lne') = (oenergy X (a.opened X mu data lne)).map (fun v => v * s) := by
  have h' := rewritten_scaled h
  have hl : a.entries.length = (a.coeffs.map fun c => c * s).length := by simpa using a.same
  constructor
  · exact (sumEnergies_perm X Entry.energy h' b.same hl).trans (sumEnergies_scale _ _ _ _)
  · exact (sumEnergies_perm X (grandEnergy X mu) h' b.same hl).trans (sumEnergies_scale _ _ _ _)

/-- The energy per atom is the same, for closed and for open reactions between different phases. -/
theorem C128_energy_per_atom (X : Chem κ ε) (mu : List (ε × ℚ)) (data data' : List (String × ℚ)) (lne lne' : Option ℕ) (s : ℚ) (hs : 0 < s)
    (a b : Eqn κ) (h : Rewritten s a b) (hn : (a.comps X).Nodup) :
    energyPerAtom X (b.closed X data' lne') = energyPerAtom X (a.closed X data lne) ∧
    oenergyPerAtom X (b.opened X mu data' lne') = oenergyPerAtom X (a.opened X mu data lne) := by
  have hc := rewritten_comps X h
  have he := elements_perm X hc.comps
  obtain ⟨e1, e2⟩ := C128_energy X mu data data' lne lne' s a b h
  constructor
  · have n1 : numAtoms X (elements X (b.comps X)) (b.comps X) b.coeffs = numAtoms X (elements X (a.comps X)) (a.comps X) a.coeffs * s :=
      (numAtoms_perm X he hc hn).trans (numAtoms_scale X _ _ _ s hs)
    unfold energyPerAtom
    rw [e1]
    exact (congrArg (fun n => perAtom _ n) n1).trans (perAtom_scale _ _ s hs)
  · have n1 : numAtoms X (oelements X (b.opened X mu data' lne')) (b.comps X) b.coeffs
        = numAtoms X (oelements X (a.opened X mu data lne)) (a.comps X) a.coeffs * s :=
      (numAtoms_perm X (he.filter _) hc hn).trans (numAtoms_scale X _ _ _ s hs)
    unfold oenergyPerAtom
    rw [e2]
    exact (congrArg (fun n => perAtom _ n) n1).trans (perAtom_scale _ _ s hs)

/-- Listing the phases in another order changes nothing about the balanced flag; a common factor does not either when the elements are
conserved exactly. The reaction then compares equal, with the same hash, if only the order differs. -/
theorem C128_flag (X : Chem κ ε) (hX : X.Lawful) (data data' : List (String × ℚ)) (lne lne' : Option ℕ) (a b : Eqn κ)
    (hn : (a.comps X).Nodup) :
    (Rewritten 1 a b → (b.closed X data' lne').base.balanced = (a.closed X data lne).base.balanced) ∧
    (∀ s, 0 < s → Rewritten s a b → Conserved X (a.comps X) a.coeffs →
      (b.closed X data' lne').base.balanced = true ∧ (a.closed X data lne).base.balanced = true) ∧
    (Rewritten 1 a b → (∃ v, energyPerAtom X (a.closed X data lne) = .ok v) →
      ceq X (b.closed X data' lne') (a.closed X data lne) = .ok true ∧
      hashKey (elements X (b.comps X)) (b.closed X data' lne').base = hashKey (elements X (a.comps X)) (a.closed X data lne).base) := by
  have hone : (a.coeffs.map fun c => c * (1 : ℚ)) = a.coeffs := by simp
  refine ⟨fun h => ?_, fun s hs h hc => ?_, fun h hv => ?_⟩
  · have h1 := rewritten_comps X h
    rw [hone] at h1
    exact isBalanced_perm X h1 hn
  · have h1 := rewritten_comps X h
    refine ⟨(isBalanced_perm X h1 hn).trans (isBalanced_scale X hX _ _ s hs (sidesNodup_of_nodup _ _ hn) hc), ?_⟩
    have := isBalanced_scale X hX _ _ 1 one_pos (sidesNodup_of_nodup _ _ hn) hc
    rw [hone] at this
    exact this
  · have h1 := rewritten_comps X h
    rw [hone] at h1
    obtain ⟨q, hq⟩ := C16_same_reaction_equal X (b.closed X data' lne').base (a.closed X data lne).base h1.left h1.right h1.zip
    refine ⟨?_, hq⟩
    obtain ⟨v, hv⟩ := hv
    have hv' := (C128_energy_per_atom X [] data data' lne lne' 1 one_pos a b h hn).1
    rw [hv] at hv'
    unfold ceq
    rw [q, hv, hv']
    simp only
    rw [isclose_self]

/-- The atomic fractions of every reactant are the same, for closed reactions (`w` the number of atoms) and open ones (`w` the number of
atoms of closed elements), if both reactions are flagged balanced; the same holds for the products of closed reactions. -/
theorem C128_fractions (X : Chem κ ε) (hX : X.Lawful) (w : κ → ℚ) (data data' : List (String × ℚ)) (lne lne' : Option ℕ)
    (s : ℚ) (hs : 0 < s) (a b : Eqn κ) (h : Rewritten s a b) (hn : (a.comps X).Nodup) (els els' : List ε) (he : els'.Perm els)
    (hb : (b.closed X data' lne').base.balanced = (a.closed X data lne).base.balanced) (c : κ) :
    (reactantAtomicFractions X w (numAtoms X els' (b.comps X) b.coeffs) (b.closed X data' lne').base).map (fun d => dictGet d c)
      = (reactantAtomicFractions X w (numAtoms X els (a.comps X) a.coeffs) (a.closed X data lne).base).map (fun d => dictGet d c) ∧
    (productAtomicFractions X w (numAtoms X els' (b.comps X) b.coeffs) (b.closed X data' lne').base).map (fun d => dictGet d c)
      = (productAtomicFractions X w (numAtoms X els (a.comps X) a.coeffs) (a.closed X data lne).base).map (fun d => dictGet d c) := by
  have hc := rewritten_comps X h
  have hnum : numAtoms X els' (b.comps X) b.coeffs = numAtoms X els (a.comps X) a.coeffs * s :=
    (numAtoms_perm X he hc hn).trans (numAtoms_scale X _ _ _ s hs)
  have hred : ∀ x ∈ a.comps X, X.red x = x := by
    intro x hx
    obtain ⟨e, -, rfl⟩ := List.mem_map.mp hx
    exact hX.red_red _
  set n := numAtoms X els (a.comps X) a.coeffs with hdef
  have key : ∀ (d d' : List (κ × ℚ)) (f g : κ × ℚ → ℚ), d'.Perm (d.map fun p => (p.1, p.2 * s)) → (∀ p ∈ d, p.1 ∈ a.comps X) →
      (d.map Prod.fst).Nodup → (∀ p : κ × ℚ, g (p.1, p.2 * s) = f p) →
      dictGet (dictOf (d'.map fun p => (X.red p.1, g p))) c = dictGet (dictOf (d.map fun p => (X.red p.1, f p))) c := by
    intro d d' f g hp hm hnd hfg
    have hk : (d.map fun p => (X.red p.1, f p)).map Prod.fst = d.map Prod.fst := by
      rw [List.map_map]
      exact List.map_congr_left fun p hp => hred _ (hm p hp)
    have hperm : (d'.map fun p => (X.red p.1, g p)).Perm (d.map fun p => (X.red p.1, f p)) := by
      refine (hp.map fun p => (X.red p.1, g p)).trans ?_
      rw [List.map_map]
      refine List.Perm.of_eq (List.map_congr_left fun p _ => ?_)
      simp only [Function.comp, hfg]
    have hn1 : ((d.map fun p => (X.red p.1, f p)).map Prod.fst).Nodup := by rw [hk]; exact hnd
    rw [dictOf_eq_self _ hn1, dictOf_eq_self _ ((hperm.map Prod.fst).nodup_iff.mpr hn1)]
    exact dictGet_perm hperm (by rw [hk]; exact hnd) c
  have hdiv : ∀ x y : ℚ, x * s * y / (n * s) = x * y / n := by
    intro x y
    rw [show x * s * y = x * y * s by ring, mul_div_mul_right _ _ hs.ne']
  constructor
  · unfold reactantAtomicFractions
    rw [hb]
    split_ifs with hf
    · rfl
    · simp only [Except.map]
      congr 1
      refine key (reactantCoeffs (a.comps X) a.coeffs) (reactantCoeffs (b.comps X) b.coeffs) _ _ ?_ ?_ (nodup_dictOf _) ?_
      · rw [← reactantCoeffs_scale _ _ s hs]
        exact hc.reactants hn
      · intro p hp
        exact (List.of_mem_zip (List.mem_of_mem_filter (mem_dictOf _ p hp))).1
      · intro p
        simp only
        rw [hnum, ← hdiv]
        ring
  · unfold productAtomicFractions
    rw [hb]
    split_ifs with hf
    · rfl
    · simp only [Except.map]
      congr 1
      refine key (productCoeffs (a.comps X) a.coeffs) (productCoeffs (b.comps X) b.coeffs) _ _ ?_ ?_ (nodup_dictOf _) ?_
      · rw [← productCoeffs_scale _ _ s hs]
        exact hc.products hn
      · intro p hp
        exact (List.of_mem_zip (List.mem_of_mem_filter (mem_dictOf _ p hp))).1
      · intro p
        simp only
        rw [hnum, ← hdiv]

/-- Fractions that agree for every phase give the same place on an interface. -/
theorem coordinate_congr (c1 c2 : κ) (p q : Except Err (List (κ × ℚ)))
    (h : ∀ c, p.map (fun d => dictGet d c) = q.map (fun d => dictGet d c)) : coordinate c1 c2 p = coordinate c1 c2 q := by
  have f1 := h c1
  have f2 := h c2
  unfold coordinate
  cases p with
  | error e =>
    cases q with
    | error e' => simpa [Except.map] using f1
    | ok d => simp [Except.map] at f1
  | ok d' =>
    cases q with
    | error e' => simp [Except.map] at f1
    | ok d =>
      simp only [Except.map, Except.ok.injEq] at f1 f2
      simp only [f1, f2]

/-- Where a closed reaction lies on the interface between `c1` and `c2`. -/
def closedPlace (X : Chem κ ε) (c1 c2 : κ) (r : CRxn κ) : Except Err ℚ :=
  coordinate c1 c2 (reactantAtomicFractions X X.natoms (numAtoms X (elements X r.base.comps) r.base.comps r.base.coeffs) r.base)

/-- Where an open reaction lies on the interface between `c1` and `c2`: only atoms of closed elements count. -/
def openPlace (X : Chem κ ε) (c1 c2 : κ) (r : ORxn κ ε) : Except Err ℚ :=
  coordinate c1 c2 (reactantAtomicFractions X (fun c => ((oelements X r).map (X.amt c)).sum)
    (numAtoms X (oelements X r) r.base.comps r.base.coeffs) r.base)

/-- The place of a reaction on the interface between `c1` and `c2` is the same, or fails in the same way, for closed and for open
reactions whose flags agree (see `C128_flag`). -/
theorem C128_coordinate (X : Chem κ ε) (hX : X.Lawful) (mu : List (ε × ℚ)) (data data' : List (String × ℚ)) (lne lne' : Option ℕ)
    (s : ℚ) (hs : 0 < s) (a b : Eqn κ) (h : Rewritten s a b) (hn : (a.comps X).Nodup)
    (hb : (b.closed X data' lne').base.balanced = (a.closed X data lne).base.balanced) (c1 c2 : κ) :
    closedPlace X c1 c2 (b.closed X data' lne') = closedPlace X c1 c2 (a.closed X data lne) ∧
    openPlace X c1 c2 (b.opened X mu data' lne') = openPlace X c1 c2 (a.opened X mu data lne) := by
  have he := elements_perm X (rewritten_comps X h).comps
  constructor
  · exact coordinate_congr _ _ _ _ fun c => (C128_fractions X hX X.natoms data data' lne lne' s hs a b h hn _ _ he hb c).1
  · have ho : (oelements X (b.opened X mu data' lne')).Perm (oelements X (a.opened X mu data lne)) := he.filter _
    have hw : (fun c => ((oelements X (b.opened X mu data' lne')).map (X.amt c)).sum)
        = fun c => ((oelements X (a.opened X mu data lne)).map (X.amt c)).sum := by
      funext c
      exact (ho.map _).sum_eq
    unfold openPlace
    rw [hw]
    exact coordinate_congr _ _ _ _ fun c => (C128_fractions X hX _ data data' lne lne' s hs a b h hn _ _ ho hb c).1

/-! ### Whole interfaces -/

open Verif.Model.Hull Verif.Props.HullInit

/-- `reactant_entries`, src/rxn_network/reactions/computed.py:43. -/
def reactantEntries (r : CRxn κ) : List (Entry κ) := ((r.entries.zip r.base.coeffs).filter fun p => p.2 < (0 : ℚ)).map Prod.fst

theorem findEnds_error {ρ η : Type} (reactants : ρ → List η) (red : η → κ) (c1 c2 : κ) (rs : List ρ) : ∀ (st : Option η × Option η) (e : Err),
    findEnds reactants red c1 c2 rs st = .error e → e = .valueError := by
  induction rs with
  | nil =>
    intro st e h
    simpa [findEnds] using h.symm
  | cons r rs ih =>
    intro st e h
    unfold findEnds at h
    split at h
    · cases h
    · exact ih _ e h

/-- Hulls made from lists of reactions that agree one by one in place, energy and phases consumed have the same points. -/
theorem hull_congr {ρ η : Type} (reactants : ρ → List η) (red : η → κ) (coord epa : ρ → Except Err ℚ) (ident : η → ρ)
    (argsort : List ℚ → List ℕ) (c1 c2 : κ) (rs rs' : List ρ)
    (h : List.Forall₂ (fun r r' => coord r' = coord r ∧ epa r' = epa r ∧
      ∀ c, (∃ e ∈ reactants r', red e = c) ↔ ∃ e ∈ reactants r, red e = c) rs rs') :
    (hullInit reactants red coord epa ident argsort c1 c2 rs').map Built.coords
      = (hullInit reactants red coord epa ident argsort c1 c2 rs).map Built.coords := by
  have hrows : rs'.mapM (coordRow coord epa) = rs.mapM (coordRow coord epa) := by
    induction h with
    | nil => rfl
    | cons hab _ ih => rw [List.mapM_cons, List.mapM_cons, ih, coordRow, coordRow, hab.1, hab.2.1]
  have hocc : BothOccur reactants red c1 c2 rs' ↔ BothOccur reactants red c1 c2 rs := by
    have : ∀ c, (∃ r ∈ rs', ∃ e ∈ reactants r, red e = c) ↔ ∃ r ∈ rs, ∃ e ∈ reactants r, red e = c := by
      intro c
      clear hrows
      induction h with
      | nil => simp
      | cons hab _ ih => simp only [List.mem_cons, exists_eq_or_imp, ih, hab.2.2 c]
    unfold BothOccur
    rw [this c1, this c2]
  have hf := findEnds_iff reactants red c1 c2 rs
  have hf' := findEnds_iff reactants red c1 c2 rs'
  unfold hullInit
  rw [hrows]
  cases h1 : findEnds reactants red c1 c2 rs' (none, none) with
  | error e =>
    cases h2 : findEnds reactants red c1 c2 rs (none, none) with
    | error e' =>
      rw [findEnds_error _ _ _ _ _ _ _ h1, findEnds_error _ _ _ _ _ _ _ h2]
      rfl
    | ok ab =>
      obtain ⟨x, hx⟩ := hf'.mpr (hocc.mpr (hf.mp ⟨ab, h2⟩))
      rw [h1] at hx
      cases hx
  | ok ab =>
    cases h2 : findEnds reactants red c1 c2 rs (none, none) with
    | error e' =>
      obtain ⟨x, hx⟩ := hf.mpr (hocc.mp (hf'.mp ⟨ab, h1⟩))
      rw [h2] at hx
      cases hx
    | ok ab' =>
      cases h3 : rs.mapM (coordRow coord epa) with
      | error e => rfl
      | ok rows => rfl

/-- The points of an interface hull, hence all scores computed from them, are the same if every reaction is written differently. -/
theorem C128_hull (X : Chem κ ε) (hX : X.Lawful) (ident : Entry κ → CRxn κ) (argsort : List ℚ → List ℕ) (c1 c2 : κ) (as bs : List (Eqn κ))
    (h : List.Forall₂ (fun a b => ∃ s, 0 < s ∧ Rewritten s a b ∧ (a.comps X).Nodup ∧
      (b.closed X [] none).base.balanced = (a.closed X [] none).base.balanced) as bs) :
    (hullInit reactantEntries (fun e => X.red e.comp) (closedPlace X c1 c2) (energyPerAtom X) ident argsort c1 c2
        (bs.map fun b => b.closed X [] none)).map Built.coords
      = (hullInit reactantEntries (fun e => X.red e.comp) (closedPlace X c1 c2) (energyPerAtom X) ident argsort c1 c2
        (as.map fun a => a.closed X [] none)).map Built.coords := by
  refine hull_congr _ _ _ _ _ _ _ _ _ _ ?_
  rw [List.forall₂_map_left_iff, List.forall₂_map_right_iff]
  refine h.imp ?_
  rintro a b ⟨s, hs, hr, hn, hb⟩
  refine ⟨(C128_coordinate X hX [] [] [] none none s hs a b hr hn hb c1 c2).1,
    (C128_energy_per_atom X [] [] [] none none s hs a b hr hn).1, fun c => ?_⟩
  have hm : ∀ e, e ∈ reactantEntries (b.closed X [] none) ↔ e ∈ reactantEntries (a.closed X [] none) := by
    intro e
    show e ∈ ((b.entries.zip b.coeffs).filter fun p => p.2 < (0 : ℚ)).map Prod.fst ↔ e ∈ ((a.entries.zip a.coeffs).filter fun p => p.2 < (0 : ℚ)).map Prod.fst
    rw [((hr.filter fun p => p.2 < (0 : ℚ)).map Prod.fst).mem_iff]
    simp only [List.mem_map, List.mem_filter, decide_eq_true_eq]
    constructor
    · rintro ⟨p, ⟨⟨q, hq, rfl⟩, h1⟩, rfl⟩
      exact ⟨q, ⟨hq, by simpa [mul_neg_iff, hs, hs.not_gt] using h1⟩, rfl⟩
    · rintro ⟨q, ⟨hq, h1⟩, rfl⟩
      exact ⟨(q.1, q.2 * s), ⟨⟨q, hq, rfl⟩, mul_neg_of_neg_of_pos h1 hs⟩, rfl⟩
  exact ⟨fun ⟨e, he, hc⟩ => ⟨e, (hm e).mp he, hc⟩, fun ⟨e, he, hc⟩ => ⟨e, (hm e).mpr he, hc⟩⟩

/-! ### Examples and limits -/

/-- `2 A + B2 -> 2 AB`, and the same reaction written as `AB <- 1/2 B2 + A`. -/
def exA : Eqn TComp := ⟨[⟨A, -1⟩, ⟨B2, -2⟩, ⟨AB, -5⟩], [-2, -2, 2], rfl⟩
def exB : Eqn TComp := ⟨[⟨AB, -5⟩, ⟨B2, -2⟩, ⟨A, -1⟩], [1, -1, -1], rfl⟩

theorem ex_rewritten : Rewritten (1/2) exA exB := by
  unfold Rewritten
  decide +kernel

example : (exA.comps toy).Nodup ∧ Conserved toy (exA.comps toy) exA.coeffs ∧
    energyPerAtom toy (exA.closed toy [] none) = .ok (-3/2) ∧ energyPerAtom toy (exB.closed toy [] none) = .ok (-3/2) ∧
    energy toy (exA.closed toy [] none) = .ok (-6) ∧ energy toy (exB.closed toy [] none) = .ok (-3) ∧
    closedPlace toy A B1 (exA.closed toy [] none) = .ok (1/2) ∧ closedPlace toy A B1 (exB.closed toy [] none) = .ok (1/2) ∧
    openPlace toy A B1 (exB.opened toy [(1, -1)] [] none) = .ok 0 := by
  refine ⟨by decide +kernel, fun e => ?_, by decide +kernel, by decide +kernel, by decide +kernel, by decide +kernel, by decide +kernel,
    by decide +kernel, by decide +kernel⟩
  revert e
  decide +kernel

example : (exB.closed toy [] none).base.balanced = (exA.closed toy [] none).base.balanced := by decide +kernel

example : Built.coords <$> (hullInit reactantEntries (fun e => toy.red e.comp) (closedPlace toy A B1) (energyPerAtom toy)
    (fun e => cinit toy [e] [1] [] none) (fun _ => [1, 0, 2]) A B1 [exA.closed toy [] none]) = .ok [(0, 0), (1/2, -3/2), (1, 0)] := by
  decide +kernel

/-- If a phase is listed twice the order matters: the same amounts in another order have another energy per atom. -/
theorem C128_twice_violated : ∃ a b : Eqn TComp, Rewritten 1 a b ∧ energyPerAtom toy (a.closed toy [] none) = .ok (-3/4) ∧
    energyPerAtom toy (b.closed toy [] none) = .ok (-3/2) :=
  ⟨⟨[⟨A, 0⟩, ⟨B1, 0⟩, ⟨AB, -1⟩, ⟨AB, 0⟩], [-3, -3, 1, 2], rfl⟩, ⟨[⟨A, 0⟩, ⟨B1, 0⟩, ⟨AB, 0⟩, ⟨AB, -1⟩], [-3, -3, 2, 1], rfl⟩, by
    unfold Rewritten; decide +kernel, by decide +kernel, by decide +kernel⟩

/-- Near the tolerance a common factor matters: the reaction divided by ten is flagged balanced and has a place on the interface, the
original is not and has none. -/
theorem C128_tolerance_violated : ∃ a b : Eqn TComp, Rewritten (1/10) a b ∧ (a.comps toy).Nodup ∧
    closedPlace toy A B1 (a.closed toy [] none) = .error .valueError ∧ ∃ x, closedPlace toy A B1 (b.closed toy [] none) = .ok x :=
  ⟨⟨[⟨A, 0⟩, ⟨B1, 0⟩, ⟨AB, -1⟩], [-1, -1, 1 + 1/200000], rfl⟩, ⟨[⟨A, 0⟩, ⟨B1, 0⟩, ⟨AB, -1⟩], [-1/10, -1/10, 1/10 + 1/2000000], rfl⟩, by
    unfold Rewritten; decide +kernel, by decide +kernel, by decide +kernel, 1 / 2, by decide +kernel⟩

theorem exA_nodup : (exA.comps toy).Nodup := by decide +kernel

example := C128_energy toy [(1, -1)] [] [] none none (1/2) exA exB ex_rewritten
example := C128_energy_per_atom toy [(1, -1)] [] [] none none (1/2) (by norm_num) exA exB ex_rewritten exA_nodup
example := C128_coordinate toy toy_lawful [(1, -1)] [] [] none none (1/2) (by norm_num) exA exB ex_rewritten exA_nodup (by decide +kernel) A B1

end Verif.Props.Written
