import Verif.Lemmas.Carry
import Verif.Props.GroundState

/-! Property C145: no sequence of reactions between two phases lies below the hull of their interface. -/

set_option linter.unusedSectionVars false

namespace Verif.Props.PathHull
open Verif.Py Verif.Model Verif.Model.Enum Verif.Model.Reaction Verif.Spec.Reaction Verif.Spec.Carry Verif.Lemmas.Carry Verif.Lemmas.Exc Verif.Props.Enum
  Verif.Props.EnumGroup Verif.Props.BalanceLinear Verif.Props.EnumComplete Verif.Props.EnumExact Verif.Lemmas.Conformal Verif.Props.GroundState
open Verif.Model.Hull (hullInit Built getHullEnergy)
open Verif.Props.HullConvex (LowerCorner Envelope Apart')
open Verif.Spec.Hull (HullIndices)

variable {κ : Type} [DecidableEq κ]

/-! ### Specification -/

/-- What a reaction makes of a phase, in formula units (negative: uses). -/
def gives (g : CRxn κ) (z : Entry κ) : ℚ := coeffOf g.entries g.base.coeffs z

/-- One atom of a mixture, `x` of it in the phase `B` and the rest in `A`, in formula units. -/
def heap (X : Chem κ Sym) (A B : Entry κ) (x : ℚ) : Entry κ → ℚ := fun z =>
  (if z = A then (1 - x) / X.natoms (X.red A.comp) else 0) + if z = B then x / X.natoms (X.red B.comp) else 0

/-- The energies of the reactions, each as often as it is carried out. -/
def heat (X : Chem κ Sym) : List (CRxn κ × ℚ) → Except Err ℚ
  | [] => .ok 0
  | p :: s => do
    let e ← energy X p.1
    let t ← heat X s
    pure (p.2 * e + t)

/-- From the mixture with the share `x` of `B`, the reactions of phases of `entries` can be carried out one after the other in these portions. -/
structure Proceeds (X : Chem κ Sym) (entries : List (Entry κ)) (A B : Entry κ) (x : ℚ) (s : List (CRxn κ × ℚ)) : Prop where
  low : 0 ≤ x
  high : x ≤ 1
  genuine : ∀ p ∈ s, Genuine X entries p.1
  carried : CarriedOut gives (heap X A B x) s

/-! ### Helper lemmas -/

theorem gives_eq (g : CRxn κ) : gives g = amount g := rfl

theorem energy_eq {X : Chem κ Sym} {entries : List (Entry κ)} (hn : (entries.map fun e => X.red e.comp).Nodup) {g : CRxn κ} (hg : Genuine X entries g) :
    energy X g = .ok (∑ z ∈ entries.toFinset, amount g z * en X z) := by
  have hinj : ∀ y ∈ entries, ∀ z ∈ entries, X.red y.comp = X.red z.comp → y = z := fun y hy z hz h => List.inj_on_of_nodup_map hn hy hz h
  have hgn : (g.entries.map fun e => X.red e.comp).Nodup := hg.nodup.map_on fun y hy z hz h => hinj y (hg.mem y hy) z (hg.mem z hz) h
  rw [← genuine_sum hg]
  exact (congrArg (energy X) hg.whole.1).trans (Verif.Props.Reaction.C17_energy_distinct X _ _ _ _ hgn)

theorem heat_eq {X : Chem κ Sym} {entries : List (Entry κ)} (hn : (entries.map fun e => X.red e.comp).Nodup) : ∀ (s : List (CRxn κ × ℚ)),
    (∀ p ∈ s, Genuine X entries p.1) → heat X s = .ok (∑ z ∈ entries.toFinset, (s.map fun p => p.2 * amount p.1 z).sum * en X z)
  | [], _ => by simp [heat]
  | p :: s, h => by
    unfold heat
    rw [energy_eq hn (h p List.mem_cons_self), heat_eq hn s fun q hq => h q (List.mem_cons_of_mem _ hq)]
    show Except.ok _ = _
    congr 1
    rw [Finset.mul_sum, ← Finset.sum_add_distrib]
    refine Finset.sum_congr rfl fun z _ => ?_
    rw [List.map_cons, List.sum_cons]
    ring

theorem heap_nonneg (X : Chem κ Sym) (hX : X.Lawful) (hsym : Symbols fun e : Entry κ => X.elems e.comp) (A B : Entry κ) (x : ℚ) (h0 : 0 ≤ x) (h1 : x ≤ 1)
    (z : Entry κ) : 0 ≤ heap X A B x z := by
  have hA : 0 ≤ (1 - x) / X.natoms (X.red A.comp) := div_nonneg (by linarith) (m_pos X hX hsym A).le
  have hB : 0 ≤ x / X.natoms (X.red B.comp) := div_nonneg h0 (m_pos X hX hsym B).le
  unfold heap
  split_ifs <;> linarith

theorem heap_sum (X : Chem κ Sym) (E : Finset (Entry κ)) (A B : Entry κ) (hA : A ∈ E) (hB : B ∈ E) (x : ℚ) (f : Entry κ → ℚ) :
    ∑ z ∈ E, heap X A B x z * f z = (1 - x) / m X A * f A + x / m X B * f B := by
  have : ∀ z ∈ E, heap X A B x z * f z = (if z = A then (1 - x) / m X A * f z else 0) + if z = B then x / m X B * f z else 0 := by
    intro z _
    unfold heap m
    rw [add_mul, ite_mul, ite_mul, zero_mul]
  rw [Finset.sum_congr rfl this, Finset.sum_add_distrib, Finset.sum_ite_eq', Finset.sum_ite_eq', if_pos hA, if_pos hB]

theorem sum_kernel {X : Chem κ Sym} {entries : List (Entry κ)} (c : Sym) : ∀ (s : List (CRxn κ × ℚ)), (∀ p ∈ s, Genuine X entries p.1) →
    ∑ z ∈ entries.toFinset, (s.map fun p => p.2 * amount p.1 z).sum * w X z c = 0
  | [], _ => by simp
  | p :: s, h => by
    have ih := sum_kernel c s fun q hq => h q (List.mem_cons_of_mem _ hq)
    have hk := (genuine_kernel (h p List.mem_cons_self)).2 c
    have : ∀ z ∈ entries.toFinset, ((p :: s).map fun p => p.2 * amount p.1 z).sum * w X z c
        = p.2 * (amount p.1 z * w X z c) + (s.map fun p => p.2 * amount p.1 z).sum * w X z c := by
      intro z _
      rw [List.map_cons, List.sum_cons]
      ring
    rw [Finset.sum_congr rfl this, Finset.sum_add_distrib, ← Finset.mul_sum, hk, ih]
    ring

/-- What is enough for every portion together is enough for one after the other. -/
theorem enough {ρ σ : Type} (ν : ρ → σ → ℚ) : ∀ (s : List (ρ × ℚ)) (m : σ → ℚ), (∀ p ∈ s, (0 : ℚ) ≤ p.2) →
    (∀ x, (s.map fun p => p.2 * max 0 (-ν p.1 x)).sum ≤ m x) → CarriedOut ν m s
  | [], _, _, _ => trivial
  | p :: s, m, hp, h => by
    have hp0 := hp p List.mem_cons_self
    have hnn : ∀ x, 0 ≤ (s.map fun p => p.2 * max 0 (-ν p.1 x)).sum := by
      intro x
      apply List.sum_nonneg
      intro y hy
      obtain ⟨q, hq, rfl⟩ := List.mem_map.mp hy
      exact mul_nonneg (hp q (List.mem_cons_of_mem _ hq)) (le_max_left _ _)
    have key : ∀ x, p.2 * -ν p.1 x ≤ p.2 * max 0 (-ν p.1 x) := fun x => mul_le_mul_of_nonneg_left (le_max_right _ _) hp0
    refine ⟨hp0, fun x => ?_, enough ν s _ (fun q hq => hp q (List.mem_cons_of_mem _ hq)) fun x => ?_⟩
    · have := h x
      rw [List.map_cons, List.sum_cons] at this
      linarith [key x, hnn x]
    · have := h x
      rw [List.map_cons, List.sum_cons] at this
      have e : after ν m p x = m x - p.2 * -ν p.1 x := by unfold after; ring
      rw [e]
      linarith [key x]

section
variable {X : Chem κ Sym} {cfg : Cfg (Entry κ)} {entries : List (Entry κ)} {n : ℤ} {A B : Entry κ} {out : List (Rx (Entry κ))}
  {gs : List (CRxn κ)} {h : Built (CRxn κ)}

/-- A way of getting to the point `p` of the hull: at most one reaction, from a mixture within `δ` of it. -/
structure Way (X : Chem κ Sym) (entries : List (Entry κ)) (A B : Entry κ) (gs : List (CRxn κ)) (x y : ℚ) (k : ℕ) (s : List (CRxn κ × ℚ)) : Prop where
  low : 0 ≤ x
  high : x ≤ 1
  short : s.length ≤ k
  mem : ∀ p ∈ s, p.1 ∈ gs
  pos : ∀ p ∈ s, (0 : ℚ) ≤ p.2
  stocked : ∀ z, (s.map fun p => p.2 * max 0 (-amount p.1 z)).sum ≤ heap X A B x z
  released : ∑ z ∈ entries.toFinset, (s.map fun p => p.2 * amount p.1 z).sum * en X z = y

theorem way_near (S : Setup X cfg entries n A B out gs h) {δ : ℚ} (hδ : Off X A B gs δ) (h0 : 0 ≤ δ) (p : ℚ × ℚ) (hp : p ∈ h.coords) :
    ∃ x s, |x - p.1| ≤ δ ∧ Way X entries A B gs x p.2 1 s := by
  have hm := m_pos X S.lawful S.symbols
  rcases S.coords.2.2.2 p hp with rfl | rfl | ⟨g, hg, h1, h2⟩
  · exact ⟨0, [], by simpa using h0, le_rfl, by norm_num, by simp, by simp, by simp,
      fun z => by simpa using heap_nonneg X S.lawful S.symbols A B 0 le_rfl (by norm_num) z, by simp⟩
  · exact ⟨1, [], by simpa using h0, by norm_num, le_rfl, by simp, by simp, by simp,
      fun z => by simpa using heap_nonneg X S.lawful S.symbols A B 1 (by norm_num) le_rfl z, by simp⟩
  · have hG := S.between.2 g hg
    have hN := (between_pos S.lawful S.symbols S.plain S.distinct S.sharp S.run S.between g hg).2
    have hon := S.only g hg
    obtain ⟨r1, -⟩ := readings X S.lawful entries S.distinct A B S.inA S.inB S.differ g hG hon
    have hd := hδ g hg _ h1
    rw [taken_eq hG, taken_eq hG] at hd
    set N := neg (amount g) A * m X A + neg (amount g) B * m X B with hNd
    have hA0 : 0 ≤ neg (amount g) A * m X A := mul_nonneg (le_max_left _ _) (hm A).le
    have hB0 : 0 ≤ neg (amount g) B * m X B := mul_nonneg (le_max_left _ _) (hm B).le
    refine ⟨neg (amount g) B * m X B / N, [(g, 1 / N)], by rw [abs_sub_comm]; exact hd, div_nonneg hB0 hN.le, by rw [div_le_one hN, hNd]; linarith, by simp,
      by simpa using hg, ?_, ?_, ?_⟩
    · intro q hq
      rw [List.mem_singleton.mp hq]
      exact one_div_nonneg.mpr hN.le
    · intro z
      simp only [List.map_cons, List.map_nil, List.sum_cons, List.sum_nil, add_zero]
      have eA : (1 - neg (amount g) B * m X B / N) / X.natoms (X.red A.comp) = neg (amount g) A / N := by
        have h1 : 1 - neg (amount g) B * m X B / N = neg (amount g) A * m X A / N := by
          rw [eq_div_iff hN.ne', sub_mul, div_mul_cancel₀ _ hN.ne']; rw [hNd]; ring
        rw [h1, show X.natoms (X.red A.comp) = m X A from rfl]
        have := (hm A).ne'
        field_simp
      have eB : neg (amount g) B * m X B / N / X.natoms (X.red B.comp) = neg (amount g) B / N := by
        rw [show X.natoms (X.red B.comp) = m X B from rfl]
        have := (hm B).ne'
        field_simp
      unfold heap
      rw [eA, eB]
      by_cases hz : amount g z < 0
      · rcases hon z hz with rfl | rfl
        · rw [if_pos rfl, if_neg S.differ]; unfold neg; rw [one_div, inv_mul_eq_div, add_zero]
        · rw [if_neg (Ne.symm S.differ), if_pos rfl]; unfold neg; rw [one_div, inv_mul_eq_div, zero_add]
      · rw [max_eq_left (by linarith), mul_zero]
        have : 0 ≤ neg (amount g) A / N := div_nonneg (le_max_left _ _) hN.le
        have : 0 ≤ neg (amount g) B / N := div_nonneg (le_max_left _ _) hN.le
        split_ifs <;> linarith
    · rw [r1] at h2
      unfold perAtom at h2
      simp only at h2
      rw [if_neg hN.ne'] at h2
      rw [← Except.ok.inj h2, Finset.sum_div]
      refine Finset.sum_congr rfl fun z _ => ?_
      simp only [List.map_cons, List.map_nil, List.sum_cons, List.sum_nil, add_zero]
      ring

theorem sum_scale (c : ℚ) (f : CRxn κ → ℚ) (s : List (CRxn κ × ℚ)) : ((s.map fun p => (p.1, c * p.2)).map fun p => p.2 * f p.1).sum = c * (s.map fun p => p.2 * f p.1).sum := by
  rw [List.map_map, ← List.sum_map_mul_left]
  congr 1
  exact List.map_congr_left fun p _ => by simp only [Function.comp]; ring

/-- Ways can be mixed. -/
theorem way_mix {xa xb ya yb : ℚ} {ka kb : ℕ} {sa sb : List (CRxn κ × ℚ)} (ha : Way X entries A B gs xa ya ka sa) (hb : Way X entries A B gs xb yb kb sb)
    {t : ℚ} (t0 : 0 ≤ t) (t1 : t ≤ 1) : ∃ s, Way X entries A B gs ((1 - t) * xa + t * xb) ((1 - t) * ya + t * yb) (ka + kb) s := by
  have t1' : 0 ≤ 1 - t := by linarith
  refine ⟨(sa.map fun p => (p.1, (1 - t) * p.2)) ++ sb.map fun p => (p.1, t * p.2), ?_, ?_, ?_, ?_, ?_, ?_, ?_⟩
  · have := mul_nonneg t1' ha.low
    have := mul_nonneg t0 hb.low
    linarith
  · have := mul_le_mul_of_nonneg_left ha.high t1'
    have := mul_le_mul_of_nonneg_left hb.high t0
    linarith
  · rw [List.length_append, List.length_map, List.length_map]
    exact add_le_add ha.short hb.short
  · intro p hp
    rcases List.mem_append.mp hp with hp | hp
    · obtain ⟨q, hq, rfl⟩ := List.mem_map.mp hp; exact ha.mem q hq
    · obtain ⟨q, hq, rfl⟩ := List.mem_map.mp hp; exact hb.mem q hq
  · intro p hp
    rcases List.mem_append.mp hp with hp | hp
    · obtain ⟨q, hq, rfl⟩ := List.mem_map.mp hp; exact mul_nonneg t1' (ha.pos q hq)
    · obtain ⟨q, hq, rfl⟩ := List.mem_map.mp hp; exact mul_nonneg t0 (hb.pos q hq)
  · intro z
    rw [List.map_append, List.sum_append, sum_scale (1 - t) (fun g => max 0 (-amount g z)), sum_scale t fun g => max 0 (-amount g z)]
    have e : heap X A B ((1 - t) * xa + t * xb) z = (1 - t) * heap X A B xa z + t * heap X A B xb z := by
      unfold heap
      split_ifs <;> ring
    rw [e]
    have := mul_le_mul_of_nonneg_left (ha.stocked z) t1'
    have := mul_le_mul_of_nonneg_left (hb.stocked z) t0
    linarith
  · rw [← ha.released, ← hb.released, Finset.mul_sum, Finset.mul_sum, ← Finset.sum_add_distrib]
    refine Finset.sum_congr rfl fun z _ => ?_
    rw [List.map_append, List.sum_append, sum_scale (1 - t) (fun g => amount g z), sum_scale t fun g => amount g z]
    ring

theorem Way.proceeds (S : Setup X cfg entries n A B out gs h) {x y : ℚ} {k : ℕ} {s : List (CRxn κ × ℚ)} (hw : Way X entries A B gs x y k s) :
    Proceeds X entries A B x s ∧ heat X s = .ok y := by
  have hG : ∀ p ∈ s, Genuine X entries p.1 := fun p hp => S.between.2 _ (hw.mem p hp)
  refine ⟨⟨hw.low, hw.high, hG, enough _ s _ hw.pos hw.stocked⟩, ?_⟩
  rw [heat_eq S.distinct s hG, hw.released]

/-- The hull energy is that of at most two reactions. -/
theorem way_hull (S : Setup X cfg entries n A B out gs h) {δ : ℚ} (hδ : Off X A B gs δ) (hδ0 : 0 ≤ δ) (raw : List ℕ)
    (H : HullIndices h.coords raw) (hap : Apart' h.coords) (x : ℚ) (h0 : 0 ≤ x) (h1 : x ≤ 1)
    (hsep : ∀ p, LowerCorner h.coords p → Verif.Py.isclose x p.1 = true → x = p.1) :
    ∃ y, getHullEnergy ⟨h.coords, raw⟩ x = some y ∧ ∃ x' s, |x' - x| ≤ δ ∧ Way X entries A B gs x' y 2 s := by
  obtain ⟨ident, argsort, hs, hh⟩ := S.hull
  obtain ⟨vs, G, hvs⟩ := Verif.Props.HullInit.C92_lower_hull _ _ _ _ _ _ hs _ _ _ h hh S.range raw H hap
  obtain ⟨y, hy, hch⟩ := Verif.Lemmas.Hull.hullEnergy_spec G h0 h1 (fun v hv => hsep v ((hvs v).mp hv))
  obtain ⟨a, b, hab, g1, g2, g3⟩ := hch
  have hlt := Verif.Lemmas.Hull.adjacent_lt G.lower.strict hab
  have ha : a ∈ vs := by obtain ⟨l, r, rfl⟩ := hab; simp
  have hb : b ∈ vs := by obtain ⟨l, r, rfl⟩ := hab; simp
  have hd : 0 < b.1 - a.1 := sub_pos.mpr hlt
  unfold Verif.Spec.Hull.OnLine at g3
  simp only at g1 g2 g3
  have hx : x = (1 - (x - a.1) / (b.1 - a.1)) * a.1 + (x - a.1) / (b.1 - a.1) * b.1 := by field_simp; ring
  have hyv : y = (1 - (x - a.1) / (b.1 - a.1)) * a.2 + (x - a.1) / (b.1 - a.1) * b.2 := by
    field_simp
    linarith
  have t0 : 0 ≤ (x - a.1) / (b.1 - a.1) := div_nonneg (by linarith) hd.le
  have t1 : (x - a.1) / (b.1 - a.1) ≤ 1 := by rw [div_le_one hd]; linarith
  refine ⟨y, hy, ?_⟩
  obtain ⟨xa, sa, ea, ma⟩ := way_near S hδ hδ0 a ((hvs a).mp ha).1
  obtain ⟨xb, sb, eb, mb⟩ := way_near S hδ hδ0 b ((hvs b).mp hb).1
  obtain ⟨s, hmix⟩ := way_mix ma mb t0 t1
  rw [← hyv] at hmix
  refine ⟨_, s, ?_, hmix⟩
  generalize (x - a.1) / (b.1 - a.1) = t' at hx t0 t1
  have e1 : (1 - t') * xa + t' * xb - x = (1 - t') * (xa - a.1) + t' * (xb - b.1) := by
    conv_lhs => rw [hx]
    ring
  rw [e1]
  refine (abs_add_le _ _).trans ?_
  rw [abs_mul, abs_mul, abs_of_nonneg (sub_nonneg.mpr t1), abs_of_nonneg t0]
  have := mul_le_mul_of_nonneg_left ea (sub_nonneg.mpr t1)
  have := mul_le_mul_of_nonneg_left eb t0
  linarith

/-! ### Property C145 -/

/-- **C145, energies add up.** Whatever reactions are carried out, in whatever order and portions, the energies that they report add up to the
energy of turning the mixture into the phases that are then there. -/
theorem C145_energy (X : Chem κ Sym) (hX : X.Lawful) (hsym : Symbols fun e : Entry κ => X.elems e.comp) (entries : List (Entry κ))
    (hn : (entries.map fun e => X.red e.comp).Nodup) (A B : Entry κ) (hA : A ∈ entries) (hB : B ∈ entries) (x : ℚ) (s : List (CRxn κ × ℚ))
    (hs : Proceeds X entries A B x s) : ∃ e, heat X s = .ok e ∧ Mixes X entries A B x e := by
  refine ⟨_, heat_eq hn s hs.genuine, ?_⟩
  rw [mixes_iff hX hsym (List.Nodup.of_map _ hn)]
  have hA' := List.mem_toFinset.mpr hA
  have hB' := List.mem_toFinset.mpr hB
  have hl : ∀ f : Entry κ → ℚ, ∑ z ∈ entries.toFinset, left gives (heap X A B x) s z * f z
      = ((1 - x) / m X A * f A + x / m X B * f B) + ∑ z ∈ entries.toFinset, (s.map fun p => p.2 * amount p.1 z).sum * f z := by
    intro f
    rw [← heap_sum X _ A B hA' hB', ← Finset.sum_add_distrib]
    refine Finset.sum_congr rfl fun z _ => ?_
    rw [left_eq]
    show (heap X A B x z + (s.map fun p => p.2 * amount p.1 z).sum) * f z = _
    ring
  refine ⟨hs.low, hs.high, left gives (heap X A B x) s, carried_nonneg _ s _ (heap_nonneg X hX hsym A B x hs.low hs.high) hs.carried, fun c => ?_, ?_⟩
  · rw [hl, sum_kernel c s hs.genuine, add_zero]
  · rw [hl]; ring

/-- **C145, never below the hull.** From no mixture of `A` and `B` can any reactions of the phases, carried out one after the other in any portions,
release more energy than the lower hull shows at a mixture within 5e-13. -/
theorem C145_never_below_partial (S : Setup X cfg entries n A B out gs h) (hO : OneEach X entries) (hA : Admits cfg A B) (hR : Roomy X A B n)
    (x : ℚ) (s : List (CRxn κ × ℚ)) (hs : Proceeds X entries A B x s) :
    ∃ e, heat X s = .ok e ∧ ∃ x', |x' - x| ≤ 1 / (2 * 10 ^ 12) ∧ 0 ≤ x' ∧ x' ≤ 1 ∧ ∀ y, Envelope h.coords x' y → y ≤ e := by
  obtain ⟨e, he, hm⟩ := C145_energy X S.lawful S.symbols entries S.distinct A B S.inA S.inB x s hs
  exact ⟨e, he, C136_no_lower_partial S hO hA hR x e hm⟩

/-- **C145, two reactions are enough.** The hull energy at `x` is released by carrying out at most two of the enumerated reactions, from a mixture
within 5e-13 of `x`. -/
theorem C145_two_reactions (S : Setup X cfg entries n A B out gs h) (raw : List ℕ)
    (H : HullIndices h.coords raw) (hap : Apart' h.coords) (x : ℚ) (h0 : 0 ≤ x) (h1 : x ≤ 1)
    (hsep : ∀ p, LowerCorner h.coords p → Verif.Py.isclose x p.1 = true → x = p.1) :
    ∃ y, getHullEnergy ⟨h.coords, raw⟩ x = some y ∧ ∃ x' s, |x' - x| ≤ 1 / (2 * 10 ^ 12) ∧ Proceeds X entries A B x' s ∧ s.length ≤ 2 ∧
      (∀ p ∈ s, p.1 ∈ gs) ∧ heat X s = .ok y := by
  obtain ⟨y, hy, x', s, hx, hw⟩ := way_hull S S.off (by norm_num) raw H hap x h0 h1 hsep
  obtain ⟨k1, k2⟩ := hw.proceeds S
  exact ⟨y, hy, x', s, hx, k1, hw.short, hw.mem, k2⟩

/-- **C145, the best sequence.** If rounding does not change the coordinates, at most two of the enumerated reactions release the hull energy at `x`
from the mixture, and no reactions whatever, in any order and portions, release more. -/
theorem C145_best (S : Setup X cfg entries n A B out gs h) (hO : OneEach X entries) (hA : Admits cfg A B) (hR : Roomy X A B n)
    (hex : Off X A B gs 0) (raw : List ℕ) (H : HullIndices h.coords raw) (hap : Apart' h.coords) (x : ℚ) (h0 : 0 ≤ x) (h1 : x ≤ 1)
    (hsep : ∀ p, LowerCorner h.coords p → Verif.Py.isclose x p.1 = true → x = p.1) :
    ∃ y, getHullEnergy ⟨h.coords, raw⟩ x = some y ∧
      (∃ s, Proceeds X entries A B x s ∧ s.length ≤ 2 ∧ (∀ p ∈ s, p.1 ∈ gs) ∧ heat X s = .ok y) ∧
      ∀ s, Proceeds X entries A B x s → ∃ e, heat X s = .ok e ∧ y ≤ e := by
  obtain ⟨y, hy, x', s, hx, hw⟩ := way_hull S hex le_rfl raw H hap x h0 h1 hsep
  have : x' = x := by have := abs_nonpos_iff.mp hx; linarith
  subst this
  obtain ⟨k1, k2⟩ := hw.proceeds S
  refine ⟨y, hy, ⟨s, k1, hw.short, hw.mem, k2⟩, fun s' hs' => ?_⟩
  obtain ⟨e, he, hm⟩ := C145_energy X S.lawful S.symbols entries S.distinct A B S.inA S.inB x' s' hs'
  obtain ⟨y', hy', hl⟩ := C136_ground_state S hO hA hR hex raw H hap x' h0 h1 hsep
  rw [hy] at hy'
  cases hy'
  exact ⟨e, he, hl.2 hm⟩

/-- **C145, inert interfaces.** If no reaction of the hull releases energy, no reactions carried out one after the other do, from any mixture; and
otherwise one reaction does. -/
theorem C145_inert (S : Setup X cfg entries n A B out gs h) (hO : OneEach X entries) (hA : Admits cfg A B) (hR : Roomy X A B n) :
    ((∃ p ∈ h.coords, p.2 < 0) → ∃ x g t e, g ∈ gs ∧ Proceeds X entries A B x [(g, t)] ∧ heat X [(g, t)] = .ok e ∧ e < 0) ∧
    ((¬ ∃ p ∈ h.coords, p.2 < 0) → ∀ x s, Proceeds X entries A B x s → ∃ e, heat X s = .ok e ∧ 0 ≤ e) := by
  constructor
  · rintro ⟨p, hp, hlt⟩
    obtain ⟨x, s, -, hw⟩ := way_near S S.off (by norm_num) p hp
    obtain ⟨k1, k2⟩ := hw.proceeds S
    match s, hw, k1, k2 with
    | [], _, _, k2 => simp only [heat, Except.ok.injEq] at k2; linarith
    | [q], hw, k1, k2 => exact ⟨x, q.1, q.2, p.2, hw.mem q List.mem_cons_self, k1, k2, hlt⟩
    | _ :: _ :: _, hw, _, _ => have := hw.short; simp at this
  · intro hno x s hs
    obtain ⟨e, he, hm⟩ := C145_energy X S.lawful S.symbols entries S.distinct A B S.inA S.inB x s hs
    refine ⟨e, he, ?_⟩
    by_contra hc
    exact hno ((C136_inert S hO hA hR).mpr ⟨x, e, hm, not_le.mp hc⟩)

end

/-! ### Examples and the violation -/

/-- From three quarters of A and one of B, carrying out the reaction A + B → AB until B is used up releases the hull energy. -/
example : ∃ out gs h, Setup exChem exAll exThree 2 eA eB out gs h ∧
    (∃ s, Proceeds exChem exThree eA eB (1 / 4) s ∧ s.length ≤ 2 ∧ (∀ p ∈ s, p.1 ∈ gs) ∧ heat exChem s = .ok (-1 / 4)) ∧
    (∀ s, Proceeds exChem exThree eA eB (1 / 4) s → ∃ e, heat exChem s = .ok e ∧ -1 / 4 ≤ e) ∧
    ∃ x g t e, g ∈ gs ∧ Proceeds exChem exThree eA eB x [(g, t)] ∧ heat exChem [(g, t)] = .ok e ∧ e < 0 := by
  obtain ⟨out, gs, h, S, hO, hc⟩ := exSetup
  have he : getHullEnergy ⟨h.coords, [0, 1, 2]⟩ (1 / 4) = some (-1 / 4) := by rw [hc]; decide +kernel
  have hsep : ∀ p, LowerCorner h.coords p → Verif.Py.isclose (1 / 4) p.1 = true → 1 / 4 = p.1 := by
    rintro p ⟨hp, -⟩ hcl
    rw [hc] at hp
    simp only [List.mem_cons, List.not_mem_nil, or_false] at hp
    rcases hp with rfl | rfl | rfl <;> revert hcl <;> decide +kernel
  obtain ⟨y, hy, h1, h2⟩ := C145_best S exOne exAdmits exRoomy hO [0, 1, 2] (hc ▸ exHull_indices) (hc ▸ exHull_apart) (1 / 4) (by norm_num) (by norm_num) hsep
  rw [he] at hy
  cases hy
  exact ⟨out, gs, h, S, h1, h2, (C145_inert S exOne exAdmits exRoomy).1 ⟨(1 / 2, -1 / 2), by rw [hc]; simp, by norm_num⟩⟩

/-- The same mixture left alone releases nothing, which the bound allows; the hull energy needs the reaction. -/
example : ∃ out gs h, Setup exChem exAll exThree 2 eA eB out gs h ∧ Proceeds exChem exThree eA eB (1 / 4) [] ∧
    (∃ e, heat exChem [] = .ok e ∧ Mixes exChem exThree eA eB (1 / 4) e) ∧
    (∃ e, heat exChem [] = .ok e ∧ ∃ x', |x' - 1 / 4| ≤ 1 / (2 * 10 ^ 12) ∧ 0 ≤ x' ∧ x' ≤ 1 ∧ ∀ y, Envelope h.coords x' y → y ≤ e) ∧
    ∃ x' s, |x' - 1 / 4| ≤ 1 / (2 * 10 ^ 12) ∧ Proceeds exChem exThree eA eB x' s ∧ s.length ≤ 2 ∧ (∀ p ∈ s, p.1 ∈ gs) ∧ heat exChem s = .ok (-1 / 4) := by
  obtain ⟨out, gs, h, S, hO, hc⟩ := exSetup
  have he : getHullEnergy ⟨h.coords, [0, 1, 2]⟩ (1 / 4) = some (-1 / 4) := by rw [hc]; decide +kernel
  have hsep : ∀ p, LowerCorner h.coords p → Verif.Py.isclose (1 / 4) p.1 = true → 1 / 4 = p.1 := by
    rintro p ⟨hp, -⟩ hcl
    rw [hc] at hp
    simp only [List.mem_cons, List.not_mem_nil, or_false] at hp
    rcases hp with rfl | rfl | rfl <;> revert hcl <;> decide +kernel
  have hP : Proceeds exChem exThree eA eB (1 / 4) [] := ⟨by norm_num, by norm_num, by simp, trivial⟩
  obtain ⟨y, hy, h1⟩ := C145_two_reactions S [0, 1, 2] (hc ▸ exHull_indices) (hc ▸ exHull_apart) (1 / 4) (by norm_num) (by norm_num) hsep
  rw [he] at hy
  cases hy
  exact ⟨out, gs, h, S, hP, C145_energy exChem S.lawful S.symbols exThree S.distinct eA eB S.inA S.inB _ _ hP,
    C145_never_below_partial S exOne exAdmits exRoomy _ _ hP, h1⟩

/-- **C145 fails with fewer phases per side than elements.** With at most two phases on a side, the hull between PQR and PQ shows no energy released by
PQR, although two reactions of the same hull, PQR → PQ + R and then PQ → P + Q, release 1 per atom of PQR. -/
theorem C145_small_n_violated : ∃ out gs h, Setup fChem fAll fFive 2 fA fB out gs h ∧ OneEach fChem fFive ∧ Admits fAll fA fB ∧
    ∃ s, Proceeds fChem fFive fA fB 0 s ∧ (∀ p ∈ s, p.1 ∈ gs) ∧ s.length = 2 ∧ heat fChem s = .ok (-1) ∧
    ¬ ∃ x', |x' - 0| ≤ 1 / (2 * 10 ^ 12) ∧ 0 ≤ x' ∧ x' ≤ 1 ∧ ∀ y, Envelope h.coords x' y → y ≤ -1 := by
  obtain ⟨out, gs, h, S, ⟨g1, hg1, hr1, hp1⟩, ⟨g2, hg2, hr2, hp2⟩, hno⟩ := fSetup
  obtain ⟨n1, n2, n3, n4, n5, n6, n7, n8, n9, n10⟩ := fNe
  have zero : ∀ g ∈ gs, ∀ r p : List (Entry (Fin 5)), (∀ z, z ∈ (viewOf g).reactants ↔ z ∈ r) → (∀ z, z ∈ (viewOf g).products ↔ z ∈ p) →
      ∀ z, z ∉ r → z ∉ p → amount g z = 0 := by
    intro g hg r p hr hp z h1 h2
    have a1 : ¬ amount g z < 0 := fun h => h1 ((hr z).mp ((mem_reactants (S.between.2 g hg) z).mpr h))
    have a2 : ¬ 0 < amount g z := fun h => h2 ((hp z).mp ((mem_products (S.between.2 g hg) z).mpr h))
    linarith
  have ker : ∀ g ∈ gs, amount g fA + amount g fB + amount g fP = 0 ∧ amount g fA + amount g fB + amount g fQ = 0 ∧ amount g fA + amount g fR = 0 := by
    intro g hg
    have kP := (genuine_kernel (S.between.2 g hg)).2 ['P']
    have kQ := (genuine_kernel (S.between.2 g hg)).2 ['Q']
    have kR := (genuine_kernel (S.between.2 g hg)).2 ['R']
    rw [fSum fun z => amount g z * w fChem z _, fW] at kP kQ kR
    simp at kP kQ kR
    exact ⟨kP, kQ, kR⟩
  obtain ⟨a1, a2, a3⟩ := ker g1 hg1
  obtain ⟨b1, b2, b3⟩ := ker g2 hg2
  have aP := zero g1 hg1 _ _ hr1 hp1 fP (by simp [n2.symm]) (by simp [n5.symm, n9])
  have aQ := zero g1 hg1 _ _ hr1 hp1 fQ (by simp [n3.symm]) (by simp [n6.symm, n10])
  have bA := zero g2 hg2 _ _ hr2 hp2 fA (by simp [n1]) (by simp [n2, n3])
  have bR := zero g2 hg2 _ _ hr2 hp2 fR (by simp [n7.symm]) (by simp [n9.symm, n10.symm])
  have neg1 : amount g1 fA < 0 := (mem_reactants (S.between.2 g1 hg1) fA).mp ((hr1 _).mpr (by simp))
  have neg2 : amount g2 fB < 0 := (mem_reactants (S.between.2 g2 hg2) fB).mp ((hr2 _).mpr (by simp))
  have only : ∀ g ∈ gs, ∀ z, z ∉ fFive → amount g z = 0 := fun g hg z hz => coeffOf_absent _ _ _ fun hm => hz ((S.between.2 g hg).mem z hm)
  set t1 : ℚ := 1 / (3 * -amount g1 fA) with ht1
  set t2 : ℚ := 1 / (3 * -amount g2 fB) with ht2
  have p1 : 0 ≤ t1 := by rw [ht1]; apply one_div_nonneg.mpr; linarith
  have p2 : 0 ≤ t2 := by rw [ht2]; apply one_div_nonneg.mpr; linarith
  have c1 : t1 * amount g1 fA = -1 / 3 := by rw [ht1]; have := neg1.ne; field_simp
  have c2 : t2 * amount g2 fB = -1 / 3 := by rw [ht2]; have := neg2.ne; field_simp
  have hm : fChem.natoms (fChem.red fA.comp) = 3 := by decide +kernel
  have hh : ∀ z, heap fChem fA fB 0 z = if z = fA then 1 / 3 else 0 := by
    intro z
    unfold heap
    rw [hm]
    norm_num
  have v1 : ∀ z, t1 * amount g1 z = if z = fA then -1 / 3 else if z = fB ∨ z = fR then 1 / 3 else 0 := by
    intro z
    by_cases hz : z ∈ fFive
    · simp only [fFive, List.mem_cons, List.not_mem_nil, or_false] at hz
      rcases hz with rfl | rfl | rfl | rfl | rfl
      · rw [if_pos rfl, c1]
      · rw [if_neg n1.symm, if_pos (.inl rfl), show amount g1 fB = -amount g1 fA by linarith]; linarith
      · rw [if_neg n2.symm, if_neg (by simp [n5.symm, n9]), aP, mul_zero]
      · rw [if_neg n3.symm, if_neg (by simp [n6.symm, n10]), aQ, mul_zero]
      · rw [if_neg n4.symm, if_pos (.inr rfl), show amount g1 fR = -amount g1 fA by linarith]; linarith
    · rw [only g1 hg1 z hz, mul_zero, if_neg (by rintro rfl; exact hz (by decide +kernel)), if_neg (by rintro (rfl | rfl) <;> exact hz (by decide +kernel))]
  have v2 : ∀ z, t2 * amount g2 z = if z = fB then -1 / 3 else if z = fP ∨ z = fQ then 1 / 3 else 0 := by
    intro z
    by_cases hz : z ∈ fFive
    · simp only [fFive, List.mem_cons, List.not_mem_nil, or_false] at hz
      rcases hz with rfl | rfl | rfl | rfl | rfl
      · rw [if_neg n1, if_neg (by simp [n2, n3]), bA, mul_zero]
      · rw [if_pos rfl, c2]
      · rw [if_neg n5.symm, if_pos (.inl rfl), show amount g2 fP = -amount g2 fB by linarith]; linarith
      · rw [if_neg n6.symm, if_pos (.inr rfl), show amount g2 fQ = -amount g2 fB by linarith]; linarith
      · rw [if_neg n7.symm, if_neg (by simp [n9.symm, n10.symm]), bR, mul_zero]
    · rw [only g2 hg2 z hz, mul_zero, if_neg (by rintro rfl; exact hz (by decide +kernel)), if_neg (by rintro (rfl | rfl) <;> exact hz (by decide +kernel))]
  have hG : ∀ p ∈ [(g1, t1), (g2, t2)], Genuine fChem fFive p.1 := by
    intro p hp
    simp only [List.mem_cons, List.not_mem_nil, or_false] at hp
    rcases hp with rfl | rfl
    · exact S.between.2 _ hg1
    · exact S.between.2 _ hg2
  refine ⟨out, gs, h, S, fOne, ⟨.inl rfl, rfl, rfl⟩, [(g1, t1), (g2, t2)], ⟨le_rfl, by norm_num, hG, ?_⟩, ?_, rfl, ?_, hno⟩
  · refine ⟨p1, fun z => ?_, p2, fun z => ?_, trivial⟩
    · show t1 * -amount g1 z ≤ heap fChem fA fB 0 z
      rw [mul_neg, v1, hh]
      split_ifs <;> norm_num
    · show t2 * -amount g2 z ≤ heap fChem fA fB 0 z + t1 * amount g1 z
      rw [mul_neg, v2, hh, v1]
      split_ifs with q1 q2 q3 <;> (try norm_num) <;> simp_all
  · intro p hp
    simp only [List.mem_cons, List.not_mem_nil, or_false] at hp
    rcases hp with rfl | rfl
    · exact hg1
    · exact hg2
  · rw [heat_eq S.distinct _ hG, fSum fun z => (List.map (fun p : CRxn (Fin 5) × ℚ => p.2 * amount p.1 z) [(g1, t1), (g2, t2)]).sum * en fChem z]
    have eA' : en fChem fA = 3 := by decide +kernel
    have eB' : en fChem fB = 3 := by decide +kernel
    have eP' : en fChem fP = 0 := by decide +kernel
    have eQ' : en fChem fQ = 0 := by decide +kernel
    have eR' : en fChem fR = 0 := by decide +kernel
    rw [eA', eB', eP', eQ', eR']
    simp only [List.map_cons, List.map_nil, List.sum_cons, List.sum_nil]
    have q1 : t1 * amount g1 fB = 1 / 3 := by rw [v1, if_neg n1.symm, if_pos (.inl rfl)]
    rw [c1, c2, q1, bA]
    norm_num

end Verif.Props.PathHull
