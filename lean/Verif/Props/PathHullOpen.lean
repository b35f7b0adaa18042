import Verif.Props.GroundStateOpen
import Verif.Props.PathHull

/-! Property C145 with an open element: no sequence of reactions between two phases in contact with a reservoir lies below the hull of their interface. -/

set_option linter.unusedSectionVars false

namespace Verif.Props.PathHullOpen
open Verif.Py Verif.Model Verif.Model.Enum Verif.Model.Reaction Verif.Spec.Reaction Verif.Spec.Carry Verif.Lemmas.Carry Verif.Lemmas.Exc Verif.Props.Enum
  Verif.Props.EnumGroup Verif.Props.BalanceLinear Verif.Props.EnumComplete Verif.Props.EnumExact Verif.Props.EnumOpenExact Verif.Lemmas.Conformal
  Verif.Props.GroundStateOpen
open Verif.Model.Hull (hullInit Built getHullEnergy)
open Verif.Props.HullConvex (LowerCorner Envelope Apart')
open Verif.Spec.Hull (HullIndices)
open Verif.Props.GroundState (Genuine OneEach Admits w m en neg amount genuine_sum genuine_kernel eA eB eAB exOne)
open Verif.Props.PathHull (enough sum_scale sum_kernel)

variable {κ : Type} [DecidableEq κ]

/-! ### Specification -/

/-- What a reaction makes of a phase, in formula units (negative: uses). The reservoir `O` provides and takes any amount. -/
def givesOpen (O : Entry κ) (g : CRxn κ) (z : Entry κ) : ℚ := if z = O then 0 else coeffOf g.entries g.base.coeffs z

/-- A mixture with one atom that is not exchanged, `x` of it in the phase `B` and the rest in `A`, in formula units. -/
def heapOpen (X : Chem κ Sym) (el : Sym) (A B : Entry κ) (x : ℚ) : Entry κ → ℚ := fun z =>
  (if z = A then (1 - x) / (X.natoms (X.red A.comp) - X.amt (X.red A.comp) el) else 0) +
    if z = B then x / (X.natoms (X.red B.comp) - X.amt (X.red B.comp) el) else 0

/-- The energies that the open reactions report at the potential `μ`, each as often as it is carried out. -/
def heatOpen (X : Chem κ Sym) (el : Sym) (μ : ℚ) : List (CRxn κ × ℚ) → Except Err ℚ
  | [] => .ok 0
  | p :: s => do
    let e ← oenergy X (toOpen X el μ p.1)
    let t ← heatOpen X el μ s
    pure (p.2 * e + t)

/-- From the mixture with the share `x` of `B`, in contact with the reservoir `O`, the reactions of phases of `entries` can be carried out one
after the other in these portions. -/
structure ProceedsOpen (X : Chem κ Sym) (entries : List (Entry κ)) (el : Sym) (O A B : Entry κ) (x : ℚ) (s : List (CRxn κ × ℚ)) : Prop where
  low : 0 ≤ x
  high : x ≤ 1
  genuine : ∀ p ∈ s, Genuine X entries p.1
  carried : CarriedOut (givesOpen O) (heapOpen X el A B x) s

/-! ### Helper lemmas -/

section
variable {X : Chem κ Sym} {cfg : Cfg (Entry κ)} {entries : List (Entry κ)} {n : ℤ} {el : Sym} {μ : ℚ} {O A B : Entry κ}
  {out out' : List (Rx (Entry κ))} {gs : List (CRxn κ)} {h : Built (ORxn κ Sym)}

theorem oenergy_eq (R : Reservoir X cfg entries el O A B) (μ : ℚ) {g : CRxn κ} (hg : Genuine X entries g) :
    oenergy X (toOpen X el μ g) = .ok (∑ z ∈ entries.toFinset, amount g z * ef X el (absolute X el O μ) O z) := by
  have hgn : (g.entries.map fun e => X.red e.comp).Nodup :=
    hg.nodup.map_on fun y hy z hz h => List.inj_on_of_nodup_map R.distinct (hg.mem y hy) (hg.mem z hz) h
  rw [← R.kernel_energy μ _ (genuine_kernel hg), ← genuine_sum hg]
  exact Verif.Props.PathEnergy.oenergy_distinct X _ _ _ _ _ hgn

theorem heatOpen_eq (R : Reservoir X cfg entries el O A B) (μ : ℚ) : ∀ (s : List (CRxn κ × ℚ)), (∀ p ∈ s, Genuine X entries p.1) →
    heatOpen X el μ s = .ok (∑ z ∈ entries.toFinset, (s.map fun p => p.2 * amount p.1 z).sum * ef X el (absolute X el O μ) O z)
  | [], _ => by simp [heatOpen]
  | p :: s, h => by
    unfold heatOpen
    rw [oenergy_eq R μ (h p List.mem_cons_self), heatOpen_eq R μ s fun q hq => h q (List.mem_cons_of_mem _ hq)]
    show Except.ok _ = _
    congr 1
    rw [Finset.mul_sum, ← Finset.sum_add_distrib]
    refine Finset.sum_congr rfl fun z _ => ?_
    rw [List.map_cons, List.sum_cons]
    ring

theorem heapOpen_nonneg (R : Reservoir X cfg entries el O A B) (x : ℚ) (h0 : 0 ≤ x) (h1 : x ≤ 1) (z : Entry κ) : 0 ≤ heapOpen X el A B x z := by
  have hA : 0 ≤ (1 - x) / (X.natoms (X.red A.comp) - X.amt (X.red A.comp) el) := div_nonneg (by linarith) R.moA.le
  have hB : 0 ≤ x / (X.natoms (X.red B.comp) - X.amt (X.red B.comp) el) := div_nonneg h0 R.moB.le
  unfold heapOpen
  split_ifs <;> linarith

theorem heapOpen_sum (R : Reservoir X cfg entries el O A B) (x : ℚ) (f : Entry κ → ℚ) :
    ∑ z ∈ entries.toFinset, heapOpen X el A B x z * f z = (1 - x) / mo X el A * f A + x / mo X el B * f B := by
  have : ∀ z ∈ entries.toFinset, heapOpen X el A B x z * f z = (if z = A then (1 - x) / mo X el A * f z else 0) + if z = B then x / mo X el B * f z else 0 := by
    intro z _
    unfold heapOpen mo m w
    rw [add_mul, ite_mul, ite_mul, zero_mul]
  rw [Finset.sum_congr rfl this, Finset.sum_add_distrib, Finset.sum_ite_eq', Finset.sum_ite_eq', if_pos (List.mem_toFinset.mpr R.inA),
    if_pos (List.mem_toFinset.mpr R.inB)]

/-- What happens to the reservoir counts for nothing. -/
theorem gives_sum (s : List (CRxn κ × ℚ)) (f : Entry κ → ℚ) (hf : f O = 0) (z : Entry κ) :
    (s.map fun p => p.2 * givesOpen O p.1 z).sum * f z = (s.map fun p => p.2 * amount p.1 z).sum * f z := by
  by_cases hz : z = O
  · rw [hz, hf, mul_zero, mul_zero]
  · congr 2
    exact List.map_congr_left fun p _ => by unfold givesOpen; rw [if_neg hz]; rfl

/-- A way of getting to a point of the hull. -/
structure WayOpen (X : Chem κ Sym) (entries : List (Entry κ)) (el : Sym) (μ : ℚ) (O A B : Entry κ) (gs : List (CRxn κ)) (x y : ℚ) (k : ℕ)
    (s : List (CRxn κ × ℚ)) : Prop where
  low : 0 ≤ x
  high : x ≤ 1
  short : s.length ≤ k
  mem : ∀ p ∈ s, p.1 ∈ gs
  pos : ∀ p ∈ s, (0 : ℚ) ≤ p.2
  stocked : ∀ z, (s.map fun p => p.2 * max 0 (-givesOpen O p.1 z)).sum ≤ heapOpen X el A B x z
  released : ∑ z ∈ entries.toFinset, (s.map fun p => p.2 * amount p.1 z).sum * ef X el (absolute X el O μ) O z = y

theorem way_near (S : OpenSetup X cfg entries n el μ O A B out out' gs h) {δ : ℚ} (hδ : OffOpen X el μ A B gs δ) (h0 : 0 ≤ δ) (p : ℚ × ℚ)
    (hp : p ∈ h.coords) : ∃ x s, |x - p.1| ≤ δ ∧ WayOpen X entries el μ O A B gs x p.2 1 s := by
  have R := S.phases
  rcases S.coords.2.2.2 p hp with rfl | rfl | ⟨g, hg, h1, h2⟩
  · exact ⟨0, [], by simpa using h0, le_rfl, by norm_num, by simp, by simp, by simp,
      fun z => by simpa using heapOpen_nonneg R 0 le_rfl (by norm_num) z, by simp⟩
  · exact ⟨1, [], by simpa using h0, by norm_num, le_rfl, by simp, by simp, by simp,
      fun z => by simpa using heapOpen_nonneg R 1 (by norm_num) le_rfl z, by simp⟩
  · have hG := S.between.2 g hg
    obtain ⟨hon, hN⟩ := S.pos g hg
    obtain ⟨r1, -⟩ := R.readings μ g hG hon
    have hd := hδ g hg _ h1
    rw [takenOpen_eq hG, takenOpen_eq hG] at hd
    set N := neg (amount g) A * mo X el A + neg (amount g) B * mo X el B with hNd
    have hA0 : 0 ≤ neg (amount g) A * mo X el A := mul_nonneg (le_max_left _ _) R.moA.le
    have hB0 : 0 ≤ neg (amount g) B * mo X el B := mul_nonneg (le_max_left _ _) R.moB.le
    refine ⟨neg (amount g) B * mo X el B / N, [(g, 1 / N)], by rw [abs_sub_comm]; exact hd, div_nonneg hB0 hN.le, by rw [div_le_one hN, hNd]; linarith, by simp,
      by simpa using hg, ?_, ?_, ?_⟩
    · intro q hq
      rw [List.mem_singleton.mp hq]
      exact one_div_nonneg.mpr hN.le
    · intro z
      simp only [List.map_cons, List.map_nil, List.sum_cons, List.sum_nil, add_zero]
      have eA : (1 - neg (amount g) B * mo X el B / N) / (X.natoms (X.red A.comp) - X.amt (X.red A.comp) el) = neg (amount g) A / N := by
        have h1 : 1 - neg (amount g) B * mo X el B / N = neg (amount g) A * mo X el A / N := by
          rw [eq_div_iff hN.ne', sub_mul, div_mul_cancel₀ _ hN.ne']; rw [hNd]; ring
        rw [h1, show X.natoms (X.red A.comp) - X.amt (X.red A.comp) el = mo X el A from rfl]
        have := R.moA.ne'
        field_simp
      have eB : neg (amount g) B * mo X el B / N / (X.natoms (X.red B.comp) - X.amt (X.red B.comp) el) = neg (amount g) B / N := by
        rw [show X.natoms (X.red B.comp) - X.amt (X.red B.comp) el = mo X el B from rfl]
        have := R.moB.ne'
        field_simp
      unfold heapOpen
      rw [eA, eB]
      have pA : 0 ≤ neg (amount g) A / N := div_nonneg (le_max_left _ _) hN.le
      have pB : 0 ≤ neg (amount g) B / N := div_nonneg (le_max_left _ _) hN.le
      by_cases hz : givesOpen O g z < 0
      · have hzO : z ≠ O := by rintro rfl; simp [givesOpen] at hz
        have hgz : givesOpen O g z = amount g z := by unfold givesOpen; rw [if_neg hzO]; rfl
        rw [hgz] at hz ⊢
        rcases hon z hz with rfl | rfl | rfl
        · rw [if_pos rfl, if_neg R.differ]; unfold neg; rw [one_div, inv_mul_eq_div, add_zero]
        · rw [if_neg (Ne.symm R.differ), if_pos rfl]; unfold neg; rw [one_div, inv_mul_eq_div, zero_add]
        · exact absurd rfl hzO
      · rw [max_eq_left (by linarith), mul_zero]
        split_ifs <;> linarith
    · rw [r1] at h2
      unfold perAtom at h2
      simp only at h2
      rw [if_neg hN.ne'] at h2
      rw [← Except.ok.inj h2, Finset.sum_div]
      refine Finset.sum_congr rfl fun z _ => ?_
      simp only [List.map_cons, List.map_nil, List.sum_cons, List.sum_nil, add_zero]
      ring

theorem way_mix {xa xb ya yb : ℚ} {ka kb : ℕ} {sa sb : List (CRxn κ × ℚ)} (ha : WayOpen X entries el μ O A B gs xa ya ka sa)
    (hb : WayOpen X entries el μ O A B gs xb yb kb sb) {t : ℚ} (t0 : 0 ≤ t) (t1 : t ≤ 1) :
    ∃ s, WayOpen X entries el μ O A B gs ((1 - t) * xa + t * xb) ((1 - t) * ya + t * yb) (ka + kb) s := by
  have t1' : 0 ≤ 1 - t := by linarith
  refine ⟨(sa.map fun p => (p.1, (1 - t) * p.2)) ++ sb.map fun p => (p.1, t * p.2), ?_, ?_, ?_, ?_, ?_, ?_, ?_⟩
  · have := mul_nonneg t1' ha.low
    have := mul_nonneg t0 hb.low
    linarith
  · have := mul_le_mul_of_nonneg_left ha.high t1'
    have := mul_le_mul_of_nonneg_left hb.high t0
    linarith
  · rw [List.length_append, List.length_map, List.length_map]
    exact add_le_add ha.short hb.short
  · intro p hp
    rcases List.mem_append.mp hp with hp | hp
    · obtain ⟨q, hq, rfl⟩ := List.mem_map.mp hp; exact ha.mem q hq
    · obtain ⟨q, hq, rfl⟩ := List.mem_map.mp hp; exact hb.mem q hq
  · intro p hp
    rcases List.mem_append.mp hp with hp | hp
    · obtain ⟨q, hq, rfl⟩ := List.mem_map.mp hp; exact mul_nonneg t1' (ha.pos q hq)
    · obtain ⟨q, hq, rfl⟩ := List.mem_map.mp hp; exact mul_nonneg t0 (hb.pos q hq)
  · intro z
    rw [List.map_append, List.sum_append, sum_scale (1 - t) (fun g => max 0 (-givesOpen O g z)), sum_scale t fun g => max 0 (-givesOpen O g z)]
    have e : heapOpen X el A B ((1 - t) * xa + t * xb) z = (1 - t) * heapOpen X el A B xa z + t * heapOpen X el A B xb z := by
      unfold heapOpen
      split_ifs <;> ring
    rw [e]
    have := mul_le_mul_of_nonneg_left (ha.stocked z) t1'
    have := mul_le_mul_of_nonneg_left (hb.stocked z) t0
    linarith
  · rw [← ha.released, ← hb.released, Finset.mul_sum, Finset.mul_sum, ← Finset.sum_add_distrib]
    refine Finset.sum_congr rfl fun z _ => ?_
    rw [List.map_append, List.sum_append, sum_scale (1 - t) (fun g => amount g z), sum_scale t fun g => amount g z]
    ring

theorem WayOpen.proceeds (S : OpenSetup X cfg entries n el μ O A B out out' gs h) {x y : ℚ} {k : ℕ} {s : List (CRxn κ × ℚ)}
    (hw : WayOpen X entries el μ O A B gs x y k s) : ProceedsOpen X entries el O A B x s ∧ heatOpen X el μ s = .ok y := by
  have hG : ∀ p ∈ s, Genuine X entries p.1 := fun p hp => S.between.2 _ (hw.mem p hp)
  refine ⟨⟨hw.low, hw.high, hG, enough _ s _ hw.pos hw.stocked⟩, ?_⟩
  rw [heatOpen_eq S.phases μ s hG, hw.released]

theorem way_hull (S : OpenSetup X cfg entries n el μ O A B out out' gs h) {δ : ℚ} (hδ : OffOpen X el μ A B gs δ) (hδ0 : 0 ≤ δ) (raw : List ℕ)
    (H : HullIndices h.coords raw) (hap : Apart' h.coords) (x : ℚ) (h0 : 0 ≤ x) (h1 : x ≤ 1)
    (hsep : ∀ p, LowerCorner h.coords p → Verif.Py.isclose x p.1 = true → x = p.1) :
    ∃ y, getHullEnergy ⟨h.coords, raw⟩ x = some y ∧ ∃ x' s, |x' - x| ≤ δ ∧ WayOpen X entries el μ O A B gs x' y 2 s := by
  obtain ⟨ident, argsort, hs, hh⟩ := S.hull
  obtain ⟨vs, G, hvs⟩ := Verif.Props.HullInit.C92_lower_hull _ _ _ _ _ _ hs _ _ _ h hh S.range raw H hap
  obtain ⟨y, hy, hch⟩ := Verif.Lemmas.Hull.hullEnergy_spec G h0 h1 (fun v hv => hsep v ((hvs v).mp hv))
  obtain ⟨a, b, hab, g1, g2, g3⟩ := hch
  have hlt := Verif.Lemmas.Hull.adjacent_lt G.lower.strict hab
  have ha : a ∈ vs := by obtain ⟨l, r, rfl⟩ := hab; simp
  have hb : b ∈ vs := by obtain ⟨l, r, rfl⟩ := hab; simp
  have hd : 0 < b.1 - a.1 := sub_pos.mpr hlt
  unfold Verif.Spec.Hull.OnLine at g3
  simp only at g1 g2 g3
  have hx : x = (1 - (x - a.1) / (b.1 - a.1)) * a.1 + (x - a.1) / (b.1 - a.1) * b.1 := by field_simp; ring
  have hyv : y = (1 - (x - a.1) / (b.1 - a.1)) * a.2 + (x - a.1) / (b.1 - a.1) * b.2 := by
    field_simp
    linarith
  have t0 : 0 ≤ (x - a.1) / (b.1 - a.1) := div_nonneg (by linarith) hd.le
  have t1 : (x - a.1) / (b.1 - a.1) ≤ 1 := by rw [div_le_one hd]; linarith
  refine ⟨y, hy, ?_⟩
  obtain ⟨xa, sa, ea, ma⟩ := way_near S hδ hδ0 a ((hvs a).mp ha).1
  obtain ⟨xb, sb, eb, mb⟩ := way_near S hδ hδ0 b ((hvs b).mp hb).1
  obtain ⟨s, hmix⟩ := way_mix ma mb t0 t1
  rw [← hyv] at hmix
  refine ⟨_, s, ?_, hmix⟩
  generalize (x - a.1) / (b.1 - a.1) = t' at hx t0 t1
  have e1 : (1 - t') * xa + t' * xb - x = (1 - t') * (xa - a.1) + t' * (xb - b.1) := by
    conv_lhs => rw [hx]
    ring
  rw [e1]
  refine (abs_add_le _ _).trans ?_
  rw [abs_mul, abs_mul, abs_of_nonneg (sub_nonneg.mpr t1), abs_of_nonneg t0]
  have := mul_le_mul_of_nonneg_left ea (sub_nonneg.mpr t1)
  have := mul_le_mul_of_nonneg_left eb t0
  linarith

/-! ### Property C145 with an open element -/

/-- **C145, energies add up with an open element.** Whatever reactions are carried out in contact with the reservoir, in whatever order and
portions, the energies that they report at the potential `μ` add up to the change of the grand potential, the reservoir being at the potential `μ`
counted from the energy of the pure element. -/
theorem C145_open_energy (R : Reservoir X cfg entries el O A B) (μ x : ℚ) (s : List (CRxn κ × ℚ)) (hs : ProceedsOpen X entries el O A B x s) :
    ∃ e, heatOpen X el μ s = .ok e ∧ OpenMixes X (solids entries O) el (absolute X el O μ) A B x e := by
  refine ⟨_, heatOpen_eq R μ s hs.genuine, ?_⟩
  rw [R.mixes_iff]
  have hl : ∀ f : Entry κ → ℚ, f O = 0 → ∑ z ∈ entries.toFinset, left (givesOpen O) (heapOpen X el A B x) s z * f z
      = ((1 - x) / mo X el A * f A + x / mo X el B * f B) + ∑ z ∈ entries.toFinset, (s.map fun p => p.2 * amount p.1 z).sum * f z := by
    intro f hf
    rw [← heapOpen_sum R, ← Finset.sum_add_distrib]
    refine Finset.sum_congr rfl fun z _ => ?_
    rw [left_eq, add_mul, gives_sum s f hf]
  refine ⟨hs.low, hs.high, left (givesOpen O) (heapOpen X el A B x) s, carried_nonneg _ s _ (heapOpen_nonneg R x hs.low hs.high) hs.carried,
    fun c hc => ?_, ?_⟩
  · rw [hl _ (R.wO' c hc), sum_kernel c s hs.genuine, add_zero]
  · rw [hl _ (by simp [ef])]; ring

/-- **C145, never below the hull with an open element.** From no mixture of `A` and `B` in contact with the reservoir can any reactions of the phases,
carried out one after the other in any portions, release more energy than the lower hull at the potential `μ` shows at a mixture within 5e-13. -/
theorem C145_open_never_below_partial (S : OpenSetup X cfg entries n el μ O A B out out' gs h) (hO : OneEach X entries) (hA : Admits cfg A B)
    (hR : RoomyOpen X el A B n) (x : ℚ) (s : List (CRxn κ × ℚ)) (hs : ProceedsOpen X entries el O A B x s) :
    ∃ e, heatOpen X el μ s = .ok e ∧ ∃ x', |x' - x| ≤ 1 / (2 * 10 ^ 12) ∧ 0 ≤ x' ∧ x' ≤ 1 ∧ ∀ y, Envelope h.coords x' y → y ≤ e := by
  obtain ⟨e, he, hm⟩ := C145_open_energy S.phases μ x s hs
  exact ⟨e, he, C139_no_lower_partial S hO hA hR x e hm⟩

/-- **C145, two reactions are enough with an open element.** The hull energy at `x` is released by carrying out at most two of the enumerated
reactions, from a mixture within 5e-13 of `x`. -/
theorem C145_open_two_reactions (S : OpenSetup X cfg entries n el μ O A B out out' gs h) (raw : List ℕ)
    (H : HullIndices h.coords raw) (hap : Apart' h.coords) (x : ℚ) (h0 : 0 ≤ x) (h1 : x ≤ 1)
    (hsep : ∀ p, LowerCorner h.coords p → Verif.Py.isclose x p.1 = true → x = p.1) :
    ∃ y, getHullEnergy ⟨h.coords, raw⟩ x = some y ∧ ∃ x' s, |x' - x| ≤ 1 / (2 * 10 ^ 12) ∧ ProceedsOpen X entries el O A B x' s ∧ s.length ≤ 2 ∧
      (∀ p ∈ s, p.1 ∈ gs) ∧ heatOpen X el μ s = .ok y := by
  obtain ⟨y, hy, x', s, hx, hw⟩ := way_hull S S.off (by norm_num) raw H hap x h0 h1 hsep
  obtain ⟨k1, k2⟩ := hw.proceeds S
  exact ⟨y, hy, x', s, hx, k1, hw.short, hw.mem, k2⟩

/-- **C145, the best sequence with an open element.** If rounding does not change the coordinates, at most two of the enumerated reactions release the
hull energy at `x` from the mixture, and no reactions whatever in contact with the reservoir, in any order and portions, release more. -/
theorem C145_open_best (S : OpenSetup X cfg entries n el μ O A B out out' gs h) (hO : OneEach X entries) (hA : Admits cfg A B)
    (hR : RoomyOpen X el A B n) (hex : OffOpen X el μ A B gs 0) (raw : List ℕ) (H : HullIndices h.coords raw) (hap : Apart' h.coords)
    (x : ℚ) (h0 : 0 ≤ x) (h1 : x ≤ 1) (hsep : ∀ p, LowerCorner h.coords p → Verif.Py.isclose x p.1 = true → x = p.1) :
    ∃ y, getHullEnergy ⟨h.coords, raw⟩ x = some y ∧
      (∃ s, ProceedsOpen X entries el O A B x s ∧ s.length ≤ 2 ∧ (∀ p ∈ s, p.1 ∈ gs) ∧ heatOpen X el μ s = .ok y) ∧
      ∀ s, ProceedsOpen X entries el O A B x s → ∃ e, heatOpen X el μ s = .ok e ∧ y ≤ e := by
  obtain ⟨y, hy, x', s, hx, hw⟩ := way_hull S hex le_rfl raw H hap x h0 h1 hsep
  have : x' = x := by have := abs_nonpos_iff.mp hx; linarith
  subst this
  obtain ⟨k1, k2⟩ := hw.proceeds S
  refine ⟨y, hy, ⟨s, k1, hw.short, hw.mem, k2⟩, fun s' hs' => ?_⟩
  obtain ⟨e, he, hm⟩ := C145_open_energy S.phases μ x' s' hs'
  obtain ⟨y', hy', hl⟩ := C139_ground_state S hO hA hR hex raw H hap x' h0 h1 hsep
  rw [hy] at hy'
  cases hy'
  exact ⟨e, he, hl.2 hm⟩

/-- **C145, inert interfaces with an open element.** If no reaction of the hull releases energy, no reactions carried out one after the other in contact
with the reservoir do, from any mixture; and otherwise one reaction does. -/
theorem C145_open_inert (S : OpenSetup X cfg entries n el μ O A B out out' gs h) (hO : OneEach X entries) (hA : Admits cfg A B)
    (hR : RoomyOpen X el A B n) :
    ((∃ p ∈ h.coords, p.2 < 0) → ∃ x g t e, g ∈ gs ∧ ProceedsOpen X entries el O A B x [(g, t)] ∧ heatOpen X el μ [(g, t)] = .ok e ∧ e < 0) ∧
    ((¬ ∃ p ∈ h.coords, p.2 < 0) → ∀ x s, ProceedsOpen X entries el O A B x s → ∃ e, heatOpen X el μ s = .ok e ∧ 0 ≤ e) := by
  constructor
  · rintro ⟨p, hp, hlt⟩
    obtain ⟨x, s, -, hw⟩ := way_near S S.off (by norm_num) p hp
    obtain ⟨k1, k2⟩ := hw.proceeds S
    match s, hw, k1, k2 with
    | [], _, _, k2 => simp only [heatOpen, Except.ok.injEq] at k2; linarith
    | [q], hw, k1, k2 => exact ⟨x, q.1, q.2, p.2, hw.mem q List.mem_cons_self, k1, k2, hlt⟩
    | _ :: _ :: _, hw, _, _ => have := hw.short; simp at this
  · intro hno x s hs
    obtain ⟨e, he, hm⟩ := C145_open_energy S.phases μ x s hs
    refine ⟨e, he, ?_⟩
    by_contra hc
    exact hno ((C139_inert S hO hA hR).mpr ⟨x, e, hm, not_le.mp hc⟩)

end

/-! ### Example: B and AB in contact with a reservoir of A -/

/-- Half way between B and AB at the potential -1/2, B takes up A from the reservoir; this releases 1/4, and nothing releases more. -/
example : ∃ out out' gs h raw, OpenSetup exChem exOpen exThree 2 ['A'] (-1 / 2) eA eB eAB out out' gs h ∧
    getHullEnergy ⟨h.coords, raw⟩ (1 / 2) = some (-1 / 4) ∧
    (∃ s, ProceedsOpen exChem exThree ['A'] eA eB eAB (1 / 2) s ∧ s.length ≤ 2 ∧ (∀ p ∈ s, p.1 ∈ gs) ∧ heatOpen exChem ['A'] (-1 / 2) s = .ok (-1 / 4)) ∧
    (∀ s, ProceedsOpen exChem exThree ['A'] eA eB eAB (1 / 2) s → ∃ e, heatOpen exChem ['A'] (-1 / 2) s = .ok e ∧ -1 / 4 ≤ e) ∧
    (∃ x g t e, g ∈ gs ∧ ProceedsOpen exChem exThree ['A'] eA eB eAB x [(g, t)] ∧ heatOpen exChem ['A'] (-1 / 2) [(g, t)] = .ok e ∧ e < 0) ∧
    (∃ x' s, |x' - 1 / 2| ≤ 1 / (2 * 10 ^ 12) ∧ ProceedsOpen exChem exThree ['A'] eA eB eAB x' s ∧ s.length ≤ 2 ∧ (∀ p ∈ s, p.1 ∈ gs) ∧
      heatOpen exChem ['A'] (-1 / 2) s = .ok (-1 / 4)) ∧
    ∃ e, heatOpen exChem ['A'] (-1 / 2) [] = .ok e ∧ ∃ x', |x' - 1 / 2| ≤ 1 / (2 * 10 ^ 12) ∧ 0 ≤ x' ∧ x' ≤ 1 ∧ ∀ y, Envelope h.coords x' y → y ≤ e := by
  obtain ⟨out, out', gs, h, S, hoff, hm⟩ := exOpenSetup
  obtain ⟨y, hy, hE, -⟩ := C139_attained S _ (exOpen_indices _ hm) (exOpen_apart _ hm) (1 / 2) (by norm_num) (by norm_num) (exOpen_sep _ hm)
  have he : y = -1 / 4 := by
    obtain ⟨⟨s, t, hst, hey⟩, hmax⟩ := hE
    have a1 := hst (0, -1 / 2) ((hm _).mpr (by decide +kernel))
    have a2 := hst (1, 0) ((hm _).mpr (by decide +kernel))
    have a3 := hmax (1 / 2) (-1 / 2) fun q hq => by
      have : ∀ q ∈ exPts, 1 / 2 * q.1 + -1 / 2 ≤ q.2 := by decide +kernel
      exact this q ((hm q).mp hq)
    simp only at a1 a2
    linarith
  subst he
  obtain ⟨y1, hy1, b1, b2⟩ := C145_open_best S exOne exAdmitsOpen exRoomyOpen hoff _ (exOpen_indices _ hm) (exOpen_apart _ hm) (1 / 2) (by norm_num)
    (by norm_num) (exOpen_sep _ hm)
  obtain ⟨y2, hy2, c1⟩ := C145_open_two_reactions S _ (exOpen_indices _ hm) (exOpen_apart _ hm) (1 / 2) (by norm_num) (by norm_num) (exOpen_sep _ hm)
  rw [hy] at hy1 hy2
  cases hy1
  cases hy2
  exact ⟨out, out', gs, h, _, S, hy, b1, b2,
    (C145_open_inert S exOne exAdmitsOpen exRoomyOpen).1 ⟨(0, -1 / 2), (hm _).mpr (by decide +kernel), by norm_num⟩, c1,
    C145_open_never_below_partial S exOne exAdmitsOpen exRoomyOpen (1 / 2) [] ⟨by norm_num, by norm_num, by simp, trivial⟩⟩

end Verif.Props.PathHullOpen
