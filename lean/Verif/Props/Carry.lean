import Mathlib.Algebra.Order.BigOperators.Group.Finset
import Verif.Lemmas.Carry
import Verif.Props.Pathway
import Verif.Props.Solver

/-! Property C137: a solved pathway can be carried out with the amounts of its net reaction. -/

set_option linter.unusedSectionVars false

namespace Verif.Props.Carry
open Verif.Py Verif.Model.RxnSet Verif.Model.Pathway Verif.Model.Solver Verif.Lemmas Verif.Lemmas.Carry Verif.Spec.Carry Verif.Spec.Pathway
  Verif.Spec.Solver Verif.Spec.RxnSet Verif.Props.Solver Verif.Props.Utils

variable {η δ ε κ : Type} [DecidableEq κ] [DecidableEq η] [DecidableEq δ] [DecidableEq ε]

/-! ### Specification -/

/-- What the reaction makes of the phase (negative: uses). -/
def makesOf (r : SRxn η δ ε) (e : η) : ℚ := amount (pairs r) e

/-- The phases that the reaction uses, and those that it makes. -/
def uses (r : SRxn η δ ε) : Finset η := r.entries.toFinset.filter fun e => makesOf r e < 0
def makes (r : SRxn η δ ε) : Finset η := r.entries.toFinset.filter fun e => 0 < makesOf r e

/-- Exactly the reactants of the net reaction, in its amounts. -/
def stock (net : SRxn η δ ε) : η → ℚ := fun e => max 0 (-makesOf net e)

/-- What the pathway `rs` with multiplicities `ms` makes of a phase in all. -/
def sumOf (rs : List (SRxn η δ ε)) (ms : List ℚ) (e : η) : ℚ := total (rs.map pairs) ms e

/-- From the stock `m`, the reactions `rs` can be carried out in portions, `w r` times each, all but the fraction `rest`. -/
def UpTo (m : η → ℚ) (w : SRxn η δ ε → ℚ) (rest : ℚ) : Prop :=
  ∃ s : List (SRxn η δ ε × ℚ), CarriedOut makesOf m s ∧ ∀ r, (1 - rest) * w r ≤ times s r ∧ times s r ≤ w r

/-- The check for interdependence looks at compositions: `comp e` is the composition of the phase `e`, different phases have different
compositions, and the precursors are the reactants of the net reaction. -/
structure ByComp (c : Config η δ ε κ) (comp : η → κ) (net : SRxn η δ ε) (precursors : Finset κ) : Prop where
  inj : Function.Injective comp
  reactants : ∀ r, c.R r = (uses r).image comp
  products : ∀ r, c.P r = (makes r).image comp
  precursors : precursors = (uses net).image comp

/-! ### Helper lemmas -/

theorem amount_entries (r : SRxn η δ ε) (e : η) (h : makesOf r e ≠ 0) : e ∈ r.entries.toFinset := by
  by_contra hc
  apply h
  apply amount_not_mem
  intro hm
  obtain ⟨p, hp, rfl⟩ := List.mem_map.mp hm
  exact hc (List.mem_toFinset.mpr (List.of_mem_zip hp).1)

theorem uses_iff (r : SRxn η δ ε) (e : η) : e ∈ uses r ↔ makesOf r e < 0 := by
  unfold uses
  rw [Finset.mem_filter]
  exact ⟨fun h => h.2, fun h => ⟨amount_entries r e (ne_of_lt h), h⟩⟩

theorem makes_iff (r : SRxn η δ ε) (e : η) : e ∈ makes r ↔ 0 < makesOf r e := by
  unfold makes
  rw [Finset.mem_filter]
  exact ⟨fun h => h.2, fun h => ⟨amount_entries r e (ne_of_gt h), h⟩⟩

theorem sumOf_zip (e : η) : ∀ (rs : List (SRxn η δ ε)) (ms : List ℚ),
    sumOf rs ms e = ((rs.zip ms).map fun p => p.2 * makesOf p.1 e).sum
  | [], ms => by simp [sumOf, total]
  | r :: rs, [] => by simp [sumOf, total]
  | r :: rs, m :: ms => by
    have := sumOf_zip e rs ms
    unfold sumOf total at this ⊢
    simp only [List.map_cons, List.zipWith_cons_cons, List.zip_cons_cons, List.sum_cons, this]
    rfl

/-- The total, grouped by reaction. -/
theorem sumOf_times (rs : List (SRxn η δ ε)) (ms : List ℚ) (e : η) (S : Finset (SRxn η δ ε)) (hS : ∀ r ∈ rs, r ∈ S) :
    sumOf rs ms e = ∑ r ∈ S, times (rs.zip ms) r * makesOf r e := by
  rw [sumOf_zip]
  exact sum_times makesOf e S _ fun p hp => hS _ (List.of_mem_zip hp).1

theorem times_zip_pos (rs : List (SRxn η δ ε)) (ms : List ℚ) (hlen : ms.length = rs.length) (hpos : ∀ m ∈ ms, 0 < m) (r : SRxn η δ ε) (hr : r ∈ rs) :
    0 < times (rs.zip ms) r := by
  rw [times_pos_iff _ fun p hp => (hpos _ (List.of_mem_zip hp).2).le]
  obtain ⟨i, hi, rfl⟩ := List.mem_iff_getElem.mp hr
  have hi' : i < (rs.zip ms).length := by rw [List.length_zip]; omega
  refine ⟨(rs.zip ms)[i], List.getElem_mem hi', by rw [List.getElem_zip], ?_⟩
  rw [List.getElem_zip]
  exact hpos _ (List.getElem_mem _)

theorem times_zip_zero (rs : List (SRxn η δ ε)) (ms : List ℚ) (r : SRxn η δ ε) (hr : r ∉ rs) : times (rs.zip ms) r = 0 := by
  apply times_not_mem
  intro hc
  obtain ⟨p, hp, rfl⟩ := List.mem_map.mp hc
  exact hr (List.of_mem_zip hp).1

theorem exec_image {ρ : Type} (comp : η → κ) (hinj : Function.Injective comp) (R P : ρ → Finset η) : ∀ (l : List ρ) (A : Finset η),
    Exec (fun r => (R r).image comp) (fun r => (P r).image comp) (A.image comp) l → Exec R P A l
  | [], _, _ => trivial
  | r :: l, A, h => by
    refine ⟨(Finset.image_subset_image_iff hinj).mp h.1, exec_image comp hinj R P l _ ?_⟩
    rw [Finset.image_union]
    exact h.2

/-! ### Which pathways can be carried out -/

/-- **C137, what executability means in amounts.** Reactions with positive multiplicities whose total can be covered by the stock: they can
be carried out in portions up to an arbitrarily small rest exactly if they can be ordered so that each uses only what is in stock or
made earlier. -/
theorem C137_realisable_iff (rs : List (SRxn η δ ε)) (ms : List ℚ) (hlen : ms.length = rs.length) (hpos : ∀ m ∈ ms, 0 < m) (m : η → ℚ) (ps : Finset η)
    (h0 : ∀ e, 0 ≤ m e) (hps : ∀ e, e ∈ ps ↔ 0 < m e) (hend : ∀ e, 0 ≤ m e + sumOf rs ms e) :
    Executable uses makes ps rs ↔ ∀ rest : ℚ, 0 < rest → UpTo m (times (rs.zip ms)) rest := by
  constructor
  · rintro ⟨l, hl, hmem, hex⟩ rest hrest
    have key : ∀ rest : ℚ, 0 < rest → rest ≤ 1 → UpTo m (times (rs.zip ms)) rest := by
      intro rest hrest hrest1
      obtain ⟨s, h1, h2, h3⟩ := almost makesOf uses makes uses_iff makes_iff l hl ps hex m h0 (fun x hx => (hps x).mp hx)
        (times (rs.zip ms)) (fun r hr => times_zip_pos rs ms hlen hpos r ((hmem r).mp hr)) (fun x => by
          rw [← List.sum_toFinset _ hl, ← sumOf_times rs ms x l.toFinset fun r hr => List.mem_toFinset.mpr ((hmem r).mpr hr)]
          exact hend x) rest hrest hrest1
      refine ⟨s, h1, fun r => ?_⟩
      by_cases hr : r ∈ l
      · exact h2 r hr
      · rw [h3 r hr, times_zip_zero rs ms r fun hc => hr ((hmem r).mpr hc)]
        simp
    rcases le_or_gt rest 1 with h | h
    · exact key rest hrest h
    · obtain ⟨s, h1, h2⟩ := key 1 one_pos (le_refl _)
      refine ⟨s, h1, fun r => ⟨le_trans ?_ (h2 r).1, (h2 r).2⟩⟩
      have hw : 0 ≤ times (rs.zip ms) r := times_nonneg _ (fun p hp => (hpos _ (List.of_mem_zip hp).2).le) r
      nlinarith
  · intro h
    obtain ⟨s, h1, h2⟩ := h (1 / 2) (by norm_num)
    refine executable makesOf uses makes uses_iff makes_iff rs ps m (fun x hx => (hps x).mpr hx) s h1 fun r => ?_
    constructor
    · intro hr
      by_contra hc
      have := (h2 r).2
      rw [times_zip_zero rs ms r hc] at this
      linarith
    · intro hr
      have h3 := times_zip_pos rs ms hlen hpos r hr
      have := (h2 r).1
      linarith

/-- **C137, complete conversion.** They can be carried out without any rest exactly if in addition the reversed reactions can be ordered so
that each uses only what is there at the end or given back earlier. -/
theorem C137_complete_iff (rs : List (SRxn η δ ε)) (ms : List ℚ) (hlen : ms.length = rs.length) (hpos : ∀ m ∈ ms, 0 < m) (m : η → ℚ) (ps ts : Finset η)
    (h0 : ∀ e, 0 ≤ m e) (hps : ∀ e, e ∈ ps ↔ 0 < m e) (hend : ∀ e, 0 ≤ m e + sumOf rs ms e) (hts : ∀ e, e ∈ ts ↔ 0 < m e + sumOf rs ms e) :
    (∃ s : List (SRxn η δ ε × ℚ), CarriedOut makesOf m s ∧ ∀ r, times s r = times (rs.zip ms) r) ↔
      Executable uses makes ps rs ∧ Executable makes uses ts rs := by
  have hsum : ∀ l : List (SRxn η δ ε), l.Nodup → (∀ r, r ∈ l ↔ r ∈ rs) → ∀ x,
      (l.map fun r => times (rs.zip ms) r * makesOf r x).sum = sumOf rs ms x := by
    intro l hl hmem x
    rw [← List.sum_toFinset _ hl, ← sumOf_times rs ms x l.toFinset fun r hr => List.mem_toFinset.mpr ((hmem r).mpr hr)]
  have hpos' : ∀ s : List (SRxn η δ ε × ℚ), (∀ r, times s r = times (rs.zip ms) r) → ∀ r, 0 < times s r ↔ r ∈ rs := by
    intro s h r
    rw [h]
    refine ⟨fun hr => ?_, times_zip_pos rs ms hlen hpos r⟩
    by_contra hc
    rw [times_zip_zero rs ms r hc] at hr
    exact lt_irrefl _ hr
  constructor
  · rintro ⟨s, h1, h2⟩
    refine ⟨executable makesOf uses makes uses_iff makes_iff rs ps m (fun x hx => (hps x).mpr hx) s h1 (hpos' s h2), ?_⟩
    obtain ⟨u1, _⟩ := undo makesOf s m h0 h1
    refine executable (fun r x => -makesOf r x) makes uses (fun r x => by rw [makes_iff]; simp) (fun r x => by rw [uses_iff]; simp) rs ts
      (left makesOf m s) (fun x hx => (hts x).mpr ?_) s.reverse u1 (fun r => by rw [times_reverse]; exact hpos' s h2 r)
    by_cases hall : ∀ p ∈ s, p.1 ∈ rs
    · rw [left_eq, sum_times makesOf x rs.toFinset s (fun p hp => List.mem_toFinset.mpr (hall p hp))] at hx
      rw [sumOf_times rs ms x rs.toFinset fun r hr => List.mem_toFinset.mpr hr]
      simpa only [h2] using hx
    · -- portions of other reactions are empty
      set S : Finset (SRxn η δ ε) := rs.toFinset ∪ (s.map Prod.fst).toFinset with hS
      rw [left_eq, sum_times makesOf x S s (fun p hp => Finset.mem_union_right _ (List.mem_toFinset.mpr (List.mem_map.mpr ⟨p, hp, rfl⟩)))] at hx
      rw [sumOf_times rs ms x S fun r hr => Finset.mem_union_left _ (List.mem_toFinset.mpr hr)]
      simpa only [h2] using hx
  · rintro ⟨⟨l, hl, hmem, hex⟩, l', hl', hmem', hex'⟩
    obtain ⟨s, h1, h2⟩ := complete makesOf uses makes uses_iff makes_iff l l' hl hl' (fun r => (hmem r).trans (hmem' r).symm) ps ts hex hex' m h0
      (fun x hx => (hps x).mp hx) (times (rs.zip ms)) (fun r hr => times_zip_pos rs ms hlen hpos r ((hmem r).mp hr))
      (fun x => by rw [hsum l hl hmem]; exact hend x) (fun x hx => by rw [hsum l hl hmem]; exact (hts x).mp hx)
    refine ⟨s, h1, fun r => ?_⟩
    rw [h2]
    split_ifs with hr
    · rfl
    · rw [times_zip_zero rs ms r fun hc => hr ((hmem r).mpr hc)]

/-- A pathway that is not flagged and makes at least what the net reaction says can be ordered. -/
theorem unflagged_executable (c : Config η δ ε κ) (ho : SetOrder c.order) (comp : η → κ) (net : SRxn η δ ε) (precursors : Finset κ)
    (hc : ByComp c comp net precursors) (rs : List (SRxn η δ ε)) (ms : List ℚ) (hlen : ms.length = rs.length) (hpos : ∀ m ∈ ms, 0 < m)
    (hsum : ∀ e, makesOf net e ≤ sumOf rs ms e) (hf : interdependent c.order c.R c.P precursors rs = false) :
    Executable uses makes (uses net) rs := by
  have hS : Supplied c.R c.P precursors rs := by
    intro r hr x hx hxp
    rw [hc.reactants] at hx
    obtain ⟨e, he, rfl⟩ := Finset.mem_image.mp hx
    have hne : 0 ≤ makesOf net e := by
      by_contra hlt
      push Not at hlt
      apply hxp
      rw [hc.precursors]
      exact Finset.mem_image_of_mem _ ((uses_iff net e).mpr hlt)
    by_contra hno
    push Not at hno
    have h1 := sumOf_times rs ms e rs.toFinset fun r hr => List.mem_toFinset.mpr hr
    rw [← Finset.add_sum_erase _ _ (List.mem_toFinset.mpr hr)] at h1
    have h2 : ∑ r' ∈ rs.toFinset.erase r, times (rs.zip ms) r' * makesOf r' e ≤ 0 := by
      apply Finset.sum_nonpos
      intro r' hr'
      rw [Finset.mem_erase, List.mem_toFinset] at hr'
      have h3 := hno r' hr'.2 hr'.1
      rw [hc.products] at h3
      have h4 : ¬ 0 < makesOf r' e := fun h => h3 (Finset.mem_image_of_mem _ ((makes_iff r' e).mpr h))
      exact mul_nonpos_of_nonneg_of_nonpos (times_zip_pos rs ms hlen hpos r' hr'.2).le (not_lt.mp h4)
    have h5 : times (rs.zip ms) r * makesOf r e < 0 := mul_neg_of_pos_of_neg (times_zip_pos rs ms hlen hpos r hr) ((uses_iff r e).mp he)
    have := hsum e
    linarith
  obtain ⟨l, h1, h2, h3⟩ := Verif.Props.Pathway.C54_executable c.order ho c.R c.P precursors rs hS hf
  refine ⟨l, h1, h2, exec_image comp hc.inj uses makes l _ ?_⟩
  rw [← hc.precursors]
  rw [← funext hc.reactants, ← funext hc.products]
  exact h3

theorem stock_pos (net : SRxn η δ ε) (e : η) : e ∈ uses net ↔ 0 < stock net e := by
  rw [uses_iff]
  unfold stock
  rw [lt_max_iff]
  simp

/-- **C137 (partial: for multiplicities that make at least what the net reaction says, not only up to the tolerance of C56; without the
remainder, see `C137_unfinished_violated`; phases with different compositions).** Every pathway the solver returns with the filter on can be
carried out, starting with nothing but the reactants of the net reaction in its amounts, in portions that never take more than is there,
up to an arbitrarily small rest. -/
theorem C137_carried_out_partial (c : Config η δ ε κ) (hw₁ : ∀ k, WaitSpec (c.wait₁ k)) (hw₂ : ∀ i, WaitSpec (c.wait₂ i))
    (hpick : ∀ l, ∀ q ∈ c.pick l, q ∈ l) (hpinv : ∀ mat v m, c.pinv mat v = .ok m → m.length = mat.length) (ho : SetOrder c.order)
    (hE : c.entries.Nodup) (balanced : Bool) (inClean : List (SRxn η δ ε × ℚ) → SRxn η δ ε → Bool)
    (paths : List (Path (SRxn η δ ε))) (inter : List (SRxn η δ ε × ℚ)) (net : SRxn η δ ε) (precursors : Finset κ)
    (maxCombos : ℕ) (hwi : InputsIndexed c paths inter) (comp : η → κ) (hc : ByComp c comp net precursors)
    (out : List (Path (SRxn η δ ε)))
    (h : solve c balanced inClean paths inter net precursors maxCombos true = .ok out) :
    ∀ p ∈ out, ∃ ms, p.coefficients = some ms ∧ ms.length = p.reactions.length ∧ (∀ m ∈ ms, 0 < m) ∧
      ((∀ e, makesOf net e ≤ sumOf p.reactions ms e) → ∀ rest : ℚ, 0 < rest → UpTo (stock net) (times (p.reactions.zip ms)) rest) := by
  obtain ⟨netV, cleaned, hn, hcl, hall⟩ := solve_sound c hw₁ hw₂ hpick balanced inClean paths inter net precursors maxCombos
    true out h
  intro p hp
  obtain ⟨hflag, x, ⟨combo, hcs, _, _, hmat, _, hpv, hacc⟩, hpf⟩ := hall p hp
  have hsubc : ∀ r ∈ cleaned.map Prod.fst, WellIndexed c r := by
    intro r hr
    obtain ⟨a, ha, rfl⟩ := List.mem_map.mp hr
    unfold clean at hcl
    split at hcl
    · simp at hcl
    · simp only [Except.ok.injEq] at hcl
      rw [← hcl] at ha
      exact cands_indexed c paths inter hwi a (List.mem_filter.mp ha).1
  obtain ⟨h1, h1', steps, _, _, h3, h4⟩ := pathFrom_rows c hE _ cleaned hsubc combo hcs x hmat p hpf
  rw [accepted_iff] at hacc
  have hlen : x.2.length = p.reactions.length := by
    rw [hpinv _ _ _ hpv, h3.length_eq]
  have hpos : ∀ m ∈ x.2, 0 < m := fun m hm => lt_of_lt_of_le (by norm_num) (hacc.1 m hm)
  refine ⟨x.2, h1, hlen, hpos, fun hsum => ?_⟩
  refine (C137_realisable_iff p.reactions x.2 hlen hpos (stock net) (uses net) (fun e => le_max_left _ _) (stock_pos net) (fun e => ?_)).mp
    (unflagged_executable c ho comp net precursors hc p.reactions x.2 hlen hpos hsum (hflag rfl))
  have h5 := hsum e
  have h6 : -makesOf net e ≤ stock net e := le_max_right _ _
  linarith

/-- **C137, the yield.** Portions that carry out a pathway up to the fraction `rest` leave what the stock and the totals of the pathway say,
up to that fraction of what is turned over. -/
theorem C137_yield (rs : List (SRxn η δ ε)) (ms : List ℚ) (hpos : ∀ m ∈ ms, 0 < m) (m : η → ℚ) (rest : ℚ)
    (s : List (SRxn η δ ε × ℚ)) (ht : ∀ r, (1 - rest) * times (rs.zip ms) r ≤ times s r ∧ times s r ≤ times (rs.zip ms) r) (e : η) :
    |left makesOf m s e - (m e + sumOf rs ms e)| ≤ rest * ((rs.zip ms).map fun p => p.2 * |makesOf p.1 e|).sum := by
  set S : Finset (SRxn η δ ε) := rs.toFinset ∪ (s.map Prod.fst).toFinset with hS
  rw [left_eq, sum_times makesOf e S s (fun p hp => Finset.mem_union_right _ (List.mem_toFinset.mpr (List.mem_map.mpr ⟨p, hp, rfl⟩))),
    sumOf_times rs ms e S fun r hr => Finset.mem_union_left _ (List.mem_toFinset.mpr hr)]
  have hR : ((rs.zip ms).map fun p => p.2 * |makesOf p.1 e|).sum = ∑ r ∈ S, times (rs.zip ms) r * |makesOf r e| :=
    sum_times (fun r e => |makesOf r e|) e S _ fun p hp => Finset.mem_union_left _ (List.mem_toFinset.mpr (List.of_mem_zip hp).1)
  rw [hR]
  have h1 : m e + ∑ r ∈ S, times s r * makesOf r e - (m e + ∑ r ∈ S, times (rs.zip ms) r * makesOf r e)
      = ∑ r ∈ S, (times s r - times (rs.zip ms) r) * makesOf r e := by
    rw [add_sub_add_left_eq_sub, ← Finset.sum_sub_distrib]
    apply Finset.sum_congr rfl
    intro r _
    ring
  rw [h1, Finset.mul_sum]
  refine le_trans (Finset.abs_sum_le_sum_abs _ _) (Finset.sum_le_sum fun r _ => ?_)
  rw [abs_mul, ← mul_assoc]
  apply mul_le_mul_of_nonneg_right _ (abs_nonneg _)
  rw [abs_le]
  obtain ⟨h2, h3⟩ := ht r
  have h4 : 0 ≤ times (rs.zip ms) r := times_nonneg _ (fun p hp => (hpos _ (List.of_mem_zip hp).2).le) r
  constructor <;> linarith

/-! ### Examples -/

/-- Equal amounts of the phases 0 to 3. -/
def cvEq (a b : SRxn ℕ Unit ℕ) : Bool := (List.range 4).all fun e => decide (amount (pairs a) e = amount (pairs b) e)

/-- Four phases, told apart by their numbers. -/
def cvConfig (pinv : Mat → List ℚ → Except Err (List ℚ)) : Config ℕ Unit ℕ ℕ where
  eq := cvEq
  idx := id
  entries := [0, 1, 2, 3]
  data := ()
  mu := []
  chunk := 3
  batch := none
  cpus := 2
  pinv := pinv
  wait₁ := fun _ => lifo
  wait₂ := fun _ => lifo
  order := List.dedup
  R := uses
  P := makes
  pick := fun l => l.dedup

/-- A pseudo-inverse that knows one matrix. -/
def knows (mat : Mat) (ms : List ℚ) (m : Mat) (_ : List ℚ) : Except Err (List ℚ) := if m = mat then .ok ms else .ok (List.replicate m.length 0)

theorem knows_length (mat : Mat) (ms : List ℚ) (hl : ms.length = mat.length) (m : Mat) (v : List ℚ) (w : List ℚ) (h : knows mat ms m v = .ok w) :
    w.length = m.length := by
  unfold knows at h
  split_ifs at h with he
  · rw [← Except.ok.inj h, he, hl]
  · rw [← Except.ok.inj h, List.length_replicate]

theorem cvByComp (pinv : Mat → List ℚ → Except Err (List ℚ)) (net : SRxn ℕ Unit ℕ) : ByComp (cvConfig pinv) id net (uses net) where
  inj := Function.injective_id
  reactants r := by rw [Finset.image_id]; rfl
  products r := by rw [Finset.image_id]; rfl
  precursors := by rw [Finset.image_id]

theorem cvIndexed (pinv : Mat → List ℚ → Except Err (List ℚ)) (a b : SRxn ℕ Unit ℕ) (costs : List ℚ) (bal : Bool)
    (ha : WellIndexed (cvConfig pinv) a) (hb : WellIndexed (cvConfig pinv) b) : InputsIndexed (cvConfig pinv) [⟨[a, b], costs, none, bal⟩] [] := by
  refine ⟨?_, by simp⟩
  intro q hq r hr
  rw [List.mem_singleton] at hq
  subst hq
  simp only [List.mem_cons, List.not_mem_nil, or_false] at hr
  rcases hr with rfl | rfl
  · exact ha
  · exact hb

/-- X, Y, XY and XY2: `X + Y → XY`, `2 XY → X + XY2`, together (twice and once) `X + 2 Y → XY2`. -/
def joinXY : SRxn ℕ Unit ℕ := ⟨[0, 1, 2], [-1, -1, 1], (), []⟩
def splitXY : SRxn ℕ Unit ℕ := ⟨[2, 0, 3], [-2, 1, 1], (), []⟩
def netXY : SRxn ℕ Unit ℕ := ⟨[0, 1, 3], [-1, -2, 1], (), []⟩

def xyPinv := knows [[-1, -1, 1, 0], [1, 0, -2, 1]] [2, 1]

theorem xySolve : solve (cvConfig xyPinv) true (fun _ _ => true) [⟨[joinXY, splitXY], [3, 5], none, false⟩] [] netXY (uses netXY) 2 true
    = .ok [⟨[⟨[0, 1, 2], [-1, -1, 1], (), []⟩, ⟨[0, 2, 3], [1, -2, 1], (), []⟩], [3, 5], some [2, 1], true⟩] := by decide +kernel

/-- The two steps as rebuilt by the solver. -/
def xySteps : List (SRxn ℕ Unit ℕ) := [⟨[0, 1, 2], [-1, -1, 1], (), []⟩, ⟨[0, 2, 3], [1, -2, 1], (), []⟩]

theorem makesOf_zero (r : SRxn ℕ Unit ℕ) (e : ℕ) (h : e ∉ r.entries) : makesOf r e = 0 := by
  by_contra hc
  exact h (List.mem_toFinset.mp (amount_entries r e hc))

theorem sumOf_zero (e : ℕ) : ∀ (rs : List (SRxn ℕ Unit ℕ)) (ms : List ℚ), (∀ r ∈ rs, e ∉ r.entries) → sumOf rs ms e = 0 := by
  intro rs ms h
  rw [sumOf_zip]
  apply List.sum_eq_zero
  intro y hy
  obtain ⟨p, hp, rfl⟩ := List.mem_map.mp hy
  rw [makesOf_zero _ _ (h _ (List.of_mem_zip hp).1), mul_zero]

/-- What holds of the phases 0 to 3 and of phases that do not occur holds of all. -/
theorem four (Q : ℕ → Prop) (h : ∀ e < 4, Q e) (h' : ∀ e, 4 ≤ e → Q e) (e : ℕ) : Q e := by
  by_cases he : e < 4
  · exact h e he
  · exact h' e (by omega)

theorem xySum (e : ℕ) : sumOf xySteps [2, 1] e = makesOf netXY e := by
  refine four (fun e => sumOf xySteps [2, 1] e = makesOf netXY e) (by decide +kernel) (fun e he => ?_) e
  rw [sumOf_zero, makesOf_zero]
  · simp only [netXY, List.mem_cons, List.not_mem_nil, or_false]; omega
  · intro r hr
    simp only [xySteps, List.mem_cons, List.not_mem_nil, or_false] at hr
    rcases hr with rfl | rfl <;> simp only [List.mem_cons, List.not_mem_nil, or_false] <;> omega

/-- The pathway returned for `X + 2 Y → XY2` can be carried out up to any rest, starting with one X and two Y, although it calls for
using two X. -/
example : ∀ rest : ℚ, 0 < rest → UpTo (stock netXY) (times (xySteps.zip [2, 1])) rest := by
  obtain ⟨ms, h1, _, _, h4⟩ := C137_carried_out_partial (cvConfig xyPinv) (fun _ => lifo_spec) (fun _ => lifo_spec)
    (fun l q hq => List.mem_dedup.mp hq) (knows_length _ _ rfl) RxnSet.setOrder_dedup (by decide) true (fun _ _ => true)
    [⟨[joinXY, splitXY], [3, 5], none, false⟩] [] netXY (uses netXY) 2
    (cvIndexed _ joinXY splitXY _ _ ⟨by decide, rfl, by simp [joinXY, cvConfig]⟩ ⟨by decide, rfl, by simp [splitXY, cvConfig]⟩)
    id (cvByComp _ _) _ xySolve _ List.mem_cons_self
  obtain rfl := Option.some.inj h1
  exact h4 fun e => (xySum e).ge

/-- **C137 (violated: complete conversion).** But it cannot be carried out completely: whatever the portions, some X or XY is left, because
each step that uses one of them makes the other. -/
theorem C137_unfinished_violated :
    solve (cvConfig xyPinv) true (fun _ _ => true) [⟨[joinXY, splitXY], [3, 5], none, false⟩] [] netXY (uses netXY) 2 true
      = .ok [⟨xySteps, [3, 5], some [2, 1], true⟩] ∧ (∀ e, sumOf xySteps [2, 1] e = makesOf netXY e) ∧
    ¬ ∃ s : List (SRxn ℕ Unit ℕ × ℚ), CarriedOut makesOf (stock netXY) s ∧ ∀ r, times s r = times (xySteps.zip [2, 1]) r := by
  refine ⟨xySolve, xySum, ?_⟩
  rw [C137_complete_iff xySteps [2, 1] rfl (by decide +kernel) (stock netXY) (uses netXY) {3} (fun e => le_max_left _ _) (stock_pos netXY)
    (fun e => by
      rw [xySum]
      have : -makesOf netXY e ≤ stock netXY e := le_max_right _ _
      linarith)
    (fun e => by
      rw [xySum]
      refine four (fun e => e ∈ ({3} : Finset ℕ) ↔ 0 < stock netXY e + makesOf netXY e) (by decide +kernel) (fun e he => ?_) e
      have h0 : makesOf netXY e = 0 := makesOf_zero _ _ (by simp only [netXY, List.mem_cons, List.not_mem_nil, or_false]; omega)
      unfold stock
      rw [h0]
      simp only [Finset.mem_singleton]
      constructor
      · omega
      · intro h; simp at h)]
  rintro ⟨_, l, _, hm, he⟩
  cases l with
  | nil => simpa using (hm ⟨[0, 1, 2], [-1, -1, 1], (), []⟩).mpr (by simp [xySteps])
  | cons r l =>
    have h1 := (hm r).mp (by simp)
    have h2 := he.1
    simp only [xySteps, List.mem_cons, List.not_mem_nil, or_false] at h1
    rcases h1 with rfl | rfl
    · revert h2; decide +kernel
    · revert h2; decide +kernel

/-- `X + Z → XZ`, `XZ → Z + P`: together `X → P`, with Z as a catalyst that is not there. -/
def takeZ : SRxn ℕ Unit ℕ := ⟨[0, 1, 2], [-1, -1, 1], (), []⟩
def giveZ : SRxn ℕ Unit ℕ := ⟨[1, 2, 3], [1, -1, 1], (), []⟩
def netZ : SRxn ℕ Unit ℕ := ⟨[0, 3], [-1, 1], (), []⟩

def zPinv := knows [[-1, -1, 1, 0], [0, 1, -1, 1]] [1, 1]

/-- **C137 (violated without the filter).** With `filter_interdependent=False` the solver returns a pathway that cannot be started; with
the filter it returns none. -/
theorem C137_unfiltered_violated :
    solve (cvConfig zPinv) true (fun _ _ => true) [⟨[takeZ, giveZ], [3, 5], none, false⟩] [] netZ (uses netZ) 2 false
      = .ok [⟨[takeZ, giveZ], [3, 5], some [1, 1], true⟩] ∧
    solve (cvConfig zPinv) true (fun _ _ => true) [⟨[takeZ, giveZ], [3, 5], none, false⟩] [] netZ (uses netZ) 2 true = .ok [] ∧
    ¬ UpTo (stock netZ) (times ([takeZ, giveZ].zip [1, 1])) (1 / 2) := by
  refine ⟨by decide +kernel, by decide +kernel, ?_⟩
  rintro ⟨s, h1, h2⟩
  obtain ⟨l, _, hm, he⟩ := executable makesOf uses makes uses_iff makes_iff [takeZ, giveZ] (uses netZ) (stock netZ)
    (fun x hx => (stock_pos netZ x).mpr hx) s h1 (fun r => by
      obtain ⟨h3, h4⟩ := h2 r
      constructor
      · intro hr
        by_contra hc
        rw [times_zip_zero _ _ r hc] at h4
        linarith
      · intro hr
        have := times_zip_pos [takeZ, giveZ] [1, 1] rfl (by decide +kernel) r hr
        linarith)
  cases l with
  | nil => simpa using (hm takeZ).mpr (by simp)
  | cons r l =>
    have h1 := (hm r).mp (by simp)
    have h2 := he.1
    simp only [List.mem_cons, List.not_mem_nil, or_false] at h1
    rcases h1 with rfl | rfl
    · revert h2; decide +kernel
    · revert h2; decide +kernel

/-- `A → B`, `2 B → D`, `D → B + C`: together `A → C`. -/
def lateA : SRxn ℕ Unit ℕ := ⟨[0, 1], [-1, 1], (), []⟩
def lateB : SRxn ℕ Unit ℕ := ⟨[1, 2], [-2, 1], (), []⟩
def lateD : SRxn ℕ Unit ℕ := ⟨[1, 2, 3], [1, -1, 1], (), []⟩

def latePinv := knows [[-1, 1, 0, 0], [0, -2, 1, 0], [0, 1, -1, 1]] [1, 1, 1]

/-- **C137 (violated: rejected).** A pathway that can be carried out up to any rest is withheld by the filter. -/
theorem C137_rejected_violated :
    solve (cvConfig latePinv) true (fun _ _ => true) [⟨[lateA, lateB, lateD], [3, 5, 7], none, false⟩] [] netZ (uses netZ) 3 false
      = .ok [⟨[lateA, lateB, lateD], [3, 5, 7], some [1, 1, 1], true⟩] ∧
    solve (cvConfig latePinv) true (fun _ _ => true) [⟨[lateA, lateB, lateD], [3, 5, 7], none, false⟩] [] netZ (uses netZ) 3 true = .ok [] ∧
    ∀ rest : ℚ, 0 < rest → UpTo (stock netZ) (times ([lateA, lateB, lateD].zip [1, 1, 1])) rest := by
  refine ⟨by decide +kernel, by decide +kernel, ?_⟩
  refine (C137_realisable_iff [lateA, lateB, lateD] [1, 1, 1] rfl (by decide +kernel) (stock netZ) (uses netZ) (fun e => le_max_left _ _)
    (stock_pos netZ) (fun e => ?_)).mp ⟨[lateA, lateB, lateD], by decide, fun _ => Iff.rfl, by decide +kernel⟩
  refine four (fun e => 0 ≤ stock netZ e + sumOf [lateA, lateB, lateD] [1, 1, 1] e) (by decide +kernel) (fun e he => ?_) e
  rw [sumOf_zero]
  · rw [add_zero]; exact le_max_left _ _
  · intro r hr
    simp only [List.mem_cons, List.not_mem_nil, or_false] at hr
    rcases hr with rfl | rfl | rfl <;> simp only [lateA, lateB, lateD, List.mem_cons, List.not_mem_nil, or_false] <;> omega

/-- `A → B`, `B → C`, together `A → C`. -/
def firstStep : SRxn ℕ Unit ℕ := ⟨[0, 1], [-1, 1], (), []⟩
def secondStep : SRxn ℕ Unit ℕ := ⟨[1, 3], [-1, 1], (), []⟩

def offPinv := knows [[-1, 1, 0, 0], [0, -1, 0, 1]] [1, 1 + 1 / 1000000000]

/-- **C137 (violated: tolerance).** Multiplicities that are off by a billionth are accepted, and then the second step cannot be carried out
as often as the pathway says. -/
theorem C137_tolerance_violated :
    solve (cvConfig offPinv) true (fun _ _ => true) [⟨[firstStep, secondStep], [3, 5], none, false⟩] [] netZ (uses netZ) 2 true
      = .ok [⟨[firstStep, secondStep], [3, 5], some [1, 1 + 1 / 1000000000], true⟩] ∧
    ¬ UpTo (stock netZ) (times ([firstStep, secondStep].zip [1, 1 + 1 / 1000000000])) (1 / 10000000000) := by
  refine ⟨by decide +kernel, ?_⟩
  rintro ⟨s, h1, h2⟩
  have h3 := carried_nonneg makesOf s (stock netZ) (fun e => le_max_left _ _) h1 1
  set S : Finset (SRxn ℕ Unit ℕ) := {firstStep, secondStep} ∪ (s.map Prod.fst).toFinset with hS
  rw [left_eq, sum_times makesOf 1 S s (fun p hp => Finset.mem_union_right _ (List.mem_toFinset.mpr (List.mem_map.mpr ⟨p, hp, rfl⟩)))] at h3
  have h0 : ∀ r ∈ S, r ∉ ({firstStep, secondStep} : Finset (SRxn ℕ Unit ℕ)) → times s r * makesOf r 1 = 0 := by
    intro r _ hr
    have h4 := h2 r
    rw [times_zip_zero _ _ r (by simpa using hr), mul_zero] at h4
    rw [le_antisymm h4.2 h4.1, zero_mul]
  rw [← Finset.sum_subset Finset.subset_union_left h0, Finset.sum_pair (by decide)] at h3
  have a1 : makesOf firstStep 1 = 1 := by decide +kernel
  have a2 : makesOf secondStep 1 = -1 := by decide +kernel
  have a3 : stock netZ 1 = 0 := by decide +kernel
  have a4 : times ([firstStep, secondStep].zip [1, 1 + 1 / 1000000000]) firstStep = 1 := by decide +kernel
  have a5 : times ([firstStep, secondStep].zip [1, 1 + 1 / 1000000000]) secondStep = 1 + 1 / 1000000000 := by decide +kernel
  have b1 := (h2 firstStep).2
  have b2 := (h2 secondStep).1
  rw [a4] at b1
  rw [a5] at b2
  rw [a1, a2, a3] at h3
  norm_num at b2
  linarith

theorem chainSum (e : ℕ) : sumOf [firstStep, secondStep] [1, 1] e = makesOf netZ e := by
  refine four (fun e => sumOf [firstStep, secondStep] [1, 1] e = makesOf netZ e) (by decide +kernel) (fun e he => ?_) e
  rw [sumOf_zero, makesOf_zero]
  · simp only [netZ, List.mem_cons, List.not_mem_nil, or_false]; omega
  · intro r hr
    simp only [List.mem_cons, List.not_mem_nil, or_false] at hr
    rcases hr with rfl | rfl <;> simp only [firstStep, secondStep, List.mem_cons, List.not_mem_nil, or_false] <;> omega

/-- With the exact multiplicities the two steps can be carried out completely. -/
example : ∃ s : List (SRxn ℕ Unit ℕ × ℚ), CarriedOut makesOf (stock netZ) s ∧ ∀ r, times s r = times ([firstStep, secondStep].zip [1, 1]) r := by
  refine (C137_complete_iff [firstStep, secondStep] [1, 1] rfl (by decide +kernel) (stock netZ) (uses netZ) {3} (fun e => le_max_left _ _)
    (stock_pos netZ) (fun e => ?_) (fun e => ?_)).mpr
    ⟨⟨[firstStep, secondStep], by decide, fun _ => Iff.rfl, by decide +kernel⟩,
      ⟨[secondStep, firstStep], by decide, fun r => by simp [or_comm], by decide +kernel⟩⟩
  · rw [chainSum]
    have : -makesOf netZ e ≤ stock netZ e := le_max_right _ _
    linarith
  · rw [chainSum]
    refine four (fun e => e ∈ ({3} : Finset ℕ) ↔ 0 < stock netZ e + makesOf netZ e) (by decide +kernel) (fun e he => ?_) e
    have h0 : makesOf netZ e = 0 := makesOf_zero _ _ (by simp only [netZ, List.mem_cons, List.not_mem_nil, or_false]; omega)
    unfold stock
    rw [h0]
    simp only [Finset.mem_singleton]
    exact ⟨by omega, fun h => by simp at h⟩

/-- Half of the pathway for `X + 2 Y → XY2` leaves half an XY2, up to half of what is turned over. -/
example : |left makesOf (stock netXY) [(xySteps[0], 1), (xySteps[1], 1 / 2)] 3 - (stock netXY 3 + sumOf xySteps [2, 1] 3)| ≤ 1 / 2 * 1 ∧
    left makesOf (stock netXY) [(xySteps[0], 1), (xySteps[1], 1 / 2)] 3 = 1 / 2 := by
  refine ⟨?_, by decide +kernel⟩
  have h := C137_yield xySteps [2, 1] (by decide +kernel) (stock netXY) (1 / 2) [(xySteps[0], 1), (xySteps[1], 1 / 2)] (fun r => by
    by_cases h1 : r ∈ xySteps
    · revert r; decide +kernel
    · have h2 : r ∉ ([(xySteps[0], 1), (xySteps[1], 1 / 2)] : List (SRxn ℕ Unit ℕ × ℚ)).map Prod.fst := fun hc => h1 (by
        simp only [List.map_cons, List.map_nil, List.mem_cons, List.not_mem_nil, or_false] at hc
        rcases hc with rfl | rfl <;> exact List.getElem_mem _)
      rw [times_not_mem _ r h2, times_zip_zero _ _ r h1]
      simp) 3
  refine le_trans h (le_of_eq ?_)
  decide +kernel

end Verif.Props.Carry
