import Verif.Model.Entries
import Verif.Lemmas.Dict
import Verif.Lemmas.Except
import Mathlib.Tactic.Linarith
import Mathlib.Tactic.FieldSimp
import Mathlib.Tactic.Ring
import Mathlib.Tactic.NormNum
import Mathlib.Algebra.Order.Group.Unbundled.Abs

/-! Properties C43 and C67: tabulated energies and the choice of data sources. -/

namespace Verif.Props.EntryTable
open Verif.Py Verif.Model.Entries Verif.Lemmas

set_option linter.unusedSectionVars false

/-! ### Interpolation -/

/-- Specification: the straight line through two points. -/
def line (t0 g0 t1 g1 x : ℚ) : ℚ := g0 * ((t1 - x) / (t1 - t0)) + g1 * ((x - t0) / (t1 - t0))

/-- Specification: two neighbouring nodes of a table. -/
def Neighbours (d : List (ℚ × ℚ)) (t0 g0 t1 g1 : ℚ) : Prop := ∃ l r, d = l ++ (t0, g0) :: (t1, g1) :: r

/-- Strictly increasing temperatures. -/
def Increasing (d : List (ℚ × ℚ)) : Prop := d.Pairwise fun a b => a.1 < b.1

theorem line_left {t0 g0 t1 g1 : ℚ} (h : t0 < t1) : line t0 g0 t1 g1 t0 = g0 := by
  have : t1 - t0 ≠ 0 := by linarith [sub_pos.mpr h]
  unfold line; field_simp; ring

theorem line_right {t0 g0 t1 g1 : ℚ} (h : t0 < t1) : line t0 g0 t1 g1 t1 = g1 := by
  have : t1 - t0 ≠ 0 := by linarith [sub_pos.mpr h]
  unfold line; field_simp; ring

theorem line_eq {t0 g0 t1 g1 x : ℚ} (h : t0 < t1) : g0 + (x - t0) * ((g1 - g0) / (t1 - t0)) = line t0 g0 t1 g1 x := by
  have : t1 - t0 ≠ 0 := by linarith [sub_pos.mpr h]
  unfold line; field_simp; ring

theorem interp_line (l r : List (ℚ × ℚ)) (t0 g0 t1 g1 x : ℚ) : Increasing (l ++ (t0, g0) :: (t1, g1) :: r) → t0 ≤ x → x ≤ t1 →
    interp (l ++ (t0, g0) :: (t1, g1) :: r) x = some (line t0 g0 t1 g1 x) := by
  induction l with
  | nil =>
    intro hs h0 h1
    have hlt : t0 < t1 := (List.pairwise_cons.mp hs).1 (t1, g1) (by simp)
    simp only [List.nil_append, interp, if_neg (not_lt.mpr h0), if_pos h1, line_eq hlt]
  | cons a l ih =>
    intro hs h0 h1
    obtain ⟨ta, ga⟩ := a
    obtain ⟨hs1, hs2⟩ := List.pairwise_cons.mp hs
    have ih' := ih hs2 h0 h1
    have hlt : t0 < t1 := (List.pairwise_cons.mp (List.pairwise_append.mp hs2).2.1).1 (t1, g1) (by simp)
    cases l with
    | nil =>
      have ha : ta < t0 := hs1 (t0, g0) (by simp)
      simp only [List.cons_append, List.nil_append] at ih' ⊢
      rw [interp, if_neg (by linarith)]
      by_cases hx : x ≤ t0
      · have : x = t0 := le_antisymm hx h0
        subst this
        rw [if_pos hx, line_eq ha, line_right ha, line_left hlt]
      · rw [if_neg hx]; exact ih'
    | cons b l =>
      obtain ⟨tb, gb⟩ := b
      have ha : ta < tb := hs1 (tb, gb) (by simp)
      have hb : tb < t0 := (List.pairwise_cons.mp hs2).1 (t0, g0) (by simp)
      simp only [List.cons_append] at ih' ⊢
      rw [interp, if_neg (by linarith), if_neg (by linarith)]
      exact ih'

/-! ### C43: experimental tables -/

/-- The shape of every table in the repository's data (checked on the files as text): nodes at consecutive multiples of 100 K. -/
def Grid : ℤ → List (ℚ × ℚ) → Prop
  | _, [] => True
  | k, (t, _) :: d => t = 100 * k ∧ Grid (k + 1) d

theorem grid_ge (d : List (ℚ × ℚ)) : ∀ k, Grid k d → ∀ p ∈ d, ∃ j : ℤ, k ≤ j ∧ p.1 = 100 * j := by
  induction d with
  | nil => intro k _ p hp; simp at hp
  | cons a d ih =>
    intro k h p hp
    obtain ⟨t, g⟩ := a
    rcases List.mem_cons.mp hp with rfl | hp
    · exact ⟨k, le_rfl, h.1⟩
    · obtain ⟨j, h1, h2⟩ := ih (k + 1) h.2 p hp
      exact ⟨j, by omega, h2⟩

theorem grid_increasing (d : List (ℚ × ℚ)) : ∀ k, Grid k d → Increasing d := by
  induction d with
  | nil => intro k _; exact List.Pairwise.nil
  | cons a d ih =>
    intro k h
    obtain ⟨t, g⟩ := a
    refine List.Pairwise.cons (fun p hp => ?_) (ih _ h.2)
    obtain ⟨j, h1, h2⟩ := grid_ge d _ h.2 p hp
    have : ((k : ℚ) + 1) ≤ j := by exact_mod_cast h1
    rw [h.1, h2]; linarith

theorem grid_next (l r : List (ℚ × ℚ)) (t0 g0 t1 g1 : ℚ) : ∀ k, Grid k (l ++ (t0, g0) :: (t1, g1) :: r) →
    ∃ j : ℤ, t0 = 100 * j ∧ t1 = 100 * (j + 1) := by
  induction l with
  | nil => intro k h; exact ⟨k, h.1, by have := h.2.1; push_cast at this; exact this⟩
  | cons a l ih => intro k h; exact ih (k + 1) h.2

theorem offGrid_iff (t : ℚ) : offGrid t = true ↔ ∀ j : ℤ, t ≠ 100 * j := by
  unfold offGrid
  have hfl := Int.floor_le (t / 100)
  constructor
  · intro h j hj
    have h' := of_decide_eq_true h
    rw [hj] at h'
    rw [show (100 : ℚ) * j / 100 = j by field_simp, Int.floor_intCast] at h'
    linarith
  · intro h
    refine decide_eq_true ?_
    have h1 := h ⌊t / 100⌋
    have h2 : (100 : ℚ) * ⌊t / 100⌋ ≤ t := by linarith
    rcases lt_or_eq_of_le h2 with h3 | h3
    · linarith
    · exact absurd h3.symm h1

theorem nodup_keys {d : List (ℚ × ℚ)} (h : Increasing d) : (d.map Prod.fst).Nodup := by
  unfold List.Nodup
  rw [List.pairwise_map]
  exact h.imp fun h => ne_of_lt h

/-- **C43, nodes.** At a tabulated temperature the energy is the table's value. -/
theorem C43_node (d : List (ℚ × ℚ)) (k : ℤ) (hd : Grid k d) (t g : ℚ) (h : (t, g) ∈ d) : tableEnergy d t = .ok g := by
  obtain ⟨j, -, hj⟩ := grid_ge d k hd _ h
  have ho : offGrid t = false := by
    cases h' : offGrid t with
    | false => rfl
    | true => exact absurd hj ((offGrid_iff t).mp h' j)
  unfold tableEnergy
  rw [ho, Dict.dictGet_eq_some_of_mem d (nodup_keys (grid_increasing d k hd)) t g h]; rfl

/-- **C43, between nodes.** Between two neighbouring nodes (inclusive) the energy is on the straight line through them. -/
theorem C43_linear (d : List (ℚ × ℚ)) (k : ℤ) (hd : Grid k d) (t0 g0 t1 g1 t : ℚ) (hn : Neighbours d t0 g0 t1 g1) (h0 : t0 ≤ t)
    (h1 : t ≤ t1) : tableEnergy d t = .ok (line t0 g0 t1 g1 t) := by
  obtain ⟨l, r, rfl⟩ := hn
  obtain ⟨j, hj0, hj1⟩ := grid_next l r t0 g0 t1 g1 k hd
  have hlt : t0 < t1 := by rw [hj0, hj1]; linarith
  by_cases ho : offGrid t = true
  · unfold tableEnergy
    rw [if_pos ho, interp_line l r t0 g0 t1 g1 t (grid_increasing _ k hd) h0 h1]
  · have : ∃ i : ℤ, t = 100 * i := by
      by_contra hc; push Not at hc
      exact ho ((offGrid_iff t).mpr hc)
    obtain ⟨i, hi⟩ := this
    have hij : j ≤ i := by
      have : (j : ℚ) ≤ i := by linarith
      exact_mod_cast this
    have hij' : i ≤ j + 1 := by
      have : (i : ℚ) ≤ j + 1 := by linarith
      exact_mod_cast this
    rcases (by omega : i = j ∨ i = j + 1) with rfl | rfl
    · have : t = t0 := by rw [hi, hj0]
      rw [this, line_left hlt]; exact C43_node _ k hd t0 g0 (by simp)
    · have : t = t1 := by rw [hi, hj1]; push_cast; ring
      rw [this, line_right hlt]; exact C43_node _ k hd t1 g1 (by simp)

/-- Every temperature between the ends of a table is a node or lies between two neighbouring nodes. -/
theorem covered (d : List (ℚ × ℚ)) : ∀ (a b : ℚ × ℚ), Increasing (a :: d) → b ∈ (a :: d).getLast? → ∀ t, a.1 ≤ t → t ≤ b.1 →
    (∃ g, (t, g) ∈ a :: d) ∨ ∃ t0 g0 t1 g1, Neighbours (a :: d) t0 g0 t1 g1 ∧ t0 ≤ t ∧ t ≤ t1 := by
  induction d with
  | nil =>
    intro a b _ hb t h0 h1
    simp at hb; subst hb
    exact Or.inl ⟨a.2, by simp [le_antisymm h1 h0]⟩
  | cons c d ih =>
    intro a b hs hb t h0 h1
    by_cases ht : t ≤ c.1
    · exact Or.inr ⟨a.1, a.2, c.1, c.2, ⟨[], d, rfl⟩, h0, ht⟩
    · push Not at ht
      rcases ih c b (List.pairwise_cons.mp hs).2 (by simpa using hb) t ht.le h1 with ⟨g, hg⟩ | ⟨t0, g0, t1, g1, ⟨l, r, h⟩, h2⟩
      · exact Or.inl ⟨g, List.mem_cons_of_mem _ hg⟩
      · exact Or.inr ⟨t0, g0, t1, g1, ⟨a :: l, r, by rw [h]; rfl⟩, h2⟩

/-- **C43, total.** Every temperature between the first and the last node has an energy. -/
theorem C43_total (d : List (ℚ × ℚ)) (k : ℤ) (a b : ℚ × ℚ) (hd : Grid k (a :: d)) (hb : b ∈ (a :: d).getLast?) (t : ℚ) (h0 : a.1 ≤ t)
    (h1 : t ≤ b.1) : ∃ g, tableEnergy (a :: d) t = .ok g := by
  rcases covered d a b (grid_increasing _ k hd) hb t h0 h1 with ⟨g, hg⟩ | ⟨t0, g0, t1, g1, hn, h2, h3⟩
  · exact ⟨g, C43_node _ k hd t g hg⟩
  · exact ⟨_, C43_linear _ k hd t0 g0 t1 g1 t hn h2 h3⟩

/-- **C43, bounds.** The energy between two neighbouring nodes lies between the two table values. -/
theorem C43_between (d : List (ℚ × ℚ)) (k : ℤ) (hd : Grid k d) (t0 g0 t1 g1 t g : ℚ) (hn : Neighbours d t0 g0 t1 g1) (h0 : t0 ≤ t)
    (h1 : t ≤ t1) (hg : tableEnergy d t = .ok g) : min g0 g1 ≤ g ∧ g ≤ max g0 g1 := by
  rw [C43_linear d k hd t0 g0 t1 g1 t hn h0 h1] at hg
  cases hg
  obtain ⟨l, r, rfl⟩ := hn
  obtain ⟨j, hj0, hj1⟩ := grid_next l r t0 g0 t1 g1 k hd
  have hpos : 0 < t1 - t0 := by rw [hj0, hj1]; linarith
  have ha : 0 ≤ (t1 - t) / (t1 - t0) := div_nonneg (by linarith) hpos.le
  have hb : 0 ≤ (t - t0) / (t1 - t0) := div_nonneg (by linarith) hpos.le
  have hab : (t1 - t) / (t1 - t0) + (t - t0) / (t1 - t0) = 1 := by field_simp; ring
  have m0 := min_le_left g0 g1
  have m1 := min_le_right g0 g1
  have M0 := le_max_left g0 g1
  have M1 := le_max_right g0 g1
  unfold line
  generalize (t1 - t) / (t1 - t0) = u at *
  generalize (t - t0) / (t1 - t0) = v at *
  have hu : u = 1 - v := by linarith
  subst hu
  constructor
  · nlinarith [mul_nonneg ha (sub_nonneg.mpr m0), mul_nonneg hb (sub_nonneg.mpr m1)]
  · nlinarith [mul_nonneg ha (sub_nonneg.mpr M0), mul_nonneg hb (sub_nonneg.mpr M1)]

/-- Neighbouring values change by at most `L` per Kelvin. -/
def Steep (L : ℚ) (d : List (ℚ × ℚ)) : Prop := ∀ t0 g0 t1 g1, Neighbours d t0 g0 t1 g1 → |g1 - g0| ≤ L * (t1 - t0)

theorem line_sub {t0 g0 t1 g1 x y : ℚ} (h : t0 < t1) : line t0 g0 t1 g1 y - line t0 g0 t1 g1 x = (g1 - g0) * ((y - x) / (t1 - t0)) := by
  have : t1 - t0 ≠ 0 := by linarith [sub_pos.mpr h]
  unfold line; field_simp; ring

theorem line_lip {t0 g0 t1 g1 x y L : ℚ} (h : t0 < t1) (hL : |g1 - g0| ≤ L * (t1 - t0)) (hxy : x ≤ y) :
    |line t0 g0 t1 g1 y - line t0 g0 t1 g1 x| ≤ L * (y - x) := by
  have hpos : 0 < t1 - t0 := sub_pos.mpr h
  rw [line_sub h, abs_mul, abs_of_nonneg (div_nonneg (sub_nonneg.mpr hxy) hpos.le)]
  calc |g1 - g0| * ((y - x) / (t1 - t0)) ≤ L * (t1 - t0) * ((y - x) / (t1 - t0)) :=
        mul_le_mul_of_nonneg_right hL (div_nonneg (sub_nonneg.mpr hxy) hpos.le)
    _ = L * (y - x) := by field_simp

theorem lip_aux (k : ℤ) (D : List (ℚ × ℚ)) (hD : Grid k D) (L : ℚ) (hL : Steep L D) (d : List (ℚ × ℚ)) : ∀ (a b : ℚ × ℚ) (l : List (ℚ × ℚ)),
    D = l ++ a :: d → b ∈ (a :: d).getLast? → ∀ x y, a.1 ≤ x → x ≤ y → y ≤ b.1 → ∀ gx gy, tableEnergy D x = .ok gx →
    tableEnergy D y = .ok gy → |gy - gx| ≤ L * (y - x) := by
  induction d with
  | nil =>
    intro a b l _ hb x y h0 hxy h1 gx gy hx hy
    simp at hb; subst hb
    have : x = y := le_antisymm hxy (le_trans h1 h0)
    subst this; rw [hx] at hy; cases hy; simp
  | cons c d ih =>
    intro a b l hl hb x y h0 hxy h1 gx gy hx hy
    have hn : Neighbours D a.1 a.2 c.1 c.2 := ⟨l, d, hl⟩
    have hl' : D = (l ++ [a]) ++ c :: d := by rw [hl]; simp
    obtain ⟨j, hj0, hj1⟩ := grid_next l d a.1 a.2 c.1 c.2 k (hl ▸ hD)
    have hlt : a.1 < c.1 := by rw [hj0, hj1]; linarith
    have hb' : b ∈ (c :: d).getLast? := by simpa using hb
    by_cases hyc : y ≤ c.1
    · rw [C43_linear D k hD _ _ _ _ y hn (le_trans h0 hxy) hyc] at hy
      rw [C43_linear D k hD _ _ _ _ x hn h0 (le_trans hxy hyc)] at hx
      cases hx; cases hy
      exact line_lip hlt (hL _ _ _ _ hn) hxy
    · push Not at hyc
      by_cases hxc : c.1 ≤ x
      · exact ih c b _ hl' hb' x y hxc hxy h1 gx gy hx hy
      · push Not at hxc
        have hc : tableEnergy D c.1 = .ok c.2 := C43_node D k hD _ _ (by rw [hl]; simp)
        have i1 := ih c b _ hl' hb' c.1 y le_rfl hyc.le h1 c.2 gy hc hy
        have hc' := hc
        rw [C43_linear D k hD _ _ _ _ c.1 hn hlt.le le_rfl] at hc'
        rw [C43_linear D k hD _ _ _ _ x hn h0 hxc.le] at hx
        have i2 := line_lip (x := x) (y := c.1) hlt (hL _ _ _ _ hn) hxc.le
        cases hx
        rw [Except.ok.inj hc'] at i2
        calc |gy - line a.1 a.2 c.1 c.2 x| ≤ |gy - c.2| + |c.2 - line a.1 a.2 c.1 c.2 x| := abs_sub_le _ _ _
          _ ≤ L * (y - c.1) + L * (c.1 - x) := add_le_add i1 i2
          _ = L * (y - x) := by ring

/-- **C43, continuity.** Over the whole range of a table the energy changes by at most `L` per Kelvin if neighbouring nodes do; in
particular there are no jumps, neither at nodes nor between the look-up and the interpolation branch. -/
theorem C43_lipschitz (d : List (ℚ × ℚ)) (k : ℤ) (a b : ℚ × ℚ) (hd : Grid k (a :: d)) (hb : b ∈ (a :: d).getLast?) (L : ℚ)
    (hL : Steep L (a :: d)) (x y gx gy : ℚ) (h0 : a.1 ≤ x) (hxy : x ≤ y) (h1 : y ≤ b.1) (hx : tableEnergy (a :: d) x = .ok gx)
    (hy : tableEnergy (a :: d) y = .ok gy) : |gy - gx| ≤ L * (y - x) :=
  lip_aux k (a :: d) hd L hL d a b [] rfl hb x y h0 hxy h1 gx gy hx hy

/-- A table as in the data files. -/
def exTable : List (ℚ × ℚ) := [(300, -5), (400, -4), (500, -2), (600, -3)]

example : Grid 3 exTable := by simp only [exTable, Grid]; norm_num
example : Neighbours exTable 400 (-4) 500 (-2) := ⟨[(300, -5)], [(600, -3)], rfl⟩
example : tableEnergy exTable 450 = .ok (-3) ∧ tableEnergy exTable 500 = .ok (-2) := by decide +kernel
example : tableEnergy exTable 700 = .error .keyError ∧ tableEnergy exTable 650 = .error .valueError := by decide +kernel
example : (600, -3) ∈ exTable.getLast? := by decide +kernel

/-! ### C43: elemental chemical potentials -/

theorem digits_inj {a b : ℕ} (h : Nat.toDigits 10 a = Nat.toDigits 10 b) : a = b := by
  rw [← Nat.ofDigitChars_ten_toDigits (n := a), h, Nat.ofDigitChars_ten_toDigits]

/-- **C43, integer temperatures.** The elemental potential at a tabulated temperature given as an integer is the table's value.
Missing: the same temperature given as a float (`C43_float_violated`). -/
theorem C43_element_node_partial (tbl : List Node) (k : ℤ) (hd : Grid k (tbl.map fun n => ((n.t : ℚ), n.mu))) (n : Node) (hn : n ∈ tbl) :
    elemMu tbl (.int n.t) = .ok n.mu := by
  have hm : ((n.t : ℚ), n.mu) ∈ tbl.map fun n => ((n.t : ℚ), n.mu) := List.mem_map.mpr ⟨n, hn, rfl⟩
  obtain ⟨j, -, hj⟩ := grid_ge _ k hd _ hm
  have ho : offGrid (Num.int n.t).val = false := by
    cases h' : offGrid (Num.int n.t).val with
    | false => rfl
    | true => exact absurd hj ((offGrid_iff _).mp h' j)
  have hk : ((tbl.map fun n => (Nat.toDigits 10 n.t, n.mu)).map Prod.fst).Nodup := by
    have h1 := nodup_keys (grid_increasing _ k hd)
    rw [List.map_map] at h1 ⊢
    unfold List.Nodup at h1 ⊢
    rw [List.pairwise_map] at h1 ⊢
    refine h1.imp fun {a b} hab hc => hab ?_
    simp only [Function.comp] at hc ⊢
    rw [digits_inj hc]
  unfold elemMu
  rw [ho, show (Num.int n.t).str = Nat.toDigits 10 n.t from rfl, Dict.dictGet_eq_some_of_mem _ hk _ n.mu (List.mem_map.mpr ⟨n, hn, rfl⟩)]; rfl

/-- **C43, other temperatures**: off the grid, integers and floats alike are interpolated linearly. -/
theorem C43_element_linear (tbl : List Node) (k : ℤ) (hd : Grid k (tbl.map fun n => ((n.t : ℚ), n.mu))) (t0 g0 t1 g1 : ℚ) (t : Num)
    (hn : Neighbours (tbl.map fun n => ((n.t : ℚ), n.mu)) t0 g0 t1 g1) (h0 : t0 < t.val) (h1 : t.val < t1) :
    elemMu tbl t = .ok (line t0 g0 t1 g1 t.val) := by
  obtain ⟨l, r, h⟩ := hn
  rw [h] at hd
  obtain ⟨j, hj0, hj1⟩ := grid_next l r t0 g0 t1 g1 k hd
  have ho : offGrid t.val = true := by
    refine (offGrid_iff _).mpr fun i hi => ?_
    have a1 : (j : ℚ) < i := by linarith
    have a2 : (i : ℚ) < j + 1 := by linarith
    have b1 : j < i := by exact_mod_cast a1
    have b2 : i < j + 1 := by exact_mod_cast a2
    omega
  unfold elemMu
  rw [if_pos ho, h, interp_line l r t0 g0 t1 g1 t.val (grid_increasing _ k hd) h0.le h1.le]

/-- **C43 is violated for every float on the grid**: whatever the table, a floating-point temperature that is a multiple of 100
raises `KeyError`, while the equal integer gives the tabulated value. -/
theorem C43_float_violated (tbl : List Node) (j : ℤ) : elemMu tbl (.float (100 * j)) = .error .keyError := by
  have ho : offGrid (Num.float (100 * j)).val = false := by
    cases h' : offGrid (Num.float (100 * j)).val with
    | false => rfl
    | true => exact absurd rfl ((offGrid_iff _).mp h' j)
  have hnone : dictGet (tbl.map fun n => (Nat.toDigits 10 n.t, n.mu)) (Num.float (100 * j)).str = none := by
    rw [Dict.dictGet_eq_none]
    intro hmem
    rw [List.map_map] at hmem
    obtain ⟨n, -, hn⟩ := List.mem_map.mp hmem
    have hdot : '.' ∈ Nat.toDigits 10 n.t := by
      simp only [Function.comp] at hn
      rw [hn]; simp [Num.str]
    have := Nat.isDigit_of_mem_toDigits (by decide) (by decide) hdot
    exact absurd this (by decide)
  unfold elemMu
  rw [ho, hnone]; rfl

/-- Three nodes of an elemental column. -/
def exElem : List Node := [⟨300, -1⟩, ⟨400, -2⟩, ⟨500, -4⟩]

example : Grid 3 (exElem.map fun n => ((n.t : ℚ), n.mu)) := by simp only [exElem, List.map, Grid]; norm_num
example : elemMu exElem (.int 400) = .ok (-2) ∧ elemMu exElem (.float 400) = .error .keyError ∧
    elemMu exElem (.float 450) = .ok (-3) ∧ elemMu exElem (.int 450) = .ok (-3) := by decide +kernel

/-! ### C67: data sources -/

section Sources
variable {η φ : Type} [DecidableEq η] [DecidableEq φ]

/-- The experimental entries found for a formula. -/
def found (hasNist hasFreed : φ → Bool) (nist freed : Bool) (f : φ) : List (Src η φ) :=
  (if nist && hasNist f then [Src.nist f] else []) ++ (if freed && hasFreed f then [Src.freed f] else [])

/-- Whether the look-up whose result is tested at the end found something. -/
def lastFound (hasNist hasFreed : φ → Bool) (nist freed : Bool) (f : φ) : Bool :=
  if freed then freed && hasFreed f else nist && hasNist f

theorem fold_src (form : η → φ) (skip : η → Bool) (hasNist hasFreed : φ → Bool) (nist freed : Bool) (l : List η) :
    ∀ (s : List (Src η φ) × List φ) (A : Src η φ → Prop),
    (∀ f ∈ s.2, lastFound hasNist hasFreed nist freed f = true ∧ ∀ r ∈ found (η := η) hasNist hasFreed nist freed f, r ∈ s.1) →
    (∀ r, r ∈ s.1 ↔ A r) →
    ∀ r, r ∈ (l.foldl (fromPdStep form skip hasNist hasFreed nist freed) s).1 ↔ A r ∨ ∃ e ∈ l, skip e = false ∧
      (r ∈ found hasNist hasFreed nist freed (form e) ∨ (lastFound hasNist hasFreed nist freed (form e) = false ∧ r = .gibbs e)) := by
  induction l with
  | nil => intro s A _ h r; simp [h r]
  | cons a l ih =>
    intro s A hs h r
    have hstep : fromPdStep form skip hasNist hasFreed nist freed s a = if skip a = true ∨ form a ∈ s.2 then s
        else if lastFound hasNist hasFreed nist freed (form a) = true
          then (s.1 ++ found hasNist hasFreed nist freed (form a), s.2 ++ [form a])
          else (s.1 ++ (found hasNist hasFreed nist freed (form a) ++ [Src.gibbs a]), s.2) := rfl
    rw [List.foldl_cons, hstep]
    simp only [List.exists_mem_cons_iff]
    by_cases h0 : skip a = true ∨ form a ∈ s.2
    · rw [if_pos h0, ih s A hs h r]
      constructor
      · rintro (hr | hr)
        · exact Or.inl hr
        · exact Or.inr (Or.inr hr)
      · rintro (hr | ⟨hsk, hr⟩ | hr)
        · exact Or.inl hr
        · obtain ⟨b1, b2⟩ := hs _ (h0.resolve_left (by rw [hsk]; decide))
          rcases hr with hr | hr
          · exact Or.inl ((h r).mp (b2 r hr))
          · rw [b1] at hr; exact absurd hr.1 (by decide)
        · exact Or.inr hr
    · rw [if_neg h0]
      push Not at h0
      have hsk : skip a = false := by simpa using h0.1
      by_cases hl : lastFound hasNist hasFreed nist freed (form a) = true
      · rw [if_pos hl, ih _ (fun r => A r ∨ r ∈ found hasNist hasFreed nist freed (form a)) ?_ ?_ r]
        · simp only [hsk, hl]; simp only [Bool.true_eq_false, false_and, or_false, true_and, or_assoc]
        · intro f hf
          rcases List.mem_append.mp hf with hf | hf
          · exact ⟨(hs f hf).1, fun r hr => List.mem_append_left _ ((hs f hf).2 r hr)⟩
          · rw [List.mem_singleton] at hf; subst hf
            exact ⟨hl, fun r hr => List.mem_append_right _ hr⟩
        · intro r; rw [List.mem_append, h r]
      · rw [if_neg hl, ih _ (fun r => A r ∨ r ∈ found hasNist hasFreed nist freed (form a) ∨ r = .gibbs a) ?_ ?_ r]
        · have hl' : lastFound hasNist hasFreed nist freed (form a) = false := by simpa using hl
          simp only [hsk, hl', true_and, or_assoc]
        · intro f hf
          exact ⟨(hs f hf).1, fun r hr => List.mem_append_left _ ((hs f hf).2 r hr)⟩
        · intro r; simp only [List.mem_append, h r, List.mem_singleton]

/-- What the set contains, for every choice of sources. -/
theorem mem_fromPd (form : η → φ) (skip : η → Bool) (hasNist hasFreed : φ → Bool) (nist freed : Bool) (all : List η) (r : Src η φ) :
    r ∈ fromPd form skip hasNist hasFreed nist freed all ↔ ∃ e ∈ all, skip e = false ∧
      (r ∈ found hasNist hasFreed nist freed (form e) ∨ (lastFound hasNist hasFreed nist freed (form e) = false ∧ r = .gibbs e)) := by
  unfold fromPd
  rw [fold_src form skip hasNist hasFreed nist freed all ([], []) (fun _ => False) (by simp) (by simp)]
  simp

/-- Specification: experimental data take precedence. A formula's computed entries are used exactly when no selected source has
data for it. -/
def Precedence (form : η → φ) (skip : η → Bool) (hasNist hasFreed : φ → Bool) (nist freed : Bool) (all : List η)
    (out : List (Src η φ)) : Prop :=
  ∀ e, Src.gibbs e ∈ out ↔ e ∈ all ∧ skip e = false ∧ ¬ (nist = true ∧ hasNist (form e) = true) ∧ ¬ (freed = true ∧ hasFreed (form e) = true)

/-- **C67, provable part.** Experimental data take precedence when at most one experimental source is selected (the default).
Missing: both sources at once, for which it is false (`C67_violated`). -/
theorem C67_precedence_partial (form : η → φ) (skip : η → Bool) (hasNist hasFreed : φ → Bool) (nist freed : Bool) (all : List η)
    (h : nist = false ∨ freed = false) :
    Precedence form skip hasNist hasFreed nist freed all (fromPd form skip hasNist hasFreed nist freed all) := by
  intro e
  rw [mem_fromPd]
  have hfound : ∀ f, (Src.gibbs e : Src η φ) ∉ found hasNist hasFreed nist freed f := by
    intro f hf; unfold found at hf; split_ifs at hf <;> simp at hf
  have hlast : lastFound hasNist hasFreed nist freed (form e) = false ↔
      ¬ (nist = true ∧ hasNist (form e) = true) ∧ ¬ (freed = true ∧ hasFreed (form e) = true) := by
    unfold lastFound
    rcases h with rfl | rfl
    · cases freed <;> simp
    · cases nist <;> simp
  constructor
  · rintro ⟨x, hx, hs, hr | ⟨hl, hr⟩⟩
    · exact absurd hr (hfound _)
    · cases hr; exact ⟨hx, hs, hlast.mp hl⟩
  · rintro ⟨hx, hs, hr⟩
    exact ⟨e, hx, hs, Or.inr ⟨hlast.mpr hr, rfl⟩⟩

/-- **C67, experimental entries**: for every choice of sources, the entry of a selected source is present exactly when the source has
data for the formula of some (not skipped) entry. -/
theorem C67_experimental (form : η → φ) (skip : η → Bool) (hasNist hasFreed : φ → Bool) (nist freed : Bool) (all : List η) (f : φ) :
    (Src.nist f ∈ fromPd form skip hasNist hasFreed nist freed all ↔
      (nist = true ∧ hasNist f = true) ∧ ∃ e ∈ all, skip e = false ∧ form e = f) ∧
    (Src.freed f ∈ fromPd form skip hasNist hasFreed nist freed all ↔
      (freed = true ∧ hasFreed f = true) ∧ ∃ e ∈ all, skip e = false ∧ form e = f) := by
  have h1 : ∀ g, (Src.nist f : Src η φ) ∈ found hasNist hasFreed nist freed g ↔ (nist = true ∧ hasNist f = true) ∧ g = f := by
    intro g; unfold found
    by_cases hgf : g = f
    · subst hgf; split_ifs <;> simp_all
    · have : ¬ f = g := fun h => hgf h.symm
      split_ifs <;> simp_all
  have h2 : ∀ g, (Src.freed f : Src η φ) ∈ found hasNist hasFreed nist freed g ↔ (freed = true ∧ hasFreed f = true) ∧ g = f := by
    intro g; unfold found
    by_cases hgf : g = f
    · subst hgf; split_ifs <;> simp_all
    · have : ¬ f = g := fun h => hgf h.symm
      split_ifs <;> simp_all
  constructor <;> rw [mem_fromPd]
  · simp only [h1, reduceCtorEq, and_false, or_false]
    exact ⟨fun ⟨e, a, b, c, d⟩ => ⟨c, e, a, b, d⟩, fun ⟨c, e, a, b, d⟩ => ⟨e, a, b, c, d⟩⟩
  · simp only [h2, reduceCtorEq, and_false, or_false]
    exact ⟨fun ⟨e, a, b, c, d⟩ => ⟨c, e, a, b, d⟩, fun ⟨c, e, a, b, d⟩ => ⟨e, a, b, c, d⟩⟩

example : fromPd id (fun e => e = 9) (fun f => f = 1) (fun _ => false) true false [1, 2, 1, 9] = [.nist 1, .gibbs 2] := by decide +kernel

/-- **C67 is violated with both sources**: a formula known to NIST but not to FREED gets its NIST entry and its computed entry. -/
theorem C67_violated : ∃ (hasNist hasFreed : ℕ → Bool) (all : List ℕ),
    ¬ Precedence id (fun _ => false) hasNist hasFreed true true all (fromPd id (fun _ => false) hasNist hasFreed true true all) := by
  refine ⟨fun _ => true, fun _ => false, [1], fun h => ?_⟩
  have := (h 1).mp (by decide +kernel)
  exact this.2.2.1 ⟨rfl, rfl⟩

end Sources

theorem exTable_grid : Grid 3 exTable := by simp only [exTable, Grid]; norm_num

example := C43_node exTable 3 exTable_grid 500 (-2) (by decide +kernel)
example := C43_linear exTable 3 exTable_grid 400 (-4) 500 (-2) 450 ⟨[(300, -5)], [(600, -3)], rfl⟩ (by norm_num) (by norm_num)
example := C43_total [(400, -4), (500, -2), (600, -3)] 3 (300, -5) (600, -3) exTable_grid (by decide +kernel) 450 (by norm_num) (by norm_num)
example := C43_between exTable 3 exTable_grid 400 (-4) 500 (-2) 450 (-3) ⟨[(300, -5)], [(600, -3)], rfl⟩ (by norm_num) (by norm_num)
  (by decide +kernel)
example := C43_element_node_partial exElem 3 (by simp only [exElem, List.map, Grid]; norm_num) ⟨400, -2⟩ (by simp [exElem])
example := C43_element_linear exElem 3 (by simp only [exElem, List.map, Grid]; norm_num) 400 (-2) 500 (-4) (.float 450)
  ⟨[(300, -1)], [], by simp only [exElem, List.map]; norm_num⟩ (by decide +kernel) (by decide +kernel)
example := C67_precedence_partial id (fun e => decide (e = 9)) (fun f => decide (f = 1)) (fun _ => false) true false [1, 2, 1, 9] (.inr rfl)

end Verif.Props.EntryTable
