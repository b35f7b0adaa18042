import Verif.Props.DomainDistance

/-!
C152: the domains and distances of a chemical potential diagram under a change of the reference energies of the elements, of the unit of
energy and of the order of the phases (src/rxn_network/thermo/chempot_diagram.py).
-/

set_option linter.unusedSectionVars false

namespace Verif.Props.DomainShift
open Verif.Py Verif.Model Verif.Model.Chempot Verif.Model.Thermo Verif.Lemmas Verif.Lemmas.Dict Verif.Props.Chempot Verif.Props.DomainDistance

variable {η ε φ : Type} [DecidableEq η] [DecidableEq ε] [DecidableEq φ]

/-! ### Specification -/

/-- A point of chemical potential space in another unit (`a`) and with other reference energies (`t`). -/
def moved (a : ℚ) (t μ : List ℚ) : List ℚ := List.zipWith (fun m s => a * m + s) μ t

/-- The half-space `row` after the same change. -/
def movedRow (n : ℕ) (a : ℚ) (t row : List ℚ) : List ℚ := row.take n ++ [a * row.getD n 0 - dot (row.take n) t]

/-- A point that satisfies all half-spaces. -/
def Feasible (n : ℕ) (H : List (List ℚ)) (μ : List ℚ) : Prop := μ.length = n ∧ ∀ r ∈ H, dot r (μ ++ [1]) ≤ 0

/-- A corner: the only optimum of some objective. -/
def Vertex (n : ℕ) (H : List (List ℚ)) (p : List ℚ) : Prop :=
  Feasible n H p ∧ ∃ c : List ℚ, c.length = n ∧ ∀ q, Feasible n H q → q ≠ p → dot c q < dot c p

/-- A half-space that bounds a facet: somewhere it is the only one that is tight. -/
def Facet (n : ℕ) (H : List (List ℚ)) (row : List ℚ) : Prop :=
  row ∈ H ∧ ∃ μ : List ℚ, μ.length = n ∧ dot row (μ ++ [1]) = 0 ∧ ∀ r ∈ H.erase row, dot r (μ ++ [1]) < 0

/-- What is assumed of scipy's half-space intersection besides `Intersects` and `Corners`: it lists corners only, and for a half-space it lists
a point exactly if the half-space bounds a facet. (No two half-spaces coincide; otherwise Qhull keeps one of them.) -/
structure Precise (n : ℕ) (H : List (List ℚ)) (pairs : List (List ℚ × List ℕ)) : Prop where
  vertex : ∀ p ∈ pairs, Vertex n H p.1
  facet : ∀ v row, H[v]? = some row → ((∃ p ∈ pairs, v ∈ p.2) ↔ Facet n H row)

/-- The point `p` is listed for the formula `f`. -/
def Listed (doms : List (φ × List (List ℚ))) (f : φ) (p : List ℚ) : Prop := ∃ pts, (f, pts) ∈ doms ∧ p ∈ pts

/-! ### Helper lemmas: moving points and half-spaces -/

theorem dot_cons (x y : ℚ) (l m : List ℚ) : dot (x :: l) (y :: m) = x * y + dot l m := by simp [dot]

theorem dot_nil_left (l : List ℚ) : dot [] l = 0 := by simp [dot]

theorem length_moved (a : ℚ) (t μ : List ℚ) (h : μ.length = t.length) : (moved a t μ).length = t.length := by
  unfold moved; rw [List.length_zipWith, h, min_self]

theorem dot_moved (a : ℚ) : ∀ c t μ : List ℚ, c.length = t.length → μ.length = t.length → dot c (moved a t μ) = a * dot c μ + dot c t
  | [], [], [], _, _ => by simp [dot]
  | x :: c, s :: t, m :: μ, h1, h2 => by
    have ih := dot_moved a c t μ (by simpa using h1) (by simpa using h2)
    unfold moved at ih ⊢
    rw [List.zipWith_cons_cons, dot_cons, dot_cons, dot_cons, ih]
    ring

theorem moved_inj {a : ℚ} (ha : 0 < a) : ∀ t μ ν : List ℚ, μ.length = t.length → ν.length = t.length → moved a t μ = moved a t ν → μ = ν
  | [], [], [], _, _, _ => rfl
  | s :: t, m :: μ, k :: ν, h1, h2, h => by
    unfold moved at h
    rw [List.zipWith_cons_cons, List.zipWith_cons_cons] at h
    obtain ⟨e1, e2⟩ := List.cons.inj h
    have : m = k := mul_left_cancel₀ ha.ne' (add_right_cancel e1)
    rw [this, moved_inj ha t μ ν (by simpa using h1) (by simpa using h2) e2]

theorem moved_surj {a : ℚ} (ha : 0 < a) : ∀ t ν : List ℚ, ν.length = t.length → ∃ μ : List ℚ, μ.length = t.length ∧ moved a t μ = ν
  | [], [], _ => ⟨[], rfl, rfl⟩
  | s :: t, k :: ν, h => by
    obtain ⟨μ, h1, h2⟩ := moved_surj ha t ν (by simpa using h)
    refine ⟨(k - s) / a :: μ, by simp [h1], ?_⟩
    unfold moved at h2 ⊢
    rw [List.zipWith_cons_cons, h2]
    congr 1
    field_simp
    ring

theorem dot_snoc : ∀ (n : ℕ) (row μ : List ℚ), row.length = n + 1 → μ.length = n → dot row (μ ++ [1]) = dot (row.take n) μ + row.getD n 0
  | 0, [b], [], _, _ => by simp [dot]
  | n + 1, x :: row, m :: μ, h1, h2 => by
    have ih := dot_snoc n row μ (by simpa using h1) (by simpa using h2)
    rw [List.cons_append, dot_cons, ih, List.take_succ_cons, dot_cons, List.getD_cons_succ]
    ring

theorem dot_movedRow {n : ℕ} {a : ℚ} {t row μ : List ℚ} (ht : t.length = n) (hr : row.length = n + 1) (hμ : μ.length = n) :
    dot (movedRow n a t row) (moved a t μ ++ [1]) = a * dot row (μ ++ [1]) := by
  have hl : (row.take n).length = n := by rw [List.length_take, hr]; omega
  have h1 : (movedRow n a t row).length = n + 1 := by unfold movedRow; simp [hr]
  rw [dot_snoc n _ _ h1 (by rw [length_moved _ _ _ (by omega), ht]), dot_snoc n row μ hr hμ]
  have e1 : (movedRow n a t row).take n = row.take n := by
    unfold movedRow
    rw [List.take_left' hl]
  have e2 : (movedRow n a t row).getD n 0 = a * row.getD n 0 - dot (row.take n) t := by
    unfold movedRow
    rw [List.getD_append_right _ _ _ _ (by rw [hl]), hl]
    simp
  rw [e1, e2, dot_moved a _ _ _ (by omega) (by omega)]
  ring

section
variable {n : ℕ} {a : ℚ} {t : List ℚ} {H H' : List (List ℚ)}

theorem feasible_moved (ha : 0 < a) (ht : t.length = n) (hl : ∀ r ∈ H, r.length = n + 1) (hp : H'.Perm (H.map (movedRow n a t))) {μ : List ℚ}
    (hμ : μ.length = n) : Feasible n H' (moved a t μ) ↔ Feasible n H μ := by
  unfold Feasible
  rw [length_moved _ _ _ (by omega)]
  constructor
  · rintro ⟨-, h⟩
    refine ⟨hμ, fun r hr => ?_⟩
    have := h _ (hp.mem_iff.mpr (List.mem_map_of_mem hr))
    rw [dot_movedRow ht (hl r hr) hμ] at this
    exact nonpos_of_mul_nonpos_right this ha
  · rintro ⟨-, h⟩
    refine ⟨ht, fun r' hr' => ?_⟩
    obtain ⟨r, hr, rfl⟩ := List.mem_map.mp (hp.mem_iff.mp hr')
    rw [dot_movedRow ht (hl r hr) hμ]
    exact mul_nonpos_of_nonneg_of_nonpos ha.le (h r hr)

theorem vertex_moved (ha : 0 < a) (ht : t.length = n) (hl : ∀ r ∈ H, r.length = n + 1) (hp : H'.Perm (H.map (movedRow n a t))) {p : List ℚ}
    (hμ : p.length = n) : Vertex n H' (moved a t p) ↔ Vertex n H p := by
  unfold Vertex
  rw [feasible_moved ha ht hl hp hμ]
  refine and_congr_right fun _ => exists_congr fun c => and_congr_right fun hc => ?_
  constructor
  · intro h q hq hne
    have := h (moved a t q) ((feasible_moved ha ht hl hp hq.1).mpr hq) fun e => hne (moved_inj ha t q p (by rw [hq.1, ht]) (by omega) e)
    rw [dot_moved a _ _ _ (by omega) (by rw [hq.1, ht]), dot_moved a _ _ _ (by omega) (by omega)] at this
    exact lt_of_mul_lt_mul_left (lt_of_add_lt_add_right this) ha.le
  · intro h q' hq' hne
    obtain ⟨q, hq, rfl⟩ := moved_surj ha t q' (by rw [hq'.1, ht])
    have hq1 : q.length = n := by omega
    have := h q ((feasible_moved ha ht hl hp hq1).mp hq') fun e => hne (by rw [e])
    rw [dot_moved a _ _ _ (by omega) hq, dot_moved a _ _ _ (by omega) (by omega)]
    have := mul_lt_mul_of_pos_left this ha
    linarith

theorem facet_moved (ha : 0 < a) (ht : t.length = n) (hl : ∀ r ∈ H, r.length = n + 1) (hp : H'.Perm (H.map (movedRow n a t))) {row : List ℚ}
    (hr : row ∈ H) : Facet n H' (movedRow n a t row) ↔ Facet n H row := by
  have hp' : (H'.erase (movedRow n a t row)).Perm ((H.erase row).map (movedRow n a t)) := by
    have h1 := (hp.trans ((List.perm_cons_erase hr).map _)).erase (movedRow n a t row)
    rwa [List.map_cons, List.erase_cons_head] at h1
  unfold Facet
  constructor
  · rintro ⟨-, μ', h1, h2, h3⟩
    obtain ⟨μ, hμ, rfl⟩ := moved_surj ha t μ' (by omega)
    have hμ1 : μ.length = n := by omega
    refine ⟨hr, μ, hμ1, ?_, fun r hre => ?_⟩
    · rw [dot_movedRow ht (hl row hr) hμ1] at h2
      exact (mul_eq_zero.mp h2).resolve_left ha.ne'
    · have := h3 _ (hp'.mem_iff.mpr (List.mem_map_of_mem hre))
      rw [dot_movedRow ht (hl r (List.mem_of_mem_erase hre)) hμ1] at this
      exact neg_of_mul_neg_right this ha.le
  · rintro ⟨-, μ, h1, h2, h3⟩
    refine ⟨hp.mem_iff.mpr (List.mem_map_of_mem hr), moved a t μ, by rw [length_moved _ _ _ (by omega), ht], ?_, fun r' hr' => ?_⟩
    · rw [dot_movedRow ht (hl row hr) h1, h2, mul_zero]
    · obtain ⟨r, hre, rfl⟩ := List.mem_map.mp (hp'.mem_iff.mp hr')
      rw [dot_movedRow ht (hl r (List.mem_of_mem_erase hre)) h1]
      exact mul_neg_of_pos_of_neg ha (h3 r hre)

end

/-- What a precise half-space intersection lists. -/
theorem listed_iff {n : ℕ} {H : List (List ℚ)} {pairs : List (List ℚ × List ℕ)} (I : Intersects n H pairs) (C : Corners n H pairs)
    (P : Precise n H pairs) (v : ℕ) (row : List ℚ) (hv : H[v]? = some row) (p : List ℚ) :
    (∃ facet, (p, facet) ∈ pairs ∧ v ∈ facet) ↔ Vertex n H p ∧ Facet n H row ∧ dot row (p ++ [1]) = 0 := by
  constructor
  · rintro ⟨facet, h1, h2⟩
    refine ⟨P.vertex _ h1, (P.facet v row hv).mp ⟨_, h1, h2⟩, ?_⟩
    obtain ⟨-, -, h3⟩ := I _ h1
    obtain ⟨r, hr, h0⟩ := h3 v h2
    rw [hv] at hr
    cases hr
    exact h0
  · rintro ⟨⟨⟨h1, h2⟩, c, hc, hopt⟩, hf, h0⟩
    obtain ⟨q, hq, hvq, hle⟩ := C.optimum v ((P.facet v row hv).mpr hf) row hv c p hc h1 h2 h0
    have hqf : Feasible n H q.1 := (P.vertex q hq).1
    have : q.1 = p := by
      by_contra hne
      exact absurd (hopt q.1 hqf hne) (not_lt.mpr hle)
    exact ⟨q.2, by rw [← this]; exact hq, hvq⟩

/-! ### Helper lemmas: the half-spaces of a diagram -/

theorem weighted_moved (elements : List ε) (frac : η → ε → ℚ) (e : η) (a : ℚ) (t μ : List ℚ) (ht : t.length = elements.length)
    (hμ : μ.length = elements.length) : weighted elements frac e (moved a t μ) = a * weighted elements frac e μ + weighted elements frac e t := by
  rw [← dot_frac, ← dot_frac, ← dot_frac]
  exact dot_moved a _ _ _ (by simp [ht]) (by rw [hμ, ht])

theorem filter_range (mins : List η) (c : η → Bool) :
    ((List.range mins.length).filter fun i => match mins[i]? with | some e => c e | none => false).filterMap (fun i => mins[i]?) = mins.filter c := by
  have h : mins = (List.range mins.length).filterMap fun i => mins[i]? := by
    have h1 : (List.range mins.length).map (fun i => mins[i]?) = mins.map some := by
      apply List.ext_getElem (by simp)
      intro i h1 h2
      simp
    have h2 : (List.range mins.length).filterMap (fun i => mins[i]?) = ((List.range mins.length).map fun i => mins[i]?).filterMap id := by
      rw [List.filterMap_map]; rfl
    rw [h2, h1, List.filterMap_map]
    simp
  conv_rhs => rw [h]
  rw [List.filter_filterMap, List.filterMap_filter]
  apply List.filterMap_congr
  intro i _
  cases mins[i]? with
  | none => simp
  | some e => by_cases hc : c e = true <;> simp [hc, Option.filter]

/-- The selected entries: those of negative formation energy, then the references. -/
theorem selected (elements : List ε) (frac : η → ε → ℚ) (epa : η → ℚ) (mins : List η) (refs : List (ε × η))
    (H : List (List ℚ)) (E : List η) (h : hyperplanesAndEntries elements frac epa mins refs = .ok (H, E)) :
    ∃ vec, List.Forall₂ (fun el v => ∃ r, dictGet refs el = some r ∧ v = epa r) elements vec ∧ H = E.map (hyperplane elements frac epa) ∧
      E = (mins.filter fun e => decide (epa e - weighted elements frac e vec < -formTol)) ++ refs.map Prod.snd := by
  obtain ⟨vec', hvec', hH, hri, -⟩ := selection elements frac epa mins refs H E h
  refine ⟨vec', hvec', hH, ?_⟩
  unfold hyperplanesAndEntries at h
  cases hv : elements.mapM (refEnergy epa refs) with
  | error x => simp only [hv] at h; cases h
  | ok vec =>
    have hvec : vec = vec' := by
      have := (Verif.Lemmas.Exc.mapM_ok _ _ _).mp hv
      clear hv hH h
      induction this generalizing vec' with
      | nil => cases hvec'; rfl
      | cons a _ ih =>
        cases hvec' with
        | cons b hb =>
          obtain ⟨r, hr, rfl⟩ := b
          unfold refEnergy at a
          rw [hr] at a
          cases a
          rw [ih _ hb]
    subst hvec
    have hlen : vec.length = elements.length := hvec'.length_eq.symm
    simp only [hv] at h
    cases hr : refs.mapM (fun p => indexIn mins p.2) with
    | error x => rw [hr] at h; cases h
    | ok ri =>
      rw [hr] at h
      injection h with h
      injection h with h1 h2
      rw [← h2, List.filterMap_append]
      congr 1
      · rw [← filter_range mins]
        congr 1
        apply List.filter_congr
        intro i _
        rw [List.getElem?_map]
        cases mins[i]? with
        | none => rfl
        | some e =>
          simp only [Option.map_some]
          rw [dot_hyperplane _ _ _ _ _ hlen]
          congr 1
          apply propext
          constructor <;> intro hh <;> linarith
      · have := (Verif.Lemmas.Exc.mapM_ok _ _ _).mp hr
        clear h1 h2 hr hvec' hv
        induction this with
        | nil => rfl
        | @cons p i _ _ a _ ih =>
          unfold indexIn at a
          split at a
          · rename_i hmem
            cases a
            rw [List.map_cons, List.filterMap_cons, List.getElem?_idxOf hmem]
            simp only
            rw [ih]
            intro q hq
            exact hri q (List.mem_cons_of_mem _ hq)
          · cases a

/-- Two descriptions of the same phases: the second in another unit of energy, with other references of the elements (energies of all phases and
the limits change accordingly) and in another order. -/
structure Same (elements : List ε) (frac : η → ε → ℚ) (a : ℚ) (t : List ℚ) (epa epa' : η → ℚ) (mins mins' : List η) (refs refs' : List (ε × η))
    (borders borders' : List (List ℚ)) : Prop where
  pos : 0 < a
  length : t.length = elements.length
  once : mins.Nodup
  energy : ∀ e ∈ mins, epa' e = a * epa e + weighted elements frac e t
  mins : mins'.Perm mins
  refs : refs'.Perm refs
  rows : ∀ row ∈ borders, row.length = elements.length + 1
  borders : borders'.Perm (borders.map (movedRow elements.length a t))

section
variable {elements : List ε} {frac : η → ε → ℚ} {epa epa' : η → ℚ} {formula : η → φ} {mins mins' : List η} {refs refs' : List (ε × η)}
  {borders borders' : List (List ℚ)} {hsInt hsInt' : List (List ℚ) → List (List ℚ × List ℕ)} {doms doms' : List (φ × List (List ℚ))} {a : ℚ}
  {t : List ℚ}

/-- The energies of the references, in the other description. -/
theorem vec_moved (hn : elements.Nodup) (R : Refs elements frac mins refs) (S : Same elements frac a t epa epa' mins mins' refs refs' borders borders')
    {vec vec' : List ℚ} (h : List.Forall₂ (fun el v => ∃ r, dictGet refs el = some r ∧ v = epa r) elements vec)
    (h' : List.Forall₂ (fun el v => ∃ r, dictGet refs' el = some r ∧ v = epa' r) elements vec') : vec' = moved a t vec := by
  have l1 := h.length_eq
  have l2 := h'.length_eq
  have ht := S.length
  have hnd' : (refs'.map Prod.fst).Nodup := (S.refs.map Prod.fst).nodup_iff.mpr R.nodup
  apply List.ext_getElem?
  intro i
  by_cases hi : i < elements.length
  · obtain ⟨r, hr, hv⟩ := (List.forall₂_iff_get.mp h).2 i hi (by omega)
    obtain ⟨r', hr', hv'⟩ := (List.forall₂_iff_get.mp h').2 i hi (by omega)
    have hm := mem_of_dictGet _ _ _ hr
    have hrr : dictGet refs' (elements.get ⟨i, hi⟩) = some r := dictGet_eq_some_of_mem _ hnd' _ _ (S.refs.mem_iff.mpr hm)
    rw [hrr] at hr'
    cases hr'
    obtain ⟨m1, -, m3⟩ := R.mem _ hm
    have hel : elements[i]? = some (elements.get ⟨i, hi⟩) := List.getElem?_eq_getElem hi
    have ht' := weighted_unit elements hn frac r t ht _ i hel m3
    have e1 : vec'[i]? = some (epa' r) := by rw [List.getElem?_eq_getElem (by omega)]; exact congrArg some hv'
    have e2 : vec[i]? = some (epa r) := by rw [List.getElem?_eq_getElem (by omega)]; exact congrArg some hv
    unfold moved
    rw [e1, List.getElem?_zipWith, e2, ht', S.energy r m1]
  · unfold moved
    rw [List.getElem?_eq_none (by omega), List.getElem?_eq_none (by rw [List.length_zipWith]; omega)]

/-- The half-spaces of the two descriptions correspond. -/
theorem halfspaces (D : Diagram elements frac epa formula mins refs borders hsInt doms)
    (D' : Diagram elements frac epa' formula mins' refs' borders' hsInt' doms')
    (S : Same elements frac a t epa epa' mins mins' refs refs' borders borders') {H H' : List (List ℚ)} {E E' : List η}
    (h : hyperplanesAndEntries elements frac epa mins refs = .ok (H, E)) (h' : hyperplanesAndEntries elements frac epa' mins' refs' = .ok (H', E')) :
    H = E.map (hyperplane elements frac epa) ∧ H' = E'.map (hyperplane elements frac epa') ∧ E'.Perm E ∧ E.Nodup ∧ (∀ e ∈ E, e ∈ mins) ∧
      (∀ e ∈ mins, hyperplane elements frac epa' e = movedRow elements.length a t (hyperplane elements frac epa e)) ∧
      (∀ r ∈ H ++ borders, r.length = elements.length + 1) ∧ (H' ++ borders').Perm ((H ++ borders).map (movedRow elements.length a t)) := by
  obtain ⟨vec, hvec, hH, hE⟩ := selected _ _ _ _ _ _ _ h
  obtain ⟨vec', hvec', hH', hE'⟩ := selected _ _ _ _ _ _ _ h'
  have hl : vec.length = elements.length := hvec.length_eq.symm
  have hv := vec_moved D.nodup D.isRefs S hvec hvec'
  have hvec2 : List.Forall₂ (fun el v => ∃ r, (el, r) ∈ refs ∧ v = epa r) elements vec :=
    hvec.imp fun el v ⟨r, hr, hv⟩ => ⟨r, mem_of_dictGet _ _ _ hr, hv⟩
  have hvec2' : List.Forall₂ (fun el v => ∃ r, (el, r) ∈ refs' ∧ v = epa' r) elements vec' :=
    hvec'.imp fun el v ⟨r, hr, hv⟩ => ⟨r, mem_of_dictGet _ _ _ hr, hv⟩
  have hform : ∀ e ∈ mins, epa' e - weighted elements frac e vec' = a * (epa e - weighted elements frac e vec) := by
    intro e he
    rw [hv, weighted_moved _ _ _ _ _ _ S.length hl, S.energy e he]
    ring
  have hcond : ∀ e ∈ mins, (epa' e - weighted elements frac e vec' < -formTol ↔ epa e - weighted elements frac e vec < -formTol) := by
    intro e he
    have s1 := D.sharp e he vec hvec2
    have s2 := D'.sharp e (S.mins.mem_iff.mpr he) vec' hvec2'
    have htol : (0 : ℚ) < formTol := by unfold formTol; norm_num
    have hf := hform e he
    constructor
    · intro hlt
      refine s1.resolve_right fun h0 => ?_
      have : 0 ≤ a * (epa e - weighted elements frac e vec) := mul_nonneg S.pos.le h0
      linarith
    · intro hlt
      refine s2.resolve_right fun h0 => ?_
      have : a * (epa e - weighted elements frac e vec) < 0 := mul_neg_of_pos_of_neg S.pos (by linarith)
      linarith
  have hmemE : ∀ e ∈ E, e ∈ mins := by
    intro e he
    rw [hE] at he
    rcases List.mem_append.mp he with he | he
    · exact (List.mem_filter.mp he).1
    · obtain ⟨p, hp, rfl⟩ := List.mem_map.mp he
      exact (D.isRefs.mem p hp).1
  have hperm : E'.Perm E := by
    rw [hE, hE']
    refine List.Perm.append ?_ (S.refs.map _)
    refine (S.mins.filter _).trans (List.Perm.of_eq ?_)
    apply List.filter_congr
    intro e he
    exact decide_eq_decide.mpr (hcond e he)
  have hnodup : E.Nodup := by
    rw [hE, List.nodup_append]
    refine ⟨S.once.filter _, ?_, ?_⟩
    · rw [List.nodup_map_iff_inj_on (List.Nodup.of_map _ D.isRefs.nodup)]
      intro p hp q hq hpq
      obtain ⟨-, p2, p3⟩ := D.isRefs.mem p hp
      obtain ⟨-, q2, q3⟩ := D.isRefs.mem q hq
      have hfst : p.1 = q.1 := by
        by_contra hne
        have e1 := p3 p.1 p2
        have e2 := q3 p.1 p2
        rw [hpq, if_pos rfl] at e1
        rw [if_neg hne, e1] at e2
        exact one_ne_zero e2
      exact Prod.ext hfst hpq
    · intro x hx y hy hxy
      subst hxy
      obtain ⟨-, hx2⟩ := List.mem_filter.mp hx
      have hx2 := of_decide_eq_true hx2
      obtain ⟨p, hp, rfl⟩ := List.mem_map.mp hy
      obtain ⟨-, p2, p3⟩ := D.isRefs.mem p hp
      obtain ⟨i, hi, hip⟩ := List.mem_iff_getElem.mp p2
      have hw := weighted_unit elements D.nodup frac p.2 vec hl p.1 i (by rw [List.getElem?_eq_getElem hi, hip]) p3
      obtain ⟨r, hr, hrv⟩ := (List.forall₂_iff_get.mp hvec).2 i hi (by omega)
      have hpr : dictGet refs p.1 = some p.2 := dictGet_eq_some_of_mem _ D.isRefs.nodup _ _ hp
      rw [List.get_eq_getElem, hip, hpr] at hr
      cases hr
      rw [List.getElem?_eq_getElem (by omega)] at hw
      have hw := Option.some.inj hw
      rw [List.get_eq_getElem] at hrv
      rw [← hw, ← hrv] at hx2
      have htol : (0 : ℚ) < formTol := by unfold formTol; norm_num
      linarith
  have hrow : ∀ e ∈ mins, hyperplane elements frac epa' e = movedRow elements.length a t (hyperplane elements frac epa e) := by
    intro e he
    unfold hyperplane movedRow
    rw [List.take_left' (by simp), List.getD_append_right _ _ _ _ (by simp), dot_frac, S.energy e he]
    simp
    ring
  have hlen : ∀ r ∈ H ++ borders, r.length = elements.length + 1 := by
    intro r hr
    rcases List.mem_append.mp hr with hr | hr
    · rw [hH] at hr
      obtain ⟨e, -, rfl⟩ := List.mem_map.mp hr
      simp [hyperplane]
    · exact S.rows r hr
  refine ⟨hH, hH', hperm, hnodup, hmemE, hrow, hlen, ?_⟩
  rw [List.map_append]
  refine List.Perm.append ?_ S.borders
  rw [hH, hH', List.map_map]
  refine (hperm.map _).trans (List.Perm.of_eq ?_)
  apply List.map_congr_left
  intro e he
  exact hrow e (hmemE e he)

end

/-! ### Theorems -/

variable {elements : List ε} {frac : η → ε → ℚ} {epa epa' : η → ℚ} {formula : η → φ} {mins mins' : List η} {refs refs' : List (ε × η)}
  {borders borders' : List (List ℚ)} {hsInt hsInt' : List (List ℚ) → List (List ℚ × List ℕ)} {doms doms' : List (φ × List (List ℚ))} {a : ℚ}
  {t : List ℚ}

/-- **C152, domains.** In another unit of energy, with other reference energies of the elements and with the phases in another order, the domain
of every phase has the same corners, in the new unit and shifted by the change of the references. -/
theorem C152_domains_partial (D : Diagram elements frac epa formula mins refs borders hsInt doms)
    (D' : Diagram elements frac epa' formula mins' refs' borders' hsInt' doms')
    (P : ∀ H E, hyperplanesAndEntries elements frac epa mins refs = .ok (H, E) → Precise elements.length (H ++ borders) (hsInt (H ++ borders)))
    (P' : ∀ H E, hyperplanesAndEntries elements frac epa' mins' refs' = .ok (H, E) → Precise elements.length (H ++ borders') (hsInt' (H ++ borders')))
    (S : Same elements frac a t epa epa' mins mins' refs refs' borders borders') (f : φ) :
    (∀ p, p.length = elements.length → (Listed doms' f (moved a t p) ↔ Listed doms f p)) ∧
    ∀ p', Listed doms' f p' → ∃ p, p.length = elements.length ∧ moved a t p = p' := by
  obtain ⟨H, E, hHE, -, -, -, -, hiff⟩ := C93_contents elements frac epa formula mins refs borders hsInt doms D.built
  obtain ⟨H', E', hHE', -, -, -, -, hiff'⟩ := C93_contents elements frac epa' formula mins' refs' borders' hsInt' doms' D'.built
  obtain ⟨hH, hH', hperm, hnd, hmem, hrow, hlen, hHp⟩ := halfspaces D D' S hHE hHE'
  have hP := P H E hHE
  have hP' := P' H' E' hHE'
  have at_ : ∀ {E : List η} {H : List (List ℚ)} {epa : η → ℚ} (_ : H = E.map (hyperplane elements frac epa)) (borders : List (List ℚ)) {v : ℕ} {e : η},
      E[v]? = some e → (H ++ borders)[v]? = some (hyperplane elements frac epa e) := by
    intro E H epa hH borders v e hv
    rw [List.getElem?_append_left (by rw [hH, List.length_map]; exact (List.getElem?_eq_some_iff.mp hv).1), hH, List.getElem?_map, hv]
    rfl
  constructor
  · intro p hp
    unfold Listed
    rw [hiff f p, hiff' f (moved a t p)]
    have key : ∀ e ∈ mins, hyperplane elements frac epa e ∈ H ++ borders →
        ((Vertex elements.length (H' ++ borders') (moved a t p) ∧ Facet elements.length (H' ++ borders') (hyperplane elements frac epa' e) ∧
          dot (hyperplane elements frac epa' e) (moved a t p ++ [1]) = 0) ↔
        (Vertex elements.length (H ++ borders) p ∧ Facet elements.length (H ++ borders) (hyperplane elements frac epa e) ∧
          dot (hyperplane elements frac epa e) (p ++ [1]) = 0)) := by
      intro e he hin
      rw [hrow e he, vertex_moved S.pos S.length hlen hHp hp, facet_moved S.pos S.length hlen hHp hin, dot_movedRow S.length (hlen _ hin) hp,
        mul_eq_zero, or_iff_right S.pos.ne']
    constructor
    · rintro ⟨facet, v, e, h1, h2, h3, h4⟩
      have heE : e ∈ E := hperm.mem_iff.mp (List.mem_of_getElem? h3)
      obtain ⟨w, hw⟩ := List.mem_iff_getElem?.mp heE
      have hw' := at_ hH borders hw
      have := (listed_iff (D'.intersects _) (D'.corners _) hP' v _ (at_ hH' borders' h3) _).mp ⟨facet, h1, h2⟩
      obtain ⟨facet', g1, g2⟩ := (listed_iff (D.intersects _) (D.corners _) hP w _ hw' _).mpr
        ((key e (hmem e heE) (List.mem_of_getElem? hw')).mp this)
      exact ⟨facet', w, e, g1, g2, hw, h4⟩
    · rintro ⟨facet, v, e, h1, h2, h3, h4⟩
      have heE : e ∈ E := List.mem_of_getElem? h3
      obtain ⟨w, hw⟩ := List.mem_iff_getElem?.mp (hperm.mem_iff.mpr heE)
      have h3' := at_ hH borders h3
      have := (listed_iff (D.intersects _) (D.corners _) hP v _ h3' _).mp ⟨facet, h1, h2⟩
      obtain ⟨facet', g1, g2⟩ := (listed_iff (D'.intersects _) (D'.corners _) hP' w _ (at_ hH' borders' hw) _).mpr
        ((key e (hmem e heE) (List.mem_of_getElem? h3')).mpr this)
      exact ⟨facet', w, e, g1, g2, hw, h4⟩
  · rintro p' ⟨pts, hpts, hp'⟩
    obtain ⟨facet, v, e, h1, -⟩ := (hiff' f p').mp ⟨pts, hpts, hp'⟩
    obtain ⟨hl, -⟩ := D'.intersects _ _ h1
    obtain ⟨p, hp1, hp2⟩ := moved_surj S.pos t p' (by rw [S.length]; exact hl)
    exact ⟨p, by rw [hp1, S.length], hp2⟩

theorem sq_moved (a : ℚ) : ∀ t p q : List ℚ, p.length = t.length → q.length = t.length →
    (List.zipWith (fun x y => (x - y) ^ 2) (moved a t p) (moved a t q)).sum = a ^ 2 * (List.zipWith (fun x y => (x - y) ^ 2) p q).sum
  | [], [], [], _, _ => by simp [moved]
  | s :: t, x :: p, y :: q, h1, h2 => by
    have ih := sq_moved a t p q (by simpa using h1) (by simpa using h2)
    unfold moved at ih ⊢
    rw [List.zipWith_cons_cons, List.zipWith_cons_cons, List.zipWith_cons_cons, List.zipWith_cons_cons, List.sum_cons, List.sum_cons, ih]
    ring

theorem euclid_moved {a : ℚ} (ha : 0 < a) (t p q : List ℚ) (h1 : p.length = t.length) (h2 : q.length = t.length) :
    euclid (moved a t p) (moved a t q) = a * euclid p q := by
  unfold euclid
  rw [sq_moved a t p q h1 h2]
  push_cast
  rw [Real.sqrt_mul (by positivity), Real.sqrt_sq (by exact_mod_cast ha.le)]

/-- **C152, which phases have a domain.** -/
theorem C152_stable_partial (D : Diagram elements frac epa formula mins refs borders hsInt doms)
    (D' : Diagram elements frac epa' formula mins' refs' borders' hsInt' doms')
    (P : ∀ H E, hyperplanesAndEntries elements frac epa mins refs = .ok (H, E) → Precise elements.length (H ++ borders) (hsInt (H ++ borders)))
    (P' : ∀ H E, hyperplanesAndEntries elements frac epa' mins' refs' = .ok (H, E) → Precise elements.length (H ++ borders') (hsInt' (H ++ borders')))
    (S : Same elements frac a t epa epa' mins mins' refs refs' borders borders') (f : φ) :
    (∃ pts, (f, pts) ∈ doms') ↔ ∃ pts, (f, pts) ∈ doms := by
  obtain ⟨h1, h2⟩ := C152_domains_partial D D' P P' S f
  constructor
  · rintro ⟨pts, h⟩
    obtain ⟨p', hp'⟩ := List.exists_mem_of_ne_nil _ (found D' _ _ h).2
    obtain ⟨p, hp, rfl⟩ := h2 p' ⟨pts, h, hp'⟩
    obtain ⟨pts', h', -⟩ := (h1 p hp).mp ⟨pts, h, hp'⟩
    exact ⟨pts', h'⟩
  · rintro ⟨pts, h⟩
    obtain ⟨p, hp⟩ := List.exists_mem_of_ne_nil _ (found D _ _ h).2
    obtain ⟨_, _, _, -, -, -, -, hiff⟩ := C93_contents elements frac epa formula mins refs borders hsInt doms D.built
    obtain ⟨facet, v, e, g1, -⟩ := (hiff f p).mp ⟨pts, h, hp⟩
    obtain ⟨hl, -⟩ := D.intersects _ _ g1
    obtain ⟨pts', h', -⟩ := (h1 p hl).mpr ⟨pts, h, hp⟩
    exact ⟨pts', h'⟩

/-- **C152, distances.** The reported distance of two phases with domains does not depend on the references of the elements or the order of the
phases, and in another unit it is the same energy in the new unit. -/
theorem C152_distance_partial {κ : Type} [DecidableEq κ] (X : Ext κ φ (List (List ℚ))) (s : CPD κ φ (List (List ℚ)))
    (D : Diagram elements frac epa formula mins refs borders hsInt doms)
    (D' : Diagram elements frac epa' formula mins' refs' borders' hsInt' doms')
    (P : ∀ H E, hyperplanesAndEntries elements frac epa mins refs = .ok (H, E) → Precise elements.length (H ++ borders) (hsInt (H ++ borders)))
    (P' : ∀ H E, hyperplanesAndEntries elements frac epa' mins' refs' = .ok (H, E) → Precise elements.length (H ++ borders') (hsInt' (H ++ borders')))
    (S : Same elements frac a t epa epa' mins mins' refs refs' borders borders') (f g : φ) (pf pg : List (List ℚ)) (hf : (f, pf) ∈ doms)
    (hg : (g, pg) ∈ doms) :
    ∃ m, shortest X (dictGet doms) euclid s f g 0 = (s, .ok m) ∧ shortest X (dictGet doms') euclid s f g 0 = (s, .ok (a * m)) := by
  obtain ⟨pf', hf'⟩ := (C152_stable_partial D D' P P' S f).mpr ⟨pf, hf⟩
  obtain ⟨pg', hg'⟩ := (C152_stable_partial D D' P P' S g).mpr ⟨pg, hg⟩
  obtain ⟨f1, f2⟩ := found D _ _ hf
  obtain ⟨g1, g2⟩ := found D _ _ hg
  obtain ⟨f1', f2'⟩ := found D' _ _ hf'
  obtain ⟨g1', g2'⟩ := found D' _ _ hg'
  obtain ⟨m, h1, ⟨p, hp, q, hq, hm⟩, hle⟩ := reported X s _ _ pf pg f1 g1 f2 g2 0
  obtain ⟨m', h1', ⟨p', hp', q', hq', hm'⟩, hle'⟩ := reported X s _ _ pf' pg' f1' g1' f2' g2' 0
  have uniq : ∀ {f : φ} {pf pf' : List (List ℚ)}, dictGet doms f = some pf → dictGet doms' f = some pf' →
      (∀ p ∈ pf, p.length = elements.length ∧ moved a t p ∈ pf') ∧ ∀ p' ∈ pf', ∃ p ∈ pf, p.length = elements.length ∧ moved a t p = p' := by
    intro f pf pf' e1 e2
    obtain ⟨k1, k2⟩ := C152_domains_partial D D' P P' S f
    have m1 := mem_of_dictGet _ _ _ e1
    have m2 := mem_of_dictGet _ _ _ e2
    have u1 : ∀ pts, (f, pts) ∈ doms → pts = pf := fun pts h => Option.some.inj ((found D _ _ h).1.symm.trans e1)
    have u2 : ∀ pts, (f, pts) ∈ doms' → pts = pf' := fun pts h => Option.some.inj ((found D' _ _ h).1.symm.trans e2)
    obtain ⟨_, _, _, -, -, -, -, hiff⟩ := C93_contents elements frac epa formula mins refs borders hsInt doms D.built
    constructor
    · intro p hp
      obtain ⟨facet, v, e, g1, -⟩ := (hiff f p).mp ⟨pf, m1, hp⟩
      obtain ⟨hl, -⟩ := D.intersects _ _ g1
      obtain ⟨pts', h', hin⟩ := (k1 p hl).mpr ⟨pf, m1, hp⟩
      exact ⟨hl, u2 _ h' ▸ hin⟩
    · intro p' hp'
      obtain ⟨p, hl, rfl⟩ := k2 p' ⟨pf', m2, hp'⟩
      obtain ⟨pts, h, hin⟩ := (k1 p hl).mp ⟨pf', m2, hp'⟩
      exact ⟨p, u1 _ h ▸ hin, hl, rfl⟩
  obtain ⟨a1, a2⟩ := uniq f1 f1'
  obtain ⟨b1, b2⟩ := uniq g1 g1'
  have hmm : m' = a * m := by
    apply le_antisymm
    · obtain ⟨l1, i1⟩ := a1 p hp
      obtain ⟨l2, i2⟩ := b1 q hq
      have := hle' _ i1 _ i2
      rw [euclid_moved S.pos t p q (by rw [l1, S.length]) (by rw [l2, S.length]), hm] at this
      exact this
    · obtain ⟨x, hx, l1, rfl⟩ := a2 p' hp'
      obtain ⟨y, hy, l2, rfl⟩ := b2 q' hq'
      rw [euclid_moved S.pos t x y (by rw [l1, S.length]) (by rw [l2, S.length])] at hm'
      rw [← hm']
      exact mul_le_mul_of_nonneg_left (hle x hx y hy) (by exact_mod_cast S.pos.le)
  rw [add_zero] at h1 h1'
  rw [hmm] at h1'
  exact ⟨m, h1, h1'⟩

/-! ### Concrete case: the binary diagram of Props/Chempot, in half the unit, with other references and the phases in reverse order -/

section
variable {n : ℕ} {a : ℚ} {t : List ℚ} {H : List (List ℚ)} {pairs : List (List ℚ × List ℕ)}

/-- The corners in the other description. -/
def movedPairs (a : ℚ) (t : List ℚ) (pairs : List (List ℚ × List ℕ)) : List (List ℚ × List ℕ) := pairs.map fun p => (moved a t p.1, p.2)

theorem moved_intersects (ha : 0 < a) (ht : t.length = n) (hl : ∀ r ∈ H, r.length = n + 1) (I : Intersects n H pairs) :
    Intersects n (H.map (movedRow n a t)) (movedPairs a t pairs) := by
  intro p' hp'
  obtain ⟨p, hp, rfl⟩ := List.mem_map.mp hp'
  obtain ⟨h1, h2, h3⟩ := I p hp
  obtain ⟨h4, h5⟩ := (feasible_moved ha ht hl (List.Perm.refl _) h1).mpr ⟨h1, h2⟩
  refine ⟨h4, h5, fun v hv => ?_⟩
  obtain ⟨row, hrow, h0⟩ := h3 v hv
  refine ⟨movedRow n a t row, by rw [List.getElem?_map, hrow]; rfl, ?_⟩
  show dot _ (moved a t p.1 ++ [1]) = 0
  rw [dot_movedRow ht (hl row (List.mem_of_getElem? hrow)) h1, h0, mul_zero]

theorem moved_corners (ha : 0 < a) (ht : t.length = n) (hl : ∀ r ∈ H, r.length = n + 1) (I : Intersects n H pairs) (C : Corners n H pairs) :
    Corners n (H.map (movedRow n a t)) (movedPairs a t pairs) := by
  have hlist : ∀ v, (∃ p ∈ movedPairs a t pairs, v ∈ p.2) → ∃ p ∈ pairs, v ∈ p.2 := by
    rintro v ⟨p', hp', hv⟩
    obtain ⟨p, hp, rfl⟩ := List.mem_map.mp hp'
    exact ⟨p, hp, hv⟩
  constructor
  · intro v hv row' hrow' c μ' hc hμ' hall hz
    obtain ⟨μ, hμ, rfl⟩ := moved_surj ha t μ' (by omega)
    rw [List.getElem?_map] at hrow'
    obtain ⟨row, hrow, rfl⟩ := Option.map_eq_some_iff.mp hrow'
    have hμ1 : μ.length = n := by omega
    have hf := (feasible_moved ha ht hl (List.Perm.refl _) hμ1).mp ⟨hμ', hall⟩
    rw [dot_movedRow ht (hl row (List.mem_of_getElem? hrow)) hμ1] at hz
    obtain ⟨p, hp, hvp, hle⟩ := C.optimum v (hlist v hv) row hrow c μ hc hμ1 hf.2 ((mul_eq_zero.mp hz).resolve_left ha.ne')
    refine ⟨_, List.mem_map_of_mem hp, hvp, ?_⟩
    show dot c _ ≤ dot c (moved a t p.1)
    have hp1 : p.1.length = n := (I p hp).1
    rw [dot_moved a _ _ _ (by omega) (by omega), dot_moved a _ _ _ (by omega) (by omega)]
    have := mul_le_mul_of_nonneg_left hle ha.le
    linarith
  · intro p' hp' v hv row' hrow' hz
    obtain ⟨p, hp, rfl⟩ := List.mem_map.mp hp'
    rw [List.getElem?_map] at hrow'
    obtain ⟨row, hrow, rfl⟩ := Option.map_eq_some_iff.mp hrow'
    have hp1 : p.1.length = n := (I p hp).1
    change dot _ (moved a t p.1 ++ [1]) = 0 at hz
    rw [dot_movedRow ht (hl row (List.mem_of_getElem? hrow)) hp1] at hz
    obtain ⟨q, hq, hqp, hvq⟩ := C.tight p hp v (hlist v hv) row hrow ((mul_eq_zero.mp hz).resolve_left ha.ne')
    exact ⟨_, List.mem_map_of_mem hq, by show moved a t q.1 = moved a t p.1; rw [hqp], hvq⟩

theorem moved_precise (ha : 0 < a) (ht : t.length = n) (hl : ∀ r ∈ H, r.length = n + 1) (P : Precise n H pairs) :
    Precise n (H.map (movedRow n a t)) (movedPairs a t pairs) := by
  constructor
  · intro p' hp'
    obtain ⟨p, hp, rfl⟩ := List.mem_map.mp hp'
    exact (vertex_moved ha ht hl (List.Perm.refl _) (P.vertex p hp).1.1).mpr (P.vertex p hp)
  · intro v row' hrow'
    rw [List.getElem?_map] at hrow'
    obtain ⟨row, hrow, rfl⟩ := Option.map_eq_some_iff.mp hrow'
    rw [facet_moved ha ht hl (List.Perm.refl _) (List.mem_of_getElem? hrow), ← P.facet v row hrow]
    constructor
    · rintro ⟨p', hp', hv⟩
      obtain ⟨p, hp, rfl⟩ := List.mem_map.mp hp'
      exact ⟨p, hp, hv⟩
    · rintro ⟨p, hp, hv⟩
      exact ⟨_, List.mem_map_of_mem hp, hv⟩
end

def exH : List (List ℚ) := [[1/2, 1/2, 3], [1, 0, 1], [0, 1, 2]] ++ exBorders

theorem exPrecise : Precise 2 exH (exInt exH) := by
  have hx : exInt exH = [([-1, -5], [0, 1]), ([-4, -2], [0, 2]), ([-1, -10], [1, 4]), ([-10, -2], [2, 3]), ([-10, -10], [3, 4])] := by decide +kernel
  rw [hx]
  constructor
  · have key : ∀ (x y u w : ℚ), Feasible 2 exH [x, y] → (∀ c d : ℚ, c + d ≤ -6 → c ≤ -1 → d ≤ -2 → -10 ≤ c → -10 ≤ d → u * x + w * y ≤ u * c + w * d →
        c = x ∧ d = y) → Vertex 2 exH [x, y] := by
      intro x y u w hf h
      refine ⟨hf, [u, w], rfl, ?_⟩
      rintro q ⟨hq, hall⟩ hne
      obtain ⟨c, d, rfl⟩ := list2 q hq
      simp [exH, exBorders, dot] at hall
      obtain ⟨h1, h2, h3, h4, h5⟩ := hall
      by_contra hlt
      simp [dot] at hlt
      obtain ⟨rfl, rfl⟩ := h c d (by linarith) (by linarith) (by linarith) (by linarith) (by linarith) hlt
      exact hne rfl
    intro p hp
    simp only [List.mem_cons, List.not_mem_nil, or_false] at hp
    rcases hp with rfl | rfl | rfl | rfl | rfl
    · exact key _ _ 2 1 ⟨rfl, by decide +kernel⟩ fun c d _ _ _ _ _ _ => ⟨by linarith, by linarith⟩
    · exact key _ _ 1 2 ⟨rfl, by decide +kernel⟩ fun c d _ _ _ _ _ _ => ⟨by linarith, by linarith⟩
    · exact key _ _ 1 (-1) ⟨rfl, by decide +kernel⟩ fun c d _ _ _ _ _ _ => ⟨by linarith, by linarith⟩
    · exact key _ _ (-1) 1 ⟨rfl, by decide +kernel⟩ fun c d _ _ _ _ _ _ => ⟨by linarith, by linarith⟩
    · exact key _ _ (-1) (-1) ⟨rfl, by decide +kernel⟩ fun c d _ _ _ _ _ _ => ⟨by linarith, by linarith⟩
  · intro v row hrow
    have hv : v < 5 := by
      have := (List.getElem?_eq_some_iff.mp hrow).1
      simpa [exH, exBorders] using this
    have h1 : ∀ v < 5, ∃ p ∈ [([-1, -5], [0, 1]), ([-4, -2], [0, 2]), ([-1, -10], [1, 4]), ([-10, -2], [2, 3]), (([-10, -10] : List ℚ), [3, 4])], v ∈ p.2 := by
      decide +kernel
    have h2 : ∀ row ∈ exH, ∃ μ ∈ [[-5/2, -7/2], [-1, -7], [-7, -2], [-10, -5], ([-5, -10] : List ℚ)], μ.length = 2 ∧ dot row (μ ++ [1]) = 0 ∧
        ∀ r ∈ exH.erase row, dot r (μ ++ [1]) < 0 := by decide +kernel
    obtain ⟨μ, -, hμ⟩ := h2 row (List.mem_of_getElem? hrow)
    exact ⟨fun _ => ⟨List.mem_of_getElem? hrow, μ, hμ⟩, fun _ => h1 v hv⟩

/-- Energies in half the unit, references changed by 3 and −5. -/
def exEpa (e : ℚ × ℚ) : ℚ := 2 * e.2 + weighted [0, 1] exFrac e [3, -5]
def exInt' (H : List (List ℚ)) : List (List ℚ × List ℕ) := if H = exH.map (movedRow 2 2 [3, -5]) then movedPairs 2 [3, -5] (exInt exH) else []
def exBorders' : List (List ℚ) := exBorders.map (movedRow 2 2 [3, -5])
def exDoms' : List ((ℚ × ℚ) × List (List ℚ)) :=
  [((1/2, -3), [[1, -15], [-5, -9]]), ((0, -1), [[1, -15], [1, -25]]), ((1, -2), [[-5, -9], [-17, -9]])]

theorem exDiagram' : Diagram [0, 1] exFrac exEpa (fun e => e) exMins.reverse exRefs exBorders' exInt' exDoms' where
  nodup := by decide
  isRefs := ⟨by decide +kernel, by decide +kernel⟩
  nonneg := by decide +kernel
  total := by decide +kernel
  inj := fun _ _ _ _ h => h
  sharp := by
    intro x hx vec hvec
    have : vec = [exEpa (0, -1), exEpa (1, -2)] := by
      cases hvec with
      | cons h1 h => cases h with
        | cons h2 h => cases h with
          | nil =>
            obtain ⟨r, hr, rfl⟩ := h1
            obtain ⟨r', hr', rfl⟩ := h2
            simp [exRefs] at hr hr'
            rw [hr, hr']
    subst this
    revert x
    decide +kernel
  intersects := by
    intro H
    unfold exInt'
    split_ifs with h
    · rw [h]; exact moved_intersects (by norm_num) rfl (by decide +kernel) (exInt_spec _)
    · intro p hp; simp at hp
  corners := by
    intro H
    unfold exInt'
    split_ifs with h
    · rw [h]; exact moved_corners (by norm_num) rfl (by decide +kernel) (exInt_spec _) (exCorners _)
    · exact ⟨fun v ⟨p, hp, _⟩ => by simp at hp, fun p hp => by simp at hp⟩
  built := by decide +kernel

theorem exSame : Same [0, 1] exFrac 2 [3, -5] Prod.snd exEpa exMins exMins.reverse exRefs exRefs exBorders exBorders' where
  pos := by norm_num
  length := rfl
  once := by decide +kernel
  energy := fun _ _ => rfl
  mins := List.reverse_perm _
  refs := List.Perm.refl _
  rows := by decide +kernel
  borders := List.Perm.refl _

theorem exPrecise_all (H : List (List ℚ)) (E : List (ℚ × ℚ)) (h : hyperplanesAndEntries [0, 1] exFrac Prod.snd exMins exRefs = .ok (H, E)) :
    Precise 2 (H ++ exBorders) (exInt (H ++ exBorders)) := by
  have h' : hyperplanesAndEntries [0, 1] exFrac Prod.snd exMins exRefs = .ok ([[1/2, 1/2, 3], [1, 0, 1], [0, 1, 2]], [(1/2, -3), (0, -1), (1, -2)]) := by
    decide +kernel
  rw [h'] at h
  cases h
  exact exPrecise

theorem exPrecise_all' (H : List (List ℚ)) (E : List (ℚ × ℚ))
    (h : hyperplanesAndEntries [0, 1] exFrac exEpa exMins.reverse exRefs = .ok (H, E)) : Precise 2 (H ++ exBorders') (exInt' (H ++ exBorders')) := by
  have h' : hyperplanesAndEntries [0, 1] exFrac exEpa exMins.reverse exRefs = .ok ([[1/2, 1/2, 3], [1, 0, 1], [0, 1, 2]].map (movedRow 2 2 [3, -5]),
    [(1/2, -3), (0, -1), (1, -2)]) := by decide +kernel
  rw [h'] at h
  cases h
  have e : ([[1/2, 1/2, 3], [1, 0, 1], [0, 1, 2]].map (movedRow 2 2 [3, -5]) ++ exBorders') = exH.map (movedRow 2 2 [3, -5]) := by
    unfold exH exBorders'
    rw [List.map_append]
  rw [e]
  unfold exInt'
  rw [if_pos rfl]
  exact moved_precise (by norm_num) rfl (by decide +kernel) exPrecise

example := C152_domains_partial exDiagram exDiagram' exPrecise_all exPrecise_all' exSame (1/2, -3)
example : Listed exDoms' (1/2, -3) [1, -15] := ⟨_, List.mem_cons_self .., by decide +kernel⟩
example (X : Ext ℕ (ℚ × ℚ) (List (List ℚ))) (s : CPD ℕ (ℚ × ℚ) (List (List ℚ))) :=
  C152_distance_partial X s exDiagram exDiagram' exPrecise_all exPrecise_all' exSame (0, -1) (1, -2) [[-1, -5], [-1, -10]] [[-4, -2], [-10, -2]]
    (by decide +kernel) (by decide +kernel)
example := C152_stable_partial exDiagram exDiagram' exPrecise_all exPrecise_all' exSame (0, -1)

/-! ### The limits stay where they are -/

/-- The references lowered by 13/2, with the same limits. -/
def lowEpa (e : ℚ × ℚ) : ℚ := e.2 + weighted [0, 1] exFrac e [-13/2, -13/2]
def lowH : List (List ℚ) := [[1/2, 1/2, 19/2], [1, 0, 15/2], [0, 1, 17/2]] ++ exBorders
def lowInt (H : List (List ℚ)) : List (List ℚ × List ℕ) := if H = lowH then [([-9, -10], [0, 4]), ([-10, -9], [0, 3]), ([-10, -10], [3, 4])] else []
def lowDoms : List ((ℚ × ℚ) × List (List ℚ)) := [((1/2, -3), [[-9, -10], [-10, -9]])]

theorem lowInt_spec : ∀ H, Intersects 2 H (lowInt H) := by
  intro H p hp
  unfold lowInt at hp
  split_ifs at hp with h
  · subst h
    have : ∀ p ∈ [([-9, -10], [0, 4]), ([-10, -9], [0, 3]), (([-10, -10] : List ℚ), [3, 4])],
        p.1.length = 2 ∧ (∀ row ∈ lowH, dot row (p.1 ++ [1]) ≤ 0) ∧
        ∀ v ∈ p.2, ((lowH[v]?).map fun row => dot row (p.1 ++ [1])) = some 0 := by decide +kernel
    obtain ⟨h1, h2, h3⟩ := this p hp
    exact ⟨h1, h2, fun v hv => by simpa [Option.map_eq_some_iff] using h3 v hv⟩
  · simp at hp

theorem lowCorners : ∀ H, Corners 2 H (lowInt H) := by
  intro H
  unfold lowInt
  split_ifs with hH
  · subst hH
    constructor
    · rintro v hv row hrow c μ hc hμ hall hz
      obtain ⟨c₁, c₂, rfl⟩ := list2 c hc
      obtain ⟨a, b, rfl⟩ := list2 μ hμ
      simp [lowH, exBorders, dot] at hall
      obtain ⟨h1, h2, h3, h4, h5⟩ := hall
      have pick : ∀ (r s : ℚ) (l : List ℕ), ([r, s], l) ∈ [([-9, -10], [0, 4]), ([-10, -9], [0, 3]), (([-10, -10] : List ℚ), [3, 4])] → v ∈ l →
          c₁ * a + c₂ * b ≤ c₁ * r + c₂ * s →
          ∃ p ∈ [([-9, -10], [0, 4]), ([-10, -9], [0, 3]), (([-10, -10] : List ℚ), [3, 4])], v ∈ p.2 ∧ dot [c₁, c₂] [a, b] ≤ dot [c₁, c₂] p.1 := by
        intro r s l hm hv hle
        refine ⟨_, hm, hv, ?_⟩
        simp [dot]; linarith
      match v with
      | 0 =>
        simp [lowH] at hrow; subst hrow; simp [dot] at hz
        obtain rfl : b = -19 - a := by linarith
        rcases le_total 0 (c₁ - c₂) with k | k
        · have := up k (show a ≤ -9 by linarith)
          exact pick (-9) (-10) [0, 4] (by simp) (by simp) (by linarith)
        · have := down k (show -10 ≤ a by linarith)
          exact pick (-10) (-9) [0, 3] (by simp) (by simp) (by linarith)
      | 1 => simp at hv
      | 2 => simp at hv
      | 3 =>
        simp [lowH, exBorders] at hrow; subst hrow; simp [dot] at hz
        obtain rfl : a = -10 := by linarith
        rcases le_total 0 c₂ with k | k
        · have := up k (show b ≤ -9 by linarith)
          exact pick (-10) (-9) [0, 3] (by simp) (by simp) (by linarith)
        · have := down k (show -10 ≤ b by linarith)
          exact pick (-10) (-10) [3, 4] (by simp) (by simp) (by linarith)
      | 4 =>
        simp [lowH, exBorders] at hrow; subst hrow; simp [dot] at hz
        obtain rfl : b = -10 := by linarith
        rcases le_total 0 c₁ with k | k
        · have := up k (show a ≤ -9 by linarith)
          exact pick (-9) (-10) [0, 4] (by simp) (by simp) (by linarith)
        · have := down k (show -10 ≤ a by linarith)
          exact pick (-10) (-10) [3, 4] (by simp) (by simp) (by linarith)
      | n + 5 => simp [lowH, exBorders] at hrow
    · have : ∀ p ∈ [([-9, -10], [0, 4]), ([-10, -9], [0, 3]), (([-10, -10] : List ℚ), [3, 4])],
          ∀ v < 5, ∀ row ∈ lowH[v]?, dot row (p.1 ++ [1]) = 0 → v ∈ p.2 := by decide +kernel
      intro p hp v _ row hrow hz
      have hv : v < 5 := by
        have := (List.getElem?_eq_some_iff.mp hrow).1
        simpa [lowH, exBorders] using this
      exact ⟨p, hp, rfl, this p hp v hv row hrow hz⟩
  · exact ⟨fun v ⟨p, hp, _⟩ => by simp at hp, fun p hp => by simp at hp⟩

theorem lowPrecise : Precise 2 lowH (lowInt lowH) := by
  have hx : lowInt lowH = [([-9, -10], [0, 4]), ([-10, -9], [0, 3]), ([-10, -10], [3, 4])] := by decide +kernel
  rw [hx]
  constructor
  · have key : ∀ (x y u w : ℚ), Feasible 2 lowH [x, y] → (∀ c d : ℚ, c + d ≤ -19 → -10 ≤ c → -10 ≤ d → u * x + w * y ≤ u * c + w * d →
        c = x ∧ d = y) → Vertex 2 lowH [x, y] := by
      intro x y u w hf h
      refine ⟨hf, [u, w], rfl, ?_⟩
      rintro q ⟨hq, hall⟩ hne
      obtain ⟨c, d, rfl⟩ := list2 q hq
      simp [lowH, exBorders, dot] at hall
      obtain ⟨h1, h2, h3, h4, h5⟩ := hall
      by_contra hlt
      simp [dot] at hlt
      obtain ⟨rfl, rfl⟩ := h c d (by linarith) (by linarith) (by linarith) hlt
      exact hne rfl
    intro p hp
    simp only [List.mem_cons, List.not_mem_nil, or_false] at hp
    rcases hp with rfl | rfl | rfl
    · exact key _ _ 1 0 ⟨rfl, by decide +kernel⟩ fun c d _ _ _ _ => ⟨by linarith, by linarith⟩
    · exact key _ _ 0 1 ⟨rfl, by decide +kernel⟩ fun c d _ _ _ _ => ⟨by linarith, by linarith⟩
    · exact key _ _ (-1) (-1) ⟨rfl, by decide +kernel⟩ fun c d _ _ _ _ => ⟨by linarith, by linarith⟩
  · have no : ∀ row, row = [1, 0, 15/2] ∨ row = [0, 1, 17/2] → ¬Facet 2 lowH row := by
      rintro row hr ⟨-, μ, hμ, h0, hall⟩
      obtain ⟨a, b, rfl⟩ := list2 μ hμ
      have m0 : ∀ r : List ℚ, r ∈ [[1/2, 1/2, 19/2], [-1, 0, -10], ([0, -1, -10] : List ℚ)] → dot r ([a, b] ++ [1]) < 0 := by
        intro r hr'
        refine hall r ?_
        rcases hr with rfl | rfl
        · exact (by decide +kernel : ∀ r ∈ [[1/2, 1/2, 19/2], [-1, 0, -10], ([0, -1, -10] : List ℚ)], r ∈ lowH.erase [1, 0, 15/2]) r hr'
        · exact (by decide +kernel : ∀ r ∈ [[1/2, 1/2, 19/2], [-1, 0, -10], ([0, -1, -10] : List ℚ)], r ∈ lowH.erase [0, 1, 17/2]) r hr'
      simp [dot] at m0
      obtain ⟨k1, k2, k3⟩ := m0
      rcases hr with rfl | rfl <;> simp [dot] at h0 <;> linarith
    have yes : ∀ row ∈ [[1/2, 1/2, 19/2], [-1, 0, -10], ([0, -1, -10] : List ℚ)], ∃ μ ∈ [[-19/2, -19/2], [-10, -19/2], ([-19/2, -10] : List ℚ)],
        row ∈ lowH ∧ μ.length = 2 ∧ dot row (μ ++ [1]) = 0 ∧ ∀ r ∈ lowH.erase row, dot r (μ ++ [1]) < 0 := by decide +kernel
    have yes' : ∀ row ∈ [[1/2, 1/2, 19/2], [-1, 0, -10], ([0, -1, -10] : List ℚ)], Facet 2 lowH row := by
      intro row hr
      obtain ⟨μ, -, h1, h2⟩ := yes row hr
      exact ⟨h1, μ, h2⟩
    intro v row hrow
    match v with
    | 0 => simp [lowH] at hrow; subst hrow; exact iff_of_true (by simp) (yes' _ (by simp))
    | 1 => simp [lowH] at hrow; subst hrow; exact iff_of_false (by simp) (no _ (by simp))
    | 2 => simp [lowH] at hrow; subst hrow; exact iff_of_false (by simp) (no _ (by simp))
    | 3 => simp [lowH, exBorders] at hrow; subst hrow; exact iff_of_true (by simp) (yes' _ (by simp))
    | 4 => simp [lowH, exBorders] at hrow; subst hrow; exact iff_of_true (by simp) (yes' _ (by simp))
    | n + 5 => simp [lowH, exBorders] at hrow

theorem lowDiagram : Diagram [0, 1] exFrac lowEpa (fun e => e) exMins exRefs exBorders lowInt lowDoms where
  nodup := by decide
  isRefs := ⟨by decide +kernel, by decide +kernel⟩
  nonneg := by decide +kernel
  total := by decide +kernel
  inj := fun _ _ _ _ h => h
  sharp := by
    intro x hx vec hvec
    have : vec = [lowEpa (0, -1), lowEpa (1, -2)] := by
      cases hvec with
      | cons h1 h => cases h with
        | cons h2 h => cases h with
          | nil =>
            obtain ⟨r, hr, rfl⟩ := h1
            obtain ⟨r', hr', rfl⟩ := h2
            simp [exRefs] at hr hr'
            rw [hr, hr']
    subst this
    revert x
    decide +kernel
  intersects := lowInt_spec
  corners := lowCorners
  built := by decide +kernel

/-- **C152, fixed limits.** The limits of the diagram are numbers and do not move with the references (`default_min_limit`): with lower reference
energies, and the same formation energies, phases that had a domain (here both elements) lose it. -/
theorem C152_limits_violated : ∃ (elements : List (Fin 2)) (frac : ℚ × ℚ → Fin 2 → ℚ) (epa epa' : ℚ × ℚ → ℚ) (t : List ℚ) (mins : List (ℚ × ℚ))
    (refs : List (Fin 2 × (ℚ × ℚ))) (borders : List (List ℚ)) (hsInt hsInt' : List (List ℚ) → List (List ℚ × List ℕ))
    (doms doms' : List ((ℚ × ℚ) × List (List ℚ))), t.length = elements.length ∧
      Diagram elements frac epa (fun e => e) mins refs borders hsInt doms ∧ Diagram elements frac epa' (fun e => e) mins refs borders hsInt' doms' ∧
      (∀ H E, hyperplanesAndEntries elements frac epa mins refs = .ok (H, E) → Precise elements.length (H ++ borders) (hsInt (H ++ borders))) ∧
      (∀ H E, hyperplanesAndEntries elements frac epa' mins refs = .ok (H, E) → Precise elements.length (H ++ borders) (hsInt' (H ++ borders))) ∧
      (∀ e ∈ mins, epa' e = epa e + weighted elements frac e t) ∧ ∃ f, (∃ pts, (f, pts) ∈ doms) ∧ ∀ pts, (f, pts) ∉ doms' := by
  refine ⟨[0, 1], exFrac, Prod.snd, lowEpa, [-13/2, -13/2], exMins, exRefs, exBorders, exInt, lowInt, exDoms, lowDoms, rfl, exDiagram, lowDiagram,
    exPrecise_all, ?_, fun _ _ => rfl, (0, -1), ⟨[[-1, -5], [-1, -10]], by decide +kernel⟩, ?_⟩
  · intro H E h
    have h' : hyperplanesAndEntries [0, 1] exFrac lowEpa exMins exRefs = .ok ([[1/2, 1/2, 19/2], [1, 0, 15/2], [0, 1, 17/2]],
      [(1/2, -3), (0, -1), (1, -2)]) := by decide +kernel
    rw [h'] at h
    cases h
    exact lowPrecise
  · intro pts h
    have := List.mem_map_of_mem (f := Prod.fst) h
    change (0, -1) ∈ _ at this
    exact absurd this (by decide +kernel)

end Verif.Props.DomainShift
