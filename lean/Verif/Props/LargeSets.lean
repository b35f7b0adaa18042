import Verif.Props.EntrySets
import Verif.Props.RxnFilter

/-! Properties C85 and C87: large chemical systems and runs of several enumerators. -/

namespace Verif.Props.LargeSets
open Verif.Py Verif.Model Verif.Model.Entries Verif.Model.EntryFlow Verif.Lemmas Verif.Props.EntrySet Verif.Props.Thermo

set_option linter.unusedSectionVars false

/-! ### C85 -/

section Large
variable {η φ : Type} [DecidableEq η] [DecidableEq φ]

theorem filter_inside (elems : η → List Enum.Sym) (es : List η) (e : η) (x : Enum.Sym) (hx : x ∈ elems e) :
    (inside elems es e).filter (fun y => elems y = [x]) = es.filter fun y => elems y = [x] := by
  unfold inside
  rw [List.filter_filter]
  refine List.filter_congr fun y _ => ?_
  by_cases h : elems y = [x] <;> simp [h, hx]

theorem elRef_inside (elems : η → List Enum.Sym) (epa : η → ℚ) (es : List η) (e : η) (x : Enum.Sym) (hx : x ∈ elems e) :
    elRef elems epa (inside elems es e) x = elRef elems epa es x := by
  unfold elRef
  rw [filter_inside elems es e x hx]

theorem mem_chemsys (elems : η → List Enum.Sym) (es : List η) (x : Enum.Sym) : x ∈ chemsys elems es ↔ ∃ e ∈ es, x ∈ elems e := by
  unfold chemsys; rw [List.mem_dedup, List.mem_flatMap]

theorem elRef_elems (elems : η → List Enum.Sym) (epa : η → ℚ) (es : List η) (x : Enum.Sym) (e : η) (h : elRef elems epa es x = .ok e) :
    e ∈ es ∧ elems e = [x] := by
  unfold elRef at h
  by_cases hne : es.filter (fun y => elems y = [x]) = []
  · rw [hne] at h; cases h
  · obtain ⟨m, h1, h2, -⟩ := lowest_spec epa _ hne
    rw [h1] at h; cases h
    simpa using h2

/-- References of a diagram. -/
theorem buildPd_ok (elems : η → List Enum.Sym) (epa : η → ℚ) (es : List η) (pd : List (Enum.Sym × η) × List η)
    (h : buildPd elems epa es = .ok pd) : pd.2 = es ∧ (∀ x e, (x, e) ∈ pd.1 ↔ x ∈ chemsys elems es ∧ elRef elems epa es x = .ok e) ∧
      ∀ x ∈ chemsys elems es, ∃ e, elRef elems epa es x = .ok e ∧ dictGet pd.1 x = some e := by
  unfold buildPd at h
  rw [Exc.map_ok] at h
  obtain ⟨r, hr, rfl⟩ := h
  have hf := (Exc.mapM_ok _ _ _).1 hr
  have hmem : ∀ x e, (x, e) ∈ r ↔ x ∈ chemsys elems es ∧ elRef elems epa es x = .ok e := by
    intro x e
    constructor
    · intro hx
      obtain ⟨y, hy, hxy⟩ := Exc.mapM_mem _ _ _ hr _ hx
      rw [Exc.map_ok] at hxy
      obtain ⟨e', h1, h2⟩ := hxy
      cases h2; exact ⟨hy, h1⟩
    · rintro ⟨hx, he⟩
      clear hr
      generalize chemsys elems es = l at hf hx
      induction hf with
      | nil => simp at hx
      | cons a _ ih =>
        rcases List.mem_cons.1 hx with rfl | hx
        · rw [Exc.map_ok] at a
          obtain ⟨e', h1, h2⟩ := a
          rw [he] at h1; cases h1; exact h2 ▸ List.mem_cons_self
        · exact List.mem_cons_of_mem _ (ih hx)
  have hkeys : r.map Prod.fst = chemsys elems es := by
    clear hr hmem
    generalize chemsys elems es = l at hf
    induction hf with
    | nil => rfl
    | cons a _ ih =>
      rw [Exc.map_ok] at a
      obtain ⟨e', h1, h2⟩ := a
      rw [List.map_cons, ih, ← h2]
  refine ⟨rfl, hmem, fun x hx => ?_⟩
  rw [← hkeys, List.mem_map] at hx
  obtain ⟨⟨y, e⟩, hy, rfl⟩ := hx
  exact ⟨e, ((hmem y e).1 hy).2, Dict.dictGet_eq_some_of_mem r (by rw [hkeys]; exact List.nodup_dedup _) y e hy⟩

theorem buildPd_error (elems : η → List Enum.Sym) (epa : η → ℚ) (es : List η) (y : Err) (h : buildPd elems epa es = .error y) :
    y = .valueError ∧ ∃ x ∈ chemsys elems es, elRef elems epa es x = .error .valueError := by
  unfold buildPd at h
  cases hr : (chemsys elems es).mapM fun x => (elRef elems epa es x).map fun e => (x, e) with
  | ok r => rw [hr] at h; cases h
  | error z =>
    rw [hr] at h; cases h
    obtain ⟨x, hx, hz⟩ := Exc.mapM_error _ _ _ hr
    cases he : elRef elems epa es x with
    | ok e => rw [he] at hz; cases hz
    | error w =>
      rw [he] at hz; cases hz
      have : y = .valueError := by
        unfold elRef at he
        split at he <;> cases he
        rfl
      subst this
      exact ⟨rfl, x, hx, he⟩

theorem elRef_of_build (elems : η → List Enum.Sym) (epa : η → ℚ) (es : List η)
    (h : ∀ x ∈ chemsys elems es, ∃ e, elRef elems epa es x = .ok e) : ∃ pd, buildPd elems epa es = .ok pd := by
  cases hb : buildPd elems epa es with
  | ok pd => exact ⟨pd, rfl⟩
  | error y =>
    obtain ⟨-, x, hx, he⟩ := buildPd_error elems epa es y hb
    obtain ⟨e, he'⟩ := h x hx
    rw [he'] at he; cases he

/-- A diagram of the entries inside one system treats each of its entries like the diagram of all entries. -/
theorem same_inside (elems : η → List Enum.Sym) (epa : η → ℚ) (frac : η → Enum.Sym → ℚ) (es : List η) (e0 : η)
    (pd pd' : List (Enum.Sym × η) × List η) (h : buildPd elems epa es = .ok pd) (h' : buildPd elems epa (inside elems es e0) = .ok pd')
    (e : η) (he : e ∈ inside elems es e0) :
    skipEntry elems pd'.1 e = skipEntry elems pd.1 e ∧ formE elems epa frac pd'.1 e = formE elems epa frac pd.1 e := by
  obtain ⟨-, m1, g1⟩ := buildPd_ok elems epa es pd h
  obtain ⟨-, m2, g2⟩ := buildPd_ok elems epa _ pd' h'
  obtain ⟨hes, hin⟩ := (mem_inside elems es e0 e).1 he
  have hget : ∀ x ∈ elems e, dictGet pd'.1 x = dictGet pd.1 x := by
    intro x hx
    obtain ⟨a, ha, ha'⟩ := g1 x ((mem_chemsys _ _ _).2 ⟨e, hes, hx⟩)
    obtain ⟨b, hb, hb'⟩ := g2 x ((mem_chemsys _ _ _).2 ⟨e, he, hx⟩)
    rw [elRef_inside elems epa es e0 x (hin x hx), ha] at hb
    cases hb; rw [ha', hb']
  constructor
  · unfold skipEntry
    by_cases hl : (elems e).length = 1
    · obtain ⟨x, hx⟩ := List.length_eq_one_iff.1 hl
      have key : e ∈ pd'.1.map Prod.snd ↔ e ∈ pd.1.map Prod.snd := by
        have hxe : x ∈ elems e := by rw [hx]; exact List.mem_singleton_self x
        have hc := (mem_chemsys elems es x).2 ⟨e, hes, hxe⟩
        have hc' := (mem_chemsys elems (inside elems es e0) x).2 ⟨e, he, hxe⟩
        have hr := elRef_inside elems epa es e0 x (hin x hxe)
        constructor
        · intro hm
          obtain ⟨⟨y, e'⟩, hy, rfl⟩ := List.mem_map.1 hm
          obtain ⟨-, hy2⟩ := (m2 y _).1 hy
          have hyx : y = x := by have := (elRef_elems _ _ _ _ _ hy2).2; rw [hx] at this; simpa using this.symm
          subst hyx
          exact List.mem_map.2 ⟨(y, _), (m1 y _).2 ⟨hc, hr ▸ hy2⟩, rfl⟩
        · intro hm
          obtain ⟨⟨y, e'⟩, hy, rfl⟩ := List.mem_map.1 hm
          obtain ⟨-, hy2⟩ := (m1 y _).1 hy
          have hyx : y = x := by have := (elRef_elems _ _ _ _ _ hy2).2; rw [hx] at this; simpa using this.symm
          subst hyx
          exact List.mem_map.2 ⟨(y, _), (m2 y _).2 ⟨hc', hr.symm ▸ hy2⟩, rfl⟩
      simp only [key]
    · simp [hl]
  · unfold formE
    congr 2
    refine List.map_congr_left fun x hx => ?_
    rw [hget x hx]

/-- **C85, partial**: whatever the number of elements, the same entries come out as from a single phase diagram of all entries, with
the same failures (an element without elemental entry). Missing: the settings (see below). -/
theorem C85_entries_partial (elems : η → List Enum.Sym) (hsym : Symbols elems) (epa : η → ℚ) (frac : η → Enum.Sym → ℚ) (form : η → φ)
    (hasNist hasFreed : φ → Bool) (nist freed hulls mini : Bool) (es : List η) :
    (∀ R, fromComputed elems epa frac form hasNist hasFreed nist freed hulls mini es = .ok R →
      ∃ pd, buildPd elems epa es = .ok pd ∧ ∀ r, r ∈ R.entries ↔ r ∈ fromPdE elems epa frac form hasNist hasFreed nist freed pd) ∧
    (∀ y, fromComputed elems epa frac form hasNist hasFreed nist freed hulls mini es = .error y ↔ buildPd elems epa es = .error y) ∧
    ((∃ y, buildPd elems epa es = .error y) ↔ ∃ e ∈ es, ∃ x ∈ elems e, ∀ e' ∈ es, elems e' ≠ [x]) := by
  have hfail : (∃ y, buildPd elems epa es = .error y) ↔ ∃ e ∈ es, ∃ x ∈ elems e, ∀ e' ∈ es, elems e' ≠ [x] := by
    constructor
    · rintro ⟨y, hy⟩
      obtain ⟨-, x, hx, hr⟩ := buildPd_error elems epa es y hy
      obtain ⟨e, he, hxe⟩ := (mem_chemsys _ _ _).1 hx
      refine ⟨e, he, x, hxe, fun e' he' hex => ?_⟩
      have hne : es.filter (fun y => elems y = [x]) ≠ [] := by
        intro h0
        have : e' ∈ es.filter (fun y => elems y = [x]) := by simp [he', hex]
        rw [h0] at this; simp at this
      obtain ⟨m, hm, -⟩ := lowest_spec epa _ hne
      unfold elRef at hr
      rw [hm] at hr; cases hr
    · rintro ⟨e, he, x, hx, hno⟩
      cases hb : buildPd elems epa es with
      | error y => exact ⟨y, rfl⟩
      | ok pd =>
        obtain ⟨a, ha, -⟩ := (buildPd_ok elems epa es pd hb).2.2 x ((mem_chemsys _ _ _).2 ⟨e, he, hx⟩)
        have := elRef_elems _ _ _ _ _ ha
        exact absurd this.2 (hno a this.1)
  refine ⟨fun R hR => ?_, fun y => ?_, hfail⟩
  · unfold fromComputed at hR
    split_ifs at hR with hsize
    · rw [Exc.map_ok] at hR
      obtain ⟨pd, hpd, rfl⟩ := hR
      exact ⟨pd, hpd, fun r => Iff.rfl⟩
    · rw [Exc.bind_ok] at hR
      obtain ⟨d, hd, hR⟩ := hR
      cases hR
      have inv := expand_inv elems hsym (buildPd elems epa) es d hd
      have hperm := List.perm_insertionSort (fun a b => (elems b).length ≤ (elems a).length) es
      -- every entry is inside some diagram
      have hcov : ∀ e ∈ es, ∃ p ∈ d, ∃ e0 ∈ es, buildPd elems epa (inside elems es e0) = .ok p.2 ∧ e ∈ inside elems es e0 := by
        intro e he
        obtain ⟨p, hp, hs⟩ := inv.cover e (hperm.symm.subset he)
        obtain ⟨e0, he0, hk, hb⟩ := inv.src p hp
        refine ⟨p, hp, e0, hperm.subset he0, hb, (mem_inside _ _ _ _).2 ⟨he, fun s hs' => ?_⟩⟩
        have := hs s hs'
        unfold system at this; rw [hk] at this
        exact (mem_split elems hsym e0 s).1 this
      obtain ⟨pd, hpd⟩ : ∃ pd, buildPd elems epa es = .ok pd := by
        refine elRef_of_build elems epa es fun x hx => ?_
        obtain ⟨e, he, hxe⟩ := (mem_chemsys _ _ _).1 hx
        obtain ⟨p, -, e0, -, hb, hin⟩ := hcov e he
        obtain ⟨a, ha, -⟩ := (buildPd_ok elems epa _ _ hb).2.2 x ((mem_chemsys _ _ _).2 ⟨e, hin, hxe⟩)
        rw [elRef_inside elems epa es e0 x (((mem_inside _ _ _ _).1 hin).2 x hxe)] at ha
        exact ⟨a, ha⟩
      refine ⟨pd, hpd, fun r => ?_⟩
      have hall := (buildPd_ok elems epa es pd hpd).1
      simp only [List.mem_flatMap]
      unfold fromPdE
      simp only [EntryTable.mem_fromPd, List.mem_map, hall]
      constructor
      · rintro ⟨p, hp, _, ⟨e, he, rfl⟩, hskip, hr⟩
        obtain ⟨e0, -, -, hb⟩ := inv.src p hp
        rw [(buildPd_ok elems epa _ _ hb).1] at he
        obtain ⟨s1, s2⟩ := same_inside elems epa frac es e0 pd p.2 hpd hb e he
        simp only at hskip hr ⊢
        rw [s1] at hskip; rw [s2] at hr
        exact ⟨_, ⟨e, ((mem_inside _ _ _ _).1 he).1, rfl⟩, hskip, hr⟩
      · rintro ⟨_, ⟨e, he, rfl⟩, hskip, hr⟩
        obtain ⟨p, hp, e0, -, hb, hin⟩ := hcov e he
        obtain ⟨s1, s2⟩ := same_inside elems epa frac es e0 pd p.2 hpd hb e hin
        simp only at hskip hr
        rw [← s1] at hskip; rw [← s2] at hr
        exact ⟨p, hp, _, ⟨e, by rw [(buildPd_ok elems epa _ _ hb).1]; exact hin, rfl⟩, hskip, hr⟩
  · unfold fromComputed
    split_ifs with hsize
    · cases hb : buildPd elems epa es with
      | ok pd => simp [Except.map]
      | error z => simp [Except.map]
    · constructor
      · intro h
        cases hd : Verif.Model.Thermo.expandPd elems (buildPd elems epa) es with
        | ok d => rw [hd] at h; cases h
        | error z =>
          rw [hd] at h; cases h
          obtain ⟨e0, he0, hb⟩ := C44_error elems _ es _ hd
          obtain ⟨rfl, x, hx, hr⟩ := buildPd_error elems epa _ _ hb
          obtain ⟨e, he, hxe⟩ := (mem_chemsys _ _ _).1 hx
          obtain ⟨hes, hin⟩ := (mem_inside _ _ _ _).1 he
          rw [elRef_inside elems epa es e0 x (hin x hxe)] at hr
          cases hb' : buildPd elems epa es with
          | error w => rw [(buildPd_error elems epa es w hb').1]
          | ok pd =>
            obtain ⟨a, ha, -⟩ := (buildPd_ok elems epa es pd hb').2.2 x ((mem_chemsys _ _ _).2 ⟨e, hes, hxe⟩)
            rw [hr] at ha; cases ha
      · intro h
        obtain ⟨rfl, x, hx, hr⟩ := buildPd_error elems epa es y h
        obtain ⟨e, he, hxe⟩ := (mem_chemsys _ _ _).1 hx
        cases hd : Verif.Model.Thermo.expandPd elems (buildPd elems epa) es with
        | error z =>
          obtain ⟨e0, -, hb⟩ := C44_error elems _ es _ hd
          rw [(buildPd_error elems epa _ _ hb).1]; rfl
        | ok d =>
          exfalso
          have inv := expand_inv elems hsym (buildPd elems epa) es d hd
          have hperm := List.perm_insertionSort (fun a b => (elems b).length ≤ (elems a).length) es
          obtain ⟨p, hp, hs⟩ := inv.cover e (hperm.symm.subset he)
          obtain ⟨e0, -, hk, hb⟩ := inv.src p hp
          have hin : ∀ s ∈ elems e, s ∈ elems e0 := fun s hs' => by
            have := hs s hs'
            unfold system at this; rw [hk] at this
            exact (mem_split elems hsym e0 s).1 this
          obtain ⟨a, ha, -⟩ := (buildPd_ok elems epa _ _ hb).2.2 x
            ((mem_chemsys _ _ _).2 ⟨e, (mem_inside _ _ _ _).2 ⟨he, hin⟩, hxe⟩)
          rw [elRef_inside elems epa es e0 x (hin x hxe), hr] at ha
          cases ha

/-- **C85, energies.** Every computed entry of the result is one of the given entries, with its formation energy relative to the lowest entry of each of its
elements, weighted with the atomic fractions, for any number of elements. -/
theorem C85_formation (elems : η → List Enum.Sym) (hsym : Symbols elems) (epa : η → ℚ) (frac : η → Enum.Sym → ℚ) (form : η → φ)
    (hasNist hasFreed : φ → Bool) (nist freed hulls mini : Bool) (es : List η) (R : Result (Src (η × ℚ) φ))
    (h : fromComputed elems epa frac form hasNist hasFreed nist freed hulls mini es = .ok R) (e : η) (fe : ℚ) (he : Src.gibbs (e, fe) ∈ R.entries) :
    e ∈ es ∧ ∃ ref : Enum.Sym → η, (∀ x ∈ elems e, ref x ∈ es ∧ elems (ref x) = [x] ∧ ∀ e' ∈ es, elems e' = [x] → epa (ref x) ≤ epa e') ∧
      fe = epa e - ((elems e).map fun x => frac e x * epa (ref x)).sum := by
  obtain ⟨pd, hpd, hmem⟩ := (C85_entries_partial elems hsym epa frac form hasNist hasFreed nist freed hulls mini es).1 R h
  have he := (hmem _).1 he
  obtain ⟨hall, -, hget⟩ := buildPd_ok elems epa es pd hpd
  unfold fromPdE at he
  rw [EntryTable.mem_fromPd] at he
  obtain ⟨q, hq, -, hr⟩ := he
  obtain ⟨e1, he1, rfl⟩ := List.mem_map.1 hq
  have heq : e1 = e ∧ formE elems epa frac pd.1 e1 = fe := by
    simp only at hr
    rcases hr with hr | ⟨-, hr⟩
    · unfold EntryTable.found at hr
      simp only [List.mem_append] at hr
      rcases hr with hr | hr <;> split_ifs at hr <;> simp at hr
    · cases hr
      exact ⟨rfl, rfl⟩
  obtain ⟨rfl, rfl⟩ := heq
  rw [hall] at he1
  refine ⟨he1, fun x => (dictGet pd.1 x).getD e1, ?_, ?_⟩
  · intro x hx
    obtain ⟨a, ha, hd⟩ := hget x ((mem_chemsys _ _ _).2 ⟨e1, he1, hx⟩)
    simp only [hd, Option.getD_some]
    obtain ⟨h1, h2⟩ := elRef_elems _ _ _ _ _ ha
    refine ⟨h1, h2, fun e' he' hx' => ?_⟩
    unfold elRef at ha
    have hne : es.filter (fun y => elems y = [x]) ≠ [] := by
      intro h0
      have : e' ∈ es.filter (fun y => elems y = [x]) := by simp [he', hx']
      rw [h0] at this; simp at this
    obtain ⟨m, hm, -, hmin⟩ := lowest_spec epa _ hne
    rw [hm] at ha
    cases ha
    exact hmin e' (by simp [he', hx'])
  · unfold formE
    congr 2
    refine List.map_congr_left fun x hx => ?_
    obtain ⟨a, ha, hd⟩ := hget x ((mem_chemsys _ _ _).2 ⟨e1, he1, hx⟩)
    simp [hd]

/-- Ten elements (two entries of the first) and one compound of the first two. -/
def tenElems (i : Fin 12) : List Enum.Sym :=
  if i.val = 11 then [['A'], ['B']] else if i.val = 10 then [['A']] else [[Char.ofNat (65 + i.val)]]

/-- Energies per atom of the example. -/
def tenEpa (i : Fin 12) : ℚ := -(i.val : ℚ)

example : Symbols tenElems := ⟨by decide +kernel, by decide +kernel, by decide +kernel⟩

/-- The second entry of element A is lower and becomes its reference, the first one is left out, the compound's formation energy
refers to it. -/
example : ∃ R, fromComputed tenElems tenEpa (fun _ _ => 1 / 2) id (fun f => f = 3) (fun _ => false) true false true false (List.finRange 12) =
    .ok R ∧ R.entries.length = 11 ∧ Src.nist 3 ∈ R.entries ∧ Src.gibbs (11, -11 + 10 / 2 + 1 / 2) ∈ R.entries :=
  ⟨⟨_, _, _⟩, rfl, by decide +kernel, by decide +kernel, by decide +kernel⟩

/-- **C85, violated**: with ten elements the settings asked for are not those of the resulting set. -/
theorem C85_flags_violated : ∃ (es : List (Fin 12)) (R : Result (Src (Fin 12 × ℚ) (Fin 12))),
    fromComputed tenElems tenEpa (fun _ _ => 1 / 2) id (fun _ => false) (fun _ => false) true false true true es = .ok R ∧
    R.calcHulls = false ∧ R.minimize = false :=
  ⟨List.finRange 12, ⟨_, _, _⟩, rfl, rfl, rfl⟩

/-- With at most nine elements they are. -/
theorem C85_flags_small (elems : η → List Enum.Sym) (epa : η → ℚ) (frac : η → Enum.Sym → ℚ) (form : η → φ)
    (hasNist hasFreed : φ → Bool) (nist freed hulls mini : Bool) (es : List η) (hsize : (chemsys elems es).length ≤ 9)
    (R : Result (Src (η × ℚ) φ)) (h : fromComputed elems epa frac form hasNist hasFreed nist freed hulls mini es = .ok R) :
    R.calcHulls = hulls ∧ R.minimize = mini := by
  unfold fromComputed at h
  rw [if_pos hsize, Exc.map_ok] at h
  obtain ⟨pd, -, rfl⟩ := h
  exact ⟨rfl, rfl⟩

end Large

/-! ### C87 -/

section Runs
open Verif.Model.RxnSet Verif.Spec.RxnSet Verif.Props.RxnSet Verif.Props.RxnFilter
variable {η δ ε : Type} [DecidableEq η] [DecidableEq ε]

/-- Adding further sets to a set. -/
theorem foldlM_union (so : List ℕ → List ℕ) (ho : SetOrder so) : ∀ (rest : List (RSet η δ ε)) (s : RSet η δ ε) (la : List (SRxn η δ ε))
    (ls : List (List (SRxn η δ ε))), Built s → (∀ t ∈ rest, Built t ∧ t.entries = s.entries ∧ t.openElem = s.openElem ∧ t.chempot = s.chempot) →
    getRxns s = .ok la → List.Forall₂ (fun t l => getRxns t = .ok l) rest ls →
    ∃ u l, rest.foldlM (addRxnSet so) s = .ok u ∧ Built u ∧ getRxns u = .ok l ∧ l.Perm (la ++ ls.flatten) ∧
      u.entries = s.entries ∧ u.openElem = s.openElem ∧ u.chempot = s.chempot := by
  intro rest
  induction rest with
  | nil =>
    intro s la ls hs _ hla hls
    cases hls
    exact ⟨s, la, rfl, hs, hla, by simp, rfl, rfl, rfl⟩
  | cons t rest ih =>
    intro s la ls hs hall hla hls
    cases hls with
    | cons ht hls =>
      rename_i lt ls
      obtain ⟨hbt, he, h1, h2⟩ := hall t List.mem_cons_self
      obtain ⟨v, la', lt', lv, k1, k2, k3, k4, k5, k6, k7, k8⟩ := C22_union_partial so ho s t hs hbt he.symm ⟨h1.symm, h2.symm⟩
      rw [hla] at k2; cases k2
      rw [ht] at k3; cases k3
      obtain ⟨u, l, m1, m2, m3, m4, m5, m6, m7⟩ := ih v lv ls (.add so s t v ho hs hbt k1)
        (fun x hx => by
          obtain ⟨a, b, c, d⟩ := hall x (List.mem_cons_of_mem _ hx)
          exact ⟨a, by rw [b, k6], by rw [c, k7], by rw [d, k8]⟩) k4 hls
      refine ⟨u, l, by rw [List.foldlM_cons, k1]; exact m1, m2, m3, ?_, by rw [m5, k6], by rw [m6, k7], by rw [m7, k8]⟩
      refine m4.trans ?_
      rw [List.flatten_cons, ← List.append_assoc]
      exact k5.append_right _

/-- **C87, partial**: if the enumerators worked on the same entries at the same chemical potential, the result holds a smallest representative of every
reaction any of them found, nothing else, and no two multiples. No enumerators give no result. Missing: enumerators whose working sets
differ (see below), reactions that are multiples only within tolerance. -/
theorem C87_run_partial (so : List ℕ → List ℕ) (ho : SetOrder so) (argsort : List ℚ → List ℕ) (ha : ArgSort argsort)
    (groupBy : List (List ℕ) → List (List ℕ)) (hg : GroupBy groupBy) (sets : List (RSet η δ ε)) (ls : List (List (SRxn η δ ε)))
    (hls : List.Forall₂ (fun t l => getRxns t = .ok l) sets ls) (hbuilt : ∀ t ∈ sets, Built t)
    (hsame : ∀ t ∈ sets, ∀ t' ∈ sets, t.entries = t'.entries ∧ t.openElem = t'.openElem ∧ t.chempot = t'.chempot)
    (hproper : ∀ l ∈ ls, ∀ r ∈ l, Proper r) (hsep : ∀ r ∈ ls.flatten, ∀ r' ∈ ls.flatten, Separated r r') :
    (sets = [] → runEnumerators so (fun s => filterDuplicates argsort groupBy s []) sets = .ok none) ∧
    (sets ≠ [] → ∃ u out, runEnumerators so (fun s => filterDuplicates argsort groupBy s []) sets = .ok (some u) ∧
      getRxns u = .ok out ∧ Filtered [] ls.flatten out) := by
  refine ⟨fun h => by rw [h]; rfl, fun hne => ?_⟩
  cases hls with
  | nil => exact absurd rfl hne
  | cons h0 hls =>
    rename_i s la rest ls
    obtain ⟨u, l, h1, h2, h3, h4, -⟩ := foldlM_union so ho rest s la ls (hbuilt s List.mem_cons_self)
      (fun t ht => ⟨hbuilt t (List.mem_cons_of_mem _ ht), hsame t (List.mem_cons_of_mem _ ht) s List.mem_cons_self⟩) h0 hls
    rw [← List.flatten_cons] at h4
    have hp : ∀ r ∈ l, Proper r := fun r hr => by
      obtain ⟨l', hl', hr'⟩ := List.mem_flatten.1 (h4.subset hr)
      exact hproper l' hl' r hr'
    obtain ⟨s', out, f1, f2, -, f3⟩ := C25_filter_partial argsort ha groupBy hg u h2 l h3 hp
      (fun r hr r' hr' => hsep r (h4.subset hr) r' (h4.subset hr')) [] (by simp)
    refine ⟨s', out, ?_, f2, ⟨f3.sub.trans h4.subperm, ?_, f3.uniq, f3.ens⟩⟩
    · unfold runEnumerators
      simp only [h1, f1, bind, Except.bind, pure, Except.pure]
    · intro r hr
      obtain ⟨r', hr', hm, hmin⟩ := f3.cover r (h4.symm.subset hr)
      exact ⟨r', hr', hm, hmin.imp id fun h r'' hr'' => h r'' (h4.symm.subset hr'')⟩

/-- Two enumerators that both find 2 A -> 4 B or a multiple of it, the second also A -> C. -/
example : (do
    let r ← runEnumerators (η := ℕ) (δ := ℕ) (ε' := ℕ) List.dedup (fun s => filterDuplicates argsortEx groupByEx s [])
      [mk [1, 2, 3] [(2, [[0, 1]])] [(2, [[-2, 4]])] none 0 (some [(2, [7])]),
       mk [1, 2, 3] [(2, [[0, 1], [0, 2]])] [(2, [[-1, 2], [-1, 1]])] none 0 (some [(2, [8, 9])])]
    getRxns (← r.elim (.error .valueError) .ok)) = .ok [⟨[1, 3], [-1, 1], 9, []⟩, ⟨[1, 2], [-1, 2], 8, []⟩] := by decide +kernel

/-- **C87, violated**: if the second enumerator's working set differs (say, a precursor had to be interpolated), the run fails. -/
theorem C87_sets_violated (so : List ℕ → List ℕ) (filt : RSet η δ ε → Except Err (RSet η δ ε)) (a b : RSet η δ ε)
    (rest : List (RSet η δ ε)) (h : a.entries ≠ b.entries) : runEnumerators so filt (a :: b :: rest) = .error .valueError := by
  unfold runEnumerators
  simp only [List.foldlM_cons, C22_rejects so a b h]
  rfl

example : runEnumerators (η := ℕ) (δ := ℕ) (ε' := ℕ) List.dedup (fun s => .ok s)
    [mk [1, 2] [(2, [[0, 1]])] [(2, [[-2, 4]])] none 0 (some [(2, [7])]),
     mk [1, 2, 3] [(2, [[0, 2]])] [(2, [[-1, 1]])] none 0 (some [(2, [8])])] = .error .valueError :=
  C87_sets_violated _ _ _ _ _ (by decide)

/-- **C87, violated**: reactions found at another chemical potential than that of the first enumerator come out without theirs (here the
reaction 1 -> 3 was found with element 5 open at potential -2, and comes out as a closed reaction). -/
theorem C87_chempot_violated : ∃ (a b : RSet ℕ ℕ ℕ) (r : SRxn ℕ ℕ ℕ), getRxns b = .ok [r] ∧ r.chempots = [(5, -2)] ∧
    (do
      let u ← runEnumerators List.dedup (fun s => filterDuplicates argsortEx groupByEx s []) [a, b]
      getRxns (← u.elim (.error .valueError) .ok)) = .ok [⟨[1, 2], [-2, 4], 7, []⟩, ⟨[1, 3], [-1, 1], 8, []⟩] :=
  ⟨mk [1, 2, 3] [(2, [[0, 1]])] [(2, [[-2, 4]])] none 0 (some [(2, [7])]),
    mk [1, 2, 3] [(2, [[0, 2]])] [(2, [[-1, 1]])] (some 5) (-2) (some [(2, [8])]), ⟨[1, 3], [-1, 1], 8, [(5, -2)]⟩, by decide +kernel⟩

end Runs

end Verif.Props.LargeSets
