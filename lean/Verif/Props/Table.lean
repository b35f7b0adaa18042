import Verif.Spec.Table
import Verif.Lemmas.Dict
import Verif.Lemmas.Except
import Mathlib.Tactic.Linarith

/-! Property C101: the reaction table (src/rxn_network/reactions/reaction_set.py:189-291). -/

set_option linter.unusedSimpArgs false

namespace Verif.Props.Table
open Verif.Py Verif.Model.Table Verif.Spec.Table Verif.Lemmas.Dict

variable {V : Type}

/-! helpers -/

theorem setEmpty_eq (cols : List (String × List (Cell V))) (ks : List String) (h : (cols.map Prod.fst ++ ks).Nodup) :
    setEmpty cols ks = cols ++ ks.map fun k => (k, []) := by
  have := foldl_dictSet_eq cols (ks.map fun k => (k, ([] : List (Cell V)))) (by
    rw [List.map_append, List.map_map]
    simpa [Function.comp_def] using h)
  rw [← this, List.foldl_map]
  rfl

/-- the attributes do not clash with the fixed names -/
def Clean (attrs : List String) : Prop := attrs.Nodup ∧ ∀ k ∈ attrs, k ∉ reserved

theorem columns_nodup (a : Args V) (hull theo : Bool) (attrs : List String) (h : Clean attrs) :
    (columns a hull theo attrs).Nodup := by
  obtain ⟨h1, h2⟩ := h
  have hd : ∀ k ∈ attrs, ∀ s ∈ reserved, k ≠ s := fun k hk s hs hks => h2 k hk (hks ▸ hs)
  have e : ∀ s ∈ reserved, s ∉ attrs := fun s hs hm => h2 s hm hs
  have e1 := e "rxn" (by decide); have e2 := e "energy" (by decide); have e3 := e "max_e_hull_reactants" (by decide)
  have e4 := e "max_e_hull_products" (by decide); have e5 := e "num_theoretical_reactants" (by decide)
  have e6 := e "num_theoretical_products" (by decide); have e7 := e "dE" (by decide)
  have e8 := e "added_elems" (by decide); have e9 := e "separable" (by decide)
  have e10 := e "max_num_precursor_elems" (by decide); have e11 := e "cost" (by decide)
  have hc : (attrs ++ ["cost"]).Nodup := by
    rw [List.nodup_append]
    refine ⟨h1, by simp, ?_⟩
    intro x hx y hy hxy
    simp only [List.mem_singleton] at hy
    exact e11 (hy ▸ hxy ▸ hx)
  unfold columns
  obtain ⟨cost, target, unc, sep⟩ := a
  cases hull <;> cases theo <;> cases unc <;> cases target <;> cases sep <;>
    simp [e1, e2, e3, e4, e5, e6, e7, e8, e9, e10, e11, hc]

theorem initCols_eq (a : Args V) (hull theo : Bool) (attrs : List String) (h : Clean attrs) :
    initCols a hull theo attrs = (columns a hull theo attrs).map fun k => (k, []) := by
  have hn := columns_nodup a hull theo attrs h
  have key : ∀ A B C D : List String, (["rxn", "energy"] ++ A ++ B ++ C ++ D).Nodup →
      setEmpty (setEmpty (setEmpty (setEmpty [("rxn", ([] : List (Cell V))), ("energy", [])] A) B) C) D
        = (["rxn", "energy"] ++ A ++ B ++ C ++ D).map fun k => (k, []) := by
    intro A B C D hN
    have n1 : (["rxn", "energy"] ++ A ++ B ++ C).Nodup := (List.nodup_append.mp hN).1
    have n2 : (["rxn", "energy"] ++ A ++ B).Nodup := (List.nodup_append.mp n1).1
    have n3 : (["rxn", "energy"] ++ A).Nodup := (List.nodup_append.mp n2).1
    rw [setEmpty_eq _ A (by simpa using n3), setEmpty_eq _ B (by simpa [Function.comp_def] using n2),
      setEmpty_eq _ C (by simpa [Function.comp_def] using n1), setEmpty_eq _ D (by simpa [Function.comp_def] using hN)]
    simp
  unfold initCols
  rw [key]
  · unfold columns
    obtain ⟨cost, target, unc, sep⟩ := a
    cases target <;> cases sep <;> simp
  · unfold columns at hn
    obtain ⟨cost, target, unc, sep⟩ := a
    cases target <;> cases sep <;> simpa using hn

theorem rowThunks_sound (a : Args V) (hull theo : Bool) (attrs : List String) (h : Clean attrs) (r : TRxn V)
    (p : String × Except Err (Cell V)) (hp : p ∈ rowThunks a hull theo attrs r) : p.2 = cellOf a p.1 r := by
  obtain ⟨k, t⟩ := p
  have hattr : ∀ k ∈ attrs, cellOf a k r = .ok (.any (dictGet r.data k)) := by
    intro k hk
    have := h.2 k hk
    simp only [reserved, List.mem_cons, List.not_mem_nil, or_false, not_or] at this
    obtain ⟨h1, h2, h3, h4, h5, h6, h7, h8, h9, h10, h11⟩ := this
    unfold cellOf
    simp [h1, h2, h3, h4, h5, h6, h7, h8, h9, h10, h11]
  unfold rowThunks at hp
  simp only [List.mem_append, List.mem_cons, List.not_mem_nil, or_false, List.mem_map] at hp
  rcases hp with ((((((((hp | hp) | hp) | hp) | hp) | hp) | hp) | hp) | hp)
  · cases hp; rfl
  · cases hp; rfl
  · split at hp
    · simp only [List.mem_cons, List.not_mem_nil, or_false] at hp; cases hp; rfl
    · simp at hp
  · cases ht : a.target with
    | none => simp [ht] at hp
    | some f =>
      simp only [ht, List.mem_cons] at hp
      rcases hp with hp | hp
      · cases hp; simp [cellOf, ht]
      · split at hp
        · simp only [List.mem_cons, List.not_mem_nil, or_false] at hp; cases hp; simp [cellOf, ht]
        · simp at hp
  · split at hp
    · simp only [List.mem_cons, List.not_mem_nil, or_false] at hp
      rcases hp with hp | hp <;> cases hp <;> rfl
    · simp at hp
  · split at hp
    · simp only [List.mem_cons, List.not_mem_nil, or_false] at hp
      rcases hp with hp | hp <;> cases hp <;> rfl
    · simp at hp
  · cases hp; rfl
  · obtain ⟨x, hx, he⟩ := hp
    cases he
    exact (hattr _ hx).symm
  · cases hp; rfl

theorem rowThunks_keys (a : Args V) (hull theo : Bool) (attrs : List String) (r : TRxn V) :
    ((rowThunks a hull theo attrs r).map Prod.fst).Perm (columns a hull theo attrs) := by
  have key : ∀ P Q R S : List String, (P ++ Q ++ R ++ S).Perm (P ++ R ++ Q ++ S) := by
    intro P Q R S
    simp only [List.append_assoc]
    refine List.Perm.append_left P ?_
    rw [← List.append_assoc, ← List.append_assoc]
    exact List.perm_append_comm.append_right S
  have h1 : (rowThunks a hull theo attrs r).map Prod.fst = ["rxn", "energy"] ++
      ((if a.unc then ["dE"] else []) ++ (if a.target.isSome then ["added_elems"] else []) ++
        (if a.target.isSome && a.sep then ["separable"] else [])) ++
      ((if hull then ["max_e_hull_reactants", "max_e_hull_products"] else []) ++
        (if theo then ["num_theoretical_reactants", "num_theoretical_products"] else [])) ++
      (["max_num_precursor_elems"] ++ attrs ++ ["cost"]) := by
    unfold rowThunks
    obtain ⟨cost, target, unc, sep⟩ := a
    cases hull <;> cases theo <;> cases unc <;> cases target <;> cases sep <;> simp [Function.comp_def]
  have h2 : columns a hull theo attrs = ["rxn", "energy"] ++
      ((if hull then ["max_e_hull_reactants", "max_e_hull_products"] else []) ++
        (if theo then ["num_theoretical_reactants", "num_theoretical_products"] else [])) ++
      ((if a.unc then ["dE"] else []) ++ (if a.target.isSome then ["added_elems"] else []) ++
        (if a.target.isSome && a.sep then ["separable"] else [])) ++
      (["max_num_precursor_elems"] ++ attrs ++ ["cost"]) := by
    unfold columns
    simp only [List.append_assoc]
  rw [h1, h2]
  exact key _ _ _ _

theorem appendAll_spec (ts : List (String × Except Err (Cell V))) (cols : List (String × List (Cell V)))
    (hk : (ts.map Prod.fst).Nodup) (hsub : ∀ k ∈ ts.map Prod.fst, k ∈ cols.map Prod.fst) :
    (∀ cols', ts.foldlM appendCell cols = .ok cols' →
      (∀ p ∈ ts, ∃ c, p.2 = .ok c) ∧ cols'.map Prod.fst = cols.map Prod.fst ∧
      (∀ k, k ∉ ts.map Prod.fst → dictGet cols' k = dictGet cols k) ∧
      ∀ p ∈ ts, ∀ c l, p.2 = .ok c → dictGet cols p.1 = some l → dictGet cols' p.1 = some (l ++ [c])) ∧
    ((∀ p ∈ ts, ∃ c, p.2 = .ok c) → ∃ cols', ts.foldlM appendCell cols = .ok cols') := by
  induction ts generalizing cols with
  | nil =>
    refine ⟨fun cols' h => ?_, fun _ => ⟨cols, rfl⟩⟩
    cases h
    simp
  | cons p ts ih =>
    rw [List.map_cons, List.nodup_cons] at hk
    have hp : p.1 ∈ cols.map Prod.fst := hsub p.1 (by simp)
    cases hd : dictGet cols p.1 with
    | none => exact absurd hp ((dictGet_eq_none _ _).mp hd)
    | some l =>
      cases ht : p.2 with
      | error e =>
        refine ⟨fun cols' h => ?_, fun h => ?_⟩
        · rw [List.foldlM_cons] at h
          simp [appendCell, ht, bind, Except.bind] at h
        · obtain ⟨c, hc⟩ := h p (by simp)
          rw [ht] at hc; cases hc
      | ok c =>
        have hstep : (p :: ts).foldlM appendCell cols = ts.foldlM appendCell (dictSet cols p.1 (l ++ [c])) := by
          rw [List.foldlM_cons]
          simp [appendCell, ht, hd, bind, Except.bind]
        have hkeys : (dictSet cols p.1 (l ++ [c])).map Prod.fst = cols.map Prod.fst := by
          rw [keys_dictSet, if_pos hp]
        obtain ⟨h1, h2⟩ := ih (dictSet cols p.1 (l ++ [c])) hk.2 (by
          intro k hkm; rw [hkeys]; exact hsub k (by simp only [List.map_cons, List.mem_cons]; exact Or.inr hkm))
        rw [hstep]
        constructor
        · intro cols' h
          obtain ⟨g1, g2, g3, g4⟩ := h1 cols' h
          refine ⟨?_, g2.trans hkeys, ?_, ?_⟩
          · intro q hq
            rcases List.mem_cons.mp hq with rfl | hq
            · exact ⟨c, ht⟩
            · exact g1 q hq
          · intro k hkn
            simp only [List.map_cons, List.mem_cons, not_or] at hkn
            rw [g3 k hkn.2, dictGet_dictSet, if_neg (Ne.symm hkn.1)]
          · intro q hq c' l' hc' hl'
            rcases List.mem_cons.mp hq with rfl | hq
            · rw [hd] at hl'; rw [ht] at hc'
              cases hl'; cases hc'
              rw [g3 _ hk.1, dictGet_dictSet, if_pos rfl]
            · refine g4 q hq c' l' hc' ?_
              rw [dictGet_dictSet, if_neg, hl']
              intro he
              exact hk.1 (he ▸ List.mem_map.mpr ⟨q, hq, rfl⟩)
        · intro h
          exact h2 fun q hq => h q (by simp [hq])

/-- the state of the columns after some reactions -/
def Filled (a : Args V) (names : List String) (done : List (TRxn V)) (cols : List (String × List (Cell V))) : Prop :=
  cols.map Prod.fst = names ∧ ∀ k ∈ names, ∃ l, dictGet cols k = some l ∧ l.map Except.ok = done.map (cellOf a k)

theorem appendRow_filled (a : Args V) (hull theo : Bool) (attrs : List String) (h : Clean attrs) (done : List (TRxn V)) (r : TRxn V)
    (cols : List (String × List (Cell V))) (hf : Filled a (columns a hull theo attrs) done cols) :
    (∀ cols', appendRow a hull theo attrs cols r = .ok cols' → Filled a (columns a hull theo attrs) (done ++ [r]) cols') ∧
    ((∃ cols', appendRow a hull theo attrs cols r = .ok cols') ↔ ∀ k ∈ columns a hull theo attrs, ∃ c, cellOf a k r = .ok c) := by
  have hperm := rowThunks_keys a hull theo attrs r
  have hn : ((rowThunks a hull theo attrs r).map Prod.fst).Nodup := hperm.nodup_iff.mpr (columns_nodup a hull theo attrs h)
  obtain ⟨h1, h2⟩ := appendAll_spec (rowThunks a hull theo attrs r) cols hn (by
    intro k hk; rw [hf.1]; exact hperm.mem_iff.mp hk)
  have hcells : (∀ p ∈ rowThunks a hull theo attrs r, ∃ c, p.2 = .ok c) ↔
      ∀ k ∈ columns a hull theo attrs, ∃ c, cellOf a k r = .ok c := by
    constructor
    · intro hp k hk
      obtain ⟨p, hpm, rfl⟩ := List.mem_map.mp (hperm.mem_iff.mpr hk)
      rw [← rowThunks_sound a hull theo attrs h r p hpm]
      exact hp p hpm
    · intro hk p hp
      rw [rowThunks_sound a hull theo attrs h r p hp]
      exact hk _ (hperm.mem_iff.mp (List.mem_map.mpr ⟨p, hp, rfl⟩))
  constructor
  · intro cols' hc
    obtain ⟨g1, g2, g3, g4⟩ := h1 cols' hc
    refine ⟨g2.trans hf.1, fun k hk => ?_⟩
    obtain ⟨l, hl, hlm⟩ := hf.2 k hk
    obtain ⟨p, hpm, rfl⟩ := List.mem_map.mp (hperm.mem_iff.mpr hk)
    obtain ⟨c, hc⟩ := g1 p hpm
    refine ⟨l ++ [c], g4 p hpm c l hc hl, ?_⟩
    rw [List.map_append, List.map_append, hlm, List.map_singleton, List.map_singleton,
      ← rowThunks_sound a hull theo attrs h r p hpm, hc]
  · rw [← hcells]
    exact ⟨fun ⟨cols', hc⟩ => (h1 cols' hc).1, h2⟩

theorem loop_filled (a : Args V) (hull theo : Bool) (attrs : List String) (h : Clean attrs) (rxns done : List (TRxn V))
    (cols : List (String × List (Cell V))) (hf : Filled a (columns a hull theo attrs) done cols) :
    (∀ cols', rxns.foldlM (appendRow a hull theo attrs) cols = .ok cols' →
      Filled a (columns a hull theo attrs) (done ++ rxns) cols') ∧
    ((∃ cols', rxns.foldlM (appendRow a hull theo attrs) cols = .ok cols') ↔
      ∀ r ∈ rxns, ∀ k ∈ columns a hull theo attrs, ∃ c, cellOf a k r = .ok c) := by
  induction rxns generalizing done cols with
  | nil =>
    refine ⟨fun cols' hc => ?_, by simp [pure, Except.pure]⟩
    cases hc
    simpa using hf
  | cons r rs ih =>
    obtain ⟨h1, h2⟩ := appendRow_filled a hull theo attrs h done r cols hf
    rw [List.foldlM_cons]
    cases hr : appendRow a hull theo attrs cols r with
    | error e =>
      constructor
      · intro cols' hc; simp [bind, Except.bind] at hc
      · constructor
        · rintro ⟨cols', hc⟩; simp [bind, Except.bind] at hc
        · intro hall
          obtain ⟨c', hc'⟩ := h2.mpr (hall r (by simp))
          rw [hr] at hc'; cases hc'
    | ok c1 =>
      obtain ⟨g1, g2⟩ := ih (done ++ [r]) c1 (h1 c1 hr)
      constructor
      · intro cols' hc
        have := g1 cols' hc
        rwa [List.append_assoc, List.singleton_append] at this
      · constructor
        · rintro ⟨cols', hc⟩ x hx
          rcases List.mem_cons.mp hx with rfl | hx
          · exact h2.mp ⟨c1, hr⟩
          · exact g2.mp ⟨cols', hc⟩ x hx
        · intro hall
          exact g2.mpr fun x hx => hall x (by simp [hx])

theorem filterMap_map {α β γ : Type} (idx : List ℕ) (col : List α) (rows : List β) (f : α → γ) (g : β → γ)
    (h : col.map f = rows.map g) :
    (idx.filterMap fun i => col[i]?).map f = (idx.filterMap fun i => rows[i]?).map g := by
  rw [List.map_filterMap, List.map_filterMap]
  apply List.filterMap_congr
  intro i _
  have := congrArg (fun l : List γ => l[i]?) h
  simpa using this

theorem filterMap_range {α : Type} (l : List α) : ((List.range l.length).filterMap fun i => l[i]?) = l := by
  induction l with
  | nil => rfl
  | cons x l ih =>
    rw [List.length_cons, List.range_succ_eq_map, List.filterMap_cons, List.filterMap_map]
    simpa using ih

/-! ### C101 -/

/-- Every table: one row per reaction, in order of cost, with the columns of the documentation, and every cell is that of
the reaction of its row. (`Clean`: no data key of the first reaction has a fixed meaning; see `C101_clash_violated`.) -/
theorem C101_rows (sortIdx : List (Cell V) → List ℕ) (hs : Sorts sortIdx) (a : Args V) (rxns : List (TRxn V))
    (hull theo : Bool) (attrs : List String) (hfl : flagsOf rxns = .ok (hull, theo, attrs)) (hcl : Clean attrs)
    (t : List (String × List (Cell V))) (ht : toTable sortIdx a rxns = .ok t) :
    t.map Prod.fst = columns a hull theo attrs ∧
    ∃ rows : List (TRxn V), rows.Perm rxns ∧
      rows.Pairwise (fun r r' => ∀ q q', a.cost r = .ok q → a.cost r' = .ok q' → q ≤ q') ∧
      ∀ k ∈ columns a hull theo attrs, ∃ col, (k, col) ∈ t ∧ col.map Except.ok = rows.map (cellOf a k) := by
  unfold toTable at ht
  rw [hfl] at ht
  simp only at ht
  obtain ⟨h1, -⟩ := loop_filled a hull theo attrs hcl rxns [] (initCols a hull theo attrs) (by
    rw [initCols_eq a hull theo attrs hcl]
    refine ⟨by simp [Function.comp_def], fun k hk => ⟨[], ?_, rfl⟩⟩
    apply dictGet_eq_some_of_mem
    · rw [List.map_map]; simpa [Function.comp_def] using columns_nodup a hull theo attrs hcl
    · exact List.mem_map.mpr ⟨k, hk, rfl⟩)
  cases hl : rxns.foldlM (appendRow a hull theo attrs) (initCols a hull theo attrs) with
  | error e => rw [hl] at ht; cases ht
  | ok cols =>
    rw [hl] at ht
    simp only at ht
    have hf := h1 cols hl
    rw [List.nil_append] at hf
    split at ht
    · simp only [Except.ok.injEq] at ht
      subst ht
      obtain ⟨cc, hcc, hccm⟩ := hf.2 "cost" (by unfold columns; simp)
      have hlen : cc.length = rxns.length := by simpa using congrArg List.length hccm
      rw [hcc, Option.getD_some]
      obtain ⟨p1, p2⟩ := hs cc
      refine ⟨by rw [List.map_map]; exact hf.1, (sortIdx cc).filterMap (fun i => rxns[i]?), ?_, ?_, ?_⟩
      · have := p1.filterMap (fun i => rxns[i]?)
        rw [hlen, filterMap_range] at this
        exact this
      · have hmm := filterMap_map (sortIdx cc) cc rxns Except.ok (cellOf a "cost") hccm
        have hpw : ((sortIdx cc).filterMap (fun i => rxns[i]?)).Pairwise (fun r r' =>
            ∀ c c', cellOf a "cost" r = .ok c → cellOf a "cost" r' = .ok c' → cellLe c c') := by
          have h3 : (((sortIdx cc).filterMap fun i => cc[i]?).map Except.ok).Pairwise
              (fun x y : Except Err (Cell V) => ∀ c c', x = .ok c → y = .ok c' → cellLe c c') := by
            rw [List.pairwise_map]
            apply List.Pairwise.imp _ p2
            intro x y hxy c c' hx hy
            cases hx; cases hy; exact hxy
          rw [hmm, List.pairwise_map] at h3
          exact h3
        apply List.Pairwise.imp _ hpw
        intro r r' hrr q q' hq hq'
        have := hrr (.num q) (.num q') (by simp [cellOf, hq, Except.map]) (by simp [cellOf, hq', Except.map])
        exact this
      · intro k hk
        obtain ⟨l, hl', hlm⟩ := hf.2 k hk
        refine ⟨pickRows (sortIdx cc) l, ?_, filterMap_map (sortIdx cc) l rxns Except.ok (cellOf a k) hlm⟩
        exact List.mem_map.mpr ⟨(k, l), mem_of_dictGet _ _ _ hl', rfl⟩
    · cases ht

/-- The call succeeds exactly when every cell can be computed. -/
theorem C101_succeeds (sortIdx : List (Cell V) → List ℕ) (a : Args V) (rxns : List (TRxn V))
    (hull theo : Bool) (attrs : List String) (hfl : flagsOf rxns = .ok (hull, theo, attrs)) (hcl : Clean attrs) :
    (∃ t, toTable sortIdx a rxns = .ok t) ↔ ∀ r ∈ rxns, ∀ k ∈ columns a hull theo attrs, ∃ c, cellOf a k r = .ok c := by
  obtain ⟨h1, h2⟩ := loop_filled a hull theo attrs hcl rxns [] (initCols a hull theo attrs) (by
    rw [initCols_eq a hull theo attrs hcl]
    refine ⟨by simp [Function.comp_def], fun k hk => ⟨[], ?_, rfl⟩⟩
    apply dictGet_eq_some_of_mem
    · rw [List.map_map]; simpa [Function.comp_def] using columns_nodup a hull theo attrs hcl
    · exact List.mem_map.mpr ⟨k, hk, rfl⟩)
  rw [← h2]
  unfold toTable
  rw [hfl]
  simp only
  cases hl : rxns.foldlM (appendRow a hull theo attrs) (initCols a hull theo attrs) with
  | error e => simp
  | ok cols =>
    have hf := h1 cols hl
    rw [List.nil_append] at hf
    have hlens : ∀ p ∈ cols, p.2.length = rxns.length := by
      intro p hp
      have hn : (cols.map Prod.fst).Nodup := hf.1 ▸ columns_nodup a hull theo attrs hcl
      obtain ⟨l, hl', hlm⟩ := hf.2 p.1 (hf.1 ▸ List.mem_map.mpr ⟨p, hp, rfl⟩)
      have := dictGet_eq_some_of_mem cols hn p.1 p.2 hp
      rw [this] at hl'
      cases hl'
      simpa using congrArg List.length hlm
    have hsame : sameLengths cols = true := by
      unfold sameLengths
      split
      · rfl
      · rename_i n l rest
        rw [List.all_eq_true]
        intro p hp
        rw [decide_eq_true_eq, hlens p (by simp [hp]), hlens (n, l) (by simp)]
    simp [hsame]

/-- Costs alone are listed in the order of the reactions, one for each. -/
theorem C101_costs (cost : TRxn V → Except Err ℚ) (rxns : List (TRxn V)) (l : List ℚ) (h : calculateCosts cost rxns = .ok l) :
    l.map Except.ok = rxns.map cost := by
  unfold calculateCosts at h
  rw [Verif.Lemmas.Exc.mapM_ok] at h
  induction h with
  | nil => rfl
  | cons h1 _ ih => rw [List.map_cons, List.map_cons, h1, ih]

/-! concrete tables -/

def e0 : TEntry := ⟨some (some (1 / 10)), true, gibbsExper (some false) none⟩
def e1 : TEntry := ⟨none, false, .ok true⟩
def e2 : TEntry := ⟨some (some (3 / 10)), true, gibbsExper none (some (some 0))⟩

def r0 : TRxn ℕ := ⟨0, .ok (-1), .ok (1 / 5), [("num_constraints", 1), ("score", 7)], [e0, e1], [e0], [e1], [2, 1]⟩
def r1 : TRxn ℕ := ⟨1, .ok (-2), .ok (2 / 5), [("score", 8), ("extra", 3)], [e1, e2], [e1], [e2], [3]⟩

def args : Args ℕ := ⟨fun r => r.energy, some fun r => (if r.key = 0 then "O" else "", .ok true), true, true⟩

/-- sorting two rows by cost -/
def sort2 (col : List (Cell ℕ)) : List ℕ := match col with
  | [.num p, .num q] => if p ≤ q then [0, 1] else [1, 0]
  | _ => List.range col.length

example : flagsOf [r0, r1] = .ok (true, true, ["score"]) := by decide +kernel
example : Clean ["score"] := by unfold Clean reserved; decide
example : (toTable sort2 args [r0, r1]).toOption = some
    [("rxn", [.rxn 1, .rxn 0]), ("energy", [.num (-2), .num (-1)]), ("max_e_hull_reactants", [.num 0, .num (1 / 10)]),
     ("max_e_hull_products", [.num (3 / 10), .num 0]), ("num_theoretical_reactants", [.nat 0, .nat 0]),
     ("num_theoretical_products", [.nat 1, .nat 0]), ("dE", [.num (2 / 5), .num (1 / 5)]), ("added_elems", [.str "", .str "O"]),
     ("separable", [.bool true, .bool true]), ("max_num_precursor_elems", [.nat 3, .nat 2]),
     ("score", [.any (some 8), .any (some 7)]), ("cost", [.num (-2), .num (-1)])] := by decide +kernel

/-- sorting keys: numbers in order, everything else last -/
def sortKey : Cell V → WithTop ℚ
  | .num q => (q : WithTop ℚ)
  | _ => ⊤

/-- the hypothesis on the sorting routine can be met -/
example : ∃ sortIdx : List (Cell V) → List ℕ, Sorts sortIdx := by
  let key := fun (col : List (Cell V)) (i : ℕ) => ((col[i]?).map sortKey).getD ⊤
  refine ⟨fun col => (List.range col.length).insertionSort fun i j => key col i ≤ key col j, fun col => ⟨List.perm_insertionSort _ _, ?_⟩⟩
  have : Std.Total (fun i j => key col i ≤ key col j) := ⟨fun i j => le_total _ _⟩
  have : IsTrans ℕ (fun i j => key col i ≤ key col j) := ⟨fun i j k h h' => le_trans h h'⟩
  have h := List.pairwise_insertionSort (fun i j => key col i ≤ key col j) (List.range col.length)
  unfold pickRows
  rw [List.pairwise_filterMap]
  apply List.Pairwise.imp _ h
  intro i j hij x hx y hy
  simp only [key, hx, hy, Option.map_some, Option.getD_some] at hij
  cases x <;> cases y <;> simp [sortKey, cellLe] at hij ⊢
  exact hij

/-- Not every data key becomes a column: only those of the first reaction do. Here the second reaction's `extra` is lost. -/
theorem C101_lost_violated : ∃ (rxns : List (TRxn ℕ)) (t : List (String × List (Cell ℕ))),
    toTable sort2 args rxns = .ok t ∧ (∃ r ∈ rxns, "extra" ∈ r.data.map Prod.fst) ∧ "extra" ∉ t.map Prod.fst := by
  have h : ((toTable sort2 args [r0, r1]).toOption.map fun t => decide ("extra" ∉ t.map Prod.fst)) = some true := by decide +kernel
  cases ht : toTable sort2 args [r0, r1] with
  | error e => rw [ht] at h; simp [Except.toOption] at h
  | ok t =>
    rw [ht] at h
    exact ⟨[r0, r1], t, ht, ⟨r1, by simp, by decide⟩, by simpa [Except.toOption] using h⟩

/-- A data key with the name of a fixed column makes the call fail with `ValueError`, although every value of the reaction
can be computed. -/
theorem C101_clash_violated : ∃ (r : TRxn ℕ), (∀ k ∈ reserved, ∃ c, cellOf args k r = .ok c) ∧
    toTable sort2 args [r] = .error .valueError := by
  refine ⟨{ r0 with data := [("energy", 5)] }, ?_, by rfl⟩
  have : ∀ k ∈ reserved, ((cellOf args k { r0 with data := [("energy", 5)] }).toOption).isSome = true := by decide +kernel
  intro k hk
  have := this k hk
  cases hc : cellOf args k { r0 with data := [("energy", 5)] } with
  | ok c => exact ⟨c, rfl⟩
  | error e => rw [hc] at this; simp [Except.toOption] at this

/-! ### the cache -/

/-- Repeated calls return an equal table as long as no caller has changed a table it was given, whatever was asked in between. -/
theorem C101_cache_partial {K T : Type} [DecidableEq K] (compute : K → T) (ks : List K) (k : K) :
    ∃ ref, (cacheStep compute (cacheRun compute ⟨none, []⟩ (ks.map .call)) (.call k)).2 = some ref ∧
      (cacheStep compute (cacheRun compute ⟨none, []⟩ (ks.map .call)) (.call k)).1.heap[ref]? = some (compute k) := by
  have inv : ∀ (ks : List K) (s : CacheSt K T), (∀ k' ref, s.cache = some (k', ref) → s.heap[ref]? = some (compute k')) →
      ∀ k' ref, (cacheRun compute s (ks.map .call)).cache = some (k', ref) →
        (cacheRun compute s (ks.map .call)).heap[ref]? = some (compute k') := by
    intro ks
    induction ks with
    | nil => intro s hs; exact hs
    | cons k ks ih =>
      intro s hs
      simp only [List.map_cons, cacheRun, List.foldl_cons]
      apply ih
      intro k' ref
      unfold cacheStep
      cases hc : s.cache with
      | none => intro h; cases h; simp
      | some p =>
        obtain ⟨k0, ref0⟩ := p
        simp only
        split
        · intro h; exact hs k' ref h
        · intro h; cases h; simp
  generalize hsdef : cacheRun compute ⟨none, []⟩ (ks.map .call) = s
  have hs := inv ks ⟨none, []⟩ (by simp)
  rw [hsdef] at hs
  unfold cacheStep
  cases hc : s.cache with
  | none => exact ⟨s.heap.length, rfl, by simp⟩
  | some p =>
    obtain ⟨k0, ref0⟩ := p
    simp only
    split
    · rename_i hk
      exact ⟨ref0, rfl, by rw [hs k0 ref0 hc, hk]⟩
    · exact ⟨s.heap.length, rfl, by simp⟩

/-- Editing a returned table changes what the next identical call returns: the cached table itself is handed out. -/
theorem C101_cache_violated : ∃ (compute : ℕ → List ℕ) (ops : List (CacheOp ℕ (List ℕ))) (k ref : ℕ),
    (cacheStep compute (cacheRun compute ⟨none, []⟩ ops) (.call k)).2 = some ref ∧
    (cacheStep compute (cacheRun compute ⟨none, []⟩ ops) (.call k)).1.heap[ref]? ≠ some (compute k) :=
  ⟨fun n => [n, n], [.call 1, .edit 0 [1]], 1, 0, by decide, by decide⟩

/-- Which computed entries count as experimental: those with a false `theoretical` flag, or, without that flag, with at least
one ICSD id. -/
theorem C101_experimental (th : Option Bool) (icsd : Option ℕ) :
    gibbsExper th (icsd.map some) = .ok true ↔ th = some false ∨ (th = none ∧ ∃ n, icsd = some n ∧ 1 ≤ n) := by
  cases th with
  | some t => cases t <;> simp [gibbsExper]
  | none =>
    cases icsd with
    | none => simp [gibbsExper]
    | some n => simp [gibbsExper]

/-! ### the computed cells -/

/-- The energy above the hull recorded for a phase; zero if there is none. -/
def HullIs (e : TEntry) (q : ℚ) : Prop := e.eHull = some (some q) ∨ ((∀ q', e.eHull ≠ some (some q')) ∧ q = 0)

theorem hullIs_iff (e : TEntry) (q : ℚ) : HullIs e q ↔ hullOf e = q := by
  unfold HullIs hullOf
  rcases h : e.eHull with _ | _ | q' <;> simp [eq_comm]

theorem foldl_max_iff {α : Type} [LinearOrder α] (l : List α) (x m : α) : l.foldl max x = m ↔ m ∈ x :: l ∧ ∀ y ∈ x :: l, y ≤ m := by
  induction l generalizing x with
  | nil => simp [eq_comm]; rintro rfl; exact le_refl _
  | cons y l ih =>
    rw [List.foldl_cons, ih]
    simp only [List.mem_cons, forall_eq_or_imp, max_le_iff]
    constructor
    · rintro ⟨h | h, ⟨h1, h2⟩, h3⟩
      · exact ⟨(max_choice x y).elim (fun e => Or.inl (h.trans e)) fun e => Or.inr (Or.inl (h.trans e)), h1, h2, h3⟩
      · exact ⟨Or.inr (Or.inr h), h1, h2, h3⟩
    · rintro ⟨h | h | h, h1, h2, h3⟩
      · exact ⟨Or.inl (by rw [h, max_eq_left (h ▸ h2)]), ⟨h1, h2⟩, h3⟩
      · exact ⟨Or.inl (by rw [h, max_eq_right (h ▸ h1)]), ⟨h1, h2⟩, h3⟩
      · exact ⟨Or.inr h, ⟨h1, h2⟩, h3⟩

theorem maxHull_iff (es : List TEntry) (m : ℚ) : (pyMaxQ (es.map hullOf)).map (Cell.num (V := V)) = .ok (.num m) ↔
    (∃ e ∈ es, HullIs e m) ∧ ∀ e ∈ es, ∀ q, HullIs e q → q ≤ m := by
  have hr : ((∃ e ∈ es, HullIs e m) ∧ ∀ e ∈ es, ∀ q, HullIs e q → q ≤ m) ↔ m ∈ es.map hullOf ∧ ∀ y ∈ es.map hullOf, y ≤ m := by
    simp [hullIs_iff]
  rw [hr]
  cases es.map hullOf with
  | nil => simp [pyMaxQ, Except.map]
  | cons x l => simp only [pyMaxQ, Except.map, Except.ok.injEq, Cell.num.injEq, foldl_max_iff]

theorem numTheoretical_iff (es : List TEntry) (n : ℕ) : (numTheoretical es).map (Cell.nat (V := V)) = .ok (.nat n) ↔
    ∃ bs, List.Forall₂ (fun e b => e.exper = .ok b) es bs ∧ n = bs.count false := by
  unfold numTheoretical
  have hc : ∀ bs : List Bool, (bs.filter fun b => !b).length = bs.count false := by
    intro bs
    rw [List.count, List.countP_eq_length_filter]
    congr 1
    refine List.filter_congr fun b _ => by cases b <;> rfl
  cases h : es.mapM TEntry.exper with
  | error e =>
    simp only [Except.map]
    constructor
    · intro h; cases h
    · rintro ⟨bs, h1, -⟩
      rw [(Verif.Lemmas.Exc.mapM_ok _ _ _).mpr h1] at h
      cases h
  | ok bs =>
    simp only [Except.map, Except.ok.injEq, Cell.nat.injEq, hc]
    constructor
    · rintro rfl
      exact ⟨bs, (Verif.Lemmas.Exc.mapM_ok _ _ _).mp h, rfl⟩
    · rintro ⟨bs', h1, rfl⟩
      rw [(Verif.Lemmas.Exc.mapM_ok _ _ _).mpr h1] at h
      rw [Except.ok.inj h]

/-- **C101, the computed cells.** The hull energies shown are the greatest recorded ones of the reactants and of the products (a phase without record counts
as zero), the numbers of theoretical phases count those that are not experimental, and the number of elements is that of the largest precursor. -/
theorem C101_cells (a : Args V) (r : TRxn V) (m : ℚ) (n : ℕ) :
    (cellOf a "max_e_hull_reactants" r = .ok (.num m) ↔
      (∃ e ∈ r.reactantEntries, HullIs e m) ∧ ∀ e ∈ r.reactantEntries, ∀ q, HullIs e q → q ≤ m) ∧
    (cellOf a "max_e_hull_products" r = .ok (.num m) ↔
      (∃ e ∈ r.productEntries, HullIs e m) ∧ ∀ e ∈ r.productEntries, ∀ q, HullIs e q → q ≤ m) ∧
    (cellOf a "num_theoretical_reactants" r = .ok (.nat n) ↔
      ∃ bs, List.Forall₂ (fun e b => e.exper = .ok b) r.reactantEntries bs ∧ n = bs.count false) ∧
    (cellOf a "num_theoretical_products" r = .ok (.nat n) ↔
      ∃ bs, List.Forall₂ (fun e b => e.exper = .ok b) r.productEntries bs ∧ n = bs.count false) ∧
    (cellOf a "max_num_precursor_elems" r = .ok (.nat n) ↔ n ∈ r.precursorSizes ∧ ∀ k ∈ r.precursorSizes, k ≤ n) := by
  refine ⟨maxHull_iff _ m, maxHull_iff _ m, numTheoretical_iff _ n, numTheoretical_iff _ n, ?_⟩
  have : cellOf a "max_num_precursor_elems" r = (pyMaxN r.precursorSizes).map .nat := rfl
  rw [this]
  cases r.precursorSizes with
  | nil => simp [pyMaxN, Except.map]
  | cons x l => simp only [pyMaxN, Except.map, Except.ok.injEq, Cell.nat.injEq, foldl_max_iff]

/-- **C101, which columns.** The data columns are the data keys of the first reaction apart from `num_constraints`, in their order; the hull columns are shown
if its first phase has a hull energy, the counts of theoretical phases if that phase knows its source. -/
theorem C101_flags (r : TRxn V) (rest : List (TRxn V)) (hd : (r.data.map Prod.fst).Nodup) (hull theo : Bool) (attrs : List String)
    (h : flagsOf (r :: rest) = .ok (hull, theo, attrs)) :
    attrs.Sublist (r.data.map Prod.fst) ∧ (∀ k, k ∈ attrs ↔ k ∈ r.data.map Prod.fst ∧ k ≠ "num_constraints") ∧
      ∃ e es, r.entries = e :: es ∧ (hull = true ↔ ∃ q, e.eHull = some (some q)) ∧ theo = e.hasSource := by
  simp only [flagsOf] at h
  cases he : r.entries with
  | nil => simp [he] at h
  | cons e es =>
    simp only [he] at h
    cases h
    refine ⟨List.erase_sublist, fun k => ?_, e, es, rfl, ?_, rfl⟩
    · rw [hd.mem_erase_iff, and_comm]
    · unfold wantsHull
      rcases e.eHull with _ | _ | q <;> simp

/-- The cells of the second reaction above: hull energy 0.3 and one theoretical phase among the products. -/
example : cellOf args "max_e_hull_products" r1 = .ok (.num (3 / 10)) ∧ cellOf args "num_theoretical_products" r1 = .ok (.nat 1) ∧
    cellOf args "max_num_precursor_elems" r1 = .ok (.nat 3) := by decide +kernel

end Verif.Props.Table
