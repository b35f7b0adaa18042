import Verif.Props.EntryFlow
import Verif.Props.EntryTable
import Verif.Props.Thermo

/-! Properties C83-C86: random shifts, shared entries, large chemical systems, the working set of an enumerator. -/

namespace Verif.Props.EntrySets
open Verif.Py Verif.Model Verif.Model.Entries Verif.Model.EntryFlow Verif.Lemmas Verif.Props.EntrySet Verif.Props.EntryFlow

set_option linter.unusedSectionVars false

variable {κ ε φ : Type} [DecidableEq κ] [DecidableEq ε] [DecidableEq φ]

/-! ### C83 -/

/-- Entries that exist: those a constructor call has returned. -/
def Exists (W : World κ ε φ) : Ent κ → Prop
  | .gibbs e => EntryTemp.Built W.thermo e
  | .exper e => experInit W.table W.deprecated e.comp e.temp e.adjs = .ok e
  | .interp _ _ _ => True

/-- Specification: `x` is `e` with its energy shifted by `v`. -/
structure Shifted (W : World κ ε φ) (v : ℚ) (e x : Ent κ) : Prop where
  comp : x.comp = e.comp
  temp : x.temp? = e.temp?
  energy : x.energy W = e.energy W + v

theorem experInit_base (table : κ → Option (List (ℚ × ℚ))) (dep : κ → Bool) (e : Exper κ) (as : List Adj)
    (h : experInit table dep e.comp e.temp e.adjs = .ok e) : experInit table dep e.comp e.temp as = .ok ⟨e.comp, e.temp, e.base, as⟩ := by
  unfold experInit at h ⊢
  split_ifs at h ⊢ with hd
  · have := congrArg Exper.base (Except.ok.inj h)
    simp only at this; rw [← this]
  · rw [Exc.bind_ok] at h
    obtain ⟨d, h1, h⟩ := h
    rw [Exc.bind_ok] at h
    obtain ⟨g, h2, h⟩ := h
    have := congrArg Exper.base (Except.ok.inj h)
    simp only at this
    rw [h1]; simp only [bind, Except.bind, h2, pure, Except.pure, this]

theorem adjusted_shift (W : World κ ε φ) (name : String) (hn : name ≠ sisso) (v : ℚ) (e : Ent κ) (he : Exists W e) :
    ∃ x, e.adjusted W name v = .ok x ∧ Shifted W v e x ∧ Exists W x := by
  cases e with
  | gibbs g =>
    obtain ⟨g', h1, h2, h3, h4, h5⟩ := EntryTemp.adjusted_energy W.thermo g he (.const name v) hn
    exact ⟨.gibbs g', by simp only [Ent.adjusted, h1]; rfl, ⟨h3, congrArg some h4, h2⟩, h5⟩
  | exper g =>
    have h1 := experInit_base W.table W.deprecated g (g.adjs ++ [.const name v]) he
    refine ⟨.exper ⟨g.comp, g.temp, g.base, g.adjs ++ [Adj.const name v]⟩, by simp only [Ent.adjusted, Exper.adjusted, h1]; rfl, ⟨rfl, rfl, ?_⟩, h1⟩
    simp only [Ent.energy, Exper.energy, List.map_append, List.sum_append, List.map_cons, List.map_nil, List.sum_cons, List.sum_nil,
      Adj.value]
    ring
  | interp c g m => exact ⟨_, rfl, ⟨rfl, rfl, rfl⟩, trivial⟩

/-- **C83, partial**: every entry with more than one element (or none) is returned, shifted by its random number times its uncertainty (nothing if
that is not a number), and nothing else is; no error occurs. -/
theorem C83_jitter_partial (W : World κ ε φ) (unc : Ent κ → Option ℚ) (es : List (Ent κ)) (noise : List ℚ) (hes : ∀ e ∈ es, Exists W e) :
    ∃ r, jitter W unc noise es = .ok r ∧
      (∀ p ∈ es.zip noise, (W.elems p.1.comp).length ≠ 1 → ∃ x ∈ r, Shifted W (p.2 * (unc p.1).getD 0) p.1 x) ∧
      (∀ x ∈ r, ∃ p ∈ es.zip noise, (W.elems p.1.comp).length ≠ 1 ∧ Shifted W (p.2 * (unc p.1).getD 0) p.1 x) := by
  have hone : ∀ p ∈ es.zip noise, ∃ o, jitterOne W unc p = .ok o ∧
      ((W.elems p.1.comp).length ≠ 1 → ∃ x, o = some x ∧ Shifted W (p.2 * (unc p.1).getD 0) p.1 x) ∧
      ((W.elems p.1.comp).length = 1 → o = none) := by
    intro p hp
    unfold jitterOne
    by_cases h1 : (W.elems p.1.comp).length = 1
    · exact ⟨none, if_pos h1, fun h => absurd h1 h, fun _ => rfl⟩
    · obtain ⟨x, hx, hs, -⟩ := adjusted_shift W "Random jitter" (by decide) (p.2 * (unc p.1).getD 0) p.1
        (hes _ (List.of_mem_zip (a := p.1) (b := p.2) hp).1)
      exact ⟨some x, by rw [if_neg h1, hx]; rfl, fun _ => ⟨x, rfl, hs⟩, fun h => absurd h h1⟩
  obtain ⟨os, hos⟩ : ∃ os, (es.zip noise).mapM (jitterOne W unc) = .ok os := by
    cases h : (es.zip noise).mapM (jitterOne W unc) with
    | ok os => exact ⟨os, rfl⟩
    | error y =>
      obtain ⟨p, hp, hy⟩ := Exc.mapM_error _ _ _ h
      obtain ⟨o, ho, -⟩ := hone p hp
      rw [ho] at hy; cases hy
  have hall := (Exc.mapM_ok _ _ _).1 hos
  refine ⟨_, by unfold jitter; rw [hos]; rfl, fun p hp hn => ?_, fun x hx => ?_⟩
  · obtain ⟨o, ho, hs, -⟩ := hone p hp
    obtain ⟨x, rfl, hx⟩ := hs hn
    refine ⟨x, ?_, hx⟩
    rw [mem_entrySet, List.mem_filterMap]
    refine ⟨some x, ?_, rfl⟩
    clear hone hos hes
    generalize es.zip noise = l at hall hp
    induction hall with
    | nil => simp at hp
    | cons a _ ih =>
      rcases List.mem_cons.1 hp with rfl | hp
      · rw [ho] at a; cases a; exact List.mem_cons_self
      · exact List.mem_cons_of_mem _ (ih hp)
  · rw [mem_entrySet, List.mem_filterMap] at hx
    obtain ⟨o, ho, hox⟩ := hx
    obtain ⟨p, hp, hpo⟩ := Exc.mapM_mem _ _ _ hos o ho
    obtain ⟨o', ho', h1, h2⟩ := hone p hp
    rw [hpo] at ho'; cases ho'
    cases hox
    have hn : (W.elems p.1.comp).length ≠ 1 := fun h => by have := h2 h; simp at this
    obtain ⟨x', hx', hs⟩ := h1 hn
    cases hx'
    exact ⟨p, hp, hn, hs⟩

/-- **C83, violated**: the elements are missing from the result. -/
theorem C83_elements_violated : ∃ (noise : List ℚ) (es : List (Ent ℕ)), noise.length = es.length ∧ (∀ e ∈ es, Exists toyW e) ∧
    Ent.gibbs ⟨1, 0, 1, 300, [.const sisso (-3)], none⟩ ∈ es ∧
    jitter toyW (fun _ => some (1 / 10)) noise es = .ok [.interp 3 (-5 + 1 / 20) 300] := by
  refine ⟨[1 / 5, 1 / 2], [.gibbs ⟨1, 0, 1, 300, [.const sisso (-3)], none⟩, .interp 3 (-5) 300], rfl, ?_, by decide +kernel, by decide +kernel⟩
  intro e he
  simp only [List.mem_cons, List.not_mem_nil, or_false] at he
  rcases he with rfl | rfl
  · exact ⟨[], by decide +kernel⟩
  · trivial

/-! ### C84 -/

/-- Specification: the object at a reference. -/
def look (heap : List (ℕ × Obj)) (i : ℕ) : Option Obj := (heap.find? fun p => p.1 = i).map Prod.snd

theorem look_map (heap : List (ℕ × Obj)) (f : ℕ → Obj → Obj) (i : ℕ) :
    look (heap.map fun p => (p.1, f p.1 p.2)) i = (look heap i).map (f i) := by
  unfold look
  induction heap with
  | nil => rfl
  | cons p l ih =>
    rw [List.map_cons, List.find?_cons, List.find?_cons]
    by_cases h : p.1 = i
    · simp [h]
    · simpa [h] using ih

theorem look_clear (heap : List (ℕ × Obj)) (refs : List ℕ) (i : ℕ) :
    look (clearObjs heap refs) i = (look heap i).map fun o => if i ∈ refs then ⟨[], []⟩ else o := by
  rw [← look_map heap (fun i o => if i ∈ refs then ⟨[], []⟩ else o) i]
  unfold clearObjs
  congr 1
  refine List.map_congr_left fun p _ => ?_
  split_ifs <;> rfl

theorem look_store (ehull : ℕ → ℚ) (heap : List (ℕ × Obj)) (refs : List ℕ) (i : ℕ) :
    look (storeHulls ehull heap refs) i =
      (look heap i).map fun o => if i ∈ refs then { o with data := dictSet o.data "e_above_hull" (ehull i) } else o := by
  rw [← look_map heap (fun i o => if i ∈ refs then { o with data := dictSet o.data "e_above_hull" (ehull i) } else o) i]
  unfold storeHulls
  congr 1
  refine List.map_congr_left fun p _ => ?_
  split_ifs <;> rfl

/-- **C84, partial**: with both options off nothing changes; entries outside the new set never change; without minimization the only
change is the item `e_above_hull`, and parameters are kept. -/
theorem C84_frame_partial (ehull : ℕ → ℚ) (hulls mini : Bool) (heap : List (ℕ × Obj)) (refs : List ℕ) (i : ℕ) :
    (hulls = false → mini = false → look (newSet ehull hulls mini heap refs) i = look heap i) ∧
    (i ∉ refs → look (newSet ehull hulls mini heap refs) i = look heap i) ∧
    (mini = false → ∀ o, look heap i = some o → ∃ o', look (newSet ehull hulls mini heap refs) i = some o' ∧ o'.params = o.params ∧
      ∀ k, k ≠ "e_above_hull" → dictGet o'.data k = dictGet o.data k) := by
  have key : look (newSet ehull hulls mini heap refs) i = (look heap i).map fun o =>
      let o1 := if mini = true ∧ i ∈ refs then ⟨[], []⟩ else o
      if hulls = true ∧ i ∈ refs then { o1 with data := dictSet o1.data "e_above_hull" (ehull i) } else o1 := by
    unfold newSet
    cases hulls <;> cases mini <;> simp [look_clear, look_store] <;> rfl
  refine ⟨fun h1 h2 => ?_, fun h => ?_, fun h o ho => ?_⟩
  · rw [key, h1, h2]; simp
  · rw [key]; simp [h]
  · rw [key, ho, h]
    refine ⟨_, rfl, ?_, fun k hk => ?_⟩
    · simp only [Bool.false_eq_true, false_and, if_false]; split_ifs <;> rfl
    · simp only [Bool.false_eq_true, false_and, if_false]
      split_ifs
      · rw [Dict.dictGet_dictSet, if_neg (Ne.symm hk)]
      · rfl

/-- **C84, violated**: a set that minimizes its entries erases the data of an entry that another set holds; one that stores hull
distances overwrites the distance the other set has stored. -/
theorem C84_shared_violated : ∃ (heap : List (ℕ × Obj)) (other refs : List ℕ) (i : ℕ), i ∈ other ∧
    look heap i = some ⟨[("run_type", "GGA")], [("e_above_hull", 1 / 10)]⟩ ∧
    look (newSet (fun _ => 0) false true heap refs) i = some ⟨[], []⟩ ∧
    look (newSet (fun _ => 0) true false heap refs) i = some ⟨[("run_type", "GGA")], [("e_above_hull", 0)]⟩ :=
  ⟨[(0, ⟨[], []⟩), (1, ⟨[("run_type", "GGA")], [("e_above_hull", 1 / 10)]⟩)], [0, 1], [1], 1, by decide +kernel⟩

example : look (newSet (fun _ => 0) true true [(0, ⟨[("a", "b")], []⟩), (1, ⟨[], []⟩)] [1]) 0 = some ⟨[("a", "b")], []⟩ := by decide +kernel

/-! ### C86 -/

/-- **C86.** The working set is exactly the given entries and the requested ones, whatever the iteration order; precursors and targets are
those of the requested formulas; the open entries are those of the open formulas. Formulas denote the same composition if they have the
same reduced formula. -/
theorem C86_working_set (W : World κ ε φ) (hullE : List (Ent κ) → κ → Except Err ℚ) (order : List (Ent κ) → List (Ent κ))
    (horder : ∀ l, (order l).Perm l) (hW : ∀ f f', W.form (W.comp f) = W.form (W.comp f') → W.comp f = W.comp f')
    (es : List (Ent κ)) (precursors targets openPhases : List φ) (work ps ts os : List (Ent κ))
    (h : initializedEntries W hullE order es precursors targets openPhases = .ok (work, ps, ts, os)) :
    (∀ x, x ∈ work ↔ x ∈ es ∨ x ∈ ps ∨ x ∈ ts) ∧ (es.Nodup → work.Nodup) ∧
    (∀ x, x ∈ ps ↔ ∃ f ∈ precursors, initializeEntry W hullE es f = .ok x) ∧
    (∀ x, x ∈ ts ↔ ∃ f ∈ targets, initializeEntry W hullE es f = .ok x) ∧
    (∀ x, x ∈ os ↔ x ∈ work ∧ x.form W ∈ openPhases) := by
  have hmem : ∀ (fs : List φ) (l : List (Ent κ)), fs.mapM (initializeEntry W hullE es) = .ok l →
      ∀ x, x ∈ entrySet l ↔ ∃ f ∈ fs, initializeEntry W hullE es f = .ok x := by
    intro fs l hl x
    rw [mem_entrySet]
    refine ⟨fun hx => Exc.mapM_mem _ _ _ hl x hx, ?_⟩
    rintro ⟨f, hf, hx⟩
    have hl' := (Exc.mapM_ok _ _ _).1 hl
    clear h hl
    induction hl' with
    | nil => simp at hf
    | cons a _ ih =>
      rcases List.mem_cons.1 hf with rfl | hf
      · rw [hx] at a; cases a; exact List.mem_cons_self
      · exact List.mem_cons_of_mem _ (ih hf)
  unfold initializedEntries at h
  rw [Exc.bind_ok] at h; obtain ⟨lp, hp, h⟩ := h
  rw [Exc.bind_ok] at h; obtain ⟨lt, ht, h⟩ := h
  cases h
  have hreq : ∀ x, x ∈ order (Enum.union (entrySet lp) (entrySet lt)) ↔ x ∈ entrySet lp ∨ x ∈ entrySet lt := by
    intro x
    rw [(horder _).mem_iff]
    unfold Enum.union
    simp only [List.mem_append, List.mem_filter, decide_eq_true_eq]
    tauto
  have hsrc : ∀ x ∈ order (Enum.union (entrySet lp) (entrySet lt)), ∃ f, initializeEntry W hullE es f = .ok x := by
    intro x hx
    rcases (hreq x).1 hx with h | h
    · obtain ⟨f, -, hf⟩ := (hmem _ _ hp x).1 h; exact ⟨f, hf⟩
    · obtain ⟨f, -, hf⟩ := (hmem _ _ ht x).1 h; exact ⟨f, hf⟩
  have huniq : ∀ x y f f', initializeEntry W hullE es f = .ok x → initializeEntry W hullE es f' = .ok y → x.form W = y.form W → x = y := by
    intro x y f f' hx hy hxy
    rw [(initialize_form W hullE es f x hx).1, (initialize_form W hullE es f' y hy).1] at hxy
    have hc := hW f f' hxy
    have : initializeEntry W hullE es f = initializeEntry W hullE es f' := by unfold initializeEntry interpolated; rw [hc]
    rw [this, hy] at hx; cases hx; rfl
  have key : ∀ (l work : List (Ent κ)), (∀ x ∈ l, ∃ f, initializeEntry W hullE es f = .ok x) → (∀ x ∈ es, x ∈ work) →
      (∀ x ∈ work, x ∈ es ∨ ∃ f, initializeEntry W hullE es f = .ok x) →
      (∀ x, x ∈ l.foldl (addRequested W) work ↔ x ∈ work ∨ x ∈ l) ∧ (work.Nodup → (l.foldl (addRequested W) work).Nodup) := by
    intro l
    induction l with
    | nil => intro work _ _ _; simp
    | cons e l ih =>
      intro work hl h1 h2
      obtain ⟨f, hf⟩ := hl e List.mem_cons_self
      have hstep : addRequested W work e = insertE work e := by
        unfold addRequested
        by_cases he : e ∈ work
        · rw [if_pos he]; unfold insertE; rw [if_pos he]
        · rw [if_neg he]
          have hnone : ∀ x ∈ work, x.form W ≠ e.form W := by
            intro x hx hxe
            obtain ⟨hfe, hcase⟩ := initialize_form W hullE es f e hf
            rcases hcase with hin | ⟨g, -, hno⟩
            · exact he (h1 e hin)
            · rcases h2 x hx with hx' | ⟨f', hf'⟩
              · exact hno x hx' (hxe.trans hfe)
              · exact he (huniq x e f' f hf' hf hxe ▸ hx)
          rw [(C38_keyError (Ent.form W) (Ent.epa W) work (e.form W)).2 hnone]
      rw [List.foldl_cons, hstep]
      obtain ⟨h3, h4⟩ := ih (insertE work e) (fun x hx => hl x (List.mem_cons_of_mem _ hx))
        (fun x hx => (mem_insertE _ _ _).2 (.inr (h1 x hx)))
        (fun x hx => ((mem_insertE _ _ _).1 hx).elim (fun h => .inr ⟨f, h ▸ hf⟩) (h2 x))
      refine ⟨fun x => ?_, fun hn => h4 (nodup_insertE _ _ hn)⟩
      rw [h3, mem_insertE, List.mem_cons]; tauto
  obtain ⟨k1, k2⟩ := key _ es hsrc (fun x hx => hx) (fun x hx => .inl hx)
  refine ⟨fun x => ?_, k2, hmem _ _ hp, hmem _ _ ht, fun x => ?_⟩
  · rw [k1, hreq]
  · rw [List.mem_filter, decide_eq_true_eq]

/-- **C86, one entry.** An entry that is already there changes nothing; otherwise it takes the place of the lowest entry of its formula. -/
theorem C86_replace (W : World κ ε φ) (work : List (Ent κ)) (hn : work.Nodup) (e : Ent κ) :
    (e ∈ work → addRequested W work e = work) ∧
    (e ∉ work → (∀ x ∈ work, x.form W ≠ e.form W) → ∀ x, x ∈ addRequested W work e ↔ x = e ∨ x ∈ work) ∧
    (e ∉ work → (∃ x ∈ work, x.form W = e.form W) → ∃ old ∈ work, old.form W = e.form W ∧ (∀ x ∈ work, x.form W = e.form W → old.epa W ≤ x.epa W) ∧
      ∀ x, x ∈ addRequested W work e ↔ x = e ∨ (x ∈ work ∧ x ≠ old)) := by
  refine ⟨fun h => by unfold addRequested; rw [if_pos h], fun h hno x => ?_, fun h hex => ?_⟩
  · unfold addRequested
    rw [if_neg h, (C38_keyError (Ent.form W) (Ent.epa W) work (e.form W)).2 hno]
    simp only
    rw [mem_insertE]
  · rcases C38_ground (Ent.form W) (Ent.epa W) work (e.form W) with ⟨old, hg, h1, h2, h3⟩ | ⟨-, hno⟩
    · refine ⟨old, h1, h2, h3, fun x => ?_⟩
      unfold addRequested
      rw [if_neg h, hg]
      simp only
      rw [mem_insertE, hn.mem_erase_iff]
      tauto
    · obtain ⟨x, hx, hxe⟩ := hex
      exact absurd hxe (hno x hx)

example : addRequested toyW [.interp 1 (-3) 0, .interp 2 (-1) 0] (.interp 1 (-5) 0) = [.interp 2 (-1) 0, .interp 1 (-5) 0] := by decide +kernel

example : initializedEntries toyW toyHull List.reverse [.interp 1 (-3) 0, .interp 2 (-1) 0] [1, 3] [3] [2] =
    .ok ([.interp 1 (-3) 0, .interp 2 (-1) 0, .interp 3 (-4 - 1 / 500) 0], [.interp 1 (-3) 0, .interp 3 (-4 - 1 / 500) 0],
      [.interp 3 (-4 - 1 / 500) 0], [.interp 2 (-1) 0]) := by decide +kernel

example (f f' : ℕ) (h : toyW.form (toyW.comp f) = toyW.form (toyW.comp f')) : toyW.comp f = toyW.comp f' := h

example := C83_jitter_partial toyW (fun _ => some (1 / 10)) [.interp 3 (-5) 300, .interp 3 (-4) 300] [1, -2]
  (by intro e he; simp only [List.mem_cons, List.not_mem_nil, or_false] at he; rcases he with rfl | rfl <;> trivial)
example := (C84_frame_partial (fun _ => 0) true false [(0, ⟨[("a", "b")], []⟩), (1, ⟨[], [("k", 2)]⟩)] [1] 1).2.2 rfl ⟨[], [("k", 2)]⟩
  (by decide +kernel)
example := C86_working_set toyW toyHull List.reverse List.reverse_perm (fun _ _ h => h) [.interp 1 (-3) 0, .interp 2 (-1) 0] [1, 3] [3] [2]
  [.interp 1 (-3) 0, .interp 2 (-1) 0, .interp 3 (-4 - 1 / 500) 0] [.interp 1 (-3) 0, .interp 3 (-4 - 1 / 500) 0]
  [.interp 3 (-4 - 1 / 500) 0] [.interp 2 (-1) 0] (by decide +kernel)

end Verif.Props.EntrySets
