import Verif.Model.Indices
import Verif.Props.Solver

/-!
Property C122: coefficient vectors refer to the entry list of the network. Entry objects are values of `ω`; the store says which position each of them carries.
-/

set_option linter.unusedSectionVars false

namespace Verif.Props.Indices
open Verif.Py Verif.Model.Indices Verif.Model.RxnSet Verif.Spec.Solver Verif.Lemmas.Exc

variable {ω η δ ε κ : Type} [DecidableEq ω] [DecidableEq η] [DecidableEq κ]

/-- Every object of the list carries its position in the list. -/
def Placed (σ : Store ω) (l : List ω) : Prop := ∀ i o, l[i]? = some o → σ o = some i

/-- An operation that does not move the objects of `l`: a list that is indexed has those of them that it contains at the same positions; no copy is made onto them. -/
def Harmless (l : List ω) : Op ω → Prop
  | .index l' => l'.Nodup ∧ ∀ (i : ℕ) (o : ω), l[i]? = some o → o ∈ l' → l'[i]? = some o
  | .copy ps => ∀ p ∈ ps, p.2 ∉ l

/-! ### Stores -/

theorem buildFrom_not_mem (o : ω) : ∀ (l : List ω) (σ : Store ω) (i : ℕ), o ∉ l → buildFrom σ i l o = σ o
  | [], _, _, _ => rfl
  | a :: l, σ, i, h => by
    rw [List.mem_cons, not_or] at h
    rw [buildFrom, buildFrom_not_mem o l _ _ h.2]
    simp [setIdx, h.1]

theorem buildFrom_mem (o : ω) : ∀ (l : List ω) (σ : Store ω) (i j : ℕ), l.Nodup → l[j]? = some o → buildFrom σ i l o = some (i + j)
  | [], _, _, _, _, h => by simp at h
  | a :: l, σ, i, 0, hn, h => by
    rw [List.getElem?_cons_zero, Option.some.injEq] at h
    subst h
    rw [buildFrom, buildFrom_not_mem a l _ _ (List.nodup_cons.mp hn).1]
    simp [setIdx]
  | a :: l, σ, i, j + 1, hn, h => by
    rw [List.getElem?_cons_succ] at h
    rw [buildFrom, buildFrom_mem o l _ _ j (List.nodup_cons.mp hn).2 h]
    congr 1
    omega

theorem placed_build (σ : Store ω) (l : List ω) (hn : l.Nodup) : Placed (buildIndices σ l) l := by
  intro i o h
  rw [buildIndices, buildFrom_mem o l σ 0 i hn h, Nat.zero_add]

theorem copyAll_not_target (o : ω) : ∀ (ps : List (ω × ω)) (σ : Store ω), (∀ p ∈ ps, p.2 ≠ o) → copyAll σ ps o = σ o
  | [], _, _ => rfl
  | p :: ps, σ, h => by
    rw [copyAll, copyAll_not_target o ps _ fun q hq => h q (List.mem_cons_of_mem _ hq)]
    simp [(h p List.mem_cons_self).symm]

theorem copyAll_target : ∀ (l l' : List ω) (σ : Store ω), l.length = l'.length → l'.Nodup → (∀ o ∈ l, o ∉ l') →
    ∀ (i : ℕ) (o o' : ω), l[i]? = some o → l'[i]? = some o' → copyAll σ (l.zip l') o' = σ o
  | [], _, _, _, _, _, i, o, _, h, _ => by simp at h
  | a :: l, [], _, hl, _, _, _, _, _, _, _ => by simp at hl
  | a :: l, b :: l', σ, hl, hn, hd, i, o, o', h, h' => by
    rw [List.zip_cons_cons, copyAll]
    have hn' := List.nodup_cons.mp hn
    cases i with
    | zero =>
      rw [List.getElem?_cons_zero, Option.some.injEq] at h h'
      subst h h'
      rw [copyAll_not_target b _ _ fun p hp hc => hn'.1 (by rw [← hc]; exact (List.of_mem_zip hp).2)]
      simp
    | succ i =>
      rw [List.getElem?_cons_succ] at h h'
      rw [copyAll_target l l' _ (by simpa using hl) hn'.2
        (fun x hx hc => hd x (List.mem_cons_of_mem _ hx) (List.mem_cons_of_mem _ hc)) i o o' h h']
      have ho : o ∈ a :: l := List.mem_cons_of_mem _ (List.mem_of_getElem? h)
      have : o ≠ b := fun hc => hd o ho (hc ▸ List.mem_cons_self)
      simp [this]

theorem harmless_step (l : List ω) (σ : Store ω) (hp : Placed σ l) (op : Op ω) (h : Harmless l op) : Placed (step σ op) l := by
  intro i o ho
  cases op with
  | index l' =>
    by_cases hm : o ∈ l'
    · exact placed_build σ l' h.1 i o (h.2 i o ho hm)
    · rw [step, buildIndices, buildFrom_not_mem o l' σ 0 hm]
      exact hp i o ho
  | copy ps =>
    rw [step, copyAll_not_target o ps σ fun p hpm hc => h p hpm (hc ▸ List.mem_of_getElem? ho)]
    exact hp i o ho

theorem harmless_run (l : List ω) : ∀ (ops : List (Op ω)) (σ : Store ω), Placed σ l → (∀ op ∈ ops, Harmless l op) → Placed (run σ ops) l
  | [], _, hp, _ => hp
  | op :: ops, σ, hp, h => harmless_run l ops (step σ op) (harmless_step l σ hp op (h op List.mem_cons_self))
      fun o ho => h o (List.mem_cons_of_mem _ ho)

/-! ### Entry lists -/

theorem unique_nodup (same : ω → ω → Bool) (hr : ∀ o, same o o = true) : ∀ (l acc : List ω), acc.Nodup → (unique same acc l).Nodup
  | [], _, h => h
  | o :: os, acc, h => by
    rw [unique]
    split
    · exact unique_nodup same hr os acc h
    · rename_i hn
      refine unique_nodup same hr os _ ?_
      rw [List.nodup_append]
      refine ⟨h, List.nodup_singleton o, ?_⟩
      intro a ha b hb hab
      rw [List.mem_singleton] at hb
      subst hb hab
      exact hn (List.any_eq_true.mpr ⟨a, ha, hr a⟩)

theorem unique_acc (same : ω → ω → Bool) : ∀ (l acc : List ω), acc ⊆ unique same acc l
  | [], _ => fun _ h => h
  | o :: os, acc => by
    rw [unique]
    split
    · exact unique_acc same os acc
    · exact fun a ha => unique_acc same os (acc ++ [o]) (List.mem_append_left _ ha)

theorem unique_covers (same : ω → ω → Bool) (hr : ∀ o, same o o = true) : ∀ (l acc : List ω), ∀ e ∈ l, ∃ o ∈ unique same acc l, same o e = true
  | [], _, e, he => by simp at he
  | o :: os, acc, e, he => by
    rw [unique]
    rw [List.mem_cons] at he
    split
    · rename_i ha
      rcases he with rfl | he
      · obtain ⟨a, ham, has⟩ := List.any_eq_true.mp ha
        exact ⟨a, unique_acc same os acc ham, has⟩
      · exact unique_covers same hr os acc e he
    · rcases he with rfl | he
      · exact ⟨e, unique_acc same os (acc ++ [e]) (List.mem_append_right _ List.mem_cons_self), hr e⟩
      · exact unique_covers same hr os _ e he

theorem entriesList_perm (le : ω → ω → Bool) (so : List ω → List ω) (hso : ∀ l, (so l).Perm l) (s : List ω) :
    (entriesList le so s).Perm s := (List.perm_insertionSort _ _).trans (hso s)

/-! ### C122 -/

/-- **C122 (history).** A network's entry list has a representative of every entry of its reactions, each object once, and carries the positions in
that list, through every later sequence of networks, enumerations and copies that do not put its objects at other positions. -/
theorem C122_history_partial (same le : ω → ω → Bool) (hr : ∀ o, same o o = true) (so : List ω → List ω) (hso : ∀ l, (so l).Perm l) (σ : Store ω)
    (es : List ω) (l : List ω) (σ' : Store ω) (h : newNetwork same le so σ es = (l, σ')) :
    l.Nodup ∧ (∀ e ∈ es, ∃ o ∈ l, same o e = true) ∧
      ∀ ops : List (Op ω), (∀ op ∈ ops, Harmless l op) → ∀ i o, l[i]? = some o → run σ' ops o = some i := by
  unfold newNetwork at h
  simp only [Prod.mk.injEq] at h
  obtain ⟨rfl, rfl⟩ := h
  have hp := entriesList_perm le so hso (unique same [] es)
  have hn : (entriesList le so (unique same [] es)).Nodup := hp.nodup_iff.mpr (unique_nodup same hr es [] List.nodup_nil)
  refine ⟨hn, ?_, fun ops ho => harmless_run _ ops _ (placed_build σ _ hn) ho⟩
  intro e he
  obtain ⟨o, ho, hs⟩ := unique_covers same hr es [] e he
  exact ⟨o, hp.mem_iff.mpr ho, hs⟩

theorem readIdx_mapM (σ : Store ω) (l : List ω) (hp : Placed σ l) (objs : List ω) (hsub : ∀ o ∈ objs, o ∈ l) :
    objs.mapM (readIdx σ) = .ok (objs.map fun o => (σ o).getD 0) := by
  apply mapM_eq_map
  intro o ho
  obtain ⟨i, hi⟩ := List.mem_iff_getElem?.mp (hsub o ho)
  simp [readIdx, hp i o hi]

/-- The vector read from the objects is the vector of the solver model. -/
theorem entryVector_eq (σ : Store ω) (l : List ω) (hp : Placed σ l) (n : ℕ) (objs : List ω) (hsub : ∀ o ∈ objs, o ∈ l) (coeffs : List ℚ) (d : δ)
    (mu : List (ε × ℚ)) :
    entryVector σ n objs coeffs = Verif.Model.Solver.idxVector (fun o => (σ o).getD 0) n (⟨objs, coeffs, d, mu⟩ : SRxn ω δ ε) := by
  unfold entryVector Verif.Model.Solver.idxVector
  rw [readIdx_mapM σ l hp objs hsub]
  simp only [List.length_map]

/-- A solver configuration over entry objects, used only for its entry list and positions. -/
def objConfig (σ : Store ω) (l : List ω) : Verif.Model.Solver.Config ω Unit Unit Unit where
  eq _ _ := true
  idx o := (σ o).getD 0
  entries := l
  data := ()
  mu := []
  chunk := 0
  batch := none
  cpus := 0
  pinv _ _ := .ok []
  wait₁ _ _ l := (l, [])
  wait₂ _ _ l := (l, [])
  order l := l
  R _ := ∅
  P _ := ∅
  pick l := l

/-- **C122 (vectors).** When the objects of a list carry their positions, the vector of a reaction between different objects of the list has, at the
position of each object, its coefficient, and nothing elsewhere. -/
theorem C122_vector (σ : Store ω) (l : List ω) (hn : l.Nodup) (hp : ∀ i o, l[i]? = some o → σ o = some i) (objs : List ω) (hsub : ∀ o ∈ objs, o ∈ l)
    (ho : objs.Nodup) (coeffs : List ℚ) (hl : objs.length = coeffs.length) :
    ∃ v, entryVector σ l.length objs coeffs = .ok v ∧ v.length = l.length ∧
      ∀ j (hj : j < l.length), v.getD j 0 = amount (objs.zip coeffs) l[j] := by
  have hw : Verif.Props.Solver.WellIndexed (objConfig σ l) ⟨objs, coeffs, (), []⟩ := by
    refine ⟨ho, hl, ?_⟩
    intro o hom
    obtain ⟨i, hi⟩ := List.mem_iff_getElem?.mp (hsub o hom)
    change l[(σ o).getD 0]? = some o
    rw [hp i o hi]
    exact hi
  obtain ⟨v, hv⟩ := Verif.Props.Solver.idxVector_total (objConfig σ l) _ hw
  have := Verif.Props.Solver.idxVector_amount (objConfig σ l) hn _ hw v hv
  refine ⟨v, ?_, this.1, this.2⟩
  rw [entryVector_eq σ l hp l.length objs hsub coeffs () ([] : List (Unit × ℚ))]
  exact hv

/-- **C122 (copies).** Deep copies of indexed objects carry the positions in the list of copies. -/
theorem C122_copies (σ : Store ω) (l l' : List ω) (hp : ∀ i o, l[i]? = some o → σ o = some i) (hl : l.length = l'.length) (hn : l'.Nodup)
    (hd : ∀ o ∈ l, o ∉ l') : ∀ i o', l'[i]? = some o' → step σ (.copy (l.zip l')) o' = some i := by
  intro i o' h'
  have hi : i < l.length := by
    rw [hl]
    exact (List.getElem?_eq_some_iff.mp h').1
  rw [step, copyAll_target l l' σ hl hn hd i l[i] o' (List.getElem?_eq_getElem hi) h']
  exact hp i _ (List.getElem?_eq_getElem hi)

/-- **C122 (solver).** If the objects a reaction is made of carry the positions of some list of copies of the solver's entries, the reaction is
well-indexed for the solver, which is what C56 and C57 ask for, and the vector read from the objects is the one the solver model computes. -/
theorem C122_solver (c : Verif.Model.Solver.Config η δ ε κ) (val : ω → η) (hc : c.idx = fun v => c.entries.idxOf v) (hE : c.entries.Nodup) (σ : Store ω)
    (l : List ω) (hl : l.map val = c.entries) (hp : ∀ i o, l[i]? = some o → σ o = some i) (objs : List ω) (hsub : ∀ o ∈ objs, o ∈ l) (ho : objs.Nodup)
    (coeffs : List ℚ) (hlen : objs.length = coeffs.length) (d : δ) (mu : List (ε × ℚ)) :
    Verif.Props.Solver.WellIndexed c ⟨objs.map val, coeffs, d, mu⟩ ∧
      entryVector σ c.entries.length objs coeffs = Verif.Model.Solver.idxVector c.idx c.entries.length ⟨objs.map val, coeffs, d, mu⟩ := by
  have hpos : ∀ o ∈ objs, ∃ i, l[i]? = some o ∧ c.entries[i]? = some (val o) ∧ c.idx (val o) = i := by
    intro o hom
    obtain ⟨i, hi⟩ := List.mem_iff_getElem?.mp (hsub o hom)
    have h2 : c.entries[i]? = some (val o) := by rw [← hl, List.getElem?_map, hi]; rfl
    refine ⟨i, hi, h2, ?_⟩
    obtain ⟨hlt, heq⟩ := List.getElem?_eq_some_iff.mp h2
    rw [hc, ← heq]
    exact hE.idxOf_getElem i hlt
  have hinj : ∀ a ∈ objs, ∀ b ∈ objs, val a = val b → a = b := by
    intro a ha b hb hab
    obtain ⟨i, h1, _, h3⟩ := hpos a ha
    obtain ⟨j, h4, _, h6⟩ := hpos b hb
    rw [hab, h6] at h3
    subst h3
    rw [h1] at h4
    exact Option.some.inj h4
  refine ⟨⟨List.Nodup.map_on hinj ho, by simpa using hlen, ?_⟩, ?_⟩
  · intro e he
    obtain ⟨o, hom, rfl⟩ := List.mem_map.mp he
    obtain ⟨i, _, h2, h3⟩ := hpos o hom
    rw [h3]
    exact h2
  · unfold entryVector Verif.Model.Solver.idxVector
    have hm : objs.mapM (readIdx σ) = .ok ((objs.map val).map c.idx) := by
      rw [List.map_map]
      apply mapM_eq_map
      intro o hom
      obtain ⟨i, h1, _, h3⟩ := hpos o hom
      simp [readIdx, hp i o h1, h3]
    rw [hm]
    simp only [List.length_map]

/-- **C122 (loading).** Entries loaded from a store, with the positions saved with them, are at those positions in the list of the entry set made of them,
whatever the iteration order of the new set, if different entries have different compositions. -/
theorem C122_reload_partial (val : ω → η) (leV : η → η → Bool) (htot : ∀ a b, leV a b = true ∨ leV b a = true)
    (htr : ∀ a b c, leV a b = true → leV b c = true → leV a c = true) (hanti : ∀ a b, leV a b = true → leV b a = true → a = b)
    (so so' : List ω → List ω) (hso : ∀ l, (so l).Perm l) (hso' : ∀ l, (so' l).Perm l) (s : List ω) (hv : (s.map val).Nodup) (σ : Store ω)
    (l : List ω) (hl : l = entriesList (fun a b => leV (val a) (val b)) so s) (l' : List ω) (hval : l'.map val = l.map val)
    (hd : ∀ o ∈ l, o ∉ l') (s' : List ω) (hs' : s'.Perm l') :
    ∀ i o, (entriesList (fun a b => leV (val a) (val b)) so' s')[i]? = some o →
      run σ [.index l, .copy (l.zip l')] o = some i := by
  have : Std.Total (fun a b : η => leV a b = true) := ⟨htot⟩
  have : IsTrans η (fun a b : η => leV a b = true) := ⟨htr⟩
  have : Std.Antisymm (fun a b : η => leV a b = true) := ⟨hanti⟩
  have hlperm : l.Perm s := hl ▸ entriesList_perm _ so hso s
  have hlv : (l.map val).Nodup := (hlperm.map val).nodup_iff.mpr hv
  have hln : l.Nodup := hlv.of_map
  have hln' : l'.Nodup := (hval ▸ hlv : (l'.map val).Nodup).of_map
  have hmap : ∀ (so : List ω → List ω) (t : List ω), (entriesList (fun a b => leV (val a) (val b)) so t).map val =
      ((so t).map val).insertionSort fun a b => leV a b = true := by
    intro so t
    unfold entriesList
    exact List.map_insertionSort _ _ val (so t) fun a _ b _ => Iff.rfl
  have h2 : (entriesList (fun a b => leV (val a) (val b)) so' s').map val = l'.map val := by
    rw [hval, hmap, hl, hmap]
    refine List.Perm.eq_of_pairwise' (List.pairwise_insertionSort _ _) (List.pairwise_insertionSort _ _) ?_
    refine (List.perm_insertionSort _ _).trans (List.Perm.trans ?_ (List.perm_insertionSort _ _).symm)
    refine ((hso' s').map val).trans ((hs'.map val).trans ?_)
    rw [hval]
    exact (hlperm.map val).trans ((hso s).map val).symm
  have hperm : (entriesList (fun a b => leV (val a) (val b)) so' s').Perm l' := (entriesList_perm _ so' hso' s').trans hs'
  have hinj : ∀ a ∈ l', ∀ b ∈ l', val a = val b → a = b := fun a ha b hb => List.inj_on_of_nodup_map (hval ▸ hlv : (l'.map val).Nodup) ha hb
  have heq : entriesList (fun a b => leV (val a) (val b)) so' s' = l' := by
    apply List.ext_getElem?
    intro i
    have h3 : ((entriesList (fun a b => leV (val a) (val b)) so' s').map val)[i]? = (l'.map val)[i]? := by rw [h2]
    rw [List.getElem?_map, List.getElem?_map] at h3
    cases ha : (entriesList (fun a b => leV (val a) (val b)) so' s')[i]? with
    | none =>
      rw [ha] at h3
      cases hb : l'[i]? with
      | none => rfl
      | some b => rw [hb] at h3; cases h3
    | some a =>
      rw [ha] at h3
      cases hb : l'[i]? with
      | none => rw [hb] at h3; cases h3
      | some b =>
        rw [hb] at h3
        rw [hinj a (hperm.mem_iff.mp (List.mem_of_getElem? ha)) b (List.mem_of_getElem? hb) (Option.some.inj h3)]
  rw [heq]
  have hlen : l.length = l'.length := by
    have := congrArg List.length hval
    simpa using this.symm
  exact C122_copies _ l l' (placed_build σ l hln) hlen hln' hd

/-! ### Violations -/

/-- In the witnesses objects are numbers; two of them compare equal if their last digits agree, and are sorted by them. -/
def digit (o : ℕ) : ℕ := o % 10
def sameDigit (a b : ℕ) : Bool := decide (digit a = digit b)
def leDigit (a b : ℕ) : Bool := decide (digit a ≤ digit b)

/-- A network on three phases; a solver is constructed, which copies the pathways; then a second network is made of reactions between the last two phases. -/
def twoNetworks : Store ℕ :=
  run (newNetwork sameDigit leDigit id (fun _ => none) [2, 0, 1]).2 [.copy [(0, 20), (1, 21), (2, 22)], .index [1, 2]]

/-- **C122 (violated): two networks.** After the second network, the vector of the reaction `1 → 2` of the first one is that of `0 → 1`; the copies
held by the solver still say `1 → 2`. -/
theorem C122_two_networks_violated :
    (newNetwork sameDigit leDigit id (fun _ => none) [2, 0, 1]).1 = [0, 1, 2] ∧
      entryVector twoNetworks 3 [1, 2] [-1, 1] = .ok [-1, 1, 0] ∧ entryVector twoNetworks 3 [21, 22] [-1, 1] = .ok [0, -1, 1] := by
  decide +kernel

/-- The solver of the witness: entries copied at the start of `solve`, positions read from the objects, reactions compared by value. -/
def lateConfig : Verif.Model.Solver.Config ℕ Unit ℕ ℕ where
  eq a b := (List.range 3).all fun e =>
    decide (amount ((a.entries.map digit).zip a.coeffs) e = amount ((b.entries.map digit).zip b.coeffs) e)
  idx o := (twoNetworks o).getD 0
  entries := [10, 11, 12]
  data := ()
  mu := []
  chunk := 3
  batch := none
  cpus := 2
  pinv mat _ := if mat = [[-1, 1, 0]] then .ok [1] else .ok (List.replicate mat.length 0)
  wait₁ := fun _ => Verif.Props.Utils.lifo
  wait₂ := fun _ => Verif.Props.Utils.lifo
  order := List.dedup
  R _ := ∅
  P _ := ∅
  pick := fun l => l.dedup

/-- **C122 (violated): a wrong pathway.** The solver, asked for `1 → 2` after the second network was made, offers `0 → 1` as a balanced pathway. -/
theorem C122_wrong_pathway_violated :
    Verif.Model.Solver.solve lateConfig true (fun _ _ => true) [⟨[⟨[20, 21], [-1, 1], (), []⟩], [3], none, false⟩] [] ⟨[1, 2], [-1, 1], (), []⟩ ∅ 1 false
      = .ok [⟨[⟨[10, 11], [-1, 1], (), []⟩], [3], some [1], true⟩] := by decide +kernel

/-- **C122 (violated): loading polymorphs.** Two entries with one composition, saved with positions 0 and 1, are listed the other way round when the new
set iterates in another order; the vector of `0 → 1` then means `1 → 0`. -/
theorem C122_polymorphs_violated :
    entriesList (fun _ _ : ℕ => true) id [0, 1] = [0, 1] ∧
      entriesList (fun _ _ : ℕ => true) List.reverse [10, 11] = [11, 10] ∧
      entryVector (run (fun _ => none) [.index [0, 1], .copy [(0, 10), (1, 11)]]) 2 [10, 11] [-1, 1] = .ok [-1, 1] := by decide +kernel

/-- **C122 (violated): a phase listed twice.** Of two coefficients of one phase only the last reaches the vector. -/
theorem C122_twice_violated (σ : Store ω) (o : ω) (i n : ℕ) (hi : i < n) (h : σ o = some i) (a b : ℚ) :
    ∃ v, entryVector σ n [o, o] [a, b] = .ok v ∧ v.getD i 0 = b ∧ amount ([o, o].zip [a, b]) o = a + b := by
  refine ⟨((List.replicate n (0 : ℚ)).set i a).set i b, ?_, ?_, ?_⟩
  · have : [o, o].mapM (readIdx σ) = .ok [i, i] := by
      simp [List.mapM_cons, readIdx, h]
      rfl
    unfold entryVector
    rw [this]
    simp [Verif.Model.Solver.assign, hi]
  · simp [List.getD, hi]
  · simp [amount]

/-- A phase without a position (an entry that never was in a network) makes the vector fail. -/
theorem C122_unindexed (σ : Store ω) (n : ℕ) (objs : List ω) (coeffs : List ℚ) (o : ω) (ho : o ∈ objs) (h : σ o = none) :
    entryVector σ n objs coeffs = .error .keyError := by
  have : ∀ l : List ω, o ∈ l → l.mapM (readIdx σ) = .error .keyError := by
    intro l
    induction l with
    | nil => intro hl; simp at hl
    | cons a l ih =>
      intro hl
      rw [mapM_cons]
      by_cases ha : σ a = none
      · simp [readIdx, ha]
      · obtain ⟨i, hi⟩ := Option.ne_none_iff_exists'.mp ha
        have : o ∈ l := by
          rcases List.mem_cons.mp hl with rfl | hm
          · exact absurd h ha
          · exact hm
        rw [ih this]
        simp [readIdx, hi]
  unfold entryVector
  rw [this objs ho]

/-! ### Examples -/

/-- A network, then an enumeration on copies and a network with one more phase at the end: `C122_history_partial` applies. -/
example : (newNetwork sameDigit leDigit id (fun _ => none) [2, 0, 1, 12]).1 = [0, 1, 2] ∧
    (∀ op ∈ [Op.copy [(0, 20), (1, 21), (2, 22)], .index [21, 22], .index [0, 1, 2, 5]], Harmless [0, 1, 2] op) := by
  refine ⟨by decide +kernel, ?_⟩
  intro op hop
  simp only [List.mem_cons, List.not_mem_nil, or_false] at hop
  rcases hop with rfl | rfl | rfl
  · simp [Harmless]
  · refine ⟨by decide, ?_⟩
    intro i o ho hm
    exact absurd hm (by have := List.mem_of_getElem? ho; simp only [List.mem_cons, List.not_mem_nil, or_false] at this; rcases this with rfl | rfl | rfl <;> decide)
  · refine ⟨by decide, ?_⟩
    intro i o ho _
    obtain ⟨hi, _⟩ := List.getElem?_eq_some_iff.mp ho
    have : [0, 1, 2, 5] = [0, 1, 2] ++ [5] := rfl
    rw [this, List.getElem?_append_left hi]
    exact ho

/-- `C122_vector` on three phases. -/
example : entryVector (run (fun _ => none) [.index [0, 1, 2]]) 3 [2, 0] [1, -1] = .ok [-1, 0, 1] := by decide +kernel

/-- `C122_reload_partial` on three phases with different compositions, stored in another order. -/
example : entriesList leDigit List.reverse [12, 10, 11] = [10, 11, 12] ∧
    (List.range 3).map (fun i => run (fun _ => none) [.index [0, 1, 2], .copy ([0, 1, 2].zip [10, 11, 12])] (10 + i)) = [some 0, some 1, some 2] := by
  decide +kernel

/-- `C122_solver`: copies 20, 21, 22 of the entries 0, 1, 2. -/
example : [20, 21, 22].map digit = [0, 1, 2] ∧ entryVector twoNetworks 3 [22, 20] [1, -1] = .ok [-1, 0, 1] := by decide +kernel

example := C122_vector (run (fun _ => none) [.index [0, 1, 2]]) [0, 1, 2] (by decide)
  (fun i o h => by
    have hi : i < 3 := (List.getElem?_eq_some_iff.mp h).1
    revert h
    match i, hi with
    | 0, _ | 1, _ | 2, _ => intro h; simp at h; subst h; decide) [2, 0] (by decide) (by decide) [1, -1] rfl

end Verif.Props.Indices
