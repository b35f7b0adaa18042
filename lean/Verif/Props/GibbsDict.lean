import Verif.Model.GibbsDict
import Verif.Lemmas.Except
import Verif.Lemmas.Dict
import Mathlib.Tactic.NormNum

/-! Property C113: saving and loading Gibbs entries (src/rxn_network/entries/gibbs.py:292-331). -/

namespace Verif.Props.GibbsDict
open Verif.Py Verif.Model.GibbsDict Verif.Lemmas.Exc Verif.Lemmas.Dict

variable {ε W C A ι D J : Type} [DecidableEq ε]

/-! ### Specification -/

/-- Elements are spelled as their symbols. -/
def spelled (symbol : ε → String) (k : Key ε) : Key ε := match k with
  | .elem e => .str (symbol e)
  | k => k

/-- Element keys of nested dictionaries written as symbols, everything else as it is. -/
def named (symbol : ε → String) (d : Data ε W) : Data ε W := d.map fun p => (p.1, match p.2 with
  | .leaf w => .leaf w
  | .dict l => .dict (l.map fun q => (spelled symbol q.1, q.2)))

/-- What JSON can keep: string keys at the top, strings and elements as nested keys, no two of which have the same text, and values that JSON keeps. -/
structure Storable (X : Ext ε W C A ι D J) (d : Data ε W) : Prop where
  unique : (d.map Prod.fst).Nodup
  top : ∀ p ∈ d, ∃ s, p.1 = .str s
  leaf : ∀ k w, (k, Val.leaf w) ∈ d → X.json w = .ok w
  nested : ∀ k l, (k, Val.dict l) ∈ d → (l.map fun q => spelled X.symbol q.1).Nodup ∧
    ∀ q ∈ l, (∃ s, q.1 = .str s ∨ ∃ e, q.1 = .elem e) ∧ X.json q.2 = .ok q.2

/-- pymatgen's dictionaries of adjustments and compositions give them back. -/
structure Lawful (X : Ext ε W C A ι D J) : Prop where
  adj : ∀ a, ∃ j, X.adjOut a = .ok j ∧ X.adjIn j = .ok a
  comp : ∀ c, X.compIn (X.compOut c) = .ok c
  gibbs : ∀ c v t a, X.gibbs c v t = .ok a → X.isGibbs a = true

/-- Entries made by the constructor. -/
def Made (X : Ext ε W C A ι D J) (e : Entry ε W C A ι) : Prop :=
  ∃ comp formation vol temp adjs params data id, init X comp formation vol temp adjs params data id = .ok e

/-! ### Lemmas -/

theorem sanitize_eq (X : Ext ε W C A ι D J) (d : Data ε W) (h : Storable X d) : sanitize X.symbol d = named X.symbol d := by
  have hm : (d.map fun p => (p.1, sanitizeVal X.symbol p.2)) = named X.symbol d := by
    unfold named
    refine List.map_congr_left fun p hp => ?_
    obtain ⟨k, v⟩ := p
    cases v with
    | leaf w => rfl
    | dict l =>
      simp only [sanitizeVal, Prod.mk.injEq, Val.dict.injEq, true_and]
      rw [dictOf_eq_self]
      · refine List.map_congr_left fun q _ => ?_
        obtain ⟨k', w⟩ := q
        cases k' <;> rfl
      · rw [List.map_map]
        convert (h.nested k l hp).1 using 2
        funext q
        obtain ⟨k', w⟩ := q
        cases k' <;> rfl
  unfold sanitize
  rw [dictOf_eq_self, hm]
  rw [List.map_map]
  exact h.unique

theorem jsonDict_id {V : Type} (f : V → Except Err V) (l : List (Key ε × V)) (hn : (l.map Prod.fst).Nodup) (hk : ∀ p ∈ l, ∃ s, p.1 = .str s)
    (hf : ∀ p ∈ l, f p.2 = .ok p.2) : jsonDict f l = .ok l := by
  unfold jsonDict
  have : l.mapM (jsonPair f) = .ok (l.map id) := by
    refine mapM_eq_map _ _ _ ?_
    intro p hp
    obtain ⟨s, hs⟩ := hk p hp
    obtain ⟨k, v⟩ := p
    simp only at hs
    subst hs
    have := hf _ hp
    simp only at this
    simp [jsonPair, keyText, this, bind, Except.bind, pure, Except.pure]
  rw [this, List.map_id]
  simp only [Except.map]
  rw [dictOf_eq_self l hn]

theorem named_storable (X : Ext ε W C A ι D J) (d : Data ε W) (h : Storable X d) : jsonDict (jsonVal X) (named X.symbol d) = .ok (named X.symbol d) := by
  refine jsonDict_id _ _ ?_ ?_ ?_
  · unfold named
    rw [List.map_map]
    exact h.unique
  · intro p hp
    obtain ⟨q, hq, rfl⟩ := List.mem_map.mp hp
    exact h.top q hq
  · intro p hp
    obtain ⟨⟨k, v⟩, hq, rfl⟩ := List.mem_map.mp hp
    cases v with
    | leaf w =>
      simp only [jsonVal, h.leaf k w hq]
      rfl
    | dict l =>
      obtain ⟨h1, h2⟩ := h.nested k l hq
      simp only [jsonVal]
      rw [jsonDict_id]
      · rfl
      · rw [List.map_map]
        convert h1 using 2
        funext q
        obtain ⟨k', w⟩ := q
        cases k' <;> rfl
      · intro p hp
        obtain ⟨⟨k', w⟩, hq, rfl⟩ := List.mem_map.mp hp
        obtain ⟨⟨s, hs⟩, _⟩ := h2 _ hq
        rcases hs with hs | ⟨e, hs⟩
        · simp only at hs
          subst hs
          exact ⟨s, rfl⟩
        · simp only at hs
          subst hs
          exact ⟨X.symbol e, rfl⟩
      · intro p hp
        obtain ⟨q, hq, rfl⟩ := List.mem_map.mp hp
        exact (h2 q hq).2

omit [DecidableEq ε] in
theorem adjs_back (X : Ext ε W C A ι D J) (hX : Lawful X) (l : List A) : ∃ js, l.mapM X.adjOut = .ok js ∧ js.mapM X.adjIn = .ok l := by
  induction l with
  | nil => exact ⟨[], rfl, rfl⟩
  | cons a l ih =>
    obtain ⟨js, h1, h2⟩ := ih
    obtain ⟨j, h3, h4⟩ := hX.adj a
    refine ⟨j :: js, ?_, ?_⟩
    · rw [mapM_cons, h3, h1]
    · rw [mapM_cons, h4, h2]

omit [DecidableEq ε] in
theorem made_init (X : Ext ε W C A ι D J) (hX : Lawful X) (e : Entry ε W C A ι) (he : Made X e) (data : Data ε W) :
    init X e.comp e.formation e.vol e.temp e.adjs e.params data (some e.id) = .ok { e with data := data } := by
  obtain ⟨comp, formation, vol, temp, adjs, params, data', id, h⟩ := he
  unfold init at h
  split_ifs at h with ht
  cases hg : X.gibbs comp vol temp with
  | error x => rw [hg] at h; simp [Except.map] at h
  | ok g =>
    rw [hg] at h
    have h := Except.ok.inj h
    subst h
    unfold init
    rw [if_neg ht, hg]
    simp [Except.map, List.filter_append, hX.gibbs _ _ _ _ hg, List.filter_filter]

/-! ### C113 -/

/-- Saving and loading gives the same entry, with nested element keys written as symbols, and leaves the original as it was. Missing for the full statement:
data that JSON changes or rejects (`C113_failure_violated`, `C113_merged_violated`, `C113_keys_violated`). -/
theorem C113_roundtrip_partial (X : Ext ε W C A ι D J) (hX : Lawful X) (e : Entry ε W C A ι) (he : Made X e) (hd : Storable X e.data)
    (hp : X.json e.params = .ok e.params) :
    ∃ d, asDict X e = (e, .ok d) ∧ fromDict X d = .ok { e with data := named X.symbol e.data } := by
  obtain ⟨js, h1, h2⟩ := adjs_back X hX e.adjs
  refine ⟨⟨X.compOut e.comp, e.vol, e.formation, e.temp, js, e.params, named X.symbol e.data, e.id⟩, ?_, ?_⟩
  · unfold asDict write
    simp only [h1, hp, sanitize_eq X e.data hd, named_storable X e.data hd, bind, Except.bind, pure, Except.pure]
  · unfold fromDict
    simp only [h2, hX.comp, bind, Except.bind]
    exact made_init X hX e he _

/-- A second round changes nothing any more. -/
theorem C113_stable_partial (X : Ext ε W C A ι D J) (hX : Lawful X) (e : Entry ε W C A ι) (he : Made X e) (hd : Storable X e.data)
    (hp : X.json e.params = .ok e.params) (d : Saved ε W D J ι) (e' : Entry ε W C A ι) (h : asDict X e = (e, .ok d)) (h' : fromDict X d = .ok e') :
    ∃ d', asDict X e' = (e', .ok d') ∧ fromDict X d' = .ok e' := by
  obtain ⟨d0, g1, g2⟩ := C113_roundtrip_partial X hX e he hd hp
  rw [g1] at h
  have h := Except.ok.inj (Prod.mk.inj h).2
  subst h
  rw [g2] at h'
  have h' := Except.ok.inj h'
  subst h'
  have hnn : ∀ d : Data ε W, named X.symbol (named X.symbol d) = named X.symbol d := by
    intro d
    unfold named
    rw [List.map_map]
    refine List.map_congr_left fun p _ => ?_
    obtain ⟨k, v⟩ := p
    cases v with
    | leaf w => rfl
    | dict l =>
      simp only [Function.comp_apply, List.map_map, Prod.mk.injEq, Val.dict.injEq, true_and]
      refine List.map_congr_left fun q _ => ?_
      obtain ⟨k', w⟩ := q
      cases k' <;> rfl
  have hs : Storable X (named X.symbol e.data) := by
    refine ⟨?_, ?_, ?_, ?_⟩
    · unfold named
      rw [List.map_map]
      exact hd.unique
    · intro p hp
      obtain ⟨q, hq, rfl⟩ := List.mem_map.mp hp
      exact hd.top q hq
    · intro k w hw
      obtain ⟨⟨k', v⟩, hq, hqe⟩ := List.mem_map.mp hw
      cases v with
      | leaf w' =>
        simp only [Prod.mk.injEq, Val.leaf.injEq] at hqe
        obtain ⟨rfl, rfl⟩ := hqe
        exact hd.leaf _ _ hq
      | dict l => simp at hqe
    · intro k l hl
      obtain ⟨⟨k', v⟩, hq, hqe⟩ := List.mem_map.mp hl
      cases v with
      | leaf w' => simp at hqe
      | dict l' =>
        simp only [Prod.mk.injEq, Val.dict.injEq] at hqe
        obtain ⟨rfl, rfl⟩ := hqe
        obtain ⟨h1, h2⟩ := hd.nested _ _ hq
        refine ⟨?_, ?_⟩
        · rw [List.map_map]
          convert h1 using 2
          funext q
          obtain ⟨k', w⟩ := q
          cases k' <;> rfl
        · intro q hq'
          obtain ⟨⟨k', w⟩, hq2, rfl⟩ := List.mem_map.mp hq'
          obtain ⟨⟨s, hs⟩, h3⟩ := h2 _ hq2
          refine ⟨?_, h3⟩
          rcases hs with hs | ⟨e, hs⟩
          · simp only at hs
            subst hs
            exact ⟨s, .inl rfl⟩
          · simp only at hs
            subst hs
            exact ⟨X.symbol e, .inl rfl⟩
  have hm : Made X { e with data := named X.symbol e.data } := by
    refine ⟨e.comp, e.formation, e.vol, e.temp, e.adjs, e.params, named X.symbol e.data, some e.id, ?_⟩
    exact made_init X hX e he _
  obtain ⟨d', k1, k2⟩ := C113_roundtrip_partial X hX { e with data := named X.symbol e.data } hm hs hp
  refine ⟨d', k1, ?_⟩
  rw [k2]
  simp only [hnn]

/-- Whatever is saved, everything but the data comes back: composition, volume, formation energy, temperature, adjustments and id. -/
theorem C113_thermodynamics (X : Ext ε W C A ι D J) (hX : Lawful X) (e : Entry ε W C A ι) (he : Made X e) (e1 : Entry ε W C A ι) (d : Saved ε W D J ι)
    (h : asDict X e = (e1, .ok d)) :
    e1 = e ∧ ∃ e', fromDict X d = .ok e' ∧ e'.comp = e.comp ∧ e'.vol = e.vol ∧ e'.formation = e.formation ∧ e'.temp = e.temp ∧ e'.adjs = e.adjs ∧ e'.id = e.id := by
  unfold asDict at h
  cases hw : write X { e with data := sanitize X.symbol e.data } with
  | error x => simp [hw] at h
  | ok d' =>
    simp only [hw, Prod.mk.injEq, Except.ok.injEq] at h
    obtain ⟨rfl, rfl⟩ := h
    refine ⟨rfl, ?_⟩
    obtain ⟨js, h1, h2⟩ := adjs_back X hX e.adjs
    unfold write at hw
    simp only [bind_ok, h1, Except.ok.injEq, exists_eq_left'] at hw
    obtain ⟨params, hp, data, hdata, hw⟩ := hw
    cases hw
    refine ⟨{ e with params := params, data := data }, ?_, rfl, rfl, rfl, rfl, rfl, rfl⟩
    unfold fromDict
    simp only [h2, hX.comp, bind, Except.bind]
    have := made_init X hX e he data
    unfold init at this ⊢
    split_ifs at this with ht
    · rw [if_neg ht]
      cases hg : X.gibbs e.comp e.vol e.temp with
      | error x => rw [hg] at this; simp [Except.map] at this
      | ok g =>
        rw [hg] at this
        have := Except.ok.inj this
        simp only [Except.map, Except.ok.injEq]
        rw [Entry.mk.injEq] at this ⊢
        exact ⟨rfl, rfl, rfl, rfl, this.2.2.2.2.1, rfl, rfl, rfl⟩

/-- If saving fails, the data of the entry have been replaced for good. -/
theorem C113_failure (X : Ext ε W C A ι D J) (e e1 : Entry ε W C A ι) (x : Err) (h : asDict X e = (e1, .error x)) :
    e1 = { e with data := sanitize X.symbol e.data } := by
  unfold asDict at h
  cases hw : write X { e with data := sanitize X.symbol e.data } with
  | error y =>
    simp only [hw, Prod.mk.injEq] at h
    exact h.1.symm
  | ok d => simp [hw] at h

/-! ### Examples and violations -/

/-- Values are numbers, 7 is something JSON rejects; adjustment 0 is the Gibbs correction. -/
def ex : Ext ℕ ℕ ℕ ℕ ℕ ℕ ℕ where
  symbol := fun e => if e = 3 then "Li" else "O"
  json := fun w => if w = 7 then .error .typeError else .ok w
  adjOut := fun a => .ok (a + 1)
  adjIn := fun j => .ok (j - 1)
  compOut := fun c => c + 1
  compIn := fun d => .ok (d - 1)
  isGibbs := fun a => a = 0
  gibbs := fun _ _ _ => .ok 0
  defaultId := fun c _ => c

theorem ex_lawful : Lawful ex := ⟨fun a => ⟨a + 1, rfl, by simp [ex]⟩, fun c => by simp [ex], by
  intro c v t a h
  cases h
  rfl⟩

/-- An entry with the given data. -/
def exEntry (data : Data ℕ ℕ) : Entry ℕ ℕ ℕ ℕ ℕ := ⟨5, 10, -2, 300, [4, 0], 1, data, 9⟩

theorem ex_made (data : Data ℕ ℕ) : Made ex (exEntry data) :=
  ⟨5, -2, 10, 300, [4], 1, data, some 9, by simp [init, ex, exEntry, Except.map]; norm_num⟩

/-- Oxidation states by element are stored by symbol. -/
theorem ex_storable : let d : Data ℕ ℕ := [(.str "oxidation", .dict [(.elem 3, 1), (.elem 8, 2)]), (.str "n", .leaf 5)]
    ((asDict ex (exEntry d)).2.map fun s => s.data) = .ok [(.str "oxidation", .dict [(.str "Li", 1), (.str "O", 2)]), (.str "n", .leaf 5)] ∧ Storable ex d := by
  refine ⟨by decide +kernel, by decide, ?_, ?_, ?_⟩
  · intro p hp
    simp only [List.mem_cons, List.not_mem_nil, or_false] at hp
    rcases hp with rfl | rfl
    · exact ⟨_, rfl⟩
    · exact ⟨_, rfl⟩
  · intro k w hw
    simp only [List.mem_cons, List.not_mem_nil, or_false, Prod.mk.injEq, reduceCtorEq, and_false, false_or, Val.leaf.injEq] at hw
    rw [hw.2]
    rfl
  · intro k l hl
    simp only [List.mem_cons, List.not_mem_nil, or_false, Prod.mk.injEq, reduceCtorEq, and_false, Val.dict.injEq] at hl
    obtain ⟨_, rfl⟩ := hl
    refine ⟨by decide, ?_⟩
    intro q hq
    simp only [List.mem_cons, List.not_mem_nil, or_false] at hq
    rcases hq with rfl | rfl
    · exact ⟨⟨"", .inr ⟨3, rfl⟩⟩, rfl⟩
    · exact ⟨⟨"", .inr ⟨8, rfl⟩⟩, rfl⟩

/-- **Violated**: a failing `as_dict` leaves the entry with changed data. -/
theorem C113_failure_violated : ∃ (e e1 : Entry ℕ ℕ ℕ ℕ ℕ) (x : Err), Made ex e ∧ asDict ex e = (e1, .error x) ∧ e1 ≠ e :=
  ⟨exEntry [(.str "oxidation", .dict [(.elem 3, 1)]), (.str "n", .leaf 7)], exEntry [(.str "oxidation", .dict [(.str "Li", 1)]), (.str "n", .leaf 7)], .typeError,
    ex_made _, by decide +kernel, by decide +kernel⟩

/-- **Violated**: an element and its symbol as keys are merged. -/
theorem C113_merged_violated : ∃ (e : Entry ℕ ℕ ℕ ℕ ℕ) (d : Saved ℕ ℕ ℕ ℕ ℕ), Made ex e ∧ e.data = [(.str "n", .dict [(.elem 3, 1), (.str "Li", 2)])] ∧
    asDict ex e = (e, .ok d) ∧ d.data = [(.str "n", .dict [(.str "Li", 2)])] :=
  ⟨exEntry [(.str "n", .dict [(.elem 3, 1), (.str "Li", 2)])], ⟨6, 10, -2, 300, [5, 1], 1, [(.str "n", .dict [(.str "Li", 2)])], 9⟩, ex_made _, rfl,
    by decide +kernel, rfl⟩

/-- **Violated**: keys that are numbers become strings (and element keys at the top make saving fail). -/
theorem C113_keys_violated : (∃ (e : Entry ℕ ℕ ℕ ℕ ℕ) (d : Saved ℕ ℕ ℕ ℕ ℕ), Made ex e ∧ e.data = [(.lit "1", .leaf 5)] ∧ asDict ex e = (e, .ok d) ∧
      d.data = [(.str "1", .leaf 5)]) ∧
    (asDict ex (exEntry [(.elem 3, .leaf 5)])).2 = .error .typeError :=
  ⟨⟨exEntry [(.lit "1", .leaf 5)], ⟨6, 10, -2, 300, [5, 1], 1, [(.str "1", .leaf 5)], 9⟩, ex_made _, rfl, by decide +kernel, rfl⟩, by decide +kernel⟩

example := C113_roundtrip_partial ex ex_lawful (exEntry [(.str "oxidation", .dict [(.elem 3, 1), (.elem 8, 2)]), (.str "n", .leaf 5)]) (ex_made _)
  ex_storable.2 rfl

end Verif.Props.GibbsDict
