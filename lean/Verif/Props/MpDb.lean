import Verif.Model.MpDb
import Verif.Props.EntryDb
import Verif.Lemmas.Except
import Verif.Lemmas.Dict

/-! Property C111: searches in the materials database (src/rxn_network/entries/utils.py:218-435, src/rxn_network/jobs/core.py:106-195). -/

namespace Verif.Props.MpDb
open Verif.Py Verif.Model Verif.Model.MpDb Verif.Model.EntryFlow Verif.Lemmas Verif.Lemmas.Exc Verif.Lemmas.Dict Verif.Props.EntryDb

variable {V S : Type}

/-! ### Specification -/

/-- The documents inside a chemical system. -/
def inside (db : List (MDoc V)) (els : List Enum.Sym) : List (MDoc V) := db.filter fun d => ∀ x ∈ d.elements, x ∈ els

/-- Deprecated documents. -/
def Deprecated (X : Ext V S) (d : MDoc V) : Prop := ∃ v, dictGet d.fields "deprecated" = some v ∧ X.truthy v = true

/-- A document written as a new entry with the requested properties `props`. -/
structure Describes (X : Ext V S) (o : Opts) (props : List String) (d : MDoc V) (e : Ent V S) : Prop where
  id : dictGet d.fields "task_id" = some e.id
  plain : o.inc = none → ∃ v f, dictGet d.fields "final_energy" = some v ∧ e.energy = X.num v ∧ dictGet d.fields "unit_cell_formula" = some f ∧ e.body = .inl f
  struct : ∀ i, o.inc = some i → i ≠ "" → ∃ v s x, dictGet d.fields "final_energy" = some v ∧
    dictGet d.fields (if i = "initial" then "initial_structure" else "structure") = some s ∧ X.structure_ s = .ok x ∧
    (o.conventional = false → e.energy = X.num v ∧ e.body = .inr x) ∧
    (o.conventional = true → X.sites x ≠ 0 ∧ e.energy * X.sites x = X.num v * X.sites (X.conventional x) ∧ e.body = .inr (X.conventional x))
  oxide : dictGet d.fields "oxide_type" ≠ none ∧ ("oxide_type" ∉ props → dictGet e.data "oxide_type" = dictGet d.fields "oxide_type")
  data : ∀ k ∈ props, k ≠ "potcar_symbols" → dictGet d.fields k ≠ none ∧ dictGet e.data k = dictGet d.fields k
  only : ∀ k v, dictGet e.data k = some v → k = "oxide_type" ∨ k ∈ props

/-- A premade entry of a document: the GGA calculation if there is one, else the GGA+U calculation. -/
def Premade (X : Ext V S) (d : MDoc V) (x : Option (Ent V S)) : Prop := ∃ ent, dictGet d.fields "entries" = some ent ∧
  ((∃ v e, X.sub ent "GGA" = .ok (some v) ∧ X.entry v = .ok e ∧ x = some e) ∨
    (X.sub ent "GGA" = .ok none ∧ ∃ v e, X.sub ent "GGA+U" = .ok (some v) ∧ X.entry v = .ok e ∧ x = some e) ∨
    (X.sub ent "GGA" = .ok none ∧ X.sub ent "GGA+U" = .ok none ∧ x = none))

/-- What a document contributes: nothing if deprecated, a premade entry, or a new entry with the requested properties. -/
def Contributes (X : Ext V S) (o : Opts) (props : List String) (d : MDoc V) (x : Option (Ent V S)) : Prop :=
  (Deprecated X d ∧ x = none) ∨ (¬ Deprecated X d ∧ o.premade = true ∧ Premade X d x) ∨
    (¬ Deprecated X d ∧ o.premade = false ∧ ∃ e, x = some e ∧ Describes X o props d e)

/-- The compatibility scheme, if asked for, adjusts or drops each entry. -/
def kept (X : Ext V S) (o : Opts) (x : Option (Ent V S)) : Option (Ent V S) := if o.compatible then x.bind X.adjust else x

/-! ### Lemmas -/

theorem get_project (keys : List String) (d : MDoc V) (k : String) (hk : k ∈ keys) : dictGet (project keys d) k = dictGet d.fields k := by
  unfold project dictGet
  congr 1
  induction d.fields with
  | nil => rfl
  | cons f l ih =>
    by_cases hf : f.1 = k
    · rw [List.filter_cons_of_pos (by simp [hf, hk])]
      simp [hf]
    · rw [List.find?_cons_of_neg (by simpa using hf), ← ih]
      by_cases hm : f.1 ∈ keys
      · rw [List.filter_cons_of_pos (by simpa using hm), List.find?_cons_of_neg (by simpa using hf)]
      · rw [List.filter_cons_of_neg (by simpa using hm)]

theorem item_ok (d : List (String × V)) (k : String) (v : V) (h : item d k = .ok v) : dictGet d k = some v := by
  unfold item at h
  split at h
  · rename_i w hw
    rw [hw, Except.ok.inj h]
  · simp at h

theorem items_spec (d : List (String × V)) (keys : List String) (l : List (String × V)) (h : items d keys = .ok l) (base : List (String × V)) :
    (∀ k ∈ keys, dictGet d k ≠ none ∧ dictGet (l.foldl (fun acc f => dictSet acc f.1 f.2) base) k = dictGet d k) ∧
    ∀ k, k ∉ keys → dictGet (l.foldl (fun acc f => dictSet acc f.1 f.2) base) k = dictGet base k := by
  induction keys generalizing l base with
  | nil =>
    cases h
    exact ⟨by simp, fun _ _ => rfl⟩
  | cons x keys ih =>
    unfold items at h ih
    rw [mapM_cons] at h
    cases hi : item d x with
    | error e => rw [hi] at h; simp [Except.map] at h
    | ok v =>
      rw [hi] at h
      obtain ⟨l', hl'⟩ : ∃ l', (keys.mapM fun k => (item d k).map fun v => (k, v)) = .ok l' := by
        cases hm : keys.mapM fun k => (item d k).map fun v => (k, v) with
        | error e => rw [hm] at h; simp [Except.map] at h
        | ok l' => exact ⟨l', rfl⟩
      rw [hl'] at h
      have h := Except.ok.inj h
      subst h
      have hv := item_ok d x v hi
      obtain ⟨h1, h2⟩ := ih l' hl' (dictSet base x v)
      simp only [List.foldl_cons]
      refine ⟨?_, ?_⟩
      · intro k hk
        by_cases hkk : k ∈ keys
        · exact h1 k hkk
        · have : k = x := by simpa [hkk] using hk
          subst this
          rw [h2 k hkk, dictGet_dictSet, hv]
          simp
      · intro k hk
        rw [h2 k (fun h => hk (List.mem_cons_of_mem _ h)), dictGet_dictSet]
        have : k ≠ x := fun h => hk (h ▸ List.mem_cons_self)
        simp [Ne.symm this]

/-- A document is skipped exactly if it is deprecated (or, for premade entries, has no calculation). -/
theorem deprecated_iff (X : Ext V S) (o : Opts) (p : Option (List String)) (d : MDoc V) :
    (((dictGet (project (projection o p) d) "deprecated").map X.truthy).getD false = true) ↔ Deprecated X d := by
  have hk : "deprecated" ∈ projection o p := by
    unfold projection
    split
    · simp
    · simp [params]
  rw [get_project _ _ _ hk]
  unfold Deprecated
  cases dictGet d.fields "deprecated" <;> simp

/-- Fields asked for are in the documents as returned. -/
theorem mem_projection (o : Opts) (ho : o.premade = false) (p : Option (List String)) (k : String)
    (hk : k ∈ ["final_energy", "unit_cell_formula", "task_id"] ++ params ∨ k ∈ p.getD [] ∨
      ∃ i, o.inc = some i ∧ i ≠ "" ∧ k = if i = "initial" then "initial_structure" else "structure") : k ∈ projection o p := by
  unfold projection
  simp only [ho, Bool.false_eq_true, if_false, List.mem_append]
  rcases hk with hk | hk | ⟨i, hi, hne, hk⟩
  · rw [List.mem_append] at hk
    tauto
  · tauto
  · right
    rw [hi]
    split
    · simp_all
    · simp_all
    · rename_i h; simp at h; simp [hk, h]
    · rename_i j h1 h2 h3
      cases h3
      have : i ≠ "initial" := fun h => h2 (by rw [h])
      simp [hk, this]

theorem structured_ok (X : Ext V S) (o : Opts) (inc : String) (d : List (String × V)) (r : S × ℚ) (h : structured X o inc d = .ok r) :
    ∃ v s x, dictGet d "final_energy" = some v ∧ dictGet d (if inc = "initial" then "initial_structure" else "structure") = some s ∧ X.structure_ s = .ok x ∧
      (o.conventional = false → r.2 = X.num v ∧ r.1 = x) ∧
      (o.conventional = true → X.sites x ≠ 0 ∧ r.2 * X.sites x = X.num v * X.sites (X.conventional x) ∧ r.1 = X.conventional x) := by
  unfold structured at h
  simp only [bind_ok] at h
  obtain ⟨s, hs, x, hx, v, hv, h⟩ := h
  refine ⟨v, s, x, item_ok _ _ _ hv, item_ok _ _ _ hs, hx, ?_⟩
  cases hc : o.conventional <;> simp only [hc, Bool.false_eq_true, if_false, if_true] at h ⊢
  · cases h
    simp
  · split at h
    · simp at h
    · rename_i hne
      cases h
      have : (X.sites x : ℚ) ≠ 0 := by exact_mod_cast hne
      refine ⟨by simp, fun _ => ⟨hne, ?_, rfl⟩⟩
      field_simp

theorem fresh_ok (X : Ext V S) (o : Opts) (ho : o.premade = false) (p : Option (List String)) (d : MDoc V) (e : Ent V S)
    (h : fresh X o p (project (projection o p) d) = .ok e) : Describes X o (p.getD []) d e := by
  unfold fresh at h
  simp only [bind_ok] at h
  obtain ⟨pp, hpp, pot, hpot, ox, hox, extra, hextra, ⟨b, en⟩, hb, ps, hps, id, hid, h⟩ := h
  cases h
  have get : ∀ k, k ∈ projection o p → k ≠ "potcar_symbols" → dictGet (dictSet (project (projection o p) d) "potcar_symbols" pot) k = dictGet d.fields k := by
    intro k hk hne
    rw [dictGet_dictSet, ← get_project _ d k hk]
    simp [Ne.symm hne]
  have m1 : ∀ k ∈ ["final_energy", "unit_cell_formula", "task_id"] ++ params, k ∈ projection o p := fun k hk => mem_projection o ho p k (.inl hk)
  obtain ⟨h1, h2⟩ := items_spec _ _ _ hextra [("oxide_type", ox)]
  have hoxv : dictGet d.fields "oxide_type" = some ox := by
    rw [← get _ (m1 _ (by decide)) (by decide)]
    exact item_ok _ _ _ hox
  refine ⟨?_, ?_, ?_, ?_, ?_, ?_⟩
  · rw [← get _ (m1 _ (by decide)) (by decide)]
    exact item_ok _ _ _ hid
  · intro hi
    unfold body at hb
    rw [hi] at hb
    unfold body.plain at hb
    simp only [bind_ok] at hb
    obtain ⟨f, hf, v, hv, hb⟩ := hb
    cases hb
    refine ⟨v, f, ?_, rfl, ?_, rfl⟩
    · rw [← get _ (m1 _ (by decide)) (by decide)]
      exact item_ok _ _ _ hv
    · rw [← get _ (m1 _ (by decide)) (by decide)]
      exact item_ok _ _ _ hf
  · intro i hi hne
    unfold body at hb
    rw [hi] at hb
    have hb' : (structured X o i (dictSet (project (projection o p) d) "potcar_symbols" pot)).map (fun r => ((.inr r.1 : V ⊕ S), r.2)) = .ok (b, en) := by
      revert hb
      split
      · simp_all
      · simp_all
      · rename_i h; cases h; exact fun h => h
    cases hst : structured X o i (dictSet (project (projection o p) d) "potcar_symbols" pot) with
    | error x => rw [hst] at hb'; simp [Except.map] at hb'
    | ok r =>
      rw [hst] at hb'
      have hb' := Except.ok.inj hb'
      obtain ⟨v, s, x, g1, g2, g3, g4, g5⟩ := structured_ok X o i _ r hst
      rw [get _ (m1 _ (by decide)) (by decide)] at g1
      rw [get _ (mem_projection o ho p _ (.inr (.inr ⟨i, hi, hne, rfl⟩))) (by split <;> decide)] at g2
      rw [Prod.mk.injEq] at hb'
      obtain ⟨rfl, rfl⟩ := hb'
      refine ⟨v, s, x, g1, g2, g3, ?_, ?_⟩
      · intro hc
        exact ⟨(g4 hc).1, by rw [(g4 hc).2]⟩
      · intro hc
        exact ⟨(g5 hc).1, (g5 hc).2.1, by rw [(g5 hc).2.2]⟩
  · refine ⟨by simp [hoxv], ?_⟩
    intro hk
    rw [h2 _ hk, hoxv]
    rfl
  · intro k hk hne
    obtain ⟨g1, g2⟩ := h1 k hk
    have := get k (mem_projection o ho p k (.inr (.inl hk))) hne
    exact ⟨this ▸ g1, by rw [g2, this]⟩
  · intro k v hv
    by_cases hk : k ∈ p.getD []
    · exact .inr hk
    · rw [h2 k hk, dictGet_cons] at hv
      left
      by_contra hne
      simp [Ne.symm hne, dictGet] at hv

/-- The two strategies query the same documents. -/
theorem groups_inside (db : List (MDoc V)) (els : List Enum.Sym) (hels : Syms els) (hdb : ∀ d ∈ db, Syms d.elements ∧ d.elements ≠ []) (n : ℕ) (hn : 0 < n) :
    ((divideChunks n (subsystems els)).flatMap fun g => db.filter fun d => decide (d.chemsys ∈ g)).Perm (inside db els) := by
  have hfl := chunks_flatten n hn (subsystems els)
  refine (groups_perm MDoc.chemsys db _ (by rw [hfl]; exact nodup_subsystems els hels)).trans ?_
  rw [hfl]
  refine List.Perm.of_eq (List.filter_congr fun d hd => ?_)
  obtain ⟨hs, hne⟩ := hdb d hd
  rw [decide_eq_decide, mem_subsystems]
  constructor
  · rintro ⟨c, hc, hn, he⟩ x hx
    exact hc.subset ((join_inj _ _ hs.dash (fun s hs => hels.dash s (hc.subset hs)) hne hn he).subset hx)
  · intro hsub
    have hp : (els.filter fun x => x ∈ d.elements).Perm d.elements := by
      refine (List.perm_ext_iff_of_nodup (hels.nodup.filter _) hs.nodup).2 fun x => ?_
      simp only [List.mem_filter, decide_eq_true_eq]
      exact ⟨fun h => h.2, fun h => ⟨hsub x h, h⟩⟩
    refine ⟨els.filter fun x => x ∈ d.elements, List.filter_sublist, fun h0 => ?_, ?_⟩
    · rw [h0] at hp; exact hne hp.nil_eq.symm
    · unfold MDoc.chemsys
      congr 1
      exact List.Perm.eq_of_pairwise (fun a b _ _ h1 h2 => le_antisymm h1 h2) (List.pairwise_insertionSort _ _)
        (List.pairwise_insertionSort _ _)
        (((List.perm_insertionSort _ _).trans hp.symm).trans (List.perm_insertionSort _ _).symm)

theorem finish_eq (X : Ext V S) (o : Opts) (ho : o.sort = false) (w : List (Option (Ent V S))) : finish X o w.reduceOption = .ok (w.filterMap (kept X o)) := by
  unfold finish kept
  cases o.compatible
  · simp [ho, List.reduceOption]
  · simp only [ho, if_true, Bool.false_eq_true, if_false, List.reduceOption, List.filterMap_filterMap]
    rfl

theorem getEntries_eq (X : Ext V S) (db : List (MDoc V)) (crit : MDoc V → Bool) (o : Opts) (ho : o.sort = false) (p : Option (List String)) :
    getEntries X db crit o p = (p, ((db.filter crit).mapM (one X o p)).map fun w => w.filterMap (kept X o)) := by
  unfold getEntries properties
  simp only [ho, Prod.mk.injEq, true_and]
  cases h : (db.filter crit).mapM (one X o p) with
  | error x => rfl
  | ok w => simp [bind, Except.bind, finish_eq X o ho, Except.map]

theorem mapM_append' {α β : Type} (f : α → Except Err β) (a b : List α) :
    (a ++ b).mapM f = match a.mapM f with
      | .error e => .error e
      | .ok x => match b.mapM f with
        | .error e => .error e
        | .ok y => .ok (x ++ y) := by
  rw [List.mapM_append]
  cases a.mapM f with
  | error e => rfl
  | ok x => cases b.mapM f <;> rfl

theorem groups_eq {α β γ δ : Type} (f : α → Except Err β) (k : β → Option γ) (sel : δ → List α) (gs : List δ) :
    (gs.mapM fun g => ((sel g).mapM f).map fun w => w.filterMap k).map List.flatten = ((gs.flatMap sel).mapM f).map fun w => w.filterMap k := by
  induction gs with
  | nil => rfl
  | cons g gs ih =>
    rw [mapM_cons, List.flatMap_cons, mapM_append']
    cases h1 : (sel g).mapM f with
    | error e => rfl
    | ok x =>
      cases h2 : (gs.flatMap sel).mapM f with
      | error e =>
        rw [h2] at ih
        cases h3 : gs.mapM fun g => ((sel g).mapM f).map fun w => w.filterMap k with
        | error e' => rw [h3] at ih; simpa [Except.map] using ih
        | ok y => rw [h3] at ih; simp [Except.map] at ih
      | ok y =>
        rw [h2] at ih
        cases h3 : gs.mapM fun g => ((sel g).mapM f).map fun w => w.filterMap k with
        | error e' => rw [h3] at ih; simp [Except.map] at ih
        | ok z =>
          rw [h3] at ih
          have ih := Except.ok.inj ih
          simp [Except.map, ih]

theorem mapM_perm {α β : Type} (f : α → Except Err β) (a b : List α) (h : a.Perm b) (w : List β) (hw : a.mapM f = .ok w) :
    ∃ w', b.mapM f = .ok w' ∧ w.Perm w' := by
  rw [mapM_ok] at hw
  obtain ⟨w', h1, h2⟩ := List.perm_comp_forall₂ h.symm hw
  exact ⟨w', (mapM_ok _ _ _).mpr h1, h2.symm⟩

/-- All entries of a chemical system, up to order. -/
theorem getAll_eq (X : Ext V S) (db : List (MDoc V)) (els : List Enum.Sym) (hels : Syms els) (hdb : ∀ d ∈ db, Syms d.elements ∧ d.elements ≠ [])
    (o : Opts) (p : Option (List String)) (n : ℤ) (hn : 0 < n) :
    ∃ docs : List (MDoc V), docs.Perm (inside db els) ∧
      getAll X db els o p n = (docs.mapM (one X { o with sort := false } p)).map fun w => w.filterMap (kept X { o with sort := false }) := by
  unfold getAll
  split_ifs with h13
  · refine ⟨_, groups_inside db els hels hdb n.toNat (by omega), ?_⟩
    unfold bySystems chunks
    rw [if_neg (by omega), if_neg (by omega)]
    simp only [getEntries_eq X db _ { o with sort := false } rfl p]
    rw [← groups_eq (one X { o with sort := false } p) (kept X { o with sort := false })]
    rfl
  · refine ⟨inside db els, List.Perm.refl _, ?_⟩
    rw [getEntries_eq X db _ { o with sort := false } rfl p]
    have : (db.filter fun d => d.elements.all fun x => decide (x ∈ els)) = inside db els := by
      refine List.filter_congr fun d _ => ?_
      rw [Bool.eq_iff_iff]
      simp [List.all_eq_true]
    rw [this]

theorem one_ok (X : Ext V S) (o : Opts) (p : Option (List String)) (d : MDoc V) (x : Option (Ent V S)) (h : one X o p d = .ok x) :
    Contributes X o (p.getD []) d x := by
  unfold one at h
  simp only at h
  split_ifs at h with hd hp
  · exact .inl ⟨(deprecated_iff X o p d).mp hd, (Except.ok.inj h).symm⟩
  · refine .inr (.inl ⟨fun h' => hd ((deprecated_iff X o p d).mpr h'), hp, ?_⟩)
    unfold premade at h
    rw [bind_ok] at h
    obtain ⟨ent, hent, h⟩ := h
    refine ⟨ent, ?_, ?_⟩
    · rw [← get_project (projection o p) d _ (by simp [projection, hp])]
      exact item_ok _ _ _ hent
    · rw [bind_ok] at h
      obtain ⟨g, hg, h⟩ := h
      cases g with
      | some v =>
        rw [bind_ok] at h
        obtain ⟨e, he, h⟩ := h
        cases h
        exact .inl ⟨v, e, hg, he, rfl⟩
      | none =>
        rw [bind_ok] at h
        obtain ⟨u, hu, h⟩ := h
        cases u with
        | some v =>
          rw [bind_ok] at h
          obtain ⟨e, he, h⟩ := h
          cases h
          exact .inr (.inl ⟨hg, v, e, hu, he, rfl⟩)
        | none =>
          cases h
          exact .inr (.inr ⟨hg, hu, rfl⟩)
  · have hp' : o.premade = false := by simpa using hp
    refine .inr (.inr ⟨fun h' => hd ((deprecated_iff X o p d).mpr h'), hp', ?_⟩)
    cases hf : fresh X o p (project (projection o p) d) with
    | error e => rw [hf] at h; simp [Except.map] at h
    | ok e =>
      rw [hf] at h
      exact ⟨e, (Except.ok.inj h).symm, fresh_ok X o hp' p d e hf⟩

/-! ### C111 -/

/-- Every successful search for a chemical system returns the entries of exactly the documents inside the system that are not deprecated, each once, in some
order, whatever the number of elements and the chunk size; each has the properties asked for. Missing for the full statement: repeated elements
(`C111_repeated_violated`), chunk sizes below one (`C111_chunk_violated`), premade entries (`C111_premade_violated`), sorted searches
(`C111_property_list_violated`) and the job (`C111_maker_property_violated`). -/
theorem C111_system_partial (X : Ext V S) (db : List (MDoc V)) (els : List Enum.Sym) (hels : Syms els)
    (hdb : ∀ d ∈ db, Syms d.elements ∧ d.elements ≠ []) (o : Opts) (p : Option (List String)) (n : ℤ) (hn : 0 < n) (r : List (Ent V S))
    (h : getAll X db els o p n = .ok r) :
    ∃ w, List.Forall₂ (Contributes X o (p.getD [])) (inside db els) w ∧ r.Perm (w.filterMap (kept X o)) := by
  obtain ⟨docs, hd, he⟩ := getAll_eq X db els hels hdb o p n hn
  rw [h] at he
  cases hm : docs.mapM (one X { o with sort := false } p) with
  | error x => rw [hm] at he; simp [Except.map] at he
  | ok w =>
    rw [hm] at he
    have he := Except.ok.inj he
    obtain ⟨w', h1, h2⟩ := mapM_perm _ _ _ hd w hm
    refine ⟨w', ?_, he ▸ (h2.filterMap _)⟩
    refine ((mapM_ok _ _ _).mp h1).imp ?_
    intro d x hx
    rcases one_ok X { o with sort := false } p d x hx with h | h | ⟨g1, g2, e, g3, g4⟩
    · exact .inl h
    · exact .inr (.inl h)
    · exact .inr (.inr ⟨g1, g2, e, g3, ⟨g4.id, g4.plain, g4.struct, g4.oxide, g4.data, g4.only⟩⟩)

/-- The strategy does not matter: neither the order of the elements nor the chunk size changes the result, up to order. -/
theorem C111_order (X : Ext V S) (db : List (MDoc V)) (els els' : List Enum.Sym) (hels : Syms els) (hp : els.Perm els')
    (hdb : ∀ d ∈ db, Syms d.elements ∧ d.elements ≠ []) (o : Opts) (p : Option (List String)) (n n' : ℤ) (hn : 0 < n) (hn' : 0 < n') (r : List (Ent V S))
    (h : getAll X db els o p n = .ok r) : ∃ r', getAll X db els' o p n' = .ok r' ∧ r.Perm r' := by
  have hels' : Syms els' := ⟨hp.nodup_iff.mp hels.nodup, fun s hs => hels.dash s (hp.mem_iff.mpr hs)⟩
  obtain ⟨docs, hd, he⟩ := getAll_eq X db els hels hdb o p n hn
  obtain ⟨docs', hd', he'⟩ := getAll_eq X db els' hels' hdb o p n' hn'
  have hi : inside db els = inside db els' := by
    refine List.filter_congr fun d _ => ?_
    rw [Bool.eq_iff_iff]
    simp [hp.mem_iff]
  rw [h] at he
  cases hm : docs.mapM (one X { o with sort := false } p) with
  | error x => rw [hm] at he; simp [Except.map] at he
  | ok w =>
    rw [hm] at he
    have he := Except.ok.inj he
    obtain ⟨w', h1, h2⟩ := mapM_perm _ _ _ (hd.trans (hi ▸ hd'.symm)) w hm
    rw [h1] at he'
    exact ⟨_, he', he ▸ h2.filterMap _⟩

/-- Failures are not hidden: if a document inside the system lacks a field that was asked for, the search fails by every strategy. -/
theorem C111_missing (X : Ext V S) (db : List (MDoc V)) (els : List Enum.Sym) (hels : Syms els)
    (hdb : ∀ d ∈ db, Syms d.elements ∧ d.elements ≠ []) (o : Opts) (ho : o.premade = false) (props : List String) (n : ℤ) (hn : 0 < n) (d : MDoc V)
    (hd : d ∈ inside db els) (hdep : ¬ Deprecated X d) (k : String) (hk : k ∈ props) (hpot : k ≠ "potcar_symbols") (hf : dictGet d.fields k = none) :
    ∃ x, getAll X db els o (some props) n = .error x := by
  cases h : getAll X db els o (some props) n with
  | error x => exact ⟨x, rfl⟩
  | ok r =>
    exfalso
    obtain ⟨w, hw, hr⟩ := C111_system_partial X db els hels hdb o (some props) n hn r h
    obtain ⟨x, _, hx⟩ : ∃ x ∈ w, Contributes X o props d x := by
      clear h hr
      generalize inside db els = l at hd hw
      induction hw with
      | nil => simp at hd
      | cons h1 h2 ih =>
        rcases List.mem_cons.mp hd with rfl | hd
        · exact ⟨_, List.mem_cons_self, h1⟩
        · obtain ⟨x, hx, hx'⟩ := ih hd
          exact ⟨x, List.mem_cons_of_mem _ hx, hx'⟩
    rcases hx with h | h | ⟨_, _, e, _, he⟩
    · exact hdep h.1
    · simp [ho] at h
    · exact (he.data k hk hpot).1 hf

/-- The caller's list of properties is not modified unless the result is sorted. -/
theorem C111_property_list_partial (X : Ext V S) (db : List (MDoc V)) (crit : MDoc V → Bool) (o : Opts) (ho : o.sort = false) (p : Option (List String)) :
    (getEntries X db crit o p).1 = p := by
  rw [getEntries_eq X db crit o ho p]

/-- Sorted searches return their entries in order of `e_above_hull`, each as often as unsorted. -/
theorem C111_sorted (X : Ext V S) (db : List (MDoc V)) (crit : MDoc V → Bool) (o : Opts) (ho : o.sort = true) (p : Option (List String)) (r : List (Ent V S))
    (h : (getEntries X db crit o p).2 = .ok r) :
    (∃ w, (db.filter crit).mapM (one X o (properties true p).1) = .ok w ∧ r.Perm (w.filterMap (kept X o))) ∧
    r.Pairwise fun a b => ∃ u v, dictGet a.data "e_above_hull" = some u ∧ dictGet b.data "e_above_hull" = some v ∧ X.num u ≤ X.num v := by
  unfold getEntries at h
  simp only [ho] at h
  rw [bind_ok] at h
  obtain ⟨w, hw, h⟩ := h
  unfold finish at h
  simp only [ho, if_true] at h
  have hk : (if o.compatible = true then w.reduceOption.filterMap X.adjust else w.reduceOption) = w.filterMap (kept X o) := by
    unfold kept
    cases o.compatible
    · simp [List.reduceOption]
    · simp only [if_true, List.reduceOption, List.filterMap_filterMap]
      rfl
  rw [hk, bind_ok] at h
  obtain ⟨keyed, hkeyed, h⟩ := h
  cases h
  have hf : ∀ x ∈ keyed, ∃ v, dictGet x.2.data "e_above_hull" = some v ∧ x.1 = X.num v := by
    intro x hx
    obtain ⟨e, _, he⟩ := mapM_mem _ _ _ hkeyed x hx
    cases hi : item e.data "e_above_hull" with
    | error y => rw [hi] at he; simp [Except.map] at he
    | ok v =>
      rw [hi] at he
      have he := Except.ok.inj he
      subst he
      exact ⟨v, item_ok _ _ _ hi, rfl⟩
  have hsnd : keyed.map Prod.snd = w.filterMap (kept X o) := by
    rw [mapM_ok] at hkeyed
    generalize w.filterMap (kept X o) = es at hkeyed
    clear hf
    induction hkeyed with
    | nil => rfl
    | cons h1 h2 ih =>
      rw [List.map_cons, ih]
      congr 1
      rename_i e x _ _
      cases hi : item e.data "e_above_hull" with
      | error y => rw [hi] at h1; simp [Except.map] at h1
      | ok v =>
        rw [hi] at h1
        have h1 := Except.ok.inj h1
        rw [← h1]
  refine ⟨⟨w, hw, ?_⟩, ?_⟩
  · rw [← hsnd]
    exact (List.perm_insertionSort _ _).map _
  · rw [List.pairwise_map]
    have : Std.Total (fun a b : ℚ × Ent V S => a.1 ≤ b.1) := ⟨fun a b => le_total _ _⟩
    have : IsTrans (ℚ × Ent V S) (fun a b => a.1 ≤ b.1) := ⟨fun a b c => le_trans⟩
    refine (List.pairwise_insertionSort (fun a b : ℚ × Ent V S => a.1 ≤ b.1) keyed).imp_of_mem ?_
    intro a b ha hb hab
    obtain ⟨u, hu, hu'⟩ := hf a ((List.perm_insertionSort _ _).mem_iff.mp ha)
    obtain ⟨v, hv, hv'⟩ := hf b ((List.perm_insertionSort _ _).mem_iff.mp hb)
    exact ⟨u, v, hu, hv, hu' ▸ hv' ▸ hab⟩

/-- **Violated**: a sorted search appends to the caller's list of properties. -/
theorem C111_property_list_violated (X : Ext V S) (db : List (MDoc V)) (crit : MDoc V → Bool) (o : Opts) (ho : o.sort = true) (x : String) (l : List String)
    (hl : "e_above_hull" ∉ x :: l) : (getEntries X db crit o (some (x :: l))).1 = some (x :: l ++ ["e_above_hull"]) := by
  unfold getEntries properties
  simp [ho, hl]

/-- **Violated**: the properties asked for are ignored if premade entries are used. -/
theorem C111_premade_violated (X : Ext V S) (db : List (MDoc V)) (els : List Enum.Sym) (o : Opts) (ho : o.premade = true) (p p' : Option (List String)) (n : ℤ) :
    getAll X db els o p n = getAll X db els o p' n := by
  have h1 : one X { o with sort := false } p = one X { o with sort := false } p' := by
    funext d
    simp [one, projection, ho]
  have h2 : ∀ crit, (getEntries X db crit { o with sort := false } p).2 = (getEntries X db crit { o with sort := false } p').2 := by
    intro crit
    rw [getEntries_eq _ _ _ _ rfl, getEntries_eq _ _ _ _ rfl, h1]
  unfold getAll bySystems
  simp only [h2]

/-- **Violated**: a negative chunk size silently gives no entries for up to 13 elements. -/
theorem C111_chunk_violated (X : Ext V S) (db : List (MDoc V)) (els : List Enum.Sym) (hels : els.length ≤ 13) (o : Opts) (p : Option (List String)) :
    (∀ n < 0, getAll X db els o p n = .ok []) ∧ getAll X db els o p 0 = .error .valueError := by
  constructor
  · intro n hn
    unfold getAll bySystems chunks
    rw [if_pos hels, if_neg (by omega), if_pos hn]
    rfl
  · unfold getAll bySystems chunks
    rw [if_pos hels]
    rfl

/-! ### Examples -/

/-- Values are numbers; the entries of a document are a number whose digits are the two calculations; numbers above 50 are incompatible energies. -/
def ex : Ext ℕ ℕ where
  truthy := fun v => v != 0
  num := fun v => v
  potcar := fun v => .ok (v + 1)
  sub := fun v k => .ok (if k = "GGA" then (if v / 10 = 0 then none else some (v / 10)) else if v % 10 = 0 then none else some (v % 10))
  entry := fun v => .ok ⟨.inl v, v, [], [("e_above_hull", v)], 0⟩
  structure_ := fun v => .ok v
  sites := fun s => s
  conventional := fun s => 2 * s
  adjust := fun e => if e.energy ≤ 50 then some e else none

def exDoc (els : List Enum.Sym) (energy deprecated : ℕ) : MDoc ℕ :=
  ⟨els, [("final_energy", energy), ("unit_cell_formula", 1), ("task_id", energy), ("deprecated", deprecated), ("run_type", 1), ("is_hubbard", 0),
    ("pseudo_potential", 4), ("hubbards", 0), ("potcar_symbols", 0), ("oxide_type", 9), ("structure", 2), ("band_gap", 3), ("e_above_hull", 60 - energy),
    ("entries", energy)]⟩

def exDb : List (MDoc ℕ) := [exDoc [['O'], ['L', 'i']] 12 0, exDoc [['O']] 20 0, exDoc [['L', 'i']] 30 1, exDoc [['F', 'e'], ['O']] 40 0, exDoc [['L', 'i']] 60 0]

/-- The hypotheses hold for the example database. -/
example : Syms [['L', 'i'], ['O']] ∧ ∀ d ∈ exDb, Syms d.elements ∧ d.elements ≠ [] := by
  refine ⟨⟨by decide, by decide⟩, ?_⟩
  intro d hd
  simp only [exDb, List.mem_cons, List.not_mem_nil, or_false] at hd
  rcases hd with rfl | rfl | rfl | rfl | rfl <;> exact ⟨⟨by decide, by decide⟩, by decide⟩

/-- Of the entries in Li-O one is deprecated and one is incompatible; conventional cells are twice as large. -/
example : (getAll ex exDb [['L', 'i'], ['O']] ⟨true, some "final", false, true, false⟩ (some ["band_gap"]) 1).map
      (fun r => r.map fun e => (e.energy, e.body, e.data)) =
    .ok [(40, .inr 4, [("oxide_type", 9), ("band_gap", 3)]), (24, .inr 4, [("oxide_type", 9), ("band_gap", 3)])] ∧
    (getAll ex exDb [['O'], ['L', 'i']] ⟨false, none, false, false, false⟩ none 2).map (fun r => r.map fun e => e.energy) = .ok [20, 60, 12] := by decide +kernel

/-- A property that a document lacks. -/
example : getAll ex exDb [['O']] ⟨true, none, false, false, false⟩ (some ["nope"]) 5 = .error .keyError := by decide +kernel

/-- Sorted by `e_above_hull`. -/
example : ((getEntries ex exDb (fun _ => true) ⟨false, none, false, false, true⟩ (some ["band_gap"])).2.map fun r => r.map fun e => e.energy) =
    .ok [60, 40, 20, 12] := by decide +kernel

/-- **Violated**: with a repeated element documents can be returned several times. -/
theorem C111_repeated_violated : ∃ d : MDoc ℕ, Syms d.elements ∧ inside [d] [['O'], ['O']] = [d] ∧
    ((getAll ex [d] [['O'], ['O']] ⟨true, none, false, false, false⟩ none 1).map List.length) = .ok 2 ∧
    ((getAll ex [d] [['O']] ⟨true, none, false, false, false⟩ none 1).map List.length) = .ok 1 :=
  ⟨exDoc [['O']] 20 0, ⟨by decide, by decide⟩, by decide +kernel, by decide +kernel, by decide +kernel⟩

/-- **Violated**: the two database functions of the package choose different calculations of the same material. -/
theorem C111_choice_violated : ∃ (d : MDoc ℕ) (d' : Doc ℕ), d.elements = d'.elements ∧ dictGet d.fields "entries" = some 12 ∧ d'.gga = some 1 ∧ d'.ggaU = some 2 ∧
    ((getAll ex [d] [['O']] ⟨true, none, true, false, false⟩ none 1).map fun r => r.map fun e => e.energy) = .ok [1] ∧
    dbChemsys [d'] [['O']] = [2] :=
  ⟨exDoc [['O']] 12 0, ⟨[['O']], some 2, some 1⟩, by decide, by decide +kernel, rfl, rfl, by decide +kernel, by decide +kernel⟩

/-! ### The job -/

/-- The remote service: documents with id, elements and entries. -/
structure Serves {ι α : Type} (R : Rester ι α) (docs : List (ι × List Enum.Sym × List α)) : Prop where
  element : ∀ s s', R.element s = .ok s' → s' = s ∧ s ∈ R.table
  known : ∀ d ∈ docs, ∀ x ∈ d.2.1, x ∈ R.table
  unique : (docs.map Prod.fst).Nodup
  chemsys : ∀ syms l, R.inChemsys syms = .ok l → l.Perm ((docs.filter fun d => ∀ x ∈ d.2.1, x ∈ syms).flatMap fun d => d.2.2)
  search : ∀ ex ids, R.excluding ex = .ok ids → ids.Perm ((docs.filter fun d => ∀ x ∈ ex, x ∉ d.2.1).map Prod.fst)
  ids : ∀ (ids : List ι) l, R.byIds ids = .ok l → ids.Nodup → ∀ (sel : ι × List Enum.Sym × List α → Bool), (∀ d ∈ docs, d.1 ∈ ids ↔ sel d = true) →
    l.Perm ((docs.filter sel).flatMap fun d => d.2.2)

/-- The job finds the same entries with few and with many elements: those of the documents inside the chemical system, each once, followed by the custom
entries. -/
theorem C111_maker {ι α : Type} (R : Rester ι α) (docs : List (ι × List Enum.Sym × List α)) (hR : Serves R docs) (custom : List α)
    (property : Option (List String)) (chemsys : List Char) (r : List α) (h : (acquire R none custom property chemsys).2 = .ok r) :
    r.Perm (((docs.filter fun d => ∀ x ∈ d.2.1, x ∈ chemsys.splitOn '-').flatMap fun d => d.2.2) ++ custom) := by
  unfold acquire at h
  simp only at h
  cases hf : fetch R chemsys with
  | error x => rw [hf] at h; simp [Except.map] at h
  | ok l =>
    rw [hf] at h
    have h := Except.ok.inj h
    subst h
    refine List.Perm.append_right _ ?_
    unfold fetch at hf
    rw [bind_ok] at hf
    obtain ⟨elems, he, hf⟩ := hf
    have heq : elems = chemsys.splitOn '-' := by
      rw [mapM_ok] at he
      clear hf
      generalize chemsys.splitOn '-' = syms at he
      induction he with
      | nil => rfl
      | cons h1 h2 ih => rw [(hR.element _ _ h1).1, ih]
    split_ifs at hf with h25
    · exact hR.chemsys _ _ hf
    · rw [bind_ok] at hf
      obtain ⟨ids, hi, hf⟩ := hf
      have hp := hR.search _ _ hi
      have hnd : ids.Nodup := hp.nodup_iff.mpr (hR.unique.sublist (List.filter_sublist.map _))
      refine hR.ids ids l hf hnd _ ?_
      intro d hd
      rw [hp.mem_iff, List.mem_map]
      simp only [List.mem_filter, decide_eq_true_eq]
      have key : ∀ e ∈ docs, (∀ x ∈ excluded R.table elems, x ∉ e.2.1) ↔ ∀ x ∈ e.2.1, x ∈ chemsys.splitOn '-' := by
        intro e he
        constructor
        · intro h x hx
          by_contra hn
          exact h x (by simp [excluded, hR.known e he x hx, heq, hn]) hx
        · intro h x hx hx'
          simp only [excluded, List.mem_filter, decide_eq_true_eq] at hx
          exact hx.2 (heq ▸ h x hx')
      constructor
      · rintro ⟨e, ⟨he, hx⟩, hed⟩
        have : e = d := List.inj_on_of_nodup_map hR.unique he hd hed
        subst this
        exact (key e he).mp hx
      · intro hx
        exact ⟨d, ⟨hd, (key d hd).mpr hx⟩, rfl⟩

/-- Symbols that are not elements are reported. -/
theorem C111_maker_element {ι α : Type} (R : Rester ι α) (custom : List α) (property : Option (List String)) (chemsys : List Char) (s : Enum.Sym)
    (hs : s ∈ chemsys.splitOn '-') (x : Err) (hx : R.element s = .error x) : ∃ y, (acquire R none custom property chemsys).2 = .error y := by
  obtain ⟨y, hy⟩ := mapM_exists_error R.element _ s hs x hx
  refine ⟨y, ?_⟩
  unfold acquire fetch
  simp only [hy]
  rfl

/-- With a configured database the job finds the entries of its documents inside the system, each once (the calculation with Hubbard corrections if there
is one), followed by the custom entries. -/
theorem C111_maker_db {ι α : Type} (R : Rester ι α) (db : List (Doc α)) (custom : List α) (property : Option (List String)) (els : List Enum.Sym)
    (hne : els ≠ []) (hels : Verif.Props.EntryDb.Syms els) (hdb : ∀ d ∈ db, Verif.Props.EntryDb.Syms d.elements ∧ d.elements ≠ []) :
    ∃ r, (acquire R (some db) custom property (['-'].intercalate els)).2 = .ok (r ++ custom) ∧ r.Perm (Verif.Props.EntryDb.wanted db els) := by
  refine ⟨_, rfl, ?_⟩
  rw [Verif.Props.EntryDb.C88_string db els hne hels.dash]
  exact Verif.Props.EntryDb.C88_query_partial db els hels hdb

/-- **Violated**: the properties set for the job are never used, but the user's list is modified. -/
theorem C111_maker_property_violated {ι α : Type} (R : Rester ι α) (docs : List (Doc α)) (custom : List α) (chemsys : List Char) :
    (∀ db p p', (acquire R db custom p chemsys).2 = (acquire R db custom p' chemsys).2) ∧
    ∀ l, "theoretical" ∉ l → (acquire R (some docs) custom (some l) chemsys).1 = some (l ++ ["theoretical"]) := by
  refine ⟨fun db p p' => by cases db <;> rfl, fun l hl => by simp [acquire, hl]⟩

/-- A service of three materials with the elements A, B and C; ids are positions. -/
def exR (docs : List (ℕ × List Enum.Sym × List ℕ)) (table : List Enum.Sym) : Rester ℕ ℕ where
  element := fun s => if s ∈ table then .ok s else .error .valueError
  table := table
  inChemsys := fun syms => .ok ((docs.filter fun d => ∀ x ∈ d.2.1, x ∈ syms).flatMap fun d => d.2.2)
  excluding := fun ex => .ok ((docs.filter fun d => ∀ x ∈ ex, x ∉ d.2.1).map Prod.fst)
  byIds := fun ids => .ok ((docs.filter fun d => d.1 ∈ ids).flatMap fun d => d.2.2)

/-- Such services are lawful. -/
theorem exR_serves (docs : List (ℕ × List Enum.Sym × List ℕ)) (table : List Enum.Sym) (h : (docs.map Prod.fst).Nodup)
    (hk : ∀ d ∈ docs, ∀ x ∈ d.2.1, x ∈ table) : Serves (exR docs table) docs where
  element := by
    intro s s' h
    simp only [exR] at h
    split_ifs at h with hs
    cases h
    exact ⟨rfl, hs⟩
  known := hk
  unique := h
  chemsys := fun _ _ h => by cases h; exact List.Perm.refl _
  search := fun _ _ h => by cases h; exact List.Perm.refl _
  ids := by
    intro ids l h _ sel hsel
    cases h
    have : (docs.filter fun d => decide (d.1 ∈ ids)) = docs.filter sel := by
      refine List.filter_congr fun d hd => ?_
      rw [Bool.eq_iff_iff, decide_eq_true_iff]
      exact hsel d hd
    rw [this]

/-- A request for two of three elements. -/
example : (acquire (exR [(1, [['A'], ['B']], [10, 11]), (2, [['C']], [20]), (3, [['B']], [30])] [['A'], ['B'], ['C']]) none [99] none ['B', '-', 'A']).2 =
    .ok [10, 11, 30, 99] ∧
    (acquire (exR [(1, [['A'], ['B']], [10, 11])] [['A'], ['B'], ['C']]) none [99] none ['B', '-', 'Q']).2 = .error .valueError := by decide +kernel

/-- Twenty-six elements: the search by exclusion. -/
def many : List Enum.Sym := (List.range 26).map fun i => [Char.ofNat (65 + i)]

example : (acquire (exR [(1, [['A'], ['B']], [10, 11]), (2, [['x']], [20]), (3, [['B']], [30])] (['x'] :: many)) none [99] none (['-'].intercalate many)).2 =
    .ok [10, 11, 30, 99] := by decide +kernel

/-- Of a document inside the system Li-O and one outside, the job returns the first with its Hubbard calculation, then the custom entry. -/
example : (acquire (exR [] []) (some [⟨[['O'], ['L', 'i']], some 1, some 2⟩, ⟨[['F', 'e'], ['O']], some 4, none⟩]) [9] none ['L', 'i', '-', 'O']).2 = .ok [1, 9] := by
  decide +kernel

end Verif.Props.MpDb
