import Verif.Model.EntryFlow
import Verif.Props.EntrySet
import Verif.Props.EntryTemp

/-! Properties C79-C82: processing a collection of entries and initializing an entry by its formula. -/

namespace Verif.Props.EntryFlow
open Verif.Py Verif.Model Verif.Model.Entries Verif.Model.EntryFlow Verif.Lemmas Verif.Props.EntrySet

set_option linter.unusedSectionVars false

variable {κ ε φ : Type} [DecidableEq κ] [DecidableEq ε] [DecidableEq φ]

/-! ### Helper lemmas -/

theorem mem_foldl_insertE {η : Type} [DecidableEq η] (items : List η) : ∀ (l : List η) (x : η),
    x ∈ items.foldl insertE l ↔ x ∈ l ∨ x ∈ items := by
  induction items with
  | nil => simp
  | cons a items ih => intro l x; rw [List.foldl_cons, ih, mem_insertE, List.mem_cons]; tauto

theorem mem_entrySet (es : List (Ent κ)) (x : Ent κ) : x ∈ entrySet es ↔ x ∈ es := by
  unfold entrySet; rw [mem_foldl_insertE]; simp

theorem nodup_foldl_insertE {η : Type} [DecidableEq η] (items : List η) : ∀ l : List η, l.Nodup → (items.foldl insertE l).Nodup := by
  induction items with
  | nil => exact fun l h => h
  | cons a items ih => exact fun l h => ih _ (nodup_insertE l a h)

theorem newTemperature_comp (W : World κ ε φ) (t : ℚ) (e e' : Ent κ) (h : e.newTemperature W t = .ok e') : e'.comp = e.comp := by
  cases e with
  | gibbs g =>
    simp only [Ent.newTemperature] at h
    cases hg : g.newTemperature W.thermo t with
    | error x => rw [hg] at h; cases h
    | ok g' =>
      rw [hg] at h; cases h
      obtain ⟨-, -, v, -, rfl⟩ := EntryTemp.gibbsInit_ok _ _ _ _ _ _ _ _ hg
      rfl
  | exper x =>
    simp only [Ent.newTemperature] at h
    cases hx : x.newTemperature W.table W.deprecated t with
    | error y => rw [hx] at h; cases h
    | ok x' =>
      rw [hx] at h; cases h
      unfold Exper.newTemperature at hx
      cases ha : x.adjs.mapM (Adj.setTemp t) with
      | error y => rw [ha] at hx; cases hx
      | ok as => rw [ha] at hx; exact (EntryTemp.experInit_ok _ _ _ _ _ _ hx).1
  | interp c g m => cases h; rfl

theorem newTemperature_temp (W : World κ ε φ) (t : ℚ) (e e' : Ent κ) (h : e.newTemperature W t = .ok e') (hn : e.temp? ≠ none) :
    e'.temp? = some t := by
  cases e with
  | gibbs g =>
    simp only [Ent.newTemperature] at h
    cases hg : g.newTemperature W.thermo t with
    | error x => rw [hg] at h; cases h
    | ok g' =>
      rw [hg] at h; cases h
      obtain ⟨-, -, v, -, rfl⟩ := EntryTemp.gibbsInit_ok _ _ _ _ _ _ _ _ hg
      rfl
  | exper x =>
    simp only [Ent.newTemperature] at h
    cases hx : x.newTemperature W.table W.deprecated t with
    | error y => rw [hx] at h; cases h
    | ok x' =>
      rw [hx] at h; cases h
      unfold Exper.newTemperature at hx
      cases ha : x.adjs.mapM (Adj.setTemp t) with
      | error y => rw [ha] at hx; cases hx
      | ok as => rw [ha] at hx; exact congrArg some (EntryTemp.experInit_ok _ _ _ _ _ _ hx).2.1
  | interp c g m => exact absurd rfl hn

theorem resetHull_comp (e : Ent κ) : e.resetHull.comp = e.comp := by cases e <;> rfl
theorem resetHull_temp (e : Ent κ) : e.resetHull.temp? = e.temp? := by cases e <;> rfl
theorem setHull_comp (h : ℚ) (e : Ent κ) : (e.setHull h).comp = e.comp := by cases e <;> rfl
theorem setHull_temp (h : ℚ) (e : Ent κ) : (e.setHull h).temp? = e.temp? := by cases e <;> rfl

theorem mem_newTemps (W : World κ ε φ) (t : ℚ) (es : List (Ent κ)) : ∀ r, newTemps W t es = .ok r →
    ∀ x, x ∈ r ↔ ∃ e ∈ es, ∃ e', e.newTemperature W t = .ok e' ∧ x = e'.resetHull := by
  induction es with
  | nil => intro r h x; cases h; simp
  | cons e es ih =>
    intro r h x
    simp only [newTemps] at h
    cases he : e.newTemperature W t with
    | ok e' =>
      rw [he] at h; simp only at h
      cases hr : newTemps W t es with
      | error y => rw [hr] at h; cases h
      | ok r' =>
        rw [hr] at h; cases h
        rw [List.mem_cons, ih r' hr x, List.exists_mem_cons_iff]
        exact or_congr_left ⟨fun hx => ⟨e', he, hx⟩, fun ⟨e'', h1, h2⟩ => by rw [he] at h1; cases h1; exact h2⟩
    | error y =>
      rw [he] at h
      cases y <;> first
        | (simp only at h
           rw [ih r h x, List.exists_mem_cons_iff]
           exact ⟨Or.inr, fun h' => h'.elim (fun ⟨e'', h1, _⟩ => by rw [he] at h1; cases h1) id⟩)
        | cases h

/-! ### C81: contents -/

/-- Specification of the stability filter's result: with polymorphs, exactly the admissible entries; without, one lowest-energy
admissible entry of every formula that has one. -/
structure Kept (W : World κ ε φ) (pds : List (PD (Ent κ))) (cut : ℚ) (poly : Bool) (l : List (Ent κ)) : Prop where
  nodup : l.Nodup
  adm : ∀ e ∈ l, Admissible pds cut e
  all : poly = true → ∀ e, Admissible pds cut e → e ∈ l
  low : poly = false → ∀ e ∈ l, ∀ x, Admissible pds cut x → x.form W = e.form W → e.epa W ≤ x.epa W
  cover : poly = false → ∀ x, Admissible pds cut x → ∃ e ∈ l, e.form W = x.form W
  single : poly = false → ∀ e ∈ l, ∀ e' ∈ l, e.form W = e'.form W → e = e'

/-- Specification: the entries are filtered at a temperature other than the requested one. -/
def Converts (s : Settings φ) : Prop := ∃ t, s.filterAt = some t ∧ t ≠ 0 ∧ t ≠ s.temperature

theorem changes_iff (s : Settings φ) : s.changes = true ↔ Converts s := by
  unfold Settings.changes Converts
  cases s.filterAt <;> simp

theorem first_eq (s : Settings φ) : (Converts s ∧ s.filterAt = some s.first) ∨ (¬ Converts s ∧ s.first = s.temperature) := by
  by_cases h : Converts s
  · obtain ⟨t, h1, h2, h3⟩ := h
    exact .inl ⟨⟨t, h1, h2, h3⟩, by simp [Settings.first, h1, h2]⟩
  · refine .inr ⟨h, ?_⟩
    unfold Settings.first
    cases hf : s.filterAt with
    | none => rfl
    | some t =>
      simp only
      split_ifs with h0
      · rfl
      · by_contra hne; exact h ⟨t, hf, h0, hne⟩

/-- **C81.** What `process_entries` returns: the filtered and the requested entries; if the filtering temperature differs from the
requested one, those of them whose conversion succeeds, converted; hull distances are added at the end if asked for. -/
theorem C81_contents (W : World κ ε φ) (base : ℚ → Except Err (List (Ent κ))) (pds : List (Ent κ) → Except Err (List (PD (Ent κ))))
    (hullE : List (Ent κ) → κ → Except Err ℚ) (ehull : List (Ent κ) → Ent κ → Except Err ℚ) (s : Settings φ) (r : List (Ent κ))
    (h : processEntries W base pds hullE ehull s = .ok r) :
    ∃ es0 pd inc kept out, base s.first = .ok es0 ∧ pds es0 = .ok pd ∧ Kept W pd s.cut s.polymorphs kept ∧
      List.Forall₂ (fun f e => initializeEntry W hullE es0 f = .ok e) s.formulas inc ∧
      (¬ Converts s → ∀ x, x ∈ out ↔ x ∈ kept ∨ x ∈ inc) ∧
      (Converts s → ∀ x, x ∈ out ↔ ∃ e, (e ∈ kept ∨ e ∈ inc) ∧ ∃ e', e.newTemperature W s.temperature = .ok e' ∧ x = e'.resetHull) ∧
      out.Nodup ∧ (s.calcHulls = false → r = out) ∧
      (s.calcHulls = true → List.Forall₂ (fun e x => ∃ d, ehull out e = .ok d ∧ x = e.setHull d) out r) := by
  unfold processEntries at h
  rw [Exc.bind_ok] at h; obtain ⟨es0, h0, h⟩ := h
  rw [Exc.bind_ok] at h; obtain ⟨inc, hi, h⟩ := h
  rw [Exc.bind_ok] at h; obtain ⟨pd, hp, h⟩ := h
  rw [Exc.bind_ok] at h; obtain ⟨kept, hk, h⟩ := h
  simp only at h
  rw [Exc.bind_ok] at h; obtain ⟨out, ho, h⟩ := h
  unfold convert at ho
  have hkept : Kept W pd s.cut s.polymorphs kept := by
    cases hb : s.polymorphs with
    | true =>
      obtain ⟨l, h1, h2, h3⟩ := C39_polymorphs (Ent.form W) (Ent.epa W) pd s.cut
      rw [hb, h1] at hk; cases hk
      exact ⟨h2, fun e he => (h3 e).1 he, fun _ e he => (h3 e).2 he, nofun, nofun, nofun⟩
    | false =>
      obtain ⟨l, h1, h2, h3, h4, h5⟩ := C39_filter (Ent.form W) (Ent.epa W) pd s.cut
      rw [hb, h1] at hk; cases hk
      exact ⟨h2, fun e he => (h3 e he).1, nofun, fun _ e he => (h3 e he).2, fun _ => h4, fun _ => h5⟩
  refine ⟨es0, pd, inc, kept, out, h0, hp, hkept, (Exc.mapM_ok _ _ _).1 hi, ?_, ?_, ?_, ?_, ?_⟩
  · intro hc x
    rw [if_neg (by rw [changes_iff]; exact hc)] at ho; cases ho
    exact mem_foldl_insertE inc kept x
  · intro hc x
    rw [if_pos ((changes_iff s).2 hc), Exc.map_ok] at ho
    obtain ⟨l, hl, rfl⟩ := ho
    rw [mem_entrySet, mem_newTemps W _ _ l hl x]
    exact exists_congr fun e => and_congr_left fun _ => mem_foldl_insertE inc kept e
  · split_ifs at ho with hc
    · rw [Exc.map_ok] at ho
      obtain ⟨l, -, rfl⟩ := ho
      exact nodup_foldl_insertE l [] List.nodup_nil
    · cases ho; exact nodup_foldl_insertE inc kept hkept.nodup
  · intro hc; rw [hc] at h; cases h; rfl
  · intro hc; rw [hc, if_pos rfl] at h
    refine ((Exc.mapM_ok _ _ _).1 h).imp fun e x hx => ?_
    rw [Exc.map_ok] at hx
    obtain ⟨d, h1, h2⟩ := hx
    exact ⟨d, h1, h2.symm⟩

/-! ### C82: initializing an entry -/

/-- **C82, known formulas**: the ground state is returned. -/
theorem C82_known (W : World κ ε φ) (hullE : List (Ent κ) → κ → Except Err ℚ) (es : List (Ent κ)) (f : φ)
    (h : ∃ e ∈ es, e.form W = W.form (W.comp f)) :
    ∃ e, initializeEntry W hullE es f = .ok e ∧ Ground (Ent.form W) (Ent.epa W) es (W.form (W.comp f)) e := by
  rcases C38_ground (Ent.form W) (Ent.epa W) es (W.form (W.comp f)) with ⟨e, h1, h2⟩ | ⟨-, h2⟩
  · exact ⟨e, by unfold initializeEntry; rw [h1], h2⟩
  · obtain ⟨e, he, hf⟩ := h; exact absurd hf (h2 e he)

theorem initialize_unknown (W : World κ ε φ) (hullE : List (Ent κ) → κ → Except Err ℚ) (es : List (Ent κ)) (f : φ)
    (h : ∀ e ∈ es, e.form W ≠ W.form (W.comp f)) : initializeEntry W hullE es f = interpolated W hullE es f (1 / 1000) := by
  unfold initializeEntry
  rw [(C38_keyError _ _ es _).2 h]

/-- The phase of an entry: amounts of the elements and energy. -/
def phase (W : World κ ε φ) {σ : Type} (vec : κ → σ → ℚ) (e : Ent κ) : EntryTemp.Phase σ := ⟨vec e.comp, e.energy W⟩

/-- **C82, unknown formulas**: a new entry of the requested composition, 1 meV per atom below the hull of the entries inside its
chemical system, hence stable among them. The hull energy comes from outside; assumed is only that it is at most the energy of
every decomposition. -/
theorem C82_interpolated (W : World κ ε φ) {σ : Type} [Fintype σ] (vec : κ → σ → ℚ) (hvec : ∀ c x, 0 ≤ vec c x)
    (hpos : ∀ c, ∃ x, 0 < vec c x) (hat : ∀ c, 0 ≤ W.thermo.atoms c) (hullE : List (Ent κ) → κ → Except Err ℚ) (es : List (Ent κ)) (f : φ)
    (hnew : ∀ e ∈ es, e.form W ≠ W.form (W.comp f)) (hels : ∀ x ∈ W.elems (W.comp f), ∃ e ∈ es, x ∈ W.elems e.comp)
    (hhull : ∀ l c H, hullE l c = .ok H → EntryTemp.BelowHull (fun p => ∃ e ∈ l, p = phase W vec e) (vec c) H)
    (r : Ent κ) (hr : initializeEntry W hullE es f = .ok r) :
    r.comp = W.comp f ∧ r.form W = W.form (W.comp f) ∧
    ∃ sub H, (∀ e, e ∈ sub ↔ e ∈ es ∧ ∀ x ∈ W.elems e.comp, x ∈ W.elems (W.comp f)) ∧ hullE sub (W.comp f) = .ok H ∧
      r.energy W = H - W.thermo.atoms (W.comp f) / 1000 ∧
      EntryTemp.Stable (fun p => ∃ e ∈ sub, p = phase W vec e) (phase W vec r) := by
  rw [initialize_unknown W hullE es f hnew] at hr
  obtain ⟨sub, h1, h2⟩ := (C40_subset (fun e : Ent κ => W.elems e.comp) es (W.elems (W.comp f))).1 hels
  unfold interpolated at hr
  rw [Exc.bind_ok] at hr; obtain ⟨sub', hs, hr⟩ := hr
  rw [h1] at hs; cases hs
  rw [Exc.bind_ok] at hr; obtain ⟨H, hH, hr⟩ := hr
  cases hr
  refine ⟨rfl, rfl, sub, H, h2, hH, ?_, ?_⟩
  · simp only [Ent.energy]; ring
  · refine EntryTemp.stable_of_below _ _ (hpos _) ?_ fun ps E hps hd => ?_
    · rintro q ⟨e, -, rfl⟩; exact ⟨hvec _, hpos _⟩
    · have := hhull sub _ H hH ps E hps hd
      have h0 := hat (W.comp f)
      simp only [phase, Ent.energy]
      linarith

/-- **C82, errors**: a formula with an element outside the set raises `ValueError`; otherwise only the phase diagram can fail. -/
theorem C82_errors (W : World κ ε φ) (hullE : List (Ent κ) → κ → Except Err ℚ) (es : List (Ent κ)) (f : φ) :
    ((∃ x ∈ W.elems (W.comp f), ∀ e ∈ es, x ∉ W.elems e.comp) → (∀ e ∈ es, e.form W ≠ W.form (W.comp f)) →
      initializeEntry W hullE es f = .error .valueError) ∧
    (∀ y, initializeEntry W hullE es f = .error y → (∃ x ∈ W.elems (W.comp f), ∀ e ∈ es, x ∉ W.elems e.comp) ∨
      ∃ sub, (∀ e ∈ sub, e ∈ es) ∧ hullE sub (W.comp f) = .error y) := by
  have hsub := C40_subset (fun e : Ent κ => W.elems e.comp) es (W.elems (W.comp f))
  constructor
  · intro hx hn
    rw [initialize_unknown W hullE es f hn]
    unfold interpolated; rw [hsub.2 hx]; rfl
  · intro y hy
    by_cases hx : ∃ x ∈ W.elems (W.comp f), ∀ e ∈ es, x ∉ W.elems e.comp
    · exact .inl hx
    · push Not at hx
      right
      by_cases hk : ∃ e ∈ es, e.form W = W.form (W.comp f)
      · obtain ⟨e, he, -⟩ := C82_known W hullE es f hk
        rw [he] at hy; cases hy
      · push Not at hk
        rw [initialize_unknown W hullE es f hk] at hy
        obtain ⟨sub, h1, h2⟩ := hsub.1 hx
        unfold interpolated at hy
        rw [h1] at hy
        refine ⟨sub, fun e he => ((h2 e).1 he).1, ?_⟩
        simp only [bind, Except.bind] at hy
        cases hh : hullE sub (W.comp f) with
        | error z => rw [hh] at hy; cases hy; rfl
        | ok H => rw [hh] at hy; cases hy

theorem initialize_form (W : World κ ε φ) (hullE : List (Ent κ) → κ → Except Err ℚ) (es : List (Ent κ)) (f : φ) (e : Ent κ)
    (h : initializeEntry W hullE es f = .ok e) :
    e.form W = W.form (W.comp f) ∧ (e ∈ es ∨ ∃ g, e = .interp (W.comp f) g (setTemperature es) ∧ ∀ x ∈ es, x.form W ≠ W.form (W.comp f)) := by
  by_cases hk : ∃ e ∈ es, e.form W = W.form (W.comp f)
  · obtain ⟨e', he, hg⟩ := C82_known W hullE es f hk
    rw [he] at h; cases h
    exact ⟨hg.2.1, .inl hg.1⟩
  · push Not at hk
    rw [initialize_unknown W hullE es f hk] at h
    unfold interpolated at h
    rw [Exc.bind_ok] at h; obtain ⟨sub', hs, h⟩ := h
    rw [Exc.bind_ok] at h; obtain ⟨H, hH, h⟩ := h
    cases h
    exact ⟨rfl, .inr ⟨_, rfl, hk⟩⟩

/-! ### C79: requested formulas -/

/-- **C79, partial**: every requested formula has an entry in the result provided that, when the temperature changes, the conversion
of the requested entries does not raise. -/
theorem C79_included_partial (W : World κ ε φ) (base : ℚ → Except Err (List (Ent κ)))
    (pds : List (Ent κ) → Except Err (List (PD (Ent κ)))) (hullE : List (Ent κ) → κ → Except Err ℚ)
    (ehull : List (Ent κ) → Ent κ → Except Err ℚ) (s : Settings φ) (r : List (Ent κ))
    (h : processEntries W base pds hullE ehull s = .ok r) (f : φ) (hf : f ∈ s.formulas)
    (hconv : Converts s → ∀ es0 e, base s.first = .ok es0 → initializeEntry W hullE es0 f = .ok e →
      ∃ e', e.newTemperature W s.temperature = .ok e') :
    ∃ x ∈ r, x.form W = W.form (W.comp f) := by
  obtain ⟨es0, pd, inc, kept, out, h0, -, -, hinc, h1, h2, -, h3, h4⟩ := C81_contents W base pds hullE ehull s r h
  obtain ⟨e, he, hi⟩ : ∃ e ∈ inc, initializeEntry W hullE es0 f = .ok e := by
    clear h1 h2 h3 h4 h hconv
    generalize s.formulas = fs at hinc hf
    induction hinc with
    | nil => simp at hf
    | cons h1 _ ih =>
      rcases List.mem_cons.1 hf with rfl | hf
      · exact ⟨_, List.mem_cons_self, h1⟩
      · obtain ⟨e, h2, h3⟩ := ih hf
        exact ⟨e, List.mem_cons_of_mem _ h2, h3⟩
  have hform := (initialize_form W hullE es0 f e hi).1
  obtain ⟨x, hx, hxf⟩ : ∃ x ∈ out, x.comp = e.comp := by
    by_cases hc : Converts s
    · obtain ⟨e', he'⟩ := hconv hc es0 e h0 hi
      exact ⟨e'.resetHull, (h2 hc _).2 ⟨e, .inr he, e', he', rfl⟩, by rw [resetHull_comp, newTemperature_comp W _ _ _ he']⟩
    · exact ⟨e, (h1 hc e).2 (.inr he), rfl⟩
  cases hh : s.calcHulls with
  | false => exact ⟨x, h3 hh ▸ hx, by unfold Ent.form at *; rw [hxf]; exact hform⟩
  | true =>
    have h5 := h4 hh
    obtain ⟨y, hy, d, -, rfl⟩ : ∃ y ∈ r, ∃ d, ehull out x = .ok d ∧ y = x.setHull d := by
      generalize hq : (fun (e y : Ent κ) => ∃ d, ehull out e = .ok d ∧ y = e.setHull d) = Q at h5
      have : ∃ y ∈ r, Q x y := by
        clear h1 h2 h3 h4 hq h
        induction h5 with
        | nil => simp at hx
        | cons a _ ih =>
          rcases List.mem_cons.1 hx with rfl | hx
          · exact ⟨_, List.mem_cons_self, a⟩
          · obtain ⟨y, h6, h7⟩ := ih hx
            exact ⟨y, List.mem_cons_of_mem _ h6, h7⟩
      subst hq; exact this
    exact ⟨_, hy, by unfold Ent.form at *; rw [setHull_comp, hxf]; exact hform⟩

/-! ### C80: temperature -/

/-- **C80, partial**: given a data source that returns entries at the temperature asked for, every entry of the result is at the
requested temperature, except interpolated entries, which stay at the temperature of filtering. -/
theorem C80_temperature_partial (W : World κ ε φ) (base : ℚ → Except Err (List (Ent κ)))
    (pds : List (Ent κ) → Except Err (List (PD (Ent κ)))) (hullE : List (Ent κ) → κ → Except Err ℚ)
    (ehull : List (Ent κ) → Ent κ → Except Err ℚ) (s : Settings φ) (r : List (Ent κ))
    (hbase : ∀ t es, base t = .ok es → es ≠ [] ∧ ∀ e ∈ es, e.temp? = some t)
    (hpds : ∀ es pd, pds es = .ok pd → ∀ p ∈ pd, ∀ e ∈ p.all, e ∈ es)
    (h : processEntries W base pds hullE ehull s = .ok r) (x : Ent κ) (hx : x ∈ r) :
    x.temp? = some s.temperature ∨ ∃ c g, x = .interp c g s.first := by
  obtain ⟨es0, pd, inc, kept, out, h0, hp, hk, hinc, h1, h2, -, h3, h4⟩ := C81_contents W base pds hullE ehull s r h
  have hset : setTemperature es0 = s.first := by
    obtain ⟨hne, hall⟩ := hbase _ _ h0
    cases es0 with
    | nil => exact absurd rfl hne
    | cons a l => simp [setTemperature, hall a List.mem_cons_self]
  have hin : ∀ e, e ∈ kept ∨ e ∈ inc → e.temp? = some s.first ∨ ∃ c g, e = .interp c g s.first := by
    rintro e (he | he)
    · obtain ⟨p, hp', hm, -⟩ := hk.adm e he
      exact .inl ((hbase _ _ h0).2 e (hpds _ _ hp p hp' e hm))
    · obtain ⟨f, -, hf⟩ := Exc.mapM_mem _ _ _ ((Exc.mapM_ok _ _ _).2 hinc) e he
      rcases (initialize_form W hullE es0 f e hf).2 with h | ⟨g, rfl, -⟩
      · exact .inl ((hbase _ _ h0).2 e h)
      · exact .inr ⟨_, g, by rw [hset]⟩
  have hout : ∀ e ∈ out, e.temp? = some s.temperature ∨ ∃ c g, e = .interp c g s.first := by
    intro e he
    rcases first_eq s with ⟨hc, -⟩ | ⟨hc, hf⟩
    · obtain ⟨e0, h5, e', h6, rfl⟩ := (h2 hc e).1 he
      rcases hin e0 h5 with h7 | ⟨c, g, rfl⟩
      · exact .inl (by rw [resetHull_temp]; exact newTemperature_temp W _ e0 e' h6 (by rw [h7]; exact nofun))
      · cases h6; exact .inr ⟨c, g, rfl⟩
    · rcases hin e ((h1 hc e).1 he) with h7 | h7
      · exact .inl (by rw [h7, hf])
      · exact .inr h7
  cases hh : s.calcHulls with
  | false => exact hout x (h3 hh ▸ hx)
  | true =>
    obtain ⟨e, he, d, rfl⟩ : ∃ e ∈ out, ∃ d, x = e.setHull d := by
      have h5 := h4 hh
      clear h1 h2 h3 h4 h hout
      generalize hq : (fun (e y : Ent κ) => ∃ d, ehull out e = .ok d ∧ y = e.setHull d) = Q at h5
      have : ∃ e ∈ out, Q e x := by
        clear hq
        induction h5 with
        | nil => simp at hx
        | cons a _ ih =>
          rcases List.mem_cons.1 hx with rfl | hx
          · exact ⟨_, List.mem_cons_self, a⟩
          · obtain ⟨y, h6, h7⟩ := ih hx
            exact ⟨y, List.mem_cons_of_mem _ h6, h7⟩
      subst hq
      obtain ⟨e, he, d, -, hd⟩ := this
      exact ⟨e, he, d, hd⟩
    rcases hout e he with h7 | ⟨c, g, rfl⟩
    · exact .inl (by rw [setHull_temp]; exact h7)
    · exact .inr ⟨c, g, rfl⟩

/-! ### Concrete cases and violations -/

/-- Compositions 1 and 2 are elements, 3 is a compound of both; experimental data exist for 300-500 K; the Gibbs correction is
proportional to the temperature. -/
def toyW : World ℕ ℕ ℕ where
  thermo := ⟨fun c => if c = 3 then 2 else 1, fun _ _ t => .ok (-t / 100)⟩
  table := fun _ => some [(300, -5), (400, -4), (500, -2)]
  deprecated := fun _ => false
  elems := fun c => if c = 3 then [1, 2] else [c]
  form := id
  comp := id

/-- Entries of both elements at a temperature. -/
def toyBase (t : ℚ) : Except Err (List (Ent ℕ)) := do
  let a ← gibbsInit toyW.thermo 1 0 1 t [] none
  let b ← gibbsInit toyW.thermo 2 0 1 t [] none
  return [.gibbs a, .gibbs b]

/-- One phase diagram; everything is on its hull. -/
def toyPds (es : List (Ent ℕ)) : Except Err (List (PD (Ent ℕ))) := .ok [⟨es, fun _ => 0⟩]

/-- Hull energy of the compound: the sum of its elements' energies. -/
def toyHull (es : List (Ent ℕ)) (_ : ℕ) : Except Err ℚ := .ok (es.map (Ent.energy toyW)).sum

/-- **C80, violated**: filtering at 300 K and asking for 1000 K gives an interpolated entry with another energy than working at 1000 K
throughout. -/
theorem C80_interpolated_violated : ∃ r r' : List (Ent ℕ), ∃ g g' : ℚ,
    processEntries toyW toyBase toyPds toyHull (fun _ _ => .ok 0) ⟨1000, some 300, 0, false, [3], false⟩ = .ok r ∧
    processEntries toyW toyBase toyPds toyHull (fun _ _ => .ok 0) ⟨1000, none, 0, false, [3], false⟩ = .ok r' ∧
    Ent.interp 3 g 300 ∈ r ∧ Ent.interp 3 g' 1000 ∈ r' ∧ g = -6 - 1 / 500 ∧ g' = -20 - 1 / 500 := by
  refine ⟨[.gibbs ⟨1, 0, 1, 1000, [.const sisso (-10)], none⟩, .gibbs ⟨2, 0, 1, 1000, [.const sisso (-10)], none⟩,
      .interp 3 (-6 - 1 / 500) 300],
    [.gibbs ⟨1, 0, 1, 1000, [.const sisso (-10)], none⟩, .gibbs ⟨2, 0, 1, 1000, [.const sisso (-10)], none⟩,
      .interp 3 (-20 - 1 / 500) 1000], -6 - 1 / 500, -20 - 1 / 500, ?_⟩
  decide +kernel

/-- **C79, violated**: a requested formula with experimental data up to 500 K vanishes when the entries are filtered at 300 K and then
converted to 1000 K. -/
theorem C79_dropped_violated : ∃ (base : ℚ → Except Err (List (Ent ℕ))) (s : Settings ℕ), 3 ∈ s.formulas ∧
    (∃ es e, base s.first = .ok es ∧ e ∈ es ∧ e.form toyW = 3) ∧
    processEntries toyW base toyPds toyHull (fun _ _ => .ok 0) s = .ok [] :=
  ⟨fun t => (experInit toyW.table toyW.deprecated 3 t []).map fun e => [.exper e], ⟨1000, some 300, 0, false, [3], false⟩,
    by decide, ⟨[.exper ⟨3, 300, -5, []⟩], .exper ⟨3, 300, -5, []⟩, by decide +kernel⟩, by decide +kernel⟩

/-- The hypotheses of the theorems above hold for this data source. -/
example : ∃ r, processEntries toyW toyBase toyPds toyHull (fun _ _ => .ok (1 / 7)) ⟨1000, some 300, 0, false, [3, 1], true⟩ = .ok r ∧
    r.length = 3 ∧ Ent.gibbs ⟨1, 0, 1, 1000, [.const sisso (-10)], some (1 / 7)⟩ ∈ r :=
  ⟨[.gibbs ⟨1, 0, 1, 1000, [.const sisso (-10)], some (1 / 7)⟩, .gibbs ⟨2, 0, 1, 1000, [.const sisso (-10)], some (1 / 7)⟩,
      .interp 3 (-6 - 1 / 500) 300], by decide +kernel⟩

example : Converts (⟨1000, some 300, 0, false, [3], false⟩ : Settings ℕ) := ⟨300, rfl, by decide +kernel⟩

theorem toyBase_temp (t : ℚ) (es : List (Ent ℕ)) (h : toyBase t = .ok es) : es ≠ [] ∧ ∀ e ∈ es, e.temp? = some t := by
  unfold toyBase at h
  rw [Exc.bind_ok] at h; obtain ⟨a, ha, h⟩ := h
  rw [Exc.bind_ok] at h; obtain ⟨b, hb, h⟩ := h
  cases h
  obtain ⟨-, -, g, -, rfl⟩ := EntryTemp.gibbsInit_ok _ _ _ _ _ _ _ _ ha
  obtain ⟨-, -, g', -, rfl⟩ := EntryTemp.gibbsInit_ok _ _ _ _ _ _ _ _ hb
  simp [Ent.temp?]

/-- C82: a known formula, an interpolated one and one with a foreign element. -/
example : initializeEntry toyW toyHull [.interp 1 (-3) 0, .interp 1 (-4) 0, .interp 2 (-1) 0] 1 = .ok (.interp 1 (-4) 0) ∧
    initializeEntry toyW toyHull [.interp 1 (-3) 0, .interp 2 (-1) 0] 3 = .ok (.interp 3 (-4 - 1 / 500) 0) ∧
    initializeEntry toyW toyHull [.interp 1 (-3) 0] 3 = .error .valueError := by decide +kernel

/-- Amounts of the two elements. -/
def toyVec (c : ℕ) (x : Fin 2) : ℚ := if c = 3 then 1 else if (c = 2) = (x = 1) then 1 else 0

example : (∀ c x, 0 ≤ toyVec c x) ∧ (∀ c, ∃ x, 0 < toyVec c x) ∧ ∀ c, 0 ≤ toyW.thermo.atoms c := by
  refine ⟨fun c x => ?_, fun c => ?_, fun c => ?_⟩
  · unfold toyVec; split_ifs <;> norm_num
  · by_cases h : c = 2
    · exact ⟨1, by simp [toyVec, h]⟩
    · exact ⟨0, by simp only [toyVec, h]; split_ifs <;> simp_all⟩
  · simp only [toyW]; split_ifs <;> norm_num

example := C81_contents toyW toyBase toyPds toyHull (fun _ _ => .ok (1 / 7)) ⟨1000, some 300, 0, false, [3, 1], true⟩
  [.gibbs ⟨1, 0, 1, 1000, [.const sisso (-10)], some (1 / 7)⟩, .gibbs ⟨2, 0, 1, 1000, [.const sisso (-10)], some (1 / 7)⟩,
    .interp 3 (-6 - 1 / 500) 300] (by decide +kernel)
example := C82_known toyW toyHull [.interp 1 (-3) 0, .interp 1 (-4) 0, .interp 2 (-1) 0] 1 ⟨.interp 1 (-3) 0, by simp, rfl⟩
example := C79_included_partial toyW toyBase toyPds toyHull (fun _ _ => .ok (1 / 7)) ⟨1000, none, 0, false, [3, 1], false⟩
  [.gibbs ⟨1, 0, 1, 1000, [.const sisso (-10)], none⟩, .gibbs ⟨2, 0, 1, 1000, [.const sisso (-10)], none⟩, .interp 3 (-20 - 1 / 500) 1000]
  (by decide +kernel) 3 (by decide) (fun ⟨_, h, _⟩ => by cases h)
example := C80_temperature_partial toyW toyBase toyPds toyHull (fun _ _ => .ok (1 / 7)) ⟨1000, some 300, 0, false, [3, 1], true⟩
  [.gibbs ⟨1, 0, 1, 1000, [.const sisso (-10)], some (1 / 7)⟩, .gibbs ⟨2, 0, 1, 1000, [.const sisso (-10)], some (1 / 7)⟩,
    .interp 3 (-6 - 1 / 500) 300] toyBase_temp
  (fun es pd h p hp e he => by cases h; rw [List.mem_singleton.mp hp] at he; exact he) (by decide +kernel)
  (.interp 3 (-6 - 1 / 500) 300) (by simp)

end Verif.Props.EntryFlow
