import Verif.Model.Minimize
import Verif.Props.EnumGroup
import Verif.Props.EntrySet
import Verif.Props.Balance
import Mathlib.Data.List.ReduceOption

/-! C90 and C91: the minimization enumerators. -/

namespace Verif.Props.Minimize
open Verif.Py Verif.Model Verif.Model.Enum Verif.Model.Minimize Verif.Lemmas Verif.Lemmas.Exc Verif.Props.Enum Verif.Props.EnumGroup

variable {η τ : Type} [DecidableEq η]

/-! ### The phase diagram pre-loop -/

theorem fold_ok (item : List Char → Except Err τ) (f : List Char → τ) (chunk : List (Option (List Char))) :
    ∀ d : List (List Char × τ), (∀ k, some k ∈ chunk → item k = .ok (f k)) →
    chunk.foldlM (pdStep item) d = .ok ((chunk.reduceOption.map fun k => (k, f k)).foldl (fun d p => dictSet d p.1 p.2) d) := by
  induction chunk with
  | nil => intro d _; rfl
  | cons a l ih =>
    intro d h
    rw [List.foldlM_cons]
    cases a with
    | none =>
      show l.foldlM (pdStep item) d = _
      rw [ih d fun k hk => h k (List.mem_cons_of_mem _ hk)]
      rfl
    | some k =>
      have hk : pdStep item d (some k) = .ok (dictSet d k (f k)) := by
        show (item k).map _ = _
        rw [h k List.mem_cons_self]; rfl
      rw [hk]
      show l.foldlM (pdStep item) (dictSet d k (f k)) = _
      rw [ih _ fun k hk => h k (List.mem_cons_of_mem _ hk)]
      rfl

theorem fold_all (item : List Char → Except Err τ) (chunk : List (Option (List Char))) :
    ∀ d d' : List (List Char × τ), chunk.foldlM (pdStep item) d = .ok d' → ∀ k, some k ∈ chunk → ∃ t, item k = .ok t := by
  induction chunk with
  | nil => intro d d' _ k hk; simp at hk
  | cons a l ih =>
    intro d d' h k hk
    rw [List.foldlM_cons, bind_ok] at h
    obtain ⟨d1, h1, h2⟩ := h
    rcases List.mem_cons.mp hk with rfl | hk
    · simp only [pdStep, map_ok] at h1
      obtain ⟨t, ht, -⟩ := h1
      exact ⟨t, ht⟩
    · exact ih _ _ h2 k hk

theorem update_get (f : List Char → τ) (pairs : List (List Char × τ)) (hp : ∀ p ∈ pairs, p.2 = f p.1) :
    ∀ (d : List (List Char × τ)) (k : List Char), dictGet (pairs.foldl (fun d p => dictSet d p.1 p.2) d) k =
      if k ∈ pairs.map Prod.fst then some (f k) else dictGet d k := by
  induction pairs with
  | nil => intro d k; rfl
  | cons a l ih =>
    intro d k
    rw [List.foldl_cons, ih (fun p hp' => hp p (List.mem_cons_of_mem _ hp')), Dict.dictGet_dictSet, List.map_cons]
    have ha := hp a List.mem_cons_self
    by_cases h1 : k ∈ l.map Prod.fst
    · rw [if_pos h1, if_pos (List.mem_cons_of_mem _ h1)]
    · rw [if_neg h1]
      by_cases h2 : a.1 = k
      · rw [if_pos h2, if_pos (by rw [h2]; exact List.mem_cons_self), ha, h2]
      · rw [if_neg h2, if_neg]
        rintro h
        rcases List.mem_cons.mp h with h | h
        · exact h2 h.symm
        · exact h1 h

theorem mem_chunks (keys : List (List Char)) (cpus : ℕ) (k : List Char) :
    (∃ c ∈ pdChunks keys cpus, some k ∈ c) ↔ k ∈ keys := by
  have h := Verif.Props.Utils.C31_grouper (keys.map some) (keys.length / cpus + 1) (Nat.succ_pos _) none
  obtain ⟨m, -, h, -⟩ := h
  rw [← List.mem_flatten]
  show some k ∈ (Utils.grouper (keys.map some) (keys.length / cpus + 1) none).flatten ↔ _
  rw [h, List.mem_append, List.mem_map]
  simp [List.mem_replicate]

/-- **C90, phase diagrams.** For every number of CPUs and every completion order of the tasks, the table built by the pre-loop has, for
every chemical system, exactly what the item function gives for that system; the pre-loop fails iff some item fails. -/
theorem C90_pds (item : List Char → Except Err τ) (cpus : ℕ) (hc : 0 < cpus)
    (wait : ℕ → List (List (Option (List Char))) → List (List (Option (List Char))) × List (List (Option (List Char))))
    (hw : Verif.Props.Utils.WaitSpec wait) (keys : List (List Char)) :
    (∀ f : List Char → τ, (∀ k ∈ keys, item k = .ok (f k)) → ∃ d, pdDict item cpus wait keys = .ok d ∧
      (∀ k ∈ keys, dictGet d k = some (f k)) ∧ ∀ k ∉ keys, dictGet d k = none) ∧
    (∀ d, pdDict item cpus wait keys = .ok d → ∀ k ∈ keys, ∃ t, item k = .ok t) ∧
    ∀ e, pdDict item cpus wait keys = .error e → ∃ k ∈ keys, item k = .error e := by
  have hne : cpus ≠ 0 := hc.ne'
  refine ⟨?_, ?_, ?_⟩
  · intro f hf
    obtain ⟨outs, h1, h2⟩ := Verif.Props.Utils.C32_all_results_once (pdChunk item)
      (fun c => dictOf (c.reduceOption.map fun k => (k, f k))) wait hw (pdChunks keys cpus)
      (fun c hcm => fold_ok item f c [] fun k hk => hf k ((mem_chunks keys cpus k).mp ⟨c, hcm, hk⟩)) 0
    refine ⟨_, by unfold pdDict; rw [if_neg hne, h1], ?_⟩
    have hfl : outs.foldl (fun d o => o.foldl (fun d p => dictSet d p.1 p.2) d) []
        = outs.flatten.foldl (fun d p => dictSet d p.1 p.2) ([] : List (List Char × τ)) := by
      rw [List.foldl_flatten]
    have hmem : ∀ o ∈ outs, ∃ c ∈ pdChunks keys cpus, o = dictOf (c.reduceOption.map fun k => (k, f k)) := by
      intro o ho
      obtain ⟨c, hcm, rfl⟩ := List.mem_map.mp (h2.mem_iff.mp ho)
      exact ⟨c, hcm, rfl⟩
    have hval : ∀ p ∈ outs.flatten, p.2 = f p.1 := by
      intro p hp
      obtain ⟨o, ho, hp⟩ := List.mem_flatten.mp hp
      obtain ⟨c, -, rfl⟩ := hmem o ho
      obtain ⟨k, -, rfl⟩ := List.mem_map.mp (Dict.mem_dictOf _ _ hp)
      rfl
    have hkeys : ∀ k, k ∈ outs.flatten.map Prod.fst ↔ k ∈ keys := by
      intro k
      rw [← mem_chunks keys cpus k, List.map_flatten, List.mem_flatten]
      constructor
      · rintro ⟨l, hl, hk⟩
        obtain ⟨o, ho, rfl⟩ := List.mem_map.mp hl
        obtain ⟨c, hcm, rfl⟩ := hmem o ho
        rw [Dict.mem_keys_dictOf, List.map_map] at hk
        obtain ⟨k', hk', rfl⟩ := List.mem_map.mp hk
        exact ⟨c, hcm, (List.reduceOption_mem_iff).mp hk'⟩
      · rintro ⟨c, hcm, hk⟩
        refine ⟨(dictOf (c.reduceOption.map fun k => (k, f k))).map Prod.fst, ?_, ?_⟩
        · exact List.mem_map_of_mem (h2.mem_iff.mpr (List.mem_map.mpr ⟨c, hcm, rfl⟩))
        · rw [Dict.mem_keys_dictOf, List.map_map]
          exact List.mem_map.mpr ⟨k, (List.reduceOption_mem_iff).mpr hk, rfl⟩
    refine ⟨fun k hk => ?_, fun k hk => ?_⟩
    · rw [hfl, update_get f _ hval, if_pos ((hkeys k).mpr hk)]
    · rw [hfl, update_get f _ hval, if_neg fun h => hk ((hkeys k).mp h)]; rfl
  · intro d h k hk
    unfold pdDict at h
    rw [if_neg hne] at h
    obtain ⟨out, err, consumed, rest, h1, h2, h3, h4, -⟩ := Verif.Props.Utils.C32_failure (pdChunk item) wait hw (pdChunks keys cpus) 0
    rw [h1] at h
    cases err with
    | some e => simp at h
    | none =>
      rw [h4 rfl, List.append_nil] at h2
      obtain ⟨c, hcm, hkc⟩ := (mem_chunks keys cpus k).mpr hk
      have : pdChunk item c ∈ consumed.map (pdChunk item) := List.mem_map_of_mem (h2.mem_iff.mpr hcm)
      rw [h3] at this
      obtain ⟨o, -, ho⟩ := List.mem_map.mp this
      exact fold_all item c [] o ho.symm k hkc
  · intro e h
    unfold pdDict at h
    rw [if_neg hne] at h
    obtain ⟨out, err, consumed, rest, h1, h2, h3, h4, h5⟩ := Verif.Props.Utils.C32_failure (pdChunk item) wait hw (pdChunks keys cpus) 0
    rw [h1] at h
    cases err with
    | none => simp at h
    | some e' =>
      simp only [Except.error.injEq] at h
      obtain ⟨c, hcr, hce⟩ := h5 e' rfl
      have hcm : c ∈ pdChunks keys cpus := h2.mem_iff.mp (List.mem_append_right _ hcr)
      rw [h] at hce
      by_contra hno
      push Not at hno
      have : ∀ (l : List (Option (List Char))) d, (∀ k, some k ∈ l → k ∈ keys) → l.foldlM (pdStep item) d ≠ .error e := by
        intro l
        induction l with
        | nil => intro d _ h; cases h
        | cons a l ih =>
          intro d hl h
          rw [List.foldlM_cons] at h
          cases hs : pdStep item d a with
          | ok d1 =>
            rw [hs] at h
            exact ih d1 (fun k hk => hl k (List.mem_cons_of_mem _ hk)) h
          | error e1 =>
            rw [hs] at h
            have h : e1 = e := by injection h
            subst h
            cases a with
            | none => cases hs
            | some k =>
              have hk := hno k (hl k List.mem_cons_self)
              simp only [pdStep] at hs
              cases hi : item k with
              | ok t => rw [hi] at hs; cases hs
              | error e2 =>
                rw [hi] at hs
                have hs : e2 = e1 := by injection hs
                rw [hs] at hi
                exact hk hi
      exact this c [] (fun k hk => (mem_chunks keys cpus k).mp ⟨c, hcm, hk⟩) hce

/-! ### The whole run -/

/-- The element condition on a chemical system, stated on its elements: it contains the requested filter system, has more than one and
fewer than ten elements, and is contained in (or, for the inclusive setting, shares an element with) the elements of the precursors
and the open phases, likewise for the targets. -/
def SysOk (elems : η → List Sym) (cfg : Cfg η) (E : List Sym) : Prop :=
  (cfg.filterChemsys ≠ [] → ∀ f ∈ cfg.filterChemsys.splitOn '-', f ∈ E) ∧
  (E.dedup.length < 10 ∧ E.dedup.length ≠ 1) ∧
  (cfg.precursors ≠ [] →
    (cfg.exclP = true → ∀ a ∈ E, ∃ e ∈ cfg.precursors ++ cfg.openEntries, a ∈ elems e) ∧
    (cfg.exclP = false → ∃ a ∈ E, ∃ e ∈ cfg.precursors ++ cfg.openEntries, a ∈ elems e)) ∧
  (cfg.targets ≠ [] →
    (cfg.exclT = true → ∀ a ∈ E, ∃ e ∈ cfg.targets ++ cfg.openEntries, a ∈ elems e) ∧
    (cfg.exclT = false → ∃ a ∈ E, ∃ e ∈ cfg.targets ++ cfg.openEntries, a ∈ elems e))

omit [DecidableEq η] in
theorem keepSys_iff (elems : η → List Sym) (cfg : Cfg η) (key : List Char) (E : List Sym)
    (hE : ∀ s, s ∈ key.splitOn '-' ↔ s ∈ E) : keepSys elems cfg key = true ↔ SysOk elems cfg E := by
  have hd : ∀ s, s ∈ (key.splitOn '-').dedup ↔ s ∈ E := fun s => by rw [List.mem_dedup, hE]
  have hl : (key.splitOn '-').dedup.length = E.dedup.length :=
    ((List.perm_ext_iff_of_nodup (List.nodup_dedup _) (List.nodup_dedup _)).mpr fun s => by rw [hd, List.mem_dedup]).length_eq
  have hfun : ∀ (b : Bool) (l : List η), setFunc b (l.flatMap elems ++ cfg.openEntries.flatMap elems) (key.splitOn '-').dedup = true ↔
      (b = true → ∀ a ∈ E, ∃ e ∈ l ++ cfg.openEntries, a ∈ elems e) ∧
      (b = false → ∃ a ∈ E, ∃ e ∈ l ++ cfg.openEntries, a ∈ elems e) := by
    intro b l
    rw [setFunc_iff, ← List.flatMap_append]
    simp only [hd, List.mem_flatMap]
  unfold keepSys SysOk
  simp only [hl]
  have hf : (∀ f ∈ cfg.filterChemsys.splitOn '-', f ∈ (key.splitOn '-').dedup) ↔ ∀ f ∈ cfg.filterChemsys.splitOn '-', f ∈ E := by
    simp only [hd]
  rw [← hfun cfg.exclP cfg.precursors, ← hfun cfg.exclT cfg.targets]
  simp only [hf]
  split_ifs with h1 h2 h3 h4
  · exact ⟨fun h => (by simp at h), fun h => absurd (h.1 h1.1) h1.2⟩
  · exact ⟨fun h => (by simp at h), fun h => by omega⟩
  · exact ⟨fun h => (by simp at h), fun h => absurd (h.2.2.1 h3.1) h3.2⟩
  · exact ⟨fun h => (by simp at h), fun h => absurd (h.2.2.2 h4.1) h4.2⟩
  · refine ⟨fun _ => ⟨?_, by omega, ?_, ?_⟩, fun _ => rfl⟩
    · intro a; by_contra hb; exact h1 ⟨a, hb⟩
    · intro a; by_contra hb; exact h3 ⟨a, hb⟩
    · intro a; by_contra hb; exact h4 ⟨a, hb⟩

/-- The elements of a candidate together with those of the open phases. -/
def sysElems (elems : η → List Sym) (cfg : Cfg η) (c : List η) : List Sym := c.flatMap elems ++ cfg.openEntries.flatMap elems

/-- The candidates: one or more non-open phases (at most `n`) in an admissible chemical system. -/
def Cand (elems : η → List Sym) (cfg : Cfg η) (entries : List η) (n : ℤ) (c : List η) : Prop :=
  c.Sublist (entries.filter fun e => e ∉ cfg.openEntries) ∧ c ≠ [] ∧ (c.length : ℤ) ≤ n ∧ SysOk elems cfg (sysElems elems cfg c)

/-- The result of one candidate on its own: the phase diagrams of its own chemical system, then its reactions. -/
def alone (elems : η → List Sym) (cfg : Cfg η) (item : List Char → Except Err τ)
    (react : List η → List η → τ → Except Err (List (Rx η))) (c : List η) : Except Err (List (Rx η)) := do
  let t ← item (chemsysKey elems c (cfg.openEntries.flatMap elems))
  reactPair cfg react (c, []) t

/-- Well-formed entries: duplicate-free, every entry has an element, no dash in a symbol. -/
structure Good (elems : η → List Sym) (cfg : Cfg η) (entries : List η) : Prop where
  nodup : entries.Nodup
  nonempty : ∀ e ∈ entries, elems e ≠ []
  dash : ∀ e, (e ∈ entries ∨ e ∈ cfg.openEntries) → ∀ s ∈ elems e, '-' ∉ s

theorem split_cand (elems : η → List Sym) (cfg : Cfg η) (entries : List η) (g : Good elems cfg entries) (c : List η)
    (hc : c.Sublist (entries.filter fun e => e ∉ cfg.openEntries)) (hne : c ≠ []) (s : Sym) :
    s ∈ (chemsysKey elems c (cfg.openEntries.flatMap elems)).splitOn '-' ↔ s ∈ sysElems elems cfg c := by
  have hsub : ∀ e ∈ c, e ∈ entries := fun e he => (List.mem_filter.mp (hc.subset he)).1
  apply mem_split_key
  · intro s hs
    rcases List.mem_append.mp hs with hs | hs
    · obtain ⟨e, he, hs⟩ := List.mem_flatMap.mp hs
      exact g.dash e (Or.inl (hsub e he)) s hs
    · obtain ⟨e, he, hs⟩ := List.mem_flatMap.mp hs
      exact g.dash e (Or.inr he) s hs
  · obtain ⟨e, l, rfl⟩ := List.exists_cons_of_ne_nil hne
    obtain ⟨s, l', h⟩ := List.exists_cons_of_ne_nil (g.nonempty e (hsub e List.mem_cons_self))
    intro h0
    have : s ∈ els elems (e :: l) (cfg.openEntries.flatMap elems) :=
      List.mem_append_left _ (List.mem_flatMap.mpr ⟨e, List.mem_cons_self, by rw [h]; exact List.mem_cons_self⟩)
    rw [h0] at this
    cases this

theorem cands_spec (elems : η → List Sym) (cfg : Cfg η) (entries : List η) (n : ℤ) (g : Good elems cfg entries) :
    let d := filterDict elems cfg (combosDict elems entries cfg.openEntries n)
    (d.flatMap Prod.snd).Nodup ∧ (∀ c, c ∈ d.flatMap Prod.snd ↔ Cand elems cfg entries n c) ∧
    (∀ p ∈ d, ∀ c ∈ p.2, chemsysKey elems c (cfg.openEntries.flatMap elems) = p.1) ∧
    (∀ p ∈ d, p.2 ≠ []) := by
  intro d
  have hn : (entries.filter fun e => e ∉ cfg.openEntries).Nodup := g.nodup.filter _
  have hkey : ∀ p ∈ d, (p.2 = (Utils.limitedPowerset (entries.filter fun e => e ∉ cfg.openEntries) n).filter
      fun c => chemsysKey elems c (cfg.openEntries.flatMap elems) = p.1) ∧ p.2 ≠ [] ∧ keepSys elems cfg p.1 = true := by
    intro p hp
    obtain ⟨h1, h2⟩ := List.mem_filter.mp hp
    obtain ⟨h3, h4⟩ := (mem_group elems _ _ p).mp h1
    exact ⟨h3, h4, h2⟩
  have hk : ∀ p ∈ d, ∀ c ∈ p.2, chemsysKey elems c (cfg.openEntries.flatMap elems) = p.1 := by
    intro p hp c hc
    rw [(hkey p hp).1] at hc
    simpa using (List.mem_filter.mp hc).2
  refine ⟨?_, ?_, hk, fun p hp => (hkey p hp).2.1⟩
  · rw [List.nodup_flatMap]
    refine ⟨fun p hp => ?_, ?_⟩
    · rw [(hkey p hp).1]
      exact (nodup_powerset _ hn n).filter _
    · have hdn : (d.map Prod.fst).Nodup := by
        have := nodup_group elems (Utils.limitedPowerset (entries.filter fun e => e ∉ cfg.openEntries) n) (cfg.openEntries.flatMap elems)
        exact this.sublist (List.filter_sublist.map _)
      have hpw : d.Pairwise fun a b => a.1 ≠ b.1 := List.pairwise_map.mp hdn
      refine List.Pairwise.imp_of_mem ?_ hpw
      intro a b ha hb hab c hca hcb
      exact hab ((hk a ha c hca).symm.trans (hk b hb c hcb))
  · intro c
    rw [List.mem_flatMap]
    constructor
    · rintro ⟨p, hp, hc⟩
      have hkc := hk p hp c hc
      obtain ⟨h1, -, h3⟩ := hkey p hp
      rw [h1] at hc
      obtain ⟨hs, hne, hlen⟩ := (Verif.Props.Utils.C30_mem _ _ _).mp (List.mem_filter.mp hc).1
      refine ⟨hs, hne, hlen, ?_⟩
      rw [← hkc] at h3
      exact (keepSys_iff elems cfg _ _ (split_cand elems cfg entries g c hs hne)).mp h3
    · rintro ⟨hs, hne, hlen, hok⟩
      have hc := (Verif.Props.Utils.C30_mem _ _ _).mpr ⟨hs, hne, hlen⟩
      have hcf : c ∈ (Utils.limitedPowerset (entries.filter fun e => e ∉ cfg.openEntries) n).filter
          fun x => chemsysKey elems x (cfg.openEntries.flatMap elems) = chemsysKey elems c (cfg.openEntries.flatMap elems) :=
        List.mem_filter.mpr ⟨hc, by simp⟩
      refine ⟨(chemsysKey elems c (cfg.openEntries.flatMap elems), _), List.mem_filter.mpr ⟨?_, ?_⟩, hcf⟩
      · exact (mem_group elems _ _ _).mpr ⟨rfl, List.ne_nil_of_mem hcf⟩
      · exact (keepSys_iff elems cfg _ _ (split_cand elems cfg entries g c hs hne)).mpr hok

theorem forall2_left {α β : Type} {R : α → β → Prop} {l : List α} {r : List β} (h : l.Forall₂ R r) : ∀ a ∈ l, ∃ b ∈ r, R a b := by
  induction h with
  | nil => intro a ha; cases ha
  | cons h1 _ ih =>
    intro a ha
    rcases List.mem_cons.mp ha with rfl | ha
    · exact ⟨_, List.mem_cons_self, h1⟩
    · obtain ⟨b, hb, hr⟩ := ih a ha
      exact ⟨b, List.mem_cons_of_mem _ hb, hr⟩

theorem effSize_ok (chunkSize maxJobs total : ℕ) (h1 : 0 < chunkSize) (h2 : 0 < maxJobs) :
    ∃ size, effSize chunkSize maxJobs total = .ok size := by
  unfold effSize
  rw [if_neg h1.ne', if_neg h2.ne']
  split_ifs <;> exact ⟨_, rfl⟩

theorem effSize_pos (chunkSize maxJobs total size : ℕ) (h : effSize chunkSize maxJobs total = .ok size) : 0 < size := by
  unfold effSize at h
  split_ifs at h with h1 h2 h3
  · rw [← Except.ok.inj h]; exact Nat.succ_pos _
  · rw [← Except.ok.inj h]; exact Nat.pos_of_ne_zero h1

theorem runChunks_error (cfg : Cfg η) (react : List η → List η → τ → Except Err (List (Rx η)))
    (wait : ℕ → List (Chunk (List η × List η) τ) → List (Chunk (List η × List η) τ) × List (Chunk (List η × List η) τ))
    (hw : Verif.Props.Utils.WaitSpec wait) (size : ℕ) (hs : 0 < size) (items : List (List (List η × List η) × τ)) (e : Err)
    (h : runChunks cfg react wait (buildChunks size items) = .error e) :
    ∃ x ∈ items.flatMap (fun it => it.1.map fun r => (r, it.2)), reactPair cfg react x.1 x.2 = .error e := by
  rw [← C33_lossless size hs items]
  obtain ⟨out, err, consumed, rest, h1, h2, -, -, h5⟩ :=
    Verif.Props.Utils.C32_failure (reactChunk cfg react) wait hw (buildChunks size items) 0
  unfold runChunks at h
  rw [h1] at h
  cases err with
  | none => simp at h
  | some e' =>
    simp only [Except.error.injEq] at h
    subst h
    obtain ⟨c, hc, hce⟩ := h5 e' rfl
    have hcm : c ∈ buildChunks size items := h2.mem_iff.mp (List.mem_append_right _ hc)
    have hmap : ∀ {α : Type} (x : Except Err (List (List α))), x.map List.flatten = .error e' → x = .error e' := by
      intro α x hx
      cases x with
      | ok v => cases hx
      | error e1 => injection hx with hx; rw [hx]
    obtain ⟨s, hsm, hse⟩ := mapM_error _ _ _ (hmap _ hce)
    obtain ⟨r, hr, hre⟩ := mapM_error _ _ _ (hmap _ hse)
    exact ⟨(r, s.2), List.mem_flatMap.mpr ⟨c, hcm, List.mem_flatMap.mpr ⟨s, hsm, List.mem_map.mpr ⟨r, hr, rfl⟩⟩⟩, hre⟩

/-- **C90.** For every entry set, every number of CPUs, every chunk size and job limit and every two completion orders of the tasks:
there is a duplicate-free list of exactly the candidates (single phases and pairs for `n = 2`), such that the run succeeds iff every
candidate succeeds on its own, and then returns exactly the reactions the candidates give on their own, each candidate once; an error
is an error of some candidate. Missing for the full claim: candidates with a single element or ten and more elements are skipped
(`C90_skipped_violated`). -/
theorem C90_run_partial [Inhabited τ] (elems : η → List Sym) (cfg : Cfg η) (entries : List η) (n : ℤ) (g : Good elems cfg entries)
    (item : List Char → Except Err τ) (cpus : ℕ) (hcpu : 0 < cpus)
    (waitPd : ℕ → List (List (Option (List Char))) → List (List (Option (List Char))) × List (List (Option (List Char))))
    (hwp : Verif.Props.Utils.WaitSpec waitPd) (chunkSize maxJobs : ℕ) (hcs : 0 < chunkSize) (hmj : 0 < maxJobs)
    (react : List η → List η → τ → Except Err (List (Rx η)))
    (wait : ℕ → List (Chunk (List η × List η) τ) → List (Chunk (List η × List η) τ) × List (Chunk (List η × List η) τ))
    (hw : Verif.Props.Utils.WaitSpec wait) :
    ∃ cands : List (List η), cands.Nodup ∧ (∀ c, c ∈ cands ↔ Cand elems cfg entries n c) ∧
      (∀ out, enumerateMin elems cfg entries n item cpus waitPd chunkSize maxJobs react wait = .ok out →
        ∃ rs, cands.Forall₂ (fun c r => alone elems cfg item react c = .ok r) rs ∧ out.Perm rs.flatten) ∧
      (∀ rs, cands.Forall₂ (fun c r => alone elems cfg item react c = .ok r) rs →
        ∃ out, enumerateMin elems cfg entries n item cpus waitPd chunkSize maxJobs react wait = .ok out ∧ out.Perm rs.flatten) ∧
      (∀ e, enumerateMin elems cfg entries n item cpus waitPd chunkSize maxJobs react wait = .error e →
        ∃ c ∈ cands, alone elems cfg item react c = .error e) := by
  obtain ⟨hnd, hmem, hkey, hnonempty⟩ := cands_spec elems cfg entries n g
  set d := filterDict elems cfg (combosDict elems entries cfg.openEntries n) with hd
  obtain ⟨hp1, hp2, hp3⟩ := C90_pds item cpus hcpu waitPd hwp (d.map Prod.fst)
  refine ⟨d.flatMap Prod.snd, hnd, hmem, ?_⟩
  -- the run, given that all items succeed
  have hrun : ∀ f : List Char → τ, (∀ k ∈ d.map Prod.fst, item k = .ok (f k)) → ∃ size, 0 < size ∧
      enumerateMin elems cfg entries n item cpus waitPd chunkSize maxJobs react wait
        = runChunks cfg react wait (buildChunks size (d.map fun p => (pairsMin p.2, f p.1))) := by
    intro f hf
    obtain ⟨pds, h1, h2, -⟩ := hp1 f hf
    obtain ⟨size, hs⟩ := effSize_ok chunkSize maxJobs (totalLen (fun c => c.length) d) hcs hmj
    refine ⟨size, effSize_pos _ _ _ _ hs, ?_⟩
    have hm : d.mapM (itemMin pds) = .ok (d.map fun p => (pairsMin p.2, f p.1)) := by
      apply mapM_eq_map
      intro p hp
      unfold itemMin lookup
      rw [h2 p.1 (List.mem_map_of_mem hp)]
      rfl
    unfold enumerateMin
    simp only [← hd, h1, hs]
    show (do let items ← d.mapM (itemMin pds); runChunks cfg react wait (buildChunks size items)) = _
    rw [hm]
    rfl
  have hser : ∀ f : List Char → τ, (∀ k ∈ d.map Prod.fst, item k = .ok (f k)) → ∀ out,
      serial cfg react ((d.map fun p => (pairsMin p.2, f p.1)).flatMap fun it => it.1.map fun r => (r, it.2)) = .ok out ↔
      ∃ rs, (d.flatMap Prod.snd).Forall₂ (fun c r => alone elems cfg item react c = .ok r) rs ∧ out = rs.flatten := by
    intro f hf out
    have hc : ((d.map fun p => (pairsMin p.2, f p.1)).flatMap fun it => it.1.map fun r => (r, it.2))
        = (d.flatMap Prod.snd).map fun c => ((c, ([] : List η)), f (chemsysKey elems c (cfg.openEntries.flatMap elems))) := by
      rw [List.flatMap_map, List.map_flatMap]
      apply List.flatMap_congr
      intro p hp
      unfold pairsMin
      rw [List.map_map]
      apply List.map_congr_left
      intro c hc
      show _ = _
      rw [hkey p hp c hc]; rfl
    unfold serial
    rw [hc, mapM_map, map_ok]
    have hal : ∀ c ∈ d.flatMap Prod.snd, alone elems cfg item react c
        = reactPair cfg react (c, []) (f (chemsysKey elems c (cfg.openEntries.flatMap elems))) := by
      intro c hcm
      obtain ⟨p, hp, hcp⟩ := List.mem_flatMap.mp hcm
      unfold alone
      rw [hf _ (by rw [hkey p hp c hcp]; exact List.mem_map_of_mem hp)]
      rfl
    have hmm : ((d.flatMap Prod.snd).mapM fun c => reactPair cfg react (c, []) (f (chemsysKey elems c (cfg.openEntries.flatMap elems))))
        = (d.flatMap Prod.snd).mapM (alone elems cfg item react) := by
      generalize d.flatMap Prod.snd = l at hal
      induction l with
      | nil => rfl
      | cons a l ih =>
        rw [mapM_cons, mapM_cons, hal a List.mem_cons_self, ih fun c hc => hal c (List.mem_cons_of_mem _ hc)]
    rw [hmm]
    constructor
    · rintro ⟨rs, h1, rfl⟩; exact ⟨rs, (mapM_ok _ _ _).mp h1, rfl⟩
    · rintro ⟨rs, h1, rfl⟩; exact ⟨rs, (mapM_ok _ _ _).mpr h1, rfl⟩
  have hchoose : (∀ k ∈ d.map Prod.fst, ∃ t, item k = .ok t) → ∃ f : List Char → τ, ∀ k ∈ d.map Prod.fst, item k = .ok (f k) := by
    intro h
    classical
    refine ⟨fun k => if hk : k ∈ d.map Prod.fst then (h k hk).choose else default, fun k hk => ?_⟩
    simp only [dif_pos hk]
    exact (h k hk).choose_spec
  refine ⟨?_, ?_, ?_⟩
  · intro out hout
    have hall : ∀ k ∈ d.map Prod.fst, ∃ t, item k = .ok t := by
      unfold enumerateMin at hout
      simp only [← hd] at hout
      obtain ⟨pds, h1, -⟩ := (bind_ok _ _ _).mp hout
      exact hp2 pds h1
    obtain ⟨f, hf⟩ := hchoose hall
    obtain ⟨size, hs, he⟩ := hrun f hf
    rw [he] at hout
    obtain ⟨out', h1, h2⟩ := (C33_schedule cfg react wait hw size hs _).2 out hout
    obtain ⟨rs, h3, rfl⟩ := (hser f hf out').mp h1
    exact ⟨rs, h3, h2⟩
  · intro rs hrs
    have hall : ∀ k ∈ d.map Prod.fst, ∃ t, item k = .ok t := by
      intro k hk
      obtain ⟨p, hp, rfl⟩ := List.mem_map.mp hk
      obtain ⟨c, hc⟩ := List.exists_mem_of_ne_nil _ (hnonempty p hp)
      obtain ⟨r, -, hr⟩ := forall2_left hrs c (List.mem_flatMap.mpr ⟨p, hp, hc⟩)
      obtain ⟨t, ht, -⟩ := (bind_ok _ _ _).mp hr
      rw [hkey p hp c hc] at ht
      exact ⟨t, ht⟩
    obtain ⟨f, hf⟩ := hchoose hall
    obtain ⟨size, hs, he⟩ := hrun f hf
    rw [he]
    exact (C33_schedule cfg react wait hw size hs _).1 _ ((hser f hf _).mpr ⟨rs, hrs, rfl⟩)
  · intro e hout
    by_cases hall : ∀ k ∈ d.map Prod.fst, ∃ t, item k = .ok t
    · obtain ⟨f, hf⟩ := hchoose hall
      obtain ⟨size, hs, he⟩ := hrun f hf
      rw [he] at hout
      obtain ⟨x, hx, hxe⟩ := runChunks_error cfg react wait hw size hs _ e hout
      rw [List.mem_flatMap] at hx
      obtain ⟨it, hit, hx⟩ := hx
      obtain ⟨p, hp, rfl⟩ := List.mem_map.mp hit
      obtain ⟨y, hy, rfl⟩ := List.mem_map.mp hx
      obtain ⟨c, hc, rfl⟩ := List.mem_map.mp hy
      refine ⟨c, List.mem_flatMap.mpr ⟨p, hp, hc⟩, ?_⟩
      unfold alone
      rw [hkey p hp c hc, hf p.1 (List.mem_map_of_mem hp)]
      exact hxe
    · have hpe : ∃ e', pdDict item cpus waitPd (d.map Prod.fst) = .error e' := by
        cases h : pdDict item cpus waitPd (d.map Prod.fst) with
        | ok pds => exact absurd (hp2 pds h) hall
        | error e' => exact ⟨e', rfl⟩
      obtain ⟨e', hpe⟩ := hpe
      obtain ⟨k, hk, hke⟩ := hp3 e' hpe
      have : e' = e := by
        unfold enumerateMin at hout
        simp only [← hd, hpe] at hout
        injection hout
      subst this
      obtain ⟨p, hp, rfl⟩ := List.mem_map.mp hk
      obtain ⟨c, hc⟩ := List.exists_mem_of_ne_nil _ (hnonempty p hp)
      refine ⟨c, List.mem_flatMap.mpr ⟨p, hp, hc⟩, ?_⟩
      unfold alone
      rw [hkey p hp c hc, hke]
      rfl

/-- **C90, entries of a system.** For a candidate, the references handed to its reactions are built from exactly the entries inside its own
chemical system (including the open elements); the candidate's phases are among them. The item fails only if one of the two phase
diagram constructions fails. -/
theorem C90_entries {π γ : Type} (elems : η → List Sym) (cfg : Cfg η) (entries : List η) (g : Good elems cfg entries)
    (hopen : ∀ e ∈ cfg.openEntries, e ∈ entries) (buildPd buildGrand : Bool) (mkPd : List η → Except Err π) (mkGrand : List η → Except Err γ)
    (c : List η) (hc : c.Sublist (entries.filter fun e => e ∉ cfg.openEntries)) (hne : c ≠ []) :
    ∃ sub : List η, (∀ e, e ∈ sub ↔ e ∈ entries ∧ ∀ s ∈ elems e, s ∈ sysElems elems cfg c) ∧ (∀ e ∈ c, e ∈ sub) ∧
      (∀ t, pdItem elems entries buildPd buildGrand mkPd mkGrand (chemsysKey elems c (cfg.openEntries.flatMap elems)) = .ok t ↔
        t.entries = sub ∧ (buildPd = true → ∃ p, mkPd sub = .ok p ∧ t.pd = some p) ∧ (buildPd = false → t.pd = none) ∧
        (buildGrand = true → ∃ p, mkGrand sub = .ok p ∧ t.grand = some p) ∧ (buildGrand = false → t.grand = none)) := by
  have hsplit := split_cand elems cfg entries g c hc hne
  have hsub : ∀ e ∈ c, e ∈ entries := fun e he => (List.mem_filter.mp (hc.subset he)).1
  obtain ⟨sub, h1, h2⟩ := (Verif.Props.EntrySet.C40_subset elems entries
    ((chemsysKey elems c (cfg.openEntries.flatMap elems)).splitOn '-')).1 (by
      intro s hs
      rw [hsplit] at hs
      rcases List.mem_append.mp hs with hs | hs
      · obtain ⟨e, he, hs⟩ := List.mem_flatMap.mp hs
        exact ⟨e, hsub e he, hs⟩
      · obtain ⟨e, he, hs⟩ := List.mem_flatMap.mp hs
        exact ⟨e, hopen e he, hs⟩)
  simp only [hsplit] at h2
  have hopt : ∀ {α : Type} (b : Bool) (x : Except Err α) (o : Option α), optBuild b x = .ok o ↔
      (b = true → ∃ p, x = .ok p ∧ o = some p) ∧ (b = false → o = none) := by
    intro α b x o
    unfold optBuild
    cases b
    · simp [eq_comm]
    · simp only [if_true, map_ok, true_imp_iff, Bool.true_eq_false, false_imp_iff, and_true]
      constructor
      · rintro ⟨a, h, rfl⟩; exact ⟨a, h, rfl⟩
      · rintro ⟨a, h, rfl⟩; exact ⟨a, h, rfl⟩
  refine ⟨sub, h2, fun e he => (h2 e).mpr ⟨hsub e he, fun s hs =>
    List.mem_append_left _ (List.mem_flatMap.mpr ⟨e, he, hs⟩)⟩, fun t => ?_⟩
  unfold pdItem Entries.subsetInChemsysStr
  rw [h1]
  show ((optBuild buildPd (mkPd sub)) >>= fun pd => (optBuild buildGrand (mkGrand sub)) >>= fun gr => Except.ok (Tag.mk sub pd gr)) = _ ↔ _
  simp only [bind_ok, hopt]
  constructor
  · rintro ⟨pd, ⟨a1, a2⟩, gr, ⟨b1, b2⟩, h⟩
    rw [← Except.ok.inj h]
    exact ⟨rfl, a1, a2, b1, b2⟩
  · rintro ⟨e1, a1, a2, b1, b2⟩
    exact ⟨t.pd, ⟨a1, a2⟩, t.grand, ⟨b1, b2⟩, by rw [← e1]⟩

/-! Example and the skipped systems. -/

section examples

/-- Three entries of two elements: an oxide, a metal and oxygen. -/
def exElems : ℕ → List Sym
  | 0 => [['B', 'a'], ['O']]
  | 1 => [['B', 'a']]
  | 2 => [['O']]
  | _ => [['O']]

/-- No settings. -/
def exCfg : Cfg ℕ := ⟨[], [], [], true, false, true, true, 1, []⟩

/-- A wait that returns the last reference. -/
def exWait {ι : Type} (_ : ℕ) (l : List ι) : List ι × List ι := (l.getLast?.toList, l.dropLast)

theorem exWait_spec {ι : Type} : Verif.Props.Utils.WaitSpec (exWait (ι := ι)) := by
  intro t refs h
  refine ⟨refs.getLast h, by unfold exWait; simp [List.getLast?_eq_some_getLast h], ?_⟩
  unfold exWait
  conv_rhs => rw [← List.dropLast_append_getLast h]
  exact (List.perm_append_comm (l₁ := [refs.getLast h]))

example : Good exElems exCfg [0, 1, 2] where
  nodup := by decide
  nonempty := by decide
  dash := by
    intro e he
    rcases he with he | he
    · revert e; decide
    · cases he

/-- a reaction that records its system's entries in the `nc` field -/
def exReact (r _ : List ℕ) (t : Tag ℕ ℕ ℕ) : Except Err (List (Rx ℕ)) :=
  .ok [⟨false, true, some 0, some 1, r, t.entries⟩]

example : (enumerateMin exElems exCfg [0, 1, 2] 2
      (pdItem exElems [0, 1, 2] true false (fun l => .ok l.length) (fun _ => .ok 0)) 2 exWait 1 10 exReact exWait).map
        (fun l => l.map fun x => (x.reactants, x.products))
    = .ok [([1, 2], [0, 1, 2]), ([0, 2], [0, 1, 2]), ([0, 1], [0, 1, 2]), ([0], [0, 1, 2])] := by decide +kernel

/-- **C90 violated.** Phases of a single element are never considered, alone or paired: here the two polymorphs of oxygen give no
candidate, although a run on the same entries processed one at a time would suggest a reaction for them. -/
theorem C90_skipped_violated :
    enumerateMin exElems exCfg [2, 3] 2
      (pdItem exElems [2, 3] true false (fun l => .ok l.length) (fun _ => .ok 0)) 2 exWait 1 10 exReact exWait = .ok [] ∧
    (alone exElems exCfg (pdItem exElems [2, 3] true false (fun l => .ok l.length) (fun _ => .ok (0 : ℕ))) exReact [2, 3]).map List.length
      = .ok 1 := by decide +kernel

end examples

/-! ### C91 -/

section react
variable {κ ε φ π γ : Type} [DecidableEq κ] [DecidableEq ε] [DecidableEq φ]
open Verif.Model.Reaction Verif.Spec.Reaction Verif.Props.Balance Verif.Props.EntrySet

theorem pick_spec (form : κ → φ) (epa : Entry κ → ℚ) (entries : List (Entry κ)) (side : List κ) :
    (∀ rs, pickEntries form epa entries side = .ok rs →
      side.Forall₂ (fun c e => Ground (fun e : Entry κ => form e.comp) epa entries (form c) e) rs) ∧
    (∀ e, pickEntries form epa entries side = .error e → e = .keyError ∧ ∃ c ∈ side, ∀ x ∈ entries, form x.comp ≠ form c) ∧
    ((∃ rs, pickEntries form epa entries side = .ok rs) ↔ ∀ c ∈ side, ∃ x ∈ entries, form x.comp = form c) := by
  have h1 : ∀ rs, pickEntries form epa entries side = .ok rs →
      side.Forall₂ (fun c e => Ground (fun e : Entry κ => form e.comp) epa entries (form c) e) rs := by
    intro rs h
    refine ((mapM_ok _ _ _).mp h).imp fun c e hce => ?_
    rcases C38_ground (fun e : Entry κ => form e.comp) epa entries (form c) with ⟨e', he', hg⟩ | ⟨he', -⟩
    · rw [he'] at hce; rw [← Except.ok.inj hce]; exact hg
    · rw [he'] at hce; cases hce
  have h2 : ∀ e, pickEntries form epa entries side = .error e → e = .keyError ∧ ∃ c ∈ side, ∀ x ∈ entries, form x.comp ≠ form c := by
    intro e h
    obtain ⟨c, hc, hce⟩ := mapM_error _ _ _ h
    rcases C38_ground (fun e : Entry κ => form e.comp) epa entries (form c) with ⟨e', he', hg⟩ | ⟨he', hn⟩
    · rw [he'] at hce; cases hce
    · rw [he'] at hce
      injection hce with hce
      exact ⟨hce.symm, c, hc, hn⟩
  refine ⟨h1, h2, ?_, ?_⟩
  · rintro ⟨rs, h⟩ c hc
    obtain ⟨e, -, hg⟩ := forall2_left (h1 rs h) c hc
    exact ⟨e, hg.1, hg.2.1⟩
  · intro h
    cases hp : pickEntries form epa entries side with
    | ok rs => exact ⟨rs, rfl⟩
    | error e =>
      obtain ⟨-, c, hc, hn⟩ := h2 e hp
      obtain ⟨x, hx, hxe⟩ := h c hc
      exact absurd hxe (hn x hx)

/-- **C91, entries.** A predicted reaction is turned into a computed one iff every predicted phase has an entry (otherwise the lookup
error is raised); the entries are ground states of the predicted phases, reactants first, in order, and the chemical potentials are
passed on. -/
theorem C91_entries_partial (X : Chem κ ε) (form : κ → φ) (epa : Entry κ → ℚ) (rank : List (Entry κ) → List (Entry κ) → ℕ)
    (solve : List (Entry κ) → List (Entry κ) → List ℕ → List ℚ) (entries : List (Entry κ)) (rxn : Rxn κ) (pots : List (ε × ℚ)) :
    (∀ r p, getComputedRxn X form epa rank solve entries rxn pots = .ok (r, p) → p = pots ∧ ∃ rs ps, r.entries = rs ++ ps ∧
      (reactants rxn).Forall₂ (fun c e => Ground (fun e : Entry κ => form e.comp) epa entries (form c) e) rs ∧
      (products rxn).Forall₂ (fun c e => Ground (fun e : Entry κ => form e.comp) epa entries (form c) e) ps) ∧
    ((∃ r, getComputedRxn X form epa rank solve entries rxn pots = .ok r) ↔
      ∀ c ∈ reactants rxn ++ products rxn, ∃ x ∈ entries, form x.comp = form c) ∧
    (∀ e, getComputedRxn X form epa rank solve entries rxn pots = .error e → e = .keyError) := by
  obtain ⟨r1, r2, r3⟩ := pick_spec form epa entries (reactants rxn)
  obtain ⟨p1, p2, p3⟩ := pick_spec form epa entries (products rxn)
  refine ⟨?_, ?_, ?_⟩
  · intro r p h
    unfold getComputedRxn at h
    obtain ⟨rs, hr, h⟩ := (bind_ok _ _ _).mp h
    obtain ⟨ps, hp, h⟩ := (bind_ok _ _ _).mp h
    have h := Except.ok.inj h
    rw [Prod.mk.injEq] at h
    refine ⟨h.2.symm, rs, ps, ?_, r1 rs hr, p1 ps hp⟩
    rw [← h.1]; rfl
  · simp only [List.mem_append, or_imp, forall_and]
    rw [← r3, ← p3]
    constructor
    · rintro ⟨r, h⟩
      unfold getComputedRxn at h
      obtain ⟨rs, hr, h⟩ := (bind_ok _ _ _).mp h
      obtain ⟨ps, hp, h⟩ := (bind_ok _ _ _).mp h
      exact ⟨⟨rs, hr⟩, ps, hp⟩
    · rintro ⟨⟨rs, hr⟩, ps, hp⟩
      unfold getComputedRxn
      rw [hr]
      show ∃ r, (pickEntries form epa entries (products rxn) >>= _) = _
      rw [hp]
      exact ⟨_, rfl⟩
  · intro e h
    unfold getComputedRxn at h
    cases hr : pickEntries form epa entries (reactants rxn) with
    | error e' =>
      rw [hr] at h
      injection h with h
      rw [← h]; exact (r2 e' hr).1
    | ok rs =>
      rw [hr] at h
      change (pickEntries form epa entries (products rxn) >>= _) = _ at h
      cases hp : pickEntries form epa entries (products rxn) with
      | error e' =>
        rw [hp] at h
        injection h with h
        rw [← h]; exact (p2 e' hp).1
      | ok ps => rw [hp] at h; cases h

/-- **C91, stoichiometry.** If equal reduced formulas mean equal reduced compositions, the predicted amounts `v` of the (reduced) phases
conserve every element and are the only such amounts up to scaling, the computed reaction has the predicted amounts times a positive
number on the predicted phases and no balancing errors. -/
theorem C91_stoichiometry (X : Chem κ ε) (hX : X.Lawful) (form : κ → φ) (hform : ∀ a b, form a = form b → X.red a = X.red b)
    (epa : Entry κ → ℚ) (solve : List (Entry κ) → List (Entry κ) → List ℕ → List ℚ)
    (hsolve : ∀ rs ps, SolvesConsistent X (rs.map fun e => X.red e.comp) (ps.map fun e => X.red e.comp) (solve rs ps))
    (entries : List (Entry κ)) (rxn : Rxn κ) (pots : List (ε × ℚ)) (v : List ℚ)
    (hne : reactants rxn ++ products rxn ≠ []) (hlen : v.length = (reactants rxn).length + (products rxn).length)
    (hcons : Conserved X ((reactants rxn ++ products rxn).map X.red) v)
    (hneg : ∀ x ∈ v.take (reactants rxn).length, x < 0) (hpos : ∀ x ∈ v.drop (reactants rxn).length, 0 < x)
    (huniq : ∀ x : List ℚ, x.length = (reactants rxn).length + (products rxn).length →
      Conserved X ((reactants rxn ++ products rxn).map X.red) x → ∃ t : ℚ, x = v.map fun c => c * t) (r : CRxn κ) (p : List (ε × ℚ))
    (h : getComputedRxn X form epa (fun rs ps => (compMatrix X ((rs.map fun e => X.red e.comp) ++ ps.map fun e => X.red e.comp)).rank)
      solve entries rxn pots = .ok (r, p)) :
    r.base.comps = (reactants rxn ++ products rxn).map X.red ∧ r.base.lne = some 0 ∧
      ∃ s : ℚ, 0 < s ∧ r.base.coeffs = v.map fun c => c * s := by
  unfold getComputedRxn at h
  obtain ⟨rs, hr, h⟩ := (bind_ok _ _ _).mp h
  obtain ⟨ps, hp, h⟩ := (bind_ok _ _ _).mp h
  have h := Except.ok.inj h
  rw [Prod.mk.injEq] at h
  have hmap : ∀ (side : List κ) es, side.Forall₂ (fun c e => Ground (fun e : Entry κ => form e.comp) epa entries (form c) e) es →
      (es.map fun e => X.red e.comp) = side.map X.red := by
    intro side es hf
    induction hf with
    | nil => rfl
    | cons h1 _ ih => rw [List.map_cons, List.map_cons, ih, hform _ _ h1.2.1]
  have hrs := hmap _ _ ((pick_spec form epa entries (reactants rxn)).1 rs hr)
  have hps := hmap _ _ ((pick_spec form epa entries (products rxn)).1 ps hp)
  rw [List.map_append] at hcons
  have hl1 : (rs.map fun e => X.red e.comp).length = (reactants rxn).length := by rw [hrs, List.length_map]
  have hl2 : (ps.map fun e => X.red e.comp).length = (products rxn).length := by rw [hps, List.length_map]
  obtain ⟨s, hs, h1, h2⟩ := C11_complete X hX (rs.map fun e => X.red e.comp) (ps.map fun e => X.red e.comp) (solve rs ps) (hsolve rs ps) v
    (by rw [hrs, hps, ← List.map_append]; simpa using hne) (by rw [hl1, hl2]; exact hlen) (by rw [hrs, hps]; exact hcons)
    (by rw [hl1]; exact hneg) (by rw [hl1]; exact hpos)
    (by intro x hx hc; rw [hrs, hps, ← List.map_append] at hc; exact huniq x (by rw [hl1, hl2] at hx; exact hx) hc)
  rw [← h.1]
  refine ⟨?_, h2, s, hs, h1⟩
  show (rs ++ ps).map (fun e => X.red e.comp) = _
  rw [List.map_append, hrs, hps, List.map_append]

theorem perm_pair {α : Type} {a b : α} {l : List α} (h : l.Perm [a, b]) : l = [a, b] ∨ l = [b, a] := by
  match l, h.length_eq with
  | [x, y], _ =>
    rcases List.mem_cons.mp (h.subset List.mem_cons_self : x ∈ [a, b]) with rfl | hx
    · have := List.perm_singleton.mp ((List.perm_cons x).mp h)
      exact Or.inl (by rw [this])
    · have hx := List.mem_singleton.mp hx
      subst hx
      have := List.perm_singleton.mp ((List.perm_cons x).mp (h.trans (List.Perm.swap x a [])))
      exact Or.inr (by rw [this])

/-- **C91, pairs.** For a pair (in either iteration order) the interface of exactly its two compositions is calculated; for a single phase
the interface of the phase with itself. All suggestions come from the predicted reactions, one each and in order. -/
theorem C91_pairs (X : Chem κ ε) (form : κ → φ) (epa : Entry κ → ℚ) (rank : List (Entry κ) → List (Entry κ) → ℕ)
    (solve : List (Entry κ) → List (Entry κ) → List ℕ → List ℚ)
    (kinks : κ → κ → Option π → Option γ → Except Err (List (Rxn κ))) (potsOf : γ → List (ε × ℚ))
    (order : List (Entry κ) → List (Entry κ)) (horder : ∀ l, (order l).Perm l) (p : List (Entry κ)) (t : Tag (Entry κ) π γ) (a b : Entry κ) :
    (reactGibbs X form epa rank solve kinks potsOf order [a] p t = reactInterface X form epa rank solve kinks potsOf a.comp a.comp t) ∧
    (reactGibbs X form epa rank solve kinks potsOf order [a, b] p t = reactInterface X form epa rank solve kinks potsOf a.comp b.comp t ∨
      reactGibbs X form epa rank solve kinks potsOf order [a, b] p t = reactInterface X form epa rank solve kinks potsOf b.comp a.comp t) ∧
    (∀ out, reactInterface X form epa rank solve kinks potsOf a.comp b.comp t = .ok out →
      ∃ rxns, kinks a.comp b.comp t.pd t.grand = .ok rxns ∧
        rxns.Forall₂ (fun r o => getComputedRxn X form epa rank solve t.entries r ((t.grand.map potsOf).getD []) = .ok o) out) := by
  refine ⟨?_, ?_, ?_⟩
  · unfold reactGibbs
    rw [List.perm_singleton.mp (horder [a])]
    rfl
  · unfold reactGibbs
    rcases perm_pair (horder [a, b]) with h | h
    · rw [h]; exact Or.inl rfl
    · rw [h]; exact Or.inr rfl
  · intro out h
    obtain ⟨rxns, h1, h2⟩ := (bind_ok _ _ _).mp h
    exact ⟨rxns, h1, (mapM_ok _ _ _).mp h2⟩

/-- **C91, open element.** With a grand potential diagram nothing is suggested when a reactant is the open element itself; otherwise the
suggestions are those of the closed enumerator, and each carries the chemical potentials of the diagram. -/
theorem C91_grand (X : Chem κ ε) (form : κ → φ) (epa : Entry κ → ℚ) (rank : List (Entry κ) → List (Entry κ) → ℕ)
    (solve : List (Entry κ) → List (Entry κ) → List ℕ → List ℚ)
    (kinks : κ → κ → Option π → Option γ → Except Err (List (Rxn κ))) (potsOf : γ → List (ε × ℚ))
    (order : List (Entry κ) → List (Entry κ)) (horder : ∀ l, (order l).Perm l) (r p : List (Entry κ)) (hr : r ≠ [])
    (sub : List (Entry κ)) (pd : Option π) (g : γ) (o : ε) (mu : ℚ) (hg : potsOf g = [(o, mu)]) :
    ((∃ e ∈ r, X.elems e.comp = [o]) → reactGrand X form epa rank solve kinks potsOf order r p ⟨sub, pd, some g⟩ = .ok []) ∧
    ((∀ e ∈ r, X.elems e.comp ≠ [o]) → reactGrand X form epa rank solve kinks potsOf order r p ⟨sub, pd, some g⟩
      = reactGibbs X form epa rank solve kinks potsOf order r p ⟨sub, pd, some g⟩) ∧
    (∀ out, reactGrand X form epa rank solve kinks potsOf order r p ⟨sub, pd, some g⟩ = .ok out → ∀ x ∈ out, x.2 = [(o, mu)]) := by
  obtain ⟨ab, hab⟩ : ∃ ab, firstTwo (order r) = .ok ab := by
    have hne : order r ≠ [] := fun h => hr (List.perm_nil.mp (h ▸ (horder r)).symm)
    match hl : order r with
    | [] => exact absurd hl hne
    | [a] => exact ⟨_, rfl⟩
    | a :: b :: _ => exact ⟨_, rfl⟩
  have ho : openElem potsOf (some g) = .ok o := by simp [openElem, hg]
  have h1 : (∃ e ∈ r, X.elems e.comp = [o]) → reactGrand X form epa rank solve kinks potsOf order r p ⟨sub, pd, some g⟩ = .ok [] := by
    intro h
    unfold reactGrand
    rw [hab]
    simp only [ho]
    show (if (r.any fun e => decide (X.elems e.comp = [o])) = true then _ else _) = _
    rw [if_pos]
    · rfl
    · rw [List.any_eq_true]
      obtain ⟨e, he, h⟩ := h
      exact ⟨e, he, decide_eq_true h⟩
  have h2 : (∀ e ∈ r, X.elems e.comp ≠ [o]) → reactGrand X form epa rank solve kinks potsOf order r p ⟨sub, pd, some g⟩
      = reactGibbs X form epa rank solve kinks potsOf order r p ⟨sub, pd, some g⟩ := by
    intro h
    unfold reactGrand reactGibbs
    rw [hab]
    simp only [ho]
    show (if (r.any fun e => decide (X.elems e.comp = [o])) = true then _ else _) = _
    rw [if_neg]
    · rfl
    · rw [List.any_eq_true]
      rintro ⟨e, he, hd⟩
      exact h e he (of_decide_eq_true hd)
  refine ⟨h1, h2, ?_⟩
  intro out hout x hx
  by_cases hc : ∃ e ∈ r, X.elems e.comp = [o]
  · rw [h1 hc] at hout
    rw [← Except.ok.inj hout] at hx
    cases hx
  · rw [h2 fun e he hh => hc ⟨e, he, hh⟩] at hout
    unfold reactGibbs at hout
    rw [hab] at hout
    obtain ⟨ab', -, hm⟩ := (bind_ok _ _ _).mp hout
    obtain ⟨rxns, -, hm⟩ := (bind_ok _ _ _).mp hm
    obtain ⟨rx, -, hrx⟩ := mapM_mem _ _ _ hm x hx
    obtain ⟨xr, xp⟩ := x
    have := ((C91_entries_partial X form epa rank solve sub rx _).1 xr xp hrx).1
    show xp = _
    rw [this]
    simp [hg]

/-! Examples: `AB` decomposes into its elements; `AB` has a metastable polymorph. -/

open Verif.Props.Reaction (A B1 AB)

/-- stable and metastable `AB`, and the elements -/
def exEntries : List (Entry TComp) := [⟨AB, -2⟩, ⟨AB, -1⟩, ⟨A, 0⟩, ⟨B1, 0⟩]

/-- the predicted reaction `2 AB -> 2 A + 2 B` -/
def exKink : Rxn TComp := init toy [AB, A, B1] [-2, 2, 2] none [] none

/-- exact solutions -/
def exSol (rs ps : List (Entry TComp)) (_ : List ℕ) : List ℚ := List.replicate rs.length (-1) ++ List.replicate ps.length 1

/-- energy per atom -/
def exEpa (e : Entry TComp) : ℚ := e.energy / toy.natoms e.comp

example : (getComputedRxn toy (fun c => toy.red c) exEpa (fun _ _ => 2) exSol exEntries exKink []).map
      (fun r => (r.1.entries, r.1.base.coeffs, r.1.base.lne)) = .ok ([⟨AB, -2⟩, ⟨A, 0⟩, ⟨B1, 0⟩], [-1, 1, 1], some 0) := by
  decide +kernel

example : (getComputedRxn toy (fun c => toy.red c) exEpa (fun _ _ => 2) exSol (exEntries.take 3) exKink []).map
      (fun r => r.1.entries) = .error .keyError := by decide +kernel

example : Conserved toy (([AB] ++ [A, B1]).map toy.red) [-2, 2, 2] := by intro e; revert e; decide +kernel

/-- **C91 violated.** The reaction suggested for a metastable phase does not have that phase as a reactant: it is replaced by the stable
polymorph. The stable and the metastable candidate therefore give the same reaction, which the run returns twice. -/
theorem C91_polymorph_violated :
    let kinks : TComp → TComp → Option ℕ → Option ℕ → Except Err (List (Rxn TComp)) := fun _ _ _ _ => .ok [exKink]
    let react := reactGibbs toy (fun c => toy.red c) exEpa (fun _ _ => 2) exSol kinks (fun _ => ([] : List (Fin 3 × ℚ))) id
    let t : Tag (Entry TComp) ℕ ℕ := ⟨exEntries, some 0, none⟩
    (react [⟨AB, -1⟩] [] t).map (fun l => l.map fun r => (viewOf r.1).reactants) = .ok [[⟨AB, -2⟩]] ∧
    react [⟨AB, -1⟩] [] t = react [⟨AB, -2⟩] [] t := by
  refine ⟨by decide +kernel, rfl⟩

/-- Without a grand potential diagram, or with one that has no chemical potentials, nothing can be suggested at a chemical potential: the run
stops with an error instead of falling back to the closed system. -/
theorem C91_no_diagram (X : Chem κ ε) (form : κ → φ) (epa : Reaction.Entry κ → ℚ)
    (rank : List (Reaction.Entry κ) → List (Reaction.Entry κ) → ℕ)
    (solve : List (Reaction.Entry κ) → List (Reaction.Entry κ) → List ℕ → List ℚ)
    (kinks : κ → κ → Option π → Option γ → Except Err (List (Reaction.Rxn κ))) (potsOf : γ → List (ε × ℚ))
    (order : List (Reaction.Entry κ) → List (Reaction.Entry κ)) (r p : List (Reaction.Entry κ)) (t : Tag (Reaction.Entry κ) π γ)
    (hr : order r ≠ []) :
    (t.grand = none → reactGrand X form epa rank solve kinks potsOf order r p t = .error .attributeError) ∧
    (∀ g, t.grand = some g → potsOf g = [] → reactGrand X form epa rank solve kinks potsOf order r p t = .error .indexError) := by
  match h : order r with
  | [] => exact absurd h hr
  | [a] =>
    exact ⟨fun ht => by simp [reactGrand, h, firstTwo, openElem, ht, bind, Except.bind],
      fun g ht hg => by simp [reactGrand, h, firstTwo, openElem, ht, hg, bind, Except.bind]⟩
  | a :: b :: l =>
    exact ⟨fun ht => by simp [reactGrand, h, firstTwo, openElem, ht, bind, Except.bind],
      fun g ht hg => by simp [reactGrand, h, firstTwo, openElem, ht, hg, bind, Except.bind]⟩

example := (C91_no_diagram toy (fun c => toy.red c) exEpa (fun _ _ => 2) exSol (fun _ _ _ _ => .ok [exKink])
  (fun _ => ([] : List (Fin 3 × ℚ))) id [⟨AB, -1⟩] [] (⟨exEntries, some 0, none⟩ : Tag (Entry TComp) ℕ ℕ) (by simp)).1 rfl

end react

end Verif.Props.Minimize
