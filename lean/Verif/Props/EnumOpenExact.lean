import Verif.Props.EnumExact

/-! Property C134: an enumeration with open phases returns exactly the reactions between at most `n` other phases on a side with open
phases on one of the sides; together with the enumeration of closed reactions this gives all reactions that exchange phases with the
environment in one direction. -/

set_option linter.unusedSectionVars false

namespace Verif.Props.EnumOpenExact
open Verif.Py Verif.Model Verif.Model.Enum Verif.Model.Reaction Verif.Spec.Reaction Verif.Lemmas Verif.Lemmas.Exc Verif.Props.Enum
  Verif.Props.EnumGroup Verif.Props.BalanceLinear Verif.Props.EnumComplete Verif.Props.EnumExact

variable {κ : Type} [DecidableEq κ]

/-! ### Specification -/

/-- `r → p` is a reaction that the settings ask for, among the phases `entries`, with at most `n` phases on a side that are not open and
with open phases on exactly one side. The elements of a reaction are counted with those of all open phases. -/
structure SoughtOpen (X : Chem κ Sym) (cfg : Cfg (Entry κ)) (entries : List (Entry κ)) (n : ℤ) (r p : List (Entry κ)) (a b : Entry κ → ℚ) : Prop where
  nodupR : r.Nodup
  nodupP : p.Nodup
  someR : ∃ x ∈ r, x ∉ cfg.openEntries
  someP : ∃ x ∈ p, x ∉ cfg.openEntries
  sizeR : ((r.filter fun x => x ∉ cfg.openEntries).length : ℤ) ≤ n
  sizeP : ((p.filter fun x => x ∉ cfg.openEntries).length : ℤ) ≤ n
  inR : ∀ x ∈ r, x ∈ entries
  inP : ∀ x ∈ p, x ∈ entries
  disjoint : ∀ x ∈ r, x ∉ p
  oneSide : OpenOn cfg.openEntries r p ∨ OpenOn cfg.openEntries p r
  balances : Balances X r p a b
  wanted : Wanted cfg r p
  elements : SizeOk (fun e => X.elems e.comp) r cfg.openEntries
  system : cfg.filterChemsys ≠ [] → ∀ f ∈ cfg.filterChemsys.splitOn '-',
    f ∈ els (fun e => X.elems e.comp) r (cfg.openEntries.flatMap fun e => X.elems e.comp)

/-- Some run of the open enumerator returns `out`: with any chunk size and number of jobs, any order in which the jobs end, and any
linear algebra that solves what is solvable. -/
def ReturnsOpen (X : Chem κ Sym) (cfg : Cfg (Entry κ)) (entries : List (Entry κ)) (n : ℤ) (out : List (Rx (Entry κ))) : Prop :=
  ∃ (τ : Type) (iterLen : List (List (Entry κ)) → ℕ) (tagOf : List Char → τ) (chunkSize maxJobs : ℕ)
    (wait : ℕ → List (Chunk (List (Entry κ) × List (Entry κ)) τ) → List (Chunk (List (Entry κ) × List (Entry κ)) τ) × List (Chunk (List (Entry κ) × List (Entry κ)) τ))
    (pinv : ℕ → List (List ℚ) → List ℚ → List ℚ), Verif.Props.Utils.WaitSpec wait ∧ Exact pinv ∧
    enumerate (fun e => X.elems e.comp) cfg entries n (fun c => pairsOpen c (openCombos cfg.openEntries)) iterLen tagOf chunkSize maxJobs
      (reactBasic X (rankFor X) (solveFor X pinv)) wait = .ok out

/-- The defaults, src/rxn_network/enumerators/basic.py:430-456, with open phases that are among the entries. -/
structure Opened (cfg : Cfg (Entry κ)) (entries : List (Entry κ)) : Prop where
  once : cfg.openEntries.Nodup
  given : ∀ x ∈ cfg.openEntries, x ∈ entries
  removes : cfg.removeChanged = true
  constraints : cfg.maxConstraints = 1

/-! ### Exactness -/

/-- `C124_open_found_once_partial` with a filter that counts the elements of the open phases. -/
theorem open_found_once {τ : Type} (X : Chem κ Sym) (hX : X.Lawful) (hsym : Symbols fun e : Entry κ => X.elems e.comp)
    (pinv : ℕ → List (List ℚ) → List ℚ → List ℚ) (hpinv : Exact pinv)
    (cfg : Cfg (Entry κ)) (hno : cfg.openEntries.Nodup) (hchg : cfg.removeChanged = true) (hmc : 1 ≤ cfg.maxConstraints)
    (entries : List (Entry κ)) (hn : (entries.map fun e => X.red e.comp).Nodup) (n : ℤ)
    (iterLen : List (List (Entry κ)) → ℕ) (tagOf : List Char → τ) (chunkSize maxJobs : ℕ)
    (wait : ℕ → List (Chunk (List (Entry κ) × List (Entry κ)) τ) → List (Chunk (List (Entry κ) × List (Entry κ)) τ) × List (Chunk (List (Entry κ) × List (Entry κ)) τ))
    (hw : Verif.Props.Utils.WaitSpec wait) (out : List (Rx (Entry κ)))
    (h : enumerate (fun e => X.elems e.comp) cfg entries n (fun c => pairsOpen c (openCombos cfg.openEntries)) iterLen tagOf chunkSize maxJobs
      (reactBasic X (rankFor X) (solveFor X pinv)) wait = .ok out)
    (r p : List (Entry κ)) (hr : r.Nodup) (hp : p.Nodup) (hr0 : ∃ x ∈ r, x ∉ cfg.openEntries) (hp0 : ∃ x ∈ p, x ∉ cfg.openEntries)
    (hrn : ((r.filter fun x => x ∉ cfg.openEntries).length : ℤ) ≤ n) (hpn : ((p.filter fun x => x ∉ cfg.openEntries).length : ℤ) ≤ n)
    (hre : ∀ x ∈ r, x ∈ entries) (hpe : ∀ x ∈ p, x ∈ entries) (hdis : ∀ x ∈ r, x ∉ p)
    (hside : OpenOn cfg.openEntries r p ∨ OpenOn cfg.openEntries p r)
    (a b : Entry κ → ℚ) (hbal : Balances X r p a b) (hwant : Wanted cfg r p)
    (hsize : SizeOk (fun e => X.elems e.comp) r cfg.openEntries)
    (hfc : cfg.filterChemsys ≠ [] → ∀ f ∈ cfg.filterChemsys.splitOn '-', f ∈ els (fun e => X.elems e.comp) r (cfg.openEntries.flatMap fun e => X.elems e.comp)) :
    ∃ g : CRxn κ, (out.filter fun x => decide (x.reactants.toFinset = r.toFinset ∧ x.products.toFinset = p.toFinset)) = [viewOf g] ∧
      Whole X g ∧ ∃ s : ℚ, 0 < s ∧ (g.entries.zip g.base.coeffs).Perm ((r.map fun x => (x, -(a x) * s)) ++ p.map fun x => (x, b x * s)) := by
  have hnE : entries.Nodup := List.Nodup.of_map _ hn
  refine found_core X hX hsym pinv hpinv cfg hchg hmc entries n _ iterLen tagOf chunkSize maxJobs wait hw out h r p hr hp hr0 hp0 hdis a b
    hbal hwant (red_nodup X entries r p hn hre hpe) hsize hfc ?_ ?_
  · rcases hside with hs | hs
    · exact openPairs_one X hX entries _ hnE hno n r p hr hp hr0 hp0 hrn hpn hre hpe a b hbal hs
    · rw [isPair_comm]
      exact openPairs_one X hX entries _ hnE hno n p r hp hr hp0 hr0 hpn hrn hpe hre b a hbal.symm hs
  · intro sys hsys q hq
    obtain ⟨m1, c, hc, o, ho, hi, hpo⟩ := (mem_pairsOpen _ _ q.1 q.2).mp hq
    have hnd := combo_nodup _ entries _ hnE n sys hsys
    have hosub := ((Verif.Props.Utils.C30_mem _ o _).mp ho).1
    refine ⟨hnd _ m1, ?_, (mem_combosDict _ entries _ n sys hsys q.1 m1).1⟩
    rw [hpo]
    unfold union
    rw [List.nodup_append]
    refine ⟨hnd _ hc, (hno.sublist hosub).filter _, ?_⟩
    rintro x hx _ hy rfl
    simpa using of_decide_eq_true (List.mem_filter.mp hy).2 hx

/-- **C134, nothing else is returned.** With the default of one constraint, every reaction an enumeration with open phases returns is
one that is asked for, and it balances in one way only. -/
theorem C134_sound_partial {τ : Type} (X : Chem κ Sym) (hX : X.Lawful) (hsym : Symbols fun e : Entry κ => X.elems e.comp)
    (pinv : ℕ → List (List ℚ) → List ℚ → List ℚ) (hpinv : Exact pinv)
    (cfg : Cfg (Entry κ)) (hno : cfg.openEntries.Nodup) (hchg : cfg.removeChanged = true) (hmc : cfg.maxConstraints = 1)
    (entries : List (Entry κ)) (hn : entries.Nodup) (hoe : ∀ x ∈ cfg.openEntries, x ∈ entries) (hsharp : Sharp X entries) (n : ℤ)
    (iterLen : List (List (Entry κ)) → ℕ) (tagOf : List Char → τ) (chunkSize maxJobs : ℕ)
    (wait : ℕ → List (Chunk (List (Entry κ) × List (Entry κ)) τ) → List (Chunk (List (Entry κ) × List (Entry κ)) τ) × List (Chunk (List (Entry κ) × List (Entry κ)) τ))
    (hw : Verif.Props.Utils.WaitSpec wait) (out : List (Rx (Entry κ)))
    (h : enumerate (fun e => X.elems e.comp) cfg entries n (fun c => pairsOpen c (openCombos cfg.openEntries)) iterLen tagOf chunkSize maxJobs
      (reactBasic X (rankFor X) (solveFor X pinv)) wait = .ok out) (x : Rx (Entry κ)) (hx : x ∈ out) :
    ∃ a b, SoughtOpen X cfg entries n x.reactants x.products a b := by
  set elems : Entry κ → List Sym := fun e => X.elems e.comp with helems
  unfold enumerate at h
  rw [bind_ok] at h
  obtain ⟨size, hsz, h⟩ := h
  have hs : 0 < size := by
    unfold effSize at hsz
    split_ifs at hsz with h1 h2 h3
    · rw [← Except.ok.inj hsz]; exact Nat.succ_pos _
    · rw [← Except.ok.inj hsz]; exact Nat.pos_of_ne_zero h1
  obtain ⟨out', hser, hperm⟩ := (C33_schedule cfg _ wait hw size hs _).2 out h
  obtain ⟨hall, hout⟩ := (flatM_ok _ _ _).mp hser
  have hx2 := hperm.mem_iff.mp hx
  rw [hout] at hx2
  obtain ⟨c, hcm, hxc⟩ := List.mem_flatMap.mp hx2
  obtain ⟨v, hv⟩ := hall c hcm
  have hval : val (fun c : (List (Entry κ) × List (Entry κ)) × τ => reactPair cfg (reactBasic X (rankFor X) (solveFor X pinv)) c.1 c.2) c
      = v := by unfold val; simp only [hv]
  rw [hval] at hxc
  obtain ⟨hA, hearly, l', hl', hx'⟩ := reactPair_mem cfg _ c.1 c.2 v hv x hxc
  rw [← Except.ok.inj hl'] at hx'
  have hlne := hA.clean hchg
  obtain ⟨it, hit, hcq⟩ := List.mem_flatMap.mp hcm
  obtain ⟨sys, hsys, rfl⟩ := List.mem_map.mp hit
  obtain ⟨q, hq, rfl⟩ := List.mem_map.mp hcq
  simp only at hx' hearly hq
  have hlne0 : (balanceComputed X q.1 q.2 (rankFor X q.1 q.2) (solveFor X pinv q.1 q.2) []).base.lne = some 0 := by
    rcases List.mem_cons.mp hx' with rfl | hx'
    · exact hlne
    · rw [List.mem_singleton.mp hx'] at hlne; exact hlne
  obtain ⟨v1, v2⟩ := clean_sides X hX _ (solveFor X pinv q.1 q.2) q.1 q.2 (fun cs => hpinv.shape _ _ _) hlne0
  obtain ⟨hsys1, hkeep⟩ := List.mem_filter.mp hsys
  obtain ⟨m1, c, m2, o, ho, hi, hpo⟩ := (mem_pairsOpen _ _ q.1 q.2).mp hq
  have hnd := combo_nodup elems entries cfg.openEntries hn n sys hsys1
  obtain ⟨k1, ne1, in1⟩ := mem_combosDict elems entries _ n sys hsys1 q.1 m1
  obtain ⟨k2, ne2, in2⟩ := mem_combosDict elems entries _ n sys hsys1 c m2
  obtain ⟨hosub, hone, _⟩ := (Verif.Props.Utils.C30_mem _ o _).mp ho
  have hmem2 : ∀ y, y ∈ q.2 ↔ y ∈ c ∨ y ∈ o := by
    intro y
    rw [hpo]
    unfold union
    rw [List.mem_append, List.mem_filter]
    constructor
    · rintro (h | h)
      · exact .inl h
      · exact .inr h.1
    · rintro (h | h)
      · exact .inl h
      · by_cases hc : y ∈ c
        · exact .inl hc
        · exact .inr ⟨h, by simpa using hc⟩
  have hnd2 : q.2.Nodup := by
    rw [hpo]
    unfold union
    rw [List.nodup_append]
    refine ⟨hnd _ m2, (hno.sublist hosub).filter _, ?_⟩
    rintro y hy _ hy' rfl
    simpa using of_decide_eq_true (List.mem_filter.mp hy').2 hy
  have hE2 : ∀ y ∈ q.2, y ∈ entries := fun y hy => ((hmem2 y).mp hy).elim (fun h => (in2 y h).1) fun h => hoe y (hosub.subset h)
  have hf1 : (q.1.filter fun y => y ∉ cfg.openEntries) = q.1 := List.filter_eq_self.mpr fun y hy => by simpa using (in1 y hy).2
  have hf2 : (q.2.filter fun y => y ∉ cfg.openEntries).Perm c := by
    rw [List.perm_ext_iff_of_nodup (hnd2.filter _) (hnd _ m2)]
    intro y
    rw [List.mem_filter, hmem2]
    constructor
    · rintro ⟨h | h, h'⟩
      · exact h
      · exact absurd (hosub.subset h) (by simpa using h')
    · intro h
      exact ⟨.inl h, by simpa using (in2 y h).2⟩
  have some1 : ∃ y ∈ q.1, y ∉ cfg.openEntries := by
    obtain ⟨y, hy⟩ := List.exists_mem_of_ne_nil _ ne1
    exact ⟨y, hy, (in1 y hy).2⟩
  have some2 : ∃ y ∈ q.2, y ∉ cfg.openEntries := by
    obtain ⟨y, hy⟩ := List.exists_mem_of_ne_nil _ ne2
    exact ⟨y, (hmem2 y).mpr (.inl hy), (in2 y hy).2⟩
  have hon : OpenOn cfg.openEntries q.1 q.2 := by
    refine ⟨fun y hy => (in1 y hy).2, ?_⟩
    obtain ⟨y, hy⟩ := List.exists_mem_of_ne_nil _ hone
    exact ⟨y, (hmem2 y).mpr (.inr hy), hosub.subset hy⟩
  have hlenle : ∀ c ∈ sys.2, (c.length : ℤ) ≤ n := by
    intro c hc
    obtain ⟨h2, _⟩ := (mem_group elems _ _ sys).mp hsys1
    rw [h2] at hc
    exact ((Verif.Props.Utils.C30_mem _ c n).mp (List.mem_filter.mp hc).1).2.2
  have hdis : ∀ y ∈ q.1, y ∉ q.2 := by
    intro y hy hy'
    unfold earlyOk at hearly
    rw [if_pos (Or.inl (List.ne_nil_of_mem (mem_inter.mpr ⟨hy, hy'⟩)))] at hearly
    cases hearly
  have hRP : (q.1 ++ q.2).Nodup := List.nodup_append.mpr ⟨hnd _ m1, hnd2, fun a ha b hb hab => hdis a ha (hab ▸ hb)⟩
  have hnc : numConstraints (q.1.length + q.2.length) (rankFor X q.1 q.2) = 1 := by
    obtain ⟨k, hk1, hk2⟩ := hA.constraints
    rw [hmc] at hk2
    have hkk : k = (numConstraints (q.1.length + q.2.length) (rankFor X q.1 q.2) : ℚ) := by
      have e : ∀ y ∈ [viewOf (balanceComputed X q.1 q.2 (rankFor X q.1 q.2) (solveFor X pinv q.1 q.2) []),
          viewOf (creverse X (balanceComputed X q.1 q.2 (rankFor X q.1 q.2) (solveFor X pinv q.1 q.2) []))],
          y.nc = some (numConstraints (q.1.length + q.2.length) (rankFor X q.1 q.2) : ℚ) := by
        have hlen : ((q.1.map fun e => X.red e.comp) ++ q.2.map fun e => X.red e.comp).length = q.1.length + q.2.length := by simp
        intro y hy
        simp only [List.mem_cons, List.not_mem_nil, or_false] at hy
        rw [← hlen]
        rcases hy with rfl | rfl <;> rfl
      rw [e x hx'] at hk1
      exact (Option.some.inj hk1).symm
    rw [hkk] at hk2
    have hk3 : numConstraints (q.1.length + q.2.length) (rankFor X q.1 q.2) ≤ 1 := by exact_mod_cast hk2
    unfold numConstraints at hk3 ⊢
    split_ifs at hk3 ⊢ <;> omega
  obtain ⟨a, b, hbal⟩ := sound_pair X hX pinv hpinv entries q.1 q.2 hsharp hRP
    (fun y hy => (List.mem_append.mp hy).elim (fun h => (in1 y h).1) fun h => hE2 y h) ne1 hlne0 hnc
  have hne : ∀ c : List (Entry κ), c ≠ [] → els elems c (cfg.openEntries.flatMap elems) ≠ [] := by
    intro c hc
    obtain ⟨e, he⟩ := List.exists_mem_of_ne_nil _ hc
    obtain ⟨t, ht⟩ := List.exists_mem_of_ne_nil _ (hsym.ne e)
    exact List.ne_nil_of_mem (List.mem_append_left _ (List.mem_flatMap.mpr ⟨e, he, ht⟩))
  have hdash : ∀ c : List (Entry κ), ∀ s ∈ els elems c (cfg.openEntries.flatMap elems), '-' ∉ s := by
    intro c s hs
    rcases List.mem_append.mp hs with hs | hs
    · obtain ⟨y, _, hy⟩ := List.mem_flatMap.mp hs; exact hsym.dash y s hy
    · obtain ⟨y, _, hy⟩ := List.mem_flatMap.mp hs; exact hsym.dash y s hy
  have hsel : ∀ c : List (Entry κ), c ≠ [] → sys.1 = chemsysKey elems c (cfg.openEntries.flatMap elems) →
      SizeOk elems c cfg.openEntries ∧
      (cfg.filterChemsys ≠ [] → ∀ f ∈ cfg.filterChemsys.splitOn '-', f ∈ els elems c (cfg.openEntries.flatMap elems)) := by
    intro c hc hk
    have hmem : ∀ s, s ∈ (sys.1.splitOn '-').dedup ↔ s ∈ els elems c (cfg.openEntries.flatMap elems) := by
      intro s
      rw [List.mem_dedup, hk, mem_split_key elems c _ (hdash c) (hne c hc) s]
    have hlen : (sys.1.splitOn '-').dedup.length = (els elems c (cfg.openEntries.flatMap elems)).dedup.length := by
      apply List.Perm.length_eq
      rw [List.perm_ext_iff_of_nodup (List.nodup_dedup _) (List.nodup_dedup _)]
      intro s
      rw [hmem s, List.mem_dedup]
    have hpos : 0 < (els elems c (cfg.openEntries.flatMap elems)).dedup.length := by
      obtain ⟨s, hs⟩ := List.exists_mem_of_ne_nil _ (hne c hc)
      exact List.length_pos_of_mem (List.mem_dedup.mpr hs)
    unfold keepSys at hkeep
    simp only at hkeep
    split_ifs at hkeep with g1 g2
    · rw [hlen] at g2
      push Not at g1 g2
      refine ⟨?_, fun h0 f hf => ?_⟩
      · unfold SizeOk
        omega
      · have := g1 h0 f hf
        exact (hmem f).mp this
  have kq2 : sys.1 = chemsysKey elems q.2 (cfg.openEntries.flatMap elems) := by
    rw [k2]
    apply key_congr
    intro s
    simp only [els, List.mem_append, List.mem_flatMap]
    constructor
    · rintro (⟨y, hy, hs⟩ | h)
      · exact .inl ⟨y, (hmem2 y).mpr (.inl hy), hs⟩
      · exact .inr h
    · rintro (⟨y, hy, hs⟩ | h)
      · rcases (hmem2 y).mp hy with hy | hy
        · exact .inl ⟨y, hy, hs⟩
        · exact .inr ⟨y, hosub.subset hy, hs⟩
      · exact .inr h
  have neq2 : q.2 ≠ [] := by obtain ⟨y, hy, _⟩ := some2; exact List.ne_nil_of_mem hy
  have want : ∀ r p : List (Entry κ), x.reactants = r → x.products = p → Wanted cfg r p := by
    rintro r p rfl rfl
    refine ⟨fun h1 h2 e he h3 => ?_, fun h1 h2 => ?_, fun h1 h2 e he h3 => ?_, fun h1 h2 => ?_⟩
    · exact (hA.precursors h1 h2 e he).resolve_right h3
    · obtain ⟨e, he, h3, h4⟩ := hA.somePrecursor h1 h2; exact ⟨e, he, h4, h3⟩
    · exact (hA.targets h1 h2 e he).resolve_right h3
    · obtain ⟨e, he, h3, h4⟩ := hA.someTarget h1 h2; exact ⟨e, he, h4, h3⟩
  have main : (x.reactants = q.1 ∧ x.products = q.2) ∨ (x.reactants = q.2 ∧ x.products = q.1) := by
    rcases List.mem_cons.mp hx' with rfl | hx'
    · exact .inl v1
    · rw [List.mem_singleton.mp hx']; exact .inr v2
  have len1 : ((q.1.filter fun y => y ∉ cfg.openEntries).length : ℤ) ≤ n := by rw [hf1]; exact hlenle _ m1
  have len2 : ((q.2.filter fun y => y ∉ cfg.openEntries).length : ℤ) ≤ n := by rw [hf2.length_eq]; exact hlenle _ m2
  rcases main with ⟨e1, e2⟩ | ⟨e1, e2⟩
  · refine ⟨a, b, ?_⟩
    have hwant := want _ _ e1 e2
    rw [e1, e2]
    exact ⟨hnd _ m1, hnd2, some1, some2, len1, len2, fun y hy => (in1 y hy).1, hE2, hdis, .inl hon, hbal, hwant,
      (hsel _ ne1 k1).1, (hsel _ ne1 k1).2⟩
  · refine ⟨b, a, ?_⟩
    have hwant := want _ _ e1 e2
    rw [e1, e2]
    exact ⟨hnd2, hnd _ m1, some2, some1, len2, len1, hE2, fun y hy => (in1 y hy).1,
      fun y hy hy' => hdis y hy' hy, .inr hon, hbal.symm, hwant, (hsel _ neq2 kq2).1, (hsel _ neq2 kq2).2⟩

/-- The same elements, counted with the open ones, if both sides have the same phases. -/
theorem els_perm (elems : Entry κ → List Sym) (opens : List Sym) {r R : List (Entry κ)} (h : R.Perm r) : (els elems R opens).Perm (els elems r opens) :=
  (h.flatMap_right _).append_right _

theorem SoughtOpen.perm {X : Chem κ Sym} {cfg : Cfg (Entry κ)} {entries : List (Entry κ)} {n : ℤ} {r p R P : List (Entry κ)} {a b : Entry κ → ℚ}
    (h : SoughtOpen X cfg entries n r p a b) (hr : R.Perm r) (hp : P.Perm p) : SoughtOpen X cfg entries n R P a b where
  nodupR := hr.nodup_iff.mpr h.nodupR
  nodupP := hp.nodup_iff.mpr h.nodupP
  someR := by obtain ⟨x, hx, h'⟩ := h.someR; exact ⟨x, hr.mem_iff.mpr hx, h'⟩
  someP := by obtain ⟨x, hx, h'⟩ := h.someP; exact ⟨x, hp.mem_iff.mpr hx, h'⟩
  sizeR := by rw [(hr.filter _).length_eq]; exact h.sizeR
  sizeP := by rw [(hp.filter _).length_eq]; exact h.sizeP
  inR := fun x hx => h.inR x (hr.mem_iff.mp hx)
  inP := fun x hx => h.inP x (hp.mem_iff.mp hx)
  disjoint := fun x hx hx' => h.disjoint x (hr.mem_iff.mp hx) (hp.mem_iff.mp hx')
  oneSide := by
    rcases h.oneSide with ⟨h1, x, hx, h2⟩ | ⟨h1, x, hx, h2⟩
    · exact .inl ⟨fun y hy => h1 y (hr.mem_iff.mp hy), x, hp.mem_iff.mpr hx, h2⟩
    · exact .inr ⟨fun y hy => h1 y (hp.mem_iff.mp hy), x, hr.mem_iff.mpr hx, h2⟩
  balances := h.balances.perm hr hp
  wanted := ⟨fun h1 h2 e he => h.wanted.precursors h1 h2 e (hr.mem_iff.mp he),
    fun h1 h2 => by obtain ⟨e, he, h'⟩ := h.wanted.somePrecursor h1 h2; exact ⟨e, hr.mem_iff.mpr he, h'⟩,
    fun h1 h2 e he => h.wanted.targets h1 h2 e (hp.mem_iff.mp he),
    fun h1 h2 => by obtain ⟨e, he, h'⟩ := h.wanted.someTarget h1 h2; exact ⟨e, hp.mem_iff.mpr he, h'⟩⟩
  elements := by
    unfold SizeOk
    rw [(List.Perm.dedup (els_perm _ _ hr)).length_eq]; exact h.elements
  system := fun h0 f hf => (els_perm _ _ hr).mem_iff.mpr (h.system h0 f hf)

/-- **C134, exactness (partial: open phases on both sides are left out, see `C124_both_sides_violated`, and so are systems of ten or more
elements).** An enumeration with open phases returns a reaction between the phases `r` and the phases `p` if and only if it is one that
is asked for; it does so once, and with its coefficients up to a positive factor. -/
theorem C134_exact_partial (X : Chem κ Sym) (hX : X.Lawful) (hsym : Symbols fun e : Entry κ => X.elems e.comp)
    (cfg : Cfg (Entry κ)) (entries : List (Entry κ)) (hcfg : Opened cfg entries) (hn : (entries.map fun e => X.red e.comp).Nodup)
    (hsharp : Sharp X entries) (n : ℤ) (out : List (Rx (Entry κ))) (h : ReturnsOpen X cfg entries n out)
    (r p : List (Entry κ)) (hr : r.Nodup) (hp : p.Nodup) :
    (Found out r p ↔ ∃ a b, SoughtOpen X cfg entries n r p a b) ∧
    ∀ a b, SoughtOpen X cfg entries n r p a b → ∃ g : CRxn κ, out.filter (fun x => decide (sides x = (r.toFinset, p.toFinset))) = [viewOf g] ∧
      Whole X g ∧ ∃ s : ℚ, 0 < s ∧ (g.entries.zip g.base.coeffs).Perm ((r.map fun x => (x, -(a x) * s)) ++ p.map fun x => (x, b x * s)) := by
  obtain ⟨τ, iterLen, tagOf, chunkSize, maxJobs, wait, pinv, hw, hpinv, hrun⟩ := h
  have hnE : entries.Nodup := List.Nodup.of_map _ hn
  have key : ∀ a b, SoughtOpen X cfg entries n r p a b → ∃ g : CRxn κ,
      out.filter (fun x => decide (sides x = (r.toFinset, p.toFinset))) = [viewOf g] ∧
      Whole X g ∧ ∃ s : ℚ, 0 < s ∧ (g.entries.zip g.base.coeffs).Perm ((r.map fun x => (x, -(a x) * s)) ++ p.map fun x => (x, b x * s)) := by
    intro a b hS
    obtain ⟨g, hg, hc⟩ := open_found_once X hX hsym pinv hpinv cfg hcfg.once hcfg.removes (by rw [hcfg.constraints]) entries hn n iterLen tagOf
      chunkSize maxJobs wait hw out hrun r p hS.nodupR hS.nodupP hS.someR hS.someP hS.sizeR hS.sizeP hS.inR hS.inP hS.disjoint hS.oneSide a b hS.balances
      hS.wanted hS.elements hS.system
    refine ⟨g, ?_, hc⟩
    rw [← hg]
    apply List.filter_congr
    intro x _
    simp only [sides, Prod.mk.injEq]
  refine ⟨⟨?_, ?_⟩, key⟩
  · rintro ⟨x, hx, h1, h2⟩
    obtain ⟨a, b, hS⟩ := C134_sound_partial X hX hsym pinv hpinv cfg hcfg.once hcfg.removes hcfg.constraints entries hnE hcfg.given hsharp n
      iterLen tagOf chunkSize maxJobs wait hw out hrun x hx
    exact ⟨a, b, hS.perm (perm_of_toFinset _ _ hS.nodupR hr h1.symm) (perm_of_toFinset _ _ hS.nodupP hp h2.symm)⟩
  · rintro ⟨a, b, hS⟩
    obtain ⟨g, hg, _⟩ := key a b hS
    have : viewOf g ∈ out.filter (fun x => decide (sides x = (r.toFinset, p.toFinset))) := by rw [hg]; simp
    obtain ⟨h1, h2⟩ := List.mem_filter.mp this
    have h3 := of_decide_eq_true h2
    exact ⟨viewOf g, h1, congrArg Prod.fst h3, congrArg Prod.snd h3⟩

/-- Every returned reaction is one that is asked for. -/
theorem returned_sought_open (X : Chem κ Sym) (hX : X.Lawful) (hsym : Symbols fun e : Entry κ => X.elems e.comp)
    (cfg : Cfg (Entry κ)) (entries : List (Entry κ)) (hcfg : Opened cfg entries) (hn : (entries.map fun e => X.red e.comp).Nodup)
    (hsharp : Sharp X entries) (n : ℤ) (out : List (Rx (Entry κ))) (h : ReturnsOpen X cfg entries n out) (x : Rx (Entry κ)) (hx : x ∈ out) :
    ∃ a b, SoughtOpen X cfg entries n x.reactants x.products a b := by
  obtain ⟨τ, iterLen, tagOf, chunkSize, maxJobs, wait, pinv, hw, hpinv, hrun⟩ := h
  exact C134_sound_partial X hX hsym pinv hpinv cfg hcfg.once hcfg.removes hcfg.constraints entries (List.Nodup.of_map _ hn) hcfg.given hsharp n
    iterLen tagOf chunkSize maxJobs wait hw out hrun x hx

/-- **C134, no reaction twice.** -/
theorem C134_once (X : Chem κ Sym) (hX : X.Lawful) (hsym : Symbols fun e : Entry κ => X.elems e.comp)
    (cfg : Cfg (Entry κ)) (entries : List (Entry κ)) (hcfg : Opened cfg entries) (hn : (entries.map fun e => X.red e.comp).Nodup)
    (hsharp : Sharp X entries) (n : ℤ) (out : List (Rx (Entry κ))) (h : ReturnsOpen X cfg entries n out) : (out.map sides).Nodup := by
  rw [List.nodup_iff_count_le_one]
  intro y
  by_cases hy : y ∈ out.map sides
  · obtain ⟨x, hx, rfl⟩ := List.mem_map.mp hy
    obtain ⟨a, b, hS⟩ := returned_sought_open X hX hsym cfg entries hcfg hn hsharp n out h x hx
    obtain ⟨g, hg, _⟩ := (C134_exact_partial X hX hsym cfg entries hcfg hn hsharp n out h x.reactants x.products hS.nodupR hS.nodupP).2 a b hS
    rw [List.count, List.countP_map, List.countP_eq_length_filter]
    have e : out.filter ((fun z => z == sides x) ∘ sides) = out.filter (fun z => decide (sides z = (x.reactants.toFinset, x.products.toFinset))) := by
      apply List.filter_congr
      intro z _
      rw [Function.comp_apply, Bool.eq_iff_iff]
      simp [sides]
    rw [e, hg]
    exact le_refl _
  · rw [List.count_eq_zero_of_not_mem hy]
    exact Nat.zero_le _

theorem Wanted.looserOpen {cfg cfg' : Cfg (Entry κ)} (hL : Looser cfg cfg') (ho : ∀ e, e ∈ cfg'.openEntries ↔ e ∈ cfg.openEntries)
    {r p : List (Entry κ)} (hr : ∃ x ∈ r, x ∉ cfg.openEntries) (hp : ∃ x ∈ p, x ∉ cfg.openEntries) (h : Wanted cfg r p) : Wanted cfg' r p := by
  refine ⟨fun h1 h2 e he h3 => ?_, fun h1 _ => ?_, fun h1 h2 e he h3 => ?_, fun h1 _ => ?_⟩
  · rcases hL.precursors with h0 | ⟨h0, hs, hx⟩
    · exact absurd h0 h1
    · exact hs e (h.precursors h0 (hx h2) e he fun h => h3 ((ho e).mpr h))
  · rcases hL.precursors with h0 | ⟨h0, hs, _⟩
    · exact absurd h0 h1
    · cases hex : cfg.exclP
      · obtain ⟨e, he, h2, h3⟩ := h.somePrecursor h0 hex
        exact ⟨e, he, fun h => h2 ((ho e).mp h), hs e h3⟩
      · obtain ⟨e, he, h2⟩ := hr
        exact ⟨e, he, fun h => h2 ((ho e).mp h), hs e (h.precursors h0 hex e he h2)⟩
  · rcases hL.targets with h0 | ⟨h0, hs, hx⟩
    · exact absurd h0 h1
    · exact hs e (h.targets h0 (hx h2) e he fun h => h3 ((ho e).mpr h))
  · rcases hL.targets with h0 | ⟨h0, hs, _⟩
    · exact absurd h0 h1
    · cases hex : cfg.exclT
      · obtain ⟨e, he, h2, h3⟩ := h.someTarget h0 hex
        exact ⟨e, he, fun h => h2 ((ho e).mp h), hs e h3⟩
      · obtain ⟨e, he, h2⟩ := hp
        exact ⟨e, he, fun h => h2 ((ho e).mp h), hs e (h.targets h0 hex e he h2)⟩

theorem SoughtOpen.looser {X : Chem κ Sym} {cfg cfg' : Cfg (Entry κ)} {entries entries' : List (Entry κ)} {n n' : ℤ} {r p : List (Entry κ)}
    {a b : Entry κ → ℚ} (h : SoughtOpen X cfg entries n r p a b) (hs : ∀ e ∈ entries, e ∈ entries') (hn : n ≤ n')
    (hL : Looser cfg cfg') (ho : ∀ e, e ∈ cfg'.openEntries ↔ e ∈ cfg.openEntries) : SoughtOpen X cfg' entries' n' r p a b := by
  have hels : ∀ s, s ∈ els (fun e => X.elems e.comp) r (cfg'.openEntries.flatMap fun e => X.elems e.comp) ↔
      s ∈ els (fun e => X.elems e.comp) r (cfg.openEntries.flatMap fun e => X.elems e.comp) := by
    intro s
    simp only [els, List.mem_append, List.mem_flatMap, ho]
  have hlen : (els (fun e => X.elems e.comp) r (cfg'.openEntries.flatMap fun e => X.elems e.comp)).dedup.length =
      (els (fun e => X.elems e.comp) r (cfg.openEntries.flatMap fun e => X.elems e.comp)).dedup.length := by
    apply List.Perm.length_eq
    rw [List.perm_ext_iff_of_nodup (List.nodup_dedup _) (List.nodup_dedup _)]
    intro s
    rw [List.mem_dedup, List.mem_dedup]
    exact hels s
  have hfil : ∀ l : List (Entry κ), (l.filter fun x => x ∉ cfg'.openEntries) = l.filter fun x => x ∉ cfg.openEntries := by
    intro l
    apply List.filter_congr
    intro x _
    simp only [ho]
  exact
    { nodupR := h.nodupR
      nodupP := h.nodupP
      someR := by obtain ⟨x, hx, h1⟩ := h.someR; exact ⟨x, hx, fun h => h1 ((ho x).mp h)⟩
      someP := by obtain ⟨x, hx, h1⟩ := h.someP; exact ⟨x, hx, fun h => h1 ((ho x).mp h)⟩
      sizeR := by rw [hfil]; exact h.sizeR.trans hn
      sizeP := by rw [hfil]; exact h.sizeP.trans hn
      inR := fun x hx => hs x (h.inR x hx)
      inP := fun x hx => hs x (h.inP x hx)
      disjoint := h.disjoint
      oneSide := by simpa only [OpenOn, ho] using h.oneSide
      balances := h.balances
      wanted := Wanted.looserOpen hL ho h.someR h.someP h.wanted
      elements := by
        unfold SizeOk
        rw [hlen]
        exact h.elements
      system := fun h0 f hf => by
        rcases hL.system with h1 | ⟨h1, h2⟩
        · exact absurd h1 h0
        · exact (hels f).mpr (h.system h1 f (h2 f hf)) }

/-- **C134, growth.** With more phases, the same open ones, a larger maximum of phases per side and looser requirements, everything that
was found is still found. -/
theorem C134_monotone (X : Chem κ Sym) (hX : X.Lawful) (hsym : Symbols fun e : Entry κ => X.elems e.comp)
    (cfg cfg' : Cfg (Entry κ)) (entries entries' : List (Entry κ)) (hcfg : Opened cfg entries) (hcfg' : Opened cfg' entries')
    (hL : Looser cfg cfg') (ho : ∀ e, e ∈ cfg'.openEntries ↔ e ∈ cfg.openEntries)
    (hn : (entries'.map fun e => X.red e.comp).Nodup) (hn0 : entries.Nodup) (hs : ∀ e ∈ entries, e ∈ entries')
    (hsharp : Sharp X entries') (n n' : ℤ) (hnn : n ≤ n')
    (out out' : List (Rx (Entry κ))) (h : ReturnsOpen X cfg entries n out) (h' : ReturnsOpen X cfg' entries' n' out') :
    (out.map sides).Subperm (out'.map sides) := by
  have hnE : (entries.map fun e => X.red e.comp).Nodup :=
    hn0.map_on fun x hx y hy hxy => List.inj_on_of_nodup_map hn (hs x hx) (hs y hy) hxy
  have hsharp0 : Sharp X entries := fun r p h1 h2 => hsharp r p h1 fun x hx => hs x (h2 x hx)
  apply List.subperm_of_subset (C134_once X hX hsym cfg entries hcfg hnE hsharp0 n out h)
  intro y hy
  obtain ⟨x, hx, rfl⟩ := List.mem_map.mp hy
  obtain ⟨a, b, hS⟩ := returned_sought_open X hX hsym cfg entries hcfg hnE hsharp0 n out h x hx
  obtain ⟨z, hz, h1, h2⟩ := (C134_exact_partial X hX hsym cfg' entries' hcfg' hn hsharp n' out' h' x.reactants x.products hS.nodupR hS.nodupP).1.mpr
    ⟨a, b, hS.looser hs hnn hL ho⟩
  exact List.mem_map.mpr ⟨z, hz, by rw [sides, sides, h1, h2]⟩

/-- **C134, only the sets of phases matter.** Two runs on the same phases and the same open phases, listed in any orders, with any chunk
sizes, numbers of jobs, orders of completion and linear algebra, return the same reactions. -/
theorem C134_same (X : Chem κ Sym) (hX : X.Lawful) (hsym : Symbols fun e : Entry κ => X.elems e.comp)
    (cfg : Cfg (Entry κ)) (opens' entries entries' : List (Entry κ)) (hcfg : Opened cfg entries) (hperm : entries.Perm entries')
    (hopens : cfg.openEntries.Perm opens') (hn : (entries.map fun e => X.red e.comp).Nodup) (hsharp : Sharp X entries) (n : ℤ)
    (out out' : List (Rx (Entry κ))) (h : ReturnsOpen X cfg entries n out) (h' : ReturnsOpen X { cfg with openEntries := opens' } entries' n out') :
    (out.map sides).Perm (out'.map sides) := by
  have hn' : (entries'.map fun e => X.red e.comp).Nodup := (hperm.map _).nodup_iff.mp hn
  have hsharp' : Sharp X entries' := fun r p h1 h2 => hsharp r p h1 fun x hx => hperm.mem_iff.mpr (h2 x hx)
  have hcfg' : Opened { cfg with openEntries := opens' } entries' :=
    ⟨hopens.nodup_iff.mp hcfg.once, fun x hx => hperm.mem_iff.mp (hcfg.given x (hopens.mem_iff.mpr hx)), hcfg.removes, hcfg.constraints⟩
  have hL := Looser.refl cfg
  have h1 := C134_monotone X hX hsym cfg { cfg with openEntries := opens' } entries entries' hcfg hcfg' ⟨hL.1, hL.2, hL.3⟩
    (fun e => hopens.mem_iff.symm) hn' (List.Nodup.of_map _ hn) (fun e he => hperm.mem_iff.mp he) hsharp' n n (le_refl _) out out' h h'
  have h2 := C134_monotone X hX hsym { cfg with openEntries := opens' } cfg entries' entries hcfg' hcfg ⟨hL.1, hL.2, hL.3⟩
    (fun e => hopens.mem_iff) hn (List.Nodup.of_map _ hn') (fun e he => hperm.mem_iff.mpr he) hsharp n n (le_refl _) out' out h' h
  exact h1.antisymm h2

/-- **C134, both directions.** Without precursors and targets, a reaction is found if and only if its reverse is. -/
theorem C134_reverse (X : Chem κ Sym) (hX : X.Lawful) (hsym : Symbols fun e : Entry κ => X.elems e.comp)
    (cfg : Cfg (Entry κ)) (hpre : cfg.precursors = []) (htar : cfg.targets = []) (entries : List (Entry κ)) (hcfg : Opened cfg entries)
    (hn : (entries.map fun e => X.red e.comp).Nodup) (hsharp : Sharp X entries) (n : ℤ) (out : List (Rx (Entry κ)))
    (h : ReturnsOpen X cfg entries n out) (r p : List (Entry κ)) (hr : r.Nodup) (hp : p.Nodup) : Found out r p ↔ Found out p r := by
  have key : ∀ r p a b, SoughtOpen X cfg entries n r p a b → SoughtOpen X cfg entries n p r b a := by
    intro r p a b hS
    have hmem : ∀ s, s ∈ els (fun e => X.elems e.comp) p (cfg.openEntries.flatMap fun e => X.elems e.comp) ↔
        s ∈ els (fun e => X.elems e.comp) r (cfg.openEntries.flatMap fun e => X.elems e.comp) := by
      intro s
      have := same_elements _ _ (comps X hX) r p (balanceable X hX r p a b hS.balances) s
      rw [els, els, List.mem_append, List.mem_append]
      exact or_congr this.symm Iff.rfl
    have hlen : (els (fun e => X.elems e.comp) p (cfg.openEntries.flatMap fun e => X.elems e.comp)).dedup.length =
        (els (fun e => X.elems e.comp) r (cfg.openEntries.flatMap fun e => X.elems e.comp)).dedup.length := by
      apply List.Perm.length_eq
      rw [List.perm_ext_iff_of_nodup (List.nodup_dedup _) (List.nodup_dedup _)]
      intro s
      rw [List.mem_dedup, List.mem_dedup]
      exact hmem s
    exact ⟨hS.nodupP, hS.nodupR, hS.someP, hS.someR, hS.sizeP, hS.sizeR, hS.inP, hS.inR, fun x hx hx' => hS.disjoint x hx' hx, hS.oneSide.symm,
      hS.balances.symm, ⟨fun h => absurd hpre h, fun h => absurd hpre h, fun h => absurd htar h, fun h => absurd htar h⟩,
      by unfold SizeOk; rw [hlen]; exact hS.elements, fun h0 f hf => (hmem f).mpr (hS.system h0 f hf)⟩
  rw [(C134_exact_partial X hX hsym cfg entries hcfg hn hsharp n out h r p hr hp).1,
    (C134_exact_partial X hX hsym cfg entries hcfg hn hsharp n out h p r hp hr).1]
  exact ⟨fun ⟨a, b, h⟩ => ⟨b, a, key r p a b h⟩, fun ⟨a, b, h⟩ => ⟨b, a, key p r a b h⟩⟩

/-- **C134, with the closed enumeration.** A run on closed reactions and a run with open phases, on the same phases and without further
requirements, together find every reaction that balances in one way, has at most `n` phases on a side that are not open, and has open
phases on one side at most. -/
theorem C134_together (X : Chem κ Sym) (hX : X.Lawful) (hsym : Symbols fun e : Entry κ => X.elems e.comp)
    (cfg : Cfg (Entry κ)) (hpre : cfg.precursors = []) (htar : cfg.targets = []) (hsys : cfg.filterChemsys = [])
    (entries : List (Entry κ)) (hcfg : Opened cfg entries)
    (hn : (entries.map fun e => X.red e.comp).Nodup) (hsharp : Sharp X entries) (n : ℤ) (out out' : List (Rx (Entry κ)))
    (h : Returns X { cfg with openEntries := [] } entries n out) (h' : ReturnsOpen X cfg entries n out')
    (r p : List (Entry κ)) (hr : r.Nodup) (hp : p.Nodup) (hr0 : ∃ x ∈ r, x ∉ cfg.openEntries) (hp0 : ∃ x ∈ p, x ∉ cfg.openEntries)
    (hrn : ((r.filter fun x => x ∉ cfg.openEntries).length : ℤ) ≤ n) (hpn : ((p.filter fun x => x ∉ cfg.openEntries).length : ℤ) ≤ n)
    (hre : ∀ x ∈ r, x ∈ entries) (hpe : ∀ x ∈ p, x ∈ entries) (hdis : ∀ x ∈ r, x ∉ p)
    (hone : (∀ x ∈ r, x ∉ cfg.openEntries) ∨ (∀ x ∈ p, x ∉ cfg.openEntries)) (a b : Entry κ → ℚ) (hbal : Balances X r p a b)
    (hel : 2 ≤ (r.flatMap fun e => X.elems e.comp).dedup.length)
    (hel' : ((r ++ cfg.openEntries).flatMap fun e => X.elems e.comp).dedup.length ≤ 9) : Found out r p ∨ Found out' r p := by
  have hsub : ∀ l m : List Sym, l ⊆ m → l.dedup.length ≤ m.dedup.length := fun l m hlm =>
    ((List.nodup_dedup l).subperm fun x hx => List.mem_dedup.mpr (hlm (List.mem_dedup.mp hx))).length_le
  rw [List.flatMap_append] at hel'
  have w : ∀ o, Wanted { cfg with openEntries := o } r p := fun o =>
    ⟨fun h => absurd hpre h, fun h => absurd hpre h, fun h => absurd htar h, fun h => absurd htar h⟩
  by_cases hrp : (∀ x ∈ r, x ∉ cfg.openEntries) ∧ (∀ x ∈ p, x ∉ cfg.openEntries)
  · left
    have e1 : (r.filter fun x => x ∉ cfg.openEntries) = r := List.filter_eq_self.mpr fun y hy => by simpa using hrp.1 y hy
    have e2 : (p.filter fun x => x ∉ cfg.openEntries) = p := List.filter_eq_self.mpr fun y hy => by simpa using hrp.2 y hy
    rw [e1] at hrn
    rw [e2] at hpn
    refine (C132_exact_partial X hX hsym { cfg with openEntries := [] } ⟨rfl, hcfg.removes, hcfg.constraints⟩ entries hn hsharp n out h r p hr hp).1.mpr
      ⟨a, b, hr, hp, ?_, ?_, hrn, hpn, hre, hpe, hdis, hbal, w [], ⟨hel, ?_⟩, fun h0 => absurd hsys h0⟩
    · obtain ⟨x, hx, _⟩ := hr0; exact List.ne_nil_of_mem hx
    · obtain ⟨x, hx, _⟩ := hp0; exact List.ne_nil_of_mem hx
    · exact (hsub _ _ fun x hx => List.mem_append_left _ hx).trans hel'
  · right
    refine (C134_exact_partial X hX hsym cfg entries hcfg hn hsharp n out' h' r p hr hp).1.mpr
      ⟨a, b, hr, hp, hr0, hp0, hrn, hpn, hre, hpe, hdis, ?_, hbal, w cfg.openEntries, ⟨?_, hel'⟩, fun h0 => absurd hsys h0⟩
    · rcases hone with h1 | h1
      · have : ¬ ∀ x ∈ p, x ∉ cfg.openEntries := fun h2 => hrp ⟨h1, h2⟩
        push Not at this
        exact .inl ⟨h1, this⟩
      · have : ¬ ∀ x ∈ r, x ∉ cfg.openEntries := fun h2 => hrp ⟨h2, h1⟩
        push Not at this
        exact .inr ⟨h1, this⟩
    · exact hel.trans (hsub _ _ fun x hx => List.mem_append_left _ hx)

/-! ### Examples -/

/-- A is open; no other requirements. -/
def exOpen : Cfg (Entry (Fin 4)) := ⟨[], [], [⟨0, -1⟩], true, false, true, true, 1, []⟩

theorem exOpened : Opened exOpen exThree := ⟨by decide +kernel, by decide +kernel, rfl, rfl⟩

theorem openReturns {κ : Type} [DecidableEq κ] (X : Chem κ Sym) (cfg : Cfg (Entry κ)) (entries : List (Entry κ)) (n : ℤ) :
    ∃ out, ReturnsOpen X cfg entries n out := by
  obtain ⟨pinv, hp⟩ := exact_exists
  obtain ⟨out, ho⟩ := C124_runs X (rankFor X) (solveFor X pinv) (fun e => X.elems e.comp)
    cfg entries n (fun c => pairsOpen c (openCombos cfg.openEntries))
    (fun c => c.length.choose 2) (fun _ => ()) 1 10 (by norm_num) (by norm_num) Verif.Props.Utils.lifo Verif.Props.Utils.lifo_spec
  exact ⟨out, Unit, _, _, 1, 10, _, pinv, Verif.Props.Utils.lifo_spec, hp, ho⟩

theorem exSoughtOpen : SoughtOpen exChem exOpen exThree 1 [⟨0, -1⟩, ⟨1, -1⟩] [⟨2, -3⟩] (fun _ => 1) fun _ => 1 :=
  ⟨by decide +kernel, by decide +kernel, by decide +kernel, by decide +kernel, by decide +kernel, by decide +kernel, by decide +kernel,
    by decide +kernel, by decide +kernel, .inr ⟨by decide +kernel, by decide +kernel⟩, exFormation,
    ⟨by decide +kernel, by decide +kernel, by decide +kernel, by decide +kernel⟩, ⟨by decide +kernel, by decide +kernel⟩, by decide +kernel⟩

/-- With A open and one other phase on a side, B + A → AB and its reverse are found, once each; B → AB is not; a run on the phases in
the other order returns the same reactions; and so does a run that allows two phases on a side. -/
example : ∃ out out' out'', ReturnsOpen exChem exOpen exThree 1 out ∧ ReturnsOpen exChem exOpen exThree.reverse 1 out' ∧
    ReturnsOpen exChem exOpen exThree 2 out'' ∧
    Found out [⟨0, -1⟩, ⟨1, -1⟩] [⟨2, -3⟩] ∧ Found out [⟨2, -3⟩] [⟨0, -1⟩, ⟨1, -1⟩] ∧ ¬ Found out [⟨1, -1⟩] [⟨2, -3⟩] ∧
    (out.map sides).Nodup ∧ (out.map sides).Perm (out'.map sides) ∧ (out.map sides).Subperm (out''.map sides) := by
  obtain ⟨out, h⟩ := openReturns exChem exOpen exThree 1
  obtain ⟨out', h'⟩ := openReturns exChem exOpen exThree.reverse 1
  obtain ⟨out'', h''⟩ := openReturns exChem exOpen exThree 2
  have f1 := (C134_exact_partial exChem exLawful exSymbols exOpen exThree exOpened (by decide) exSharp 1 out h [⟨0, -1⟩, ⟨1, -1⟩] [⟨2, -3⟩]
    (by decide +kernel) (by decide +kernel)).1.mpr ⟨_, _, exSoughtOpen⟩
  refine ⟨out, out', out'', h, h', h'', f1, ?_, ?_, C134_once exChem exLawful exSymbols exOpen exThree exOpened (by decide) exSharp 1 out h, ?_, ?_⟩
  · exact (C134_reverse exChem exLawful exSymbols exOpen rfl rfl exThree exOpened (by decide) exSharp 1 out h _ _ (by decide +kernel)
      (by decide +kernel)).mp f1
  · intro hf
    obtain ⟨a, b, hS⟩ := (C134_exact_partial exChem exLawful exSymbols exOpen exThree exOpened (by decide) exSharp 1 out h [⟨1, -1⟩] [⟨2, -3⟩]
      (by decide +kernel) (by decide +kernel)).1.mp hf
    rcases hS.oneSide with h | h
    · exact absurd h.2 (by decide +kernel)
    · exact absurd h.2 (by decide +kernel)
  · exact C134_same exChem exLawful exSymbols exOpen [⟨0, -1⟩] exThree exThree.reverse exOpened (List.reverse_perm _).symm (List.Perm.refl _)
      (by decide) exSharp 1 out out' h h'
  · exact C134_monotone exChem exLawful exSymbols exOpen exOpen exThree exThree exOpened exOpened (Looser.refl _) (fun _ => Iff.rfl) (by decide)
      (by decide +kernel) (fun _ h => h) exSharp 1 2 (by norm_num) out out'' h h''

/-- A closed run with one phase on a side does not find A + B → AB, but together with the run in which A is open it does. -/
example : ∃ out out', Returns exChem { exOpen with openEntries := [] } exThree 1 out ∧ ReturnsOpen exChem exOpen exThree 1 out' ∧
    ¬ Found out [⟨0, -1⟩, ⟨1, -1⟩] [⟨2, -3⟩] ∧ (Found out [⟨0, -1⟩, ⟨1, -1⟩] [⟨2, -3⟩] ∨ Found out' [⟨0, -1⟩, ⟨1, -1⟩] [⟨2, -3⟩]) := by
  obtain ⟨out, h⟩ := exReturns exThree 1 { exOpen with openEntries := [] }
  obtain ⟨out', h'⟩ := openReturns exChem exOpen exThree 1
  refine ⟨out, out', h, h', ?_, ?_⟩
  · intro hf
    obtain ⟨a, b, hS⟩ := (C132_exact_partial exChem exLawful exSymbols { exOpen with openEntries := [] } ⟨rfl, rfl, rfl⟩ exThree (by decide) exSharp 1 out h
      [⟨0, -1⟩, ⟨1, -1⟩] [⟨2, -3⟩] (by decide +kernel) (by decide +kernel)).1.mp hf
    exact absurd hS.sizeR (by decide)
  · exact C134_together exChem exLawful exSymbols exOpen rfl rfl rfl exThree exOpened (by decide) exSharp 1 out out' h h' _ _ (by decide +kernel)
      (by decide +kernel) (by decide +kernel) (by decide +kernel) (by decide +kernel) (by decide +kernel) (by decide +kernel) (by decide +kernel)
      (by decide +kernel) (.inr (by decide +kernel)) _ _ exFormation (by decide +kernel) (by decide +kernel)

/-! ### A filter that an open phase meets without taking part -/

/-- The amounts of M, C and O in the phases M, C, O and MO. -/
def flAmt : Fin 4 → ℚ × ℚ × ℚ
  | 0 => (1, 0, 0)
  | 1 => (0, 1, 0)
  | 2 => (0, 0, 1)
  | 3 => (1, 0, 1)

def flChem : Chem (Fin 4) Sym where
  amt c s := if s = ['M'] then (flAmt c).1 else if s = ['C'] then (flAmt c).2.1 else if s = ['O'] then (flAmt c).2.2 else 0
  elems c := (if (flAmt c).1 = 0 then [] else [['M']]) ++ (if (flAmt c).2.1 = 0 then [] else [['C']]) ++ if (flAmt c).2.2 = 0 then [] else [['O']]
  red c := c
  fac _ := 1

theorem flLawful : flChem.Lawful where
  nonneg c s := by
    unfold flChem
    fin_cases c <;> simp only [flAmt] <;> split_ifs <;> norm_num
  mem_elems c s := by
    unfold flChem
    fin_cases c <;> simp only [flAmt] <;> by_cases h1 : s = ['M'] <;> by_cases h2 : s = ['C'] <;> by_cases h3 : s = ['O'] <;>
      simp [h1, h2, h3]
  nodup c := by
    unfold flChem
    fin_cases c <;> decide +kernel
  fac_pos _ := by unfold flChem; norm_num
  red_amt c s := by unfold flChem; simp
  red_red _ := rfl

theorem flSymbols : Symbols fun e : Entry (Fin 4) => flChem.elems e.comp where
  ne x := (by decide +kernel : ∀ c : Fin 4, flChem.elems c ≠ []) x.comp
  dash x := (by decide +kernel : ∀ c : Fin 4, ∀ s ∈ flChem.elems c, '-' ∉ s) x.comp

theorem flBalances : Balances flChem [⟨0, 0⟩, ⟨2, 0⟩] [⟨3, 0⟩] (fun _ => 1) fun _ => 1 where
  consumed := by decide +kernel
  made := by decide +kernel
  conserved s := by
    by_cases h1 : s = ['M'] <;> by_cases h2 : s = ['C'] <;> by_cases h3 : s = ['O'] <;> simp [flChem, flAmt, h1, h2, h3]
  only c hc := by
    have hA := hc ['M']
    have hC := hc ['O']
    simp [flChem, flAmt] at hA hC
    refine ⟨c ⟨3, 0⟩, ?_, ?_⟩
    · intro x hx
      simp only [List.mem_cons, List.not_mem_nil, or_false] at hx
      rcases hx with rfl | rfl <;> linarith
    · intro x hx
      rw [List.mem_singleton.mp hx]; ring

/-- **C134 violated: the filter by chemical system.** "This ensures that all output reactions contain at least one element within the
provided system" (src/rxn_network/enumerators/basic.py:483-485): with C and O open and the reactions filtered by the system `C`, every
run returns M + O → MO, in which there is no C. -/
theorem C134_filter_violated (out : List (Rx (Entry (Fin 4))))
    (h : ReturnsOpen flChem ⟨[], [], [⟨1, 0⟩, ⟨2, 0⟩], true, false, true, true, 1, ['C']⟩ [⟨0, 0⟩, ⟨1, 0⟩, ⟨2, 0⟩, ⟨3, 0⟩] 1 out) :
    ∃ x ∈ out, ∀ e ∈ x.reactants ++ x.products, ∀ s ∈ flChem.elems e.comp, s ∉ (['C'] : List Char).splitOn '-' := by
  obtain ⟨τ, iterLen, tagOf, chunkSize, maxJobs, wait, pinv, hw, hpinv, hrun⟩ := h
  obtain ⟨g, hg, _⟩ := open_found_once flChem flLawful flSymbols pinv hpinv ⟨[], [], [⟨1, 0⟩, ⟨2, 0⟩], true, false, true, true, 1, ['C']⟩
    (by decide +kernel) rfl (by decide +kernel) [⟨0, 0⟩, ⟨1, 0⟩, ⟨2, 0⟩, ⟨3, 0⟩] (by decide) 1 iterLen tagOf
    chunkSize maxJobs wait hw out hrun [⟨0, 0⟩, ⟨2, 0⟩] [⟨3, 0⟩] (by decide +kernel) (by decide +kernel) (by decide +kernel) (by decide +kernel)
    (by decide +kernel) (by decide +kernel) (by decide +kernel) (by decide +kernel) (by decide +kernel)
    (.inr ⟨by decide +kernel, by decide +kernel⟩) _ _ flBalances
    ⟨by decide +kernel, by decide +kernel, by decide +kernel, by decide +kernel⟩ ⟨by decide +kernel, by decide +kernel⟩ (by decide +kernel)
  have hm : viewOf g ∈ out.filter (fun x => decide (x.reactants.toFinset = [⟨0, 0⟩, ⟨2, 0⟩].toFinset ∧ x.products.toFinset = [⟨3, 0⟩].toFinset)) := by
    rw [hg]; simp
  obtain ⟨h1, h2⟩ := List.mem_filter.mp hm
  obtain ⟨h3, h4⟩ := of_decide_eq_true h2
  refine ⟨viewOf g, h1, fun e he => ?_⟩
  have he' : e ∈ ([⟨0, 0⟩, ⟨2, 0⟩, ⟨3, 0⟩] : List (Entry (Fin 4))) := by
    rcases List.mem_append.mp he with he | he
    · have : e ∈ ([⟨0, 0⟩, ⟨2, 0⟩] : List (Entry (Fin 4))).toFinset := h3 ▸ List.mem_toFinset.mpr he
      simp at this ⊢
      tauto
    · have : e ∈ ([⟨3, 0⟩] : List (Entry (Fin 4))).toFinset := h4 ▸ List.mem_toFinset.mpr he
      simp at this ⊢
      tauto
  revert e
  intro e _ he'
  exact (by decide +kernel : ∀ e ∈ ([⟨0, 0⟩, ⟨2, 0⟩, ⟨3, 0⟩] : List (Entry (Fin 4))), ∀ s ∈ flChem.elems e.comp, s ∉ (['C'] : List Char).splitOn '-') e he'

example : ∃ out, ReturnsOpen flChem ⟨[], [], [⟨1, 0⟩, ⟨2, 0⟩], true, false, true, true, 1, ['C']⟩ [⟨0, 0⟩, ⟨1, 0⟩, ⟨2, 0⟩, ⟨3, 0⟩] 1 out :=
  openReturns _ _ _ _

end Verif.Props.EnumOpenExact
