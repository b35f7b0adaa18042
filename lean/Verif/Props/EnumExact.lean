import Verif.Props.EnumComplete

/-! Property C132: an enumeration returns exactly the reactions that can be made of the phases, so its result depends on the set of
phases only, and grows with it. -/

set_option linter.unusedSectionVars false

namespace Verif.Props.EnumExact
open Verif.Py Verif.Model Verif.Model.Enum Verif.Model.Reaction Verif.Spec.Reaction Verif.Lemmas Verif.Lemmas.Exc Verif.Props.Enum
  Verif.Props.EnumGroup Verif.Props.BalanceLinear Verif.Props.EnumComplete
open Verif.Props.Balance (compMatrix net_ofFn)

variable {κ : Type} [DecidableEq κ]

/-! ### Specification -/

/-- `r → p` is a reaction that the settings ask for, among the phases `entries` with at most `n` phases on a side. -/
structure Sought (X : Chem κ Sym) (cfg : Cfg (Entry κ)) (entries : List (Entry κ)) (n : ℤ) (r p : List (Entry κ)) (a b : Entry κ → ℚ) : Prop where
  nodupR : r.Nodup
  nodupP : p.Nodup
  someR : r ≠ []
  someP : p ≠ []
  sizeR : (r.length : ℤ) ≤ n
  sizeP : (p.length : ℤ) ≤ n
  inR : ∀ x ∈ r, x ∈ entries
  inP : ∀ x ∈ p, x ∈ entries
  disjoint : ∀ x ∈ r, x ∉ p
  balances : Balances X r p a b
  wanted : Wanted cfg r p
  elements : 2 ≤ (r.flatMap fun e => X.elems e.comp).dedup.length ∧ (r.flatMap fun e => X.elems e.comp).dedup.length ≤ 9
  system : cfg.filterChemsys ≠ [] → ∀ f ∈ cfg.filterChemsys.splitOn '-', f ∈ r.flatMap fun e => X.elems e.comp

/-- The phases are told apart by the tolerance of the balancing code (src/rxn_network/reactions/basic.py:410): two groups that balance
within `1e-8` with coefficients of at least `1e-6` also balance exactly. -/
def Sharp (X : Chem κ Sym) (entries : List (Entry κ)) : Prop :=
  ∀ r p : List (Entry κ), (r ++ p).Nodup → (∀ x ∈ r ++ p, x ∈ entries) → ∀ v : Entry κ → ℚ,
    (∀ x ∈ r, v x ≤ -(1 / 1000000)) → (∀ x ∈ p, 1 / 1000000 ≤ v x) →
    (∀ s, |((r ++ p).map fun x => v x * X.amt (X.red x.comp) s).sum| ≤ 1 / 100000000) →
    ∃ w : Entry κ → ℚ, (∀ x ∈ r, w x < 0) ∧ (∀ x ∈ p, 0 < w x) ∧ ∀ s, ((r ++ p).map fun x => w x * X.amt (X.red x.comp) s).sum = 0

/-- Some returned reaction consumes exactly the phases `r` and makes exactly the phases `p`. -/
def Found (out : List (Rx (Entry κ))) (r p : List (Entry κ)) : Prop :=
  ∃ x ∈ out, x.reactants.toFinset = r.toFinset ∧ x.products.toFinset = p.toFinset

/-- The two sets of phases of a returned reaction. -/
def sides (x : Rx (Entry κ)) : Finset (Entry κ) × Finset (Entry κ) := (x.reactants.toFinset, x.products.toFinset)

/-- Some run of the enumerator on closed reactions returns `out`: with any chunk size and number of jobs, any order in which the jobs
end, and any linear algebra that solves what is solvable. -/
def Returns (X : Chem κ Sym) (cfg : Cfg (Entry κ)) (entries : List (Entry κ)) (n : ℤ) (out : List (Rx (Entry κ))) : Prop :=
  ∃ (τ : Type) (iterLen : List (List (Entry κ)) → ℕ) (tagOf : List Char → τ) (chunkSize maxJobs : ℕ)
    (wait : ℕ → List (Chunk (List (Entry κ) × List (Entry κ)) τ) → List (Chunk (List (Entry κ) × List (Entry κ)) τ) × List (Chunk (List (Entry κ) × List (Entry κ)) τ))
    (pinv : ℕ → List (List ℚ) → List ℚ → List ℚ), Verif.Props.Utils.WaitSpec wait ∧ Exact pinv ∧
    enumerate (fun e => X.elems e.comp) cfg entries n pairs2 iterLen tagOf chunkSize maxJobs (reactBasic X (rankFor X) (solveFor X pinv)) wait = .ok out

/-- The defaults, src/rxn_network/enumerators/basic.py:45-66: reactions that lose a phase are removed, one constraint. No phase is open. -/
structure Plain (cfg : Cfg (Entry κ)) : Prop where
  closed : cfg.openEntries = []
  removes : cfg.removeChanged = true
  constraints : cfg.maxConstraints = 1

/-- `cfg'` asks for less than `cfg`: fewer requirements, or more phases to meet them. -/
structure Looser (cfg cfg' : Cfg (Entry κ)) : Prop where
  precursors : cfg'.precursors = [] ∨ (cfg.precursors ≠ [] ∧ (∀ e ∈ cfg.precursors, e ∈ cfg'.precursors) ∧ (cfg'.exclP = true → cfg.exclP = true))
  targets : cfg'.targets = [] ∨ (cfg.targets ≠ [] ∧ (∀ e ∈ cfg.targets, e ∈ cfg'.targets) ∧ (cfg'.exclT = true → cfg.exclT = true))
  system : cfg'.filterChemsys = [] ∨ (cfg.filterChemsys ≠ [] ∧ ∀ f ∈ cfg'.filterChemsys.splitOn '-', f ∈ cfg.filterChemsys.splitOn '-')

/-! ### Helper lemmas -/

/-- With rank at least the number of phases minus one, all exact solutions are multiples of a nonzero one. -/
theorem unique_of_rank (X : Chem κ Sym) (comps : List κ) (h : comps.length ≤ (compMatrix X comps).rank + 1)
    (v w : List ℚ) (hv : v.length = comps.length) (hw : w.length = comps.length) (hcv : Conserved X comps v) (hcw : Conserved X comps w)
    (hne : ∃ x ∈ v, x ≠ 0) : ∃ t : ℚ, w = v.map fun c => c * t := by
  have h1 := LinearMap.finrank_range_add_finrank_ker (compMatrix X comps).mulVecLin
  have h2 : Module.finrank ℚ (Fin comps.length → ℚ) = comps.length := by simp
  rw [h2] at h1
  have h3 : (compMatrix X comps).rank = Module.finrank ℚ (LinearMap.range (compMatrix X comps).mulVecLin) := rfl
  have h4 : Module.finrank ℚ (LinearMap.ker (compMatrix X comps).mulVecLin) ≤ 1 := by omega
  have hin : ∀ u : List ℚ, (hu : u.length = comps.length) → Conserved X comps u →
      (fun j : Fin comps.length => u[(j : ℕ)]) ∈ LinearMap.ker (compMatrix X comps).mulVecLin := by
    intro u hu hc
    have hof : List.ofFn (fun j : Fin comps.length => u[(j : ℕ)]) = u := by
      apply List.ext_getElem (by simp [hu])
      intro i h1 h2
      simp
    rw [LinearMap.mem_ker]
    funext i
    have := hc (Reaction.elements X comps)[i]
    rw [← hof, net_ofFn] at this
    simp only [Matrix.mulVecLin_apply, Matrix.mulVec, dotProduct, compMatrix, Matrix.of_apply, Pi.zero_apply]
    rw [← this]
    apply Finset.sum_congr rfl
    intro j _
    ring_nf
  rw [finrank_le_one_iff] at h4
  obtain ⟨⟨g, hg⟩, hgen⟩ := h4
  obtain ⟨cv, hcv'⟩ := hgen ⟨_, hin v hv hcv⟩
  obtain ⟨cw, hcw'⟩ := hgen ⟨_, hin w hw hcw⟩
  have ev : ∀ j : Fin comps.length, cv * g j = v[(j : ℕ)] := fun j => congrFun (congrArg Subtype.val hcv') j
  have ew : ∀ j : Fin comps.length, cw * g j = w[(j : ℕ)] := fun j => congrFun (congrArg Subtype.val hcw') j
  have hcv0 : cv ≠ 0 := by
    rintro rfl
    obtain ⟨x, hx, hx0⟩ := hne
    obtain ⟨i, hi, rfl⟩ := List.getElem_of_mem hx
    have := ev ⟨i, by omega⟩
    rw [zero_mul] at this
    exact hx0 this.symm
  refine ⟨cw / cv, ?_⟩
  apply List.ext_getElem (by simp [hv, hw])
  intro i h1 h2
  rw [List.getElem_map]
  have a1 := ev ⟨i, by omega⟩
  have a2 := ew ⟨i, by omega⟩
  simp only at a1 a2
  rw [← a1, ← a2]
  field_simp

/-- What a suggested reaction without errors and with a single constraint says about its pair. -/
theorem sound_pair (X : Chem κ Sym) (hX : X.Lawful) (pinv : ℕ → List (List ℚ) → List ℚ → List ℚ) (hpinv : Exact pinv)
    (entries R P : List (Entry κ)) (hsharp : Sharp X entries) (hn : (R ++ P).Nodup) (hin : ∀ x ∈ R ++ P, x ∈ entries) (hR : R ≠ [])
    (hl : (balanceComputed X R P (rankFor X R P) (solveFor X pinv R P) []).base.lne = some 0)
    (hc : numConstraints (R.length + P.length) (rankFor X R P) = 1) : ∃ a b, Balances X R P a b := by
  set rs := R.map fun e => X.red e.comp with hrs
  set ps := P.map fun e => X.red e.comp with hps
  have hsh : ∀ cs, (solveFor X pinv R P cs).length = rs.length + ps.length := by
    intro cs; rw [hrs, hps, List.length_map, List.length_map]; exact hpinv.shape _ _ _
  have hl' : (balanceCoeffs X rs ps (rankFor X R P) (solveFor X pinv R P)).2.1 = some 0 := hl
  obtain ⟨hcons, hside⟩ := Verif.Props.Balance.C10_sound X hX rs ps (rankFor X R P) (solveFor X pinv R P) hsh 0 hl'
  obtain ⟨hneg, hpos⟩ := hside rfl
  set v := (balanceCoeffs X rs ps (rankFor X R P) (solveFor X pinv R P)).1 with hv
  have hlen : v.length = (R ++ P).length := by
    have := (Verif.Props.Balance.loop_sound (conservesClose X _) (numErrors _ _) (solveFor X pinv R P)
        (constraintSets _ _ _) (_, none) (fun l => l.length = rs.length + ps.length)
        (fun cs _ => hsh cs) (by intro k hk; simp at hk) 0 hl').2.2
    rw [List.length_append, ← List.length_map (f := fun e : Entry κ => X.red e.comp), ← List.length_map (f := fun e : Entry κ => X.red e.comp) (as := P)]
    exact this
  set u : Entry κ → ℚ := fun e => v.getD ((R ++ P).idxOf e) 0 with hu
  have hvu : v = (R ++ P).map u := list_as_map (R ++ P) hn v hlen
  have hnetmap : ∀ (f : Entry κ → ℚ) s, net X (rs ++ ps) ((R ++ P).map f) s = ((R ++ P).map fun x => f x * X.amt (X.red x.comp) s).sum := by
    intro f s
    rw [hrs, hps, ← List.map_append]
    exact net_map X (R ++ P) f s
  have htk : v.take rs.length = R.map u := by
    rw [hvu, List.map_append, hrs, List.length_map, List.take_left' (by simp)]
  have hdr : v.drop rs.length = P.map u := by
    rw [hvu, List.map_append, hrs, List.length_map, List.drop_left' (by simp)]
  obtain ⟨w, w1, w2, w3⟩ := hsharp R P hn hin u
    (fun x hx => hneg _ (by rw [htk]; exact List.mem_map.mpr ⟨x, hx, rfl⟩))
    (fun x hx => hpos _ (by rw [hdr]; exact List.mem_map.mpr ⟨x, hx, rfl⟩))
    (fun s => by rw [← hnetmap, ← hvu]; exact hcons s)
  have hrank : (rs ++ ps).length ≤ (compMatrix X (rs ++ ps)).rank + 1 := by
    unfold numConstraints at hc
    split_ifs at hc with h
    · omega
    · have : (rs ++ ps).length = R.length + P.length := by simp [hrs, hps]
      have h' : rankFor X R P = (compMatrix X (rs ++ ps)).rank := rfl
      omega
  refine ⟨fun x => -(w x), w, fun x hx => by linarith [w1 x hx], w2, fun s => ?_, fun c hcs => ?_⟩
  · have := w3 s
    rw [List.map_append, List.sum_append] at this
    have e : (R.map fun x => -(w x) * X.amt (X.red x.comp) s).sum = -(R.map fun x => w x * X.amt (X.red x.comp) s).sum := by
      rw [List.sum_neg, List.map_map]
      congr 1
      apply List.map_congr_left
      intro x _
      simp [neg_mul]
    rw [e]
    linarith
  · obtain ⟨t, ht⟩ := unique_of_rank X (rs ++ ps) hrank ((R ++ P).map w) ((R ++ P).map c) (by simp [hrs, hps]) (by simp [hrs, hps])
      (fun s => by rw [hnetmap]; exact w3 s)
      (fun s => by rw [hnetmap, List.map_append, List.sum_append]; exact hcs s)
      (by
        obtain ⟨x, hx⟩ := List.exists_mem_of_ne_nil _ hR
        exact ⟨w x, List.mem_map.mpr ⟨x, by simp [hx], rfl⟩, (w1 x hx).ne⟩)
    rw [List.map_map] at ht
    have hall : ∀ x ∈ R ++ P, c x = w x * t := fun x hx => (List.map_inj_left.mp ht) x hx
    exact ⟨t, fun x hx => by rw [hall x (by simp [hx])]; ring, fun x hx => hall x (by simp [hx])⟩

theorem Sought.perm {X : Chem κ Sym} {cfg : Cfg (Entry κ)} {entries : List (Entry κ)} {n : ℤ} {r p R P : List (Entry κ)} {a b : Entry κ → ℚ}
    (h : Sought X cfg entries n r p a b) (hr : R.Perm r) (hp : P.Perm p) : Sought X cfg entries n R P a b where
  nodupR := hr.nodup_iff.mpr h.nodupR
  nodupP := hp.nodup_iff.mpr h.nodupP
  someR := fun h0 => h.someR (by rw [h0] at hr; exact List.nil_perm.mp hr)
  someP := fun h0 => h.someP (by rw [h0] at hp; exact List.nil_perm.mp hp)
  sizeR := by rw [hr.length_eq]; exact h.sizeR
  sizeP := by rw [hp.length_eq]; exact h.sizeP
  inR := fun x hx => h.inR x (hr.mem_iff.mp hx)
  inP := fun x hx => h.inP x (hp.mem_iff.mp hx)
  disjoint := fun x hx hx' => h.disjoint x (hr.mem_iff.mp hx) (hp.mem_iff.mp hx')
  balances := h.balances.perm hr hp
  wanted := ⟨fun h1 h2 e he => h.wanted.precursors h1 h2 e (hr.mem_iff.mp he),
    fun h1 h2 => by obtain ⟨e, he, h'⟩ := h.wanted.somePrecursor h1 h2; exact ⟨e, hr.mem_iff.mpr he, h'⟩,
    fun h1 h2 e he => h.wanted.targets h1 h2 e (hp.mem_iff.mp he),
    fun h1 h2 => by obtain ⟨e, he, h'⟩ := h.wanted.someTarget h1 h2; exact ⟨e, hp.mem_iff.mpr he, h'⟩⟩
  elements := by
    have : (R.flatMap fun e => X.elems e.comp).dedup.length = (r.flatMap fun e => X.elems e.comp).dedup.length :=
      (List.Perm.dedup (hr.flatMap_right _)).length_eq
    rw [this]; exact h.elements
  system := fun h0 f hf => (hr.flatMap_right _).mem_iff.mpr (h.system h0 f hf)

theorem perm_of_toFinset (r R : List (Entry κ)) (hr : r.Nodup) (hR : R.Nodup) (h : R.toFinset = r.toFinset) : R.Perm r := by
  rw [List.perm_ext_iff_of_nodup hR hr]
  intro x
  rw [← List.mem_toFinset, h, List.mem_toFinset]

theorem Wanted.looser {cfg cfg' : Cfg (Entry κ)} (hL : Looser cfg cfg') (ho : cfg.openEntries = []) (ho' : cfg'.openEntries = [])
    {r p : List (Entry κ)} (hr : r ≠ []) (hp : p ≠ []) (h : Wanted cfg r p) : Wanted cfg' r p := by
  have nn : ∀ e : Entry κ, e ∉ cfg.openEntries := by rw [ho]; simp
  have nn' : ∀ e : Entry κ, e ∉ cfg'.openEntries := by rw [ho']; simp
  refine ⟨fun h1 h2 e he _ => ?_, fun h1 _ => ?_, fun h1 h2 e he _ => ?_, fun h1 _ => ?_⟩
  · rcases hL.precursors with h0 | ⟨h0, hs, hx⟩
    · exact absurd h0 h1
    · exact hs e (h.precursors h0 (hx h2) e he (nn e))
  · rcases hL.precursors with h0 | ⟨h0, hs, _⟩
    · exact absurd h0 h1
    · cases hex : cfg.exclP
      · obtain ⟨e, he, _, h3⟩ := h.somePrecursor h0 hex
        exact ⟨e, he, nn' e, hs e h3⟩
      · obtain ⟨e, he⟩ := List.exists_mem_of_ne_nil _ hr
        exact ⟨e, he, nn' e, hs e (h.precursors h0 hex e he (nn e))⟩
  · rcases hL.targets with h0 | ⟨h0, hs, hx⟩
    · exact absurd h0 h1
    · exact hs e (h.targets h0 (hx h2) e he (nn e))
  · rcases hL.targets with h0 | ⟨h0, hs, _⟩
    · exact absurd h0 h1
    · cases hex : cfg.exclT
      · obtain ⟨e, he, _, h3⟩ := h.someTarget h0 hex
        exact ⟨e, he, nn' e, hs e h3⟩
      · obtain ⟨e, he⟩ := List.exists_mem_of_ne_nil _ hp
        exact ⟨e, he, nn' e, hs e (h.targets h0 hex e he (nn e))⟩

/-- The sought reactions do not depend on how the phases are listed. -/
theorem Sought.entries {X : Chem κ Sym} {cfg cfg' : Cfg (Entry κ)} {entries entries' : List (Entry κ)} {n n' : ℤ} {r p : List (Entry κ)}
    {a b : Entry κ → ℚ} (h : Sought X cfg entries n r p a b) (hs : ∀ e ∈ entries, e ∈ entries') (hn : n ≤ n')
    (hL : Looser cfg cfg') (ho : cfg.openEntries = []) (ho' : cfg'.openEntries = []) : Sought X cfg' entries' n' r p a b :=
  { h with
    sizeR := h.sizeR.trans hn, sizeP := h.sizeP.trans hn, inR := fun x hx => hs x (h.inR x hx), inP := fun x hx => hs x (h.inP x hx)
    wanted := Wanted.looser hL ho ho' h.someR h.someP h.wanted
    system := fun h0 f hf => by
      rcases hL.system with h1 | ⟨h1, h2⟩
      · exact absurd h1 h0
      · exact h.system h1 f (h2 f hf) }

/-! ### Exactness -/

/-- **C132, nothing else is returned.** With the default of one constraint, every reaction an enumeration of closed reactions returns is
one that is asked for, and it balances in one way only. -/
theorem C132_sound_partial {τ : Type} (X : Chem κ Sym) (hX : X.Lawful) (hsym : Symbols fun e : Entry κ => X.elems e.comp)
    (pinv : ℕ → List (List ℚ) → List ℚ → List ℚ) (hpinv : Exact pinv)
    (cfg : Cfg (Entry κ)) (hopen : cfg.openEntries = []) (hchg : cfg.removeChanged = true) (hmc : cfg.maxConstraints = 1)
    (entries : List (Entry κ)) (hn : entries.Nodup) (hsharp : Sharp X entries) (n : ℤ)
    (iterLen : List (List (Entry κ)) → ℕ) (tagOf : List Char → τ) (chunkSize maxJobs : ℕ)
    (wait : ℕ → List (Chunk (List (Entry κ) × List (Entry κ)) τ) → List (Chunk (List (Entry κ) × List (Entry κ)) τ) × List (Chunk (List (Entry κ) × List (Entry κ)) τ))
    (hw : Verif.Props.Utils.WaitSpec wait) (out : List (Rx (Entry κ)))
    (h : enumerate (fun e => X.elems e.comp) cfg entries n pairs2 iterLen tagOf chunkSize maxJobs
      (reactBasic X (rankFor X) (solveFor X pinv)) wait = .ok out) (x : Rx (Entry κ)) (hx : x ∈ out) :
    ∃ a b, Sought X cfg entries n x.reactants x.products a b := by
  set elems : Entry κ → List Sym := fun e => X.elems e.comp with helems
  unfold enumerate at h
  rw [bind_ok] at h
  obtain ⟨size, hsz, h⟩ := h
  have hs : 0 < size := by
    unfold effSize at hsz
    split_ifs at hsz with h1 h2 h3
    · rw [← Except.ok.inj hsz]; exact Nat.succ_pos _
    · rw [← Except.ok.inj hsz]; exact Nat.pos_of_ne_zero h1
  obtain ⟨out', hser, hperm⟩ := (C33_schedule cfg _ wait hw size hs _).2 out h
  obtain ⟨hall, hout⟩ := (flatM_ok _ _ _).mp hser
  have hx2 := hperm.mem_iff.mp hx
  rw [hout] at hx2
  obtain ⟨c, hcm, hxc⟩ := List.mem_flatMap.mp hx2
  obtain ⟨v, hv⟩ := hall c hcm
  have hval : val (fun c : (List (Entry κ) × List (Entry κ)) × τ => reactPair cfg (reactBasic X (rankFor X) (solveFor X pinv)) c.1 c.2) c
      = v := by unfold val; simp only [hv]
  rw [hval] at hxc
  obtain ⟨hA, hearly, l', hl', hx'⟩ := reactPair_mem cfg _ c.1 c.2 v hv x hxc
  rw [← Except.ok.inj hl'] at hx'
  have hlne := hA.clean hchg
  obtain ⟨it, hit, hcq⟩ := List.mem_flatMap.mp hcm
  obtain ⟨sys, hsys, rfl⟩ := List.mem_map.mp hit
  obtain ⟨q, hq, rfl⟩ := List.mem_map.mp hcq
  simp only at hx' hearly hq
  have hlne0 : (balanceComputed X q.1 q.2 (rankFor X q.1 q.2) (solveFor X pinv q.1 q.2) []).base.lne = some 0 := by
    rcases List.mem_cons.mp hx' with rfl | hx'
    · exact hlne
    · rw [List.mem_singleton.mp hx'] at hlne; exact hlne
  obtain ⟨v1, v2⟩ := clean_sides X hX _ (solveFor X pinv q.1 q.2) q.1 q.2 (fun cs => hpinv.shape _ _ _) hlne0
  obtain ⟨hsys1, hkeep⟩ := List.mem_filter.mp hsys
  obtain ⟨m1, m2⟩ := mem_pairs2 sys.2 q hq
  have hnd := combo_nodup elems entries cfg.openEntries hn n sys hsys1
  obtain ⟨k1, ne1, in1⟩ := mem_combosDict elems entries _ n sys hsys1 q.1 m1
  obtain ⟨k2, ne2, in2⟩ := mem_combosDict elems entries _ n sys hsys1 q.2 m2
  have hlenle : ∀ c ∈ sys.2, (c.length : ℤ) ≤ n := by
    intro c hc
    obtain ⟨h2, _⟩ := (mem_group elems _ _ sys).mp hsys1
    rw [h2] at hc
    exact ((Verif.Props.Utils.C30_mem _ c n).mp (List.mem_filter.mp hc).1).2.2
  have hdis : ∀ y ∈ q.1, y ∉ q.2 := by
    intro y hy hy'
    unfold earlyOk at hearly
    rw [if_pos (Or.inl (List.ne_nil_of_mem (mem_inter.mpr ⟨hy, hy'⟩)))] at hearly
    cases hearly
  have hRP : (q.1 ++ q.2).Nodup := List.nodup_append.mpr ⟨hnd _ m1, hnd _ m2, fun a ha b hb hab => hdis a ha (hab ▸ hb)⟩
  have hnc : numConstraints (q.1.length + q.2.length) (rankFor X q.1 q.2) = 1 := by
    obtain ⟨k, hk1, hk2⟩ := hA.constraints
    rw [hmc] at hk2
    have hkk : k = (numConstraints (q.1.length + q.2.length) (rankFor X q.1 q.2) : ℚ) := by
      have e : ∀ y ∈ [viewOf (balanceComputed X q.1 q.2 (rankFor X q.1 q.2) (solveFor X pinv q.1 q.2) []),
          viewOf (creverse X (balanceComputed X q.1 q.2 (rankFor X q.1 q.2) (solveFor X pinv q.1 q.2) []))],
          y.nc = some (numConstraints (q.1.length + q.2.length) (rankFor X q.1 q.2) : ℚ) := by
        have hlen : ((q.1.map fun e => X.red e.comp) ++ q.2.map fun e => X.red e.comp).length = q.1.length + q.2.length := by simp
        intro y hy
        simp only [List.mem_cons, List.not_mem_nil, or_false] at hy
        rw [← hlen]
        rcases hy with rfl | rfl <;> rfl
      rw [e x hx'] at hk1
      exact (Option.some.inj hk1).symm
    rw [hkk] at hk2
    have hk3 : numConstraints (q.1.length + q.2.length) (rankFor X q.1 q.2) ≤ 1 := by exact_mod_cast hk2
    unfold numConstraints at hk3 ⊢
    split_ifs at hk3 ⊢ <;> omega
  obtain ⟨a, b, hbal⟩ := sound_pair X hX pinv hpinv entries q.1 q.2 hsharp hRP
    (fun y hy => (List.mem_append.mp hy).elim (fun h => (in1 y h).1) fun h => (in2 y h).1) ne1 hlne0 hnc
  have nil : ∀ c : List (Entry κ), els elems c (cfg.openEntries.flatMap elems) = c.flatMap elems := by
    intro c; rw [hopen]; exact List.append_nil _
  have hne : ∀ c : List (Entry κ), c ≠ [] → els elems c (cfg.openEntries.flatMap elems) ≠ [] := by
    intro c hc
    obtain ⟨e, he⟩ := List.exists_mem_of_ne_nil _ hc
    obtain ⟨t, ht⟩ := List.exists_mem_of_ne_nil _ (hsym.ne e)
    rw [nil]
    exact List.ne_nil_of_mem (List.mem_flatMap.mpr ⟨e, he, ht⟩)
  have hdash : ∀ c : List (Entry κ), ∀ s ∈ els elems c (cfg.openEntries.flatMap elems), '-' ∉ s := by
    intro c s hs
    rw [nil] at hs
    obtain ⟨y, _, hy⟩ := List.mem_flatMap.mp hs; exact hsym.dash y s hy
  have hsel : ∀ c : List (Entry κ), c ≠ [] → sys.1 = chemsysKey elems c (cfg.openEntries.flatMap elems) →
      (2 ≤ (c.flatMap elems).dedup.length ∧ (c.flatMap elems).dedup.length ≤ 9) ∧
      (cfg.filterChemsys ≠ [] → ∀ f ∈ cfg.filterChemsys.splitOn '-', f ∈ c.flatMap elems) := by
    intro c hc hk
    have hmem : ∀ s, s ∈ (sys.1.splitOn '-').dedup ↔ s ∈ c.flatMap elems := by
      intro s
      rw [List.mem_dedup, hk, mem_split_key elems c _ (hdash c) (hne c hc) s, nil]
    have hlen : (sys.1.splitOn '-').dedup.length = (c.flatMap elems).dedup.length := by
      apply List.Perm.length_eq
      rw [List.perm_ext_iff_of_nodup (List.nodup_dedup _) (List.nodup_dedup _)]
      intro s
      rw [hmem s, List.mem_dedup]
    have hpos : 0 < (c.flatMap elems).dedup.length := by
      obtain ⟨s, hs⟩ := List.exists_mem_of_ne_nil _ (hne c hc)
      rw [nil] at hs
      exact List.length_pos_of_mem (List.mem_dedup.mpr hs)
    unfold keepSys at hkeep
    simp only at hkeep
    split_ifs at hkeep with g1 g2
    · rw [hlen] at g2
      push Not at g1 g2
      refine ⟨by omega, fun h0 f hf => ?_⟩
      have := g1 h0 f hf
      exact (hmem f).mp this
  have want : ∀ r p : List (Entry κ), x.reactants = r → x.products = p → Wanted cfg r p := by
    rintro r p rfl rfl
    refine ⟨fun h1 h2 e he _ => ?_, fun h1 h2 => ?_, fun h1 h2 e he _ => ?_, fun h1 h2 => ?_⟩
    · rcases hA.precursors h1 h2 e he with h | h
      · exact h
      · rw [hopen] at h; cases h
    · obtain ⟨e, he, h3, h4⟩ := hA.somePrecursor h1 h2; exact ⟨e, he, h4, h3⟩
    · rcases hA.targets h1 h2 e he with h | h
      · exact h
      · rw [hopen] at h; cases h
    · obtain ⟨e, he, h3, h4⟩ := hA.someTarget h1 h2; exact ⟨e, he, h4, h3⟩
  have main : (x.reactants = q.1 ∧ x.products = q.2) ∨ (x.reactants = q.2 ∧ x.products = q.1) := by
    rcases List.mem_cons.mp hx' with rfl | hx'
    · exact .inl v1
    · rw [List.mem_singleton.mp hx']; exact .inr v2
  rcases main with ⟨e1, e2⟩ | ⟨e1, e2⟩
  · refine ⟨a, b, ?_⟩
    have hwant := want _ _ e1 e2
    rw [e1, e2]
    exact ⟨hnd _ m1, hnd _ m2, ne1, ne2, hlenle _ m1, hlenle _ m2, fun y hy => (in1 y hy).1, fun y hy => (in2 y hy).1, hdis, hbal, hwant,
      (hsel _ ne1 k1).1, (hsel _ ne1 k1).2⟩
  · refine ⟨b, a, ?_⟩
    have hwant := want _ _ e1 e2
    rw [e1, e2]
    exact ⟨hnd _ m2, hnd _ m1, ne2, ne1, hlenle _ m2, hlenle _ m1, fun y hy => (in2 y hy).1, fun y hy => (in1 y hy).1,
      fun y hy hy' => hdis y hy' hy, hbal.symm, hwant, (hsel _ ne2 k2).1, (hsel _ ne2 k2).2⟩

/-- **C132, exactness (partial: systems of ten or more elements are left out, see `C132_ten_violated`).** An enumeration of closed
reactions returns a reaction between the phases `r` and the phases `p` if and only if it is one that is asked for; it does so once, and
with its coefficients up to a positive factor. -/
theorem C132_exact_partial (X : Chem κ Sym) (hX : X.Lawful) (hsym : Symbols fun e : Entry κ => X.elems e.comp)
    (cfg : Cfg (Entry κ)) (hcfg : Plain cfg) (entries : List (Entry κ)) (hn : (entries.map fun e => X.red e.comp).Nodup)
    (hsharp : Sharp X entries) (n : ℤ) (out : List (Rx (Entry κ))) (h : Returns X cfg entries n out)
    (r p : List (Entry κ)) (hr : r.Nodup) (hp : p.Nodup) :
    (Found out r p ↔ ∃ a b, Sought X cfg entries n r p a b) ∧
    ∀ a b, Sought X cfg entries n r p a b → ∃ g : CRxn κ, out.filter (fun x => decide (sides x = (r.toFinset, p.toFinset))) = [viewOf g] ∧
      Whole X g ∧ ∃ s : ℚ, 0 < s ∧ (g.entries.zip g.base.coeffs).Perm ((r.map fun x => (x, -(a x) * s)) ++ p.map fun x => (x, b x * s)) := by
  obtain ⟨τ, iterLen, tagOf, chunkSize, maxJobs, wait, pinv, hw, hpinv, hrun⟩ := h
  have key : ∀ a b, Sought X cfg entries n r p a b → ∃ g : CRxn κ,
      out.filter (fun x => decide (sides x = (r.toFinset, p.toFinset))) = [viewOf g] ∧
      Whole X g ∧ ∃ s : ℚ, 0 < s ∧ (g.entries.zip g.base.coeffs).Perm ((r.map fun x => (x, -(a x) * s)) ++ p.map fun x => (x, b x * s)) := by
    intro a b hS
    obtain ⟨g, hg, hc⟩ := C124_found_once_partial X hX hsym pinv hpinv cfg hcfg.closed hcfg.removes (by rw [hcfg.constraints]) entries hn n iterLen tagOf
      chunkSize maxJobs wait hw out hrun r p hS.nodupR hS.nodupP hS.someR hS.someP hS.sizeR hS.sizeP hS.inR hS.inP hS.disjoint a b hS.balances
      hS.wanted hS.elements hS.system
    refine ⟨g, ?_, hc⟩
    rw [← hg]
    apply List.filter_congr
    intro x _
    simp only [sides, Prod.mk.injEq]
  refine ⟨⟨?_, ?_⟩, key⟩
  · rintro ⟨x, hx, h1, h2⟩
    obtain ⟨a, b, hS⟩ := C132_sound_partial X hX hsym pinv hpinv cfg hcfg.closed hcfg.removes hcfg.constraints entries (List.Nodup.of_map _ hn) hsharp n
      iterLen tagOf chunkSize maxJobs wait hw out hrun x hx
    exact ⟨a, b, hS.perm (perm_of_toFinset _ _ hS.nodupR hr h1.symm) (perm_of_toFinset _ _ hS.nodupP hp h2.symm)⟩
  · rintro ⟨a, b, hS⟩
    obtain ⟨g, hg, _⟩ := key a b hS
    have : viewOf g ∈ out.filter (fun x => decide (sides x = (r.toFinset, p.toFinset))) := by rw [hg]; simp
    obtain ⟨h1, h2⟩ := List.mem_filter.mp this
    have h3 := of_decide_eq_true h2
    exact ⟨viewOf g, h1, congrArg Prod.fst h3, congrArg Prod.snd h3⟩

/-- Every returned reaction is one that is asked for. -/
theorem returned_sought (X : Chem κ Sym) (hX : X.Lawful) (hsym : Symbols fun e : Entry κ => X.elems e.comp)
    (cfg : Cfg (Entry κ)) (hcfg : Plain cfg) (entries : List (Entry κ)) (hn : (entries.map fun e => X.red e.comp).Nodup)
    (hsharp : Sharp X entries) (n : ℤ) (out : List (Rx (Entry κ))) (h : Returns X cfg entries n out) (x : Rx (Entry κ)) (hx : x ∈ out) :
    ∃ a b, Sought X cfg entries n x.reactants x.products a b := by
  obtain ⟨τ, iterLen, tagOf, chunkSize, maxJobs, wait, pinv, hw, hpinv, hrun⟩ := h
  exact C132_sound_partial X hX hsym pinv hpinv cfg hcfg.closed hcfg.removes hcfg.constraints entries (List.Nodup.of_map _ hn) hsharp n
    iterLen tagOf chunkSize maxJobs wait hw out hrun x hx

/-- **C132, no reaction twice.** -/
theorem C132_once (X : Chem κ Sym) (hX : X.Lawful) (hsym : Symbols fun e : Entry κ => X.elems e.comp)
    (cfg : Cfg (Entry κ)) (hcfg : Plain cfg) (entries : List (Entry κ)) (hn : (entries.map fun e => X.red e.comp).Nodup)
    (hsharp : Sharp X entries) (n : ℤ) (out : List (Rx (Entry κ))) (h : Returns X cfg entries n out) : (out.map sides).Nodup := by
  rw [List.nodup_iff_count_le_one]
  intro y
  by_cases hy : y ∈ out.map sides
  · obtain ⟨x, hx, rfl⟩ := List.mem_map.mp hy
    obtain ⟨a, b, hS⟩ := returned_sought X hX hsym cfg hcfg entries hn hsharp n out h x hx
    obtain ⟨g, hg, _⟩ := (C132_exact_partial X hX hsym cfg hcfg entries hn hsharp n out h x.reactants x.products hS.nodupR hS.nodupP).2 a b hS
    rw [List.count, List.countP_map, List.countP_eq_length_filter]
    have e : out.filter ((fun z => z == sides x) ∘ sides) = out.filter (fun z => decide (sides z = (x.reactants.toFinset, x.products.toFinset))) := by
      apply List.filter_congr
      intro z _
      rw [Function.comp_apply, Bool.eq_iff_iff]
      simp [sides]
    rw [e, hg]
    exact le_refl _
  · rw [List.count_eq_zero_of_not_mem hy]
    exact Nat.zero_le _

/-- **C132, growth.** With more phases, a larger maximum of phases per side and looser requirements, everything that was found is
still found, in the same proportions. -/
theorem C132_monotone (X : Chem κ Sym) (hX : X.Lawful) (hsym : Symbols fun e : Entry κ => X.elems e.comp)
    (cfg cfg' : Cfg (Entry κ)) (hcfg : Plain cfg) (hcfg' : Plain cfg') (hL : Looser cfg cfg') (entries entries' : List (Entry κ))
    (hn : (entries'.map fun e => X.red e.comp).Nodup) (hn0 : entries.Nodup) (hs : ∀ e ∈ entries, e ∈ entries')
    (hsharp : Sharp X entries') (n n' : ℤ) (hnn : n ≤ n')
    (out out' : List (Rx (Entry κ))) (h : Returns X cfg entries n out) (h' : Returns X cfg' entries' n' out') :
    (out.map sides).Subperm (out'.map sides) ∧
    ∀ g : CRxn κ, viewOf g ∈ out → ∃ a b g', Sought X cfg entries n (viewOf g).reactants (viewOf g).products a b ∧ viewOf g' ∈ out' ∧
      sides (viewOf g') = sides (viewOf g) ∧ ∃ s : ℚ, 0 < s ∧ (g'.entries.zip g'.base.coeffs).Perm
        (((viewOf g).reactants.map fun x => (x, -(a x) * s)) ++ (viewOf g).products.map fun x => (x, b x * s)) := by
  have hnE : (entries.map fun e => X.red e.comp).Nodup :=
    hn0.map_on fun x hx y hy hxy => List.inj_on_of_nodup_map hn (hs x hx) (hs y hy) hxy
  have hsharp0 : Sharp X entries := fun r p h1 h2 => hsharp r p h1 fun x hx => hs x (h2 x hx)
  have key : ∀ x ∈ out, ∃ a b g', Sought X cfg entries n x.reactants x.products a b ∧ viewOf g' ∈ out' ∧ sides (viewOf g') = sides x ∧
      ∃ s : ℚ, 0 < s ∧ (g'.entries.zip g'.base.coeffs).Perm ((x.reactants.map fun x => (x, -(a x) * s)) ++ x.products.map fun x => (x, b x * s)) := by
    intro x hx
    obtain ⟨a, b, hS⟩ := returned_sought X hX hsym cfg hcfg entries hnE hsharp0 n out h x hx
    obtain ⟨g', hg', _, hc⟩ := (C132_exact_partial X hX hsym cfg' hcfg' entries' hn hsharp n' out' h' x.reactants x.products hS.nodupR hS.nodupP).2 a b
      (hS.entries hs hnn hL hcfg.closed hcfg'.closed)
    have hm : viewOf g' ∈ out'.filter (fun z => decide (sides z = (x.reactants.toFinset, x.products.toFinset))) := by rw [hg']; simp
    obtain ⟨h1, h2⟩ := List.mem_filter.mp hm
    exact ⟨a, b, g', hS, h1, of_decide_eq_true h2, hc⟩
  refine ⟨?_, fun g hg => key _ hg⟩
  apply List.subperm_of_subset (C132_once X hX hsym cfg hcfg entries hnE hsharp0 n out h)
  intro y hy
  obtain ⟨x, hx, rfl⟩ := List.mem_map.mp hy
  obtain ⟨_, _, g', _, h1, h2, _⟩ := key x hx
  exact List.mem_map.mpr ⟨viewOf g', h1, h2⟩

theorem Looser.refl (cfg : Cfg (Entry κ)) : Looser cfg cfg :=
  ⟨or_iff_not_imp_left.mpr fun h => ⟨h, fun _ h => h, id⟩, or_iff_not_imp_left.mpr fun h => ⟨h, fun _ h => h, id⟩,
    or_iff_not_imp_left.mpr fun h => ⟨h, fun _ h => h⟩⟩

/-- **C132, only the set of phases matters.** Two runs on the same phases, listed in any two orders, with any chunk sizes, numbers of jobs,
orders of completion and linear algebra, return the same reactions. -/
theorem C132_same (X : Chem κ Sym) (hX : X.Lawful) (hsym : Symbols fun e : Entry κ => X.elems e.comp)
    (cfg : Cfg (Entry κ)) (hcfg : Plain cfg) (entries entries' : List (Entry κ)) (hperm : entries.Perm entries')
    (hn : (entries.map fun e => X.red e.comp).Nodup) (hsharp : Sharp X entries) (n : ℤ)
    (out out' : List (Rx (Entry κ))) (h : Returns X cfg entries n out) (h' : Returns X cfg entries' n out') :
    (out.map sides).Perm (out'.map sides) := by
  have hn' : (entries'.map fun e => X.red e.comp).Nodup := (hperm.map _).nodup_iff.mp hn
  have hsharp' : Sharp X entries' := fun r p h1 h2 => hsharp r p h1 fun x hx => hperm.mem_iff.mpr (h2 x hx)
  have h1 := (C132_monotone X hX hsym cfg cfg hcfg hcfg (Looser.refl cfg) entries entries' hn' (List.Nodup.of_map _ hn)
    (fun e he => hperm.mem_iff.mp he) hsharp' n n (le_refl _) out out' h h').1
  have h2 := (C132_monotone X hX hsym cfg cfg hcfg hcfg (Looser.refl cfg) entries' entries hn (List.Nodup.of_map _ hn')
    (fun e he => hperm.mem_iff.mpr he) hsharp n n (le_refl _) out' out h' h).1
  exact h1.antisymm h2

/-- **C132, both directions.** Without precursors and targets, a reaction is found if and only if its reverse is. -/
theorem C132_reverse (X : Chem κ Sym) (hX : X.Lawful) (hsym : Symbols fun e : Entry κ => X.elems e.comp)
    (cfg : Cfg (Entry κ)) (hcfg : Plain cfg) (hpre : cfg.precursors = []) (htar : cfg.targets = []) (entries : List (Entry κ))
    (hn : (entries.map fun e => X.red e.comp).Nodup) (hsharp : Sharp X entries) (n : ℤ) (out : List (Rx (Entry κ)))
    (h : Returns X cfg entries n out) (r p : List (Entry κ)) (hr : r.Nodup) (hp : p.Nodup) : Found out r p ↔ Found out p r := by
  have key : ∀ r p a b, Sought X cfg entries n r p a b → Sought X cfg entries n p r b a := by
    intro r p a b hS
    have hmem : ∀ s, s ∈ p.flatMap (fun e => X.elems e.comp) ↔ s ∈ r.flatMap fun e => X.elems e.comp := by
      intro s
      have := same_elements _ _ (comps X hX) r p (balanceable X hX r p a b hS.balances) s
      exact this.symm
    have hlen : (p.flatMap fun e => X.elems e.comp).dedup.length = (r.flatMap fun e => X.elems e.comp).dedup.length := by
      apply List.Perm.length_eq
      rw [List.perm_ext_iff_of_nodup (List.nodup_dedup _) (List.nodup_dedup _)]
      intro s
      rw [List.mem_dedup, List.mem_dedup]
      exact hmem s
    exact ⟨hS.nodupP, hS.nodupR, hS.someP, hS.someR, hS.sizeP, hS.sizeR, hS.inP, hS.inR, fun x hx hx' => hS.disjoint x hx' hx, hS.balances.symm,
      ⟨fun h => absurd hpre h, fun h => absurd hpre h, fun h => absurd htar h, fun h => absurd htar h⟩, by rw [hlen]; exact hS.elements,
      fun h0 f hf => (hmem f).mpr (hS.system h0 f hf)⟩
  rw [(C132_exact_partial X hX hsym cfg hcfg entries hn hsharp n out h r p hr hp).1,
    (C132_exact_partial X hX hsym cfg hcfg entries hn hsharp n out h p r hp hr).1]
  exact ⟨fun ⟨a, b, h⟩ => ⟨b, a, key r p a b h⟩, fun ⟨a, b, h⟩ => ⟨b, a, key p r a b h⟩⟩

/-! ### Examples -/

/-- Three phases `x`, `y` and `z = x + y`, with an element of `x` that is not in `y` and the other way around, are told apart. -/
theorem sharp_three (X : Chem κ Sym) (x y z : Entry κ) (hxy : x ≠ y) (hxz : x ≠ z) (hyz : y ≠ z)
    (hsum : ∀ s, X.amt (X.red z.comp) s = X.amt (X.red x.comp) s + X.amt (X.red y.comp) s) (s t : Sym)
    (h1 : X.amt (X.red x.comp) s = 1) (h2 : X.amt (X.red y.comp) s = 0) (h3 : X.amt (X.red x.comp) t = 0) (h4 : X.amt (X.red y.comp) t = 1) :
    Sharp X [x, y, z] := by
  intro r p hn hin v hr hp hc
  set L := r ++ p with hL
  have hsum3 : ∀ f : Entry κ → ℚ, (L.map f).sum = (if x ∈ L then f x else 0) + (if y ∈ L then f y else 0) + (if z ∈ L then f z else 0) := by
    intro f
    have e1 : (L.map f).sum = ∑ a ∈ L.toFinset, f a := (List.sum_toFinset f hn).symm
    have e2 : ∑ a ∈ L.toFinset, f a = ∑ a ∈ ({x, y, z} : Finset (Entry κ)), if a ∈ L then f a else 0 := by
      rw [← Finset.sum_filter]
      apply Finset.sum_congr _ fun _ _ => rfl
      ext a
      simp only [List.mem_toFinset, Finset.mem_filter, Finset.mem_insert, Finset.mem_singleton]
      exact ⟨fun h => ⟨by simpa using hin a h, h⟩, fun h => h.2⟩
    rw [e1, e2, Finset.sum_insert (by simp [hxy, hxz]), Finset.sum_insert (by simp [hyz]), Finset.sum_singleton]
    ring
  have hs := hc s
  have ht := hc t
  rw [hsum3] at hs ht
  simp only [hsum, h1, h2, h3, h4] at hs ht
  have big : ∀ a ∈ L, v a ≤ -(1 / 1000000) ∨ 1 / 1000000 ≤ v a := fun a ha => (List.mem_append.mp ha).imp (hr a) (hp a)
  rw [abs_le] at hs ht
  by_cases hz : z ∈ L
  · have hx : x ∈ L := by
      by_contra hx
      simp only [hx, hz, if_true, if_false] at hs
      rcases big z hz with h | h <;> (split_ifs at hs; all_goals norm_num at hs h; all_goals linarith)
    have hy : y ∈ L := by
      by_contra hy
      simp only [hy, hz, if_true, if_false] at ht
      rcases big z hz with h | h <;> (split_ifs at ht; all_goals norm_num at ht h; all_goals linarith)
    simp only [hx, hy, hz, if_true] at hs ht
    refine ⟨fun a => if a = z then v z else -(v z), ?_, ?_, ?_⟩
    · intro a ha
      have h0 := hr a ha
      have := hin a (List.mem_append_left _ ha)
      simp only [List.mem_cons, List.not_mem_nil, or_false] at this
      rcases this with rfl | rfl | rfl
      · simp only [hxz, if_false]; norm_num at hs h0 ⊢; linarith
      · simp only [hyz, if_false]; norm_num at ht h0 ⊢; linarith
      · simp only [if_true]; norm_num at h0 ⊢; linarith
    · intro a ha
      have h0 := hp a ha
      have := hin a (List.mem_append_right _ ha)
      simp only [List.mem_cons, List.not_mem_nil, or_false] at this
      rcases this with rfl | rfl | rfl
      · simp only [hxz, if_false]; norm_num at hs h0 ⊢; linarith
      · simp only [hyz, if_false]; norm_num at ht h0 ⊢; linarith
      · simp only [if_true]; norm_num at h0 ⊢; linarith
    · intro u
      rw [hsum3]
      simp only [hx, hy, hz, hxz, hyz, if_true, if_false, hsum]
      ring
  · have hx : x ∉ L := by
      intro hx
      simp only [hx, hz, if_true, if_false] at hs
      rcases big x hx with h | h <;> (split_ifs at hs; all_goals norm_num at hs h; all_goals linarith)
    have hy : y ∉ L := by
      intro hy
      simp only [hy, hz, if_true, if_false] at ht
      rcases big y hy with h | h <;> (split_ifs at ht; all_goals norm_num at ht h; all_goals linarith)
    have : L = [] := by
      rw [List.eq_nil_iff_forall_not_mem]
      intro a ha
      have := hin a ha
      simp only [List.mem_cons, List.not_mem_nil, or_false] at this
      rcases this with rfl | rfl | rfl
      · exact hx ha
      · exact hy ha
      · exact hz ha
    rw [hL, List.append_eq_nil_iff] at this
    refine ⟨fun _ => 0, ?_, ?_, ?_⟩
    · intro a ha; rw [this.1] at ha; cases ha
    · intro a ha; rw [this.2] at ha; cases ha
    · intro u; rw [hL, this.1, this.2]; rfl

/-- A, B and AB. -/
def exThree : List (Entry (Fin 4)) := [⟨0, -1⟩, ⟨1, -1⟩, ⟨2, -3⟩]

/-- Everything is asked for. -/
def exAll : Cfg (Entry (Fin 4)) := ⟨[], [], [], false, false, true, true, 1, []⟩

theorem exSharp : Sharp exChem exThree :=
  sharp_three exChem ⟨0, -1⟩ ⟨1, -1⟩ ⟨2, -3⟩ (by decide +kernel) (by decide +kernel) (by decide +kernel)
    (fun s => by by_cases h1 : s = ['A'] <;> by_cases h2 : s = ['B'] <;> simp [exChem, EnumComplete.exAmt, h1, h2])
    ['A'] ['B'] (by decide +kernel) (by decide +kernel) (by decide +kernel) (by decide +kernel)

theorem exPlain : Plain exAll := ⟨rfl, rfl, rfl⟩

/-- There is a run on these phases, in any order. -/
theorem exReturns (entries : List (Entry (Fin 4))) (n : ℤ) (cfg : Cfg (Entry (Fin 4))) : ∃ out, Returns exChem cfg entries n out := by
  obtain ⟨pinv, hp⟩ := exact_exists
  obtain ⟨out, ho⟩ := C124_runs exChem (rankFor exChem) (solveFor exChem pinv) (fun e => exChem.elems e.comp) cfg entries n pairs2
    (fun c => c.length.choose 2) (fun _ => ()) 1 10 (by norm_num) (by norm_num) Verif.Props.Utils.lifo Verif.Props.Utils.lifo_spec
  exact ⟨out, Unit, _, _, 1, 10, _, pinv, Verif.Props.Utils.lifo_spec, hp, ho⟩

theorem exFormation : Balances exChem [⟨0, -1⟩, ⟨1, -1⟩] [⟨2, -3⟩] (fun _ => 1) fun _ => 1 where
  consumed := by decide +kernel
  made := by decide +kernel
  conserved s := by
    by_cases h1 : s = ['A'] <;> by_cases h2 : s = ['B'] <;> simp [exChem, EnumComplete.exAmt, h1, h2]
  only c hc := by
    have hA := hc ['A']
    have hB := hc ['B']
    simp [exChem, EnumComplete.exAmt] at hA hB
    refine ⟨c ⟨2, -3⟩, ?_, ?_⟩
    · intro x hx
      simp only [List.mem_cons, List.not_mem_nil, or_false] at hx
      rcases hx with rfl | rfl
      · simp; linarith
      · simp; linarith
    · intro x hx
      rw [List.mem_singleton.mp hx]; ring

theorem exSought : Sought exChem exAll exThree 2 [⟨0, -1⟩, ⟨1, -1⟩] [⟨2, -3⟩] (fun _ => 1) fun _ => 1 :=
  ⟨by decide +kernel, by decide +kernel, by simp, by simp, by decide, by decide, by decide +kernel, by decide +kernel, by decide +kernel, exFormation,
    ⟨by decide +kernel, by decide +kernel, by decide +kernel, by decide +kernel⟩, by decide +kernel, by decide +kernel⟩

/-- A + B → AB and AB → A + B are found, A → B is not; a run on the phases in the other order returns the same reactions; and a run that
asks for AB only returns no others. -/
example : ∃ out out' out'', Returns exChem exAll exThree 2 out ∧ Returns exChem exAll exThree.reverse 2 out' ∧
    Returns exChem { exAll with targets := [⟨2, -3⟩], exclT := true } exThree.reverse 2 out'' ∧
    Found out [⟨0, -1⟩, ⟨1, -1⟩] [⟨2, -3⟩] ∧ Found out [⟨2, -3⟩] [⟨0, -1⟩, ⟨1, -1⟩] ∧ ¬ Found out [⟨0, -1⟩] [⟨1, -1⟩] ∧
    (out.map sides).Perm (out'.map sides) ∧ (out''.map sides).Subperm (out.map sides) := by
  obtain ⟨out, h⟩ := exReturns exThree 2 exAll
  obtain ⟨out', h'⟩ := exReturns exThree.reverse 2 exAll
  obtain ⟨out'', h''⟩ := exReturns exThree.reverse 2 { exAll with targets := [⟨2, -3⟩], exclT := true }
  have f1 := (C132_exact_partial exChem exLawful exSymbols exAll exPlain exThree (by decide) exSharp 2 out h [⟨0, -1⟩, ⟨1, -1⟩] [⟨2, -3⟩]
    (by decide +kernel) (by decide +kernel)).1.mpr ⟨_, _, exSought⟩
  refine ⟨out, out', out'', h, h', h'', f1, ?_, ?_, ?_, ?_⟩
  · exact (C132_reverse exChem exLawful exSymbols exAll exPlain rfl rfl exThree (by decide) exSharp 2 out h _ _ (by decide +kernel) (by decide +kernel)).mp f1
  · rw [(C132_exact_partial exChem exLawful exSymbols exAll exPlain exThree (by decide) exSharp 2 out h [⟨0, -1⟩] [⟨1, -1⟩]
      (by decide +kernel) (by decide +kernel)).1]
    rintro ⟨a, b, hS⟩
    exact absurd hS.elements.1 (by decide +kernel)
  · exact C132_same exChem exLawful exSymbols exAll exPlain exThree _ (List.reverse_perm _).symm (by decide) exSharp 2 out out' h h'
  · exact (C132_monotone exChem exLawful exSymbols _ exAll ⟨rfl, rfl, rfl⟩ exPlain ⟨.inl rfl, .inl rfl, .inl rfl⟩ exThree.reverse exThree (by decide)
      (by decide +kernel) (by decide +kernel) exSharp 2 2 (le_refl _) out'' out h'' h).1

/-! ### Ten elements -/

/-- Phase `0` has all ten elements, `1` and `2` five each. -/
def tenChem : Chem (Fin 3) Sym where
  amt c s := if s ∈ tenElems c then 1 else 0
  elems c := tenElems c
  red c := c
  fac _ := 1

theorem tenLawful : tenChem.Lawful where
  nonneg c s := by unfold tenChem; simp only; split_ifs <;> norm_num
  mem_elems c s := by unfold tenChem; simp only; split_ifs with h <;> simp [h]
  nodup c := by unfold tenChem; fin_cases c <;> decide +kernel
  fac_pos _ := by unfold tenChem; norm_num
  red_amt c s := by unfold tenChem; simp
  red_red _ := rfl

theorem tenSymbols : Symbols fun e : Entry (Fin 3) => tenChem.elems e.comp where
  ne x := (by decide +kernel : ∀ c : Fin 3, tenChem.elems c ≠ []) x.comp
  dash x := (by decide +kernel : ∀ c : Fin 3, ∀ s ∈ tenChem.elems c, '-' ∉ s) x.comp

theorem ten_split (s : Sym) : tenChem.amt 0 s = tenChem.amt 1 s + tenChem.amt 2 s := by
  unfold tenChem
  simp only
  by_cases h : s ∈ tenElems 0
  · revert h; revert s; decide +kernel
  · have h1 : s ∉ tenElems 1 := fun hs => h ((by decide +kernel : ∀ s ∈ tenElems 1, s ∈ tenElems 0) s hs)
    have h2 : s ∉ tenElems 2 := fun hs => h ((by decide +kernel : ∀ s ∈ tenElems 2, s ∈ tenElems 0) s hs)
    rw [if_neg (by exact h), if_neg (by exact h1), if_neg (by exact h2)]
    norm_num

theorem tenBalances : Balances tenChem [⟨1, -1⟩, ⟨2, -1⟩] [⟨0, -3⟩] (fun _ => 1) fun _ => 1 where
  consumed := by decide +kernel
  made := by decide +kernel
  conserved s := by
    have := ten_split s
    simp only [List.map_cons, List.map_nil, List.sum_cons, List.sum_nil]
    change 1 * tenChem.amt 1 s + (1 * tenChem.amt 2 s + 0) = 1 * tenChem.amt 0 s + 0
    rw [this]
    ring
  only c hc := by
    have hA : c ⟨1, -1⟩ * tenChem.amt 1 ['A'] + (c ⟨2, -1⟩ * tenChem.amt 2 ['A'] + 0) + (c ⟨0, -3⟩ * tenChem.amt 0 ['A'] + 0) = 0 := hc ['A']
    have hF : c ⟨1, -1⟩ * tenChem.amt 1 ['F'] + (c ⟨2, -1⟩ * tenChem.amt 2 ['F'] + 0) + (c ⟨0, -3⟩ * tenChem.amt 0 ['F'] + 0) = 0 := hc ['F']
    rw [show tenChem.amt 1 ['A'] = 1 by decide +kernel, show tenChem.amt 2 ['A'] = 0 by decide +kernel,
      show tenChem.amt 0 ['A'] = 1 by decide +kernel] at hA
    rw [show tenChem.amt 1 ['F'] = 0 by decide +kernel, show tenChem.amt 2 ['F'] = 1 by decide +kernel,
      show tenChem.amt 0 ['F'] = 1 by decide +kernel] at hF
    refine ⟨c ⟨0, -3⟩, ?_, ?_⟩
    · intro x hx
      simp only [List.mem_cons, List.not_mem_nil, or_false] at hx
      rcases hx with rfl | rfl <;> linarith
    · intro x hx
      rw [List.mem_singleton.mp hx]; ring

/-- **C132 violated for ten elements.** The reaction `1 + 2 → 0` of a system of ten elements balances in one way only and nothing in the
settings excludes it, but no run finds it. -/
theorem C132_ten_violated : Balances tenChem [⟨1, -1⟩, ⟨2, -1⟩] [⟨0, -3⟩] (fun _ => 1) (fun _ => 1) ∧
    (∃ out, Returns tenChem ⟨[], [], [], false, false, true, true, 1, []⟩ [⟨1, -1⟩, ⟨2, -1⟩, ⟨0, -3⟩] 2 out) ∧
    ∀ out, Returns tenChem ⟨[], [], [], false, false, true, true, 1, []⟩ [⟨1, -1⟩, ⟨2, -1⟩, ⟨0, -3⟩] 2 out →
      ¬ Found out [⟨1, -1⟩, ⟨2, -1⟩] [⟨0, -3⟩] := by
  refine ⟨tenBalances, ?_, ?_⟩
  · obtain ⟨pinv, hp⟩ := exact_exists
    obtain ⟨out, ho⟩ := C124_runs tenChem (rankFor tenChem) (solveFor tenChem pinv) (fun e => tenChem.elems e.comp)
      ⟨[], [], [], false, false, true, true, 1, []⟩ [⟨1, -1⟩, ⟨2, -1⟩, ⟨0, -3⟩] 2 pairs2
      (fun c => c.length.choose 2) (fun _ => ()) 1 10 (by norm_num) (by norm_num) Verif.Props.Utils.lifo Verif.Props.Utils.lifo_spec
    exact ⟨out, Unit, _, _, 1, 10, _, pinv, Verif.Props.Utils.lifo_spec, hp, ho⟩
  · intro out h hf
    have hsharp : Sharp tenChem [⟨1, -1⟩, ⟨2, -1⟩, ⟨0, -3⟩] :=
      sharp_three tenChem ⟨1, -1⟩ ⟨2, -1⟩ ⟨0, -3⟩ (by decide +kernel) (by decide +kernel) (by decide +kernel) (fun s => ten_split s) ['A'] ['F']
        (by decide +kernel) (by decide +kernel) (by decide +kernel) (by decide +kernel)
    obtain ⟨a, b, hS⟩ := (C132_exact_partial tenChem tenLawful tenSymbols _ ⟨rfl, rfl, rfl⟩ _ (by decide) hsharp 2 out h _ _
      (by decide +kernel) (by decide +kernel)).1.mp hf
    exact absurd hS.elements.2 (by decide +kernel)

example : ∃ out, Returns exChem exAll exThree 2 out ∧ (out.map sides).Nodup := by
  obtain ⟨out, h⟩ := exReturns exThree 2 exAll
  exact ⟨out, h, C132_once exChem exLawful exSymbols exAll exPlain exThree (by decide) exSharp 2 out h⟩

end Verif.Props.EnumExact
