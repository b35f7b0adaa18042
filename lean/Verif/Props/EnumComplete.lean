import Verif.Props.EnumGroup
import Verif.Props.BalanceBest
import Verif.Props.Reaction

/-! Property C124: an enumeration finds every reaction it is asked for, once. -/

set_option linter.unusedSectionVars false

namespace Verif.Props.EnumComplete
open Verif.Py Verif.Model Verif.Model.Enum Verif.Model.Reaction Verif.Spec.Reaction Verif.Lemmas Verif.Lemmas.Exc Verif.Props.Enum
  Verif.Props.EnumGroup Verif.Props.BalanceLinear

variable {κ : Type} [DecidableEq κ]

/-! ### What is to be found -/

/-- Specification: `r → p` consumes `a x > 0` formula units of every phase `x` of `r`, makes `b x > 0` of every phase of `p` and
conserves every element; and up to scaling there is no other way to balance these phases. -/
structure Balances (X : Chem κ Sym) (r p : List (Entry κ)) (a b : Entry κ → ℚ) : Prop where
  consumed : ∀ x ∈ r, 0 < a x
  made : ∀ x ∈ p, 0 < b x
  conserved : ∀ s, (r.map fun x => a x * X.amt (X.red x.comp) s).sum = (p.map fun x => b x * X.amt (X.red x.comp) s).sum
  only : ∀ c : Entry κ → ℚ, (∀ s, (r.map fun x => c x * X.amt (X.red x.comp) s).sum
    + (p.map fun x => c x * X.amt (X.red x.comp) s).sum = 0) → ∃ t, (∀ x ∈ r, c x = -(a x) * t) ∧ ∀ x ∈ p, c x = b x * t

/-- Specification: the user's settings admit reactants `r` and products `p`, not counting open phases. -/
structure Wanted (cfg : Cfg (Entry κ)) (r p : List (Entry κ)) : Prop where
  precursors : cfg.precursors ≠ [] → cfg.exclP = true → ∀ e ∈ r, e ∉ cfg.openEntries → e ∈ cfg.precursors
  somePrecursor : cfg.precursors ≠ [] → cfg.exclP = false → ∃ e ∈ r, e ∉ cfg.openEntries ∧ e ∈ cfg.precursors
  targets : cfg.targets ≠ [] → cfg.exclT = true → ∀ e ∈ p, e ∉ cfg.openEntries → e ∈ cfg.targets
  someTarget : cfg.targets ≠ [] → cfg.exclT = false → ∃ e ∈ p, e ∉ cfg.openEntries ∧ e ∈ cfg.targets

/-- Specification: `g` is a `ComputedReaction` object made of its own entries and coefficients, one coefficient for each entry. -/
def Whole (X : Chem κ Sym) (g : CRxn κ) : Prop :=
  g = cinit X g.entries g.base.coeffs g.base.data g.base.lne ∧ g.entries.length = g.base.coeffs.length

/-- Specification of numpy's linear algebra on systems of `n` columns: the result has `n` components, and it solves every
solvable system. -/
structure Exact (pinv : ℕ → List (List ℚ) → List ℚ → List ℚ) : Prop where
  shape : ∀ n M b, (pinv n M b).length = n
  solves : ∀ n, ExactPinv n (pinv n)

/-- The solutions numpy finds for the phases of a pair. -/
def solveFor (X : Chem κ Sym) (pinv : ℕ → List (List ℚ) → List ℚ → List ℚ) (r p : List (Entry κ)) : List ℕ → List ℚ :=
  constrainedSolve X (r.map fun e => X.red e.comp) (p.map fun e => X.red e.comp) (pinv (r.length + p.length))

/-- The rank of the composition matrix of a pair. -/
noncomputable def rankFor (X : Chem κ Sym) (r p : List (Entry κ)) : ℕ :=
  (Verif.Props.Balance.compMatrix X ((r.map fun e => X.red e.comp) ++ p.map fun e => X.red e.comp)).rank

/-! ### One pair -/

theorem net_map (X : Chem κ Sym) (l : List (Entry κ)) (f : Entry κ → ℚ) (s : Sym) :
    net X (l.map fun e => X.red e.comp) (l.map f) s = (l.map fun x => f x * X.amt (X.red x.comp) s).sum := by
  unfold net
  induction l with
  | nil => simp
  | cons a l ih => simpa using ih

theorem net_append (X : Chem κ Sym) (c d : List κ) (v w : List ℚ) (h : c.length = v.length) (s : Sym) :
    net X (c ++ d) (v ++ w) s = net X c v s + net X d w s := by
  unfold net
  rw [List.zip_append h, List.map_append, List.sum_append]

theorem Balances.symm {X : Chem κ Sym} {r p : List (Entry κ)} {a b : Entry κ → ℚ} (h : Balances X r p a b) : Balances X p r b a where
  consumed := h.made
  made := h.consumed
  conserved s := (h.conserved s).symm
  only c hc := by
    obtain ⟨t, h1, h2⟩ := h.only c fun s => by rw [add_comm]; exact hc s
    exact ⟨-t, fun x hx => by rw [h2 x hx]; ring, fun x hx => by rw [h1 x hx]; ring⟩

theorem Balances.perm {X : Chem κ Sym} {r p R P : List (Entry κ)} {a b : Entry κ → ℚ} (h : Balances X r p a b) (hr : R.Perm r)
    (hp : P.Perm p) : Balances X R P a b where
  consumed x hx := h.consumed x (hr.mem_iff.mp hx)
  made x hx := h.made x (hp.mem_iff.mp hx)
  conserved s := by rw [(hr.map _).sum_eq, (hp.map _).sum_eq]; exact h.conserved s
  only c hc := by
    obtain ⟨t, h1, h2⟩ := h.only c fun s => by rw [← (hr.map _).sum_eq, ← (hp.map _).sum_eq]; exact hc s
    exact ⟨t, fun x hx => h1 x (hr.mem_iff.mp hx), fun x hx => h2 x (hp.mem_iff.mp hx)⟩

theorem list_as_map (l : List (Entry κ)) (hl : l.Nodup) (x : List ℚ) (hx : x.length = l.length) :
    x = l.map fun e => x.getD (l.idxOf e) 0 := by
  apply List.ext_getElem (by simp [hx])
  intro i h1 h2
  rw [List.getElem_map]
  simp only [List.length_map] at h2
  rw [hl.idxOf_getElem i h2, List.getD_eq_getElem?_getD, List.getElem?_eq_getElem h1]
  rfl

/-- Balancing the phases of a pair that can be balanced in one way. -/
theorem balance_pair (X : Chem κ Sym) (hX : X.Lawful) (pinv : ℕ → List (List ℚ) → List ℚ → List ℚ) (hp : Exact pinv)
    (R P : List (Entry κ)) (hn : (R ++ P).Nodup) (hR : R ≠ []) (a b : Entry κ → ℚ) (h : Balances X R P a b) :
    ∃ s : ℚ, 0 < s ∧ balanceComputed X R P (rankFor X R P) (solveFor X pinv R P) []
      = cinit X (R ++ P) ((R.map fun x => -(a x) * s) ++ P.map fun x => b x * s) [("num_constraints", 1)] (some 0) := by
  set v := (R.map fun x => -(a x)) ++ P.map b with hv
  have hlen : v.length = (R.map fun e => X.red e.comp).length + (P.map fun e => X.red e.comp).length := by simp [hv]
  have hcons : Conserved X ((R.map fun e => X.red e.comp) ++ P.map fun e => X.red e.comp) v := by
    intro s
    rw [hv, net_append _ _ _ _ _ (by simp), net_map, net_map, ← h.conserved s]
    have : (R.map fun x => -(a x) * X.amt (X.red x.comp) s).sum = -(R.map fun x => a x * X.amt (X.red x.comp) s).sum := by
      rw [List.sum_neg, List.map_map]
      congr 1
      apply List.map_congr_left
      intro x _
      simp [neg_mul]
    rw [this]
    ring
  have huniq : ∀ x : List ℚ, x.length = (R.map fun e => X.red e.comp).length + (P.map fun e => X.red e.comp).length →
      Conserved X ((R.map fun e => X.red e.comp) ++ P.map fun e => X.red e.comp) x → ∃ t : ℚ, x = v.map fun c => c * t := by
    intro x hx hc
    have hxl : x.length = (R ++ P).length := by simpa using hx
    have hxm := list_as_map (R ++ P) hn x hxl
    set c : Entry κ → ℚ := fun e => x.getD ((R ++ P).idxOf e) 0 with hcdef
    obtain ⟨t, h1, h2⟩ := h.only c fun s => by
      have := hc s
      rw [hxm, List.map_append, net_append _ _ _ _ _ (by simp), net_map, net_map] at this
      exact this
    refine ⟨t, ?_⟩
    rw [hxm, hv, List.map_append, List.map_append, List.map_map, List.map_map]
    congr 1
    · exact List.map_congr_left h1
    · exact List.map_congr_left h2
  have hpin : ExactPinv ((R.map fun e => X.red e.comp) ++ P.map fun e => X.red e.comp).length (pinv (R.length + P.length)) := by
    rw [List.length_append, List.length_map, List.length_map]
    exact hp.solves _
  obtain ⟨s, hs, hb1, hb2⟩ := C11_complete_linear X hX (R.map fun e => X.red e.comp) (P.map fun e => X.red e.comp)
    (pinv (R.length + P.length)) hpin v (by simp [hR]) hlen hcons
    (by
      intro y hy
      rw [hv, List.length_map, List.take_left' (by simp)] at hy
      obtain ⟨x, hx, rfl⟩ := List.mem_map.mp hy
      have := h.consumed x hx
      linarith)
    (by
      intro y hy
      rw [hv, List.length_map, List.drop_left' (by simp)] at hy
      obtain ⟨x, hx, rfl⟩ := List.mem_map.mp hy
      exact h.made x hx) huniq
  have hnc : (balanceCoeffs X (R.map fun e => X.red e.comp) (P.map fun e => X.red e.comp) (rankFor X R P) (solveFor X pinv R P)).2.2 = 1 := by
    have := Verif.Props.Balance.rank_ge X hX ((R.map fun e => X.red e.comp) ++ P.map fun e => X.red e.comp) v
      (by rw [List.length_append]; exact huniq)
    show numConstraints _ (rankFor X R P) = 1
    unfold numConstraints rankFor
    rw [if_neg (by omega)]
  refine ⟨s, hs, ?_⟩
  unfold balanceComputed
  simp only
  have e1 : (balanceCoeffs X (R.map fun e => X.red e.comp) (P.map fun e => X.red e.comp) (rankFor X R P) (solveFor X pinv R P)).1
      = v.map fun c => c * s := hb1
  have e2 : (balanceCoeffs X (R.map fun e => X.red e.comp) (P.map fun e => X.red e.comp) (rankFor X R P) (solveFor X pinv R P)).2.1
      = some 0 := hb2
  rw [e1, e2, hnc, hv, List.map_append, List.map_map, List.map_map]
  simp [dictSet, Function.comp_def]

/-- The phases on the two sides of a suggested reaction without errors are those of the pair, in one of the directions. -/
theorem clean_sides (X : Chem κ Sym) (hX : X.Lawful) (rank : ℕ) (solve : List ℕ → List ℚ) (R P : List (Entry κ))
    (hsh : ∀ cs, (solve cs).length = R.length + P.length)
    (h : (balanceComputed X R P rank solve []).base.lne = some 0) :
    ((viewOf (balanceComputed X R P rank solve [])).reactants = R ∧ (viewOf (balanceComputed X R P rank solve [])).products = P) ∧
    ((viewOf (creverse X (balanceComputed X R P rank solve []))).reactants = P ∧
      (viewOf (creverse X (balanceComputed X R P rank solve []))).products = R) := by
  set cf := (balanceCoeffs X (R.map fun e => X.red e.comp) (P.map fun e => X.red e.comp) rank solve).1 with hcf
  have hsh' : ∀ cs, (solve cs).length = (R.map fun e => X.red e.comp).length + (P.map fun e => X.red e.comp).length := by
    intro cs; rw [List.length_map, List.length_map]; exact hsh cs
  obtain ⟨_, hside⟩ := Verif.Props.Balance.C10_sound X hX _ _ rank solve hsh' 0 h
  obtain ⟨hneg, hpos⟩ := hside rfl
  have hlen : cf.length = R.length + P.length := by
    have := (Verif.Props.Balance.loop_sound (conservesClose X _) (numErrors _ _) solve
        (constraintSets _ _ _) (_, none) (fun l => l.length = (R.map fun e => X.red e.comp).length + (P.map fun e => X.red e.comp).length)
        (fun cs _ => hsh' cs) (by intro k hk; simp at hk) 0 h).2.2
    refine Eq.trans this ?_
    rw [List.length_map, List.length_map]
  rw [List.length_map] at hneg hpos
  have hneg' : ∀ c ∈ cf.take R.length, c < 0 := fun c hc => by have := hneg c hc; linarith
  have hpos' : ∀ c ∈ cf.drop R.length, 0 < c := fun c hc => by have := hpos c hc; linarith
  exact ⟨view_sides R P cf hlen hneg' hpos', view_sides_rev R P cf hlen hneg' hpos'⟩

theorem creverse_sides (X : Chem κ Sym) (entries : List (Entry κ)) (coeffs : List ℚ) (data : List (String × ℚ)) (lne : Option ℕ) :
    reactants (creverse X (cinit X entries coeffs data lne)).base = products (cinit X entries coeffs data lne).base ∧
      products (creverse X (cinit X entries coeffs data lne)).base = reactants (cinit X entries coeffs data lne).base := by
  have h := Verif.Props.Reaction.C13_swaps X (cinit X entries coeffs data lne).base
  exact ⟨h.1, h.2.1⟩

/-- What is suggested for a pair that can be balanced in one way: the reaction and its reverse, both faultless. -/
theorem pair_views (X : Chem κ Sym) (hX : X.Lawful) (pinv : ℕ → List (List ℚ) → List ℚ → List ℚ) (hp : Exact pinv)
    (R P : List (Entry κ)) (hn : ((R ++ P).map fun e => X.red e.comp).Nodup) (hR : R ≠ []) (hP : P ≠ [])
    (a b : Entry κ → ℚ) (h : Balances X R P a b) :
    ∃ f : CRxn κ, (∀ τ (t : τ), reactBasic X (rankFor X) (solveFor X pinv) R P t = .ok [viewOf f, viewOf (creverse X f)]) ∧
      (∀ g, g = f ∨ g = creverse X f → (viewOf g).isIdentity = false ∧ (viewOf g).balanced = true ∧ (viewOf g).lne = some 0 ∧
        (viewOf g).nc = some 1 ∧ Whole X g) ∧
      ((viewOf f).reactants = R ∧ (viewOf f).products = P) ∧
      ((viewOf (creverse X f)).reactants = P ∧ (viewOf (creverse X f)).products = R) ∧
      ∃ s : ℚ, 0 < s ∧
        f.entries.zip f.base.coeffs = (R.map fun x => (x, -(a x) * s)) ++ (P.map fun x => (x, b x * s)) ∧
        (creverse X f).entries.zip (creverse X f).base.coeffs = (R.map fun x => (x, a x * s)) ++ (P.map fun x => (x, -(b x) * s)) := by
  obtain ⟨s, hs, hf⟩ := balance_pair X hX pinv hp R P (List.Nodup.of_map _ hn) hR a b h
  have hsh : ∀ cs, (solveFor X pinv R P cs).length = R.length + P.length := fun cs => hp.shape _ _ _
  have hl : (balanceComputed X R P (rankFor X R P) (solveFor X pinv R P) []).base.lne = some 0 := by rw [hf]; rfl
  obtain ⟨_, c2, c3, c4, _⟩ := Verif.Props.BalanceBest.C10_computed X hX R P (rankFor X R P) (solveFor X pinv R P) [] hsh hn hl
  obtain ⟨v1, v2⟩ := clean_sides X hX _ _ R P hsh hl
  have hreact : ∀ τ (t : τ), reactBasic X (rankFor X) (solveFor X pinv) R P t
      = .ok [viewOf (balanceComputed X R P (rankFor X R P) (solveFor X pinv R P) []),
        viewOf (creverse X (balanceComputed X R P (rankFor X R P) (solveFor X pinv R P) []))] := fun τ t => rfl
  rw [hf] at c2 c3 c4 v1 v2
  simp only [hf] at hreact
  obtain ⟨d2, d3⟩ := creverse_sides X (R ++ P) ((R.map fun x => -(a x) * s) ++ P.map fun x => b x * s) [("num_constraints", 1)] (some 0)
  rw [c3] at d2
  rw [c2] at d3
  have d4 := (Verif.Props.Reaction.C13_computed X (R ++ P) ((R.map fun x => -(a x) * s) ++ P.map fun x => b x * s)
          [("num_constraints", 1)] (some 0)).2.1
  rw [c4] at d4
  have hdisj : ∀ U V : List κ, U ≠ [] → (U ++ V).Nodup → U.toFinset ≠ V.toFinset := by
    intro U V hU hUV he
    obtain ⟨x, hx⟩ := List.exists_mem_of_ne_nil _ hU
    have hxV : x ∈ V := by rw [← List.mem_toFinset, ← he]; exact List.mem_toFinset.mpr hx
    exact (List.nodup_append.mp hUV).2.2 x hx x hxV rfl
  have hzip : ∀ (l : List (Entry κ)) (u : Entry κ → ℚ), l.zip (l.map u) = l.map fun x => (x, u x) := by
    intro l u
    induction l with
    | nil => rfl
    | cons y l ih => rw [List.map_cons, List.zip_cons_cons, List.map_cons, ih]
  rw [List.map_append] at hn
  refine ⟨_, hreact, ?_, v1, v2, s, hs, ?_, ?_⟩
  · rintro g (rfl | rfl)
    · refine ⟨?_, c4, rfl, rfl, rfl, by simp [cinit, init]⟩
      show (isIdentity _).getD true = false
      unfold isIdentity
      rw [c2, c3, if_pos (hdisj _ _ (by simpa using hR) hn)]
      rfl
    · refine ⟨?_, d4, rfl, rfl, rfl, by simp [creverse, cinit, init]⟩
      show (isIdentity _).getD true = false
      unfold isIdentity
      rw [d2, d3, if_pos (hdisj _ _ (by simpa using hP) (List.perm_append_comm.nodup_iff.mp hn))]
      rfl
  · show (R ++ P).zip ((R.map fun x => -(a x) * s) ++ P.map fun x => b x * s) = _
    rw [List.zip_append (by simp), hzip, hzip]
  · show (R ++ P).zip (((R.map fun x => -(a x) * s) ++ P.map fun x => b x * s).map fun c => -1 * c) = _
    rw [List.map_append, List.map_map, List.map_map, List.zip_append (by simp), hzip, hzip]
    congr 1
    · apply List.map_congr_left
      intro x _
      simp
    · apply List.map_congr_left
      intro x _
      simp

/-! ### From one pair to the enumeration -/

theorem filter_flatMap_one {α β : Type} (l : List α) (f : α → List β) (P : α → Bool) (Q : β → Bool) (a : α) (h : l.filter P = [a])
    (h0 : ∀ b ∈ l, P b = false → (f b).filter Q = []) : (l.flatMap f).filter Q = (f a).filter Q := by
  have key : ∀ l : List α, (∀ b ∈ l, P b = false → (f b).filter Q = []) → (l.flatMap f).filter Q = ((l.filter P).flatMap f).filter Q := by
    intro l
    induction l with
    | nil => intro _; rfl
    | cons b l ih =>
      intro h0
      rw [List.flatMap_cons, List.filter_append, ih fun c hc => h0 c (List.mem_cons_of_mem _ hc), List.filter_cons]
      by_cases hb : P b = true
      · rw [if_pos hb, List.flatMap_cons, List.filter_append]
      · rw [if_neg hb, h0 b List.mem_cons_self (by simpa using hb), List.nil_append]
  rw [key l h0, h, List.flatMap_singleton]

theorem only_of_mem {α : Type} (l : List α) (x : α) (h : l.length ≤ 1) (hx : x ∈ l) : l = [x] := by
  match l, h, hx with
  | [], _, hx => simp at hx
  | [y], _, hx => rw [List.mem_singleton.mp hx]
  | y :: z :: t, h, _ => simp at h

/-- What `acceptAll` keeps. -/
def passes (cfg : Cfg (Entry κ)) (x : Rx (Entry κ)) : Bool := match accept cfg x with
  | .ok true => true
  | _ => false

theorem acceptAll_eq (cfg : Cfg (Entry κ)) (l v : List (Rx (Entry κ))) (h : acceptAll cfg l = .ok v) : v = l.filter (passes cfg) := by
  induction l generalizing v with
  | nil => exact (Except.ok.inj h).symm
  | cons x l ih =>
    unfold acceptAll at h
    rw [bind_ok] at h
    obtain ⟨c, hc, h⟩ := h
    rw [bind_ok] at h
    obtain ⟨rest, hr, h⟩ := h
    rw [← Except.ok.inj h, List.filter_cons, ← ih rest hr]
    have hpx : passes cfg x = c := by
      unfold passes
      rw [hc]
      cases c <;> rfl
    rw [hpx]

theorem acceptAll_total (cfg : Cfg (Entry κ)) (l : List (Rx (Entry κ))) (h : ∀ x ∈ l, ∃ k, x.nc = some k) :
    ∃ v, acceptAll cfg l = .ok v := by
  induction l with
  | nil => exact ⟨[], rfl⟩
  | cons x l ih =>
    obtain ⟨v, hv⟩ := ih fun y hy => h y (List.mem_cons_of_mem _ hy)
    obtain ⟨k, hk⟩ := h x List.mem_cons_self
    have : ∃ c, accept cfg x = .ok c := by
      unfold accept
      split_ifs
      · exact ⟨_, rfl⟩
      · rw [hk]
        simp only
        split_ifs
        · exact ⟨_, rfl⟩
        · exact ⟨_, rfl⟩
    obtain ⟨c, hc⟩ := this
    refine ⟨if c then x :: v else v, ?_⟩
    unfold acceptAll
    rw [hc, hv]
    rfl

/-- Is `x` the reaction with reactants `r` and products `p`? -/
def isRxn (r p : List (Entry κ)) (x : Rx (Entry κ)) : Bool :=
  decide (x.reactants.toFinset = r.toFinset ∧ x.products.toFinset = p.toFinset)

/-- The two sides of a candidate pair are `r` and `p`. -/
def isPair (r p : List (Entry κ)) (q : List (Entry κ) × List (Entry κ)) : Bool :=
  (sameSetB q.1 r && sameSetB q.2 p) || (sameSetB q.1 p && sameSetB q.2 r)

/-- The reaction and its reverse suggested for a pair: exactly one of the two is `r → p`. -/
theorem suggested (X : Chem κ Sym) (hX : X.Lawful) (pinv : ℕ → List (List ℚ) → List ℚ → List ℚ) (hp : Exact pinv)
    (r p : List (Entry κ)) (hr : r.Nodup) (hpn : p.Nodup) (hr0 : r ≠ []) (hp0 : p ≠ []) (hdis : ∀ x ∈ r, x ∉ p)
    (a b : Entry κ → ℚ) (h : Balances X r p a b) (q : List (Entry κ) × List (Entry κ)) (hq1 : q.1.Nodup) (hq2 : q.2.Nodup)
    (hred : ∀ l : List (Entry κ), l.Nodup → (∀ e ∈ l, e ∈ r ++ p) → (l.map fun e => X.red e.comp).Nodup)
    (hq : isPair r p q = true) :
    ∃ (l : List (Rx (Entry κ))) (g : CRxn κ), (∀ τ (t : τ), reactBasic X (rankFor X) (solveFor X pinv) q.1 q.2 t = .ok l) ∧
      l.filter (isRxn r p) = [viewOf g] ∧ ((viewOf g).isIdentity = false ∧ (viewOf g).balanced = true ∧ (viewOf g).lne = some 0 ∧
        (viewOf g).nc = some 1) ∧ SameSet (viewOf g).reactants r ∧ SameSet (viewOf g).products p ∧
      (∀ x ∈ l, ∃ k, x.nc = some k) ∧
      Whole X g ∧ ∃ s : ℚ, 0 < s ∧ (g.entries.zip g.base.coeffs).Perm ((r.map fun x => (x, -(a x) * s)) ++ p.map fun x => (x, b x * s)) := by
  have hne : r.toFinset ≠ p.toFinset := by
    intro he
    obtain ⟨x, hx⟩ := List.exists_mem_of_ne_nil _ hr0
    exact hdis x hx (by rw [← List.mem_toFinset, ← he]; exact List.mem_toFinset.mpr hx)
  have hperm : ∀ U V : List (Entry κ), U.Nodup → V.Nodup → SameSet U V → U.Perm V := fun U V h1 h2 h3 =>
    (List.perm_ext_iff_of_nodup h1 h2).mpr h3
  unfold isPair at hq
  rw [Bool.or_eq_true, Bool.and_eq_true, Bool.and_eq_true, sameSetB_iff, sameSetB_iff, sameSetB_iff, sameSetB_iff] at hq
  have hfin : ∀ U V : List (Entry κ), SameSet U V → U.toFinset = V.toFinset := by
    intro U V h; ext x; simpa using h x
  have hnd : (q.1 ++ q.2).Nodup := by
    rw [List.nodup_append]
    refine ⟨hq1, hq2, ?_⟩
    rintro x h1 _ h2 rfl
    rcases hq with ⟨g1, g2⟩ | ⟨g1, g2⟩
    · exact hdis x ((g1 x).mp h1) ((g2 x).mp h2)
    · exact hdis x ((g2 x).mp h2) ((g1 x).mp h1)
  have hin : ∀ e ∈ q.1 ++ q.2, e ∈ r ++ p := by
    intro e he
    rw [List.mem_append] at he ⊢
    rcases hq with ⟨g1, g2⟩ | ⟨g1, g2⟩
    · exact he.imp (g1 e).mp (g2 e).mp
    · exact (he.imp (g1 e).mp (g2 e).mp).symm
  have hrd := hred _ hnd hin
  have hq10 : q.1 ≠ [] := by
    intro h0
    rcases hq with ⟨g1, _⟩ | ⟨g1, _⟩
    · obtain ⟨x, hx⟩ := List.exists_mem_of_ne_nil _ hr0; have := (g1 x).mpr hx; rw [h0] at this; simp at this
    · obtain ⟨x, hx⟩ := List.exists_mem_of_ne_nil _ hp0; have := (g1 x).mpr hx; rw [h0] at this; simp at this
  have hq20 : q.2 ≠ [] := by
    intro h0
    rcases hq with ⟨_, g1⟩ | ⟨_, g1⟩
    · obtain ⟨x, hx⟩ := List.exists_mem_of_ne_nil _ hp0; have := (g1 x).mpr hx; rw [h0] at this; simp at this
    · obtain ⟨x, hx⟩ := List.exists_mem_of_ne_nil _ hr0; have := (g1 x).mpr hx; rw [h0] at this; simp at this
  rcases hq with ⟨g1, g2⟩ | ⟨g1, g2⟩
  · have p1 := hperm _ _ hq1 hr g1
    have p2 := hperm _ _ hq2 hpn g2
    obtain ⟨f, e1, e2, e3, e4, s, hs, e5, _⟩ := pair_views X hX pinv hp q.1 q.2 hrd hq10 hq20 a b (h.perm p1 p2)
    refine ⟨_, f, e1, ?_, ⟨(e2 f (.inl rfl)).1, (e2 f (.inl rfl)).2.1, (e2 f (.inl rfl)).2.2.1, (e2 f (.inl rfl)).2.2.2.1⟩, by rw [e3.1]; exact g1,
      by rw [e3.2]; exact g2, ?_, (e2 f (.inl rfl)).2.2.2.2, s, hs, ?_⟩
    · rw [List.filter_cons_of_pos, List.filter_cons_of_neg]
      · rfl
      · unfold isRxn
        rw [e4.1, e4.2, hfin _ _ g1, hfin _ _ g2]
        simpa using fun h' : p.toFinset = r.toFinset => (hne h'.symm).elim
      · unfold isRxn
        rw [e3.1, e3.2, hfin _ _ g1, hfin _ _ g2]
        simp
    · intro x hx
      simp only [List.mem_cons, List.not_mem_nil, or_false] at hx
      rcases hx with rfl | rfl
      · exact ⟨1, (e2 f (.inl rfl)).2.2.2.1⟩
      · exact ⟨1, (e2 _ (.inr rfl)).2.2.2.1⟩
    · rw [e5]
      exact (p1.map _).append (p2.map _)
  · have p1 := hperm _ _ hq1 hpn g1
    have p2 := hperm _ _ hq2 hr g2
    obtain ⟨f, e1, e2, e3, e4, s, hs, _, e5⟩ := pair_views X hX pinv hp q.1 q.2 hrd hq10 hq20 b a (h.symm.perm p1 p2)
    refine ⟨_, creverse X f, e1, ?_, ⟨(e2 _ (.inr rfl)).1, (e2 _ (.inr rfl)).2.1, (e2 _ (.inr rfl)).2.2.1, (e2 _ (.inr rfl)).2.2.2.1⟩,
      by rw [e4.1]; exact g2, by rw [e4.2]; exact g1, ?_, (e2 _ (.inr rfl)).2.2.2.2, s, hs, ?_⟩
    · rw [List.filter_cons_of_neg, List.filter_cons_of_pos]
      · rfl
      · unfold isRxn
        rw [e4.1, e4.2, hfin _ _ g1, hfin _ _ g2]
        simp
      · unfold isRxn
        rw [e3.1, e3.2, hfin _ _ g1, hfin _ _ g2]
        simpa using fun h' : p.toFinset = r.toFinset => (hne h'.symm).elim
    · intro x hx
      simp only [List.mem_cons, List.not_mem_nil, or_false] at hx
      rcases hx with rfl | rfl
      · exact ⟨1, (e2 f (.inl rfl)).2.2.2.1⟩
      · exact ⟨1, (e2 _ (.inr rfl)).2.2.2.1⟩
    · rw [e5]
      exact List.perm_append_comm.trans ((p2.map _).append (p1.map _))

/-! ### C124 -/

theorem view_nc (X : Chem κ Sym) (rank : ℕ) (solve : List ℕ → List ℚ) (R P : List (Entry κ)) :
    ∀ x ∈ [viewOf (balanceComputed X R P rank solve []), viewOf (creverse X (balanceComputed X R P rank solve []))],
      ∃ k, x.nc = some k := by
  intro x hx
  simp only [List.mem_cons, List.not_mem_nil, or_false] at hx
  rcases hx with rfl | rfl <;> exact ⟨_, rfl⟩

/-- **C124.**  An enumeration finishes, for any settings, entries, linear algebra backend and schedule, if the chunk size and
the number of jobs are positive. -/
theorem C124_runs {τ : Type} (X : Chem κ Sym) (rank : List (Entry κ) → List (Entry κ) → ℕ)
    (solve : List (Entry κ) → List (Entry κ) → List ℕ → List ℚ) (elems : Entry κ → List Sym)
    (cfg : Cfg (Entry κ)) (entries : List (Entry κ)) (n : ℤ)
    (pairsOf : List (List (Entry κ)) → List (List (Entry κ) × List (Entry κ))) (iterLen : List (List (Entry κ)) → ℕ)
    (tagOf : List Char → τ) (chunkSize maxJobs : ℕ) (hcs : 0 < chunkSize) (hmj : 0 < maxJobs)
    (wait : ℕ → List (Chunk (List (Entry κ) × List (Entry κ)) τ) → List (Chunk (List (Entry κ) × List (Entry κ)) τ) × List (Chunk (List (Entry κ) × List (Entry κ)) τ))
    (hw : Verif.Props.Utils.WaitSpec wait) :
    ∃ out, enumerate elems cfg entries n pairsOf iterLen tagOf chunkSize maxJobs (reactBasic X rank solve) wait = .ok out := by
  have hpair : ∀ c : (List (Entry κ) × List (Entry κ)) × τ, ∃ v, reactPair cfg (reactBasic X rank solve) c.1 c.2 = .ok v := by
    intro c
    unfold reactPair
    split_ifs
    · obtain ⟨v, hv⟩ := acceptAll_total cfg _ (view_nc X (rank c.1.1 c.1.2) (solve c.1.1 c.1.2) c.1.1 c.1.2)
      exact ⟨v, hv⟩
    · exact ⟨[], rfl⟩
  have heff : ∀ total, ∃ size, 0 < size ∧ effSize chunkSize maxJobs total = .ok size := by
    intro total
    unfold effSize
    rw [if_neg (by omega)]
    split_ifs with h1 h2
    · omega
    · exact ⟨_, Nat.succ_pos _, rfl⟩
    · exact ⟨chunkSize, hcs, rfl⟩
  unfold enumerate
  obtain ⟨size, hs, hsz⟩ := heff (totalLen iterLen (filterDict elems cfg (combosDict elems entries cfg.openEntries n)))
  have hser := (flatM_ok (fun c : (List (Entry κ) × List (Entry κ)) × τ => reactPair cfg (reactBasic X rank solve) c.1 c.2)
    (((filterDict elems cfg (combosDict elems entries cfg.openEntries n)).map fun p => (pairsOf p.2, tagOf p.1)).flatMap
      fun it => it.1.map fun r => (r, it.2)) _).mpr ⟨fun c _ => hpair c, rfl⟩
  obtain ⟨out', ho, _⟩ := (C33_schedule cfg (reactBasic X rank solve) wait hw size hs _).1 _ hser
  refine ⟨out', ?_⟩
  simp only [hsz]
  exact ho

theorem balanceable (X : Chem κ Sym) (hX : X.Lawful) (r p : List (Entry κ)) (a b : Entry κ → ℚ) (hbal : Balances X r p a b) :
    Balanceable (fun e s => X.amt e.comp s) r p := by
  refine ⟨fun x => a x / X.fac x.comp, fun x => b x / X.fac x.comp, fun x hx => div_pos (hbal.consumed x hx) (hX.fac_pos _),
    fun x hx => div_pos (hbal.made x hx) (hX.fac_pos _), fun s => ?_⟩
  have e : ∀ (l : List (Entry κ)) (u : Entry κ → ℚ), (l.map fun x => u x / X.fac x.comp * X.amt x.comp s)
      = l.map fun x => u x * X.amt (X.red x.comp) s := by
    intro l u
    apply List.map_congr_left
    intro x _
    rw [hX.red_amt x.comp s]
    have := (hX.fac_pos x.comp).ne'
    field_simp
  rw [e, e]
  exact hbal.conserved s

theorem comps (X : Chem κ Sym) (hX : X.Lawful) : Comps (fun e : Entry κ => X.elems e.comp) fun e s => X.amt e.comp s :=
  ⟨fun _ _ => hX.nonneg _ _, fun _ _ => hX.mem_elems _ _⟩

/-- The common part: if exactly one candidate pair has the two sides `r` and `p`, the reaction is returned once. -/
theorem found_core {τ : Type} (X : Chem κ Sym) (hX : X.Lawful) (hsym : Symbols fun e : Entry κ => X.elems e.comp)
    (pinv : ℕ → List (List ℚ) → List ℚ → List ℚ) (hpinv : Exact pinv)
    (cfg : Cfg (Entry κ)) (hchg : cfg.removeChanged = true) (hmc : 1 ≤ cfg.maxConstraints)
    (entries : List (Entry κ)) (n : ℤ) (pairsOf : List (List (Entry κ)) → List (List (Entry κ) × List (Entry κ)))
    (iterLen : List (List (Entry κ)) → ℕ) (tagOf : List Char → τ) (chunkSize maxJobs : ℕ)
    (wait : ℕ → List (Chunk (List (Entry κ) × List (Entry κ)) τ) → List (Chunk (List (Entry κ) × List (Entry κ)) τ) × List (Chunk (List (Entry κ) × List (Entry κ)) τ))
    (hw : Verif.Props.Utils.WaitSpec wait) (out : List (Rx (Entry κ)))
    (h : enumerate (fun e => X.elems e.comp) cfg entries n pairsOf iterLen tagOf chunkSize maxJobs
      (reactBasic X (rankFor X) (solveFor X pinv)) wait = .ok out)
    (r p : List (Entry κ)) (hr : r.Nodup) (hp : p.Nodup) (hr0 : ∃ x ∈ r, x ∉ cfg.openEntries) (hp0 : ∃ x ∈ p, x ∉ cfg.openEntries)
    (hdis : ∀ x ∈ r, x ∉ p) (a b : Entry κ → ℚ) (hbal : Balances X r p a b) (hwant : Wanted cfg r p)
    (hredl : ∀ l : List (Entry κ), l.Nodup → (∀ e ∈ l, e ∈ r ++ p) → (l.map fun e => X.red e.comp).Nodup)
    (hsize : SizeOk (fun e => X.elems e.comp) r cfg.openEntries)
    (hfc : cfg.filterChemsys ≠ [] → ∀ f ∈ cfg.filterChemsys.splitOn '-', f ∈ els (fun e => X.elems e.comp) r (cfg.openEntries.flatMap fun e => X.elems e.comp))
    (h1 : (((combosDict (fun e => X.elems e.comp) entries cfg.openEntries n).flatMap fun sys => pairsOf sys.2).filter (isPair r p)).length = 1)
    (hcand : ∀ sys ∈ combosDict (fun e => X.elems e.comp) entries cfg.openEntries n, ∀ q ∈ pairsOf sys.2, q.1.Nodup ∧ q.2.Nodup ∧
      sys.1 = chemsysKey (fun e => X.elems e.comp) q.1 (cfg.openEntries.flatMap fun e => X.elems e.comp)) :
    ∃ g : CRxn κ, (out.filter fun x => decide (x.reactants.toFinset = r.toFinset ∧ x.products.toFinset = p.toFinset)) = [viewOf g] ∧
      Whole X g ∧ ∃ s : ℚ, 0 < s ∧ (g.entries.zip g.base.coeffs).Perm ((r.map fun x => (x, -(a x) * s)) ++ p.map fun x => (x, b x * s)) := by
  set elems : Entry κ → List Sym := fun e => X.elems e.comp with helems
  have hc := comps X hX
  have hbalE := balanceable X hX r p a b hbal
  obtain ⟨q, hqe⟩ := List.length_eq_one_iff.mp h1
  have hq : q ∈ ((combosDict elems entries cfg.openEntries n).flatMap fun sys => pairsOf sys.2).filter (isPair r p) := by
    rw [hqe]; exact List.mem_cons_self
  obtain ⟨hq1, hq2⟩ := List.mem_filter.mp hq
  obtain ⟨sys, hsys, hqs⟩ := List.mem_flatMap.mp hq1
  obtain ⟨n1, n2, k1⟩ := hcand sys hsys q hqs
  have hr0' : r ≠ [] := by obtain ⟨x, hx, _⟩ := hr0; exact List.ne_nil_of_mem hx
  have hp0' : p ≠ [] := by obtain ⟨x, hx, _⟩ := hp0; exact List.ne_nil_of_mem hx
  obtain ⟨l, g, hl, hlf, ⟨g1, g2, g3, g4⟩, gr, gp, _, hcoef⟩ := suggested X hX pinv hpinv r p hr hp hr0' hp0' hdis a b hbal q
    n1 n2 hredl hq2
  refine ⟨g, ?_, hcoef⟩
  have hadm : Admissible cfg (viewOf g) :=
    { notIdentity := g1
      balanced := fun _ => g2
      clean := fun _ => g3
      constraints := ⟨1, g4, by exact_mod_cast hmc⟩
      precursors := fun x1 x2 e he => by
        by_cases ho : e ∈ cfg.openEntries
        · exact .inr ho
        · exact .inl (hwant.precursors x1 x2 e ((gr e).mp he) ho)
      somePrecursor := fun x1 x2 => by
        obtain ⟨e, he, hm, ho⟩ := hwant.somePrecursor x1 x2
        exact ⟨e, (gr e).mpr he, ho, hm⟩
      targets := fun x1 x2 e he => by
        by_cases ho : e ∈ cfg.openEntries
        · exact .inr ho
        · exact .inl (hwant.targets x1 x2 e ((gp e).mp he) ho)
      someTarget := fun x1 x2 => by
        obtain ⟨e, he, hm, ho⟩ := hwant.someTarget x1 x2
        exact ⟨e, (gp e).mpr he, ho, hm⟩ }
  have hq2' := hq2
  unfold isPair at hq2'
  rw [Bool.or_eq_true, Bool.and_eq_true, Bool.and_eq_true, sameSetB_iff, sameSetB_iff, sameSetB_iff, sameSetB_iff] at hq2'
  have huse : UsesPair (viewOf g) q.1 q.2 := usesPair_congr _ r p q.1 q.2 (.inl ⟨gr, gp⟩) hq2'
  have hqdis : ∀ e ∈ q.1, e ∉ q.2 := by
    intro e he hep
    rcases hq2' with ⟨h3, h4⟩ | ⟨h3, h4⟩
    · exact hdis e ((h3 e).mp he) ((h4 e).mp hep)
    · exact hdis e ((h4 e).mp hep) ((h3 e).mp he)
  have hrp : ∀ s, s ∈ els elems r (cfg.openEntries.flatMap elems) ↔ s ∈ els elems p (cfg.openEntries.flatMap elems) := by
    intro s
    unfold els
    rw [List.mem_append, List.mem_append, same_elements elems _ hc r p hbalE s]
  have hsame1 : ∀ s, s ∈ els elems q.1 (cfg.openEntries.flatMap elems) ↔ s ∈ els elems r (cfg.openEntries.flatMap elems) := by
    intro s
    rcases hq2' with ⟨h3, _⟩ | ⟨h3, _⟩
    · exact els_congr elems _ _ _ h3 s
    · rw [els_congr elems _ _ _ h3 s, hrp s]
  have hsame2 : ∀ s, s ∈ els elems q.2 (cfg.openEntries.flatMap elems) ↔ s ∈ els elems r (cfg.openEntries.flatMap elems) := by
    intro s
    rcases hq2' with ⟨_, h3⟩ | ⟨_, h3⟩
    · rw [els_congr elems _ _ _ h3 s, hrp s]
    · exact els_congr elems _ _ _ h3 s
  have hlen : (els elems q.1 (cfg.openEntries.flatMap elems)).dedup.length = (els elems r (cfg.openEntries.flatMap elems)).dedup.length := by
    apply List.Perm.length_eq
    rw [List.perm_ext_iff_of_nodup (List.nodup_dedup _) (List.nodup_dedup _)]
    intro s
    rw [List.mem_dedup, List.mem_dedup, hsame1 s]
  have ex : (∃ e ∈ q.1, e ∉ cfg.openEntries) ∧ ∃ e ∈ q.2, e ∉ cfg.openEntries := by
    obtain ⟨x, hx, hxo⟩ := hr0
    obtain ⟨y, hy, hyo⟩ := hp0
    rcases hq2' with ⟨h3, h4⟩ | ⟨h3, h4⟩
    · exact ⟨⟨x, (h3 x).mpr hx, hxo⟩, ⟨y, (h4 y).mpr hy, hyo⟩⟩
    · exact ⟨⟨y, (h3 y).mpr hy, hyo⟩, ⟨x, (h4 x).mpr hx, hxo⟩⟩
  have hkeep : keepSys elems cfg sys.1 = true := by
    have := C36_system_filter elems hsym cfg (viewOf g) hadm q.1 q.2 ex.1 ex.2 huse
      (fun s => (hsame1 s).trans (hsame2 s).symm)
      (by rw [hlen]; exact hsize.1) (by rw [hlen]; exact hsize.2)
      (fun h0 f hf => (hsame1 f).mpr (hfc h0 f hf))
    rw [← k1] at this
    exact this
  have hearly := C36_pair_filter cfg (viewOf g) hadm q.1 q.2 hqdis ex.1 ex.2 huse
  -- the run
  unfold enumerate at h
  rw [bind_ok] at h
  obtain ⟨size, hsz, h⟩ := h
  have hs : 0 < size := by
    unfold effSize at hsz
    split_ifs at hsz with h1 h2 h3
    · rw [← Except.ok.inj hsz]; exact Nat.succ_pos _
    · rw [← Except.ok.inj hsz]; exact Nat.pos_of_ne_zero h1
  obtain ⟨out', hser, hperm⟩ := (C33_schedule cfg _ wait hw size hs _).2 out h
  obtain ⟨hall, hout⟩ := (flatM_ok _ _ _).mp hser
  set cands := ((filterDict elems cfg (combosDict elems entries cfg.openEntries n)).map fun p =>
      (pairsOf p.2, tagOf p.1)).flatMap fun it => it.1.map fun r => (r, it.2) with hcands
  have hmem : (q, tagOf sys.1) ∈ cands :=
    List.mem_flatMap.mpr ⟨(pairsOf sys.2, tagOf sys.1), List.mem_map.mpr ⟨sys, List.mem_filter.mpr ⟨hsys, hkeep⟩, rfl⟩,
      List.mem_map.mpr ⟨q, hqs, rfl⟩⟩
  have hfst : cands.map Prod.fst = (filterDict elems cfg (combosDict elems entries cfg.openEntries n)).flatMap fun sys => pairsOf sys.2 := by
    rw [hcands, List.flatMap_map, List.map_flatMap]
    congr 1
    funext y
    rw [List.map_map]
    exact List.map_id _
  have hone : cands.filter (fun c => isPair r p c.1) = [(q, tagOf sys.1)] := by
    have hle : (cands.filter fun c => isPair r p c.1).length ≤ 1 := by
      rw [← h1]
      have e : (cands.filter fun c => isPair r p c.1).length = ((cands.map Prod.fst).filter (isPair r p)).length := by
        rw [List.filter_map, List.length_map]
        rfl
      rw [e, hfst]
      exact ((List.filter_sublist.flatMap _).filter _).length_le
    have hin : (q, tagOf sys.1) ∈ cands.filter fun c => isPair r p c.1 := List.mem_filter.mpr ⟨hmem, hq2⟩
    exact only_of_mem _ _ hle hin
  have hzero : ∀ c ∈ cands, isPair r p c.1 = false →
      (val (fun c : (List (Entry κ) × List (Entry κ)) × τ => reactPair cfg (reactBasic X (rankFor X) (solveFor X pinv)) c.1 c.2) c).filter
        (isRxn r p) = [] := by
    intro c hcm hnp
    rw [List.filter_eq_nil_iff]
    intro x hx hxr
    obtain ⟨v, hv⟩ := hall c hcm
    have hval : val (fun c : (List (Entry κ) × List (Entry κ)) × τ => reactPair cfg (reactBasic X (rankFor X) (solveFor X pinv)) c.1 c.2) c
        = v := by unfold val; simp only [hv]
    rw [hval] at hx
    obtain ⟨hA, _, l', hl', hx'⟩ := reactPair_mem cfg _ c.1 c.2 v hv x hx
    have hl'' := Except.ok.inj hl'
    rw [← hl''] at hx'
    have hlne := hA.clean hchg
    have hlne0 : (balanceComputed X c.1.1 c.1.2 (rankFor X c.1.1 c.1.2) (solveFor X pinv c.1.1 c.1.2) []).base.lne = some 0 := by
      rcases List.mem_cons.mp hx' with rfl | hx'
      · exact hlne
      · rw [List.mem_singleton.mp hx'] at hlne; exact hlne
    obtain ⟨v1, v2⟩ := clean_sides X hX _ (solveFor X pinv c.1.1 c.1.2) c.1.1 c.1.2 (fun cs => hpinv.shape _ _ _) hlne0
    unfold isRxn at hxr
    rw [decide_eq_true_eq] at hxr
    have : isPair r p c.1 = true := by
      have hS : ∀ U V : List (Entry κ), U.toFinset = V.toFinset → sameSetB U V = true := by
        intro U V hUV
        rw [sameSetB_iff]
        intro y
        rw [← List.mem_toFinset, hUV, List.mem_toFinset]
      unfold isPair
      rcases List.mem_cons.mp hx' with rfl | hx'
      · rw [v1.1, v1.2] at hxr
        rw [hS _ _ hxr.1, hS _ _ hxr.2]
        simp
      · rw [List.mem_singleton.mp hx', v2.1, v2.2] at hxr
        rw [hS _ _ hxr.1, hS _ _ hxr.2]
        simp
    rw [hnp] at this
    simp at this
  have hfin : out'.filter (isRxn r p) = [viewOf g] := by
    rw [hout, filter_flatMap_one cands _ (fun c => isPair r p c.1) (isRxn r p) _ hone hzero]
    obtain ⟨v, hv⟩ := hall _ hmem
    have hval : val (fun c : (List (Entry κ) × List (Entry κ)) × τ => reactPair cfg (reactBasic X (rankFor X) (solveFor X pinv)) c.1 c.2)
        (q, tagOf sys.1) = v := by unfold val; simp only [hv]
    rw [hval]
    simp only at hv
    unfold reactPair at hv
    rw [if_pos hearly, bind_ok] at hv
    obtain ⟨l', hl', hv⟩ := hv
    rw [hl] at hl'
    rw [← Except.ok.inj hl'] at hv
    rw [acceptAll_eq cfg l v hv, List.filter_filter]
    have e : l.filter (fun x => isRxn r p x && passes cfg x) = (l.filter (isRxn r p)).filter (passes cfg) := by
      rw [List.filter_filter]
      congr 1
      funext x
      exact Bool.and_comm _ _
    rw [e, hlf, List.filter_cons_of_pos]
    · rfl
    · unfold passes
      rw [(accept_iff cfg (viewOf g)).mpr hadm]
  have hp2 := hperm.filter (isRxn r p)
  rw [hfin] at hp2
  exact List.perm_singleton.mp hp2

theorem red_nodup (X : Chem κ Sym) (entries r p : List (Entry κ)) (hn : (entries.map fun e => X.red e.comp).Nodup)
    (hre : ∀ x ∈ r, x ∈ entries) (hpe : ∀ x ∈ p, x ∈ entries) (l : List (Entry κ)) (hl : l.Nodup) (hle : ∀ e ∈ l, e ∈ r ++ p) :
    (l.map fun e => X.red e.comp).Nodup := by
  refine hl.map_on fun x hx y hy hxy => ?_
  have hin : ∀ e ∈ l, e ∈ entries := fun e he => (List.mem_append.mp (hle e he)).elim (hre e) (hpe e)
  exact List.inj_on_of_nodup_map hn (hin x hx) (hin y hy) hxy

theorem combo_nodup (elems : Entry κ → List Sym) (entries opens : List (Entry κ)) (hnE : entries.Nodup) (n : ℤ)
    (sys : List Char × List (List (Entry κ))) (hsys : sys ∈ combosDict elems entries opens n) : ∀ c ∈ sys.2, c.Nodup := by
  intro c hcm
  obtain ⟨h2, _⟩ := (mem_group elems _ _ sys).mp hsys
  rw [h2] at hcm
  obtain ⟨hm, _⟩ := List.mem_filter.mp hcm
  exact (hnE.filter _).sublist ((Verif.Props.Utils.C30_mem _ c n).mp hm).1

/-- **C124 (partial: not for systems of ten or more elements, see `C36_ten_elements_counterexample`).**  BasicEnumerator: every
reaction `r → p` between at most `n` phases on each side that balances in one way and that the settings admit is found exactly once,
with its coefficients up to a positive factor; whatever the order of the entries, the chunk size, the number of jobs and the schedule. -/
theorem C124_found_once_partial {τ : Type} (X : Chem κ Sym) (hX : X.Lawful) (hsym : Symbols fun e : Entry κ => X.elems e.comp)
    (pinv : ℕ → List (List ℚ) → List ℚ → List ℚ) (hpinv : Exact pinv)
    (cfg : Cfg (Entry κ)) (hopen : cfg.openEntries = []) (hchg : cfg.removeChanged = true) (hmc : 1 ≤ cfg.maxConstraints)
    (entries : List (Entry κ)) (hn : (entries.map fun e => X.red e.comp).Nodup) (n : ℤ)
    (iterLen : List (List (Entry κ)) → ℕ) (tagOf : List Char → τ) (chunkSize maxJobs : ℕ)
    (wait : ℕ → List (Chunk (List (Entry κ) × List (Entry κ)) τ) → List (Chunk (List (Entry κ) × List (Entry κ)) τ) × List (Chunk (List (Entry κ) × List (Entry κ)) τ))
    (hw : Verif.Props.Utils.WaitSpec wait) (out : List (Rx (Entry κ)))
    (h : enumerate (fun e => X.elems e.comp) cfg entries n pairs2 iterLen tagOf chunkSize maxJobs
      (reactBasic X (rankFor X) (solveFor X pinv)) wait = .ok out)
    (r p : List (Entry κ)) (hr : r.Nodup) (hp : p.Nodup) (hr0 : r ≠ []) (hp0 : p ≠ []) (hrn : (r.length : ℤ) ≤ n)
    (hpn : (p.length : ℤ) ≤ n) (hre : ∀ x ∈ r, x ∈ entries) (hpe : ∀ x ∈ p, x ∈ entries) (hdis : ∀ x ∈ r, x ∉ p)
    (a b : Entry κ → ℚ) (hbal : Balances X r p a b) (hwant : Wanted cfg r p)
    (hsize : 2 ≤ (r.flatMap fun e => X.elems e.comp).dedup.length ∧ (r.flatMap fun e => X.elems e.comp).dedup.length ≤ 9)
    (hfc : cfg.filterChemsys ≠ [] → ∀ f ∈ cfg.filterChemsys.splitOn '-', f ∈ r.flatMap fun e => X.elems e.comp) :
    ∃ g : CRxn κ, (out.filter fun x => decide (x.reactants.toFinset = r.toFinset ∧ x.products.toFinset = p.toFinset)) = [viewOf g] ∧
      Whole X g ∧ ∃ s : ℚ, 0 < s ∧ (g.entries.zip g.base.coeffs).Perm ((r.map fun x => (x, -(a x) * s)) ++ p.map fun x => (x, b x * s)) := by
  have hnE : entries.Nodup := List.Nodup.of_map _ hn
  have h1 := C35_complete _ _ (comps X hX) entries hnE n r p hr hp hr0 hp0 hrn hpn hre hpe hdis (balanceable X hX r p a b hbal)
  have nil : ∀ c : List (Entry κ), els (fun e : Entry κ => X.elems e.comp) c (cfg.openEntries.flatMap fun e => X.elems e.comp)
      = c.flatMap fun e => X.elems e.comp := by
    intro c; rw [hopen]; exact List.append_nil _
  refine found_core X hX hsym pinv hpinv cfg hchg hmc entries n pairs2 iterLen tagOf chunkSize maxJobs wait hw out h r p hr hp ?_ ?_ hdis a b
    hbal hwant (red_nodup X entries r p hn hre hpe) ?_ ?_ ?_ ?_
  · obtain ⟨e, he⟩ := List.exists_mem_of_ne_nil _ hr0; exact ⟨e, he, by rw [hopen]; simp⟩
  · obtain ⟨e, he⟩ := List.exists_mem_of_ne_nil _ hp0; exact ⟨e, he, by rw [hopen]; simp⟩
  · unfold SizeOk; rw [nil]; exact hsize
  · intro h0 f hf; rw [nil]; exact hfc h0 f hf
  · rw [hopen]; exact h1
  · intro sys hsys q hq
    obtain ⟨m1, m2⟩ := mem_pairs2 sys.2 q hq
    have hnd := combo_nodup _ entries _ hnE n sys hsys
    exact ⟨hnd _ m1, hnd _ m2, (mem_combosDict _ entries _ n sys hsys q.1 m1).1⟩

/-- Specification: open phases occur on the side `p` only. -/
def OpenOn (opens r p : List (Entry κ)) : Prop := (∀ x ∈ r, x ∉ opens) ∧ ∃ x ∈ p, x ∈ opens

theorem openPairs_one (X : Chem κ Sym) (hX : X.Lawful) (entries opens : List (Entry κ)) (hnE : entries.Nodup) (hno : opens.Nodup) (n : ℤ)
    (r p : List (Entry κ)) (hr : r.Nodup) (hp : p.Nodup) (hr0 : ∃ x ∈ r, x ∉ opens) (hp0 : ∃ x ∈ p, x ∉ opens)
    (hrn : ((r.filter fun x => x ∉ opens).length : ℤ) ≤ n) (hpn : ((p.filter fun x => x ∉ opens).length : ℤ) ≤ n)
    (hre : ∀ x ∈ r, x ∈ entries) (hpe : ∀ x ∈ p, x ∈ entries) (a b : Entry κ → ℚ) (hbal : Balances X r p a b)
    (hside : OpenOn opens r p) :
    (((combosDict (fun e => X.elems e.comp) entries opens n).flatMap fun sys => pairsOpen sys.2 (openCombos opens)).filter
      (isPair r p)).length = 1 := by
  set c := p.filter fun x => decide (x ∉ opens) with hcdef
  set o := p.filter fun x => decide (x ∈ opens) with hodef
  have hperm : (c ++ o).Perm p := by
    refine List.perm_append_comm.trans ?_
    have := List.filter_append_perm (fun x => decide (x ∈ opens)) p
    have e : (fun x => !decide (x ∈ opens)) = fun x : Entry κ => decide (x ∉ opens) := by funext x; simp
    rw [e] at this
    exact this
  have hrf : r.filter (fun x => decide (x ∉ opens)) = r := List.filter_eq_self.mpr fun x hx => decide_eq_true (hside.1 x hx)
  rw [hrf] at hrn
  have hne : ∀ {l : List (Entry κ)} {x}, x ∈ l → l ≠ [] := fun h => List.ne_nil_of_mem h
  have h1 := C35_open _ _ (comps X hX) entries opens hnE hno n r c o hr (hp.filter _) (hp.filter _)
    (by obtain ⟨x, hx, _⟩ := hr0; exact hne hx)
    (by obtain ⟨x, hx, hxo⟩ := hp0; exact hne (List.mem_filter.mpr ⟨hx, decide_eq_true hxo⟩))
    (by obtain ⟨x, hx, hxo⟩ := hside.2; exact hne (List.mem_filter.mpr ⟨hx, decide_eq_true hxo⟩))
    hrn hpn (fun x hx => ⟨hre x hx, hside.1 x hx⟩)
    (fun x hx => ⟨hpe x (List.mem_filter.mp hx).1, of_decide_eq_true (List.mem_filter.mp hx).2⟩)
    (fun x hx => of_decide_eq_true (List.mem_filter.mp hx).2)
    (balanceable X hX _ _ a b (hbal.perm (List.Perm.refl r) hperm))
  rw [← h1]
  congr 1
  apply List.filter_congr
  intro q hq
  obtain ⟨sys, hsys, hqs⟩ := List.mem_flatMap.mp hq
  obtain ⟨m1, _⟩ := (mem_pairsOpen _ _ q.1 q.2).mp hqs
  obtain ⟨_, _, hm⟩ := mem_combosDict _ entries _ n sys hsys q.1 m1
  have hfalse : sameSetB q.1 p = false := by
    rw [Bool.eq_false_iff]
    intro hs
    rw [sameSetB_iff] at hs
    obtain ⟨x, hx, hxo⟩ := hside.2
    exact (hm x ((hs x).mpr hx)).2 hxo
  have hcongr : sameSetB q.2 p = sameSetB q.2 (c ++ o) := by
    unfold sameSetB
    rw [List.toFinset_eq_of_perm _ _ hperm]
  unfold isPair
  rw [hfalse, hcongr, Bool.false_and, Bool.or_false]

theorem isPair_comm (r p : List (Entry κ)) : isPair r p = isPair p r := by
  funext q
  unfold isPair
  exact Bool.or_comm _ _

/-- **C124 (partial, as above).**  BasicOpenEnumerator: every reaction with open phases on one side, whichever side it is, and at most `n`
other phases on each side is found exactly once. -/
theorem C124_open_found_once_partial {τ : Type} (X : Chem κ Sym) (hX : X.Lawful) (hsym : Symbols fun e : Entry κ => X.elems e.comp)
    (pinv : ℕ → List (List ℚ) → List ℚ → List ℚ) (hpinv : Exact pinv)
    (cfg : Cfg (Entry κ)) (hno : cfg.openEntries.Nodup) (hchg : cfg.removeChanged = true) (hmc : 1 ≤ cfg.maxConstraints)
    (entries : List (Entry κ)) (hn : (entries.map fun e => X.red e.comp).Nodup) (n : ℤ)
    (iterLen : List (List (Entry κ)) → ℕ) (tagOf : List Char → τ) (chunkSize maxJobs : ℕ)
    (wait : ℕ → List (Chunk (List (Entry κ) × List (Entry κ)) τ) → List (Chunk (List (Entry κ) × List (Entry κ)) τ) × List (Chunk (List (Entry κ) × List (Entry κ)) τ))
    (hw : Verif.Props.Utils.WaitSpec wait) (out : List (Rx (Entry κ)))
    (h : enumerate (fun e => X.elems e.comp) cfg entries n (fun c => pairsOpen c (openCombos cfg.openEntries)) iterLen tagOf chunkSize maxJobs
      (reactBasic X (rankFor X) (solveFor X pinv)) wait = .ok out)
    (r p : List (Entry κ)) (hr : r.Nodup) (hp : p.Nodup) (hr0 : ∃ x ∈ r, x ∉ cfg.openEntries) (hp0 : ∃ x ∈ p, x ∉ cfg.openEntries)
    (hrn : ((r.filter fun x => x ∉ cfg.openEntries).length : ℤ) ≤ n) (hpn : ((p.filter fun x => x ∉ cfg.openEntries).length : ℤ) ≤ n)
    (hre : ∀ x ∈ r, x ∈ entries) (hpe : ∀ x ∈ p, x ∈ entries) (hdis : ∀ x ∈ r, x ∉ p)
    (hside : OpenOn cfg.openEntries r p ∨ OpenOn cfg.openEntries p r)
    (a b : Entry κ → ℚ) (hbal : Balances X r p a b) (hwant : Wanted cfg r p)
    (hsize : SizeOk (fun e => X.elems e.comp) r cfg.openEntries)
    (hfc : cfg.filterChemsys ≠ [] → ∀ f ∈ cfg.filterChemsys.splitOn '-', f ∈ r.flatMap fun e => X.elems e.comp) :
    ∃ g : CRxn κ, (out.filter fun x => decide (x.reactants.toFinset = r.toFinset ∧ x.products.toFinset = p.toFinset)) = [viewOf g] ∧
      Whole X g ∧ ∃ s : ℚ, 0 < s ∧ (g.entries.zip g.base.coeffs).Perm ((r.map fun x => (x, -(a x) * s)) ++ p.map fun x => (x, b x * s)) := by
  have hnE : entries.Nodup := List.Nodup.of_map _ hn
  refine found_core X hX hsym pinv hpinv cfg hchg hmc entries n _ iterLen tagOf chunkSize maxJobs wait hw out h r p hr hp hr0 hp0 hdis a b
    hbal hwant (red_nodup X entries r p hn hre hpe) hsize (fun h0 f hf => List.mem_append_left _ (hfc h0 f hf)) ?_ ?_
  · rcases hside with hs | hs
    · exact openPairs_one X hX entries _ hnE hno n r p hr hp hr0 hp0 hrn hpn hre hpe a b hbal hs
    · rw [isPair_comm]
      exact openPairs_one X hX entries _ hnE hno n p r hp hr hp0 hr0 hpn hrn hpe hre b a hbal.symm hs
  · intro sys hsys q hq
    obtain ⟨m1, c, hc, o, ho, hi, hpo⟩ := (mem_pairsOpen _ _ q.1 q.2).mp hq
    have hnd := combo_nodup _ entries _ hnE n sys hsys
    have hosub := ((Verif.Props.Utils.C30_mem _ o _).mp ho).1
    refine ⟨hnd _ m1, ?_, (mem_combosDict _ entries _ n sys hsys q.1 m1).1⟩
    rw [hpo]
    unfold union
    rw [List.nodup_append]
    refine ⟨hnd _ hc, (hno.sublist hosub).filter _, ?_⟩
    rintro x hx _ hy rfl
    simpa using of_decide_eq_true (List.mem_filter.mp hy).2 hx

/-- Every returned reaction has the two sides of a candidate pair. -/
theorem from_pair {τ : Type} (X : Chem κ Sym) (hX : X.Lawful) (rank : List (Entry κ) → List (Entry κ) → ℕ)
    (solve : List (Entry κ) → List (Entry κ) → List ℕ → List ℚ) (hsh : ∀ r p cs, (solve r p cs).length = r.length + p.length)
    (elems : Entry κ → List Sym) (cfg : Cfg (Entry κ)) (hchg : cfg.removeChanged = true)
    (entries : List (Entry κ)) (n : ℤ) (pairsOf : List (List (Entry κ)) → List (List (Entry κ) × List (Entry κ)))
    (iterLen : List (List (Entry κ)) → ℕ) (tagOf : List Char → τ) (chunkSize maxJobs : ℕ)
    (wait : ℕ → List (Chunk (List (Entry κ) × List (Entry κ)) τ) → List (Chunk (List (Entry κ) × List (Entry κ)) τ) × List (Chunk (List (Entry κ) × List (Entry κ)) τ))
    (hw : Verif.Props.Utils.WaitSpec wait) (out : List (Rx (Entry κ)))
    (h : enumerate elems cfg entries n pairsOf iterLen tagOf chunkSize maxJobs (reactBasic X rank solve) wait = .ok out)
    (x : Rx (Entry κ)) (hx : x ∈ out) :
    ∃ sys ∈ combosDict elems entries cfg.openEntries n, ∃ q ∈ pairsOf sys.2,
      (x.reactants = q.1 ∧ x.products = q.2) ∨ (x.reactants = q.2 ∧ x.products = q.1) := by
  unfold enumerate at h
  rw [bind_ok] at h
  obtain ⟨size, hsz, h⟩ := h
  have hs : 0 < size := by
    unfold effSize at hsz
    split_ifs at hsz with h1 h2 h3
    · rw [← Except.ok.inj hsz]; exact Nat.succ_pos _
    · rw [← Except.ok.inj hsz]; exact Nat.pos_of_ne_zero h1
  obtain ⟨out', hser, hperm⟩ := (C33_schedule cfg _ wait hw size hs _).2 out h
  obtain ⟨hall, hout⟩ := (flatM_ok _ _ _).mp hser
  have hx2 := hperm.mem_iff.mp hx
  rw [hout] at hx2
  obtain ⟨c, hcm, hxc⟩ := List.mem_flatMap.mp hx2
  obtain ⟨v, hv⟩ := hall c hcm
  have hval : val (fun c : (List (Entry κ) × List (Entry κ)) × τ => reactPair cfg (reactBasic X rank solve) c.1 c.2) c
      = v := by unfold val; simp only [hv]
  rw [hval] at hxc
  obtain ⟨hA, _, l', hl', hx'⟩ := reactPair_mem cfg _ c.1 c.2 v hv x hxc
  rw [← Except.ok.inj hl'] at hx'
  have hlne := hA.clean hchg
  have hlne0 : (balanceComputed X c.1.1 c.1.2 (rank c.1.1 c.1.2) (solve c.1.1 c.1.2) []).base.lne = some 0 := by
    rcases List.mem_cons.mp hx' with rfl | hx'
    · exact hlne
    · rw [List.mem_singleton.mp hx'] at hlne; exact hlne
  obtain ⟨v1, v2⟩ := clean_sides X hX _ (solve c.1.1 c.1.2) c.1.1 c.1.2 (fun cs => hsh _ _ _) hlne0
  obtain ⟨it, hit, hcq⟩ := List.mem_flatMap.mp hcm
  obtain ⟨sys, hsys, rfl⟩ := List.mem_map.mp hit
  obtain ⟨q, hq, rfl⟩ := List.mem_map.mp hcq
  refine ⟨sys, (List.mem_filter.mp hsys).1, q, hq, ?_⟩
  rcases List.mem_cons.mp hx' with rfl | hx'
  · exact .inl v1
  · rw [List.mem_singleton.mp hx']; exact .inr v2

/-- **C124.**  BasicOpenEnumerator returns only reactions with open phases on exactly one side. -/
theorem C124_open_one_side {τ : Type} (X : Chem κ Sym) (hX : X.Lawful) (rank : List (Entry κ) → List (Entry κ) → ℕ)
    (solve : List (Entry κ) → List (Entry κ) → List ℕ → List ℚ) (hsh : ∀ r p cs, (solve r p cs).length = r.length + p.length)
    (elems : Entry κ → List Sym) (cfg : Cfg (Entry κ)) (hchg : cfg.removeChanged = true)
    (entries : List (Entry κ)) (n : ℤ) (iterLen : List (List (Entry κ)) → ℕ) (tagOf : List Char → τ) (chunkSize maxJobs : ℕ)
    (wait : ℕ → List (Chunk (List (Entry κ) × List (Entry κ)) τ) → List (Chunk (List (Entry κ) × List (Entry κ)) τ) × List (Chunk (List (Entry κ) × List (Entry κ)) τ))
    (hw : Verif.Props.Utils.WaitSpec wait) (out : List (Rx (Entry κ)))
    (h : enumerate elems cfg entries n (fun c => pairsOpen c (openCombos cfg.openEntries)) iterLen tagOf chunkSize maxJobs
      (reactBasic X rank solve) wait = .ok out) :
    ∀ x ∈ out, OpenOn cfg.openEntries x.reactants x.products ∨ OpenOn cfg.openEntries x.products x.reactants := by
  intro x hx
  obtain ⟨sys, hsys, q, hq, hsides⟩ := from_pair X hX rank solve hsh elems cfg hchg entries n _ iterLen tagOf chunkSize maxJobs wait hw out h x hx
  obtain ⟨m1, c, hc, o, ho, hi, hpo⟩ := (mem_pairsOpen _ _ q.1 q.2).mp hq
  obtain ⟨hosub, ho0, _⟩ := (Verif.Props.Utils.C30_mem _ o _).mp ho
  have hside : OpenOn cfg.openEntries q.1 q.2 := by
    refine ⟨fun y hy => ((mem_combosDict _ entries _ n sys hsys q.1 m1).2.2 y hy).2, ?_⟩
    obtain ⟨y, hy⟩ := List.exists_mem_of_ne_nil _ ho0
    exact ⟨y, by rw [hpo]; exact mem_union.mpr (.inr hy), hosub.subset hy⟩
  rcases hsides with ⟨h1, h2⟩ | ⟨h1, h2⟩
  · rw [h1, h2]; exact .inl hside
  · rw [h1, h2]; exact .inr hside

/-! ### Example: `2 A + B → A2B` among A, B, AB and A2B -/

/-- The amounts in A, B, AB, A2B. -/
def exAmt : Fin 4 → ℚ × ℚ
  | 0 => (1, 0)
  | 1 => (0, 1)
  | 2 => (1, 1)
  | 3 => (2, 1)

def exChem : Chem (Fin 4) Sym where
  amt c s := if s = ['A'] then (exAmt c).1 else if s = ['B'] then (exAmt c).2 else 0
  elems c := (if (exAmt c).1 = 0 then [] else [['A']]) ++ if (exAmt c).2 = 0 then [] else [['B']]
  red c := c
  fac _ := 1

theorem exLawful : exChem.Lawful where
  nonneg c s := by
    unfold exChem
    fin_cases c <;> simp only [exAmt] <;> split_ifs <;> norm_num
  mem_elems c s := by
    unfold exChem
    fin_cases c <;> simp only [exAmt] <;> by_cases h1 : s = ['A'] <;> by_cases h2 : s = ['B'] <;> simp [h1, h2]
  nodup c := by
    unfold exChem
    fin_cases c <;> decide +kernel
  fac_pos _ := by unfold exChem; norm_num
  red_amt c s := by unfold exChem; simp
  red_red _ := rfl

theorem exSymbols : Symbols fun e : Entry (Fin 4) => exChem.elems e.comp where
  ne x := (by decide +kernel : ∀ c : Fin 4, exChem.elems c ≠ []) x.comp
  dash x := (by decide +kernel : ∀ c : Fin 4, ∀ s ∈ exChem.elems c, '-' ∉ s) x.comp

/-- There is a backend of the assumed kind. -/
theorem exact_exists : ∃ pinv, Exact pinv := by
  classical
  refine ⟨fun n M b => if h : ∃ x, Verif.Props.BalanceLinear.Solution n M b x then h.choose else List.replicate n 0, ?_, ?_⟩
  · intro n M b
    by_cases h : ∃ x, Verif.Props.BalanceLinear.Solution n M b x
    · simp only [h, dif_pos]; exact h.choose_spec.1
    · simp only [h, dif_neg, not_false_iff, List.length_replicate]
  · intro n M b h
    simp only [h, dif_pos]
    exact h.choose_spec

def exEntries : List (Entry (Fin 4)) := [⟨0, -1⟩, ⟨1, -1⟩, ⟨2, -3⟩, ⟨3, -5⟩]

/-- Only reactions that make A2B are wanted. -/
def exSettings : Cfg (Entry (Fin 4)) := ⟨[], [⟨3, -5⟩], [], false, true, true, true, 1, []⟩

theorem exBalances : Balances exChem [⟨0, -1⟩, ⟨1, -1⟩] [⟨3, -5⟩] (fun x => if x.comp = 0 then 2 else 1) fun _ => 1 where
  consumed := by decide +kernel
  made := by decide +kernel
  conserved s := by
    by_cases h1 : s = ['A'] <;> by_cases h2 : s = ['B'] <;> simp [exChem, exAmt, h1, h2]
  only c hc := by
    have hA := hc ['A']
    have hB := hc ['B']
    simp [exChem, exAmt] at hA hB
    refine ⟨c ⟨3, -5⟩, ?_, ?_⟩
    · intro x hx
      simp only [List.mem_cons, List.not_mem_nil, or_false] at hx
      rcases hx with rfl | rfl
      · simp; linarith
      · simp; linarith
    · intro x hx
      rw [List.mem_singleton.mp hx]; ring

/-- The run asked for A2B finds `2 A + B → A2B` exactly once. -/
example : ∃ pinv, Exact pinv ∧ ∃ out, enumerate (fun e => exChem.elems e.comp) exSettings exEntries 2 pairs2 (fun c => c.length.choose 2)
      (fun _ => ()) 1 10 (reactBasic exChem (rankFor exChem) (solveFor exChem pinv)) Verif.Props.Utils.lifo = .ok out ∧
    (out.filter fun x => decide (x.reactants.toFinset = [⟨0, -1⟩, ⟨1, -1⟩].toFinset ∧ x.products.toFinset = [⟨3, -5⟩].toFinset)).length = 1 := by
  obtain ⟨pinv, hp⟩ := exact_exists
  obtain ⟨out, ho⟩ := C124_runs exChem (rankFor exChem) (solveFor exChem pinv) (fun e => exChem.elems e.comp) exSettings exEntries 2 pairs2
    (fun c => c.length.choose 2) (fun _ => ()) 1 10 (by norm_num) (by norm_num) Verif.Props.Utils.lifo Verif.Props.Utils.lifo_spec
  obtain ⟨g, hg, _⟩ := C124_found_once_partial exChem exLawful exSymbols pinv hp exSettings rfl rfl (by decide) exEntries (by decide) 2 _ _ 1 10
    _ Verif.Props.Utils.lifo_spec out ho [⟨0, -1⟩, ⟨1, -1⟩] [⟨3, -5⟩] (by decide +kernel) (by decide +kernel) (by simp) (by simp) (by decide) (by decide)
    (by decide +kernel) (by decide +kernel) (by decide +kernel) _ _ exBalances
    ⟨by decide +kernel, by decide +kernel, by decide +kernel, by decide +kernel⟩ (by decide +kernel) (by decide +kernel)
  exact ⟨pinv, hp, out, ho, by rw [hg]; rfl⟩

/-- The run with A open finds `2 A + B → A2B` and its reverse. -/
example : ∃ pinv, Exact pinv ∧ ∃ out, enumerate (fun e => exChem.elems e.comp) { exSettings with openEntries := [⟨0, -1⟩], targets := [] } exEntries 1
      (fun c => pairsOpen c (openCombos [⟨0, -1⟩])) (fun c => c.length.choose 2)
      (fun _ => ()) 1 10 (reactBasic exChem (rankFor exChem) (solveFor exChem pinv)) Verif.Props.Utils.lifo = .ok out ∧
    (out.filter fun x => decide (x.reactants.toFinset = [⟨0, -1⟩, ⟨1, -1⟩].toFinset ∧ x.products.toFinset = [⟨3, -5⟩].toFinset)).length = 1 ∧
    (out.filter fun x => decide (x.reactants.toFinset = [⟨3, -5⟩].toFinset ∧ x.products.toFinset = [⟨0, -1⟩, ⟨1, -1⟩].toFinset)).length = 1 := by
  obtain ⟨pinv, hp⟩ := exact_exists
  obtain ⟨out, ho⟩ := C124_runs exChem (rankFor exChem) (solveFor exChem pinv) (fun e => exChem.elems e.comp)
    { exSettings with openEntries := [⟨0, -1⟩], targets := [] } exEntries 1 (fun c => pairsOpen c (openCombos [⟨0, -1⟩]))
    (fun c => c.length.choose 2) (fun _ => ()) 1 10 (by norm_num) (by norm_num) Verif.Props.Utils.lifo Verif.Props.Utils.lifo_spec
  obtain ⟨g, hg, _⟩ := C124_open_found_once_partial exChem exLawful exSymbols pinv hp { exSettings with openEntries := [⟨0, -1⟩], targets := [] }
    (by decide +kernel) rfl (by decide) exEntries (by decide) 1 _ _ 1 10
    _ Verif.Props.Utils.lifo_spec out ho [⟨0, -1⟩, ⟨1, -1⟩] [⟨3, -5⟩] (by decide +kernel) (by decide +kernel) (by decide +kernel) (by decide +kernel)
    (by decide +kernel) (by decide +kernel) (by decide +kernel) (by decide +kernel) (by decide +kernel)
    (.inr ⟨by decide +kernel, by decide +kernel⟩) _ _ exBalances
    ⟨by decide +kernel, by decide +kernel, by decide +kernel, by decide +kernel⟩ ⟨by decide +kernel, by decide +kernel⟩ (by decide +kernel)
  obtain ⟨g', hg', _⟩ := C124_open_found_once_partial exChem exLawful exSymbols pinv hp { exSettings with openEntries := [⟨0, -1⟩], targets := [] }
    (by decide +kernel) rfl (by decide) exEntries (by decide) 1 _ _ 1 10
    _ Verif.Props.Utils.lifo_spec out ho [⟨3, -5⟩] [⟨0, -1⟩, ⟨1, -1⟩] (by decide +kernel) (by decide +kernel) (by decide +kernel) (by decide +kernel)
    (by decide +kernel) (by decide +kernel) (by decide +kernel) (by decide +kernel) (by decide +kernel)
    (.inl ⟨by decide +kernel, by decide +kernel⟩) _ _ exBalances.symm
    ⟨by decide +kernel, by decide +kernel, by decide +kernel, by decide +kernel⟩ ⟨by decide +kernel, by decide +kernel⟩ (by decide +kernel)
  exact ⟨pinv, hp, out, ho, by rw [hg]; rfl, by rw [hg']; rfl⟩

/-! ### Open phases on both sides: `MC + O → MO + C` -/

/-- The amounts of M, C and O in the phases MC, O, MO and C. -/
def swAmt : Fin 4 → ℚ × ℚ × ℚ
  | 0 => (1, 1, 0)
  | 1 => (0, 0, 1)
  | 2 => (1, 0, 1)
  | 3 => (0, 1, 0)

def swChem : Chem (Fin 4) Sym where
  amt c s := if s = ['M'] then (swAmt c).1 else if s = ['C'] then (swAmt c).2.1 else if s = ['O'] then (swAmt c).2.2 else 0
  elems c := (if (swAmt c).1 = 0 then [] else [['M']]) ++ (if (swAmt c).2.1 = 0 then [] else [['C']]) ++ if (swAmt c).2.2 = 0 then [] else [['O']]
  red c := c
  fac _ := 1

theorem swLawful : swChem.Lawful where
  nonneg c s := by
    unfold swChem
    fin_cases c <;> simp only [swAmt] <;> split_ifs <;> norm_num
  mem_elems c s := by
    unfold swChem
    fin_cases c <;> simp only [swAmt] <;> by_cases h1 : s = ['M'] <;> by_cases h2 : s = ['C'] <;> by_cases h3 : s = ['O'] <;>
      simp [h1, h2, h3]
  nodup c := by
    unfold swChem
    fin_cases c <;> decide +kernel
  fac_pos _ := by unfold swChem; norm_num
  red_amt c s := by unfold swChem; simp
  red_red _ := rfl

theorem swBalances : Balances swChem [⟨0, 0⟩, ⟨1, 0⟩] [⟨2, 0⟩, ⟨3, 0⟩] (fun _ => 1) fun _ => 1 where
  consumed := by decide +kernel
  made := by decide +kernel
  conserved s := by
    by_cases h1 : s = ['M'] <;> by_cases h2 : s = ['C'] <;> by_cases h3 : s = ['O'] <;> simp [swChem, swAmt, h1, h2, h3]
  only c hc := by
    have hA := hc ['M']
    have hB := hc ['C']
    have hC := hc ['O']
    simp [swChem, swAmt] at hA hB hC
    refine ⟨c ⟨3, 0⟩, ?_, ?_⟩
    · intro x hx
      simp only [List.mem_cons, List.not_mem_nil, or_false] at hx
      rcases hx with rfl | rfl <;> linarith
    · intro x hx
      simp only [List.mem_cons, List.not_mem_nil, or_false] at hx
      rcases hx with rfl | rfl <;> linarith

/-- **C124 is violated** by BasicOpenEnumerator ("any number of open phases"): with C and O open, `MC + O → MO + C` is not found,
although it balances in exactly one way, no settings exclude it, and there is a single other phase on each side. -/
theorem C124_both_sides_violated (pinv : ℕ → List (List ℚ) → List ℚ → List ℚ) (hp : Exact pinv) :
    let cfg : Cfg (Entry (Fin 4)) := ⟨[], [], [⟨1, 0⟩, ⟨3, 0⟩], true, false, true, true, 1, []⟩
    swChem.Lawful ∧ Balances swChem [⟨0, 0⟩, ⟨1, 0⟩] [⟨2, 0⟩, ⟨3, 0⟩] (fun _ => 1) (fun _ => 1) ∧ Wanted cfg [⟨0, 0⟩, ⟨1, 0⟩] [⟨2, 0⟩, ⟨3, 0⟩] ∧
    ∃ out, enumerate (fun e => swChem.elems e.comp) cfg [⟨0, 0⟩, ⟨1, 0⟩, ⟨2, 0⟩, ⟨3, 0⟩] 2 (fun c => pairsOpen c (openCombos cfg.openEntries))
      (fun c => c.length.choose 2) (fun _ => ()) 1 10 (reactBasic swChem (rankFor swChem) (solveFor swChem pinv)) Verif.Props.Utils.lifo = .ok out ∧
    ∀ x ∈ out, ¬ (x.reactants.toFinset = [⟨0, 0⟩, ⟨1, 0⟩].toFinset ∧ x.products.toFinset = [⟨2, 0⟩, ⟨3, 0⟩].toFinset) := by
  intro cfg
  refine ⟨swLawful, swBalances, ⟨by decide +kernel, by decide +kernel, by decide +kernel, by decide +kernel⟩, ?_⟩
  obtain ⟨out, ho⟩ := C124_runs swChem (rankFor swChem) (solveFor swChem pinv) (fun e => swChem.elems e.comp) cfg
    [⟨0, 0⟩, ⟨1, 0⟩, ⟨2, 0⟩, ⟨3, 0⟩] 2 (fun c => pairsOpen c (openCombos cfg.openEntries))
    (fun c => c.length.choose 2) (fun _ => ()) 1 10 (by norm_num) (by norm_num) Verif.Props.Utils.lifo Verif.Props.Utils.lifo_spec
  refine ⟨out, ho, ?_⟩
  rintro x hx ⟨h1, h2⟩
  have m1 : (⟨1, 0⟩ : Entry (Fin 4)) ∈ x.reactants := by rw [← List.mem_toFinset, h1]; decide +kernel
  have m2 : (⟨3, 0⟩ : Entry (Fin 4)) ∈ x.products := by rw [← List.mem_toFinset, h2]; decide +kernel
  rcases C124_open_one_side swChem swLawful _ _ (fun r p cs => hp.shape _ _ _) _ cfg rfl _ _ _ _ _ _ _ Verif.Props.Utils.lifo_spec out ho x hx with h | h
  · exact h.1 _ m1 (by decide +kernel)
  · exact h.1 _ m2 (by decide +kernel)

end Verif.Props.EnumComplete
