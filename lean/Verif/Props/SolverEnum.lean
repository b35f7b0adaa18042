import Verif.Props.EndToEnd
import Verif.Props.Solver

/-!
Property C154: enumerate the reactions of a set of phases and hand them to the pathway solver; every way to split the net reaction into sought
reactions is found (src/rxn_network/enumerators/basic.py and src/rxn_network/pathways/solver.py).
-/

set_option linter.unusedSectionVars false

namespace Verif.Props.SolverEnum
open Verif.Py Verif.Model Verif.Model.Enum Verif.Model.Reaction Verif.Model.RxnSet Verif.Model.Pathway Verif.Model.Solver
  Verif.Props.Utils Verif.Props.Solver Verif.Spec.Solver Verif.Props.EnumGroup Verif.Props.BalanceLinear Verif.Props.EnumComplete
  Verif.Props.EnumExact Verif.Props.EndToEnd

variable {κ δ ε : Type} [DecidableEq κ]

/-! ### Specification -/

/-- A part of a plan: the reaction that turns `a x` of each phase of `r` into `b x` of each phase of `p`, carried out `m` times. -/
structure Part (κ : Type) where
  r : List (Entry κ)
  p : List (Entry κ)
  a : Entry κ → ℚ
  b : Entry κ → ℚ
  m : ℚ

/-- What the reaction makes of the phase `e` (negative: consumes). -/
def Part.makes (s : Part κ) (e : Entry κ) : ℚ := (if e ∈ s.p then s.b e else 0) - if e ∈ s.r then s.a e else 0

/-- The reactions are the same up to a positive factor. -/
def Multiple (f g : Entry κ → ℚ) (k : ℚ) : Prop := 0 < k ∧ ∀ e, f e = k * g e

/-- The amounts of a stored reaction. -/
def amounts (i : SRxn (Entry κ) δ ε) (e : Entry κ) : ℚ := amount (i.entries.zip i.coeffs) e

/-- A reaction of the enumeration as it is stored: a balanced reaction between the same phases. -/
structure StoredAs (X : Chem κ Sym) (i : SRxn (Entry κ) δ ε) (x : Rx (Entry κ)) : Prop where
  reactants : ∀ e, amounts i e < 0 ↔ e ∈ x.reactants
  products : ∀ e, 0 < amounts i e ↔ e ∈ x.products
  balanced : ∀ s, (x.reactants.map fun e => amounts i e * X.amt (X.red e.comp) s).sum
    + (x.products.map fun e => amounts i e * X.amt (X.red e.comp) s).sum = 0

/-- A plan for the net reaction: sought reactions, no two of them multiples of each other, that add up to the net reaction, with these
multiplicities only. -/
structure Plan (X : Chem κ Sym) (cfg : Cfg (Entry κ)) (entries : List (Entry κ)) (n : ℤ) (all : List (Entry κ)) (net : SRxn (Entry κ) δ ε)
    (steps : List (Part κ)) : Prop where
  sought : ∀ s ∈ steps, Sought X cfg entries n s.r s.p s.a s.b
  positive : ∀ s ∈ steps, 0 < s.m
  different : steps.Pairwise fun s s' => ∀ k, ¬ Multiple s'.makes s.makes k
  sum : ∀ e ∈ all, (steps.map fun s => s.m * s.makes e).sum = amounts net e
  only : ∀ f : Part κ → ℚ, (∀ e ∈ all, (steps.map fun s => f s * s.makes e).sum = amounts net e) → ∀ s ∈ steps, f s = s.m

/-! ### Helper lemmas -/

theorem perm_map_exists {α β : Type} (f : α → β) {l l' : List β} (h : l.Perm l') : ∀ s : List α, s.map f = l' → ∃ s' : List α, s'.Perm s ∧ s'.map f = l := by
  induction h with
  | nil => exact fun s hs => ⟨s, List.Perm.refl _, hs⟩
  | @cons x l₁ l₂ _ ih =>
    intro s hs
    cases s with
    | nil => simp at hs
    | cons a t =>
      rw [List.map_cons, List.cons.injEq] at hs
      obtain ⟨t', h1, h2⟩ := ih t hs.2
      exact ⟨a :: t', h1.cons a, by rw [List.map_cons, hs.1, h2]⟩
  | swap x y l =>
    intro s hs
    match s, hs with
    | a :: b :: t, hs =>
      rw [List.map_cons, List.map_cons, List.cons.injEq, List.cons.injEq] at hs
      exact ⟨b :: a :: t, List.Perm.swap _ _ _, by rw [List.map_cons, List.map_cons, hs.1, hs.2.1, hs.2.2]⟩
  | trans _ _ ih1 ih2 =>
    intro s hs
    obtain ⟨t, h1, h2⟩ := ih2 s hs
    obtain ⟨u, h3, h4⟩ := ih1 t h2
    exact ⟨u, h3.trans h1, h4⟩

open Classical in
theorem map_exists {α β : Type} [Nonempty β] : ∀ (l : List α) (v : List β), l.Nodup → v.length = l.length → ∃ f : α → β, l.map f = v
  | [], [], _, _ => ⟨fun _ => Classical.arbitrary β, rfl⟩
  | [], _ :: _, _, h => by simp at h
  | _ :: _, [], _, h => by simp at h
  | a :: l, b :: v, hn, h => by
    rw [List.nodup_cons] at hn
    obtain ⟨f, hf⟩ := map_exists l v hn.2 (by simpa using h)
    refine ⟨fun x => if x = a then b else f x, ?_⟩
    rw [List.map_cons, if_pos rfl, ← hf]
    congr 1
    apply List.map_congr_left
    intro x hx
    rw [if_neg]
    rintro rfl
    exact hn.1 hx

open Classical in
theorem sum_single {α : Type} (g : α → ℚ) (s : α) : ∀ l : List α, l.Nodup → s ∈ l → (l.map fun t => if t = s then g t else 0).sum = g s
  | [], _, h => by simp at h
  | a :: l, hn, h => by
    rw [List.nodup_cons] at hn
    rw [List.map_cons, List.sum_cons]
    by_cases ha : a = s
    · subst ha
      rw [if_pos rfl, List.sum_eq_zero, add_zero]
      intro y hy
      obtain ⟨t, ht, rfl⟩ := List.mem_map.mp hy
      rw [if_neg]
      rintro rfl
      exact hn.1 ht
    · rw [if_neg ha, zero_add]
      exact sum_single g s l hn.2 ((List.mem_cons.mp h).resolve_left (Ne.symm ha))

theorem collect_rep {ρ : Type} (eq : ρ → ρ → Bool) (hrefl : ∀ a, eq a a = true) : ∀ (l acc : List (ρ × ℚ)),
    (∀ a ∈ acc, a ∈ collectRxns eq acc l) ∧ ∀ a ∈ l, ∃ b ∈ collectRxns eq acc l, eq b.1 a.1 = true
  | [], acc => ⟨fun a h => h, by simp⟩
  | rc :: l, acc => by
    rw [collectRxns]
    split
    · rename_i h
      obtain ⟨i1, i2⟩ := collect_rep eq hrefl l acc
      refine ⟨i1, ?_⟩
      intro a ha
      rcases List.mem_cons.mp ha with rfl | ha
      · obtain ⟨b, hb, he⟩ := List.any_eq_true.mp h
        exact ⟨b, i1 b hb, he⟩
      · exact i2 a ha
    · obtain ⟨i1, i2⟩ := collect_rep eq hrefl l (acc ++ [rc])
      refine ⟨fun a ha => i1 a (List.mem_append.mpr (Or.inl ha)), ?_⟩
      intro a ha
      rcases List.mem_cons.mp ha with rfl | ha
      · exact ⟨a, i1 a (by simp), hrefl _⟩
      · exact i2 a ha

/-- A stored reaction is a multiple of the sought one. -/
theorem stored_multiple {X : Chem κ Sym} {cfg : Cfg (Entry κ)} {entries : List (Entry κ)} {n : ℤ} {s : Part κ}
    (hS : Sought X cfg entries n s.r s.p s.a s.b) {x : Rx (Entry κ)} (hr : x.reactants.Perm s.r) (hp : x.products.Perm s.p)
    {i : SRxn (Entry κ) δ ε} (hi : StoredAs X i x) : ∃ k, Multiple (amounts i) s.makes k := by
  obtain ⟨t, h1, h2⟩ := hS.balances.only (amounts i) (by
    intro u
    rw [← (hr.map _).sum_eq, ← (hp.map _).sum_eq]
    exact hi.balanced u)
  obtain ⟨y, hy⟩ := List.exists_mem_of_ne_nil _ hS.someR
  have ht : 0 < t := by
    have h3 := (hi.reactants y).mpr (hr.mem_iff.mpr hy)
    rw [h1 y hy] at h3
    have h4 := hS.balances.consumed y hy
    by_contra hn
    push Not at hn
    nlinarith [mul_nonneg h4.le (neg_nonneg.mpr hn)]
  refine ⟨t, ht, fun e => ?_⟩
  unfold Part.makes
  by_cases her : e ∈ s.r
  · rw [if_pos her, if_neg (hS.disjoint e her), h1 e her]; ring
  · by_cases hep : e ∈ s.p
    · rw [if_neg her, if_pos hep, h2 e hep]; ring
    · rw [if_neg her, if_neg hep]
      have h3 := mt (hi.reactants e).mp (fun h => her (hr.mem_iff.mp h))
      have h4 := mt (hi.products e).mp (fun h => hep (hp.mem_iff.mp h))
      linarith

theorem forall_zip {R : Part κ → ℚ} {g : Part κ → SRxn (Entry κ) δ ε} : ∀ (l : List (Part κ)) (rs : List (SRxn (Entry κ) δ ε)),
    List.Forall₂ (fun r s => ∀ e, amounts r e = amounts s e) rs (l.map g) → (∀ s ∈ l, ∀ e, R s * amounts (g s) e = s.m * s.makes e) →
    List.Forall₂ (fun (x : SRxn (Entry κ) δ ε × ℚ) s => ∀ e, x.2 * amounts x.1 e = s.m * s.makes e) (rs.zip (l.map R)) l
  | [], rs, h, _ => by
    rw [List.map_nil, List.forall₂_nil_right_iff] at h
    subst h
    exact .nil
  | s :: l, rs, h, hR => by
    rw [List.map_cons, List.forall₂_cons_right_iff] at h
    obtain ⟨r, rs', h1, h2, rfl⟩ := h
    rw [List.map_cons, List.zip_cons_cons]
    refine .cons ?_ (forall_zip l rs' h2 fun s hs => hR s (List.mem_cons_of_mem _ hs))
    intro e
    rw [h1 e]
    exact hR s List.mem_cons_self e

theorem forall₂_imp_mem {α β : Type} {R S : α → β → Prop} {l : List α} {l' : List β} (hi : ∀ a, ∀ b ∈ l', R a b → S a b)
    (h : List.Forall₂ R l l') : List.Forall₂ S l l' := by
  induction h with
  | nil => exact .nil
  | @cons a b l l' h1 _ ih =>
    exact .cons (hi a b List.mem_cons_self h1) (ih fun a b hb => hi a b (List.mem_cons_of_mem _ hb))

/-! ### The property -/

open Classical in
/-- **C154 (partial: the limits of C132 and C57).** Enumerate the reactions of some phases, store them and give them to the solver, with any
pathways besides. Then for every plan for the net reaction of at least two and at most `maxCombos` steps the solver returns a pathway that consists of
exactly the reactions of the plan, each carried out to the extent the plan says; unless the interdependence filter flags it. -/
theorem C154_found_partial (X : Chem κ Sym) (hX : X.Lawful) (hsym : Symbols fun e : Entry κ => X.elems e.comp)
    (cfg : Cfg (Entry κ)) (hcfg : Plain cfg) (entries : List (Entry κ)) (hn : (entries.map fun e => X.red e.comp).Nodup)
    (hsharp : Sharp X entries) (n : ℤ) (out : List (Rx (Entry κ))) (h : Returns X cfg entries n out)
    (c : Config (Entry κ) δ ε κ) (hw₁ : ∀ k, WaitSpec (c.wait₁ k)) (hw₂ : ∀ i, WaitSpec (c.wait₂ i))
    (hpick : PickSpec c.eq c.pick) (hpinv : PinvSpec c.pinv) (hE : c.entries.Nodup) (hchunk : 0 < c.chunk)
    (hcpu : 2 ≤ c.cpus ∨ ∃ b, c.batch = some (b + 1))
    (heq : ∀ a b, c.eq a b = true ↔ ∀ e, amounts a e = amounts b e)
    (keep : List (SRxn (Entry κ) δ ε × ℚ) → SRxn (Entry κ) δ ε → Bool)
    (hkeep : ∀ l, ∀ a ∈ l, ∃ b ∈ l, keep l b.1 = true ∧ ∃ k, Multiple (amounts b.1) (amounts a.1) k)
    (paths : List (Path (SRxn (Entry κ) δ ε))) (inter : List (SRxn (Entry κ) δ ε × ℚ)) (hwi : InputsIndexed c paths inter)
    (hsolid : (∀ q ∈ paths, ∀ r ∈ q.reactions, Solid r) ∧ ∀ i ∈ inter, Solid i.1)
    (hstored : ∀ x ∈ out, ∃ i ∈ inter, StoredAs X i.1 x)
    (net : SRxn (Entry κ) δ ε) (hnet : WellIndexed c net) (precursors : Finset κ) (maxCombos : ℕ) (filterInter : Bool)
    (steps : List (Part κ)) (hplan : Plan X cfg entries n c.entries net steps) (h2 : 2 ≤ steps.length) (hlen : steps.length ≤ maxCombos)
    (hmany : maxCombos = steps.length ∨ maxCombos ≤ ((collectRxns c.eq (collectRxns c.eq [] (pathPairs paths)) inter).filter fun a =>
      keep (collectRxns c.eq (collectRxns c.eq [] (pathPairs paths)) inter) a.1 && !c.eq a.1 net).length)
    (hbig : ∀ s ∈ steps, ∀ r, (∃ q ∈ paths, r ∈ q.reactions) ∨ (∃ i ∈ inter, r = i.1) → ∀ k, Multiple (amounts r) s.makes k → 1 / 10 ^ 6 ≤ s.m / k)
    (hfl : filterInter = true → ∀ steps' : List (Part κ), steps'.Perm steps → ∀ rs : List (SRxn (Entry κ) δ ε),
      List.Forall₂ (fun r s => ∃ k, Multiple (amounts r) s.makes k) rs steps' → interdependent c.order c.R c.P precursors rs = false) :
    ∃ res, solve c true keep paths inter net precursors maxCombos filterInter = .ok res ∧
      ∃ q ∈ res, ∃ ms, q.coefficients = some ms ∧ ms.length = q.reactions.length ∧ ∃ steps' : List (Part κ), steps'.Perm steps ∧
        List.Forall₂ (fun (x : SRxn (Entry κ) δ ε × ℚ) s => ∀ e, x.2 * amounts x.1 e = s.m * s.makes e) (q.reactions.zip ms) steps' := by
  generalize hcands : collectRxns c.eq (collectRxns c.eq [] (pathPairs paths)) inter = cands at hmany
  have hrefl : ∀ a, c.eq a a = true := fun a => (heq a a).mpr fun _ => rfl
  have hsrc : ∀ a ∈ cands, (∃ q ∈ paths, a.1 ∈ q.reactions) ∨ ∃ i ∈ inter, a.1 = i.1 := by
    rw [← hcands]; exact cands_source c paths inter
  have hsn : steps.Nodup := hplan.different.imp fun {s s'} hd he => hd 1 ⟨one_pos, fun e => by rw [he, one_mul]⟩
  -- every step has a candidate that is kept
  have H : ∀ s ∈ steps, ∃ b ∈ cands.filter (fun a => keep cands a.1 && !c.eq a.1 net), ∃ k, Multiple (amounts b.1) s.makes k := by
    intro s hs
    have hS := hplan.sought s hs
    obtain ⟨x, hx, hr, hp⟩ := (C132_exact_partial X hX hsym cfg hcfg entries hn hsharp n out h s.r s.p hS.nodupR hS.nodupP).1.mpr ⟨_, _, hS⟩
    obtain ⟨a', b', hS'⟩ := returned_sought X hX hsym cfg hcfg entries hn hsharp n out h x hx
    have hpr : x.reactants.Perm s.r := List.perm_of_nodup_nodup_toFinset_eq hS'.nodupR hS.nodupR hr
    have hpp : x.products.Perm s.p := List.perm_of_nodup_nodup_toFinset_eq hS'.nodupP hS.nodupP hp
    obtain ⟨i, hi, hst⟩ := hstored x hx
    obtain ⟨k₁, hk₁, hm₁⟩ := stored_multiple hS hpr hpp hst
    obtain ⟨d, hd, hde⟩ := (collect_rep c.eq hrefl inter (collectRxns c.eq [] (pathPairs paths))).2 i hi
    rw [hcands] at hd
    obtain ⟨b, hb, hkb, k₂, hk₂, hm₂⟩ := hkeep cands d hd
    have hmul : Multiple (amounts b.1) s.makes (k₂ * k₁) :=
      ⟨mul_pos hk₂ hk₁, fun e => by rw [hm₂ e, (heq _ _).mp hde e, hm₁ e]; ring⟩
    refine ⟨b, List.mem_filter.mpr ⟨hb, ?_⟩, _, hmul⟩
    rw [hkb, Bool.true_and, Bool.not_eq_true']
    by_contra hne
    rw [Bool.not_eq_false, heq] at hne
    obtain ⟨s₂, hs₂, hss⟩ : ∃ s₂ ∈ steps, s₂ ≠ s := by
      by_contra hall
      push Not at hall
      match steps, h2, hsn, hall with
      | u :: v :: _, _, hsn, hall =>
        have e1 := hall u (by simp)
        have e2 := hall v (by simp)
        rw [List.nodup_cons] at hsn
        exact hsn.1 (by rw [e1, ← e2]; simp)
    have := hplan.only (fun t => if t = s then k₂ * k₁ else 0) (by
      intro e _
      rw [← hne e, hmul.2 e, ← sum_single (fun t => k₂ * k₁ * t.makes e) s steps hsn hs]
      congr 1
      apply List.map_congr_left
      intro t _
      split_ifs <;> simp) s₂ hs₂
    simp only [if_neg hss] at this
    exact absurd this (ne_of_lt (hplan.positive s₂ hs₂))
  generalize hcl : cands.filter (fun a => keep cands a.1 && !c.eq a.1 net) = cleaned at H hmany
  obtain ⟨s₀, hs₀⟩ : ∃ s, s ∈ steps := List.exists_mem_of_ne_nil _ (by rintro rfl; simp at h2)
  have hcm : ∀ a ∈ cleaned, a ∈ cands := by
    rw [← hcl]; exact fun a ha => (List.mem_filter.mp ha).1
  have hclean : clean (keep cands) (fun r => !c.eq r net) cands = .ok cleaned := by
    unfold clean
    rw [hcl]
    cases hc : cleaned with
    | nil =>
      obtain ⟨b, hb, _⟩ := H s₀ hs₀
      rw [hc] at hb; simp at hb
    | cons _ _ => rfl
  have hcn : cleaned.Nodup := by
    have h1 := collectRxns_pairwise c.eq inter _ (collectRxns_pairwise c.eq (pathPairs paths) [] List.Pairwise.nil)
    rw [hcands] at h1
    rw [← hcl]
    exact (h1.filter _).imp fun {a b} hab he => by rw [he, hrefl] at hab; cases hab
  have : Nonempty (SRxn (Entry κ) δ ε × ℚ) := ⟨(H s₀ hs₀).choose⟩
  choose! rep hrepm k hk using H
  have hrn : (steps.map rep).Nodup := by
    rw [List.Nodup, List.pairwise_map]
    refine hplan.different.imp_of_mem ?_
    intro s s' hs hs' hd he
    refine hd (k s / k s') ⟨div_pos (hk s hs).1 (hk s' hs').1, fun e => ?_⟩
    have h1 := (hk s hs).2 e
    have h3 := (hk s' hs').2 e
    rw [he, h3] at h1
    have := (hk s' hs').1.ne'
    field_simp
    linarith
  obtain ⟨steps', hperm, hmap⟩ := perm_map_exists rep (l := cleaned.filter fun a => decide (a ∈ steps.map rep)) (l' := steps.map rep)
    ((List.perm_ext_iff_of_nodup (hcn.filter _) hrn).mpr (fun a => by
      rw [List.mem_filter, decide_eq_true_eq]
      refine ⟨fun h => h.2, fun h => ⟨?_, h⟩⟩
      obtain ⟨s, hs, rfl⟩ := List.mem_map.mp h
      exact hrepm s hs)) steps rfl
  have hsub : (steps'.map fun s => (rep s).1).Sublist (cleaned.map Prod.fst) := by
    have := (List.filter_sublist (l := cleaned) (p := fun a => decide (a ∈ steps.map rep))).map Prod.fst
    rw [← hmap, List.map_map] at this
    exact this
  have hk' : ∀ s ∈ steps', Multiple (amounts (rep s).1) s.makes (k s) := fun s hs => hk s (hperm.mem_iff.mp hs)
  have hs'n : steps'.Nodup := hperm.nodup_iff.mpr hsn
  have tot : ∀ (g : Part κ → ℚ) (e : Entry κ), total ((steps'.map fun s => (rep s).1).map fun r => r.entries.zip r.coeffs) (steps'.map g) e =
      (steps'.map fun s => g s * k s * s.makes e).sum := by
    intro g e
    unfold total
    rw [List.map_map, List.zipWith_map, List.zipWith_self]
    congr 1
    apply List.map_congr_left
    intro s hs
    have := (hk' s hs).2 e
    unfold amounts at this
    simp only [Function.comp_apply]
    rw [this]; ring
  obtain ⟨res, hres, q, hq, hq1, hq2⟩ := C57_found_partial c hw₁ hw₂ hpick hpinv hE keep paths inter net precursors maxCombos filterInter hnet
    (by
      by_contra hz
      push Not at hz
      have := hplan.only (fun _ => 0) (fun e he => by
        have h0 : amounts net e = 0 := hz e he
        rw [h0]
        simp) s₀ hs₀
      exact absurd this (ne_of_lt (hplan.positive s₀ hs₀)))
    hwi cleaned (by rw [hcands]; exact hclean)
    (by
      intro a ha
      rcases hsrc a (hcm a ha) with ⟨q, hq, hr⟩ | ⟨i, hi, hr⟩
      · exact hsolid.1 q hq _ hr
      · rw [hr]; exact hsolid.2 i hi)
    (fun a _ r hr _ _ => (heq _ _).mpr fun e => (hr e).symm)
    (by
      rcases hmany with hm | hm
      · have := hsub.length_le
        rw [List.length_map, List.length_map, hperm.length_eq] at this
        omega
      · exact hm)
    hchunk hcpu (steps'.map fun s => (rep s).1) hsub
    (by
      intro hnil
      have := congrArg List.length hnil
      rw [List.length_map, hperm.length_eq, List.length_nil] at this
      omega)
    (by rw [List.length_map, hperm.length_eq]; exact hlen)
    (steps'.map fun s => s.m / k s) (by simp)
    (by
      intro m hm
      obtain ⟨s, hs, rfl⟩ := List.mem_map.mp hm
      have hs2 := hperm.mem_iff.mp hs
      exact hbig s hs2 _ (hsrc _ (hcm _ (hrepm s hs2))) _ (hk s hs2))
    (by
      intro e he
      refine (tot _ e).trans ?_
      refine Eq.trans ?_ (hplan.sum e he)
      rw [← (hperm.map _).sum_eq]
      congr 1
      apply List.map_congr_left
      intro s hs
      rw [div_mul_cancel₀ _ (hk' s hs).1.ne'])
    (by
      intro ms' hl hms
      obtain ⟨f, hf⟩ := map_exists steps' ms' hs'n (by simpa using hl)
      subst hf
      have := hplan.only (fun s => f s * k s) (fun e he => by
        rw [← (hperm.map _).sum_eq, ← tot]
        exact hms e he)
      apply List.map_congr_left
      intro s hs
      rw [eq_div_iff (hk' s hs).1.ne']
      exact this s (hperm.mem_iff.mp hs))
    (by
      intro hf rs hrs
      refine hfl hf steps' hperm rs ?_
      rw [List.forall₂_map_right_iff] at hrs
      refine forall₂_imp_mem ?_ hrs
      intro r s hs hr
      exact ⟨k s, (hk' s hs).1, fun e => (hr e).trans ((hk' s hs).2 e)⟩)
  refine ⟨res, hres, q, hq, _, hq1, ?_, steps', hperm, ?_⟩
  · have := hq2.length_eq
    rw [List.length_map] at this ⊢
    exact this.symm
  · refine forall_zip (g := fun s => (rep s).1) steps' q.reactions ?_ ?_
    · refine hq2.imp ?_
      rintro r s ⟨r', hr', ha⟩ e
      rcases hr' with rfl | hr'
      · exact ha e
      · rw [(heq _ _).mp hr' e]; exact ha e
    · intro s hs e
      rw [(hk' s hs).2 e]
      have := (hk' s hs).1.ne'
      field_simp

/-- **C154, nothing else is found.** The steps of every pathway the solver makes of the enumerated reactions are sought reactions, up to a positive
factor and coefficients of at most `1e-8`. Carried out as often as the pathway says they add up to the net reaction, up to numpy's closeness. -/
theorem C154_sound (X : Chem κ Sym) (hX : X.Lawful) (hsym : Symbols fun e : Entry κ => X.elems e.comp)
    (cfg : Cfg (Entry κ)) (hcfg : Plain cfg) (entries : List (Entry κ)) (hn : (entries.map fun e => X.red e.comp).Nodup)
    (hsharp : Sharp X entries) (n : ℤ) (out : List (Rx (Entry κ))) (h : Returns X cfg entries n out)
    (c : Config (Entry κ) δ ε κ) (hw₁ : ∀ k, WaitSpec (c.wait₁ k)) (hw₂ : ∀ i, WaitSpec (c.wait₂ i))
    (hpick : ∀ l, ∀ q ∈ c.pick l, q ∈ l) (hE : c.entries.Nodup) (balanced : Bool)
    (keep : List (SRxn (Entry κ) δ ε × ℚ) → SRxn (Entry κ) δ ε → Bool)
    (inter : List (SRxn (Entry κ) δ ε × ℚ)) (hwi : InputsIndexed c [] inter) (hstored : ∀ i ∈ inter, ∃ x ∈ out, StoredAs X i.1 x)
    (net : SRxn (Entry κ) δ ε) (hnet : WellIndexed c net) (precursors : Finset κ) (maxCombos : ℕ) (filterInter : Bool)
    (res : List (Path (SRxn (Entry κ) δ ε))) (hres : solve c balanced keep [] inter net precursors maxCombos filterInter = .ok res) :
    ∀ q ∈ res, (∀ r ∈ q.reactions, ∃ s : Part κ, Sought X cfg entries n s.r s.p s.a s.b ∧ ∀ e, |amounts r e - s.makes e| ≤ 1 / 10 ^ 8) ∧
      ∃ ms, q.coefficients = some ms ∧ (∀ m ∈ ms, 1 / 10 ^ 6 ≤ m) ∧ ∀ e, |((q.reactions.zip ms).map fun x => x.2 * amounts x.1 e).sum - amounts net e| ≤
        1 / 10 ^ 8 + 1 / 10 ^ 5 * |amounts net e| + 1 / 10 ^ 8 * ms.sum := by
  intro q hq
  constructor
  · obtain ⟨_, _, _, steps, h1, h2, hpw⟩ := C71_steps c hw₁ hw₂ hpick hE balanced keep [] inter net precursors maxCombos filterInter hwi res hres q hq
    intro r hr
    obtain ⟨s, hs, hrs⟩ : ∃ s ∈ steps, ∀ e, |amounts r e - amounts s e| ≤ 1 / 10 ^ 8 := by
      clear h2 hpw
      generalize q.reactions = l at h1 hr
      induction h1 with
      | nil => simp at hr
      | @cons a b l l' hab _ ih =>
        rcases List.mem_cons.mp hr with rfl | hr
        · exact ⟨b, List.mem_cons_self, hab⟩
        · obtain ⟨s, hs, h⟩ := ih hr
          exact ⟨s, List.mem_cons_of_mem _ hs, h⟩
    obtain ⟨_, ⟨q', hq', _⟩ | ⟨i, hi, rfl⟩⟩ := h2 s hs
    · simp at hq'
    obtain ⟨x, hx, hst⟩ := hstored i hi
    obtain ⟨a, b, hS⟩ := returned_sought X hX hsym cfg hcfg entries hn hsharp n out h x hx
    obtain ⟨k, hk, hm⟩ := stored_multiple (s := ⟨x.reactants, x.products, a, b, 1⟩) hS (List.Perm.refl _) (List.Perm.refl _) hst
    refine ⟨⟨x.reactants, x.products, fun e => k * a e, fun e => k * b e, 1⟩, ?_, ?_⟩
    · refine { hS with balances := ⟨fun e he => mul_pos hk (hS.balances.consumed e he), fun e he => mul_pos hk (hS.balances.made e he), ?_, ?_⟩ }
      · intro u
        have h3 := hS.balances.conserved u
        simp only [mul_assoc, List.sum_map_mul_left]
        rw [h3]
      · intro w hw
        obtain ⟨t, h3, h4⟩ := hS.balances.only w hw
        refine ⟨t / k, fun e he => ?_, fun e he => ?_⟩
        · rw [h3 e he]; field_simp
        · rw [h4 e he]; field_simp
    · intro e
      have := hrs e
      rw [hm e] at this
      convert this using 3
      unfold Part.makes
      simp only
      split_ifs <;> ring
  · obtain ⟨ms, h1, _, h2, h3⟩ := C56_sum c hw₁ hw₂ hpick hE balanced keep [] inter net precursors maxCombos filterInter hnet hwi res hres q hq
    refine ⟨ms, h1, h2, fun e => ?_⟩
    have h4 := h3 e
    unfold total at h4
    have key : ∀ (rs : List (SRxn (Entry κ) δ ε)) (ms : List ℚ),
        ((rs.zip ms).map fun x => x.2 * amounts x.1 e).sum = ((rs.map pairs).zipWith (fun r m => m * amount r e) ms).sum := by
      intro rs
      induction rs with
      | nil => simp
      | cons r rs ih =>
        intro ms
        cases ms with
        | nil => simp
        | cons m ms => simp only [List.zip_cons_cons, List.map_cons, List.sum_cons, List.zipWith_cons_cons, ih]; rfl
    rw [key]
    exact h4

/-! ### Example: the four elements A to D, AB, CD and ABCD. The route over both halves, which the path search misses (`C133_convergent_violated`). -/

open Classical in
/-- The reaction of a part, `t` times, as it is stored. -/
noncomputable def storedPart (s : Part (Fin 7)) (t : ℚ) : SRxn (Entry (Fin 7)) Unit ℕ := ⟨s.r ++ s.p, (s.r ++ s.p).map fun e => t * s.makes e, (), []⟩

theorem amount_map {η : Type} [DecidableEq η] (f : η → ℚ) (e : η) : ∀ l : List η, l.Nodup → amount (l.zip (l.map f)) e = if e ∈ l then f e else 0
  | [], _ => rfl
  | x :: l, h => by
    rw [List.nodup_cons] at h
    rw [List.map_cons, List.zip_cons_cons, amount_cons, amount_map f e l h.2]
    by_cases hx : x = e
    · subst hx
      rw [if_pos rfl, if_neg h.1, if_pos List.mem_cons_self, add_zero]
    · rw [if_neg hx, zero_add]
      simp [Ne.symm hx]

theorem storedPart_amounts {s : Part (Fin 7)} (hr : s.r.Nodup) (hp : s.p.Nodup) (hd : ∀ x ∈ s.r, x ∉ s.p) (t : ℚ) (e : Entry (Fin 7)) :
    amounts (storedPart s t) e = t * s.makes e := by
  unfold amounts storedPart
  simp only
  rw [amount_map _ _ _ (List.nodup_append'.mpr ⟨hr, hp, fun x h1 h2 => hd x h1 h2⟩)]
  split_ifs with h
  · rfl
  · rw [List.mem_append, not_or] at h
    unfold Part.makes
    rw [if_neg h.1, if_neg h.2]; ring

theorem stored_of {n : ℤ} {x : Rx (Entry (Fin 7))} {a b : Entry (Fin 7) → ℚ} (hS : Sought cvChem cvAll cvEntries n x.reactants x.products a b) (t : ℚ)
    (ht : 0 < t) : StoredAs cvChem (storedPart ⟨x.reactants, x.products, a, b, 1⟩ t) x where
  reactants e := by
    rw [storedPart_amounts hS.nodupR hS.nodupP hS.disjoint]
    unfold Part.makes
    simp only
    by_cases h1 : e ∈ x.reactants
    · have := hS.balances.consumed e h1
      rw [if_pos h1, if_neg (hS.disjoint e h1)]
      simp only [h1, iff_true]
      nlinarith [mul_pos ht this]
    · rw [if_neg h1]
      simp only [h1, iff_false, not_lt, sub_zero]
      split_ifs with h2
      · exact (mul_pos ht (hS.balances.made e h2)).le
      · simp
  products e := by
    rw [storedPart_amounts hS.nodupR hS.nodupP hS.disjoint]
    unfold Part.makes
    simp only
    by_cases h1 : e ∈ x.products
    · have := hS.balances.made e h1
      rw [if_pos h1, if_neg (fun h => hS.disjoint e h h1), sub_zero]
      simp only [h1, iff_true]
      exact mul_pos ht this
    · rw [if_neg h1]
      simp only [h1, iff_false, not_lt, zero_sub]
      split_ifs with h2
      · nlinarith [mul_pos ht (hS.balances.consumed e h2)]
      · simp
  balanced u := by
    have h1 : (x.reactants.map fun e => amounts (storedPart ⟨x.reactants, x.products, a, b, 1⟩ t) e * cvChem.amt (cvChem.red e.comp) u).sum =
        -t * (x.reactants.map fun e => a e * cvChem.amt (cvChem.red e.comp) u).sum := by
      rw [← List.sum_map_mul_left]
      congr 1
      apply List.map_congr_left
      intro e he
      rw [storedPart_amounts hS.nodupR hS.nodupP hS.disjoint]
      unfold Part.makes
      simp only
      rw [if_pos he, if_neg (hS.disjoint e he)]; ring
    have h2 : (x.products.map fun e => amounts (storedPart ⟨x.reactants, x.products, a, b, 1⟩ t) e * cvChem.amt (cvChem.red e.comp) u).sum =
        t * (x.products.map fun e => b e * cvChem.amt (cvChem.red e.comp) u).sum := by
      rw [← List.sum_map_mul_left]
      congr 1
      apply List.map_congr_left
      intro e he
      rw [storedPart_amounts hS.nodupR hS.nodupP hS.disjoint]
      unfold Part.makes
      simp only
      rw [if_pos he, if_neg (fun h => hS.disjoint e h he)]; ring
    rw [h1, h2, hS.balances.conserved u]; ring

open Classical in
noncomputable def cvConfig : Config (Entry (Fin 7)) Unit ℕ (Fin 7) where
  eq a b := decide (∀ e, amounts a e = amounts b e)
  idx e := e.comp
  entries := cvEntries
  data := ()
  mu := []
  chunk := 3
  batch := none
  cpus := 2
  pinv := exactPinv
  wait₁ := fun _ => lifo
  wait₂ := fun _ => lifo
  order := List.dedup
  R := fun r => (((r.entries.zip r.coeffs).filter fun p => decide (p.2 < 0)).map fun p => p.1.comp).toFinset
  P := fun r => (((r.entries.zip r.coeffs).filter fun p => decide (0 < p.2)).map fun p => p.1.comp).toFinset
  pick := fun l => l.dedup

theorem cvEq (a b : SRxn (Entry (Fin 7)) Unit ℕ) : cvConfig.eq a b = true ↔ ∀ e, amounts a e = amounts b e := by
  classical
  unfold cvConfig
  simp only [decide_eq_true_eq]

theorem cvIdx : ∀ e ∈ cvEntries, cvConfig.entries[cvConfig.idx e]? = some e := by
  change ∀ e ∈ cvEntries, cvEntries[(e.comp : ℕ)]? = some e
  decide +kernel

theorem big_factor (f : Entry (Fin 7) → ℚ) : ∀ l : List (Entry (Fin 7)), (∀ e ∈ l, f e ≠ 0) → ∃ t : ℚ, 0 < t ∧ ∀ e ∈ l, 1 ≤ |t * f e|
  | [], _ => ⟨1, one_pos, by simp⟩
  | x :: l, h => by
    obtain ⟨t, ht, hl⟩ := big_factor f l fun e he => h e (List.mem_cons_of_mem _ he)
    have hx := abs_pos.mpr (h x List.mem_cons_self)
    refine ⟨t + 1 / |f x|, by positivity, ?_⟩
    intro e he
    have hp : 0 < 1 / |f x| := by positivity
    rw [abs_mul, abs_of_pos (by positivity)]
    rcases List.mem_cons.mp he with rfl | he
    · have h1 : 1 / |f e| * |f e| = 1 := by field_simp
      nlinarith [mul_pos ht hx]
    · have h1 := hl e he
      rw [abs_mul, abs_of_pos ht] at h1
      nlinarith [mul_nonneg hp.le (abs_nonneg (f e))]

/-- The reaction can be stored with coefficients that the solver takes for nonzero; if all coefficients can be one, they are. -/
theorem cvStored {x : Rx (Entry (Fin 7))} (h : ∃ a b, Sought cvChem cvAll cvEntries 2 x.reactants x.products a b) :
    ∃ i : SRxn (Entry (Fin 7)) Unit ℕ, StoredAs cvChem i x ∧ WellIndexed cvConfig i ∧ Solid i ∧
      (Sought cvChem cvAll cvEntries 2 x.reactants x.products (fun _ => 1) (fun _ => 1) → ∀ e, |amounts i e| ≤ 1) := by
  have key : ∀ (a b : Entry (Fin 7) → ℚ) (t : ℚ) (_ : 0 < t) (_ : Sought cvChem cvAll cvEntries 2 x.reactants x.products a b),
      (∀ e ∈ x.reactants ++ x.products, 1 ≤ |t * (Part.mk x.reactants x.products a b 1).makes e|) →
      StoredAs cvChem (storedPart ⟨x.reactants, x.products, a, b, 1⟩ t) x ∧ WellIndexed cvConfig (storedPart ⟨x.reactants, x.products, a, b, 1⟩ t) ∧
        Solid (storedPart ⟨x.reactants, x.products, a, b, 1⟩ t) := by
    intro a b t ht hS hb
    refine ⟨stored_of hS t ht, ⟨?_, by simp [storedPart], ?_⟩, ?_, ?_⟩
    · exact List.nodup_append'.mpr ⟨hS.nodupR, hS.nodupP, fun x h1 h2 => hS.disjoint x h1 h2⟩
    · intro e he
      rcases List.mem_append.mp he with he | he
      · exact cvIdx e (hS.inR e he)
      · exact cvIdx e (hS.inP e he)
    · exact fun he => hS.someR (List.append_eq_nil_iff.mp he).1
    · intro y hy
      obtain ⟨e, he, rfl⟩ := List.mem_map.mp hy
      have := hb e he
      unfold Verif.Py.isclose
      rw [decide_eq_false_iff_not, not_le, sub_zero]
      refine lt_of_lt_of_le ?_ this
      norm_num
  by_cases h1 : Sought cvChem cvAll cvEntries 2 x.reactants x.products (fun _ => 1) (fun _ => 1)
  · obtain ⟨k1, k2, k3⟩ := key _ _ 1 one_pos h1 (by
      intro e he
      unfold Part.makes
      simp only
      rcases List.mem_append.mp he with he | he
      · rw [if_pos he, if_neg (h1.disjoint e he)]; norm_num
      · rw [if_pos he, if_neg (fun h => h1.disjoint e h he)]; norm_num)
    refine ⟨_, k1, k2, k3, fun _ e => ?_⟩
    rw [storedPart_amounts h1.nodupR h1.nodupP h1.disjoint, one_mul]
    unfold Part.makes
    simp only
    split_ifs <;> norm_num
  · obtain ⟨a, b, hS⟩ := h
    obtain ⟨t, ht, hb⟩ := big_factor (Part.mk x.reactants x.products a b 1).makes (x.reactants ++ x.products) (by
      intro e he
      unfold Part.makes
      simp only
      rcases List.mem_append.mp he with he | he
      · rw [if_pos he, if_neg (hS.disjoint e he), zero_sub]; exact neg_ne_zero.mpr (hS.balances.consumed e he).ne'
      · rw [if_pos he, if_neg (fun h => hS.disjoint e h he), sub_zero]; exact (hS.balances.made e he).ne')
    obtain ⟨k1, k2, k3⟩ := key a b t ht hS hb
    exact ⟨_, k1, k2, k3, fun h => absurd h h1⟩

/-- A part with all amounts one. -/
def unit (r p : List (Entry (Fin 7))) : Part (Fin 7) := ⟨r, p, fun _ => 1, fun _ => 1, 1⟩

/-- A + B → AB, C + D → CD, AB + CD → ABCD. -/
def cvPlan : List (Part (Fin 7)) := [unit [⟨0, -1⟩, ⟨1, -1⟩] [⟨4, -1⟩], unit [⟨2, -1⟩, ⟨3, -1⟩] [⟨5, -1⟩], unit [⟨4, -1⟩, ⟨5, -1⟩] [⟨6, -1⟩]]

/-- A + B + C + D → ABCD. -/
def cvNet : SRxn (Entry (Fin 7)) Unit ℕ := ⟨[⟨0, -1⟩, ⟨1, -1⟩, ⟨2, -1⟩, ⟨3, -1⟩, ⟨6, -1⟩], [-1, -1, -1, -1, 1], (), []⟩

theorem cvSought (r p : List (Entry (Fin 7))) (h : Balances cvChem r p (fun _ => 1) fun _ => 1)
    (hd : r.Nodup ∧ p.Nodup ∧ r ≠ [] ∧ p ≠ [] ∧ (r.length : ℤ) ≤ 2 ∧ (p.length : ℤ) ≤ 2 ∧ (∀ x ∈ r, x ∈ cvEntries) ∧ (∀ x ∈ p, x ∈ cvEntries) ∧
      (∀ x ∈ r, x ∉ p) ∧ 2 ≤ (r.flatMap fun e => cvChem.elems e.comp).dedup.length ∧ (r.flatMap fun e => cvChem.elems e.comp).dedup.length ≤ 9) :
    Sought cvChem cvAll cvEntries 2 r p (fun _ => 1) fun _ => 1 := by
  obtain ⟨h1, h2, h3, h4, h5, h6, h7, h8, h9, h10, h11⟩ := hd
  exact ⟨h1, h2, h3, h4, h5, h6, h7, h8, h9, h, ⟨by simp [cvAll], by simp [cvAll], by simp [cvAll], by simp [cvAll]⟩, ⟨h10, h11⟩,
    fun h => absurd rfl h⟩

theorem cvPlanSought : ∀ s ∈ cvPlan, Sought cvChem cvAll cvEntries 2 s.r s.p (fun _ => 1) fun _ => 1 := by
  intro q hq
  simp only [cvPlan, List.mem_cons, List.not_mem_nil, or_false] at hq
  rcases hq with rfl | rfl | rfl
  · refine cvSought _ _ (balances_three cvChem _ _ _ ?_ ['A'] ['B'] (by decide +kernel) (by decide +kernel) (by decide +kernel) (by decide +kernel)) (by decide +kernel)
    intro s
    by_cases h1 : s = ['A'] <;> by_cases h2 : s = ['B'] <;> simp [cvChem, cvElems, h1, h2]
  · refine cvSought _ _ (balances_three cvChem _ _ _ ?_ ['C'] ['D'] (by decide +kernel) (by decide +kernel) (by decide +kernel) (by decide +kernel)) (by decide +kernel)
    intro s
    by_cases h1 : s = ['C'] <;> by_cases h2 : s = ['D'] <;> simp [cvChem, cvElems, h1, h2]
  · refine cvSought _ _ (balances_three cvChem _ _ _ ?_ ['A'] ['C'] (by decide +kernel) (by decide +kernel) (by decide +kernel) (by decide +kernel)) (by decide +kernel)
    intro s
    by_cases h1 : s = ['A'] <;> by_cases h2 : s = ['B'] <;> by_cases h3 : s = ['C'] <;> by_cases h4 : s = ['D'] <;>
      simp [cvChem, cvElems, h1, h2, h3, h4]

theorem cvIsPlan : Plan cvChem cvAll cvEntries 2 cvConfig.entries cvNet cvPlan where
  sought s hs := by
    have h := cvPlanSought s hs
    simp only [cvPlan, List.mem_cons, List.not_mem_nil, or_false] at hs
    rcases hs with rfl | rfl | rfl <;> exact h
  positive := by decide +kernel
  different := by
    have key : ∀ s s' : Part (Fin 7), (∃ e, s'.makes e ≠ 0 ∧ s.makes e = 0) → ∀ k, ¬ Multiple s'.makes s.makes k := by
      rintro s s' ⟨e, h1, h2⟩ k ⟨_, hk⟩
      exact h1 (by rw [hk e, h2, mul_zero])
    refine List.Pairwise.imp (R := fun s s' => ∃ e ∈ cvEntries, s'.makes e ≠ 0 ∧ s.makes e = 0) (fun {s s'} h => key s s' ?_) (by decide +kernel)
    obtain ⟨e, _, h⟩ := h
    exact ⟨e, h⟩
  sum := by
    change ∀ e ∈ cvEntries, _
    decide +kernel
  only f hf := by
    have h0 := hf ⟨0, -1⟩ (by decide +kernel : _ ∈ cvEntries)
    have h2 := hf ⟨2, -1⟩ (by decide +kernel : _ ∈ cvEntries)
    have h6 := hf ⟨6, -1⟩ (by decide +kernel : _ ∈ cvEntries)
    simp [cvPlan, unit, Part.makes, amounts, amount, cvNet] at h0 h2 h6
    intro s hs
    simp only [cvPlan, List.mem_cons, List.not_mem_nil, or_false] at hs
    rcases hs with rfl | rfl | rfl
    · exact h0
    · exact h2
    · exact h6

/-- Enumerating the reactions of the seven phases and solving finds the route over both halves, and only routes of sought reactions. -/
example : ∃ (out : List (Rx (Entry (Fin 7)))) (inter : List (SRxn (Entry (Fin 7)) Unit ℕ × ℚ)), Returns cvChem cvAll cvEntries 2 out ∧
    ∃ res, solve cvConfig true (fun _ _ => true) [] inter cvNet {0, 1, 2, 3} 3 false = .ok res ∧ ∃ q ∈ res, ∃ ms, q.coefficients = some ms ∧
      ∃ steps' : List (Part (Fin 7)), steps'.Perm cvPlan ∧
        List.Forall₂ (fun (x : SRxn (Entry (Fin 7)) Unit ℕ × ℚ) s => ∀ e, x.2 * amounts x.1 e = s.m * s.makes e) (q.reactions.zip ms) steps' ∧
        ∀ q ∈ res, ∀ r ∈ q.reactions, ∃ s : Part (Fin 7), Sought cvChem cvAll cvEntries 2 s.r s.p s.a s.b ∧ ∀ e, |amounts r e - s.makes e| ≤ 1 / 10 ^ 8 := by
  obtain ⟨out, h⟩ := cvReturns cvEntries 2 cvAll
  have hn : (cvEntries.map fun e => cvChem.red e.comp).Nodup := by decide +kernel
  have hsg := returned_sought cvChem cvLawful cvSymbols cvAll cvPlain cvEntries hn cvSharp 2 out h
  have : Nonempty (SRxn (Entry (Fin 7)) Unit ℕ) := ⟨cvNet⟩
  choose! st st1 st2 st3 st4 using fun x (hx : x ∈ out) => cvStored (hsg x hx)
  have hmem : ∀ i ∈ out.map fun x => (st x, (1 : ℚ)), ∃ x ∈ out, i = (st x, 1) := by
    intro i hi
    obtain ⟨x, hx, rfl⟩ := List.mem_map.mp hi
    exact ⟨x, hx, rfl⟩
  refine ⟨out, out.map fun x => (st x, 1), h, ?_⟩
  obtain ⟨res, hres, q, hq, ms, hm, _, steps', hp, hf⟩ := C154_found_partial cvChem cvLawful cvSymbols cvAll cvPlain cvEntries hn cvSharp 2 out h cvConfig
    (fun _ => lifo_spec) (fun _ => lifo_spec)
    { sub := fun _ _ h => List.mem_dedup.mp h
      rep := fun _ p h => ⟨p, List.mem_dedup.mpr h, rfl, List.forall₂_same.mpr fun _ _ => Or.inl rfl⟩ }
    exactPinv_spec (by decide +kernel : cvEntries.Nodup) (by decide : 0 < 3) (Or.inl (le_refl 2)) cvEq (fun _ _ => true)
    (fun l a ha => ⟨a, ha, rfl, 1, one_pos, fun e => (one_mul _).symm⟩) [] (out.map fun x => (st x, 1))
    ⟨by simp, fun i hi => by obtain ⟨x, hx, rfl⟩ := hmem i hi; exact st2 x hx⟩
    ⟨by simp, fun i hi => by obtain ⟨x, hx, rfl⟩ := hmem i hi; exact st3 x hx⟩
    (fun x hx => ⟨_, List.mem_map.mpr ⟨x, hx, rfl⟩, st1 x hx⟩)
    cvNet ⟨by decide +kernel, rfl, fun e he => cvIdx e ((by decide +kernel : ∀ e ∈ cvNet.entries, e ∈ cvEntries) e he)⟩ {0, 1, 2, 3} 3 false
    cvPlan cvIsPlan (by decide) (by decide) (Or.inl rfl)
    (by
      rintro s hs r (⟨q, hq, _⟩ | ⟨i, hi, rfl⟩) k hk
      · simp at hq
      obtain ⟨x, hx, rfl⟩ := hmem i hi
      have hS := cvPlanSought s hs
      have hS' : Sought cvChem cvAll cvEntries 2 x.reactants x.products (fun _ => 1) (fun _ => 1) := by
        obtain ⟨a', b', hx'⟩ := hsg x hx
        have hk2 : ∀ e, amounts (st x) e = k * s.makes e := hk.2
        have m1 : ∀ e, s.makes e < 0 ↔ e ∈ s.r := fun e => by
          have hd := hS.disjoint e
          have := (by decide +kernel : ∀ s ∈ cvPlan, ∀ e ∈ s.r, s.makes e = -1) s hs e
          constructor
          · intro h
            by_contra hn
            unfold Part.makes at h
            rw [if_neg hn, sub_zero] at h
            split_ifs at h with h9
            · have := (by decide +kernel : ∀ s ∈ cvPlan, ∀ e ∈ s.p, s.b e = 1) s hs e h9
              linarith
            · exact lt_irrefl _ h
          · intro h
            rw [this h]; norm_num
        have m2 : ∀ e, 0 < s.makes e ↔ e ∈ s.p := fun e => by
          have := (by decide +kernel : ∀ s ∈ cvPlan, ∀ e ∈ s.p, s.makes e = 1) s hs e
          constructor
          · intro h
            by_contra hn
            unfold Part.makes at h
            rw [if_neg hn, zero_sub] at h
            split_ifs at h with h9
            · have := (by decide +kernel : ∀ s ∈ cvPlan, ∀ e ∈ s.r, s.a e = 1) s hs e h9
              linarith
            · simp at h
          · intro h
            rw [this h]; norm_num
        refine hS.perm ?_ ?_
        · rw [List.perm_ext_iff_of_nodup hx'.nodupR hS.nodupR]
          intro e
          rw [← (st1 x hx).reactants e, hk2, ← m1, mul_neg_iff]
          have := hk.1
          constructor
          · rintro (h | h)
            · exact h.2
            · linarith [h.1]
          · exact fun h => Or.inl ⟨this, h⟩
        · rw [List.perm_ext_iff_of_nodup hx'.nodupP hS.nodupP]
          intro e
          rw [← (st1 x hx).products e, hk2, ← m2, mul_pos_iff_of_pos_left hk.1]
      have h1 := st4 x hx hS'
      obtain ⟨e, he⟩ := List.exists_mem_of_ne_nil _ hS.someR
      have h2 := h1 e
      have hm : s.m = 1 := (by decide +kernel : ∀ s ∈ cvPlan, s.m = 1) s hs
      have h3 : s.makes e = -1 := (by decide +kernel : ∀ s ∈ cvPlan, ∀ e ∈ s.r, s.makes e = -1) s hs e he
      simp only at hk
      rw [hk.2 e, h3, mul_neg, mul_one, abs_neg, abs_of_pos hk.1] at h2
      rw [hm, le_div_iff₀ hk.1]
      have := hk.1
      linarith)
    (by simp)
  refine ⟨res, hres, q, hq, ms, hm, steps', hp, hf, fun q' hq' => ?_⟩
  exact (C154_sound cvChem cvLawful cvSymbols cvAll cvPlain cvEntries hn cvSharp 2 out h cvConfig (fun _ => lifo_spec) (fun _ => lifo_spec)
    (fun _ _ h => List.mem_dedup.mp h) (by decide +kernel : cvEntries.Nodup) true (fun _ _ => true) (out.map fun x => (st x, 1))
    ⟨by simp, fun i hi => by obtain ⟨x, hx, rfl⟩ := hmem i hi; exact st2 x hx⟩
    (fun i hi => by obtain ⟨x, hx, rfl⟩ := hmem i hi; exact ⟨x, hx, st1 x hx⟩)
    cvNet ⟨by decide +kernel, rfl, fun e he => cvIdx e ((by decide +kernel : ∀ e ∈ cvNet.entries, e ∈ cvEntries) e he)⟩ {0, 1, 2, 3} 3 false
    res hres q' hq').1

end Verif.Props.SolverEnum
