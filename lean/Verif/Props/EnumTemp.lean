import Verif.Props.EnumOpenExact
import Verif.Props.RxnTemp
import Verif.Props.Written

/-!
Property C155: enumerating the reactions of phases at another temperature gives the same reactions as enumerating once and converting the result
(src/rxn_network/enumerators/basic.py, src/rxn_network/reactions/computed.py:81-108).
-/

set_option linter.unusedSectionVars false

namespace Verif.Props.EnumTemp
open Verif.Py Verif.Model Verif.Model.Enum Verif.Model.Reaction Verif.Model.RxnSet Verif.Model.RxnTemp Verif.Lemmas.Exc Verif.Props.EnumGroup
  Verif.Props.BalanceLinear Verif.Props.EnumComplete Verif.Props.EnumExact Verif.Props.EnumOpenExact Verif.Props.Written

variable {κ : Type} [DecidableEq κ]

/-! ### Specification -/

/-- The settings of the enumeration, with the entries at another temperature. -/
def cfgAt (f : Entry κ → Entry κ) (cfg : Cfg (Entry κ)) : Cfg (Entry κ) :=
  { cfg with precursors := cfg.precursors.map f, targets := cfg.targets.map f, openEntries := cfg.openEntries.map f }

/-- Precursors and targets are among the entries. -/
structure Inside (cfg : Cfg (Entry κ)) (entries : List (Entry κ)) : Prop where
  precursors : ∀ e ∈ cfg.precursors, e ∈ entries
  targets : ∀ e ∈ cfg.targets, e ∈ entries

/-- The reaction `g'` is the reaction `g`, asked for the new temperature, up to a positive factor and the order of the phases. -/
structure Reheated (X : Chem κ Sym) (conv : Entry κ → Except Err (Entry κ)) (g g' : CRxn κ) : Prop where
  whole : Whole X g
  whole' : Whole X g'
  converted : ∃ c : SRxn (Entry κ) Unit Sym, newTemperature Entry.comp conv false .omitted ⟨g.entries, g.base.coeffs, (), []⟩ = .ok c ∧
    energyPerAtom X g' = energyPerAtom X (cinit X c.entries c.coeffs g.base.data g.base.lne) ∧
    (∀ mu, oenergyPerAtom X (oinit X g'.entries g'.base.coeffs mu g'.base.data g'.base.lne) =
      oenergyPerAtom X (oinit X c.entries c.coeffs mu g.base.data g.base.lne)) ∧
    ∃ s : ℚ, 0 < s ∧ (g'.entries.zip g'.base.coeffs).Perm ((c.entries.zip c.coeffs).map fun q => (q.1, q.2 * s))

/-! ### Helper lemmas -/

/-- `f` takes entries and settings to others, `back` leads back. -/
structure Carries (f back : Entry κ → Entry κ) (cfg cfg' : Cfg (Entry κ)) (entries entries' : List (Entry κ)) : Prop where
  comp : ∀ e, (f e).comp = e.comp
  maps : ∀ e ∈ entries, f e ∈ entries'
  back : ∀ e ∈ entries, back (f e) = e
  pre : ∀ e ∈ entries, e ∈ cfg.precursors → f e ∈ cfg'.precursors
  preN : cfg'.precursors ≠ [] → cfg.precursors ≠ []
  tar : ∀ e ∈ entries, e ∈ cfg.targets → f e ∈ cfg'.targets
  tarN : cfg'.targets ≠ [] → cfg.targets ≠ []
  exclP : cfg'.exclP = cfg.exclP
  exclT : cfg'.exclT = cfg.exclT
  sys : cfg'.filterChemsys = cfg.filterChemsys
  opn : ∀ e ∈ entries, f e ∈ cfg'.openEntries ↔ e ∈ cfg.openEntries
  els (X : Chem κ Sym) : (cfg'.openEntries.flatMap fun e => X.elems e.comp) = cfg.openEntries.flatMap fun e => X.elems e.comp

theorem nodup_map_back {f back : Entry κ → Entry κ} {l entries : List (Entry κ)} (hb : ∀ e ∈ entries, back (f e) = e) (hin : ∀ e ∈ l, e ∈ entries)
    (h : l.Nodup) : (l.map f).Nodup :=
  List.Nodup.map_on (fun x hx y hy he => by rw [← hb x (hin x hx), he, hb y (hin y hy)]) h

theorem sum_convert (X : Chem κ Sym) {f : Entry κ → Entry κ} (hf : ∀ e, (f e).comp = e.comp) (c : Entry κ → ℚ) (l : List (Entry κ)) (s : Sym) :
    ((l.map f).map fun x => c x * X.amt (X.red x.comp) s).sum = (l.map fun x => c (f x) * X.amt (X.red x.comp) s).sum := by
  rw [List.map_map]
  congr 1
  apply List.map_congr_left
  intro x _
  simp only [Function.comp_apply, hf]

theorem elems_convert (X : Chem κ Sym) {f : Entry κ → Entry κ} (hf : ∀ e, (f e).comp = e.comp) (l : List (Entry κ)) :
    ((l.map f).flatMap fun e => X.elems e.comp) = l.flatMap fun e => X.elems e.comp := by
  rw [List.flatMap_map]
  simp only [hf]

section carry
variable {f back : Entry κ → Entry κ} {cfg cfg' : Cfg (Entry κ)} {entries entries' : List (Entry κ)} {X : Chem κ Sym} {n : ℤ} {r p : List (Entry κ)}
  {a b : Entry κ → ℚ}

theorem Carries.disjoint (H : Carries f back cfg cfg' entries entries') (hr : ∀ x ∈ r, x ∈ entries) (hp : ∀ x ∈ p, x ∈ entries)
    (h : ∀ x ∈ r, x ∉ p) : ∀ x ∈ r.map f, x ∉ p.map f := by
  intro x hx hx'
  obtain ⟨e, he, rfl⟩ := List.mem_map.mp hx
  obtain ⟨e', he', hee⟩ := List.mem_map.mp hx'
  have := congrArg back hee
  rw [H.back e' (hp e' he'), H.back e (hr e he)] at this
  exact h e he (this ▸ he')

theorem Carries.maps_all (H : Carries f back cfg cfg' entries entries') (hr : ∀ x ∈ r, x ∈ entries) : ∀ x ∈ r.map f, x ∈ entries' := by
  intro x hx
  obtain ⟨e, he, rfl⟩ := List.mem_map.mp hx
  exact H.maps e (hr e he)

theorem Carries.balances (H : Carries f back cfg cfg' entries entries') (hr : ∀ x ∈ r, x ∈ entries) (hp : ∀ x ∈ p, x ∈ entries)
    (h : Balances X r p a b) : Balances X (r.map f) (p.map f) (fun e => a (back e)) (fun e => b (back e)) where
  consumed x hx := by
    obtain ⟨e, he, rfl⟩ := List.mem_map.mp hx
    rw [H.back e (hr e he)]; exact h.consumed e he
  made x hx := by
    obtain ⟨e, he, rfl⟩ := List.mem_map.mp hx
    rw [H.back e (hp e he)]; exact h.made e he
  conserved s := by
    rw [sum_convert X H.comp (fun e => a (back e)), sum_convert X H.comp (fun e => b (back e))]
    refine Eq.trans ?_ ((h.conserved s).trans ?_) <;> congr 1 <;> apply List.map_congr_left <;> intro x hx
    · rw [H.back x (hr x hx)]
    · rw [H.back x (hp x hx)]
  only c hc := by
    obtain ⟨t, h1, h2⟩ := h.only (fun e => c (f e)) fun s => by rw [← sum_convert X H.comp c, ← sum_convert X H.comp c]; exact hc s
    refine ⟨t, fun x hx => ?_, fun x hx => ?_⟩
    · obtain ⟨e, he, rfl⟩ := List.mem_map.mp hx
      rw [h1 e he, H.back e (hr e he)]
    · obtain ⟨e, he, rfl⟩ := List.mem_map.mp hx
      rw [h2 e he, H.back e (hp e he)]

theorem Carries.wanted (H : Carries f back cfg cfg' entries entries') (hr : ∀ x ∈ r, x ∈ entries) (hp : ∀ x ∈ p, x ∈ entries)
    (h : Wanted cfg r p) : Wanted cfg' (r.map f) (p.map f) where
  precursors h1 h2 x hx hno := by
    obtain ⟨e, he, rfl⟩ := List.mem_map.mp hx
    exact H.pre e (hr e he) (h.precursors (H.preN h1) (H.exclP ▸ h2) e he fun ho => hno ((H.opn e (hr e he)).mpr ho))
  somePrecursor h1 h2 := by
    obtain ⟨e, he, ho, hp⟩ := h.somePrecursor (H.preN h1) (H.exclP ▸ h2)
    exact ⟨f e, List.mem_map.mpr ⟨e, he, rfl⟩, fun h => ho ((H.opn e (hr e he)).mp h), H.pre e (hr e he) hp⟩
  targets h1 h2 x hx hno := by
    obtain ⟨e, he, rfl⟩ := List.mem_map.mp hx
    exact H.tar e (hp e he) (h.targets (H.tarN h1) (H.exclT ▸ h2) e he fun ho => hno ((H.opn e (hp e he)).mpr ho))
  someTarget h1 h2 := by
    obtain ⟨e, he, ho, ht⟩ := h.someTarget (H.tarN h1) (H.exclT ▸ h2)
    exact ⟨f e, List.mem_map.mpr ⟨e, he, rfl⟩, fun h => ho ((H.opn e (hp e he)).mp h), H.tar e (hp e he) ht⟩

theorem Carries.sought (H : Carries f back cfg cfg' entries entries') (h : Sought X cfg entries n r p a b) :
    Sought X cfg' entries' n (r.map f) (p.map f) (fun e => a (back e)) (fun e => b (back e)) where
  nodupR := nodup_map_back H.back h.inR h.nodupR
  nodupP := nodup_map_back H.back h.inP h.nodupP
  someR := by simpa using h.someR
  someP := by simpa using h.someP
  sizeR := by simpa using h.sizeR
  sizeP := by simpa using h.sizeP
  inR := H.maps_all h.inR
  inP := H.maps_all h.inP
  disjoint := H.disjoint h.inR h.inP h.disjoint
  balances := H.balances h.inR h.inP h.balances
  wanted := H.wanted h.inR h.inP h.wanted
  elements := by rw [elems_convert X H.comp]; exact h.elements
  system h0 s hs := by rw [elems_convert X H.comp]; rw [H.sys] at h0 hs; exact h.system h0 s hs

theorem Carries.filter (H : Carries f back cfg cfg' entries entries') (hr : ∀ x ∈ r, x ∈ entries) :
    ((r.map f).filter fun x => x ∉ cfg'.openEntries).length = (r.filter fun x => x ∉ cfg.openEntries).length := by
  rw [List.filter_map, List.length_map]
  congr 1
  apply List.filter_congr
  intro x hx
  simp only [Function.comp_apply, decide_eq_decide, not_iff_not]
  exact H.opn x (hr x hx)

theorem Carries.some (H : Carries f back cfg cfg' entries entries') (hr : ∀ x ∈ r, x ∈ entries) (h : ∃ x ∈ r, x ∉ cfg.openEntries) :
    ∃ x ∈ r.map f, x ∉ cfg'.openEntries := by
  obtain ⟨e, he, ho⟩ := h
  exact ⟨f e, List.mem_map.mpr ⟨e, he, rfl⟩, fun h => ho ((H.opn e (hr e he)).mp h)⟩

theorem Carries.openOn (H : Carries f back cfg cfg' entries entries') (hr : ∀ x ∈ r, x ∈ entries) (hp : ∀ x ∈ p, x ∈ entries)
    (h : OpenOn cfg.openEntries r p) : OpenOn cfg'.openEntries (r.map f) (p.map f) := by
  obtain ⟨h1, x, hx, h2⟩ := h
  refine ⟨fun y hy => ?_, f x, List.mem_map.mpr ⟨x, hx, rfl⟩, (H.opn x (hp x hx)).mpr h2⟩
  obtain ⟨e, he, rfl⟩ := List.mem_map.mp hy
  exact fun h => h1 e he ((H.opn e (hr e he)).mp h)

theorem Carries.soughtOpen (H : Carries f back cfg cfg' entries entries') (h : SoughtOpen X cfg entries n r p a b) :
    SoughtOpen X cfg' entries' n (r.map f) (p.map f) (fun e => a (back e)) (fun e => b (back e)) where
  nodupR := nodup_map_back H.back h.inR h.nodupR
  nodupP := nodup_map_back H.back h.inP h.nodupP
  someR := H.some h.inR h.someR
  someP := H.some h.inP h.someP
  sizeR := by rw [H.filter h.inR]; exact h.sizeR
  sizeP := by rw [H.filter h.inP]; exact h.sizeP
  inR := H.maps_all h.inR
  inP := H.maps_all h.inP
  disjoint := H.disjoint h.inR h.inP h.disjoint
  oneSide := h.oneSide.imp (H.openOn h.inR h.inP) (H.openOn h.inP h.inR)
  balances := H.balances h.inR h.inP h.balances
  wanted := H.wanted h.inR h.inP h.wanted
  elements := by
    have := h.elements
    unfold SizeOk EnumGroup.els at this ⊢
    rw [H.els X, elems_convert X H.comp]
    exact this
  system h0 s hs := by
    unfold EnumGroup.els
    rw [H.els X, elems_convert X H.comp]
    rw [H.sys] at h0 hs
    exact h.system h0 s hs

end carry

open Classical in
theorem exists_back {f : Entry κ → Entry κ} (hf : ∀ e, (f e).comp = e.comp) {entries : List (Entry κ)} (X : Chem κ Sym)
    (hn : (entries.map fun e => X.red e.comp).Nodup) : ∃ back : Entry κ → Entry κ, (∀ e, (back e).comp = e.comp) ∧ ∀ e ∈ entries, back (f e) = e := by
  have hinj : ∀ e ∈ entries, ∀ e' ∈ entries, f e = f e' → e = e' := by
    intro e he e' he' h
    refine List.inj_on_of_nodup_map hn he he' ?_
    rw [← hf e, ← hf e', h]
  refine ⟨fun x => if h : ∃ e ∈ entries, f e = x then h.choose else x, fun x => ?_, fun e he => ?_⟩
  · dsimp only
    split_ifs with h
    · rw [← hf h.choose, h.choose_spec.2]
    · rfl
  · have h : ∃ e' ∈ entries, f e' = f e := ⟨e, he, rfl⟩
    simp only [dif_pos h]
    exact hinj _ h.choose_spec.1 e he h.choose_spec.2

theorem carries {f back : Entry κ → Entry κ} {cfg : Cfg (Entry κ)} {entries : List (Entry κ)} (hf : ∀ e, (f e).comp = e.comp)
    (hb : ∀ e ∈ entries, back (f e) = e) (ho : ∀ e ∈ cfg.openEntries, e ∈ entries) : Carries f back cfg (cfgAt f cfg) entries (entries.map f) where
  comp := hf
  maps e he := List.mem_map.mpr ⟨e, he, rfl⟩
  back := hb
  pre e _ h := List.mem_map.mpr ⟨e, h, rfl⟩
  preN h h0 := h (by unfold cfgAt; simp [h0])
  tar e _ h := List.mem_map.mpr ⟨e, h, rfl⟩
  tarN h h0 := h (by unfold cfgAt; simp [h0])
  exclP := rfl
  exclT := rfl
  sys := rfl
  opn e he := by
    refine ⟨fun h => ?_, fun h => List.mem_map.mpr ⟨e, h, rfl⟩⟩
    obtain ⟨d, hd, hde⟩ := List.mem_map.mp h
    have := congrArg back hde
    rw [hb d (ho d hd), hb e he] at this
    exact this ▸ hd
  els X := elems_convert X hf _

theorem carries_back {f back : Entry κ → Entry κ} {cfg : Cfg (Entry κ)} {entries : List (Entry κ)} (hbc : ∀ e, (back e).comp = e.comp)
    (hb : ∀ e ∈ entries, back (f e) = e) (hf : ∀ e, (f e).comp = e.comp) (ho : ∀ e ∈ cfg.openEntries, e ∈ entries) (hin : Inside cfg entries) :
    Carries back f (cfgAt f cfg) cfg (entries.map f) entries where
  comp := hbc
  maps x hx := by obtain ⟨e, he, rfl⟩ := List.mem_map.mp hx; rw [hb e he]; exact he
  back x hx := by obtain ⟨e, he, rfl⟩ := List.mem_map.mp hx; rw [hb e he]
  pre x _ h := by obtain ⟨e, he, rfl⟩ := List.mem_map.mp h; rw [hb e (hin.precursors e he)]; exact he
  preN h h0 := h (by unfold cfgAt at h0; simpa using h0)
  tar x _ h := by obtain ⟨e, he, rfl⟩ := List.mem_map.mp h; rw [hb e (hin.targets e he)]; exact he
  tarN h h0 := h (by unfold cfgAt at h0; simpa using h0)
  exclP := rfl
  exclT := rfl
  sys := rfl
  opn x hx := by
    obtain ⟨e, he, rfl⟩ := List.mem_map.mp hx
    rw [hb e he]
    refine ⟨fun h => List.mem_map.mpr ⟨e, h, rfl⟩, fun h => ?_⟩
    obtain ⟨d, hd, hde⟩ := List.mem_map.mp h
    have := congrArg back hde
    rw [hb d (ho d hd), hb e he] at this
    exact this ▸ hd
  els X := (elems_convert X hf _).symm

theorem map_back {f back : Entry κ → Entry κ} {entries l : List (Entry κ)} (hb : ∀ e ∈ entries, back (f e) = e) (hin : ∀ x ∈ l, x ∈ entries.map f) :
    (l.map back).map f = l := by
  rw [List.map_map]
  conv_rhs => rw [← List.map_id l]
  apply List.map_congr_left
  intro x hx
  obtain ⟨e, he, rfl⟩ := List.mem_map.mp (hin x hx)
  simp only [Function.comp_apply, hb e he, id]

theorem sharp_convert {X : Chem κ Sym} {f : Entry κ → Entry κ} (hf : ∀ e, (f e).comp = e.comp) {entries : List (Entry κ)}
    (hn : (entries.map fun e => X.red e.comp).Nodup) (h : Sharp X entries) : Sharp X (entries.map f) := by
  obtain ⟨back, hbc, hb⟩ := exists_back hf X hn
  intro r p hnd hin v hr hp hc
  have e1 : (r.map back).map f = r := map_back hb fun x hx => hin x (by simp [hx])
  have e2 : (p.map back).map f = p := map_back hb fun x hx => hin x (by simp [hx])
  have hin' : ∀ x ∈ r.map back ++ p.map back, x ∈ entries := by
    intro x hx
    rw [← List.map_append] at hx
    obtain ⟨y, hy, rfl⟩ := List.mem_map.mp hx
    obtain ⟨e, he, rfl⟩ := List.mem_map.mp (hin y hy)
    rw [hb e he]; exact he
  obtain ⟨w, w1, w2, w3⟩ := h (r.map back) (p.map back) (by
      rw [← e1, ← e2, ← List.map_append] at hnd
      exact hnd.of_map) hin' (fun e => v (f e))
    (fun x hx => hr _ (by rw [← e1]; exact List.mem_map.mpr ⟨x, hx, rfl⟩))
    (fun x hx => hp _ (by rw [← e2]; exact List.mem_map.mpr ⟨x, hx, rfl⟩))
    (fun s => by rw [← sum_convert X hf v, List.map_append, e1, e2]; exact hc s)
  refine ⟨fun e => w (back e), fun x hx => w1 _ (List.mem_map.mpr ⟨x, hx, rfl⟩), fun x hx => w2 _ (List.mem_map.mpr ⟨x, hx, rfl⟩), fun s => ?_⟩
  rw [← w3 s, ← List.map_append, sum_convert X hbc w]

theorem nodup_convert {X : Chem κ Sym} {f : Entry κ → Entry κ} (hf : ∀ e, (f e).comp = e.comp) {entries : List (Entry κ)}
    (hn : (entries.map fun e => X.red e.comp).Nodup) : ((entries.map f).map fun e => X.red e.comp).Nodup := by
  rw [List.map_map]
  convert hn using 2
  funext e
  simp only [Function.comp_apply, hf]

theorem plain_convert {cfg : Cfg (Entry κ)} (h : Plain cfg) (f : Entry κ → Entry κ) : Plain (cfgAt f cfg) :=
  ⟨by unfold cfgAt; simp [h.closed], h.removes, h.constraints⟩

theorem opened_convert {cfg : Cfg (Entry κ)} {entries : List (Entry κ)} (h : Opened cfg entries) {f : Entry κ → Entry κ} (hf : ∀ e, (f e).comp = e.comp)
    {X : Chem κ Sym} (hn : (entries.map fun e => X.red e.comp).Nodup) : Opened (cfgAt f cfg) (entries.map f) where
  once := by
    obtain ⟨back, _, hb⟩ := exists_back hf X hn
    exact nodup_map_back hb h.given h.once
  given x hx := by
    obtain ⟨e, he, rfl⟩ := List.mem_map.mp hx
    exact List.mem_map.mpr ⟨e, h.given e he, rfl⟩
  removes := h.removes
  constraints := h.constraints

/-- What is used of a run: it returns exactly the reactions of `S`, once. -/
structure Exactly (X : Chem κ Sym) (entries : List (Entry κ)) (out : List (Rx (Entry κ)))
    (S : List (Entry κ) → List (Entry κ) → (Entry κ → ℚ) → (Entry κ → ℚ) → Prop) : Prop where
  returned : ∀ x ∈ out, ∃ a b, S x.reactants x.products a b
  found : ∀ r p a b, S r p a b → Found out r p
  once : (out.map sides).Nodup
  coeffs : ∀ r p a b, S r p a b → ∃ g : CRxn κ, out.filter (fun x => decide (sides x = (r.toFinset, p.toFinset))) = [viewOf g] ∧
    Whole X g ∧ ∃ s : ℚ, 0 < s ∧ (g.entries.zip g.base.coeffs).Perm ((r.map fun x => (x, -(a x) * s)) ++ p.map fun x => (x, b x * s))
  inR : ∀ r p a b, S r p a b → ∀ x ∈ r, x ∈ entries
  inP : ∀ r p a b, S r p a b → ∀ x ∈ p, x ∈ entries
  nodup : ∀ r p a b, S r p a b → (r ++ p).Nodup

theorem exactly_closed (X : Chem κ Sym) (hX : X.Lawful) (hsym : Symbols fun e : Entry κ => X.elems e.comp)
    (cfg : Cfg (Entry κ)) (hcfg : Plain cfg) (entries : List (Entry κ)) (hn : (entries.map fun e => X.red e.comp).Nodup)
    (hsharp : Sharp X entries) (n : ℤ) (out : List (Rx (Entry κ))) (h : Returns X cfg entries n out) :
    Exactly X entries out (Sought X cfg entries n) where
  returned := returned_sought X hX hsym cfg hcfg entries hn hsharp n out h
  found r p _ _ hs := (C132_exact_partial X hX hsym cfg hcfg entries hn hsharp n out h r p hs.nodupR hs.nodupP).1.mpr ⟨_, _, hs⟩
  once := C132_once X hX hsym cfg hcfg entries hn hsharp n out h
  coeffs r p a b hs := (C132_exact_partial X hX hsym cfg hcfg entries hn hsharp n out h r p hs.nodupR hs.nodupP).2 a b hs
  inR _ _ _ _ hs := hs.inR
  inP _ _ _ _ hs := hs.inP
  nodup _ _ _ _ hs := List.nodup_append'.mpr ⟨hs.nodupR, hs.nodupP, fun x h1 h2 => hs.disjoint x h1 h2⟩

theorem exactly_open (X : Chem κ Sym) (hX : X.Lawful) (hsym : Symbols fun e : Entry κ => X.elems e.comp)
    (cfg : Cfg (Entry κ)) (entries : List (Entry κ)) (hcfg : Opened cfg entries) (hn : (entries.map fun e => X.red e.comp).Nodup)
    (hsharp : Sharp X entries) (n : ℤ) (out : List (Rx (Entry κ))) (h : ReturnsOpen X cfg entries n out) :
    Exactly X entries out (SoughtOpen X cfg entries n) where
  returned := returned_sought_open X hX hsym cfg entries hcfg hn hsharp n out h
  found r p _ _ hs := (C134_exact_partial X hX hsym cfg entries hcfg hn hsharp n out h r p hs.nodupR hs.nodupP).1.mpr ⟨_, _, hs⟩
  once := C134_once X hX hsym cfg entries hcfg hn hsharp n out h
  coeffs r p a b hs := (C134_exact_partial X hX hsym cfg entries hcfg hn hsharp n out h r p hs.nodupR hs.nodupP).2 a b hs
  inR _ _ _ _ hs := hs.inR
  inP _ _ _ _ hs := hs.inP
  nodup _ _ _ _ hs := List.nodup_append'.mpr ⟨hs.nodupR, hs.nodupP, fun x h1 h2 => hs.disjoint x h1 h2⟩

theorem same_core {X : Chem κ Sym} {f back : Entry κ → Entry κ} {entries : List (Entry κ)} (hb : ∀ e ∈ entries, back (f e) = e)
    {out out' : List (Rx (Entry κ))} {S S' : List (Entry κ) → List (Entry κ) → (Entry κ → ℚ) → (Entry κ → ℚ) → Prop}
    (h : Exactly X entries out S) (h' : Exactly X (entries.map f) out' S')
    (hto : ∀ r p a b, S r p a b → S' (r.map f) (p.map f) (fun e => a (back e)) fun e => b (back e))
    (fro : ∀ r p a b, S' r p a b → S (r.map back) (p.map back) (fun e => a (f e)) fun e => b (f e)) :
    (out.map fun x => ((sides x).1.image f, (sides x).2.image f)).Perm (out'.map sides) := by
  have hinj : ∀ s t : Finset (Entry κ), (∀ e ∈ s, e ∈ entries) → (∀ e ∈ t, e ∈ entries) → s.image f = t.image f → s = t := by
    intro s t hs ht he
    have k : ∀ u : Finset (Entry κ), (∀ e ∈ u, e ∈ entries) → (u.image f).image back = u := by
      intro u hu
      ext e
      simp only [Finset.mem_image, exists_exists_and_eq_and]
      constructor
      · rintro ⟨d, hd, rfl⟩
        rw [hb d (hu d hd)]; exact hd
      · exact fun h => ⟨e, h, hb e (hu e h)⟩
    rw [← k s hs, he, k t ht]
  rw [List.perm_ext_iff_of_nodup]
  · intro y
    rw [List.mem_map, List.mem_map]
    constructor
    · rintro ⟨x, hx, rfl⟩
      obtain ⟨a, b, hs⟩ := h.returned x hx
      obtain ⟨x', hx', h1, h2⟩ := h'.found _ _ _ _ (hto _ _ _ _ hs)
      refine ⟨x', hx', ?_⟩
      unfold sides
      rw [h1, h2]
      simp only [Prod.mk.injEq]
      constructor <;> (ext e; simp)
    · rintro ⟨x', hx', rfl⟩
      obtain ⟨a, b, hs⟩ := h'.returned x' hx'
      obtain ⟨x, hx, h1, h2⟩ := h.found _ _ _ _ (fro _ _ _ _ hs)
      refine ⟨x, hx, ?_⟩
      unfold sides
      rw [h1, h2]
      conv_rhs => rw [← map_back hb (h'.inR _ _ _ _ hs), ← map_back hb (h'.inP _ _ _ _ hs)]
      simp only [Prod.mk.injEq]
      constructor <;> (ext e; simp)
  · have : (out.map fun x => ((sides x).1.image f, (sides x).2.image f)) = (out.map sides).map fun q => (q.1.image f, q.2.image f) := by
      rw [List.map_map]; rfl
    rw [this]
    refine h.once.map_on ?_
    intro q hq q' hq' he
    obtain ⟨x, hx, rfl⟩ := List.mem_map.mp hq
    obtain ⟨x', hx', rfl⟩ := List.mem_map.mp hq'
    obtain ⟨a, b, hs⟩ := h.returned x hx
    obtain ⟨a', b', hs'⟩ := h.returned x' hx'
    rw [Prod.mk.injEq] at he
    refine Prod.ext (hinj _ _ ?_ ?_ he.1) (hinj _ _ ?_ ?_ he.2)
    · exact fun e he => h.inR _ _ _ _ hs e (List.mem_toFinset.mp he)
    · exact fun e he => h.inR _ _ _ _ hs' e (List.mem_toFinset.mp he)
    · exact fun e he => h.inP _ _ _ _ hs e (List.mem_toFinset.mp he)
    · exact fun e he => h.inP _ _ _ _ hs' e (List.mem_toFinset.mp he)
  · exact h'.once

theorem energy_core {X : Chem κ Sym} {f back : Entry κ → Entry κ} {entries : List (Entry κ)} (hf : ∀ e, (f e).comp = e.comp)
    (hb : ∀ e ∈ entries, back (f e) = e) (conv : Entry κ → Except Err (Entry κ))
    (hconv : ∀ e ∈ entries, conv e = .ok (f e)) (hn : (entries.map fun e => X.red e.comp).Nodup)
    {out out' : List (Rx (Entry κ))} {S S' : List (Entry κ) → List (Entry κ) → (Entry κ → ℚ) → (Entry κ → ℚ) → Prop}
    (h : Exactly X entries out S) (h' : Exactly X (entries.map f) out' S')
    (hto : ∀ r p a b, S r p a b → S' (r.map f) (p.map f) (fun e => a (back e)) fun e => b (back e)) :
    ∀ x ∈ out, ∃ g g' : CRxn κ, viewOf g = x ∧ viewOf g' ∈ out' ∧ Reheated X conv g g' := by
  intro x hx
  obtain ⟨a, b, hs⟩ := h.returned x hx
  have hs2 := hto _ _ _ _ hs
  obtain ⟨g, hg, wg, s, hs0, hp⟩ := h.coeffs _ _ _ _ hs
  obtain ⟨g', hg', wg', s', hs0', hp'⟩ := h'.coeffs _ _ _ _ hs2
  have inR := h.inR _ _ _ _ hs
  have inP := h.inP _ _ _ _ hs
  have hgx : x = viewOf g := by
    have : x ∈ out.filter (fun z => decide (sides z = (x.reactants.toFinset, x.products.toFinset))) :=
      List.mem_filter.mpr ⟨hx, decide_eq_true rfl⟩
    rw [hg] at this
    exact List.mem_singleton.mp this
  have hgm : viewOf g' ∈ out' := by
    have : viewOf g' ∈ [viewOf g'] := List.mem_singleton.mpr rfl
    rw [← hg'] at this
    exact (List.mem_filter.mp this).1
  have hzm : (g.entries.zip g.base.coeffs).map Prod.fst = g.entries := List.map_fst_zip wg.2.le
  have hge : ∀ e ∈ g.entries, e ∈ entries := by
    intro e he
    rw [← hzm] at he
    obtain ⟨q, hq, rfl⟩ := List.mem_map.mp he
    rcases List.mem_append.mp (hp.mem_iff.mp hq) with hq | hq
    · obtain ⟨y, hy, rfl⟩ := List.mem_map.mp hq
      exact inR y hy
    · obtain ⟨y, hy, rfl⟩ := List.mem_map.mp hq
      exact inP y hy
  have hmap : ∀ l : List (Entry κ), (∀ e ∈ l, e ∈ entries) → l.mapM conv = .ok (l.map f) := by
    intro l
    induction l with
    | nil => intro _; rfl
    | cons e l ih =>
      intro hl
      rw [List.mapM_cons, hconv e (hl e (by simp)), ih fun d hd => hl d (by simp [hd])]
      rfl
  have hrew : (g'.entries.zip g'.base.coeffs).Perm (((g.entries.map f).zip g.base.coeffs).map fun q => (q.1, q.2 * (s' / s))) := by
    have e1 : (g.entries.map f).zip g.base.coeffs = (g.entries.zip g.base.coeffs).map fun q => (f q.1, q.2) := by
      rw [List.zip_map_left]
      rfl
    rw [e1, List.map_map]
    refine hp'.trans (List.Perm.trans ?_ (hp.map _).symm)
    rw [List.map_append, List.map_map, List.map_map, List.map_map, List.map_map]
    refine List.Perm.of_eq ?_
    congr 1 <;> apply List.map_congr_left <;> intro y hy <;> simp only [Function.comp_apply, Prod.mk.injEq, true_and]
    · rw [hb y (inR y hy)]; field_simp
    · rw [hb y (inP y hy)]; field_simp
  have hgn : g.entries.Nodup := by
    rw [← hzm, (hp.map Prod.fst).nodup_iff, List.map_append, List.map_map, List.map_map]
    have : ∀ l : List (Entry κ), ∀ k : Entry κ → ℚ, l.map (Prod.fst ∘ fun x => (x, k x)) = l := by
      intro l k
      conv_rhs => rw [← List.map_id l]
      rfl
    rw [this, this]
    exact h.nodup _ _ _ _ hs
  have hd := fun mu => C128_energy_per_atom X mu g.base.data g'.base.data g.base.lne g'.base.lne (s' / s) (div_pos hs0' hs0)
    ⟨g.entries.map f, g.base.coeffs, by rw [List.length_map]; exact wg.2⟩ ⟨g'.entries, g'.base.coeffs, wg'.2⟩ hrew (by
      unfold Eqn.comps
      simp only
      rw [List.map_map]
      refine List.Nodup.map_on ?_ hgn
      intro y hy z hz he
      simp only [Function.comp_apply, hf] at he
      exact List.inj_on_of_nodup_map hn (hge y hy) (hge z hz) he)
  refine ⟨g, g', hgx.symm, hgm, wg, wg', ⟨g.entries.map f, g.base.coeffs, (), []⟩, ?_, ?_, fun mu => (hd mu).2, s' / s, div_pos hs0' hs0, hrew⟩
  · unfold newTemperature retempOwn
    simp only [Bool.false_eq_true, if_false]
    rw [hmap _ hge]
    rfl
  · have := (hd []).1
    unfold Eqn.closed at this
    rw [← wg'.1] at this
    exact this

/-! ### The property -/

/-- **C155, the same reactions.** Enumerate the reactions of some phases, and those of the same phases at another temperature (with any energies).
The two runs return the same reactions. Partial: the conditions of C132 (no two entries of one reduced formula, phases told apart by the balancing
tolerance). -/
theorem C155_same_partial (X : Chem κ Sym) (hX : X.Lawful) (hsym : Symbols fun e : Entry κ => X.elems e.comp) (f : Entry κ → Entry κ)
    (hf : ∀ e, (f e).comp = e.comp) (cfg : Cfg (Entry κ)) (hcfg : Plain cfg) (entries : List (Entry κ)) (hin : Inside cfg entries)
    (hn : (entries.map fun e => X.red e.comp).Nodup) (hsharp : Sharp X entries) (n : ℤ) (out out' : List (Rx (Entry κ)))
    (h : Returns X cfg entries n out) (h' : Returns X (cfgAt f cfg) (entries.map f) n out') :
    (out.map fun x => ((sides x).1.image f, (sides x).2.image f)).Perm (out'.map sides) := by
  obtain ⟨back, hbc, hb⟩ := exists_back hf X hn
  have ho : ∀ e ∈ cfg.openEntries, e ∈ entries := by rw [hcfg.closed]; simp
  exact same_core hb (exactly_closed X hX hsym cfg hcfg entries hn hsharp n out h)
    (exactly_closed X hX hsym _ (plain_convert hcfg f) _ (nodup_convert hf hn) (sharp_convert hf hn hsharp) n out' h')
    (fun _ _ _ _ hs => (carries hf hb ho).sought hs) fun _ _ _ _ hs => (carries_back hbc hb hf ho hin).sought hs

/-- **C155, the same reactions with open phases.** -/
theorem C155_open_same_partial (X : Chem κ Sym) (hX : X.Lawful) (hsym : Symbols fun e : Entry κ => X.elems e.comp) (f : Entry κ → Entry κ)
    (hf : ∀ e, (f e).comp = e.comp) (cfg : Cfg (Entry κ)) (entries : List (Entry κ)) (hcfg : Opened cfg entries) (hin : Inside cfg entries)
    (hn : (entries.map fun e => X.red e.comp).Nodup) (hsharp : Sharp X entries) (n : ℤ) (out out' : List (Rx (Entry κ)))
    (h : ReturnsOpen X cfg entries n out) (h' : ReturnsOpen X (cfgAt f cfg) (entries.map f) n out') :
    (out.map fun x => ((sides x).1.image f, (sides x).2.image f)).Perm (out'.map sides) := by
  obtain ⟨back, hbc, hb⟩ := exists_back hf X hn
  exact same_core hb (exactly_open X hX hsym cfg entries hcfg hn hsharp n out h)
    (exactly_open X hX hsym _ _ (opened_convert hcfg hf hn) (nodup_convert hf hn) (sharp_convert hf hn hsharp) n out' h')
    (fun _ _ _ _ hs => (carries hf hb hcfg.given).soughtOpen hs) fun _ _ _ _ hs => (carries_back hbc hb hf hcfg.given hin).soughtOpen hs

/-- **C155, the same energies.** Let every entry convert to the new temperature. Every reaction of the first run converts too, and the second run
returns the same reaction with the same energy per atom as the converted one; its coefficients are the same up to a positive factor. -/
theorem C155_energy_partial (X : Chem κ Sym) (hX : X.Lawful) (hsym : Symbols fun e : Entry κ => X.elems e.comp) (conv : Entry κ → Except Err (Entry κ))
    (f : Entry κ → Entry κ) (hf : ∀ e, (f e).comp = e.comp) (cfg : Cfg (Entry κ)) (hcfg : Plain cfg) (entries : List (Entry κ))
    (hconv : ∀ e ∈ entries, conv e = .ok (f e)) (hn : (entries.map fun e => X.red e.comp).Nodup) (hsharp : Sharp X entries) (n : ℤ)
    (out out' : List (Rx (Entry κ))) (h : Returns X cfg entries n out) (h' : Returns X (cfgAt f cfg) (entries.map f) n out') :
    ∀ x ∈ out, ∃ g g' : CRxn κ, viewOf g = x ∧ viewOf g' ∈ out' ∧ Reheated X conv g g' := by
  obtain ⟨back, hbc, hb⟩ := exists_back hf X hn
  have ho : ∀ e ∈ cfg.openEntries, e ∈ entries := by rw [hcfg.closed]; simp
  exact energy_core hf hb conv hconv hn (exactly_closed X hX hsym cfg hcfg entries hn hsharp n out h)
    (exactly_closed X hX hsym _ (plain_convert hcfg f) _ (nodup_convert hf hn) (sharp_convert hf hn hsharp) n out' h')
    fun _ _ _ _ hs => (carries hf hb ho).sought hs

/-- **C155, the same energies with open phases**, at every chemical potential. -/
theorem C155_open_energy_partial (X : Chem κ Sym) (hX : X.Lawful) (hsym : Symbols fun e : Entry κ => X.elems e.comp)
    (conv : Entry κ → Except Err (Entry κ)) (f : Entry κ → Entry κ) (hf : ∀ e, (f e).comp = e.comp) (cfg : Cfg (Entry κ)) (entries : List (Entry κ))
    (hcfg : Opened cfg entries) (hconv : ∀ e ∈ entries, conv e = .ok (f e)) (hn : (entries.map fun e => X.red e.comp).Nodup) (hsharp : Sharp X entries)
    (n : ℤ) (out out' : List (Rx (Entry κ))) (h : ReturnsOpen X cfg entries n out) (h' : ReturnsOpen X (cfgAt f cfg) (entries.map f) n out') :
    ∀ x ∈ out, ∃ g g' : CRxn κ, viewOf g = x ∧ viewOf g' ∈ out' ∧ Reheated X conv g g' := by
  obtain ⟨back, hbc, hb⟩ := exists_back hf X hn
  exact energy_core hf hb conv hconv hn (exactly_open X hX hsym cfg entries hcfg hn hsharp n out h)
    (exactly_open X hX hsym _ _ (opened_convert hcfg hf hn) (nodup_convert hf hn) (sharp_convert hf hn hsharp) n out' h')
    fun _ _ _ _ hs => (carries hf hb hcfg.given).soughtOpen hs

/-! ### Example: A, B and AB, each lowered by its own amount -/

def exCold (e : Entry (Fin 4)) : Entry (Fin 4) := ⟨e.comp, e.energy - ((e.comp : ℕ) : ℚ) ^ 2 - 1⟩

/-- A temperature at which phase 3 has no data. -/
def exConv (e : Entry (Fin 4)) : Except Err (Entry (Fin 4)) := if e.comp = 3 then .error .valueError else .ok (exCold e)

/-- The run at the other temperature returns A + B → AB as well, with the energy per atom of the converted reaction, which is not the original one. -/
example : ∃ out out', Returns exChem exAll exThree 2 out ∧ Returns exChem (cfgAt exCold exAll) (exThree.map exCold) 2 out' ∧
    (out.map fun x => ((sides x).1.image exCold, (sides x).2.image exCold)).Perm (out'.map sides) ∧
    ∃ x ∈ out, sides x = ({⟨0, -1⟩, ⟨1, -1⟩}, {⟨2, -3⟩}) ∧ ∃ g g' : CRxn (Fin 4), viewOf g = x ∧ viewOf g' ∈ out' ∧
      ∃ c : SRxn (Entry (Fin 4)) Unit Sym, newTemperature Entry.comp exConv false .omitted ⟨g.entries, g.base.coeffs, (), []⟩ = .ok c ∧
        energyPerAtom exChem g' = energyPerAtom exChem (cinit exChem c.entries c.coeffs g.base.data g.base.lne) := by
  obtain ⟨out, h⟩ := exReturns exThree 2 exAll
  obtain ⟨out', h'⟩ := exReturns (exThree.map exCold) 2 (cfgAt exCold exAll)
  refine ⟨out, out', h, h', C155_same_partial exChem exLawful exSymbols exCold (fun _ => rfl) exAll exPlain exThree ⟨by simp [exAll], by simp [exAll]⟩
    (by decide) exSharp 2 out out' h h', ?_⟩
  obtain ⟨x, hx, h1, h2⟩ := (C132_exact_partial exChem exLawful exSymbols exAll exPlain exThree (by decide) exSharp 2 out h [⟨0, -1⟩, ⟨1, -1⟩] [⟨2, -3⟩]
    (by decide +kernel) (by decide +kernel)).1.mpr ⟨_, _, exSought⟩
  obtain ⟨g, g', e1, e2, _, _, c, e3, e4, _⟩ := C155_energy_partial exChem exLawful exSymbols exConv exCold (fun _ => rfl) exAll exPlain exThree
    (by decide +kernel) (by decide) exSharp 2 out out' h h' x hx
  refine ⟨x, hx, ?_, g, g', e1, e2, c, e3, e4⟩
  unfold sides
  rw [h1, h2]
  decide +kernel

/-- The energies per atom of A + B → AB differ at the two temperatures. -/
example : energyPerAtom exChem (cinit exChem [⟨0, -1⟩, ⟨1, -1⟩, ⟨2, -3⟩] [-1, -1, 1] [] none) ≠
    energyPerAtom exChem (cinit exChem ([⟨0, -1⟩, ⟨1, -1⟩, ⟨2, -3⟩].map exCold) [-1, -1, 1] [] none) := by decide +kernel

/-- The same with A open. -/
example : ∃ out out', ReturnsOpen exChem exOpen exThree 1 out ∧ ReturnsOpen exChem (cfgAt exCold exOpen) (exThree.map exCold) 1 out' ∧
    (out.map fun x => ((sides x).1.image exCold, (sides x).2.image exCold)).Perm (out'.map sides) ∧
    ∃ x ∈ out, sides x = ({⟨0, -1⟩, ⟨1, -1⟩}, {⟨2, -3⟩}) ∧ ∃ g g' : CRxn (Fin 4), viewOf g = x ∧ viewOf g' ∈ out' ∧ Reheated exChem exConv g g' := by
  obtain ⟨out, h⟩ := openReturns exChem exOpen exThree 1
  obtain ⟨out', h'⟩ := openReturns exChem (cfgAt exCold exOpen) (exThree.map exCold) 1
  refine ⟨out, out', h, h', C155_open_same_partial exChem exLawful exSymbols exCold (fun _ => rfl) exOpen exThree exOpened
    ⟨by simp [exOpen], by simp [exOpen]⟩ (by decide) exSharp 1 out out' h h', ?_⟩
  obtain ⟨x, hx, h1, h2⟩ := (C134_exact_partial exChem exLawful exSymbols exOpen exThree exOpened (by decide) exSharp 1 out h [⟨0, -1⟩, ⟨1, -1⟩] [⟨2, -3⟩]
    (by decide +kernel) (by decide +kernel)).1.mpr ⟨_, _, exSoughtOpen⟩
  obtain ⟨g, g', e1, e2, e3⟩ := C155_open_energy_partial exChem exLawful exSymbols exConv exCold (fun _ => rfl) exOpen exThree exOpened
    (by decide +kernel) (by decide) exSharp 1 out out' h h' x hx
  refine ⟨x, hx, ?_, g, g', e1, e2, e3⟩
  unfold sides
  rw [h1, h2]
  decide +kernel

end Verif.Props.EnumTemp
