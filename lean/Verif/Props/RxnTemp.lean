import Verif.Model.RxnTemp
import Verif.Props.RxnSet
import Verif.Props.EntryFlow

/-! Property C131: reactions and reaction sets at a new temperature, when entries can fail to convert. -/

set_option linter.unusedSectionVars false

namespace Verif.Props.RxnTemp
open Verif.Py Verif.Model.RxnSet Verif.Model.RxnTemp Verif.Lemmas.Exc Verif.Lemmas.Dict Verif.Lemmas.RxnSet Verif.Spec.RxnSet
open Verif.Props.RxnSet (Built built_wf C27_partial)

variable {η δ ε υ κ : Type} [DecidableEq η] [DecidableEq ε] [DecidableEq υ] [DecidableEq κ]

/-! ### Specification -/

/-- `r'` is `r` with every entry replaced by that entry at the new temperature; coefficients, data and potentials are kept. -/
structure Moved (conv : η → Except Err η) (r r' : SRxn η δ ε) : Prop where
  entries : List.Forall₂ (fun e e' => conv e = .ok e') r.entries r'.entries
  coeffs : r'.coeffs = r.coeffs
  data : r'.data = r.data
  chempots : r'.chempots = r.chempots

/-- Identifiers of converted entries tell the entries of the set apart. -/
def Ids {τ : Type} (uid : η → υ) (conv : τ → η → Except Err η) (es : List η) : Prop :=
  ∀ a ∈ es, ∀ b ∈ es, ∀ t t' a' b', conv t a = .ok a' → conv t' b = .ok b' → uid a' = uid b' → a = b

/-- Converting an entry twice is converting it once, and the composition stays. -/
structure Law {τ : Type} (comp : η → κ) (conv : τ → η → Except Err η) : Prop where
  twice : ∀ t t' e e', conv t e = .ok e' → conv t' e' = conv t' e
  keeps : ∀ t e e', conv t e = .ok e' → comp e' = comp e

/-! ### Helper lemmas -/

/-- The conversion made total (unconvertible entries stay). -/
def total (conv : η → Except Err η) (e : η) : η := match conv e with
  | .ok e' => e'
  | .error _ => e

theorem total_ok (conv : η → Except Err η) (e e' : η) (h : conv e = .ok e') : total conv e = e' := by
  unfold total; rw [h]

theorem conv_total (conv : η → Except Err η) (e : η) (h : ∃ e', conv e = .ok e') : conv e = .ok (total conv e) := by
  obtain ⟨e', h⟩ := h; rw [total_ok conv e e' h, h]

theorem tableAt_total (comp : η → κ) (conv : η → Except Err η) (es : List η) (h : ∀ e ∈ es, ∃ e', conv e = .ok e') :
    tableAt comp conv es = .ok (dictOf (es.map fun e => (comp e, total conv e))) := by
  unfold tableAt
  rw [mapM_eq_map _ (fun e => (comp e, total conv e))]
  · rfl
  · intro e he; rw [conv_total conv e (h e he)]; rfl

theorem setTemp_total (uid : η → υ) (so : List η → List η) (comp : η → κ) (conv : η → Except Err η) (s : RSet η δ ε)
    (h : ∀ e ∈ s.entries, ∃ e', conv e = .ok e') :
    setTemp uid so comp conv s = setNewTemperature uid so comp (total conv) s := by
  unfold setTemp setNewTemperature
  rw [tableAt_total comp conv s.entries h]
  rfl

theorem mem_entries_stored (s : RSet η δ ε) : ∀ r ∈ stored s, ∀ e ∈ r.entries, e ∈ s.entries := by
  intro r hr e he
  unfold stored at hr
  obtain ⟨p, _, hr⟩ := List.mem_flatMap.mp hr
  obtain ⟨t, _, rfl⟩ := List.mem_map.mp hr
  obtain ⟨i, _, hi⟩ := List.mem_filterMap.mp he
  exact List.mem_of_getElem? hi

theorem mem_entries (s : RSet η δ ε) (hs : Built s) (all : List (SRxn η δ ε)) (hall : getRxns s = .ok all) :
    ∀ r ∈ all, ∀ e ∈ r.entries, e ∈ s.entries := by
  rw [getRxns_ok s (built_wf s hs)] at hall
  cases hall
  exact mem_entries_stored s

theorem setTemp_error (uid : η → υ) (so : List η → List η) (comp : η → κ) (conv : η → Except Err η) (s : RSet η δ ε)
    (e : η) (he : e ∈ s.entries) (x : Err) (h : conv e = .error x) : ∃ y, setTemp uid so comp conv s = .error y := by
  obtain ⟨y, hy⟩ := mapM_exists_error (fun e => (conv e).map fun e' => (comp e, e')) s.entries e he x (by rw [h]; rfl)
  refine ⟨y, ?_⟩
  unfold setTemp tableAt
  rw [hy]; rfl

theorem moved_map (conv : η → Except Err η) (l : List η) (h : ∀ e ∈ l, ∃ e', conv e = .ok e') :
    List.Forall₂ (fun e e' => conv e = .ok e') l (l.map (total conv)) := by
  induction l with
  | nil => exact .nil
  | cons a l ih => exact .cons (conv_total conv a (h a (by simp))) (ih fun e he => h e (by simp [he]))

theorem retempOwn_total (conv : η → Except Err η) (r : SRxn η δ ε) (h : ∀ e ∈ r.entries, ∃ e', conv e = .ok e') :
    retempOwn conv r = .ok { r with entries := r.entries.map (total conv) } := by
  unfold retempOwn
  rw [mapM_eq_map _ (total conv) _ fun e he => conv_total conv e (h e he)]
  rfl

/-! ### One reaction -/

/-- **C131, one reaction.** A closed reaction, or any reaction given `None`, moves each of its own entries — polymorphs included — and keeps
everything else. -/
theorem C131_reaction (comp : η → κ) (conv : η → Except Err η) (isOpen : Bool) (arg : Arg κ η) (r r' : SRxn η δ ε)
    (h : (arg = .omitted ∧ isOpen = false) ∨ arg = .noneGiven) :
    newTemperature comp conv isOpen arg r = .ok r' ↔ Moved conv r r' := by
  have : newTemperature comp conv isOpen arg r = retempOwn conv r := by
    rcases h with ⟨rfl, rfl⟩ | rfl <;> rfl
  rw [this]
  unfold retempOwn
  rw [map_ok]
  constructor
  · rintro ⟨es, h1, rfl⟩
    exact ⟨(mapM_ok _ _ _).mp h1, rfl, rfl, rfl⟩
  · rintro ⟨h1, h2, h3, h4⟩
    refine ⟨r'.entries, (mapM_ok _ _ _).mpr h1, ?_⟩
    cases r; cases r'; simp_all

/-- It fails exactly when one of its entries cannot be converted. -/
theorem C131_reaction_fails (comp : η → κ) (conv : η → Except Err η) (isOpen : Bool) (arg : Arg κ η) (r : SRxn η δ ε)
    (h : (arg = .omitted ∧ isOpen = false) ∨ arg = .noneGiven) :
    (∃ x, newTemperature comp conv isOpen arg r = .error x) ↔ ∃ e ∈ r.entries, ∃ x, conv e = .error x := by
  have : newTemperature comp conv isOpen arg r = retempOwn conv r := by
    rcases h with ⟨rfl, rfl⟩ | rfl <;> rfl
  rw [this]
  unfold retempOwn
  constructor
  · rintro ⟨x, hx⟩
    cases hm : r.entries.mapM conv with
    | ok es => rw [hm] at hx; cases hx
    | error y =>
      obtain ⟨a, ha, h⟩ := mapM_error _ _ _ hm
      exact ⟨a, ha, y, h⟩
  · rintro ⟨e, he, x, hx⟩
    obtain ⟨y, hy⟩ := mapM_exists_error conv r.entries e he x hx
    exact ⟨y, by rw [hy]; rfl⟩

/-- **The negation for open reactions**: asking an open reaction for a new temperature alone, as a closed reaction allows, always
raises. -/
theorem C131_open_violated (comp : η → κ) (conv : η → Except Err η) (r : SRxn η δ ε) :
    newTemperature comp conv true .omitted r = .error .typeError := rfl

/-- Converting with the table of a set without polymorphs agrees with converting on its own. -/
theorem C131_table_partial (comp : η → κ) (conv : η → Except Err η) (isOpen : Bool) (es : List η) (t : List (κ × η))
    (ht : tableAt comp conv es = .ok t) (hcomp : (es.map comp).Nodup) (r : SRxn η δ ε) (hr : ∀ e ∈ r.entries, e ∈ es) :
    newTemperature comp conv isOpen (.table t) r = newTemperature comp conv isOpen .noneGiven r := by
  have hc : ∀ e ∈ es, ∃ e', conv e = .ok e' := by
    intro e he
    cases h : conv e with
    | ok e' => exact ⟨e', rfl⟩
    | error x =>
      obtain ⟨y, hy⟩ := mapM_exists_error (fun e => (conv e).map fun e' => (comp e, e')) es e he x (by rw [h]; rfl)
      unfold tableAt at ht; rw [hy] at ht; cases ht
  rw [tableAt_total comp conv es hc] at ht
  cases ht
  show retemp comp _ r = retempOwn conv r
  rw [retempOwn_total conv r fun e he => hc e (hr e he)]
  have hkeys : (es.map fun e => (comp e, total conv e)).map Prod.fst = es.map comp := by rw [List.map_map]; rfl
  unfold retemp
  rw [mapM_eq_map _ (total conv) r.entries]
  · rfl
  · intro e he
    unfold lookupT
    rw [dictOf_eq_self _ (by rw [hkeys]; exact hcomp),
      dictGet_eq_some_of_mem _ (by rw [hkeys]; exact hcomp) (comp e) (total conv e) (List.mem_map.mpr ⟨e, hr e he, rfl⟩)]

/-! ### Reaction sets -/

/-- **C131, reaction sets without polymorphs.** The conversion succeeds exactly when every entry of the set can be converted, and then
the new set holds exactly the reactions converted one by one. -/
theorem C131_set_partial {τ : Type} (uid : η → υ) (so : List η → List η) (ho : SetOrder so) (comp : η → κ)
    (conv : τ → η → Except Err η) (t : τ) (s : RSet η δ ε) (hs : Built s) (all : List (SRxn η δ ε)) (hall : getRxns s = .ok all)
    (hcomp : (s.entries.map comp).Nodup) (hid : Ids uid conv s.entries) :
    ((∃ s', setTemp uid so comp (conv t) s = .ok s') ↔ ∀ e ∈ s.entries, ∃ e', conv t e = .ok e') ∧
    ∀ s', setTemp uid so comp (conv t) s = .ok s' → ∃ out moved, getRxns s' = .ok out ∧ out.Perm moved ∧
      List.Forall₂ (Moved (conv t)) all moved ∧ len s' = len s := by
  have key : (∀ e ∈ s.entries, ∃ e', conv t e = .ok e') → ∃ s' out, setTemp uid so comp (conv t) s = .ok s' ∧
      getRxns s' = .ok out ∧ len s' = len s ∧ out.Perm (all.map fun r => { r with entries := r.entries.map (total (conv t)) }) := by
    intro h
    obtain ⟨s', out, h1, h2, h3, h4⟩ := C27_partial uid so ho comp (total (conv t)) s hs all hall hcomp (by
      intro a ha b hb hu
      rw [hid a ha b hb t t _ _ (conv_total _ a (h a ha)) (conv_total _ b (h b hb)) hu])
    exact ⟨s', out, by rw [setTemp_total uid so comp (conv t) s h]; exact h1, h2, h3, h4⟩
  have fwd : ∀ s', setTemp uid so comp (conv t) s = .ok s' → ∀ e ∈ s.entries, ∃ e', conv t e = .ok e' := by
    intro s' hs' e he
    cases h : conv t e with
    | ok e' => exact ⟨e', rfl⟩
    | error x =>
      obtain ⟨y, hy⟩ := setTemp_error uid so comp (conv t) s e he x h
      rw [hy] at hs'; cases hs'
  refine ⟨⟨fun ⟨s', hs'⟩ => fwd s' hs', fun h => ?_⟩, ?_⟩
  · obtain ⟨s', out, h1, -⟩ := key h
    exact ⟨s', h1⟩
  · intro s' hs'
    have hc := fwd s' hs'
    obtain ⟨s'', out, h1, h2, h3, h4⟩ := key hc
    rw [h1] at hs'; cases hs'
    refine ⟨out, _, h2, h4, ?_, h3⟩
    have hm := mem_entries s hs all hall
    clear h4 hall key
    induction all with
    | nil => exact .nil
    | cons r all ih =>
      refine .cons ⟨moved_map (conv t) r.entries fun e he => hc e (hm r (by simp) e he), rfl, rfl, rfl⟩
        (ih fun r' hr' => hm r' (by simp [hr']))

/-- What a converted set's entries are: conversions of entries of the old set that some reaction uses. -/
theorem entries_of_setTemp (uid : η → υ) (so : List η → List η) (ho : SetOrder so) (comp : η → κ) (conv : η → Except Err η)
    (s : RSet η δ ε) (hs : Built s) (all : List (SRxn η δ ε)) (hall : getRxns s = .ok all) (hcomp : (s.entries.map comp).Nodup)
    (s' : RSet η δ ε) (h : setTemp uid so comp conv s = .ok s') :
    Built s' ∧ ∀ e' ∈ s'.entries, ∃ r ∈ all, ∃ e ∈ r.entries, conv e = .ok e' := by
  simp only [setTemp] at h
  rw [bind_ok] at h
  obtain ⟨tb, htb, h⟩ := h
  rw [hall, bind_ok] at h
  obtain ⟨rs, hrs, h⟩ := h
  cases hrs
  rw [bind_ok] at h
  obtain ⟨new, hnew, h⟩ := h
  refine ⟨Built.fromRxns uid so new none s.openElem s.chempot s' ho h, ?_⟩
  intro e' he'
  have hent : s'.entries = so (givenEntries new none) := by
    unfold fromRxns at h
    simp only at h
    rw [bind_ok] at h
    obtain ⟨rows, -, h⟩ := h
    cases h
    rfl
  rw [hent, (ho _).2] at he'
  obtain ⟨r', hr', he'⟩ := List.mem_flatMap.mp he'
  obtain ⟨r, hr, hrr⟩ := mapM_mem _ _ _ hnew r' hr'
  rw [C131_table_partial comp conv _ s.entries tb htb hcomp r (mem_entries s hs all hall r hr)] at hrr
  have hm := ((C131_reaction comp conv _ (.noneGiven) r r' (Or.inr rfl)).mp hrr).entries
  refine ⟨r, hr, ?_⟩
  obtain ⟨i, hi, rfl⟩ := List.mem_iff_getElem.mp he'
  have hi' : i < r.entries.length := by rw [hm.length_eq]; exact hi
  exact ⟨r.entries[i], List.getElem_mem hi', List.forall₂_iff_get.mp hm |>.2 i hi' hi⟩

theorem moved_unique (conv : η → Except Err η) (r a b : SRxn η δ ε) (ha : Moved conv r a) (hb : Moved conv r b) : a = b := by
  have : a.entries = b.entries := by
    have h1 := (mapM_ok _ _ _).mpr ha.entries
    have h2 := (mapM_ok _ _ _).mpr hb.entries
    rw [h1] at h2; exact Except.ok.inj h2
  have := ha.coeffs; have := hb.coeffs; have := ha.data; have := hb.data; have := ha.chempots; have := hb.chempots
  cases a; cases b; simp_all

theorem moved_all_unique (conv : η → Except Err η) : ∀ (l a b : List (SRxn η δ ε)), List.Forall₂ (Moved conv) l a →
    List.Forall₂ (Moved conv) l b → a = b
  | [], _, _, .nil, .nil => rfl
  | _ :: _, _, _, .cons h1 h2, .cons h3 h4 => by rw [moved_unique conv _ _ _ h1 h3, moved_all_unique conv _ _ _ h2 h4]

/-- **C131, path independence.** Visiting another temperature first does not change the reactions obtained (their entries, hence all
energies, coefficients and data), whenever the direct conversion succeeds. -/
theorem C131_path_partial {τ : Type} (uid : η → υ) (so : List η → List η) (ho : SetOrder so) (comp : η → κ)
    (conv : τ → η → Except Err η) (hlaw : Law comp conv) (t1 t2 : τ) (s s1 s2 : RSet η δ ε) (hs : Built s)
    (hcomp : (s.entries.map comp).Nodup) (hid : Ids uid conv s.entries)
    (h1 : setTemp uid so comp (conv t1) s = .ok s1) (h2 : setTemp uid so comp (conv t2) s = .ok s2) :
    ∃ s12 out out', setTemp uid so comp (conv t2) s1 = .ok s12 ∧ getRxns s12 = .ok out ∧ getRxns s2 = .ok out' ∧ out.Perm out' := by
  have hall := getRxns_ok s (built_wf s hs)
  set all := stored s
  obtain ⟨-, g1⟩ := C131_set_partial uid so ho comp conv t1 s hs all hall hcomp hid
  obtain ⟨⟨c2, -⟩, g2⟩ := C131_set_partial uid so ho comp conv t2 s hs all hall hcomp hid
  have c2 := c2 ⟨s2, h2⟩
  obtain ⟨out1, mv1, q1, q2, q3, -⟩ := g1 s1 h1
  obtain ⟨out2, mv2, p1, p2, p3, -⟩ := g2 s2 h2
  obtain ⟨hb1, hent⟩ := entries_of_setTemp uid so ho comp (conv t1) s hs all hall hcomp s1 h1
  have hent' : ∀ e' ∈ s1.entries, ∃ e ∈ s.entries, conv t1 e = .ok e' := by
    intro e' he'
    obtain ⟨r, hr, e, he, h⟩ := hent e' he'
    exact ⟨e, mem_entries s hs all hall r hr e he, h⟩
  have hnd : s1.entries.Nodup := by
    simp only [setTemp] at h1
    rw [bind_ok] at h1
    obtain ⟨_, -, h1⟩ := h1
    rw [bind_ok] at h1
    obtain ⟨_, -, h1⟩ := h1
    rw [bind_ok] at h1
    obtain ⟨_, -, h1⟩ := h1
    unfold fromRxns at h1
    simp only at h1
    rw [bind_ok] at h1
    obtain ⟨rows, -, h1⟩ := h1
    cases h1
    exact (ho _).1
  have hinj : ∀ a ∈ s.entries, ∀ b ∈ s.entries, comp a = comp b → a = b := fun a ha b hb h =>
    List.inj_on_of_nodup_map hcomp ha hb h
  have hcomp1 : (s1.entries.map comp).Nodup := by
    refine List.Nodup.map_on ?_ hnd
    intro a' ha' b' hb' h
    obtain ⟨a, ha, ea⟩ := hent' a' ha'
    obtain ⟨b, hb, eb⟩ := hent' b' hb'
    rw [hlaw.keeps t1 a a' ea, hlaw.keeps t1 b b' eb] at h
    have := hinj a ha b hb h
    subst this
    rw [ea] at eb; exact Except.ok.inj eb
  have hid1 : Ids uid conv s1.entries := by
    intro a' ha' b' hb' t t' a'' b'' haa hbb hu
    obtain ⟨a, ha, ea⟩ := hent' a' ha'
    obtain ⟨b, hb, eb⟩ := hent' b' hb'
    rw [hlaw.twice t1 t a a' ea] at haa
    rw [hlaw.twice t1 t' b b' eb] at hbb
    have := hid a ha b hb t t' a'' b'' haa hbb hu
    subst this
    rw [ea] at eb; exact Except.ok.inj eb
  obtain ⟨⟨-, c12⟩, g12⟩ := C131_set_partial uid so ho comp conv t2 s1 hb1 out1 q1 hcomp1 hid1
  obtain ⟨s12, h12⟩ := c12 (by
    intro e' he'
    obtain ⟨e, he, h⟩ := hent' e' he'
    rw [hlaw.twice t1 t2 e e' h]
    exact c2 e he)
  obtain ⟨out, mv, r1, r2, r3, -⟩ := g12 s12 h12
  refine ⟨s12, out, out2, h12, r1, p1, r2.trans ?_⟩
  -- the reactions of `s1` are a rearrangement of `mv1`; convert them
  have hconv : ∀ r r1 r2 : SRxn η δ ε, Moved (conv t1) r r1 → Moved (conv t2) r1 r2 → Moved (conv t2) r r2 := by
    intro r ra rb ha hb
    refine ⟨?_, hb.coeffs.trans ha.coeffs, hb.data.trans ha.data, hb.chempots.trans ha.chempots⟩
    have e1 := ha.entries
    have e2 := hb.entries
    have e1' := (mapM_ok _ _ _).mpr e1
    rw [List.forall₂_iff_get] at e1 e2 ⊢
    refine ⟨e1.1.trans e2.1, fun i hi hi' => ?_⟩
    have h1 := e1.2 i hi (by rw [← e1.1]; exact hi)
    have h2 := e2.2 i (by rw [← e1.1]; exact hi) hi'
    rw [hlaw.twice t1 t2 _ _ h1] at h2
    exact h2
  -- transport along the permutation
  obtain ⟨l, hl, hlp⟩ := List.perm_comp_forall₂ q2.symm r3
  have hl3 : List.Forall₂ (Moved (conv t2)) all l := by
    clear hlp r2 r3 q2 g2 p3 g1 hall hent g12
    clear_value all
    induction q3 generalizing l with
    | nil => cases hl; exact .nil
    | cons ha _ ih =>
      cases hl with
      | cons hb hl => exact .cons (hconv _ _ _ ha hb) (ih _ hl)
  have := moved_all_unique _ _ _ _ hl3 p3
  subst this
  exact (hlp.symm.trans p2.symm)

/-- **C131, lists of temperatures.** Every listed temperature gets the set that the single conversion gives, and if any of them fails
nothing is returned. -/
theorem C131_temps {τ : Type} [DecidableEq τ] (uid : η → υ) (so : List η → List η) (comp : η → κ) (conv : τ → η → Except Err η)
    (s : RSet η δ ε) (hs : Built s) (temps : List τ) :
    (∀ d, atTemps uid so comp conv s temps = .ok d → ∀ t,
      if t ∈ temps then ∃ x, setTemp uid so comp (conv t) s = .ok x ∧ dictGet d t = some x else dictGet d t = none) ∧
    ((∃ d, atTemps uid so comp conv s temps = .ok d) ↔ ∀ t ∈ temps, ∃ x, setTemp uid so comp (conv t) s = .ok x) := by
  have hall := getRxns_ok s (built_wf s hs)
  have hstep : ∀ d t, stepTemps uid so comp conv s (stored s) d t = (setTemp uid so comp (conv t) s).map fun x => dictSet d t x := by
    intro d t
    unfold stepTemps setTemp
    rw [hall]
    cases tableAt comp (conv t) s.entries with
    | error x => rfl
    | ok tb =>
      simp only [bind, Except.bind]
      cases (stored s).mapM (newTemperature comp (conv t) s.openElem.isSome (.table tb)) with
      | error x => rfl
      | ok new =>
        simp only
        cases fromRxns uid so new none s.openElem s.chempot <;> rfl
  have hat : atTemps uid so comp conv s temps = temps.foldlM (stepTemps uid so comp conv s (stored s)) [] := by
    unfold atTemps; rw [hall]; rfl
  rw [hat]
  have main : ∀ (temps : List τ) (d0 : List (τ × RSet η δ ε)),
      (∀ d, temps.foldlM (stepTemps uid so comp conv s (stored s)) d0 = .ok d → ∀ t,
        if t ∈ temps then ∃ x, setTemp uid so comp (conv t) s = .ok x ∧ dictGet d t = some x else dictGet d t = dictGet d0 t) ∧
      ((∃ d, temps.foldlM (stepTemps uid so comp conv s (stored s)) d0 = .ok d) ↔
        ∀ t ∈ temps, ∃ x, setTemp uid so comp (conv t) s = .ok x) := by
    intro temps
    induction temps with
    | nil =>
      intro d0
      refine ⟨fun d h t => ?_, ⟨fun _ => by simp, fun _ => ⟨d0, rfl⟩⟩⟩
      cases h
      simp
    | cons t0 ts ih =>
      intro d0
      rw [List.foldlM_cons, hstep]
      cases h0 : setTemp uid so comp (conv t0) s with
      | error x =>
        refine ⟨fun d h => (by cases h), ⟨fun ⟨d, h⟩ => (by cases h), fun h => ?_⟩⟩
        obtain ⟨y, hy⟩ := h t0 (by simp)
        rw [h0] at hy; cases hy
      | ok x0 =>
        obtain ⟨i1, i2⟩ := ih (dictSet d0 t0 x0)
        refine ⟨fun d h t => ?_, ?_⟩
        · have := i1 d h t
          by_cases ht : t ∈ ts
          · rw [if_pos ht] at this
            rw [if_pos (by simp [ht])]; exact this
          · rw [if_neg ht] at this
            by_cases htt : t = t0
            · subst htt
              rw [if_pos (by simp)]
              exact ⟨x0, h0, by rw [this, dictGet_dictSet, if_pos rfl]⟩
            · rw [if_neg (by simp [ht, htt]), this, dictGet_dictSet, if_neg (Ne.symm htt)]
        · refine Iff.trans i2 ⟨fun h t ht => ?_, fun h t ht => h t (by simp [ht])⟩
          rcases List.mem_cons.mp ht with rfl | ht
          · exact ⟨x0, h0⟩
          · exact h t ht
  obtain ⟨m1, m2⟩ := main temps []
  refine ⟨fun d h t => ?_, m2⟩
  have := m1 d h t
  exact this

/-! ### Entries of the package -/

section ents
open Verif.Model.Entries Verif.Model.EntryFlow

variable {φ : Type} [DecidableEq φ]

/-- Computed, experimental and interpolated entries satisfy the law, so `C131_path_partial` applies to them. -/
theorem C131_entries (W : World κ ε φ) : Law (Ent.comp (κ := κ)) (Ent.newTemperature W) := by
  refine ⟨fun t t' e e' h => ?_, fun t e e' h => EntryFlow.newTemperature_comp W t e e' h⟩
  cases e with
  | gibbs g =>
    simp only [Ent.newTemperature] at h ⊢
    rw [map_ok] at h
    obtain ⟨g', hg, rfl⟩ := h
    simp only [EntryTemp.newTemperature_twice W.thermo g g' t t' hg]
  | exper x =>
    simp only [Ent.newTemperature] at h ⊢
    rw [map_ok] at h
    obtain ⟨x', hx, rfl⟩ := h
    simp only [EntryTemp.experTwice W.table W.deprecated x x' t t' hx]
  | interp c g m => cases h; rfl

/-- The stored hull distance of an entry, src/rxn_network/entries/entry_set.py:280. -/
def hull? : Ent κ → Option ℚ
  | .gibbs e => e.ehull
  | _ => none

/-- Conversion inside a reaction set keeps the stored hull distances of the old temperature. -/
theorem C131_hull_kept (W : World κ ε φ) (t : ℚ) (e e' : Ent κ) (h : e.newTemperature W t = .ok e') : hull? e' = hull? e := by
  cases e with
  | gibbs g =>
    simp only [Ent.newTemperature] at h
    rw [map_ok] at h
    obtain ⟨g', hg, rfl⟩ := h
    obtain ⟨-, -, v, -, rfl⟩ := EntryTemp.gibbsInit_ok _ _ _ _ _ _ _ _ hg
    rfl
  | exper x =>
    simp only [Ent.newTemperature] at h
    rw [map_ok] at h
    obtain ⟨x', hx, rfl⟩ := h
    rfl
  | interp c g m => cases h; rfl

end ents

/-! ### Examples and violations -/

section toys
open Verif.Model.Entries Verif.Model.EntryFlow

/-- Compositions are numbers of atoms of one element (`2` and `4` are two ways to write the same formula). -/
def W : World ℕ ℕ ℕ := ⟨⟨fun n => n, fun _ v t => .ok (v * t / 1000)⟩, fun n => if n = 3 then some [(300, -1), (400, -2)] else none,
  fun _ => false, fun _ => [0], fun _ => 0, fun _ => 2⟩

def g2 : Ent ℕ := .gibbs ⟨2, -2, 1, 300, [.const sisso (3/10)], some 0⟩
def g4 : Ent ℕ := .gibbs ⟨4, -3/2, -2, 300, [.const sisso (-3/5)], some (1/5)⟩
def x3 : Ent ℕ := .exper ⟨3, 300, -1, []⟩

/-- Two reactions' worth of data over `g2`, `g4`; `x3` is in the set but no reaction uses it. -/
def r0 : SRxn (Ent ℕ) ℕ ℕ := ⟨[g2, g4], [-2, 1], 7, []⟩

/-- A duplicate-free arrangement. -/
def so (l : List (Ent ℕ)) : List (Ent ℕ) := l.dedup

theorem so_ok : SetOrder so := fun l => ⟨List.nodup_dedup l, fun _ => List.mem_dedup⟩

def s0 : Except Err (RSet (Ent ℕ) ℕ ℕ) := fromRxns Ent.comp so [r0] (some [g2, g4, x3]) none 0
def s00 : Except Err (RSet (Ent ℕ) ℕ ℕ) := fromRxns Ent.comp so [r0] none none 0

def s00v : RSet (Ent ℕ) ℕ ℕ := mk [g2, g4] [(2, [[0, 1]])] [(2, [[-2, 1]])] none 0 (some [(2, [7])])

theorem s00_eq : s00 = .ok s00v := by decide +kernel

theorem s00_ids : Ids Ent.comp (Ent.newTemperature W) s00v.entries := by
  intro a ha b hb t t' a' b' h h' hu
  rw [EntryFlow.newTemperature_comp W t a a' h, EntryFlow.newTemperature_comp W t' b b' h'] at hu
  have : ∀ a ∈ s00v.entries, ∀ b ∈ s00v.entries, a.comp = b.comp → a = b := by decide +kernel
  exact this a ha b hb hu

theorem isOk {α : Type} (x : Except Err α) (h : x.toOption.isSome = true) : ∃ a, x = .ok a := by
  cases x with
  | ok a => exact ⟨a, rfl⟩
  | error y => cases h

/-- The hypotheses of `C131_set_partial` and `C131_path_partial` are met by this set and the temperatures 600 and 1000. -/
example : SetOrder so ∧ Law Ent.comp (Ent.newTemperature W) ∧ Built s00v ∧ (s00v.entries.map Ent.comp).Nodup ∧
    Ids Ent.comp (Ent.newTemperature W) s00v.entries ∧
    (∃ s1, setTemp Ent.comp so Ent.comp (Ent.newTemperature W 600) s00v = .ok s1) ∧
    (∃ s2, setTemp Ent.comp so Ent.comp (Ent.newTemperature W 1000) s00v = .ok s2) :=
  ⟨so_ok, C131_entries W, Built.fromRxns Ent.comp so [r0] none none 0 s00v so_ok s00_eq, by decide +kernel, s00_ids,
    isOk _ (by decide +kernel), isOk _ (by decide +kernel)⟩

example : newTemperature Ent.comp (Ent.newTemperature W 1000) false .omitted r0
    = .ok ⟨[.gibbs ⟨2, -2, 1, 1000, [.const sisso 1], some 0⟩, .gibbs ⟨4, -3/2, -2, 1000, [.const sisso (-2)], some (1/5)⟩], [-2, 1], 7, []⟩ := by
  decide +kernel

example : newTemperature Ent.comp (Ent.newTemperature W 2500) false .omitted r0 = .error .valueError := by decide +kernel

/-- **The negation for unused entries.** Every reaction of the set can be converted to 1000 K, the set cannot: an entry that no
reaction uses has no data there. -/
theorem C131_unused_violated : ∃ s all, s0 = .ok s ∧ getRxns s = .ok all ∧
    (∃ out, all.mapM (newTemperature Ent.comp (Ent.newTemperature W 1000) false .noneGiven) = .ok out) ∧
    setTemp Ent.comp so Ent.comp (Ent.newTemperature W 1000) s = .error .valueError := by
  refine ⟨mk [g2, g4, x3] [(2, [[0, 1]])] [(2, [[-2, 1]])] none 0 (some [(2, [7])]), [r0], by decide +kernel, by decide +kernel,
    ⟨[⟨[.gibbs ⟨2, -2, 1, 1000, [.const sisso 1], some 0⟩, .gibbs ⟨4, -3/2, -2, 1000, [.const sisso (-2)], some (1/5)⟩], [-2, 1], 7, []⟩],
      by decide +kernel⟩, by decide +kernel⟩

/-- **The negation for success along a path.** The same conversion to 1000 K fails directly and succeeds after a stop at 400 K, because the
stop drops the entries that no reaction uses. -/
theorem C131_path_violated : ∃ s s1 s12, s0 = .ok s ∧ setTemp Ent.comp so Ent.comp (Ent.newTemperature W 400) s = .ok s1 ∧
    setTemp Ent.comp so Ent.comp (Ent.newTemperature W 1000) s1 = .ok s12 ∧
    setTemp Ent.comp so Ent.comp (Ent.newTemperature W 1000) s = .error .valueError := by
  refine ⟨mk [g2, g4, x3] [(2, [[0, 1]])] [(2, [[-2, 1]])] none 0 (some [(2, [7])]),
    mk [.gibbs ⟨2, -2, 1, 400, [.const sisso (2/5)], some 0⟩, .gibbs ⟨4, -3/2, -2, 400, [.const sisso (-4/5)], some (1/5)⟩]
      [(2, [[0, 1]])] [(2, [[-2, 1]])] none 0 (some [(2, [7])]),
    mk [.gibbs ⟨2, -2, 1, 1000, [.const sisso 1], some 0⟩, .gibbs ⟨4, -3/2, -2, 1000, [.const sisso (-2)], some (1/5)⟩]
      [(2, [[0, 1]])] [(2, [[-2, 1]])] none 0 (some [(2, [7])]), by decide +kernel, by decide +kernel, by decide +kernel, by decide +kernel⟩

/-- **The negation for stored hull distances.** After the conversion an entry still carries the hull distance `0` although the set now
holds a lower-lying entry of the same formula (at the old temperature it did not). -/
theorem C131_hull_violated : ∃ s', setTemp Ent.comp so Ent.comp (Ent.newTemperature W 1000) s00v = .ok s' ∧
    (∃ a ∈ s'.entries, ∃ b ∈ s'.entries, hull? a = some 0 ∧ a.form W = b.form W ∧ b.epa W < a.epa W) ∧
    ∀ a ∈ s00v.entries, ∀ b ∈ s00v.entries, hull? a = some 0 → a.epa W ≤ b.epa W := by
  refine ⟨mk [.gibbs ⟨2, -2, 1, 1000, [.const sisso 1], some 0⟩, .gibbs ⟨4, -3/2, -2, 1000, [.const sisso (-2)], some (1/5)⟩]
      [(2, [[0, 1]])] [(2, [[-2, 1]])] none 0 (some [(2, [7])]), by decide +kernel, by decide +kernel, by decide +kernel⟩

example : ∃ d, atTemps Ent.comp so Ent.comp (Ent.newTemperature W) s00v [600, 1000, 600] = .ok d ∧ d.map Prod.fst = [600, 1000] :=
  (by decide +kernel : ((atTemps Ent.comp so Ent.comp (Ent.newTemperature W) s00v [600, 1000, 600]).map (·.map Prod.fst)) = .ok [600, 1000])
    |> fun h => by
      cases hx : atTemps Ent.comp so Ent.comp (Ent.newTemperature W) s00v [600, 1000, 600] with
      | ok x => rw [hx] at h; exact ⟨x, rfl, Except.ok.inj h⟩
      | error y => rw [hx] at h; cases h

end toys

end Verif.Props.RxnTemp
