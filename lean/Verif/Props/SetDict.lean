import Verif.Model.SetDict
import Verif.Lemmas.Decimal
import Verif.Props.RxnSet

/-! Property C126: reaction sets and reactions survive being saved and loaded. -/

set_option linter.unusedSectionVars false

namespace Verif.Props.SetDict
open Verif.Py Verif.Model.RxnSet Verif.Model.SetDict Verif.Model.Parser Verif.Lemmas.Dict Verif.Lemmas.Exc

variable {η δ ε S : Type} [DecidableEq η] [DecidableEq ε]

/-! ### Specification -/

/-- Integer sizes, each once, with arrays. -/
def Normal {α : Type} (d : SizeDict α) : Prop := (∀ p ∈ d, (∃ n, p.1 = .int n) ∧ p.2.nd = true) ∧ (d.map Prod.fst).Nodup

/-- What the attributes of a set satisfy: sizes are integers with arrays, and the open element, if given, was understood. -/
def Sound (el : String → Except Err ε) (s : State η δ ε) : Prop :=
  Normal s.indices ∧ Normal s.coeffs ∧ Normal s.data ∧
    ((s.openElem = none ∨ s.openElem = some (.str "")) ∧ s.mu = none ∨
      ∃ e, (s.openElem = some (.elem e) ∨ ∃ t, t ≠ "" ∧ s.openElem = some (.str t) ∧ el t = .ok e) ∧ s.mu = some (e, s.chempot))

/-- The entries of a set come back from their own dictionaries, and JSON keeps the data of its reactions. -/
def Survives (C : Codec η δ S) (s : State η δ ε) : Prop :=
  (∀ e ∈ s.entries, ∃ w, C.out e = .ok w ∧ C.back w = .ok e) ∧ ∀ p ∈ s.data, ∀ d ∈ p.2.rows, C.json d = .ok d

/-! ### Lemmas -/

theorem map_val {α β : Type} (f : α → β) (a : α) : (Except.ok a : Except Err α).map f = .ok (f a) := rfl

theorem bind_val {α β : Type} (f : α → Except Err β) (a : α) : ((Except.ok a : Except Err α) >>= f) = f a := rfl

theorem intOf_showNat (n : ℕ) : intOf (.text (showNat n)) = .ok n := by
  obtain ⟨h1, h2, h3⟩ := Verif.Lemmas.Parser.showNat_spec n
  simp only [intOf]
  rw [if_pos ⟨h2, List.all_eq_true.mpr h1⟩, h3]

theorem convert_normal {α : Type} (d : SizeDict α) (h : Normal d) : convert d = .ok d := by
  unfold convert
  rw [if_neg]
  rw [Bool.or_eq_true, not_or]
  constructor
  · simp only [Bool.not_eq_true', Bool.not_eq_false, List.all_eq_true]
    intro p hp
    obtain ⟨⟨n, hn⟩, _⟩ := h.1 p hp
    rw [hn]; rfl
  · simp only [Bool.not_eq_true', Bool.not_eq_false, List.all_eq_true]
    exact fun p hp => (h.1 p hp).2

theorem convert_ok {α : Type} (d r : SizeDict α) (hd : (d.map Prod.fst).Nodup) (h : convert d = .ok r) : Normal r := by
  unfold convert at h
  split at h
  · rw [map_ok] at h
    obtain ⟨l, hl, rfl⟩ := h
    refine ⟨?_, nodup_dictOf l⟩
    intro p hp
    obtain ⟨q, _, hq⟩ := mapM_mem _ _ _ hl p (mem_dictOf l p hp)
    unfold convPair at hq
    rw [map_ok] at hq
    obtain ⟨n, _, rfl⟩ := hq
    exact ⟨⟨n, rfl⟩, rfl⟩
  · rename_i hc
    rw [Except.ok.injEq] at h
    subst h
    rw [Bool.or_eq_true, not_or] at hc
    obtain ⟨h1, h2⟩ := hc
    simp only [Bool.not_eq_true', Bool.not_eq_false, List.all_eq_true] at h1 h2
    refine ⟨fun p hp => ⟨?_, h2 p hp⟩, hd⟩
    have := h1 p hp
    revert this
    cases p.1 with
    | int n => intro _; exact ⟨n, rfl⟩
    | text s => intro h; exact absurd h (by simp [isInt])

/-- Keys as JSON text. -/
theorem keyText_inj (d : SizeDict δ) (h : Normal d) : (d.map fun p => keyText p.1).Nodup := by
  have : (d.map fun p => keyText p.1) = (d.map Prod.fst).map keyText := by rw [List.map_map]; rfl
  rw [this]
  apply List.Nodup.map_on _ h.2
  intro a ha b hb hab
  obtain ⟨p, hp, rfl⟩ := List.mem_map.mp ha
  obtain ⟨q, hq, rfl⟩ := List.mem_map.mp hb
  obtain ⟨⟨n, hn⟩, _⟩ := h.1 p hp
  obtain ⟨⟨m, hm⟩, _⟩ := h.1 q hq
  rw [hn, hm] at hab ⊢
  have h1 := intOf_showNat n
  have h2 := intOf_showNat m
  simp only [keyText] at hab
  rw [hab, h2] at h1
  rw [Except.ok.inj h1]

/-- One dictionary through JSON and the constructor. -/
theorem json_convert {α : Type} (nd : Bool) (f : α → Except Err α) (d : SizeDict α) (h : Normal d) (hf : ∀ p ∈ d, ∀ x ∈ p.2.rows, f x = .ok x) :
    ∃ d', jsonDict nd f d = .ok d' ∧ convert d' = .ok d := by
  have h1 : (d.mapM fun p : Key × Arr α => (p.2.rows.mapM f).map fun rows => (keyText p.1, (⟨p.2.nd && nd, rows⟩ : Arr α)))
      = .ok (d.map fun p => (keyText p.1, (⟨p.2.nd && nd, p.2.rows⟩ : Arr α))) := by
    apply mapM_eq_map
    intro p hp
    rw [mapM_eq_map f id p.2.rows (fun x hx => hf p hp x hx), List.map_id]
    rfl
  have h2 : dictOf (d.map fun p => (keyText p.1, (⟨p.2.nd && nd, p.2.rows⟩ : Arr α)))
      = d.map fun p => (keyText p.1, (⟨p.2.nd && nd, p.2.rows⟩ : Arr α)) := by
    apply dictOf_eq_self
    rw [List.map_map]
    exact keyText_inj d h
  refine ⟨_, by unfold jsonDict; rw [h1]; exact congrArg Except.ok h2, ?_⟩
  cases d with
  | nil => rfl
  | cons a t =>
    have hc : ((a :: t).map fun p => (keyText p.1, (⟨p.2.nd && nd, p.2.rows⟩ : Arr α))).mapM convPair = .ok (a :: t) := by
      rw [mapM_map]
      rw [mapM_eq_map _ id _ ?_, List.map_id]
      intro p hp
      obtain ⟨⟨n, hn⟩, hnd⟩ := h.1 p hp
      obtain ⟨k, r⟩ := p
      simp only at hn hnd
      subst hn
      unfold convPair
      simp only [keyText]
      rw [intOf_showNat]
      obtain ⟨b, rows⟩ := r
      simp only at hnd
      subst hnd
      rfl
    unfold convert
    rw [if_pos, hc]
    · exact congrArg Except.ok (dictOf_eq_self _ h.2)
    · obtain ⟨⟨n, hn⟩, _⟩ := h.1 a List.mem_cons_self
      rw [List.map_cons, List.all_cons, hn]
      simp [keyText, isInt]

theorem muOf_ok (el : String → Except Err ε) (s : State η δ ε) (h : Sound el s) : muOf el s.openElem s.chempot = .ok s.mu := by
  obtain ⟨_, _, _, ⟨h1 | h1, h2⟩ | ⟨e, h1 | ⟨t, ht, h1, h3⟩, h2⟩⟩ := h
  · rw [h1, h2]; rfl
  · rw [h1, h2]; rfl
  · rw [h1, h2]; rfl
  · rw [h1, h2]
    simp only [muOf, truthy]
    rw [if_neg ht]
    simp only [elemOf]
    rw [h3]
    rfl

theorem init_ok (el : String → Except Err ε) (s : State η δ ε) (h : Sound el s) (i : SizeDict (List ℕ)) (c : SizeDict (List ℚ)) (d : SizeDict δ)
    (hi : convert i = .ok s.indices) (hc : convert c = .ok s.coeffs) (hd : convert d = .ok s.data) :
    init el s.entries i c s.openElem s.chempot (some d) = .ok s := by
  unfold init
  simp only [givenData, hi, hc, hd, muOf_ok el s h, bind, Except.bind, pure, Except.pure]

/-! ### C126 -/

/-- Whatever dictionaries a set is made from, with integer or text sizes, arrays or lists, its attributes have integer sizes, each once, with arrays; and
the open element is understood or the constructor raises. -/
theorem C126_constructed (el : String → Except Err ε) (es : List η) (i : SizeDict (List ℕ)) (c : SizeDict (List ℚ)) (o : Option (OpenElem ε)) (m : ℚ)
    (d : Option (SizeDict δ)) (hi : (i.map Prod.fst).Nodup) (hc : (c.map Prod.fst).Nodup) (hd : ∀ x, d = some x → (x.map Prod.fst).Nodup)
    (s : State η δ ε) (h : init el es i c o m d = .ok s) : Sound el s ∧ s.entries = es ∧ s.openElem = o ∧ s.chempot = m := by
  unfold init at h
  rw [bind_ok] at h
  obtain ⟨d0, hd0, h⟩ := h
  rw [bind_ok] at h
  obtain ⟨i', hi', h⟩ := h
  rw [bind_ok] at h
  obtain ⟨c', hc', h⟩ := h
  rw [bind_ok] at h
  obtain ⟨d', hd', h⟩ := h
  rw [bind_ok] at h
  obtain ⟨mu, hmu, h⟩ := h
  have := Except.ok.inj h
  subst this
  have hn : (d0.map Prod.fst).Nodup := by
    cases d with
    | some x => rw [← Except.ok.inj hd0]; exact hd x rfl
    | none =>
      simp only [givenData, noData] at hd0
      rw [map_ok] at hd0
      obtain ⟨l, _, rfl⟩ := hd0
      exact nodup_dictOf l
  refine ⟨⟨convert_ok i i' hi hi', convert_ok c c' hc hc', convert_ok d0 d' hn hd', ?_⟩, rfl, rfl, rfl⟩
  simp only
  unfold muOf at hmu
  rcases o with _ | ⟨t⟩ | ⟨e⟩
  · left
    exact ⟨Or.inl rfl, (Except.ok.inj hmu).symm⟩
  · by_cases ht : t = ""
    · left
      subst ht
      exact ⟨Or.inr rfl, (Except.ok.inj hmu).symm⟩
    · right
      simp only [truthy] at hmu
      rw [if_neg ht] at hmu
      simp only [elemOf] at hmu
      rw [map_ok] at hmu
      obtain ⟨e, he, rfl⟩ := hmu
      exact ⟨e, Or.inr ⟨t, ht, rfl, he⟩, rfl⟩
  · right
    exact ⟨e, Or.inl rfl, (Except.ok.inj hmu).symm⟩

/-- Saving a set and loading it again, in memory or through JSON with or without arrays, gives the same set. -/
theorem C126_reload (C : Codec η δ S) (el : String → Except Err ε) (via : Via) (s : State η δ ε) (h : Sound el s) (hs : Survives C s) :
    reload C el via s = .ok s := by
  obtain ⟨hi, hc, hd, _⟩ := id h
  obtain ⟨ws, hw, hb⟩ : ∃ ws, s.entries.mapM C.out = .ok ws ∧ ws.mapM C.back = .ok s.entries := by
    obtain ⟨he, _⟩ := hs
    generalize s.entries = l at he
    induction l with
    | nil => exact ⟨[], rfl, rfl⟩
    | cons a t ih =>
      obtain ⟨w, h1, h2⟩ := he a List.mem_cons_self
      obtain ⟨ws, h3, h4⟩ := ih (fun e he' => he e (List.mem_cons_of_mem _ he'))
      refine ⟨w :: ws, ?_, ?_⟩
      · rw [mapM_cons, h1, h3]
      · rw [mapM_cons, h2, h4]
  unfold reload asDict
  rw [hw]
  simp only [Except.map, bind, Except.bind]
  have key : ∀ nd : Bool, ∃ i c d, jsonDict nd .ok s.indices = .ok i ∧ jsonDict nd .ok s.coeffs = .ok c ∧ jsonDict nd C.json s.data = .ok d ∧
      convert i = .ok s.indices ∧ convert c = .ok s.coeffs ∧ convert d = .ok s.data := by
    intro nd
    obtain ⟨i, hi1, hi2⟩ := json_convert nd .ok s.indices hi (fun _ _ _ _ => rfl)
    obtain ⟨c, hc1, hc2⟩ := json_convert nd .ok s.coeffs hc (fun _ _ _ _ => rfl)
    obtain ⟨d, hd1, hd2⟩ := json_convert nd C.json s.data hd hs.2
    exact ⟨i, c, d, hi1, hc1, hd1, hi2, hc2, hd2⟩
  have fin : ∀ i c d, convert i = .ok s.indices → convert c = .ok s.coeffs → convert d = .ok s.data →
      fromDict C el ⟨ws, i, c, d, s.openElem, s.chempot⟩ = .ok s := by
    intro i c d h1 h2 h3
    unfold fromDict
    simp only [hb, bind, Except.bind]
    exact init_ok el s h i c d h1 h2 h3
  cases via with
  | memory =>
    simp only [transport]
    exact fin _ _ _ (convert_normal _ hi) (convert_normal _ hc) (convert_normal _ hd)
  | monty =>
    obtain ⟨i, c, d, h1, h2, h3, h4, h5, h6⟩ := key true
    simp only [transport, decide_true, h1, h2, h3, bind, Except.bind, pure, Except.pure]
    exact fin i c d h4 h5 h6
  | plain =>
    obtain ⟨i, c, d, h1, h2, h3, h4, h5, h6⟩ := key false
    have : decide (Via.plain = Via.monty) = false := rfl
    simp only [transport, this, h1, h2, h3, bind, Except.bind, pure, Except.pure]
    exact fin i c d h4 h5 h6

/-! Sets made from reactions. -/

theorem normal_arrays {α : Type} (d : List (ℕ × List α)) (h : (d.map Prod.fst).Nodup) : Normal (arrays d) := by
  unfold arrays
  constructor
  · intro p hp
    obtain ⟨q, _, rfl⟩ := List.mem_map.mp hp
    exact ⟨⟨q.1, rfl⟩, rfl⟩
  · rw [List.map_map]
    have : (Prod.fst ∘ fun p : ℕ × List α => (Key.int p.1, (⟨true, p.2⟩ : Arr α))) = Key.int ∘ Prod.fst := rfl
    rw [this, ← List.map_map]
    exact h.map (fun a b hab => by injection hab)

theorem plainDict_arrays {α : Type} (d : List (ℕ × List α)) : plainDict (arrays d) = .ok d := by
  unfold plainDict arrays
  rw [mapM_map]
  refine (mapM_eq_map _ id d (fun _ _ => rfl)).trans ?_
  rw [List.map_id]

theorem view_ofSet (s : RSet η δ ε) : view (ofSet s) = .ok s := by
  unfold view ofSet
  simp only [plainDict_arrays, bind, Except.bind, pure, Except.pure]
  obtain ⟨a, b, c, d, o, m⟩ := s
  cases o <;> rfl

theorem sound_ofSet (el : String → Except Err ε) (s : RSet η δ ε) (hi : (s.indices.map Prod.fst).Nodup) (hc : (s.coeffs.map Prod.fst).Nodup)
    (hd : (s.data.map Prod.fst).Nodup) : Sound el (ofSet s) := by
  refine ⟨normal_arrays _ hi, normal_arrays _ hc, normal_arrays _ hd, ?_⟩
  simp only [ofSet]
  cases s.openElem with
  | none => left; exact ⟨Or.inl rfl, rfl⟩
  | some e => right; exact ⟨e, Or.inl rfl, rfl⟩

theorem mem_dictAppend {α : Type} (d : List (ℕ × List α)) (k : ℕ) (v : α) (p : ℕ × List α) (hp : p ∈ dictAppend d k v) (x : α) (hx : x ∈ p.2) :
    x = v ∨ ∃ q ∈ d, x ∈ q.2 := by
  unfold dictAppend at hp
  split at hp
  · rename_i l hl
    rcases mem_dictSet d k _ p hp with rfl | h
    · rcases List.mem_append.mp hx with h | h
      · exact Or.inr ⟨(k, l), mem_of_dictGet d k l hl, h⟩
      · exact Or.inl (List.mem_singleton.mp h)
    · exact Or.inr ⟨p, h, hx⟩
  · rcases mem_dictSet d k _ p hp with rfl | h
    · exact Or.inl (List.mem_singleton.mp hx)
    · exact Or.inr ⟨p, h, hx⟩

theorem mem_foldl_dictAppend {α β : Type} (key : β → ℕ) (val : β → α) (l : List β) (d : List (ℕ × List α)) (p : ℕ × List α)
    (hp : p ∈ l.foldl (fun d b => dictAppend d (key b) (val b)) d) (x : α) (hx : x ∈ p.2) : (∃ b ∈ l, x = val b) ∨ ∃ q ∈ d, x ∈ q.2 := by
  induction l generalizing d with
  | nil => exact Or.inr ⟨p, hp, hx⟩
  | cons a t ih =>
    rcases ih _ hp with ⟨b, hb, h⟩ | ⟨q, hq, h⟩
    · exact Or.inl ⟨b, List.mem_cons_of_mem _ hb, h⟩
    · rcases mem_dictAppend d _ _ q hq x h with h | h
      · exact Or.inl ⟨a, List.mem_cons_self, h⟩
      · exact Or.inr h

/-- The three dictionaries of a set made from reactions have the same sizes, and its data are those of the reactions. -/
theorem fromRxns_dicts {υ : Type} [DecidableEq υ] (uid : η → υ) (so : List η → List η) (rxns : List (SRxn η δ ε)) (es : Option (List η)) (o : Option ε) (m : ℚ)
    (s : RSet η δ ε) (h : fromRxns uid so rxns es o m = .ok s) :
    s.coeffs.map Prod.fst = s.indices.map Prod.fst ∧ s.data.map Prod.fst = s.indices.map Prod.fst ∧
      ∀ p ∈ s.data, ∀ d ∈ p.2, ∃ r ∈ rxns, d = r.data := by
  unfold fromRxns at h
  simp only at h
  rw [bind_ok] at h
  obtain ⟨rows, _, h⟩ := h
  have := Except.ok.inj h
  subst this
  simp only [mk]
  refine ⟨by simp only [List.map_map]; rfl, by simp only [List.map_map]; rfl, ?_⟩
  intro p hp d hd
  obtain ⟨q, hq, rfl⟩ := List.mem_map.mp hp
  obtain ⟨t, ht, rfl⟩ := List.mem_map.mp hd
  rcases mem_foldl_dictAppend (fun p : List ℕ × SRxn η δ ε => p.2.entries.length) (fun p => (p.1, p.2.coeffs, p.2.data)) _ _ q hq t ht with ⟨b, hb, rfl⟩ | ⟨x, hx, _⟩
  · exact ⟨b.2, (List.of_mem_zip hb).2, rfl⟩
  · exact absurd hx (by simp)

/-- Reactions stored in a set, saved, loaded (in memory or through JSON) and read back are the same reactions, each once. -/
theorem C126_reactions {υ : Type} [DecidableEq υ] (C : Codec η δ S) (el : String → Except Err ε) (via : Via) (uid : η → υ) (so : List η → List η)
    (ho : Spec.RxnSet.SetOrder so) (rxns : List (SRxn η δ ε))
    (hinj : ∀ r ∈ rxns, ∀ a ∈ r.entries, ∀ r' ∈ rxns, ∀ b ∈ r'.entries, uid a = uid b → a = b) (m : ℚ)
    (mu : List (ε × ℚ)) (hmu : mu = [] ∨ ∃ e v, mu = [(e, v)]) (hall : ∀ r ∈ rxns, r.chempots = mu)
    (hent : ∀ r ∈ rxns, ∀ e ∈ r.entries, ∃ w, C.out e = .ok w ∧ C.back w = .ok e) (hdat : ∀ r ∈ rxns, C.json r.data = .ok r.data) :
    ∃ s s' out, fromRxns uid so rxns none none m = .ok s ∧ reload C el via (ofSet s) = .ok s' ∧ (view s' >>= getRxns) = .ok out ∧ out.Perm rxns := by
  obtain ⟨s, out, h1, h2, h3⟩ := Props.RxnSet.C20_chempots uid so ho rxns hinj m mu hmu hall
  obtain ⟨s0, _, h4, h5, h6, _⟩ := Lemmas.RxnSet.fromRxns_ok uid so ho rxns none none m
    (fun r hr e he => List.mem_flatMap.mpr ⟨r, hr, he⟩)
    (by
      intro a ha b hb
      obtain ⟨r, hr, ha⟩ := List.mem_flatMap.mp ha
      obtain ⟨r', hr', hb⟩ := List.mem_flatMap.mp hb
      exact hinj r hr a ha r' hr' b hb)
  rw [h1] at h4
  have := Except.ok.inj h4
  subst this
  obtain ⟨k1, k2, k3⟩ := fromRxns_dicts uid so rxns none none m s h1
  have hs : Sound el (ofSet s) := sound_ofSet el s h5.keys (by rw [k1]; exact h5.keys) (by rw [k2]; exact h5.keys)
  have hv : Survives C (ofSet s) := by
    constructor
    · intro e he
      have he' : e ∈ s.entries := he
      rw [h6] at he'
      obtain ⟨r, hr, h⟩ := List.mem_flatMap.mp (((ho _).2 e).mp he')
      exact hent r hr e h
    · intro p hp d hd
      obtain ⟨q, hq, rfl⟩ := List.mem_map.mp hp
      obtain ⟨r, hr, rfl⟩ := k3 q hq d hd
      exact hdat r hr
  refine ⟨s, ofSet s, out, h1, C126_reload C el via (ofSet s) hs hv, ?_, h3⟩
  rw [view_ofSet]
  exact h2

/-! Single reactions. -/

/-- A reaction saved on its own comes back complete, with its balancing errors and chemical potentials. -/
theorem C126_single (C : Codec η δ S) (symbol : ε → String) (el : String → Except Err ε) (hel : ∀ e, el (symbol e) = .ok e) (r : Rxn η δ ε)
    (hent : ∀ e ∈ r.entries, ∃ w, C.out e = .ok w ∧ C.back w = .ok e) (hpot : ∀ d, r.chempots = some d → (d.map Prod.fst).Nodup) :
    ∃ d d', rxnDict C symbol r = .ok d ∧ writable d = true ∧ rxnLoad C el d = .ok (r, d') := by
  obtain ⟨ws, hw, hb⟩ : ∃ ws, r.entries.mapM C.out = .ok ws ∧ ws.mapM C.back = .ok r.entries := by
    generalize r.entries = l at hent
    induction l with
    | nil => exact ⟨[], rfl, rfl⟩
    | cons a t ih =>
      obtain ⟨w, h1, h2⟩ := hent a List.mem_cons_self
      obtain ⟨ws, h3, h4⟩ := ih (fun e he' => hent e (List.mem_cons_of_mem _ he'))
      refine ⟨w :: ws, ?_, ?_⟩
      · rw [mapM_cons, h1, h3]
      · rw [mapM_cons, h2, h4]
  obtain ⟨es, cs, da, er, ch⟩ := r
  simp only at hw hb hpot
  cases ch with
  | none =>
    refine ⟨⟨ws, cs, da, er, none⟩, ⟨ws, cs, da, er, none⟩, ?_, rfl, ?_⟩
    · simp only [rxnDict, hw, bind, Except.bind, pure, Except.pure, Option.map]
    · simp only [rxnLoad, baseLoad, decodePots, hb, bind, Except.bind, pure, Except.pure, Except.map]
  | some l =>
    have hl := hpot l rfl
    have hinj : Function.Injective symbol := by
      intro a b hab
      have := hel a
      rw [hab, hel b] at this
      exact (Except.ok.inj this).symm
    have h1 : dictOf (l.map fun p => (CKey.sym (ε := ε) (symbol p.1), p.2)) = l.map fun p => (CKey.sym (symbol p.1), p.2) := by
      apply dictOf_eq_self
      rw [List.map_map]
      have : (Prod.fst ∘ fun p : ε × ℚ => (CKey.sym (ε := ε) (symbol p.1), p.2)) = (fun e => CKey.sym (symbol e)) ∘ Prod.fst := rfl
      rw [this, ← List.map_map]
      exact hl.map (fun a b hab => hinj (by injection hab))
    refine ⟨⟨ws, cs, da, er, some (l.map fun p => (CKey.sym (symbol p.1), p.2))⟩, ⟨ws, cs, da, er, some (l.map fun p => (CKey.elem p.1, p.2))⟩, ?_, ?_, ?_⟩
    · simp only [rxnDict, hw, bind, Except.bind, pure, Except.pure, Option.map, h1]
    · simp only [writable, List.all_map, List.all_eq_true]
      intro p _
      rfl
    · have h2 : ((l.map fun p => (CKey.sym (ε := ε) (symbol p.1), p.2)).mapM fun p => (ckeyElem el p.1).map fun e => (e, p.2)) = .ok l := by
        rw [mapM_map, mapM_eq_map _ id _ ?_, List.map_id]
        intro p _
        simp only [ckeyElem, hel]
        rfl
      have h3 : ((l.map fun p => (CKey.elem (ε := ε) p.1, p.2)).mapM fun p => (ckeyElem el p.1).map fun e => (e, p.2)) = .ok l := by
        rw [mapM_map, mapM_eq_map _ id _ ?_, List.map_id]
        intro p _
        rfl
      simp only [rxnLoad, openDict, baseLoad, decodePots, hb, h2, h3, dictOf_eq_self l hl, bind_val, map_val]
      rfl

/-- Loading twice from the same dictionary gives the same reaction, although the first load changed it. -/
theorem C126_twice (C : Codec η δ S) (el : String → Except Err ε) (d d' : SavedRxn S δ ε) (r : Rxn η δ ε) (h : rxnLoad C el d = .ok (r, d')) :
    rxnLoad C el d' = .ok (r, d') := by
  obtain ⟨es, cs, da, er, ch⟩ := d
  cases ch with
  | none =>
    simp only [rxnLoad] at h
    rw [map_ok] at h
    obtain ⟨r', hr, he⟩ := h
    obtain ⟨rfl, rfl⟩ := Prod.mk.inj he
    simp only [rxnLoad, hr]
    rfl
  | some l =>
    simp only [rxnLoad] at h
    rw [bind_ok] at h
    obtain ⟨d1, hd1, h⟩ := h
    rw [bind_ok] at h
    obtain ⟨r', hr, h⟩ := h
    obtain ⟨rfl, rfl⟩ := Prod.mk.inj (Except.ok.inj h)
    simp only [openDict] at hd1
    rw [map_ok] at hd1
    obtain ⟨l', _, rfl⟩ := hd1
    have h3 : (((dictOf l').map fun p => (CKey.elem (ε := ε) p.1, p.2)).mapM fun p => (ckeyElem el p.1).map fun e => (e, p.2)) = .ok (dictOf l') := by
      rw [mapM_map, mapM_eq_map _ id _ ?_, List.map_id]
      intro p _
      rfl
    simp only [rxnLoad, openDict, h3, map_val, bind_val, hr, dictOf_eq_self _ (nodup_dictOf l')]
    rfl

/-! Where it fails, and concrete cases. -/

/-- Elements by symbol. -/
def exEl (s : String) : Except Err ℕ := if s = "O" then .ok 8 else if s = "H" then .ok 1 else .error .valueError

/-- Symbols of elements. -/
def exSymbol (n : ℕ) : String := if n = 8 then "O" else "H"

/-- Entries are numbers and are written as numbers. -/
def exCodec : Codec ℕ ℕ ℕ := ⟨.ok, .ok, .ok⟩

/-- An open reaction that was balanced with one error. -/
def exOpen : Rxn ℕ ℕ ℕ := ⟨[1, 2], [-1, 1], 7, 1, some [(8, -3)]⟩

/-- Loading a reaction changes the dictionary it is loaded from: a dictionary that could be written as JSON no longer can. -/
theorem C126_argument_violated : ∃ d d', rxnDict exCodec exSymbol exOpen = .ok d ∧ rxnLoad exCodec exEl d = .ok (exOpen, d') ∧
    writable d = true ∧ writable d' = false := by
  refine ⟨⟨[1, 2], [-1, 1], 7, 1, some [(.sym "O", -3)]⟩, ⟨[1, 2], [-1, 1], 7, 1, some [(.elem 8, -3)]⟩, ?_, ?_, ?_, ?_⟩ <;> decide +kernel

/-- A reaction that comes back from a set has no balancing errors, whatever it had; nothing else is lost. -/
theorem C126_errors (r : Rxn η δ ε) (h : r.chempots ≠ some []) : rebuild (forget r) = { r with errors := 0 } := by
  obtain ⟨es, cs, da, er, ch⟩ := r
  cases ch with
  | none => simp [rebuild, forget]
  | some l =>
    have : l ≠ [] := fun hl => h (by rw [hl])
    simp [rebuild, forget, this]

/-- So a reaction that the balancing had reported as doubtful is no longer doubtful after the set is saved and loaded. -/
theorem C126_errors_violated : (fromRxns id List.dedup [forget exOpen] none none 0 >>= fun s => reload exCodec exEl .plain (ofSet s) >>= view >>= getRxns)
      = .ok [forget exOpen] ∧ rebuild (forget exOpen) ≠ exOpen ∧ exOpen.errors = 1 ∧ (rebuild (forget exOpen)).errors = 0 := by
  decide +kernel

/-- a set with two sizes, as plain JSON would hand it to the constructor -/
def exState : State ℕ ℕ ℕ := ⟨[1, 2, 3], [(.int 2, ⟨true, [[0, 1], [1, 2]]⟩), (.int 3, ⟨true, [[0, 1, 2]]⟩)],
  [(.int 2, ⟨true, [[-1, 1], [-1, 2]]⟩), (.int 3, ⟨true, [[-1, -1, 1]]⟩)], [(.int 2, ⟨true, [7, 5]⟩), (.int 3, ⟨true, [9]⟩)], some (.str "O"), -3, some (8, -3)⟩

example : init exEl [1, 2, 3] [(.text ['2'], ⟨false, [[0, 1], [1, 2]]⟩), (.text ['3'], ⟨false, [[0, 1, 2]]⟩)]
    [(.text ['2'], ⟨false, [[-1, 1], [-1, 2]]⟩), (.text ['3'], ⟨false, [[-1, -1, 1]]⟩)] (some (.str "O")) (-3)
    (some [(.text ['2'], ⟨false, [7, 5]⟩), (.text ['3'], ⟨false, [9]⟩)]) = .ok exState := by decide +kernel
example : reload exCodec exEl .plain exState = .ok exState ∧ reload exCodec exEl .monty exState = .ok exState := by decide +kernel
example : Sound exEl exState ∧ Survives exCodec exState := by
  refine ⟨(C126_constructed exEl [1, 2, 3] exState.indices exState.coeffs (some (.str "O")) (-3) (some exState.data) (by decide) (by decide)
    (by intro x hx; rw [← Option.some.inj hx]; decide) exState (by decide +kernel)).1, ⟨fun e _ => ⟨e, rfl, rfl⟩, fun _ _ _ _ => rfl⟩⟩
-- sizes that are no numbers, and open elements that do not exist, are refused
example : init (δ := ℕ) exEl [1] [(.text ['a'], ⟨false, [[0]]⟩)] [] none 0 none = .error .valueError := by decide +kernel
example : init (δ := ℕ) exEl [1] [] [] (some (.str "Xx")) 0 none = .error .valueError := by decide +kernel
example : rxnLoad exCodec exEl ⟨[1, 2], [-1, 1], 7, 1, some [(.sym "O", -3)]⟩ = .ok (exOpen, ⟨[1, 2], [-1, 1], 7, 1, some [(.elem 8, -3)]⟩) := by decide +kernel
example : exOpen.chempots ≠ some [] := by decide

end Verif.Props.SetDict
