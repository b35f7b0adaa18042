import Verif.Model.SetOps
import Verif.Props.EntryFlow
import Mathlib.Data.Finset.SymmDiff
import Mathlib.Data.Finset.Dedup
import Mathlib.Order.SymmDiff

/-! Property C129: copies, combinations, settings and saving of entry sets. -/

namespace Verif.Props.SetOps
open Verif.Py Verif.Model
open Verif.Model.Entries (insertE Gibbs sisso)
open Verif.Model.EntryFlow Verif.Model.SetOps Verif.Lemmas
open Verif.Props.EntrySet (mem_insertE nodup_insertE)
open Verif.Props.EntryFlow (mem_foldl_insertE nodup_foldl_insertE)

set_option linter.unusedSectionVars false

variable {η : Type} [DecidableEq η]

/-! ### Specification: independent mathematical sets -/

/-- What an operation should do to a list of independent sets. -/
def meaning (st : List (Finset η)) : Call η → List (Finset η)
  | .copy h => st ++ (st[h]?).toList
  | .union h k => st ++ ((st[h]?).bind fun a => (st[k]?).map fun b => a ∪ b).toList
  | .inter h k => st ++ ((st[h]?).bind fun a => (st[k]?).map fun b => a ∩ b).toList
  | .diff h k => st ++ ((st[h]?).bind fun a => (st[k]?).map fun b => a \ b).toList
  | .xor h k => st ++ ((st[h]?).bind fun a => (st[k]?).map fun b => symmDiff a b).toList
  | .add h e => st.modify h fun a => insert e a
  | .discard h e => st.modify h fun a => a.erase e
  | .iunion h k => st.modify h fun a => a ∪ (st[k]?).getD ∅
  | .iinter h k => st.modify h fun a => ((st[k]?).map fun b => a ∩ b).getD a
  | .idiff h k => st.modify h fun a => a \ (st[k]?).getD ∅
  | .ixor h k => st.modify h fun a => symmDiff a ((st[k]?).getD ∅)

/-- The object an operation may change. -/
def changes : Call η → Option ℕ
  | .add h _ | .discard h _ | .iunion h _ | .iinter h _ | .idiff h _ | .ixor h _ => some h
  | _ => none

/-- Python sets never hold a member twice. -/
def Valid (st : List (SetObj η)) : Prop := ∀ a ∈ st, a.members.Nodup

/-- The contents of the objects. -/
def contents (st : List (SetObj η)) : List (Finset η) := st.map fun a => a.members.toFinset

/-! ### Helper lemmas -/

theorem mem_new (l : List η) (x : η) : x ∈ (SetObj.new l).members ↔ x ∈ l := by
  unfold SetObj.new; rw [mem_foldl_insertE]; simp

theorem nodup_new (l : List η) : (SetObj.new l).members.Nodup := nodup_foldl_insertE _ _ List.nodup_nil

theorem add_members (a : SetObj η) (e x : η) : x ∈ (a.add e).members ↔ x = e ∨ x ∈ a.members := mem_insertE _ _ _

theorem discard_members (a : SetObj η) (h : a.members.Nodup) (e x : η) : x ∈ (a.discard e).members ↔ x ≠ e ∧ x ∈ a.members :=
  h.mem_erase_iff

theorem add_valid (a : SetObj η) (e : η) (h : a.members.Nodup) : (a.add e).members.Nodup := nodup_insertE _ _ h

theorem discard_valid (a : SetObj η) (e : η) (h : a.members.Nodup) : (a.discard e).members.Nodup := h.erase e

theorem toggle_valid (a : SetObj η) (e : η) (h : a.members.Nodup) : (a.toggle e).members.Nodup := by
  unfold SetObj.toggle; split_ifs
  · exact discard_valid a e h
  · exact add_valid a e h

theorem foldl_add (l : List η) : ∀ (a : SetObj η), a.members.Nodup → (l.foldl SetObj.add a).members.Nodup ∧
    ∀ x, x ∈ (l.foldl SetObj.add a).members ↔ x ∈ a.members ∨ x ∈ l := by
  induction l with
  | nil => exact fun a h => ⟨h, by simp⟩
  | cons e l ih =>
    intro a h
    obtain ⟨h1, h2⟩ := ih (a.add e) (add_valid a e h)
    refine ⟨h1, fun x => ?_⟩
    rw [List.foldl_cons, h2, add_members, List.mem_cons]; tauto

theorem foldl_discard (l : List η) : ∀ (a : SetObj η), a.members.Nodup → (l.foldl SetObj.discard a).members.Nodup ∧
    ∀ x, x ∈ (l.foldl SetObj.discard a).members ↔ x ∈ a.members ∧ x ∉ l := by
  induction l with
  | nil => exact fun a h => ⟨h, by simp⟩
  | cons e l ih =>
    intro a h
    obtain ⟨h1, h2⟩ := ih (a.discard e) (discard_valid a e h)
    refine ⟨h1, fun x => ?_⟩
    rw [List.foldl_cons, h2, discard_members a h, List.mem_cons]; tauto

theorem foldl_toggle (l : List η) : ∀ (a : SetObj η), a.members.Nodup → l.Nodup → (l.foldl SetObj.toggle a).members.Nodup ∧
    ∀ x, x ∈ (l.foldl SetObj.toggle a).members ↔ (x ∈ a.members ∧ x ∉ l) ∨ (x ∈ l ∧ x ∉ a.members) := by
  induction l with
  | nil => exact fun a h _ => ⟨h, by simp⟩
  | cons e l ih =>
    intro a h hl
    obtain ⟨he, hl⟩ := List.nodup_cons.mp hl
    obtain ⟨h1, h2⟩ := ih (a.toggle e) (toggle_valid a e h) hl
    refine ⟨h1, fun x => ?_⟩
    have ht : x ∈ (a.toggle e).members ↔ if x = e then e ∉ a.members else x ∈ a.members := by
      unfold SetObj.toggle
      by_cases hx : x = e
      · subst hx
        by_cases hm : x ∈ a.members
        · simp [hm, discard_members a h]
        · simp [hm, add_members]
      · split_ifs with hm
        · simp [discard_members a h, hx]
        · simp [add_members, hx]
    rw [List.foldl_cons, h2, ht, List.mem_cons]
    by_cases hx : x = e
    · subst hx; simp [he]
    · simp [hx]

theorem clear_members (a : SetObj η) : a.clear.members = [] := by
  have : ∀ l : List η, l.foldl (fun l e => l.erase e) l = [] := by
    intro l
    induction l with
    | nil => rfl
    | cons e l ih => simpa using ih
  exact this _

/-- What each operation does to the contents of one new or changed object. -/
structure Good (f : SetObj η → SetObj η → SetObj η) (g : Finset η → Finset η → Finset η) : Prop where
  nodup : ∀ a b, a.members.Nodup → b.members.Nodup → (f a b).members.Nodup
  sem : ∀ a b, a.members.Nodup → b.members.Nodup → (f a b).members.toFinset = g a.members.toFinset b.members.toFinset

theorem good_copy : Good (η := η) (fun a _ => a.copy) (fun a _ => a) :=
  ⟨fun a _ _ _ => nodup_new _, fun a _ _ _ => by ext x; simp [SetObj.copy, mem_new]⟩

theorem good_union : Good (η := η) SetObj.union (· ∪ ·) :=
  ⟨fun a _ _ _ => nodup_new _, fun a _ _ _ => by ext x; simp [SetObj.union, mem_new]⟩

theorem good_inter : Good (η := η) SetObj.inter (· ∩ ·) :=
  ⟨fun a _ _ _ => nodup_new _, fun a _ _ _ => by ext x; simp [SetObj.inter, mem_new, and_comm]⟩

theorem good_diff : Good (η := η) SetObj.diff (· \ ·) :=
  ⟨fun a _ _ _ => nodup_new _, fun a _ _ _ => by ext x; simp [SetObj.diff, mem_new]⟩

theorem good_xor : Good (η := η) SetObj.xor symmDiff :=
  ⟨fun a _ _ _ => nodup_new _, fun a _ _ _ => by
    ext x; simp [SetObj.xor, SetObj.union, SetObj.diff, mem_new, Finset.mem_symmDiff]⟩

theorem good_add (e : η) : Good (η := η) (fun a _ => a.add e) (fun a _ => insert e a) :=
  ⟨fun a _ h _ => add_valid a e h, fun a _ _ _ => by ext x; simp [add_members]⟩

theorem good_discard (e : η) : Good (η := η) (fun a _ => a.discard e) (fun a _ => a.erase e) :=
  ⟨fun a _ h _ => discard_valid a e h, fun a _ h _ => by ext x; simp [discard_members a h]⟩

theorem good_iunion : Good (η := η) SetObj.iunion (· ∪ ·) :=
  ⟨fun a b h _ => (foldl_add b.members a h).1, fun a b h _ => by ext x; simp [SetObj.iunion, (foldl_add b.members a h).2]⟩

theorem good_iinter : Good (η := η) SetObj.iinter (· ∩ ·) :=
  ⟨fun a b h _ => (foldl_discard _ a h).1, fun a b h _ => by
    ext x; simp only [SetObj.iinter, List.mem_toFinset, (foldl_discard _ a h).2, SetObj.diff, mem_new]; simp; tauto⟩

/-- Position `h` holds an object, and so does `k`. -/
theorem made_contents {f : SetObj η → SetObj η → SetObj η} {g : Finset η → Finset η → Finset η} (hf : Good f g)
    (st : List (SetObj η)) (hv : Valid st) (h k : ℕ) : Valid (made st h k f) ∧ contents (made st h k f) =
      contents st ++ (((contents st)[h]?).bind fun a => ((contents st)[k]?).map fun b => g a b).toList := by
  unfold made
  simp only [contents, List.getElem?_map]
  cases ha : st[h]? with
  | none => simp [hv]
  | some a =>
    cases hb : st[k]? with
    | none => simp [hv]
    | some b =>
      have va := hv a (List.mem_of_getElem? ha)
      have vb := hv b (List.mem_of_getElem? hb)
      refine ⟨fun c hc => ?_, by simp [hf.sem a b va vb]⟩
      rcases List.mem_append.mp hc with hc | hc
      · exact hv c hc
      · rw [List.mem_singleton.mp hc]; exact hf.nodup a b va vb

theorem changed_contents {f : SetObj η → SetObj η → SetObj η} {g : Finset η → Finset η → Finset η} {h k : ℕ}
    (st : List (SetObj η)) (hv : Valid st)
    (hf : ∀ a b, st[h]? = some a → st[k]? = some b → a.members.Nodup → b.members.Nodup → (f a b).members.Nodup ∧
      (f a b).members.toFinset = g a.members.toFinset b.members.toFinset) :
    Valid (changed st h k f) ∧ contents (changed st h k f) =
      (contents st).modify h fun a => (((contents st)[k]?).map fun b => g a b).getD a := by
  unfold changed
  simp only [contents, List.getElem?_map]
  cases ha : st[h]? with
  | none =>
    refine ⟨hv, ?_⟩
    symm; apply List.modify_eq_self
    have := List.getElem?_eq_none_iff.mp ha
    simpa using this
  | some a =>
    cases hb : st[k]? with
    | none => simpa using ⟨hv, (List.modify_id h _).symm⟩
    | some b =>
      have va := hv a (List.mem_of_getElem? ha)
      have vb := hv b (List.mem_of_getElem? hb)
      obtain ⟨n, s⟩ := hf a b ha hb va vb
      refine ⟨fun c hc => ?_, ?_⟩
      · rcases List.mem_or_eq_of_mem_set hc with hc | rfl
        · exact hv c hc
        · exact n
      · apply List.ext_getElem?; intro i
        simp only [List.getElem?_map, List.getElem?_set, List.getElem?_modify, Option.map_some, Option.getD_some]
        obtain ⟨hlt, rfl⟩ := List.getElem?_eq_some_iff.mp ha
        by_cases hi : h = i
        · subst hi; simp [hlt, s]
        · simp [hi]

theorem step_spec (st : List (SetObj η)) (hv : Valid st) (o : Call η) :
    Valid (step st o) ∧ contents (step st o) = meaning (contents st) o := by
  cases o with
  | copy h =>
    refine ⟨(made_contents good_copy st hv h h).1, (made_contents good_copy st hv h h).2.trans ?_⟩
    simp only [meaning]; cases (contents st)[h]? <;> rfl
  | union h k => exact made_contents good_union st hv h k
  | inter h k => exact made_contents good_inter st hv h k
  | diff h k => exact made_contents good_diff st hv h k
  | xor h k => exact made_contents good_xor st hv h k
  | add h e =>
    have := changed_contents (h := h) (k := h) (f := fun a _ => a.add e) (g := fun a _ => insert e a) st hv
      fun a b _ _ va vb => ⟨(good_add e).nodup a b va vb, (good_add e).sem a b va vb⟩
    refine ⟨this.1, this.2.trans ?_⟩
    simp only [meaning]
    apply List.ext_getElem?; intro i
    simp only [List.getElem?_modify]
    by_cases hi : h = i
    · subst hi; cases (contents st)[h]? <;> simp
    · simp [hi]
  | discard h e =>
    have := changed_contents (h := h) (k := h) (f := fun a _ => a.discard e) (g := fun a _ => a.erase e) st hv
      fun a b _ _ va vb => ⟨(good_discard e).nodup a b va vb, (good_discard e).sem a b va vb⟩
    refine ⟨this.1, this.2.trans ?_⟩
    simp only [meaning]
    apply List.ext_getElem?; intro i
    simp only [List.getElem?_modify]
    by_cases hi : h = i
    · subst hi; cases (contents st)[h]? <;> simp
    · simp [hi]
  | iunion h k =>
    have := changed_contents (h := h) (k := k) (f := SetObj.iunion) (g := (· ∪ ·)) st hv
      fun a b _ _ va vb => ⟨good_iunion.nodup a b va vb, good_iunion.sem a b va vb⟩
    refine ⟨this.1, this.2.trans ?_⟩
    simp only [meaning]; congr 1; funext a
    cases (contents st)[k]? <;> simp
  | iinter h k =>
    exact changed_contents (h := h) (k := k) (f := SetObj.iinter) (g := (· ∩ ·)) st hv
      fun a b _ _ va vb => ⟨good_iinter.nodup a b va vb, good_iinter.sem a b va vb⟩
  | idiff h k =>
    have := changed_contents (h := h) (k := k) (f := SetObj.idiff (h == k)) (g := (· \ ·)) st hv (by
      intro a b ha hb va vb
      unfold SetObj.idiff
      split_ifs with hk
      · have : h = k := by simpa using hk
        subst this; cases ha.symm.trans hb
        simp [clear_members]
      · exact ⟨(foldl_discard b.members a va).1, by ext x; simp [(foldl_discard b.members a va).2]⟩)
    refine ⟨this.1, this.2.trans ?_⟩
    simp only [meaning]; congr 1; funext a
    cases (contents st)[k]? <;> simp
  | ixor h k =>
    have := changed_contents (h := h) (k := k) (f := SetObj.ixor (h == k)) (g := symmDiff) st hv (by
      intro a b ha hb va vb
      unfold SetObj.ixor
      split_ifs with hk
      · have : h = k := by simpa using hk
        subst this; cases ha.symm.trans hb
        simp [clear_members]
      · exact ⟨(foldl_toggle b.members a va vb).1, by ext x; simp [(foldl_toggle b.members a va vb).2, Finset.mem_symmDiff]⟩)
    refine ⟨this.1, this.2.trans ?_⟩
    simp only [meaning]; congr 1; funext a
    cases (contents st)[k]?
    · exact (symmDiff_bot a).symm
    · simp

/-! ### The property -/

/-- **C129**: after any history of copies, unions, intersections, differences and in-place changes, every entry set object holds exactly what
independent mathematical sets would hold, and no member twice. -/
theorem C129_contents (st : List (SetObj η)) (hv : Valid st) (ops : List (Call η)) :
    Valid (run st ops) ∧ contents (run st ops) = ops.foldl meaning (contents st) := by
  induction ops generalizing st with
  | nil => exact ⟨hv, rfl⟩
  | cons o ops ih =>
    obtain ⟨h1, h2⟩ := step_spec st hv o
    have := ih (step st o) h1
    rw [h2] at this
    exact this

theorem step_prefix (st : List (SetObj η)) (o : Call η) (i : ℕ) (hi : i < st.length) (ho : changes o ≠ some i) :
    (step st o)[i]? = st[i]? := by
  have hm : ∀ h k (f : SetObj η → SetObj η → SetObj η), (made st h k f)[i]? = st[i]? := by
    intro h k f; unfold made
    cases st[h]? <;> cases st[k]? <;> simp [List.getElem?_append_left hi]
  have hc : ∀ h k (f : SetObj η → SetObj η → SetObj η), h ≠ i → (changed st h k f)[i]? = st[i]? := by
    intro h k f hne; unfold changed
    cases st[h]? <;> cases st[k]? <;> simp [hne]
  cases o with
  | add h e => exact hc h h _ fun e => ho (by rw [e]; rfl)
  | discard h e => exact hc h h _ fun e => ho (by rw [e]; rfl)
  | iunion h k => exact hc h k _ fun e => ho (by rw [e]; rfl)
  | iinter h k => exact hc h k _ fun e => ho (by rw [e]; rfl)
  | idiff h k => exact hc h k _ fun e => ho (by rw [e]; rfl)
  | ixor h k => exact hc h k _ fun e => ho (by rw [e]; rfl)
  | _ => exact hm _ _ _

theorem length_step (st : List (SetObj η)) (o : Call η) : st.length ≤ (step st o).length := by
  have hm : ∀ h k (f : SetObj η → SetObj η → SetObj η), st.length ≤ (made st h k f).length := by
    intro h k f; unfold made
    cases st[h]? <;> cases st[k]? <;> simp
  have hc : ∀ h k (f : SetObj η → SetObj η → SetObj η), st.length ≤ (changed st h k f).length := by
    intro h k f; unfold changed
    cases st[h]? <;> cases st[k]? <;> simp
  cases o <;> first | exact hm _ _ _ | exact hc _ _ _

/-- **C129**: an object changes only through its own in-place methods, never through a copy or a set made from it. -/
theorem C129_independent (st : List (SetObj η)) (ops : List (Call η)) (i : ℕ) (hi : i < st.length)
    (h : ∀ o ∈ ops, changes o ≠ some i) : (run st ops)[i]? = st[i]? := by
  induction ops generalizing st with
  | nil => rfl
  | cons o ops ih =>
    have h1 := ih (step st o) (lt_of_lt_of_le hi (length_step st o)) fun o' ho' => h o' (List.mem_cons_of_mem _ ho')
    exact h1.trans (step_prefix st o i hi (h o List.mem_cons_self))

/-- The settings of an object. -/
def settings (a : SetObj η) : Bool × Bool := (a.hulls, a.mini)

theorem foldl_settings (f : SetObj η → η → SetObj η) (hf : ∀ a e, settings (f a e) = settings a) (l : List η) :
    ∀ a, settings (l.foldl f a) = settings a := by
  induction l with
  | nil => exact fun a => rfl
  | cons e l ih => exact fun a => (ih _).trans (hf a e)

theorem toggle_settings (a : SetObj η) (e : η) : settings (a.toggle e) = settings a := by
  unfold SetObj.toggle; split_ifs <;> rfl

theorem step_settings (st : List (SetObj η)) (o : Call η) : ∃ extra : List (SetObj η), (∀ a ∈ extra, settings a = (false, false)) ∧
    (step st o).map settings = st.map settings ++ extra.map settings := by
  have hm : ∀ h k (f : SetObj η → SetObj η → SetObj η), (∀ a b, settings (f a b) = (false, false)) →
      ∃ extra : List (SetObj η), (∀ a ∈ extra, settings a = (false, false)) ∧
      (made st h k f).map settings = st.map settings ++ extra.map settings := by
    intro h k f hf; unfold made
    cases st[h]? with
    | none => exact ⟨[], by simp, by simp⟩
    | some a => cases st[k]? with
      | none => exact ⟨[], by simp, by simp⟩
      | some b => exact ⟨[f a b], by simp [hf], by simp⟩
  have hc : ∀ h k (f : SetObj η → SetObj η → SetObj η), (∀ a b, settings (f a b) = settings a) →
      ∃ extra : List (SetObj η), (∀ a ∈ extra, settings a = (false, false)) ∧
      (changed st h k f).map settings = st.map settings ++ extra.map settings := by
    intro h k f hf; refine ⟨[], by simp, ?_⟩
    unfold changed
    cases ha : st[h]? with
    | none => simp
    | some a => cases st[k]? with
      | none => simp
      | some b =>
        simp only [List.map_nil, List.append_nil]
        apply List.ext_getElem?; intro i
        simp only [List.getElem?_map, List.getElem?_set]
        obtain ⟨hlt, rfl⟩ := List.getElem?_eq_some_iff.mp ha
        by_cases hi : h = i
        · subst hi; simp [hlt, hf]
        · simp [hi]
  cases o with
  | copy h => exact hm _ _ _ fun _ _ => rfl
  | union h k => exact hm _ _ _ fun _ _ => rfl
  | inter h k => exact hm _ _ _ fun _ _ => rfl
  | diff h k => exact hm _ _ _ fun _ _ => rfl
  | xor h k => exact hm _ _ _ fun _ _ => rfl
  | add h e => exact hc _ _ _ fun _ _ => rfl
  | discard h e => exact hc _ _ _ fun _ _ => rfl
  | iunion h k => exact hc _ _ _ fun a b => foldl_settings SetObj.add (fun _ _ => rfl) _ a
  | iinter h k => exact hc _ _ _ fun a b => foldl_settings SetObj.discard (fun _ _ => rfl) _ a
  | idiff h k =>
    refine hc _ _ _ fun a b => ?_
    unfold SetObj.idiff; split_ifs
    · rfl
    · exact foldl_settings SetObj.discard (fun _ _ => rfl) _ a
  | ixor h k =>
    refine hc _ _ _ fun a b => ?_
    unfold SetObj.ixor; split_ifs
    · rfl
    · exact foldl_settings _ toggle_settings _ a

/-- **C129, partial**: no history of these calls changes the settings of an object that exists, but every object made by a copy or an operator
has both settings off, whatever the settings of the sets it was made from. A user expects a copy to have the settings of the original. -/
theorem C129_settings_partial (st : List (SetObj η)) (ops : List (Call η)) (i : ℕ) (a : SetObj η) (ha : (run st ops)[i]? = some a) :
    (∀ b, st[i]? = some b → settings a = settings b) ∧ (st[i]? = none → settings a = (false, false)) := by
  induction ops generalizing st with
  | nil =>
    change st[i]? = some a at ha
    rw [ha]; exact ⟨fun b hb => by cases hb; rfl, fun h => by cases h⟩
  | cons o ops ih =>
    obtain ⟨extra, he, hs⟩ := step_settings st o
    obtain ⟨h1, h2⟩ := ih (step st o) ha
    have hs' := congrArg (fun l : List (Bool × Bool) => l[i]?) hs
    simp only [List.getElem?_map, ← List.map_append] at hs'
    rcases Nat.lt_or_ge i st.length with hi | hi
    · rw [List.getElem?_append_left hi] at hs'
      refine ⟨fun b hb => ?_, fun h => absurd (List.getElem?_eq_none_iff.mp h) (by omega)⟩
      rw [hb] at hs'
      cases hc : (step st o)[i]? with
      | none => rw [hc] at hs'; cases hs'
      | some c => rw [hc] at hs'; rw [h1 c hc]; simpa using hs'
    · refine ⟨fun b hb => ?_, fun _ => ?_⟩
      · obtain ⟨hlt, -⟩ := List.getElem?_eq_some_iff.mp hb; omega
      · rw [List.getElem?_append_right hi] at hs'
        cases hc : (step st o)[i]? with
        | none => exact h2 hc
        | some c =>
          rw [hc] at hs'; rw [h1 c hc]
          cases hx : extra[i - st.length]? with
          | none => rw [hx] at hs'; cases hs'
          | some x =>
            rw [hx] at hs'
            have : settings c = settings x := by simpa using hs'
            rw [this]; exact he x (List.mem_of_getElem? hx)

/-! ### Temperatures and saving -/

section Settings
variable {κ ε φ : Type} [DecidableEq κ] [DecidableEq ε] [DecidableEq φ]

/-- The hull distance stored in an entry. -/
def stored : Ent κ → Option ℚ
  | .gibbs e => e.ehull
  | _ => none

/-- A Gibbs entry, the only kind whose stored distance is kept by the model. -/
def IsGibbs : Ent κ → Prop
  | .gibbs _ => True
  | _ => False

/-- Entries with the same data apart from the stored distance. -/
def SameButHull (a b : Ent κ) : Prop := a.resetHull = b.resetHull

theorem setHull_reset (h : ℚ) (e : Ent κ) : (e.setHull h).resetHull = e.resetHull := by cases e <;> rfl

theorem setHull_setHull (h h' : ℚ) (e : Ent κ) : (e.setHull h).setHull h' = e.setHull h' := by cases e <;> rfl

theorem setHull_of_reset (h : ℚ) (a b : Ent κ) (hab : SameButHull a b) : a.setHull h = b.setHull h := by
  unfold SameButHull at hab
  cases a with
  | gibbs x =>
    cases b with
    | gibbs y =>
      simp only [Ent.resetHull, Ent.gibbs.injEq, Entries.Gibbs.mk.injEq] at hab
      simp only [Ent.setHull, Ent.gibbs.injEq, Entries.Gibbs.mk.injEq]
      tauto
    | exper y => cases hab
    | interp c g m => cases hab
  | exper x => cases b <;> cases hab; rfl
  | interp c g m => cases b <;> cases hab; rfl

theorem mapM_forall {α β : Type} (f : α → Except Err β) : ∀ (l : List α) (r : List β), l.mapM f = .ok r → List.Forall₂ (fun a b => f a = .ok b) l r
  | [], r, h => by cases h; exact .nil
  | a :: l, r, h => by
    rw [List.mapM_cons, Exc.bind_ok] at h; obtain ⟨b, hb, h⟩ := h
    rw [Exc.bind_ok] at h; obtain ⟨bs, hbs, h⟩ := h
    cases h
    exact .cons hb (mapM_forall f l bs hbs)

theorem withHulls_spec (ehull : List (Ent κ) → Ent κ → Except Err ℚ) (es r : List (Ent κ)) (h : withHulls ehull es = .ok r) :
    List.Forall₂ (fun e e' => ∃ d, ehull es e = .ok d ∧ e' = e.setHull d) es r := by
  refine (mapM_forall _ es r h).imp fun e e' he => ?_
  cases hd : ehull es e with
  | error x => rw [hd] at he; cases he
  | ok d => rw [hd] at he; cases he; exact ⟨d, rfl, rfl⟩

/-- The hull distance of an entry does not depend on stored distances: the phase diagram uses compositions and energies only. -/
def Blind (ehull : List (Ent κ) → Ent κ → Except Err ℚ) : Prop :=
  ∀ es es' e e', List.Forall₂ SameButHull es es' → SameButHull e e' → ehull es e = ehull es' e'

theorem stored_setHull (d : ℚ) (e : Ent κ) (h : IsGibbs e) : stored (e.setHull d) = some d := by
  cases e with
  | gibbs _ => rfl
  | exper _ => exact h.elim
  | interp _ _ _ => exact h.elim

theorem isGibbs_setHull (d : ℚ) (e : Ent κ) : IsGibbs (e.setHull d) ↔ IsGibbs e := by cases e <;> exact Iff.rfl

theorem construct_stored (ehull : List (Ent κ) → Ent κ → Except Err ℚ) (hb : Blind ehull) (l : List (Ent κ)) (mini : Bool)
    (s : SetObj (Ent κ)) (h : construct ehull l true mini = .ok s) :
    ∀ e ∈ s.members, IsGibbs e → ∃ d, ehull s.members e = .ok d ∧ stored e = some d := by
  simp only [construct, if_true] at h
  generalize hes : (if mini = true then (entrySet l).map Ent.resetHull else entrySet l) = es at h
  cases hw : withHulls ehull es with
  | error x => rw [hw] at h; cases h
  | ok r =>
    rw [hw] at h; cases h
    have hs := withHulls_spec ehull es r hw
    have hsame : List.Forall₂ SameButHull r es := (hs.imp fun e e' ⟨d, _, he'⟩ => by
      rw [he']; exact (setHull_reset d e).symm : List.Forall₂ (fun e e' => SameButHull e e') es r).flip.imp fun a b hab => hab.symm
    intro e' he' hg
    change e' ∈ r at he'
    change ∃ d, ehull r e' = _ ∧ _
    obtain ⟨i, hi, rfl⟩ := List.getElem_of_mem he'
    have hlen := hs.length_eq
    obtain ⟨d, hd, he⟩ := List.Forall₂.get hs (by omega : i < es.length) hi
    simp only [List.get_eq_getElem] at hd he
    refine ⟨d, ?_, ?_⟩
    · rw [← hd]; exact hb _ _ _ _ hsame (by rw [he]; exact setHull_reset d _)
    · rw [he] at hg ⊢; exact stored_setHull d _ ((isGibbs_setHull d _).mp hg)

/-- **C129**: a set that stores hull distances stores the ones of the new temperature when its temperature is changed; a set that does not
holds none afterwards. -/
theorem C129_temperature (W : World κ ε φ) (ehull : List (Ent κ) → Ent κ → Except Err ℚ) (hb : Blind ehull) (s r : SetObj (Ent κ)) (t : ℚ)
    (h : atTemperature W ehull s t = .ok r) :
    (s.hulls = true → ∀ e ∈ r.members, IsGibbs e → ∃ d, ehull r.members e = .ok d ∧ stored e = some d) ∧
    (s.hulls = false → ∀ e ∈ r.members, stored e = none) ∧ r.hulls = s.hulls := by
  unfold atTemperature at h
  rw [Exc.bind_ok] at h; obtain ⟨l, hl, h⟩ := h
  have hflag : ∀ (l : List (Ent κ)) (a b : Bool) (r : SetObj (Ent κ)), construct ehull l a b = .ok r → r.hulls = a := by
    intro l a b r h
    unfold construct at h
    cases a with
    | false => simp only [Bool.false_eq_true, if_false] at h; cases h; rfl
    | true =>
      simp only [if_true] at h
      generalize withHulls ehull _ = w at h
      cases w with
      | error x => cases h
      | ok v => cases h; rfl
  refine ⟨fun hs => ?_, fun hs => ?_, hflag _ _ _ _ h⟩
  · rw [hs] at h; exact construct_stored ehull hb l false r h
  · rw [hs] at h
    have : ∀ (m l : List (Ent κ)), newTemps W t m = .ok l → ∀ e ∈ l, stored e = none := by
      intro m
      induction m with
      | nil => intro l hl e he; cases hl; cases he
      | cons a m ih =>
        intro l hl e he
        simp only [newTemps] at hl
        split at hl
        · cases hm : newTemps W t m with
          | error x => rw [hm] at hl; cases hl
          | ok l' =>
            rw [hm] at hl; cases hl
            rcases List.mem_cons.mp he with rfl | he
            · rename_i e' _; cases e' <;> rfl
            · exact ih l' hm e he
        · exact ih l hl e he
        · cases hl
    have hc : r.members = entrySet l := by
      simp only [construct, Bool.false_eq_true, if_false] at h; cases h; rfl
    intro e he
    rw [hc, EntryFlow.mem_entrySet] at he
    exact this _ _ hl e he

/-- **C129**: saving a set that was made by the constructor and loading it again gives a set with the same entries, the same stored
distances and the same settings. -/
theorem C129_saved (ehull : List (Ent κ) → Ent κ → Except Err ℚ) (hb : Blind ehull) (l : List (Ent κ)) (hulls mini : Bool)
    (hl : (l.map Ent.resetHull).Nodup) (s : SetObj (Ent κ)) (h : construct ehull l hulls mini = .ok s) : load ehull (save s) = .ok s := by
  have hset : ∀ m : List (Ent κ), m.Nodup → entrySet m = m := by
    intro m hm
    have : ∀ (m acc : List (Ent κ)), (acc ++ m).Nodup → m.foldl insertE acc = acc ++ m := by
      intro m
      induction m with
      | nil => simp
      | cons a m ih =>
        intro acc hd
        have hna : a ∉ acc := fun ha => (List.disjoint_of_nodup_append hd) ha List.mem_cons_self
        rw [List.foldl_cons, insertE, if_neg hna, ih (acc ++ [a]) (by simpa using hd)]
        simp
    exact this m [] (by simpa using hm)
  have hsl : entrySet l = l := hset l hl.of_map
  have hred : ∀ e : Ent κ, e.resetHull.resetHull = e.resetHull := by intro e; cases e <;> rfl
  simp only [construct, hsl] at h
  -- the entries before distances are stored
  generalize hes : (if mini = true then l.map Ent.resetHull else l) = es at h
  have hesn : (es.map Ent.resetHull).Nodup := by
    rw [← hes]; split_ifs
    · rw [List.map_map]
      have : (Ent.resetHull ∘ Ent.resetHull : Ent κ → Ent κ) = Ent.resetHull := funext hred
      rw [this]; exact hl
    · exact hl
  cases hulls with
  | false =>
    simp only [Bool.false_eq_true, if_false] at h; cases h
    simp only [load, save, construct, hset es hesn.of_map, Bool.false_eq_true, if_false]
    cases mini with
    | false => rfl
    | true =>
      simp only [if_true]
      rw [show es.map Ent.resetHull = es by rw [← hes, if_pos rfl, List.map_map]; exact List.map_congr_left fun e _ => hred e]
  | true =>
    simp only [if_true] at h
    cases hw : withHulls ehull es with
    | error x => rw [hw] at h; cases h
    | ok r =>
      rw [hw] at h; cases h
      have hs := withHulls_spec ehull es r hw
      have hmap : r.map Ent.resetHull = es.map Ent.resetHull := by
        clear hw hes hesn
        generalize hE : ehull es = E at hs
        clear hE
        induction hs with
        | nil => rfl
        | cons hx _ ih =>
          obtain ⟨d, -, rfl⟩ := hx
          rw [List.map_cons, List.map_cons, setHull_reset, ih]
      have hrn : r.Nodup := (hmap ▸ hesn).of_map
      simp only [load, save, construct, hset r hrn, if_true]
      generalize hes' : (if mini = true then r.map Ent.resetHull else r) = es'
      have hmap' : es'.map Ent.resetHull = es.map Ent.resetHull := by
        rw [← hes']; split_ifs
        · rw [List.map_map, show (Ent.resetHull ∘ Ent.resetHull : Ent κ → Ent κ) = Ent.resetHull from funext hred, hmap]
        · exact hmap
      have key : ∀ (xs ys : List (Ent κ)) (E F : Ent κ → Except Err ℚ), (∀ a b, SameButHull a b → E a = F b) →
          xs.map Ent.resetHull = ys.map Ent.resetHull →
          (xs.mapM fun e => (E e).map fun h => e.setHull h) = ys.mapM fun e => (F e).map fun h => e.setHull h := by
        intro xs
        induction xs with
        | nil => intro ys E F _ h; cases ys with
          | nil => rfl
          | cons _ _ => cases h
        | cons x xs ih => intro ys E F hEF h; cases ys with
          | nil => cases h
          | cons y ys =>
            rw [List.map_cons, List.map_cons, List.cons.injEq] at h
            rw [List.mapM_cons, List.mapM_cons, ih ys E F hEF h.2, hEF x y h.1]
            have : (fun h => x.setHull h) = fun h => y.setHull h := funext fun d => setHull_of_reset d x y h.1
            rw [this]
      have hF : List.Forall₂ SameButHull es' es := by
        have : List.Forall₂ (fun a b => a = b) (es'.map Ent.resetHull) (es.map Ent.resetHull) := by
          rw [hmap']; exact List.forall₂_same.mpr fun _ _ => rfl
        rw [List.forall₂_map_left_iff, List.forall₂_map_right_iff] at this
        exact this
      have : withHulls ehull es' = withHulls ehull es := key es' es (ehull es') (ehull es) (fun a b hab => hb _ _ _ _ hF hab) hmap'
      rw [this, hw]; rfl

/-- **C129**: whatever the distances stored in the entries of a saved set (for instance after entries were added), loading it with the setting
on stores the distances of the set as it is. -/
theorem C129_refreshed (ehull : List (Ent κ) → Ent κ → Except Err ℚ) (hb : Blind ehull) (s r : SetObj (Ent κ)) (hs : s.hulls = true)
    (h : load ehull (save s) = .ok r) : ∀ e ∈ r.members, IsGibbs e → ∃ d, ehull r.members e = .ok d ∧ stored e = some d := by
  simp only [load, save, hs] at h
  exact construct_stored ehull hb _ _ r h

/-! ### Where settings are lost -/

/-- Hull distances that depend on the temperature. -/
def toyDist (_ : List (Ent ℕ)) : Ent ℕ → Except Err ℚ
  | .gibbs e => .ok (e.temp / 1000)
  | _ => .ok 0

theorem toyDist_blind : Blind toyDist := by
  intro es es' e e' _ h
  unfold SameButHull at h
  cases e <;> cases e' <;> simp only [Ent.resetHull] at h <;> first | rfl | cases h | skip
  simp only [Ent.gibbs.injEq, Entries.Gibbs.mk.injEq] at h
  simp [toyDist, h.2.2.2.1]

/-- A set of one entry at 300 K made with the first setting on. -/
def toySet : SetObj (Ent ℕ) := ⟨[.gibbs ⟨1, 0, 1, 300, [.const sisso (-3)], some (3 / 10)⟩], true, false⟩

/-- **C129, violated**: a copy of a set that stores hull distances, or its union with itself, is equal to it, but has no stored distances
after a change of temperature, where the original has them. -/
theorem C129_settings_violated : ∃ s : SetObj (Ent ℕ), construct toyDist s.members s.hulls s.mini = .ok s ∧
    s.copy.members = s.members ∧ (s.union s).members = s.members ∧
    (∃ r, atTemperature EntryFlow.toyW toyDist s 1000 = .ok r ∧ r.members.map stored = [some 1]) ∧
    (∃ r, atTemperature EntryFlow.toyW toyDist s.copy 1000 = .ok r ∧ r.members.map stored = [none]) ∧
    (∃ r, atTemperature EntryFlow.toyW toyDist (s.union s) 1000 = .ok r ∧ r.members.map stored = [none]) :=
  ⟨toySet, by decide +kernel, by decide +kernel, by decide +kernel,
    ⟨⟨[.gibbs ⟨1, 0, 1, 1000, [.const sisso (-10)], some 1⟩], true, false⟩, by decide +kernel⟩,
    ⟨⟨[.gibbs ⟨1, 0, 1, 1000, [.const sisso (-10)], none⟩], false, false⟩, by decide +kernel⟩,
    ⟨⟨[.gibbs ⟨1, 0, 1, 1000, [.const sisso (-10)], none⟩], false, false⟩, by decide +kernel⟩⟩

/-- **C129, violated**: the smaller size asked for is forgotten by a change of temperature. -/
theorem C129_minimize_violated : ∃ s r : SetObj (Ent ℕ), construct toyDist s.members s.hulls s.mini = .ok s ∧
    atTemperature EntryFlow.toyW toyDist s 1000 = .ok r ∧ s.mini = true ∧ r.mini = false :=
  ⟨⟨[.gibbs ⟨1, 0, 1, 300, [.const sisso (-3)], none⟩], false, true⟩,
    ⟨[.gibbs ⟨1, 0, 1, 1000, [.const sisso (-10)], none⟩], false, false⟩, by decide +kernel⟩

/-- C129_contents, C129_independent and C129_settings_partial: a history with a copy, operators and in-place changes. -/
example : Valid [(⟨[1, 2, 3], true, false⟩ : SetObj ℕ), ⟨[3, 4], false, false⟩] ∧
    run [(⟨[1, 2, 3], true, false⟩ : SetObj ℕ), ⟨[3, 4], false, false⟩]
      [.copy 0, .xor 0 1, .add 2 7, .idiff 0 0, .ixor 2 1, .iinter 3 1] =
      [⟨[], true, false⟩, ⟨[3, 4], false, false⟩, ⟨[1, 2, 7, 4], false, false⟩, ⟨[4], false, false⟩] := by
  refine ⟨?_, by decide⟩
  intro a ha; revert a; decide

/-- C129_temperature, C129_saved and C129_refreshed: the set above, and a stale distance. -/
example : Blind toyDist ∧ (toySet.members.map Ent.resetHull).Nodup ∧ construct toyDist toySet.members true false = .ok toySet ∧
    load toyDist (save ⟨[.gibbs ⟨1, 0, 1, 300, [.const sisso (-3)], some 5⟩], true, false⟩) = .ok toySet :=
  ⟨toyDist_blind, by decide +kernel, by decide +kernel, by decide +kernel⟩

end Settings
end Verif.Props.SetOps
