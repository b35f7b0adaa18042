import Mathlib.Data.List.Basic
import Mathlib.Data.List.Forall2
import Mathlib.Data.List.Perm.Basic

/-! Helper lemmas about `List.mapM` in the `Except` monad. -/

namespace Verif.Lemmas.Exc

variable {ε α β γ : Type}

theorem mapM_nil (f : α → Except ε β) : ([] : List α).mapM f = .ok [] := rfl

theorem mapM_cons (f : α → Except ε β) (a : α) (l : List α) :
    (a :: l).mapM f = match f a with
      | .error e => .error e
      | .ok b => match l.mapM f with
        | .error e => .error e
        | .ok bs => .ok (b :: bs) := by
  rw [List.mapM_cons]
  cases f a with
  | error e => rfl
  | ok b =>
    cases h : l.mapM f with
    | error e => simp [bind, Except.bind]
    | ok bs => simp [bind, Except.bind, pure, Except.pure]

theorem mapM_ok (f : α → Except ε β) (l : List α) (r : List β) :
    l.mapM f = .ok r ↔ List.Forall₂ (fun a b => f a = .ok b) l r := by
  induction l generalizing r with
  | nil =>
    rw [mapM_nil]
    constructor
    · intro h; cases h; exact .nil
    · intro h; cases h; rfl
  | cons a l ih =>
    rw [mapM_cons]
    constructor
    · intro h
      cases ha : f a with
      | error e => rw [ha] at h; simp at h
      | ok b =>
        rw [ha] at h
        cases hl : l.mapM f with
        | error e => rw [hl] at h; simp at h
        | ok bs =>
          rw [hl] at h
          simp only [Except.ok.injEq] at h
          subst h
          exact .cons ha ((ih bs).mp hl)
    · intro h
      cases h with
      | cons ha hl =>
        rw [ha, (ih _).mpr hl]

theorem mapM_eq_map (f : α → Except ε β) (g : α → β) (l : List α) (h : ∀ a ∈ l, f a = .ok (g a)) :
    l.mapM f = .ok (l.map g) := by
  rw [mapM_ok]
  induction l with
  | nil => exact .nil
  | cons a l ih =>
    exact .cons (h a List.mem_cons_self) (ih fun b hb => h b (List.mem_cons_of_mem _ hb))

theorem mapM_length (f : α → Except ε β) (l : List α) (r : List β) (h : l.mapM f = .ok r) : r.length = l.length :=
  ((mapM_ok f l r).mp h).length_eq.symm

theorem mapM_map (f : β → Except ε γ) (g : α → β) (l : List α) : (l.map g).mapM f = l.mapM fun a => f (g a) := by
  induction l with
  | nil => rfl
  | cons a l ih => rw [List.map_cons, mapM_cons, mapM_cons, ih]

theorem mapM_mem (f : α → Except ε β) (l : List α) (r : List β) (h : l.mapM f = .ok r) (b : β) (hb : b ∈ r) :
    ∃ a ∈ l, f a = .ok b := by
  rw [mapM_ok] at h
  induction h with
  | nil => simp at hb
  | cons h1 _ ih =>
    rcases List.mem_cons.mp hb with rfl | hb
    · exact ⟨_, List.mem_cons_self, h1⟩
    · obtain ⟨a, ha, h2⟩ := ih hb
      exact ⟨a, List.mem_cons_of_mem _ ha, h2⟩

theorem mapM_append (f : α → Except ε β) (l l' : List α) (r r' : List β) (h : l.mapM f = .ok r) (h' : l'.mapM f = .ok r') :
    (l ++ l').mapM f = .ok (r ++ r') := by
  rw [mapM_ok] at *
  exact List.rel_append h h'

theorem mapM_error (f : α → Except ε β) (l : List α) (e : ε) (h : l.mapM f = .error e) : ∃ a ∈ l, f a = .error e := by
  induction l with
  | nil => rw [mapM_nil] at h; simp at h
  | cons a l ih =>
    rw [mapM_cons] at h
    cases ha : f a with
    | error e' =>
      rw [ha] at h
      simp only [Except.error.injEq] at h
      exact ⟨a, List.mem_cons_self, by rw [ha, h]⟩
    | ok b =>
      rw [ha] at h
      cases hl : l.mapM f with
      | error e' =>
        rw [hl] at h
        simp only [Except.error.injEq] at h
        obtain ⟨x, hx, hx'⟩ := ih (by rw [hl, h])
        exact ⟨x, List.mem_cons_of_mem _ hx, hx'⟩
      | ok bs => rw [hl] at h; simp at h

theorem mapM_exists_error (f : α → Except ε β) (l : List α) (a : α) (ha : a ∈ l) (e : ε) (h : f a = .error e) :
    ∃ e', l.mapM f = .error e' := by
  cases hl : l.mapM f with
  | error e' => exact ⟨e', rfl⟩
  | ok r =>
    rw [mapM_ok] at hl
    exfalso
    induction hl with
    | nil => simp at ha
    | cons h1 _ ih =>
      rcases List.mem_cons.mp ha with rfl | ha
      · rw [h] at h1; simp at h1
      · exact ih ha

theorem bind_ok (x : Except ε α) (f : α → Except ε β) (b : β) : (x >>= f) = .ok b ↔ ∃ a, x = .ok a ∧ f a = .ok b := by
  cases x <;> simp [bind, Except.bind]

theorem map_ok (x : Except ε α) (f : α → β) (b : β) : x.map f = .ok b ↔ ∃ a, x = .ok a ∧ f a = b := by
  cases x <;> simp [Except.map]

end Verif.Lemmas.Exc
