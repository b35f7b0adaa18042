import Verif.Model.Cluster
import Mathlib.Tactic.Linarith

/-! C121: starting the cluster. -/

namespace Verif.Props.Cluster
open Verif.Py Verif.Model.Cluster

/-! ### Specification -/

def isShutdown : Op → Bool
  | .shutdown => true
  | _ => false

/-- The environment of a job on several nodes: a head node is named, or PBS gives more than one node. -/
def MultiNode (int : String → Except Err ℤ) (env : List (String × String)) : Prop :=
  (∃ s, dictGet env "IP_HEAD" = some s ∧ s ≠ "") ∨ ∃ s n, dictGet env "PBS_NNODES" = some s ∧ int s = .ok n ∧ 1 < n

/-- The number of nodes can be read: no value, or a number. -/
def Readable (int : String → Except Err ℤ) (env : List (String × String)) : Prop :=
  int "0" = .ok 0 ∧ ∀ s, dictGet env "PBS_NNODES" = some s → ∃ n, int s = .ok n

/-- **C121, a running cluster is left alone.** -/
theorem C121_running (int : String → Except Err ℤ) (env : List (String × String)) (init : Mode → Option Err) (info : Option Err) (r : Ray) (h : r.running = true) :
    startRay int env init info r = (r, .ok ()) := if_pos h

/-- **C121, one start per shutdown.** In every history the cluster is started at most once more than it is shut down; without shutdown, calls after the first
successful start change nothing. -/
theorem C121_history (int : String → Except Err ℤ) (r : Ray) (ops : List Op) :
    ((run int r ops).starts.length + (if r.running then 1 else 0) ≤ r.starts.length + ops.countP isShutdown + 1) ∧
    (r.running = true → ops.countP isShutdown = 0 → run int r ops = r) ∧
    (∃ more, (run int r ops).starts = r.starts ++ more) := by
  induction ops generalizing r with
  | nil => exact ⟨by simp [run]; split_ifs <;> omega, fun _ _ => rfl, [], by simp [run]⟩
  | cons o ops ih =>
    have hrun : run int r (o :: ops) = run int (step int r o) ops := rfl
    rw [hrun, List.countP_cons]
    obtain ⟨h1, h2, more, h3⟩ := ih (step int r o)
    cases o with
    | shutdown =>
      have hs : step int r .shutdown = { r with running := false } := rfl
      rw [hs] at h1 h2 h3 ⊢
      refine ⟨?_, fun _ h => by simp [isShutdown] at h, more, h3⟩
      simp only [isShutdown, if_true] at h1 ⊢
      split_ifs <;> simp at h1 <;> omega
    | call env init info =>
      have hc : isShutdown (.call env init info) = false := rfl
      by_cases hr : r.running = true
      · have hs : step int r (.call env init info) = r := by
          simp only [step, C121_running int env init info r hr]
        rw [hs] at h1 h2 h3 ⊢
        refine ⟨by simpa [hc] using h1, fun h h' => h2 h (by simpa [hc] using h'), more, h3⟩
      · have hcases : step int r (.call env init info) = r ∨ ∃ m, step int r (.call env init info) = ⟨true, r.starts ++ [m]⟩ := by
          change (startRay int env init info r).1 = r ∨ ∃ m, (startRay int env init info r).1 = _
          unfold startRay
          rw [if_neg hr]
          cases mode int env with
          | error e => exact Or.inl rfl
          | ok m =>
            cases hm : init m with
            | some e => exact Or.inl (by simp [hm])
            | none => exact Or.inr ⟨m, by simp [hm]⟩
        rcases hcases with hs | ⟨m, hs⟩
        · rw [hs] at h1 h2 h3 ⊢
          exact ⟨by simpa [hc] using h1, fun h => absurd h hr, more, h3⟩
        · rw [hs] at h1 h2 h3 ⊢
          refine ⟨?_, fun h => absurd h hr, m :: more, by rw [h3]; simp⟩
          simp [hr, hc] at h1 ⊢
          omega

/-- **C121, joining or creating.** If the number of nodes can be read, a call without a running cluster joins the existing one in a multi-node job and creates
one otherwise. If the start succeeds the cluster runs, also when the call fails while describing it; if the start fails, or the number of nodes cannot be
read, nothing has changed and a later call may start it. -/
theorem C121_start_partial (int : String → Except Err ℤ) (env : List (String × String)) (init : Mode → Option Err) (info : Option Err) (r : Ray)
    (h : r.running = false) :
    (Readable int env → ∃ m, (m = .join ↔ MultiNode int env) ∧
      (init m = none → (startRay int env init info r).1 = ⟨true, r.starts ++ [m]⟩ ∧
        (info = none → (startRay int env init info r).2 = .ok ())) ∧
      (∀ e, init m = some e → startRay int env init info r = (r, .error e))) ∧
    ((∃ s e, dictGet env "IP_HEAD" = none ∧ dictGet env "PBS_NNODES" = some s ∧ int s = .error e) →
      ∃ e, startRay int env init info r = (r, .error e)) := by
  have hr : ¬ r.running = true := by simp [h]
  constructor
  · rintro ⟨h0, hread⟩
    have hm : ∃ m, mode int env = .ok m ∧ (m = .join ↔ MultiNode int env) := by
      unfold mode
      by_cases hi : ipHead env = true
      · refine ⟨.join, if_pos hi, fun _ => Or.inl ?_, fun _ => rfl⟩
        unfold ipHead at hi
        cases hg : dictGet env "IP_HEAD" with
        | none => rw [hg] at hi; simp at hi
        | some s => rw [hg] at hi; exact ⟨s, rfl, of_decide_eq_true hi⟩
      · rw [if_neg hi]
        have hno : ¬ ∃ s, dictGet env "IP_HEAD" = some s ∧ s ≠ "" := by
          rintro ⟨s, hs, hne⟩
          apply hi
          simp [ipHead, hs, hne]
        cases hp : dictGet env "PBS_NNODES" with
        | none =>
          refine ⟨.create, by simp [h0], by simp, ?_⟩
          rintro (hc | ⟨s, n, hs, -⟩)
          · exact absurd hc hno
          · rw [hp] at hs; cases hs
        | some s =>
          obtain ⟨n, hn⟩ := hread s hp
          refine ⟨if 1 < n then .join else .create, by simp [hn], ?_, ?_⟩
          · intro hj
            by_cases h1 : 1 < n
            · exact Or.inr ⟨s, n, hp, hn, h1⟩
            · rw [if_neg h1] at hj; cases hj
          · rintro (hc | ⟨s', n', hs', hn', h1⟩)
            · exact absurd hc hno
            · rw [hp] at hs'
              have := Option.some.inj hs'
              subst this
              rw [hn] at hn'
              have := Except.ok.inj hn'
              subst this
              exact if_pos h1
    obtain ⟨m, hm, hiff⟩ := hm
    refine ⟨m, hiff, fun hi => ?_, fun e he => ?_⟩
    · exact ⟨by simp [startRay, hr, hm, hi], fun hinfo => by simp [startRay, hr, hm, hi, hinfo]⟩
    · simp [startRay, hr, hm, he]
  · rintro ⟨s, e, h1, h2, h3⟩
    refine ⟨e, ?_⟩
    simp [startRay, hr, mode, ipHead, h1, h2, h3]

/-! ### Examples -/

def exInt (s : String) : Except Err ℤ := if s = "0" then .ok 0 else if s = "1" then .ok 1 else if s = "4" then .ok 4 else .error .valueError

def never : Mode → Option Err := fun _ => none

/-- Example for `C121_start_partial` and `C121_history`: a call without cluster, a second one in another environment, a shutdown, a failed start, a start on four nodes. -/
example : Readable exInt [("PBS_NNODES", "4")] ∧
    run exInt ⟨false, []⟩ [.call [] never none, .call [("IP_HEAD", "h")] never none, .shutdown, .call [] (fun _ => some .valueError) none,
      .call [("PBS_NNODES", "4")] never none] = ⟨true, [.create, .join]⟩ := by
  refine ⟨⟨by decide, ?_⟩, by decide +kernel⟩
  intro s hs
  have : s = "4" := by simpa [dictGet] using hs.symm
  subst this
  exact ⟨4, by decide⟩

/-- **C121 (violated).** The documented variable `ip_head` in lower case is not looked at: a new cluster is created. A number of nodes that is not a plain
number makes the call fail although a cluster could be created. -/
theorem C121_names_violated : (startRay exInt [("ip_head", "10.0.0.1")] never none ⟨false, []⟩).1.starts = [.create] ∧
    startRay exInt [("PBS_NNODES", "")] never none ⟨false, []⟩ = (⟨false, []⟩, .error .valueError) := by
  constructor <;> rfl

example := C121_running exInt [("IP_HEAD", "h")] never (some .valueError) ⟨true, [.create]⟩ rfl
example := (C121_history exInt ⟨true, [.create]⟩ [.call [] never none, .call [("IP_HEAD", "h")] never none]).2.1 rfl rfl

end Verif.Props.Cluster
