import Verif.Model.PyData
import Mathlib.Data.Rat.Defs

/-!
Model of `initialize_ray` (src/rxn_network/utils/ray.py:14-44) as a state machine over calls, shutdowns and changes of the environment. Whether `ray.init` and
the queries for the log message succeed is given with each call; `int` on strings is a parameter. Logging is left out.
-/

namespace Verif.Model.Cluster
open Verif.Py

/-- How ray is started, src/rxn_network/utils/ray.py:30-36. -/
inductive Mode
  | join
  | create
  deriving DecidableEq

/-- Whether ray is initialized in this process, and the calls of `ray.init` that succeeded so far (oldest first),
src/rxn_network/utils/ray.py:28-36. -/
structure Ray where
  running : Bool
  starts : List Mode
  deriving DecidableEq

/-- `os.environ.get("IP_HEAD")` is truthy: set and not empty, src/rxn_network/utils/ray.py:30. -/
def ipHead (env : List (String × String)) : Bool := match dictGet env "IP_HEAD" with
  | none => false
  | some s => decide (s ≠ "")

/-- The condition, src/rxn_network/utils/ray.py:30. -/
def mode (int : String → Except Err ℤ) (env : List (String × String)) : Except Err Mode :=
  if ipHead env then .ok .join
  else match int ((dictGet env "PBS_NNODES").getD "0") with
    | .error e => .error e
    | .ok n => .ok (if 1 < n then .join else .create)

/-- `initialize_ray`, src/rxn_network/utils/ray.py:14-44; `init` and `info` are the exceptions of `ray.init` (:30-36) and of the queries for the log message
(:38-42), if any. -/
def startRay (int : String → Except Err ℤ) (env : List (String × String)) (init : Mode → Option Err) (info : Option Err) (r : Ray) : Ray × Except Err Unit :=
  if r.running then (r, .ok ())
  else match mode int env with
    | .error e => (r, .error e)
    | .ok m => match init m with
      | some e => (r, .error e)
      | none => (⟨true, r.starts ++ [m]⟩, match info with
        | some e => .error e
        | none => .ok ())

/-- What may happen: a call (in whatever environment), or a shutdown of ray by somebody else (src/rxn_network/utils/ray.py has none). -/
inductive Op
  | call (env : List (String × String)) (init : Mode → Option Err) (info : Option Err)
  | shutdown

/-- One event, src/rxn_network/utils/ray.py:14-44. -/
def step (int : String → Except Err ℤ) (r : Ray) : Op → Ray
  | .call env init info => (startRay int env init info r).1
  | .shutdown => { r with running := false }

/-- A history of events, src/rxn_network/utils/ray.py:14-44 called any number of times. -/
def run (int : String → Except Err ℤ) (r : Ray) (ops : List Op) : Ray := ops.foldl (step int) r

end Verif.Model.Cluster
