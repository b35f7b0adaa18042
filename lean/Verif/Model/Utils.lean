import Verif.Model.Py

/-!
Model of `src/rxn_network/utils/funcs.py` (subset enumeration, chunking) and of the result iterator in
`src/rxn_network/utils/ray.py`.
-/

namespace Verif.Model.Utils
open Verif.Py

/-- Model of `limited_powerset(iterable, max_size)`, src/rxn_network/utils/funcs.py:16-27, for a re-iterable
argument (list, set, ...). `range(1, max_size + 1)` is empty for `max_size ≤ 0`, hence `max_size : ℤ`. -/
def limitedPowerset {α : Type*} (xs : List α) (maxSize : ℤ) : List (List α) :=
  (List.range' 1 maxSize.toNat).flatMap fun k => combinations xs k

/-- Model of the same call for a one-shot iterator (e.g. a generator), src/rxn_network/utils/funcs.py:27:
`combinations` reads its argument completely when it is *constructed*, the list comprehension constructs all of them, so
the first one (size 1) sees all items and the others see an exhausted iterator. -/
def limitedPowersetIter {α : Type*} (xs : List α) (maxSize : ℤ) : List (List α) :=
  (List.range' 1 maxSize.toNat).flatMap fun k => combinations (if k = 1 then xs else []) k

/-- One round of `itertools.zip_longest` over slots that all refer to the *same* iterator
(`[iter(iterable)] * n`, src/rxn_network/utils/funcs.py:39). A slot flag is `true` while that slot is active; an
active slot that finds the iterator empty becomes inactive and delivers the fill value. Returns the tuple, the new
flags and the remaining items. -/
def pull {α : Type*} (fill : α) : List Bool → List α → List α × List Bool × List α
  | [], xs => ([], [], xs)
  | false :: s, xs => let r := pull fill s xs; (fill :: r.1, false :: r.2.1, r.2.2)
  | true :: s, [] => let r := pull fill s []; (fill :: r.1, false :: r.2.1, r.2.2)
  | true :: s, x :: xs => let r := pull fill s xs; (x :: r.1, true :: r.2.1, r.2.2)

/-- Rounds of `zip_longest`, src/rxn_network/utils/funcs.py:40: it stops (discarding the current tuple) as soon as no
slot is active any more. `fuel` bounds the number of rounds; `grouper` below supplies enough. -/
def rounds {α : Type*} (fill : α) : ℕ → List Bool → List α → List (List α)
  | 0, _, _ => []
  | fuel + 1, slots, xs =>
    let r := pull fill slots xs
    if r.2.1.any id then r.1 :: rounds fill fuel r.2.1 r.2.2 else []

/-- Model of `grouper(iterable, n, fillvalue)`, src/rxn_network/utils/funcs.py:30-40. -/
def grouper {α : Type*} (xs : List α) (n : ℕ) (fill : α) : List (List α) :=
  rounds fill (xs.length + 1) (List.replicate n true) xs

/-- Model of the generator `to_iterator(obj_ids, get_obj_ids=False)`, src/rxn_network/utils/ray.py:47-56, run to
exhaustion. `wait t refs` is the answer of the `t`-th call of `ray.wait(refs)` (external scheduler), `get` is `ray.get`
(an `Except` because it re-raises the task's exception). The result is the list of yielded values together with the
exception that ended the iteration, if any. `none` models `IndexError` (`done` empty) or fuel exhaustion (iteration not
finished within `fuel` steps). -/
def toIterator {ι β ε : Type*} (get : ι → Except ε β) (wait : ℕ → List ι → List ι × List ι) :
    ℕ → ℕ → List ι → Option (List β × Option ε)
  | _, _, [] => some ([], none)
  | 0, _, _ :: _ => none
  | fuel + 1, t, refs =>
    let (done, rest) := wait t refs
    match done with
    | [] => none
    | d :: _ =>
      match get d with
      | .error e => some ([], some e)
      | .ok v => (toIterator get wait fuel (t + 1) rest).map fun r => (v :: r.1, r.2)

end Verif.Model.Utils
