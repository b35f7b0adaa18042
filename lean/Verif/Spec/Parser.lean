import Mathlib.Data.Rat.Defs
import Mathlib.Algebra.Order.Ring.Rat

/-!
Vocabulary for printing and parsing reactions.
-/

namespace Verif.Spec.Parser

/-- A number with at most four significant digits. -/
def FourDigits (v : ℚ) : Prop := ∃ (m : ℕ) (k : ℤ), 1 ≤ m ∧ m ≤ 9999 ∧ v = m * 10 ^ k

/-- A chemical formula as the parser understands it: a capital letter followed by letters, digits, underscores, points and
parentheses. A leading `E` is followed by a lower-case letter (there is no element `E`). -/
def Formula (f : List Char) : Prop :=
  ∃ c s, f = c :: s ∧ c.isUpper = true ∧ (∀ x ∈ s, x.isAlphanum = true ∨ x ∈ ['_', '.', '(', ')']) ∧
    (c = 'E' → ∃ d t, s = d :: t ∧ d.isLower = true)

end Verif.Spec.Parser
