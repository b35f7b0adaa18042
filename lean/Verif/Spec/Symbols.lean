import Mathlib.Data.List.Sort
import Mathlib.Data.List.Lex
import Mathlib.Data.Char

/-! The canonical way to write a set of element symbols. -/

namespace Verif.Spec.Symbols

/-- `s` lists exactly the symbols satisfying `P`, each once, in increasing order, separated by dashes. -/
def Writes (s : List Char) (P : List Char → Prop) : Prop :=
  ∃ l : List (List Char), s = ['-'].intercalate l ∧ l.Pairwise (· < ·) ∧ ∀ e, e ∈ l ↔ P e

end Verif.Spec.Symbols
