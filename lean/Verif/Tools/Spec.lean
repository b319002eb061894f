import Verif.Tools.Model
import Mathlib.Algebra.BigOperators.Group.Finset.Basic
import Mathlib.Algebra.BigOperators.Intervals

/-! # Specifications for `src/tools.c` -/

namespace Tools

/-- Number of text lines: maximal runs of characters ended by a newline or by the end of file. -/
def lineCount (s : List Char) : ℕ :=
  s.count '\n' + (if s ≠ [] ∧ s.getLast? ≠ some '\n' then 1 else 0)

/-- Every line, newline not counted, has fewer than `m` characters: no `m` consecutive characters
without newline. -/
def ShortLines (m : ℕ) (s : List Char) : Prop :=
  ∀ a b c : List Char, s = a ++ b ++ c → '\n' ∉ b → b.length < m

end Tools
