import Mathlib.Data.List.Forall2
import Mathlib.Data.Rat.Defs

/-! # What users expect of the readers (independent of the model) -/

namespace FIO

/-- `labels` are the different labels in `occ` in the order of their first appearance, and `ids` are the positions of the
elements of `occ` in `labels`. -/
structure Numbering (occ : List String) (ids : List ℕ) (labels : List String) : Prop where
  nodup : labels.Nodup
  length : ids.length = occ.length
  label : ∀ k : ℕ, k < occ.length → ∃ i : ℕ, ids[k]? = some i ∧ i < labels.length ∧ labels[i]? = occ[k]?
  used : ∀ l ∈ labels, l ∈ occ
  order : ∀ (i j : ℕ) (a b : String), labels[i]? = some a → labels[j]? = some b → i < j → occ.idxOf a < occ.idxOf b

/-- The fields of a line: two labels that fit their buffers and, for weighted files, a number. -/
inductive Line (weighted : Bool) (strtod : String → Option ℚ) : List String → String × String × ℚ → Prop
  | plain (a b : String) (rest : List String) : weighted = false → a.utf8ByteSize < 100 → b.utf8ByteSize < 100 →
      Line weighted strtod (a :: b :: rest) (a, b, 1)
  | weight (a b c : String) (rest : List String) (w : ℚ) : weighted = true → a.utf8ByteSize < 100 → b.utf8ByteSize < 100 →
      strtod c = some w → Line weighted strtod (a :: b :: c :: rest) (a, b, w)

/-- A line with too few fields, or whose weight is not a number. -/
inductive Bad (weighted : Bool) (strtod : String → Option ℚ) : List String → Prop
  | blank : Bad weighted strtod []
  | one (a : String) : a.utf8ByteSize < 100 → Bad weighted strtod [a]
  | two (a b : String) : weighted = true → a.utf8ByteSize < 100 → b.utf8ByteSize < 100 → Bad weighted strtod [a, b]
  | number (a b c : String) (rest : List String) : weighted = true → a.utf8ByteSize < 100 → b.utf8ByteSize < 100 →
      strtod c = none → Bad weighted strtod (a :: b :: c :: rest)

/-- A label that can be written to and read from a clustering file: not empty, no tabulation, no end of line, fits its
buffer. -/
structure GoodLabel (l : List Char) : Prop where
  nonempty : l ≠ []
  tab : '\t' ∉ l
  newline : '\n' ∉ l
  short : l.length < 100

/-- A file with one line for each group, labels separated by tabulations. -/
def lines (P : List (List (List Char))) : List Char := P.flatMap fun g => (List.intersperse ['\t'] g).flatten ++ ['\n']

/-- A word that `%s` reads as it is, different from the separator of groups. -/
structure GoodWord (l : List Char) : Prop where
  nonempty : l ≠ []
  space : ∀ c ∈ l, c ≠ ' ' ∧ c ≠ '\t' ∧ c ≠ '\n' ∧ c ≠ '\x0b' ∧ c ≠ '\x0c' ∧ c ≠ '\r'
  short : l.length < 100
  notSeparator : l ≠ ['/', '/', '/']

end FIO
