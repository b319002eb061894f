import Mathlib.Data.Finset.Card
import Mathlib.Algebra.BigOperators.Group.Finset.Basic
import Mathlib.Analysis.SpecialFunctions.Log.Basic

/-!
# Specification of the programs that read a file of groups

A file of groups is a sequence of words; each group ends with the word `///`. Nothing here depends on the model.
-/

namespace PG

/-- White space: blank, tab, new line, vertical tab, form feed, carriage return. -/
def space (c : Char) : Bool := c ∈ [' ', '\t', '\n', '\x0b', '\x0c', '\r']

/-- The words of a text. -/
def wordsOf (text : List Char) : List (List Char) := (text.splitOnP space).filter (· ≠ [])

/-- The word that ends a group. -/
def endMark : List Char := "///".toList

/-- The words of the text, of less than 100 characters each, are those of the groups `P`, each group followed by `///`, and then
the words `g` of a group that is not closed. -/
structure SaysGroups (text : List Char) (P : List (List (List Char))) (g : List (List Char)) : Prop where
  words : wordsOf text = (P.flatMap fun g => g ++ [endMark]) ++ g
  short : ∀ w ∈ wordsOf text, w.length < 100
  marks : ∀ h ∈ g :: P, endMark ∉ h

/-! ## Mutual information -/

/-- Fraction of the `n` things that are in the group. -/
noncomputable def share {α : Type} (n : ℕ) (g : List α) : ℝ := g.length / n

/-- Things in both groups. -/
def both {α : Type} [DecidableEq α] (g h : List α) : List α := g.filter (· ∈ h)

/-- Entropy of a division of `n` things into groups. -/
noncomputable def entropy {α : Type} (n : ℕ) (P : List (List α)) : ℝ := -(P.map fun g => share n g * Real.log (share n g)).sum

/-- Mutual information of two divisions of `n` things. -/
noncomputable def commonInfo {α : Type} [DecidableEq α] (n : ℕ) (P Q : List (List α)) : ℝ :=
  (P.map fun g => (Q.map fun h =>
    share n (both g h) * Real.log (share n (both g h) / (share n g * share n h))).sum).sum

/-! ## Bipartite modularity -/

variable (ls : List (String × String × ℚ))

/-- Labels of the first column of a file. -/
def column1 : Finset String := (ls.map fun l => l.1).toFinset

/-- Labels of the second column. -/
def column2 : Finset String := (ls.map fun l => l.2.1).toFinset

/-- A line has these two labels. -/
def Line (a b : String) : Prop := ∃ l ∈ ls, l.1 = a ∧ l.2.1 = b

/-- Weight given by the first line with these two labels; 0 without one. -/
def weight (a b : String) : ℚ := ((ls.find? fun l => l.1 = a ∧ l.2.1 = b).map fun l => l.2.2).getD 0

/-- The columns exchanged. -/
def turned : List (String × String × ℚ) := ls.map fun l => (l.2.1, l.1, l.2.2)

/-- `a` and `a'` are in the same group. -/
def SameGroup (P : List (List String)) (a a' : String) : Prop := ∃ g ∈ P, a ∈ g ∧ a' ∈ g

open Classical in
/-- Number of labels of the second column with which `a` has a line. -/
noncomputable def teams (a : String) : ℕ := {b ∈ column2 ls | Line ls a b}.card

open Classical in
/-- Number of labels of the first column with which `b` has a line. -/
noncomputable def size (b : String) : ℕ := {a ∈ column1 ls | Line ls a b}.card

open Classical in
/-- Number of labels of the second column with which both have a line. -/
noncomputable def shared (a a' : String) : ℕ := {b ∈ column2 ls | Line ls a b ∧ Line ls a' b}.card

open Classical in
/-- Bipartite modularity (Guimerà, Sales-Pardo and Amaral, 2007) of groups of labels of the first column: over the ordered pairs
of different labels in the same group, the fraction of the ordered pairs of members of the same team that they are, less what is
expected at random. -/
noncomputable def biModularity (P : List (List String)) : ℚ :=
  ∑ a ∈ column1 ls, ∑ a' ∈ column1 ls, if a ≠ a' ∧ SameGroup P a a' then
    (shared ls a a' : ℚ) / (∑ b ∈ column2 ls, (size ls b : ℚ) * ((size ls b : ℚ) - 1))
      - (teams ls a : ℚ) * teams ls a' / (∑ b ∈ column2 ls, (size ls b : ℚ)) ^ 2
  else 0

/-- Sum of the weights of a label of the first column. -/
def strength1 (a : String) : ℚ := ∑ b ∈ column2 ls, weight ls a b

/-- Sum of the weights of a label of the second column. -/
def strength2 (b : String) : ℚ := ∑ a ∈ column1 ls, weight ls a b

open Classical in
/-- The same with weights, as the program normalizes them: with `W² - W`, not `W²` less the sum of the squares of the weights. -/
noncomputable def biModularityW (P : List (List String)) : ℚ :=
  ∑ a ∈ column1 ls, ∑ a' ∈ column1 ls, if a ≠ a' ∧ SameGroup P a a' then
    (∑ b ∈ column2 ls, weight ls a b * weight ls a' b) / (∑ b ∈ column2 ls, strength2 ls b * (strength2 ls b - 1))
      - strength1 ls a * strength1 ls a' / (∑ b ∈ column2 ls, strength2 ls b) ^ 2
  else 0

end PG
