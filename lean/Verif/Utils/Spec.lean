import Verif.Print.Adjacency
import Mathlib.Combinatorics.SimpleGraph.Basic
import Mathlib.Data.Set.Card

/-!
# Specification of the small programs: the network said by a file, in terms of labels

Independent of the networks of the model: a file says a list of pairs of labels; two different labels are linked when one of the
pairs, in either order, is theirs.
-/

namespace UT

open GR (fileFields fits)

/-- The file (its text) has on each line two labels of less than 100 bytes, perhaps followed by something else. -/
def Says (text : List Char) (ps : List (String × String)) : Prop :=
  List.Forall₂ (fun toks (p : String × String) => fits p.1 = true ∧ fits p.2 = true ∧ ∃ rest, toks = p.1 :: p.2 :: rest)
    (fileFields text) ps

/-- Some line of the file has fewer than two fields; the labels before it fit. -/
def Malformed (text : List Char) : Prop :=
  (∀ toks ∈ fileFields text, ∀ s ∈ toks, fits s = true) ∧ ∃ toks ∈ fileFields text, toks.length < 2

/-- The labels, in order of first appearance. -/
def names (ps : List (String × String)) : List String := ((ps.flatMap fun p => [p.1, p.2]).reverse.dedup).reverse

/-- Linked labels. -/
def graph (ps : List (String × String)) : SimpleGraph String where
  Adj a b := a ≠ b ∧ ((a, b) ∈ ps ∨ (b, a) ∈ ps)
  symm := ⟨fun _ _ h => ⟨h.1.symm, h.2.symm⟩⟩
  loopless := ⟨fun _ h => h.1 rfl⟩

/-- Number of links of a label. -/
noncomputable def degree (ps : List (String × String)) (a : String) : ℕ := ((graph ps).neighborSet a).ncard

/-- A fraction of numbers of things; NaN when there is nothing to divide by. -/
def frac (a b : ℕ) : Option ℚ := if b = 0 then none else some ((a : ℚ) / b)

end UT
