import Verif.Programs.Spec
import Mathlib.Algebra.BigOperators.Group.Finset.Basic

/-!
# Specification of the program reliability_links_k, in terms of the labels of the file

Lines `label label rating`; a rating given again for the same pair, in either order, does not count.
-/

namespace PG

open UT
open scoped BigOperators

variable (ls : List (String × String × ℚ))

/-- The pairs of labels of the lines. -/
def ends : List (String × String) := ls.map fun l => (l.1, l.2.1)

/-- Rating in the first line with these two labels, in either order. -/
def stated (a b : String) : Option ℚ :=
  (ls.find? fun l => (l.1 = a ∧ l.2.1 = b) ∨ (l.1 = b ∧ l.2.1 = a)).map fun l => l.2.2

/-- The pairs with rating `w`. -/
def rated (w : ℚ) : SimpleGraph String where
  Adj a b := a ≠ b ∧ stated ls a b = some w
  symm := ⟨fun a b h => ⟨h.1.symm, by
    have : stated ls b a = stated ls a b := by
      unfold stated
      congr 2
      funext l
      simp only [or_comm]
    rw [this]; exact h.2⟩⟩
  loopless := ⟨fun _ h => h.1 rfl⟩

/-- Given a division, `(nₖ + 1) / (n + K)` if `nₖ` of the `n` rated pairs between the groups of the two labels have rating `k`. -/
noncomputable def opinion (K : ℕ) (F : String → ℕ) (k : ℕ) (a b : String) : ℚ :=
  ((between (rated ls k) F (F a) (F b) : ℚ) + 1) / (∑ k ∈ Finset.range K, (between (rated ls k) F (F a) (F b) : ℚ) + K)

/-- The lines `label label s₀ … s_{K-1}` for some pairs. -/
def kTable (K : ℕ) (v : ℕ → String → String → ℚ) (l : List (String × String)) : List (String × String × List (Option ℚ)) :=
  l.map fun p => (p.1, p.2, (List.range K).map fun k => some (v k p.1 p.2))

/-- The values of rating `k` are averages of `opinion` over the same 10000 divisions for all pairs and ratings; for each pair of labels
they are positive and add up to 1. -/
structure Opinions (K : ℕ) (v : ℕ → String → String → ℚ) : Prop where
  averages : ∃ Fs, Divisions (ends ls) Fs ∧ ∀ k a b, v k a b = average Fs fun F => opinion ls K F k a b
  positive : ∀ k < K, ∀ a b, 0 < v k a b
  total : ∀ a b, ∑ k ∈ Finset.range K, v k a b = 1

end PG
