import Verif.Programs.Spec
import Mathlib.Algebra.BigOperators.Group.Finset.Basic
import Mathlib.Data.Nat.Factorial.Basic

/-!
# Specification of the program reliability_reconstruct, in terms of labels
-/

namespace PG

open UT
open scoped BigOperators

/-- Chance that `l` given pairs out of `r` are linked and the others not, if `seen` of `r` pairs have been observed to be linked and all link
probabilities were equally likely before: `B(seen+l+1, 2r-seen-l+1) / B(seen+1, r-seen+1)` with Beta integrals `B`. -/
def nextChance (r seen l : ℕ) : ℚ :=
  ((seen + l).factorial * (2 * r - seen - l).factorial * (r + 1).factorial : ℕ) / ((2 * r + 1).factorial * seen.factorial * (r - seen).factorial : ℕ)

/-- Chance of the network with links `qs` on the labels of `ps`, given the network `ps` and a division of the labels: the product over all
pairs of groups. -/
noncomputable def guess (ps qs : List (String × String)) (F : String → ℕ) : ℚ :=
  ∏ e ∈ (Finset.range (names ps).length ×ˢ Finset.range (names ps).length).filter (fun e => e.1 ≤ e.2),
    nextChance (between (allPairs ps) F e.1 e.2) (between (graph ps) F e.1 e.2) (between (graph qs) F e.1 e.2)

/-- Over some 100 divisions of the labels `qs` is more likely than `ps`. -/
def Better (ps qs : List (String × String)) : Prop :=
  ∃ Fs : List (String → ℕ), Fs.length = 100 ∧ (∀ F ∈ Fs, ∀ a ∈ names ps, F a < (names ps).length) ∧
    (Fs.map (guess ps ps)).sum < (Fs.map (guess ps qs)).sum

end PG
