import Verif.BFS.Spec
import Mathlib.Algebra.BigOperators.Group.Finset.Basic
import Mathlib.Order.Lattice.Nat
import Mathlib.Data.Rat.Defs
import Mathlib.Algebra.Field.Rat

/-!
# Specification: shortest paths and betweenness
-/

namespace BT

open BFS

/-- All walks of `k` links from `s`, as lists of `k + 1` nodes. -/
def walks (adj : ℕ → List ℕ) : ℕ → ℕ → List (List ℕ)
  | 0, s => [[s]]
  | k + 1, s => (adj s).flatMap fun w => (walks adj k w).map (s :: ·)

/-- Distance from `s` to `t` (0 if `t` is out of reach). -/
noncomputable def dist (adj : ℕ → List ℕ) (s t : ℕ) : ℕ := sInf { k | Walk adj k s t }

/-- The shortest paths from `s` to `t` (none if `t` is out of reach). -/
noncomputable def shortest (adj : ℕ → List ℕ) (s t : ℕ) : List (List ℕ) :=
  (walks adj (dist adj s t) s).filter fun l => l.getLast? = some t

/-- Share of the shortest paths from `s` to `t` that go through `v` (0 if there are no paths). -/
noncomputable def share (adj : ℕ → List ℕ) (s t v : ℕ) : ℚ :=
  ((shortest adj s t).countP fun l => decide (v ∈ l) : ℕ) / ((shortest adj s t).length : ℕ)

/-- Betweenness of `v`: the sum of the shares over the ordered pairs of other nodes. -/
noncomputable def betweenness (adj : ℕ → List ℕ) (n v : ℕ) : ℚ :=
  ∑ s ∈ Finset.range n, ∑ t ∈ Finset.range n, if s ≠ v ∧ t ≠ v ∧ s ≠ t then share adj s t v else 0

end BT
