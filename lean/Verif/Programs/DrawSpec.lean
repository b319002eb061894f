import Verif.Utils.Spec
import Verif.Group.Spec
import Mathlib.Data.Real.Basic

/-!
# Specification of the programs that draw networks
-/

namespace PG

open UT (names graph)

/-- The numbers are between 0 and 1, and both 0 and 1 are among them. -/
def Fills (l : List ℝ) : Prop := (∀ v ∈ l, 0 ≤ v ∧ v ≤ 1) ∧ (0 : ℝ) ∈ l ∧ (1 : ℝ) ∈ l

open Classical in
/-- The network `N` on numbers is the graph of a file: number `i` for the label number `i`, weight 1 for each link. -/
structure Numbered (ps : List (String × String)) (N : GP.Net) : Prop where
  simple : N.Simple
  n : N.n = (names ps).length
  link : ∀ i j a b, (names ps)[i]? = some a → (names ps)[j]? = some b → N.link i j = if (graph ps).Adj a b then some 1 else none

/-- The lines show the points `(u i, v i)`: for labels related by `R`, differences are those of the points, up to the units of the axes. -/
def Shows (R : String → String → Prop) (out : List (String × ℝ × ℝ)) (u v : ℕ → ℝ) : Prop :=
  ∃ ax ay : ℝ, 0 < ax ∧ 0 < ay ∧ ∀ i j p q, out[i]? = some p → out[j]? = some q → R p.1 q.1 →
    p.2.1 - q.2.1 = ax * (u i - u j) ∧ p.2.2 - q.2.2 = ay * (v i - v j)

end PG
