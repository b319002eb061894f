import Verif.Utils.Spec
import Verif.BFS.CorrSpec
import Mathlib.Combinatorics.SimpleGraph.Metric

/-!
# Specification of netprop, in terms of labels
-/

namespace UT

variable (ps : List (String × String))

open Classical in
/-- The connected components, as sets of labels. -/
noncomputable def components : Finset (Set String) := (names ps).toFinset.image fun a => {b | (graph ps).Reachable a b}

open Classical in
/-- Inverse distance; 0 without a path. -/
noncomputable def invDist (a b : String) : ℚ := if (graph ps).Reachable a b then 1 / ((graph ps).dist a b : ℚ) else 0

/-- Clustering of a label: links among its neighbours over pairs of neighbours. -/
noncomputable def clusterOf (a : String) : ℚ :=
  ({e ∈ (graph ps).edgeSet | ∀ b ∈ e, (graph ps).Adj a b}.ncard : ℚ) / ((degree ps a).choose 2 : ℕ)

/-- Labels with two neighbours at least. -/
noncomputable def twoLinks : List String := (names ps).filter fun a => 2 ≤ degree ps a

open Classical in
/-- Ordered pairs of linked labels. -/
noncomputable def linkEnds : Finset (String × String) :=
  ((names ps).toFinset ×ˢ (names ps).toFinset).filter fun x => (graph ps).Adj x.1 x.2

end UT
