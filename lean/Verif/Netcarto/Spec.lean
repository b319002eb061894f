import Mathlib.Algebra.BigOperators.Group.Finset.Basic
import Mathlib.Algebra.Order.Ring.Rat
import Mathlib.Data.Finset.Card
import Mathlib.Analysis.Real.Sqrt

/-!
# What users expect of netcarto, in terms of the labels in the file (independent of the model)

A line of the file is a record `(label, label, weight)`.
-/

namespace NCP

open Finset

/-- A record. -/
abbrev Rec := String × String × ℚ

/-- The labels of a file. -/
def nodes (recs : List Rec) : Finset String := (recs.flatMap fun r => [r.1, r.2.1]).toFinset

/-- The file describes a simple network: no node is linked to itself and no pair is given twice. -/
structure Simple (recs : List Rec) : Prop where
  loop : ∀ r ∈ recs, r.1 ≠ r.2.1
  once : recs.Pairwise fun r s => ¬ (r.1 = s.1 ∧ r.2.1 = s.2.1) ∧ ¬ (r.1 = s.2.1 ∧ r.2.1 = s.1)

/-- Total weight. -/
def total (recs : List Rec) : ℚ := (recs.map (·.2.2)).sum

/-- Weight between two labels as a fraction of twice the total weight. -/
def link (recs : List Rec) (x y : String) : ℚ :=
  (recs.map fun r => if (r.1 = x ∧ r.2.1 = y) ∨ (r.1 = y ∧ r.2.1 = x) then r.2.2 else 0).sum / (2 * total recs)

/-- Strength of a label as a fraction of twice the total weight. -/
def strength (recs : List Rec) (x : String) : ℚ :=
  (recs.map fun r => if r.1 = x ∨ r.2.1 = x then r.2.2 else 0).sum / (2 * total recs)

/-- No line of a bipartite file is given twice. -/
def Distinct (recs : List Rec) : Prop := recs.Pairwise fun r s => ¬ (r.1 = s.1 ∧ r.2.1 = s.2.1)

/-- The labels of the first column. -/
def actors (recs : List Rec) : Finset String := (recs.map (·.1)).toFinset

/-- Weight and number of members of a team (label of the second column). -/
def teamTotal (recs : List Rec) (a : String) : ℚ := (recs.map fun r => if r.2.1 = a then r.2.2 else 0).sum
def teamCount (recs : List Rec) (a : String) : ℕ := recs.countP fun r => r.2.1 = a

/-- Weight of the projected link of two labels of the first column: products of the weights in the common teams over
`∑ m (m - m / size)`. -/
def coLink (recs : List Rec) (x y : String) : ℚ :=
  (recs.map fun r => (recs.map fun s => if r.1 = x ∧ s.1 = y ∧ r.2.1 = s.2.1 then r.2.2 * s.2.2 else 0).sum).sum /
    ∑ a ∈ (recs.map (·.2.1)).toFinset, teamTotal recs a * (teamTotal recs a - teamTotal recs a / teamCount recs a)

/-- Share of a label of the first column in the total weight. -/
def actorShare (recs : List Rec) (x : String) : ℚ := (recs.map fun r => if r.1 = x then r.2.2 else 0).sum / total recs

/-- A clustering of `V`: no empty group, and every label of `V` is in one group, once. -/
structure Clustering (V : Finset String) (G : List (List String)) : Prop where
  nonempty : ∀ g ∈ G, g ≠ []
  nodup : G.flatten.Nodup
  mem : ∀ x, x ∈ G.flatten ↔ x ∈ V

/-- Modularity of a clustering for the weights `A` and the null model `k x * k y`, without the diagonal. -/
def newman (V : Finset String) (A : String → String → ℚ) (k : String → ℚ) (G : List (List String)) : ℚ :=
  ∑ x ∈ V, ∑ y ∈ V, if x ≠ y ∧ ∃ g ∈ G, x ∈ g ∧ y ∈ g then A x y - k x * k y else 0

/-- The clustering as text: a line for each group, a tabulation after each label. -/
def clusterLines (G : List (List String)) : List Char :=
  G.flatMap fun g => g.flatMap (fun l => l.toList ++ ['\t']) ++ ['\n']

/-- Weight of `x` towards the other labels of `g`. -/
def toGroup (A : String → String → ℚ) (x : String) (g : Finset String) : ℚ := ∑ y ∈ g.erase x, A x y

/-- Participation coefficient: one minus the squared shares of the weight of `x` towards the groups. -/
def participation (V : Finset String) (A : String → String → ℚ) (G : List (List String)) (x : String) : ℚ :=
  1 - (G.map fun g => (toGroup A x g.toFinset / toGroup A x V) ^ 2).sum

/-- Mean weight of the members of a group towards their group, and sum of the squared deviations. -/
def meanWithin (A : String → String → ℚ) (g : Finset String) : ℚ := (∑ y ∈ g, toGroup A y g) / g.card
def devWithin (A : String → String → ℚ) (g : Finset String) : ℚ := ∑ y ∈ g, (toGroup A y g - meanWithin A g) ^ 2

/-- Within-module z-score of a member of the group `g`, 0 if all members have the same weight towards the group. -/
noncomputable def zscore (A : String → String → ℚ) (g : Finset String) (x : String) : ℝ :=
  if ∀ y ∈ g, toGroup A y g = meanWithin A g then 0
  else ((toGroup A x g - meanWithin A g : ℚ) : ℝ) / Real.sqrt ((devWithin A g / g.card : ℚ) : ℝ)

end NCP
