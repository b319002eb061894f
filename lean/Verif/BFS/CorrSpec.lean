import Verif.BFS.CorrModel
import Mathlib.Analysis.Real.Sqrt

/-!
# Specification of degree correlations, transitivity and square clustering
-/

namespace BFS

/-- Mean over a finite set. -/
noncomputable def mean {α : Type} (s : Finset α) (f : α → ℝ) : ℝ := (∑ x ∈ s, f x) / s.card

/-- Covariance over a finite set. -/
noncomputable def cov {α : Type} (s : Finset α) (f g : α → ℝ) : ℝ :=
  mean s fun x => (f x - mean s f) * (g x - mean s g)

/-- Pearson's correlation coefficient. -/
noncomputable def pearson {α : Type} (s : Finset α) (f g : α → ℝ) : ℝ :=
  cov s f g / (√(cov s f f) * √(cov s g g))

/-- The links as ordered pairs of nodes (an undirected link is there twice, a link of a node with
itself once). -/
def linkPairs (adj : ℕ → List ℕ) (n : ℕ) : Finset (ℕ × ℕ) :=
  (Finset.range n ×ˢ Finset.range n).filter fun x => x.2 ∈ adj x.1

/-- Undirected networks without repeated links (a node may be linked with itself). -/
structure Undirected (adj : ℕ → List ℕ) (n : ℕ) : Prop where
  range : InRange adj n
  sym : Sym adj
  nodup : ∀ i, (adj i).Nodup

/-- Triangles: three nodes in increasing order, all linked. -/
def triangles (adj : ℕ → List ℕ) (n : ℕ) : Finset (ℕ × ℕ × ℕ) :=
  (Finset.range n ×ˢ Finset.range n ×ˢ Finset.range n).filter fun x =>
    x.1 < x.2.1 ∧ x.2.1 < x.2.2 ∧ x.2.1 ∈ adj x.1 ∧ x.2.2 ∈ adj x.2.1 ∧ x.2.2 ∈ adj x.1

/-- Connected triples: a middle node and two of its neighbours. -/
def triples (adj : ℕ → List ℕ) (n : ℕ) : Finset (ℕ × ℕ × ℕ) :=
  (Finset.range n ×ˢ Finset.range n ×ˢ Finset.range n).filter fun x =>
    x.2.1 ∈ adj x.1 ∧ x.2.2 ∈ adj x.1 ∧ x.2.1 < x.2.2

/-- Second neighbours: nodes at distance two. -/
def second (adj : ℕ → List ℕ) (p : ℕ) : Finset ℕ :=
  ((nbr adj p).biUnion (nbr adj)).filter fun w => w ≠ p ∧ w ∉ adj p

/-- Neighbours in common. -/
def common (adj : ℕ → List ℕ) (p w : ℕ) : ℕ := (nbr adj p ∩ nbr adj w).card

/-- Square clustering of `p`: of the pairs of its neighbours and the second neighbours, the fraction
where the second neighbour is linked with both. -/
def square (adj : ℕ → List ℕ) (p : ℕ) : ℚ :=
  ((∑ w ∈ second adj p, (common adj p w).choose 2 : ℕ) : ℚ) /
    (((second adj p).card * (adj p).length.choose 2 : ℕ) : ℚ)

end BFS
