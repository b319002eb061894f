import Verif.NC.Model
import Mathlib.Algebra.BigOperators.Group.Finset.Basic
import Mathlib.Data.Finset.Card

/-!
# Specification vocabulary for the array based partition

Nothing here refers to the model functions; only to the data layout
(`Node`, `Module`, `Partition`, `Adj`).
-/

namespace NC

/-- Following the links `nx` from a pointer reaches `NULL` after visiting exactly the
nodes of the list, in order. -/
inductive Walk (nx : ℕ → Option ℕ) : Option ℕ → List ℕ → Prop
  | nil : Walk nx none []
  | cons {a : ℕ} {l : List ℕ} : Walk nx (nx a) l → Walk nx (some a) (a :: l)

/-- A partition is consistent: every node has a valid module, each module's doubly
linked list, read forwards from `first` and backwards from `last`, visits exactly the
nodes labelled with that module, once each; size, strength and the number of empty
modules are what a recount gives; ids are array positions. -/
structure Consistent (p : Partition) : Prop where
  nodeId : ∀ i < p.N, (p.nodes i).id = i
  moduleId : ∀ m < p.M, (p.modules m).id = m
  label : ∀ i < p.N, (p.nodes i).module < p.M
  lists : ∀ m < p.M, ∃ l : List ℕ,
    Walk (fun i => (p.nodes i).next) (p.modules m).first l ∧
    Walk (fun i => (p.nodes i).prev) (p.modules m).last l.reverse ∧
    l.Nodup ∧ ∀ i, i ∈ l ↔ i < p.N ∧ (p.nodes i).module = m
  size : ∀ m < p.M, (p.modules m).size =
    ((Finset.range p.N).filter (fun i => (p.nodes i).module = m)).card
  strength : ∀ m < p.M, (p.modules m).strength =
    ∑ i ∈ (Finset.range p.N).filter (fun i => (p.nodes i).module = m), (p.nodes i).strength
  empty : p.nempty =
    ((Finset.range p.M).filter (fun m => ∀ i < p.N, (p.nodes i).module ≠ m)).card

/-- The assignment of nodes to modules that a partition stands for. -/
def labelOf (p : Partition) : ℕ → ℕ := fun i => (p.nodes i).module

/-- The vector of node strengths. -/
def strengthOf (p : Partition) : ℕ → ℚ := fun i => (p.nodes i).strength

/-- The CSR array `adj` stores the symmetric weight matrix `A` on `n` nodes: every
row is a valid range of slots inside the arrays, lists each neighbour once, does not
contain the node itself, and the stored weights are the nonzero entries of `A`. -/
structure Represents (adj : Adj) (n : ℕ) (A : ℕ → ℕ → ℚ) : Prop where
  mono : ∀ i < n, adj.idx i ≤ adj.idx (i + 1)
  bound : ∀ i < n, adj.idx (i + 1) ≤ 2 * adj.E
  range : ∀ i < n, ∀ s, adj.idx i ≤ s → s < adj.idx (i + 1) → adj.neighbors s < n
  noloop : ∀ i < n, ∀ s, adj.idx i ≤ s → s < adj.idx (i + 1) → adj.neighbors s ≠ i
  once : ∀ i < n, ∀ s t, adj.idx i ≤ s → s < adj.idx (i + 1) →
    adj.idx i ≤ t → t < adj.idx (i + 1) → adj.neighbors s = adj.neighbors t → s = t
  value : ∀ i < n, ∀ s, adj.idx i ≤ s → s < adj.idx (i + 1) →
    adj.strength s = A i (adj.neighbors s)
  absent : ∀ i < n, ∀ j < n, (∀ s, adj.idx i ≤ s → s < adj.idx (i + 1) → adj.neighbors s ≠ j) →
    A i j = 0
  symm : ∀ i < n, ∀ j < n, A i j = A j i

/-- Newman's modularity (unnormalised, without the diagonal):
`Σ_{i ≠ j, g i = g j} (A i j - k i * k j)`, summed over ordered pairs. -/
def modularity (n : ℕ) (A : ℕ → ℕ → ℚ) (k : ℕ → ℚ) (g : ℕ → ℕ) : ℚ :=
  ∑ i ∈ Finset.range n, ∑ j ∈ Finset.range n,
    if i ≠ j ∧ g i = g j then A i j - k i * k j else 0

/-- Diagonal part of the null model. -/
def diagonal (n : ℕ) (k : ℕ → ℚ) : ℚ := ∑ i ∈ Finset.range n, k i * k i

end NC
