import Verif.SA.Model
import Verif.NC.Spec
import Mathlib.Logic.Relation

/-! # Specification vocabulary for the annealing -/

namespace NC

/-- `p'` is a consistent partition of the same nodes into the same number of modules. -/
structure SameNodes (p p' : Partition) : Prop where
  consistent : Consistent p'
  N : p'.N = p.N
  M : p'.M = p.M
  strength : ∀ i < p.N, strengthOf p' i = strengthOf p i

/-- `p'` arises from `p` by moving nodes of module `target` to module `empty` only. -/
structure SplitOf (p p' : Partition) (target empty : ℕ) : Prop extends SameNodes p p' where
  other : ∀ i < p.N, labelOf p i ≠ target → labelOf p' i = labelOf p i
  inside : ∀ i < p.N, labelOf p i = target → labelOf p' i = target ∨ labelOf p' i = empty

/-- `b` is stored as a neighbour of the node `a` (of `N` nodes). -/
def Nbr (N : ℕ) (adj : Adj) (a b : ℕ) : Prop :=
  a < N ∧ ∃ s, adj.idx a ≤ s ∧ s < adj.idx (a + 1) ∧ adj.neighbors s = b

/-- Joined by a path of the whole graph. -/
def Conn (N : ℕ) (adj : Adj) : ℕ → ℕ → Prop := Relation.ReflTransGen (Nbr N adj)

/-- Joined by a path that stays inside the nodes with property `S` (induced subgraph). -/
def ConnIn (N : ℕ) (adj : Adj) (S : ℕ → Prop) : ℕ → ℕ → Prop :=
  Relation.ReflTransGen (fun a b => S a ∧ S b ∧ Nbr N adj a b)

/-- `k` is the number of classes of the nodes with property `S` for the relation `R`: there is a
list of `k` pairwise unrelated representatives to one of which each node is related. -/
def ClassCount (S : ℕ → Prop) (R : ℕ → ℕ → Prop) (k : ℕ) : Prop :=
  ∃ reps : List ℕ, reps.length = k ∧ (∀ r ∈ reps, S r) ∧ reps.Pairwise (fun a b => ¬ R a b) ∧
    ∀ x, S x → ∃ r ∈ reps, R r x

end NC
