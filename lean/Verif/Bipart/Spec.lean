import Verif.Bipart.Model

/-! # Specification of bipartite networks -/

namespace BP

/-- A bipartite network without repeated links, both ends of a link agreeing on its weight. -/
structure Bi.OK (b : Bi) : Prop where
  nodup1 : ∀ i, ((b.neig1 i).map (·.1)).Nodup
  nodup2 : ∀ i, ((b.neig2 i).map (·.1)).Nodup
  range1 : ∀ i, ∀ x ∈ b.neig1 i, x.1 < b.n2
  range2 : ∀ i, ∀ x ∈ b.neig2 i, x.1 < b.n1
  sym : ∀ i j w, (j, w) ∈ b.neig1 i ↔ (i, w) ∈ b.neig2 j

/-- `i` and `j` are linked. -/
def Bi.Linked (b : Bi) (i j : ℕ) : Prop := ∃ w, (j, w) ∈ b.neig1 i

/-- Nodes of the second set linked to both `i` and `i'`. -/
def common (b : Bi) (i i' : ℕ) : Finset ℕ :=
  (Finset.range b.n2).filter fun a => (∃ x ∈ b.neig1 i, x.1 = a) ∧ ∃ x ∈ b.neig1 i', x.1 = a

/-- Weight of the link, 0 without one. -/
def Bi.wt (b : Bi) (i a : ℕ) : ℚ := (((b.neig1 i).find? fun x => x.1 == a).map (·.2)).getD 0

/-- All ratings are among `0 … K-1`. -/
def Bi.Rated (b : Bi) (K : ℕ) : Prop := ∀ i, ∀ x ∈ b.neig1 i, ∃ k < K, x.2 = ((k : ℕ) : ℚ)

end BP
