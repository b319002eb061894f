import Verif.Missing.Spec
import Verif.Recommend.Model
import Verif.Bipart.Spec

/-! # Specification: ratings between blocks of a bipartite network -/

namespace RC

open GP LS
open BP (Bi)

/-- 1 if `j` has rating `k` from `i`. -/
def ra (b : Bi) (k i j : ℕ) : Int := if (j, (k : ℚ)) ∈ b.neig1 i then 1 else 0

/-- Nodes `< n` in group `g`. -/
def blk (n : ℕ) (f : ℕ → Option ℕ) (g : ℕ) : Finset ℕ := (Finset.range n).filter fun v => f v = some g

/-- Number of ratings `k` of group `g` of the first set for group `g'` of the second. -/
def cnt (b : Bi) (f1 f2 : ℕ → Option ℕ) (k g g' : ℕ) : Int :=
  ∑ i ∈ blk b.n1 f1 g, ∑ j ∈ blk b.n2 f2 g', ra b k i j

/-- Number of ratings `k` of node `i` for group `g'`. -/
def ncnt (b : Bi) (f2 : ℕ → Option ℕ) (k i g' : ℕ) : Int := ∑ j ∈ blk b.n2 f2 g', ra b k i j

/-- Number of non-empty groups. -/
def nused (n : ℕ) (f : ℕ → Option ℕ) : ℕ := ((Finset.range n).filter fun g => (blk n f g).Nonempty).card

/-- Energy of two partitions, `T` being the energy of a pair of groups as a function of the counts of its
ratings: sum over pairs of groups, less the logarithm of the number of labellings. -/
noncomputable def bEnergy (T : (ℕ → Int) → ℝ) (b : Bi) (f1 f2 : ℕ → Option ℕ) : ℝ :=
  ∑ g ∈ Finset.range b.n1, ∑ g' ∈ Finset.range b.n2, T (fun k => cnt b f1 f2 k g g') -
    (Real.log (((b.n1 - nused b.n1 f1).factorial : ℕ) : ℝ) + Real.log (((b.n2 - nused b.n2 f2).factorial : ℕ) : ℝ))

/-- Two ratings: `log (r + 1) + log (r choose l)` with `r` ratings of which `l` are 1. -/
noncomputable def T2 (c : ℕ → Int) : ℝ :=
  Real.log (((c 0 + c 1 : Int) : ℝ) + 1) + Real.log ((((c 0 + c 1).toNat.choose (c 1).toNat : ℕ)) : ℝ)

/-- `K` ratings: `log (n + K - 1)! - ∑ₖ log nₖ!`. -/
noncomputable def TKb (K : ℕ) (c : ℕ → Int) : ℝ :=
  Real.log (((((∑ k ∈ Finset.range K, c k) + K - 1).toNat).factorial : ℕ) : ℝ) -
    ∑ k ∈ Finset.range K, Real.log (((c k).toNat.factorial : ℕ) : ℝ)

/-- The network without the links of the queries. -/
def Unqueried (b c : Bi) (qs : List (ℕ × ℕ)) : Prop :=
  c.OK ∧ c.n1 = b.n1 ∧ c.n2 = b.n2 ∧ ∀ i, c.neig1 i = (b.neig1 i).filter fun x => (i, x.1) ∉ qs

/-- Every node of both sets is in a group. -/
def Assigned (b : Bi) (f : (ℕ → Option ℕ) × (ℕ → Option ℕ)) : Prop :=
  (∀ v < b.n1, ∃ g < b.n1, f.1 v = some g) ∧ ∀ v < b.n2, ∃ g < b.n2, f.2 v = some g

/-- Estimate of the probability of rating `k` for a pair, for given partitions: `(nₖ + 1) / (n + K)` with the counts of
ratings between the two groups. -/
def estimate (b : Bi) (K : ℕ) (f : (ℕ → Option ℕ) × (ℕ → Option ℕ)) (k : ℕ) (q : ℕ × ℕ) : ℚ :=
  ((cnt b f.1 f.2 k ((f.1 q.1).getD 0) ((f.2 q.2).getD 0) + 1 : Int) : ℚ) /
    (((∑ k' ∈ Finset.range K, cnt b f.1 f.2 k' ((f.1 q.1).getD 0) ((f.2 q.2).getD 0)) + K : Int) : ℚ)

end RC
