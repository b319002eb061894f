import Verif.Missing.Spec

/-! # Specification: ratings between blocks -/

namespace KS

open GP LS

/-- All ratings are among `0 … K-1`. -/
def Rated (net : Net) (K : ℕ) : Prop := ∀ i j w, net.link i j = some w → ∃ k < K, w = (k : ℚ)

/-- 1 if `i` and `j` are linked with rating `k`. -/
def ra (net : Net) (k i j : ℕ) : Int := if net.link i j = some (k : ℚ) then 1 else 0

/-- Number of ratings `k` between two groups (inside the group if they are the same). -/
def ratings (net : Net) (f : ℕ → Option ℕ) (k g g' : ℕ) : Int :=
  let s := ∑ i ∈ block net f g, ∑ j ∈ block net f g', ra net k i j
  if g = g' then s / 2 else s

/-- Number of ratings `k` between a node and a group. -/
def nodeRatings (net : Net) (f : ℕ → Option ℕ) (k v g : ℕ) : Int := ∑ j ∈ block net f g, ra net k v j

/-- Contribution of a pair of groups: `log (n + K - 1)! - ∑ₖ log nₖ!`. -/
noncomputable def TK (net : Net) (K : ℕ) (f : ℕ → Option ℕ) (g g' : ℕ) : ℝ :=
  Real.log (((((∑ k ∈ Finset.range K, ratings net f k g g') + K - 1).toNat).factorial : ℕ) : ℝ) -
    ∑ k ∈ Finset.range K, Real.log (((ratings net f k g g').toNat.factorial : ℕ) : ℝ)

/-- Energy of a division of the nodes. -/
noncomputable def energyK (net : Net) (K : ℕ) (f : ℕ → Option ℕ) : ℝ :=
  ∑ g ∈ Finset.range net.n, TK net K f g g +
    ∑ g ∈ Finset.range net.n, ∑ g' ∈ (Finset.range net.n).filter (g < ·), TK net K f g g' -
    Real.log (((net.n - (used net f).card).factorial : ℕ) : ℝ)

end KS
