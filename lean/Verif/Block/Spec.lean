import Verif.Missing.Spec

/-! # Specification: energy of a division for a general pair term -/

namespace BK

open GP LS

/-- Term of a pair of groups: a function `F` of the number of pairs of nodes and of links. -/
noncomputable def T (F : Int → Int → ℝ) (net : Net) (f : ℕ → Option ℕ) (g g' : ℕ) : ℝ :=
  F (pairs net f g g') (links net f g g')

/-- Energy of a division: bias per group, pair terms, number of ways to label the groups, and a term
`D` for the number of groups. -/
noncomputable def energy (F : Int → Int → ℝ) (D : ℕ → ℝ) (net : Net) (linC : ℝ) (f : ℕ → Option ℕ) : ℝ :=
  linC * (used net f).card + ∑ g ∈ Finset.range net.n, T F net f g g +
    ∑ g ∈ Finset.range net.n, ∑ g' ∈ (Finset.range net.n).filter (g < ·), T F net f g g' -
    Real.log (((net.n - (used net f).card).factorial : ℕ) : ℝ) - D (used net f).card

end BK
