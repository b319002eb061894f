import Verif.Group.Spec
import Mathlib.Analysis.SpecialFunctions.Log.Basic
import Mathlib.Data.Nat.Choose.Basic
import Mathlib.Data.Nat.Factorial.Basic

/-!
# Specification: block structure of a division of the nodes

Everything is a function of the network and of `f`, the group of every node.
-/

namespace LS

open GP

/-- Nodes of group `g`. -/
def block (net : Net) (f : ℕ → Option ℕ) (g : ℕ) : Finset ℕ :=
  (Finset.range net.n).filter fun v => f v = some g

/-- Number of links between two groups (inside the group if they are the same). -/
def links (net : Net) (f : ℕ → Option ℕ) (g g' : ℕ) : Int :=
  let s := ∑ i ∈ block net f g, ∑ j ∈ block net f g', net.a i j
  if g = g' then s / 2 else s

/-- Number of pairs of nodes between two groups (inside the group if they are the same). -/
def pairs (net : Net) (f : ℕ → Option ℕ) (g g' : ℕ) : Int :=
  if g = g' then ((block net f g).card : Int) * ((block net f g).card - 1) / 2
  else (block net f g).card * (block net f g').card

/-- `log (pairs + 1) + log (pairs choose links)`. -/
noncomputable def T (net : Net) (f : ℕ → Option ℕ) (g g' : ℕ) : ℝ :=
  Real.log ((pairs net f g g' : ℝ) + 1) +
    Real.log (((pairs net f g g').toNat.choose (links net f g g').toNat : ℕ) : ℝ)

/-- Non-empty groups among `0 … n-1`. -/
def used (net : Net) (f : ℕ → Option ℕ) : Finset ℕ :=
  (Finset.range net.n).filter fun g => (block net f g).Nonempty

/-- Energy of a division: description length of the block model, a bias `linC` per group and the
number of ways to label the groups. -/
noncomputable def energy (net : Net) (linC : ℝ) (f : ℕ → Option ℕ) : ℝ :=
  linC * (used net f).card + ∑ g ∈ Finset.range net.n, T net f g g +
    ∑ g ∈ Finset.range net.n, ∑ g' ∈ (Finset.range net.n).filter (g < ·), T net f g g' -
    Real.log (((net.n - (used net f).card).factorial : ℕ) : ℝ)

end LS
