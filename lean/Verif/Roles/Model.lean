import Verif.NC.Model
import Mathlib.Analysis.Real.Sqrt

/-!
# Role metrics of netcarto (`src/partition.c` 159-236, 355-376)
-/

namespace Roles

open NC

/-- `strengthToModule`, partition.c 169-179: the flat array of `N*M` cells, cell `i + N*mod`. -/
def strengthToModule (p : Partition) (adj : Adj) : Option (ℕ → ℚ) :=
  (List.range adj.N).foldlM (fun S i => (slots adj i).foldlM (fun S j =>
    if adj.neighbors j < p.N ∧ (p.nodes (adj.neighbors j)).module < p.M then
      let c := i + adj.N * (p.nodes (adj.neighbors j)).module
      some (Function.update S c (S c + adj.strength j))
    else none) S) (fun _ => 0)

/-- Sum of a quantity of the nodes by module, the loops 190-193 and 197-200. `w` gives the summand of
node `i` in its module. -/
def byModule (p : Partition) (N : ℕ) (w : ℕ → ℕ → ℚ) : Option (ℕ → ℚ) :=
  (List.range N).foldlM (fun m i =>
    if i < p.N ∧ (p.nodes i).module < p.M then
      let k := (p.nodes i).module
      some (Function.update m k (m k + w i k))
    else none) (fun _ => 0)

/-- What the function leaves in the two arrays of the caller. `none` in `participation` is `0/0`. -/
structure Out where
  connectivity : ℕ → ℝ
  participation : ℕ → Option ℚ

/-- The last loop of `PartitionRolesMetrics`, partition.c 205-231, from the strengths towards the
modules, the means, and the sums of squared deviations of the modules. -/
noncomputable def scores (p : Partition) (adj : Adj) (S mean var part0 : ℕ → ℚ) : Out :=
  let N := adj.N
  let std : ℕ → ℝ := fun j => Real.sqrt ((var j / (p.modules j).size : ℚ) : ℝ)
  { connectivity := fun i =>
      let k := (p.nodes i).module
      if std k ≠ 0 then ((S (i + N * k) - mean k : ℚ) : ℝ) / std k else 0
    participation := fun i =>
      if adj.idx i = adj.idx (i + 1) then some 0
      else
        let strength := (List.range p.M).foldl (fun s j => s + S (i + N * j)) 0
        let q := (List.range p.M).foldl (fun s j => s + S (i + N * j) * S (i + N * j)) (part0 i)
        if strength = 0 then none else some (1 - q / (strength * strength)) }

/-- `PartitionRolesMetrics`, partition.c 159-236. `part0` is what the array `participation` of the
caller holds at the call. Means and variances are rational, the square root is real. In an empty
module `mean` and `std` are `0/0`; no node reads them. -/
noncomputable def PartitionRolesMetrics (p : Partition) (adj : Adj) (part0 : ℕ → ℚ) : Option Out := do
  let N := adj.N
  let S ← strengthToModule p adj
  let sum ← byModule p N fun i k => S (i + N * k)
  let mean := fun j => sum j / (p.modules j).size
  let var ← byModule p N fun i k => (S (i + N * k) - mean k) * (S (i + N * k) - mean k)
  return scores p adj S mean var part0

/-- `GetRole`, partition.c 355-376. -/
noncomputable def GetRole (P z : ℝ) : ℕ :=
  if z < 5 / 2 then
    if P < 5 / 100 then 0 else if P < 62 / 100 then 1 else if P < 8 / 10 then 2 else 3
  else
    if P < 3 / 10 then 4 else if P < 75 / 100 then 5 else 6

end Roles
