import Verif.Bipart.Model
import Verif.Bipart.ModModel
import Verif.Group.FastModel
import Verif.Group.RoleModel

/-!
# Table of modules and roles of a bipartite network, and the modularity from a matrix (`src/bipartite.c:926-1009`)

Nodes of a module are numbers of nodes of the first set, which the projection keeps. The attributes that the final
`MapPartToNet` gives back to the modules are not modelled.
-/

namespace BP

open GP

/-- What is printed for a node: label, module, role, P and z (src/bipartite.c:997-1002). -/
structure TabLine where
  label : String
  module : ℕ
  role : ℕ
  P : ℚ
  z : ℝ

/-- The two files that `FPrintTabNodesBipart` could write to. -/
structure Written where
  outf : List TabLine
  stdout : List TabLine

/-- The participation coefficient and the z-score of a node of module `g`, src/bipartite.c:987-996. -/
noncomputable def tabScores (net : Net) (m : ℕ) (p : Part) (degreeBased : Int) (g v : ℕ) : Option (ℚ × ℝ) :=
  if degreeBased = 1 then do
    let P ← ParticipationCoefficient net p v
    let z ← WithinModuleRelativeDegree net m p v g
    return (P, z)
  else do
    let P ← WeightedParticipationCoefficient net m p v
    let z ← WithinModuleRelativeStrength net m p v g
    return (P, z)

/-- `FPrintTabNodesBipart`, src/bipartite.c:963-1009. The argument `outf` is not used: the lines are written with `printf`. -/
noncomputable def FPrintTabNodesBipart (b : Bi) (label : ℕ → String) (m : ℕ) (modules : Part) (degreeBased weighted : Int) :
    Option Written := do
  let projected := if weighted = 0 ∨ degreeBased = 1 then ProjectBipart b else ProjectBipartWeighted b
  let p := MapPartToNetFast m modules
  let lines ← (List.range m).foldlM (fun L g => (p.grp g).nodes.foldlM (fun L v => do
    let (P, z) ← tabScores projected m p degreeBased g v
    return L ++ [⟨label v, g + 1, Roles.GetRole (P : ℝ) z + 1, P, z⟩]) L) []
  return { outf := [], stdout := lines }

/-- `ModularityBipartWeightedFast`, src/bipartite.c:932-951, for a matrix with a row and a column for each node. -/
def ModularityBipartWeightedFast (part : List (List ℕ)) (swwmat : ℕ → ℕ → ℚ) : Option ℚ :=
  pairLoop (fun i j => some (swwmat i j)) part

end BP
