import Verif.Group.Model
import Verif.Roles.Model

/-!
# Roles of nodes (`src/modules.c:1852-2097`)

Quotients by zero (not a number, in C) and products outside the range of `int` are `none`. Sums are exact, so that the square root of the variance is
never that of a negative number; rounding may make it so in C.
-/

namespace GP

/-- `NLinksToGroupByNum`, src/modules.c:855-866, for any value of `inGroup`. -/
def linksToNum (net : Net) (p : Part) (v : ℕ) (g : Option ℕ) : Int :=
  (net.neig v).foldl (fun s x => if p.inGroup x.1 = g then s + 1 else s) 0

/-- `ParticipationCoefficient`, src/modules.c:1857-1877. -/
def ParticipationCoefficient (net : Net) (p : Part) (v : ℕ) : Option ℚ :=
  let nlink := (net.neig v).length
  if nlink = 0 then some 0
  else if 2147483647 < nlink * nlink then none
  else some (1 - (net.neig v).foldl (fun P x => P + (linksToNum net p v (p.inGroup x.1) : ℚ) / ((nlink * nlink : ℕ) : ℚ)) 0)

/-- `WeightedParticipationCoefficient`, src/modules.c:1890-1913. -/
def WeightedParticipationCoefficient (net : Net) (m : ℕ) (p : Part) (v : ℕ) : Option ℚ :=
  let strength := NodeStrength net v
  if (net.neig v).length = 0 then some 0
  else do
    let P ← (List.range m).foldlM (fun P g =>
      let toGroup := StrengthToGroup net p v g
      if strength * strength = 0 then none else some (P + toGroup * toGroup / (strength * strength))) (0 : ℚ)
    some (1 - P)

/-- Mean, mean of squares and z-score, src/modules.c:1936-1952 and 1980-1996, of a quantity `f` of the nodes of the group. -/
noncomputable def zscore (f : ℕ → ℚ) (G : Grp) (v : ℕ) : Option ℝ :=
  let kmean := G.nodes.foldl (fun s u => s + f u) 0
  let k2mean := G.nodes.foldl (fun s u => s + f u * f u) 0
  if G.size = 0 then none
  else
    let kmean := kmean / G.size
    let k2mean := k2mean / G.size
    let kstd := Real.sqrt ((k2mean - kmean * kmean : ℚ) : ℝ)
    if kstd = 0 then some 0 else some (((f v - kmean : ℚ) : ℝ) / kstd)

/-- `group = part; while (group->label != node->inGroup) group = group->next`, src/modules.c:1930-1932, from the group `start`. -/
def findGroup (m : ℕ) (p : Part) (start v : ℕ) : Option ℕ := do
  let g ← p.inGroup v
  if start ≤ g ∧ g < m then some g else none

/-- `WithinModuleRelativeDegree`, src/modules.c:1919-1954. -/
noncomputable def WithinModuleRelativeDegree (net : Net) (m : ℕ) (p : Part) (v start : ℕ) : Option ℝ := do
  let g ← findGroup m p start v
  zscore (fun u => (NLinksToGroup net p u g : ℚ)) (p.grp g) v

/-- `WithinModuleRelativeStrength`, src/modules.c:1964-1998. -/
noncomputable def WithinModuleRelativeStrength (net : Net) (m : ℕ) (p : Part) (v start : ℕ) : Option ℝ := do
  let g ← findGroup m p start v
  zscore (fun u => StrengthToGroup net p u g) (p.grp g) v

/-- `AddNodeToGroupSoft`, src/modules.c:417-445: counters other than the size stay. -/
def addSoft (R : ℕ → Grp) (g v : ℕ) : ℕ → Grp :=
  Function.update R g { R g with nodes := (R g).nodes ++ [v], size := (R g).size + 1 }

/-- The loops of `CatalogRoleIdent` and `CatalogRoleIdentStrength`; `role g v` is the role of node `v` of group `g`. -/
def fillRoles (m : ℕ) (p : Part) (role : ℕ → ℕ → Option ℕ) : Option (ℕ → Grp) :=
  (List.range m).foldlM (fun R g => (p.grp g).nodes.foldlM (fun R v => (role g v).map fun r => addSoft R r v) R) fun _ => Grp.empty

/-- `CatalogRoleIdent`, src/modules.c:2008-2047. The module partition `mod` has `m` groups. -/
noncomputable def CatalogRoleIdent (net : Net) (m : ℕ) (mod : Part) : Option Part := do
  let p := MapPartToNet net m mod
  let R ← fillRoles m p fun g v => do
    let P ← ParticipationCoefficient net p v
    let z ← WithinModuleRelativeDegree net m p v g
    some (Roles.GetRole (P : ℝ) z)
  some (MapPartToNet net 7 { grp := R, inGroup := p.inGroup })

/-- `CatalogRoleIdentStrength`, src/modules.c:2058-2097. -/
noncomputable def CatalogRoleIdentStrength (net : Net) (m : ℕ) (mod : Part) : Option Part := do
  let p := MapPartToNet net m mod
  let R ← fillRoles m p fun g v => do
    let P ← WeightedParticipationCoefficient net m p v
    let z ← WithinModuleRelativeStrength net m p v g
    some (Roles.GetRole (P : ℝ) z)
  some (MapPartToNet net 7 { grp := R, inGroup := p.inGroup })

end GP
