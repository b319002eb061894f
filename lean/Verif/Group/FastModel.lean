import Verif.Group.Model

/-!
# The fast versions of the group operations (`src/modules.c`)

Same conventions as `Verif.Group.Model`.
-/

namespace GP

/-- `AddNodeToGroupFast`, src/modules.c:380-407: list, size and `inGroup`, nothing else. -/
def AddNodeToGroupFast (g v : ℕ) (p : Part) : Part :=
  let G := p.grp g
  let G' : Grp := { G with nodes := G.nodes ++ [v], size := G.size + 1 }
  { grp := Function.update p.grp g G'
    inGroup := Function.update p.inGroup v (some g) }

/-- `RemoveNodeFromGroupFast`, src/modules.c:498-522. -/
def RemoveNodeFromGroupFast (g v : ℕ) (p : Part) : Int × Part :=
  if v ∈ (p.grp g).nodes then
    let G := p.grp g
    let G' : Grp := { G with nodes := G.nodes.erase v, size := G.size - 1 }
    (1, { p with grp := Function.update p.grp g G' })
  else (0, p)

/-- `MoveNodeFast`, src/modules.c:549-557. -/
def MoveNodeFast (v old new : ℕ) (p : Part) : Int × Part :=
  let r := RemoveNodeFromGroupFast old v p
  if r.1 = 0 then (0, r.2) else (1, AddNodeToGroupFast new v r.2)

/-- Loop of `MergeGroupsFast` (src/modules.c:987-988); `none`: not finished after `fuel` turns. -/
def mergeLoopFast (g1 g2 : ℕ) : (fuel : ℕ) → Part → Option Part
  | 0, _ => none
  | fuel + 1, p =>
    match (p.grp g1).nodes with
    | [] => some p
    | v :: _ => mergeLoopFast g1 g2 fuel (MoveNodeFast v g1 g2 p).2

/-- `MergeGroupsFast`, src/modules.c:982-990. -/
def MergeGroupsFast (g1 g2 : ℕ) (p : Part) : Option Part :=
  mergeLoopFast g1 g2 ((p.grp g1).nodes.length + 1) p

/-- `MapPartToNetFast`, src/modules.c:1301-1365: the counters of the groups become 0, the `inGroup`
fields are set from the lists. -/
def MapPartToNetFast (m : ℕ) (p : Part) : Part :=
  { grp := fun g => if g < m then { Grp.empty with nodes := (p.grp g).nodes, size := (p.grp g).size }
                    else p.grp g
    inGroup := mapInGroup m p }

end GP
