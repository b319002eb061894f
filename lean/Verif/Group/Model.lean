import Verif.Basic.Res
import Mathlib.Logic.Function.Basic
import Mathlib.Data.Rat.Defs
import Mathlib.Algebra.BigOperators.Group.Finset.Basic
import Mathlib.Algebra.BigOperators.Group.Finset.Defs
import Mathlib.Algebra.Field.Rat

/-!
# Groups of nodes with link counters (`src/modules.c`)

The network is read only: `n` nodes and, by node, the adjacency list as pairs (number of the target,
weight).  `NodeDegree` and `NodeStrength` are its length and its sum of weights (C15 proves this of
the cached versions).  The groups of a partition are numbered by their labels `0 … m-1`, the order
in which they hang from the header; a pointer to a group is its label.
-/

namespace GP

open RG
open scoped BigOperators

/-- A network. -/
structure Net where
  n : ℕ
  neig : ℕ → List (ℕ × ℚ)

/-- `struct group` (src/modules.h:13-34) without coordinates and hierarchy. -/
structure Grp where
  nodes : List ℕ
  size : Int
  totlinks : Int
  inlinks : Int
  outlinks : Int
  totlinksW : ℚ
  inlinksW : ℚ
  outlinksW : ℚ
deriving DecidableEq, Repr

/-- `CreateGroup`, src/modules.c:65-105: an empty group. -/
def Grp.empty : Grp := ⟨[], 0, 0, 0, 0, 0, 0, 0⟩

/-- A partition and the `inGroup` fields of the nodes (`none` is -1). -/
structure Part where
  grp : ℕ → Grp
  inGroup : ℕ → Option ℕ

/-- `m` empty groups, nodes in no group. -/
def Part.empty : Part := { grp := fun _ => Grp.empty, inGroup := fun _ => none }

/-- `NodeDegree`, src/graph.c:2332-2348. -/
def NodeDegree (net : Net) (v : ℕ) : Int := (net.neig v).length

/-- `NodeStrength`, src/graph.c:2354-2370. -/
def NodeStrength (net : Net) (v : ℕ) : ℚ := (net.neig v).foldl (fun s x => s + x.2) 0

/-- `NLinksToGroup`, src/modules.c:817-828 (`NLinksToGroupByNum`, 853-864, is the same). -/
def NLinksToGroup (net : Net) (p : Part) (v g : ℕ) : Int :=
  (net.neig v).foldl (fun s x => if p.inGroup x.1 = some g then s + 1 else s) 0

/-- `StrengthToGroup`, src/modules.c:874-885. -/
def StrengthToGroup (net : Net) (p : Part) (v g : ℕ) : ℚ :=
  (net.neig v).foldl (fun s x => if p.inGroup x.1 = some g then s + x.2 else s) 0

/-- `AddNodeToGroup`, src/modules.c:328-369. -/
def AddNodeToGroup (net : Net) (g v : ℕ) (p : Part) : Part :=
  let G := p.grp g
  let inlink := NLinksToGroup net p v g
  let inweight := StrengthToGroup net p v g
  let tot := G.totlinks + (NodeDegree net v - inlink)
  let inn := G.inlinks + inlink
  let totW := G.totlinksW + (NodeStrength net v - inweight)
  let innW := G.inlinksW + inweight
  { grp := (Function.update p.grp g
      { nodes := G.nodes ++ [v], size := G.size + 1, totlinks := tot, inlinks := inn,
        outlinks := tot - inn, totlinksW := totW, inlinksW := innW, outlinksW := totW - innW })
    inGroup := Function.update p.inGroup v (some g) }

/-- `RemoveNodeFromGroup`, src/modules.c:449-484: 0 if the node is not in the list of the group.
The field `inGroup` of the node is left as it is. -/
def RemoveNodeFromGroup (net : Net) (g v : ℕ) (p : Part) : Int × Part :=
  let G := p.grp g
  if v ∈ G.nodes then
    let inlink := NLinksToGroup net p v g
    let inweight := StrengthToGroup net p v g
    let tot := G.totlinks - (NodeDegree net v - inlink)
    let inn := G.inlinks - inlink
    let totW := G.totlinksW - (NodeStrength net v - inweight)
    let innW := G.inlinksW - inweight
    let G' : Grp :=
      { nodes := G.nodes.erase v, size := G.size - 1, totlinks := tot, inlinks := inn,
        outlinks := tot - inn, totlinksW := totW, inlinksW := innW, outlinksW := totW - innW }
    (1, { p with grp := Function.update p.grp g G' })
  else (0, p)

/-- `MoveNode`, src/modules.c:529-537. -/
def MoveNode (net : Net) (v old new : ℕ) (p : Part) : Int × Part :=
  let r := RemoveNodeFromGroup net old v p
  if r.1 = 0 then (0, r.2) else (1, AddNodeToGroup net new v r.2)

/-- Loop of `MergeGroups` (src/modules.c:976-977); `none`: not finished after `fuel` turns. -/
def mergeLoop (net : Net) (g1 g2 : ℕ) : (fuel : ℕ) → Part → Option Part
  | 0, _ => none
  | fuel + 1, p =>
    match (p.grp g1).nodes with
    | [] => some p
    | v :: _ => mergeLoop net g1 g2 fuel (MoveNode net v g1 g2 p).2

/-- `MergeGroups`, src/modules.c:972-979. For two different groups every turn takes one node away
from the first, so that `size + 1` turns suffice; `none` stands for a loop without end. -/
def MergeGroups (net : Net) (g1 g2 : ℕ) (p : Part) : Option Part :=
  mergeLoop net g1 g2 ((p.grp g1).nodes.length + 1) p

/-- `NG2GLinks`, src/modules.c:911-924. -/
def NG2GLinks (net : Net) (p : Part) (g1 g2 : ℕ) : Int :=
  let s := (p.grp g1).nodes.foldl (fun s v => s + NLinksToGroup net p v g2) 0
  if g1 = g2 then s / 2 else s

/-- `NG2GLinksWeight`, src/modules.c:950-963. -/
def NG2GLinksWeight (net : Net) (p : Part) (g1 g2 : ℕ) : ℚ :=
  let s := (p.grp g1).nodes.foldl (fun s v => s + StrengthToGroup net p v g2) 0
  if g1 = g2 then s / 2 else s

/-- First pass of `MapPartToNet` (src/modules.c:1243-1267): the `inGroup` fields from the lists of the
groups `0 … m-1`. Labels identify nodes, so looking a node up by the label of a list element gives
the same node. -/
def mapInGroup (m : ℕ) (p : Part) : ℕ → Option ℕ :=
  (List.range m).foldl (fun f g => (p.grp g).nodes.foldl (fun f v => Function.update f v (some g)) f)
    (fun _ => none)

/-- Second pass of `MapPartToNet` for one group (src/modules.c:1270-1289). -/
def mapCounts (net : Net) (p : Part) (g : ℕ) : Grp :=
  let G := p.grp g
  let tot := G.nodes.foldl (fun s v => s + NodeDegree net v) 0
  let inn := G.nodes.foldl (fun s v => s + NLinksToGroup net p v g) 0
  let totW := G.nodes.foldl (fun s v => s + NodeStrength net v) 0
  let innW := G.nodes.foldl (fun s v => s + StrengthToGroup net p v g) 0
  let inn := inn / 2
  let tot := tot - inn
  let innW := innW / 2
  let totW := totW - innW
  { G with totlinks := tot, inlinks := inn, outlinks := tot - inn,
           totlinksW := totW, inlinksW := innW, outlinksW := totW - innW }

/-- `MapPartToNet`, src/modules.c:1232-1298. -/
def MapPartToNet (net : Net) (m : ℕ) (p : Part) : Part :=
  let p := { p with inGroup := mapInGroup m p }
  { p with grp := fun g => if g < m then mapCounts net p g else p.grp g }

/-- `Modularity`, src/modules.c:1796-1816; `none` is the division by 0 of a network without links. -/
def Modularity (m : ℕ) (p : Part) : Option ℚ :=
  let links2 : Int := ∑ g ∈ Finset.range m, ((p.grp g).totlinks + (p.grp g).inlinks)
  if links2 = 0 then none
  else some (∑ g ∈ Finset.range m,
    (((2 * (p.grp g).inlinks : Int) : ℚ) / links2 -
      (((p.grp g).inlinks + (p.grp g).totlinks : Int) : ℚ) *
        (((p.grp g).inlinks + (p.grp g).totlinks : Int) : ℚ) / ((links2 : ℚ) * links2)))

/-- `ModularityWeight`, src/modules.c:1823-1842. -/
def ModularityWeight (m : ℕ) (p : Part) : Option ℚ :=
  let links2 : ℚ := ∑ g ∈ Finset.range m, ((p.grp g).totlinksW + (p.grp g).inlinksW)
  if links2 = 0 then none
  else some (∑ g ∈ Finset.range m,
    (2 * (p.grp g).inlinksW / links2 -
      ((p.grp g).inlinksW + (p.grp g).totlinksW) * ((p.grp g).inlinksW + (p.grp g).totlinksW) /
        (links2 * links2)))

/-- Contribution of one group to the energy, as written in `SACommunityIdent`: `i` inner links,
`d` sum of degrees, `L` the variable `totallinks`. -/
def term (i d L : ℚ) : ℚ := 2 * i / L - d * d / (L * L)

/-- Energy change of a single move, src/modules.c:2414-2445 (and 2210-2238 in `SAGroupSplit`). -/
def dEMove (net : Net) (p : Part) (L : ℚ) (v old new : ℕ) : ℚ :=
  let O := p.grp old
  let N := p.grp new
  let inold : ℚ := NLinksToGroup net p v old
  let innew : ℚ := NLinksToGroup net p v new
  let nlink : ℚ := NodeDegree net v
  (-term O.inlinks (O.totlinks + O.inlinks) L) - term N.inlinks (N.totlinks + N.inlinks) L
    + term (O.inlinks - inold) (O.totlinks + O.inlinks - nlink) L
    + term (N.inlinks + innew) (N.totlinks + N.inlinks + nlink) L

/-- Energy change of a merge, src/modules.c:2469-2486 (and 2522-2542). -/
def dEMerge (net : Net) (p : Part) (L : ℚ) (g1 g2 : ℕ) : ℚ :=
  let A := p.grp g1
  let B := p.grp g2
  let nlink : ℚ := NG2GLinks net p g1 g2
  (-term A.inlinks (A.totlinks + A.inlinks) L) - term B.inlinks (B.totlinks + B.inlinks) L
    + term (A.inlinks + B.inlinks + nlink) (A.totlinks + A.inlinks + B.totlinks + B.inlinks) L

end GP
