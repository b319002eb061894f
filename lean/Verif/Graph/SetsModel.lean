import Verif.Graph.Model
import Verif.BFS.StrongModel

/-!
# Model: networks of the connected sets (`src/graph.c`)

The searches are those of `Verif.BFS.StrongModel`, on the numbers of the targets of the links.
-/

namespace GR

/-- The nodes the links of node `i` point to. -/
def targets (net : Net) (i : ℕ) : List ℕ := (net.neig i).filterMap Link.ref

/-- `root_loc`: a node for each node of the set in the order found, with soft copies of its links
(src/graph.c:2637-2639, 2656-2658, 2912-2915, 2929-2933).  The nodes are identified by their position;
`num` is set to the number in the original network, see the users. -/
def setNodes (src : Net) : List ℕ → Net → Option Net
  | [], net => some net
  | v :: S, net => do
    let (i, net) ← CreateNodeGraph net (src.label v)
    setNodes src S (CopyAdjacencyList (src.neig v) net i)

/-- `CleanAdjacencies`, src/graph.c:875-911: remove the links whose label no node of the network has. -/
def CleanAdjacencies (net : Net) : Net :=
  { net with
    neig := fun i => if i < net.n then (net.neig i).filter fun l => (dictFind net l.nodeLabel).isSome
      else net.neig i
    degree := fun i => if i < net.n then 0 else net.degree i
    strength := fun i => if i < net.n then 0 else net.strength i }

/-- The network of a set in `GetLargestStronglyConnectedSet` (src/graph.c:2667-2669).  `RenumberNodes`
(src/graph.c:1251-1272) makes the number of each node its position, which is how nodes are identified
here. -/
def cleanNet (src : Net) (S : List ℕ) : Option Net := do
  let net ← setNodes src S CreateHeaderGraph
  RewireAdjacencyByLabel (CleanAdjacencies net)

/-- `GetLargestStronglyConnectedSet`, src/graph.c:2592-2693.  The network is built while the set is
searched; here it is built from the set found. -/
def GetLargestStronglyConnectedSet (src : Net) (thres : Int) : Option Net := do
  let S ← BFS.GetLargestStronglyConnectedSet (targets src) src.n thres
  cleanNet src S

/-- `GetLargestWeaklyConnectedSet`, src/graph.c:2703-2841; as above, the network is built from the set found.  The copy
`root_cop` has the same links (see C44). -/
def GetLargestWeaklyConnectedSet (src : Net) (thres : Int) : Option Net := do
  let S ← BFS.GetLargestWeaklyConnectedSet (targets src) src.n thres
  cleanNet src S

/-- The field `node` of a link (src/graph.h:47): the number of the target, but 0 (`calloc`) in a link
made by `AddAdjacencySoft` (src/graph.c:211-219) that has not been rewired. -/
def nodeField (l : Link) : ℕ := l.ref.getD 0

/-- `ClearAdjacencies`, src/graph.c:2845-2863: remove the links with `net[node] == 0`. -/
def ClearAdjacencies (this : ℕ → Bool) (net : Net) : Net :=
  { net with
    neig := fun i => if i < net.n then (net.neig i).filter fun l => this (nodeField l)
      else net.neig i }

/-- The network of a set in `GetAllConnectedSets` (src/graph.c:2909-2945).  Nodes are identified by their
position in it (their field `num` keeps the number in the original network). -/
def clearNet (src : Net) (S : List ℕ) : Option Net := do
  let net ← setNodes src S CreateHeaderGraph
  RewireAdjacencyByLabel (ClearAdjacencies (fun v => S.contains v) net)

/-- `GetAllConnectedSets`, src/graph.c:2868-2967: the networks in `net_list`, each with the list of the
numbers of its nodes.  The tables `selected` and `thisNet` have `MAX_SIZE_NET = 10001` places; with more
nodes they are overrun (`none`). -/
def GetAllConnectedSets (src : Net) : Option (List (List ℕ × Net)) :=
  if 10001 < src.n then none
  else do
    let sets ← BFS.strongSets (targets src) src.n (src.n + 1) (fun _ => false) 0 []
    sets.mapM fun S => do
      let net ← clearNet src S
      return (S, net)

end GR

namespace GR

/-- `BuildNetFromGroup`, src/modules.c:1057-1084, on the list of the nodes of the group. -/
def BuildNetFromGroup (src : Net) (group : List ℕ) : Option Net := cleanNet src group

/-- The nodes `BuildNetFromGroupNeig` creates (src/modules.c:1106-1138): each node of the group and after it
those of its neighbours that are in another group.  `IsThereNode` (src/graph.c:789-800) compares the
addresses of the label buffers; those of the new network are all new, so that it answers 0. -/
def neigNodes (src : Net) (inGroup : ℕ → Option ℕ) (group : List ℕ) : List ℕ :=
  group.flatMap fun v => v :: (targets src v).filter fun u => inGroup u ≠ inGroup v

/-- `RewireAdjacencyByNum`, src/graph.c:263-295: the field `node` tells the target; the label is copied from
it.  A number that no node has is an access out of bounds (`none`). -/
def RewireAdjacencyByNum (net : Net) : Option Net := do
  let rewire (l : Link) : Option Link :=
    if nodeField l < net.n then some { l with ref := some (nodeField l), nodeLabel := net.label (nodeField l) }
    else none
  let rows ← (List.range net.n).mapM fun i => (net.neig i).mapM rewire
  return { net with
    neig := fun i => if i < net.n then rows.getD i [] else net.neig i
    degree := fun i => if i < net.n then 0 else net.degree i
    strength := fun i => if i < net.n then 0 else net.strength i }

/-- `BuildNetFromGroupNeig`, src/modules.c:1093-1143. -/
def BuildNetFromGroupNeig (src : Net) (inGroup : ℕ → Option ℕ) (group : List ℕ) : Option Net := do
  let net ← setNodes src (neigNodes src inGroup group) CreateHeaderGraph
  RewireAdjacencyByNum (CleanAdjacencies net)

end GR
