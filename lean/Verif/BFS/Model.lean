import Mathlib.Logic.Function.Basic
import Mathlib.Data.Rat.Defs
import Mathlib.Algebra.BigOperators.Group.Finset.Basic
import Mathlib.Algebra.Field.Rat

/-!
# Breadth-first lists (`src/graph.c`) and the functions that use them

A network is read only here: `n` nodes `0 … n-1` and `adj i`, the targets (`ref`) of the adjacency
list of node `i`, in order.  A `struct node_bfs` list is a Lean list of entries; a pointer into the
list is a number of entries (`lp` = how many entries are at or before it, 0 for the header), and
`*size` is the length.
-/

namespace BFS

/-- `struct node_bfs` (src/graph.h:56-63): node, distance and list of predecessors (`none` is the
header of the list, otherwise the node of the predecessor entry; a node is in at most one entry). -/
structure Entry where
  node : ℕ
  d : ℕ
  pred : List (Option ℕ)
deriving DecidableEq, Repr

/-- A list and the `state` fields of the nodes. -/
structure Q where
  list : List Entry
  state : ℕ → Bool

/-- `ResetNodesState` and an empty list (src/graph.c:1241-1246). -/
def Q.empty : Q := { list := [], state := fun _ => false }

/-- `GetBFS` from some entry on followed by `AddPredecessor` when the distances agree
(src/graph.c:1021-1032, 1039-1049, 1117-1120). -/
def addPred (v : ℕ) (p : Option ℕ) (dist : ℕ) : List Entry → List Entry
  | [] => []
  | e :: es =>
    if e.node = v then (if e.d = dist then { e with pred := e.pred ++ [p] } else e) :: es
    else e :: addPred v p dist es

/-- `Enqueue`, src/graph.c:1086-1122: `p` is the node of the predecessor, whose entry is followed in
the list by the entries from position `ppos + 1` on (the search starts at the predecessor itself). -/
def Enqueue (v : ℕ) (p : Option ℕ) (ppos : ℕ) (dist : ℕ) (q : Q) : Q :=
  if q.state v = false then
    { list := q.list ++ [{ node := v, d := dist, pred := [p] }]
      state := Function.update q.state v true }
  else { q with list := q.list.take ppos ++ addPred v p dist (q.list.drop ppos) }

/-- `EnqueueAdjaList`, src/graph.c:1127-1137, for the entry at position `pos`, of node `u`. -/
def EnqueueAdjaList (adj : ℕ → List ℕ) (u pos dist : ℕ) (q : Q) : Q :=
  (adj u).foldl (fun q v => Enqueue v (some u) pos dist q) q

/-- `RenewQueue`, src/graph.c:1205-1216; `none`: not finished after `fuel` rounds. -/
def RenewQueue (adj : ℕ → List ℕ) (d : ℕ) : (fuel : ℕ) → (lp : ℕ) → Q → Option (ℕ × Q)
  | 0, _, _ => none
  | fuel + 1, lp, q =>
    match q.list[lp]? with
    | none => some (lp, q)
    | some e =>
      if e.d = d then RenewQueue adj d fuel (lp + 1) (EnqueueAdjaList adj e.node lp (d + 1) q)
      else some (lp, q)

/-- What one round of the loop `do { size_ant = *size; lp = RenewQueue(list,lp,size,d); d++; …}
while (*size != size_ant)` shows: the growth `*size - size_ant` and the nodes of the entries after the
new `lp`. -/
structure Round where
  grew : ℕ
  after : List ℕ
deriving DecidableEq, Repr

/-- State at the end of the loop. -/
structure Done where
  d : ℕ
  lp : ℕ
  rounds : List Round
  q : Q

/-- The loop `do { size_ant = *size; lp = RenewQueue(list,lp,size,d); …; d++; } while (*size !=
size_ant)` found in many functions (e.g. src/graph.c:1647-1654, 2450-2454, 2487-2501, 2753-2767,
src/modules.c:1462-1475), with its rounds. `n` is the number of nodes. -/
def expand (adj : ℕ → List ℕ) (n : ℕ) : (fuel : ℕ) → (d lp : ℕ) → Q → Option Done
  | 0, _, _, _ => none
  | fuel + 1, d, lp, q => do
    let (lp', q') ← RenewQueue adj d (n + 1) lp q
    let r : Round := { grew := q'.list.length - q.list.length
                       after := (q'.list.drop lp').map Entry.node }
    if q'.list.length ≠ q.list.length then do
      let D ← expand adj n fuel (d + 1) lp' q'
      return { D with rounds := r :: D.rounds }
    else return { d := d + 1, lp := lp', rounds := [r], q := q' }

/-- A whole search from `s` (src/graph.c:2441-2454). `n + 1` rounds suffice, see `search_final`. -/
def search (adj : ℕ → List ℕ) (n s : ℕ) : Option Done :=
  expand adj n (n + 1) 0 0 (Enqueue s none 0 0 Q.empty)

/-- `IsGraphConnected`, src/graph.c:2432-2465. The empty network dereferences NULL (`none`). -/
def IsGraphConnected (adj : ℕ → List ℕ) (n : ℕ) : Option Int :=
  if n = 0 then none
  else do
    let D ← search adj n 0
    return if D.q.list.length = n then 1 else 0

/-- Filling the array `histogram` along the rounds of one search (src/graph.c:1647-1654): round `d`
(counted from 1) adds `grew / nodes` to cell `d`, if the list grew; cells from 10000 on are outside
the array (`none`). -/
def fillHist (n : ℕ) : (d : ℕ) → List Round → (ℕ → ℚ) → Option (ℕ → ℚ)
  | _, [], h => some h
  | d, r :: rs, h =>
    if r.grew = 0 then fillHist n (d + 1) rs h
    else if d < 10000 then fillHist n (d + 1) rs (Function.update h d (h d + (r.grew : ℚ) / n))
    else none

/-- The loop over all nodes of `AveragePathLength` (src/graph.c:1638-1665), for the nodes in `ps`.
Result `none` inside: the early return with -1. -/
def pathLoop (adj : ℕ → List ℕ) (n : ℕ) : List ℕ → (ℕ → ℚ) → Option (Option (ℕ → ℚ))
  | [], h => some (some h)
  | p :: ps, h => do
    let D ← search adj n p
    let h' ← fillHist n 1 D.rounds h
    if D.q.list.length ≠ n then return none
    else pathLoop adj n ps h'

/-- `AveragePathLength`, src/graph.c:1615-1674. Cells of the histogram are added from 0 to 9999. -/
def AveragePathLength (adj : ℕ → List ℕ) (n : ℕ) : Option ℚ := do
  match ← pathLoop adj n (List.range n) (fun _ => 0) with
  | none => return -1
  | some h =>
    return ∑ i ∈ Finset.range 10000, if h i ≠ 0 then (i : ℚ) * h i / ((n : ℚ) - 1) else 0

/-- The loop over all nodes of `AverageInverseDistance` (src/graph.c:1703-1720). -/
def inverseLoop (adj : ℕ → List ℕ) (n : ℕ) : List ℕ → (ℕ → ℚ) → Option (ℕ → ℚ)
  | [], h => some h
  | p :: ps, h => do
    let D ← search adj n p
    let h' ← fillHist n 1 D.rounds h
    inverseLoop adj n ps h'

/-- `AverageInverseDistance`, src/graph.c:1680-1733. -/
def AverageInverseDistance (adj : ℕ → List ℕ) (n : ℕ) : Option ℚ := do
  let h ← inverseLoop adj n (List.range n) (fun _ => 0)
  return ∑ i ∈ Finset.range 10000, if h i ≠ 0 then h i / ((i : ℚ) * ((n : ℚ) - 1)) else 0

/-- Variables of `ClustersPartition`: `last` (number of nodes at or before it), `anod`, the groups
created so far with their nodes in order, and the `inGroup` fields (`none` = -1). -/
structure CP where
  last : ℕ
  anod : ℕ
  groups : List (List ℕ)
  inGroup : ℕ → Option ℕ

/-- `while (p->inGroup >= 0) p = p->next;` from node `p` on; past the end NULL is dereferenced. -/
def firstFree (inGroup : ℕ → Option ℕ) (n : ℕ) : (fuel : ℕ) → (p : ℕ) → Option ℕ
  | 0, _ => none
  | fuel + 1, p =>
    if p < n then (if (inGroup p).isSome then firstFree inGroup n fuel (p + 1) else some p) else none

/-- One turn of the outer loop of `ClustersPartition`, src/modules.c:1444-1477. `AddNodeToGroup` is
reduced to appending the node and setting `inGroup`. -/
def clusterStep (adj : ℕ → List ℕ) (n : ℕ) (c : CP) : Option CP := do
  let p ← firstFree c.inGroup n (n + 1) c.last
  let D ← search adj n p
  let members := p :: (D.rounds.map Round.after).flatten
  return { last := p + 1
           anod := c.anod + members.length
           groups := c.groups ++ [members]
           inGroup := members.foldl (fun g v => Function.update g v (some c.groups.length)) c.inGroup }

/-- The outer loop (`do … while (anod < nnod)`). -/
def clusterLoop (adj : ℕ → List ℕ) (n : ℕ) : (fuel : ℕ) → CP → Option CP
  | 0, _ => none
  | fuel + 1, c => do
    let c' ← clusterStep adj n c
    if c'.anod < n then clusterLoop adj n fuel c' else return c'

/-- `ClustersPartition`, src/modules.c:1424-1489. -/
def ClustersPartition (adj : ℕ → List ℕ) (n : ℕ) : Option CP :=
  clusterLoop adj n (n + 1) { last := 0, anod := 0, groups := [], inGroup := fun _ => none }

/-- `AreConnectedList`, src/graph.c:2470-2508: does a round show a node of `set`? (The function stops
at the first one; the rest of the search has no effect on the result.) The start node is not
looked up. -/
def AreConnectedList (adj : ℕ → List ℕ) (n s : ℕ) (set : ℕ → Bool) : Option Bool := do
  let D ← search adj n s
  return D.rounds.any fun r => r.after.any set

/-- Variables of `GetLargestWeaklyConnectedSet` inside one turn of its outer loop: the list, `lp`,
`d`, the nodes of `root_loc` in order, `selected`, `this_net` and `anod`. -/
structure WK where
  q : Q
  lp : ℕ
  d : ℕ
  loc : List ℕ
  selected : ℕ → Bool
  thisNet : ℕ → Bool
  anod : ℕ

/-- Nodes added to `root_loc` (src/graph.c:2757-2763). -/
def WK.add (w : WK) (vs : List ℕ) : WK :=
  { w with loc := w.loc ++ vs
           selected := fun v => w.selected v || vs.contains v
           thisNet := fun v => w.thisNet v || vs.contains v
           anod := w.anod + vs.length }

/-- Run the loop `do … while (*size != size_ant)` and add what its rounds show
(src/graph.c:2752-2767, 2788-2801). -/
def WK.grow (adj : ℕ → List ℕ) (n : ℕ) (w : WK) : Option WK := do
  let D ← expand adj n (n + 1) w.d w.lp w.q
  return { w with q := D.q, lp := D.lp, d := D.d }.add (D.rounds.map Round.after).flatten

/-- The pass over the nodes after `p` (src/graph.c:2770-2805). -/
def weakPass (adj : ℕ → List ℕ) (n : ℕ) : List ℕ → WK → Option WK
  | [], w => some w
  | p :: ps, w => do
    let c ← AreConnectedList adj n p w.thisNet
    if c && !w.selected p then do
      let w' ← { w.add [p] with q := Enqueue p none 0 w.d w.q }.grow adj n
      weakPass adj n ps w'
    else weakPass adj n ps w

/-- `while (selected[p->num] != 0) p = p->next;` -/
def firstUnselected (selected : ℕ → Bool) (n : ℕ) : Option ℕ :=
  (List.range n).find? fun v => !selected v

/-- The outer loop of `GetLargestWeaklyConnectedSet`, src/graph.c:2734-2833. `best` are the nodes of
`giant`. -/
def weakLoop (adj : ℕ → List ℕ) (n : ℕ) (thres : Int) :
    (fuel : ℕ) → (selected : ℕ → Bool) → (anod : ℕ) → (best : List ℕ) → Option (List ℕ)
  | 0, _, _, _ => none
  | fuel + 1, selected, anod, best => do
    let p ← firstUnselected selected n
    let w0 : WK := { q := Enqueue p none 0 0 Q.empty, lp := 0, d := 0, loc := [p]
                     selected := Function.update selected p true
                     thisNet := fun v => v == p, anod := anod + 1 }
    let w1 ← w0.grow adj n
    let w ← weakPass adj n ((List.range n).drop (p + 1)) w1
    let best' := if best.length < w.loc.length then w.loc else best
    if best.length < w.loc.length ∧ (n / 2 < w.loc.length ∨ thres < w.loc.length) then return best'
    else if w.anod < n then weakLoop adj n thres fuel w.selected w.anod best'
    else return best'

/-- `GetLargestWeaklyConnectedSet`, src/graph.c:2703-2841: the nodes (numbers in the original
network) of the network returned. Its links are those of the original among these nodes. -/
def GetLargestWeaklyConnectedSet (adj : ℕ → List ℕ) (n : ℕ) (thres : Int) : Option (List ℕ) :=
  weakLoop adj n thres (n + 1) (fun _ => false) 0 []

end BFS
