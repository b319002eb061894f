import Verif.Heap.Model

/-!
# Copies of networks in memory (`src/graph.c`)

As in `Verif/Heap/Model.lean`. The dictionary of labels is a list with the last node first, as a search returns the last node with a label (C113);
its own blocks, all of them freed by `FreeLabelDict` if labels are distinct, are left out.
-/

namespace HP

/-- The walk along the adjacency list and what follows it in `AddAdjacencySoft`, src/graph.c:194-221. -/
def softWalk (add : Bool) (w : ℚ) (label : String) : (fuel : ℕ) → (p : ℕ) → Heap → Option (Int × Heap)
  | 0, _, _ => none
  | fuel + 1, p, h => do
    let a ← h.lis p
    if a.next = 0 then
      let (c, h) := h.calloc (.lis { node := 0, nodeLabel := 0, next := 0, ref := 0, weight := w })
      let h := h.set p (.lis { a with next := c })
      let (b, h) := h.calloc (.str label)
      return (1, h.set c (.lis { node := 0, nodeLabel := b, next := 0, ref := 0, weight := w }))
    else do
      let b ← h.lis a.next
      let s ← h.str b.nodeLabel
      if s = label then
        if add then return (1, h.set a.next (.lis { b with weight := b.weight + w })) else return (0, h)
      else softWalk add w label fuel a.next h

/-- `AddAdjacencySoft`, src/graph.c:178-223. (A label too long for its buffer is not modelled: callers pass labels of nodes.) -/
def AddAdjacencySoft (fuel node1 : ℕ) (label : String) (auto add : Bool) (w : ℚ) (h : Heap) : Option (Int × Heap) := do
  let x ← h.gra node1
  let s ← h.str x.label
  if s = label ∧ auto = false then return (0, h)
  else softWalk add w label fuel x.neig h

/-- `CopyAdjacencyList`, src/graph.c:301-311: the walk from the element `p` of the list of the origin. -/
def CopyAdjacencyList (links ndes : ℕ) : (fuel : ℕ) → (p : ℕ) → Heap → Option Heap
  | 0, _, _ => none
  | fuel + 1, p, h => do
    let a ← h.lis p
    if a.next = 0 then return h
    else do
      let b ← h.lis a.next
      let s ← h.str b.nodeLabel
      let r ← AddAdjacencySoft links ndes s true false b.weight h
      CopyAdjacencyList links ndes fuel a.next r.2

/-- The loop of `CopyNetwork`, src/graph.c:325-336, from the node `p1` of the origin; `last` is the last node of the copy. -/
def copyLoop (links : ℕ) : (fuel : ℕ) → (p1 last : ℕ) → Heap → Option Heap
  | 0, _, _, _ => none
  | fuel + 1, p1, last, h => do
    let x ← h.gra p1
    if x.next = 0 then return h
    else do
      let y ← h.gra x.next
      let s ← h.str y.label
      let (p2, h) ← CreateNodeGraph links last s h
      let h ← CopyAdjacencyList links p2 links y.neig h
      copyLoop links fuel x.next p2 h

/-- `MakeLabelDict`, src/graph.c:350-367, from the node `p`: label and address of the nodes after it. -/
def makeDict : (fuel : ℕ) → (p : ℕ) → List (String × ℕ) → Heap → Option (List (String × ℕ))
  | 0, _, _, _ => none
  | fuel + 1, p, acc, h => do
    let x ← h.gra p
    if x.next = 0 then return acc
    else do
      let y ← h.gra x.next
      let s ← h.str y.label
      makeDict fuel x.next ((s, x.next) :: acc) h

/-- `GetNodeDict`, src/graph.c:755-771: `NULL` if there is no node with the label. -/
def getNodeDict (label : String) (dict : List (String × ℕ)) : ℕ :=
  match dict.find? fun e => e.1 = label with
  | some e => e.2
  | none => 0

/-- Links of a node in `RewireAdjacencyByLabel`, src/graph.c:247-251, from the element `p`. -/
def rewireLinks (dict : List (String × ℕ)) : (fuel : ℕ) → (p : ℕ) → Heap → Option Heap
  | 0, _, _ => none
  | fuel + 1, p, h => do
    let a ← h.lis p
    if a.next = 0 then return h
    else do
      let b ← h.lis a.next
      let s ← h.str b.nodeLabel
      let r := getNodeDict s dict
      let y ← h.gra r
      rewireLinks dict fuel a.next (h.set a.next (.lis { b with ref := r, node := y.num }))

/-- Nodes in `RewireAdjacencyByLabel`, src/graph.c:241-252, from the node `p`. -/
def rewireNodes (links : ℕ) (dict : List (String × ℕ)) : (fuel : ℕ) → (p : ℕ) → Heap → Option Heap
  | 0, _, _ => none
  | fuel + 1, p, h => do
    let x ← h.gra p
    if x.next = 0 then return h
    else do
      let h ← resetCaches x.next h
      let y ← h.gra x.next
      let h ← rewireLinks dict links y.neig h
      rewireNodes links dict fuel x.next h

/-- `RewireAdjacencyByLabel`, src/graph.c:229-257. -/
def RewireAdjacencyByLabel (fuel net : ℕ) (h : Heap) : Option Heap := do
  let dict ← makeDict fuel net [] h
  rewireNodes fuel dict fuel net h

/-- `CopyNetwork`, src/graph.c:316-344: the header of the copy. -/
def CopyNetwork (fuel p1 : ℕ) (h : Heap) : Option (ℕ × Heap) := do
  let (root2, h) := CreateHeaderGraph h
  let h ← copyLoop fuel fuel p1 root2 h
  let h ← RewireAdjacencyByLabel fuel root2 h
  return (root2, h)

end HP
