import Verif.Graph.Model

/-!
# Networks in memory (`src/graph.c`)

The functions of `src/graph.c` that build, change and remove networks, with pointers and blocks of memory.  `Verif/Graph/Model.lean` models the
same functions with nodes as numbers; C135 relates the two.

The heap maps addresses to live blocks. Reading or writing a block that is not live, freeing one that is not live, and using a block as another
type are undefined behaviour (`none`). `NULL` is 0 and never live; `free(NULL)` does nothing.  `calloc` never fails and never returns an address that
was used before, so that every use of a freed block is detected.  Loops and recursions have a number of steps `fuel`; a loop that needs more is
`none` too, so a result `some` for all `fuel` above a bound means termination.
-/

namespace HP

/-- `struct node_gra`, src/graph.h:18-33, without coordinates, `state` and scratch fields. -/
structure Gra where
  label : ℕ
  num : Int
  neig : ℕ
  next : ℕ
  degree : ℕ
  strength : ℚ
deriving DecidableEq

/-- `struct node_lis`, src/graph.h:40-48, without `status` and `btw`. -/
structure Lis where
  node : Int
  nodeLabel : ℕ
  next : ℕ
  ref : ℕ
  weight : ℚ
deriving DecidableEq

/-- A block of memory. `str` is a buffer of `MAX_LABEL_LENGTH` bytes with a string. -/
inductive Obj
  | str (s : String)
  | gra (x : Gra)
  | lis (x : Lis)
deriving DecidableEq

structure Heap where
  mem : ℕ → Option Obj
  brk : ℕ

namespace Heap

/-- `calloc` followed by assignments to fields. -/
def calloc (h : Heap) (o : Obj) : ℕ × Heap :=
  (h.brk, { mem := Function.update h.mem h.brk (some o), brk := h.brk + 1 })

/-- The `struct node_gra` at `p`. -/
def gra (h : Heap) (p : ℕ) : Option Gra :=
  match h.mem p with
  | some (.gra x) => some x
  | _ => none

/-- The `struct node_lis` at `p`. -/
def lis (h : Heap) (p : ℕ) : Option Lis :=
  match h.mem p with
  | some (.lis x) => some x
  | _ => none

/-- The string at `p`. -/
def str (h : Heap) (p : ℕ) : Option String :=
  match h.mem p with
  | some (.str x) => some x
  | _ => none

/-- Assignment to a block that was read before. -/
def set (h : Heap) (p : ℕ) (o : Obj) : Heap := { h with mem := Function.update h.mem p (some o) }

/-- `free`. -/
def free (h : Heap) (p : ℕ) : Option Heap :=
  if p = 0 then some h
  else match h.mem p with
    | some _ => some { h with mem := Function.update h.mem p none }
    | none => none

end Heap

/-- `CreateHeaderGraph`, src/graph.c:16-38. -/
def CreateHeaderGraph (h : Heap) : ℕ × Heap :=
  h.calloc (.gra { label := 0, num := -1, neig := 0, next := 0, degree := 0, strength := 0 })

/-- `while (p->next != NULL) p = p->next;`, src/graph.c:53-54. -/
def lastGra : (fuel : ℕ) → (p : ℕ) → Heap → Option ℕ
  | 0, _, _ => none
  | fuel + 1, p, h => do
    let x ← h.gra p
    if x.next = 0 then return p else lastGra fuel x.next h

/-- `CreateNodeGraph`, src/graph.c:49-76. -/
def CreateNodeGraph (fuel p : ℕ) (label : String) (h : Heap) : Option (ℕ × Heap) := do
  let q ← lastGra fuel p h
  let x ← h.gra q
  let (a, h) := h.calloc (.gra { label := 0, num := 0, neig := 0, next := 0, degree := 0, strength := 0 })
  let h := h.set q (.gra { x with next := a })
  let (b, h) := h.calloc (.str label)
  if GR.fits label then
    let (c, h) := h.calloc (.lis { node := -1, nodeLabel := 0, next := 0, ref := 0, weight := 0 })
    return (a, h.set a (.gra { label := b, num := x.num + 1, neig := c, next := 0, degree := 0, strength := 0 }))
  else none

/-- Reset of the cached degree and strength of a node (src/graph.c:136-139, 454-457). -/
def resetCaches (p : ℕ) (h : Heap) : Option Heap := do
  let x ← h.gra p
  return h.set p (.gra { x with degree := 0, strength := 0 })

/-- The walk along the adjacency list from the element `p` and what follows it in `AddAdjacency`, src/graph.c:141-168. -/
def addWalk (add : Bool) (w : ℚ) (node2 : ℕ) : (fuel : ℕ) → (p : ℕ) → Heap → Option (Int × Heap)
  | 0, _, _ => none
  | fuel + 1, p, h => do
    let a ← h.lis p
    if a.next = 0 then
      let y ← h.gra node2
      let (c, h) := h.calloc (.lis { node := y.num, nodeLabel := 0, next := 0, ref := node2, weight := w })
      let h := h.set p (.lis { a with next := c })
      let s ← h.str y.label
      let (b, h) := h.calloc (.str s)
      return (1, h.set c (.lis { node := y.num, nodeLabel := b, next := 0, ref := node2, weight := w }))
    else do
      let b ← h.lis a.next
      if b.ref = node2 then
        if add then return (1, h.set a.next (.lis { b with weight := b.weight + w })) else return (0, h)
      else addWalk add w node2 fuel a.next h

/-- `AddAdjacency`, src/graph.c:119-170. -/
def AddAdjacency (fuel node1 node2 : ℕ) (auto add : Bool) (w : ℚ) (h : Heap) : Option (Int × Heap) :=
  if node1 = node2 ∧ auto = false then some (0, h)
  else do
    let h ← resetCaches node1 h
    let h ← resetCaches node2 h
    let x ← h.gra node1
    addWalk add w node2 fuel x.neig h

/-- `FreeNodeLis`, src/graph.c:390-396. -/
def FreeNodeLis (p : ℕ) (h : Heap) : Option Heap := do
  let a ← h.lis p
  let h ← h.free a.nodeLabel
  h.free p

/-- The walk along the adjacency list in `RemoveLink`, src/graph.c:461-467, 471-477. -/
def dropWalk (node2 : ℕ) : (fuel : ℕ) → (p : ℕ) → Heap → Option Heap
  | 0, _, _ => none
  | fuel + 1, p, h => do
    let a ← h.lis p
    let b ← h.lis a.next
    if b.ref = node2 then
      FreeNodeLis a.next (h.set p (.lis { a with next := b.next }))
    else dropWalk node2 fuel a.next h

/-- `RemoveLink`, src/graph.c:444-479. -/
def RemoveLink (fuel n1 n2 : ℕ) (sym : Bool) (h : Heap) : Option Heap := do
  let h ← resetCaches n1 h
  let h ← resetCaches n2 h
  let x ← h.gra n1
  let h ← dropWalk n2 fuel x.neig h
  if sym = true ∧ n1 ≠ n2 then do
    let y ← h.gra n2
    dropWalk n1 fuel y.neig h
  else return h

/-- `FreeAdjacencyList`, src/graph.c:402-409. -/
def FreeAdjacencyList : (fuel : ℕ) → (p : ℕ) → Heap → Option Heap
  | 0, _, _ => none
  | fuel + 1, p, h => do
    let a ← h.lis p
    let h ← if a.next ≠ 0 then FreeAdjacencyList fuel a.next h else some h
    FreeNodeLis p h

/-- `FreeNode`, src/graph.c:414-424. -/
def FreeNode (fuel p : ℕ) (h : Heap) : Option Heap := do
  let x ← h.gra p
  let h ← if x.neig ≠ 0 then FreeAdjacencyList fuel x.neig h else some h
  let h ← h.free x.label
  h.free p

/-- `RemoveGraph`, src/graph.c:429-436. -/
def RemoveGraph (links : ℕ) : (fuel : ℕ) → (p : ℕ) → Heap → Option Heap
  | 0, _, _ => none
  | fuel + 1, p, h => do
    let x ← h.gra p
    let h ← if x.next ≠ 0 then RemoveGraph links fuel x.next h else some h
    FreeNode links p h

/-- `GetNode`, src/graph.c:742-748. -/
def GetNode : (fuel : ℕ) → (num : Int) → (p : ℕ) → Heap → Option ℕ
  | 0, _, _, _ => none
  | fuel + 1, num, p, h => do
    let x ← h.gra p
    let y ← h.gra x.next
    if y.num ≠ num then GetNode fuel num x.next h else return x.next

/-- `IsThereLink`, src/graph.c:806-818: the walk from the element `p`. -/
def isThereWalk (n2 : ℕ) : (fuel : ℕ) → (p : ℕ) → Heap → Option Bool
  | 0, _, _ => none
  | fuel + 1, p, h => do
    let a ← h.lis p
    if a.next = 0 then return false
    else do
      let b ← h.lis a.next
      if b.ref = n2 then return true else isThereWalk n2 fuel a.next h

def IsThereLink (fuel n1 n2 : ℕ) (h : Heap) : Option Bool := do
  let x ← h.gra n1
  isThereWalk n2 fuel x.neig h

/-! ## A client -/

/-- What a client does with a network it has a pointer to: add a node, a link or remove a link, between nodes that it finds by number. -/
inductive Cmd
  | node (label : String)
  | link (i j : ℕ) (auto add : Bool) (w : ℚ)
  | unlink (i j : ℕ) (sym : Bool)

/-- A command on the network with header `root`. -/
def exec (fuel root : ℕ) (h : Heap) : Cmd → Option Heap
  | .node label => do
    let r ← CreateNodeGraph fuel root label h
    return r.2
  | .link i j auto add w => do
    let p ← GetNode fuel i root h
    let q ← GetNode fuel j root h
    let r ← AddAdjacency fuel p q auto add w h
    return r.2
  | .unlink i j sym => do
    let p ← GetNode fuel i root h
    let q ← GetNode fuel j root h
    RemoveLink fuel p q sym h

def run (fuel root : ℕ) : List Cmd → Heap → Option Heap
  | [], h => some h
  | c :: cs, h => do
    let h ← exec fuel root h c
    run fuel root cs h

/-- The same command on a network of numbered nodes. -/
def step (net : GR.Net) : Cmd → Option GR.Net
  | .node label => do
    let r ← GR.CreateNodeGraph net label
    return r.2
  | .link i j auto add w => if i < net.n ∧ j < net.n then some (GR.AddAdjacency net i j auto add w).2 else none
  | .unlink i j sym => if i < net.n ∧ j < net.n then GR.RemoveLink net i j sym else none

def steps : List Cmd → GR.Net → Option GR.Net
  | [], net => some net
  | c :: cs, net => do
    let net ← step net c
    steps cs net

end HP
