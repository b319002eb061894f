import Mathlib.Data.Rat.Defs
import Mathlib.Algebra.Order.Ring.Rat
import Mathlib.Logic.Function.Basic

/-!
# Model of the array based partition code (netcarto)

Files: `/repo/src/partition.{h,c}`, `/repo/src/movements.{h,c}`,
`/repo/src/fillpartitions.c`.

Conventions (used in all files of `Verif.NC`):
* `part->nodes[i]` / `part->modules[m]` are total maps `ℕ → Node` / `ℕ → Module`
  together with the bounds `N`, `M`; an access outside the bounds, a NULL
  dereference or an unsigned wrap-around makes the function return `none`.
* a `Node *` is `Option ℕ` (the index of the node in `part->nodes`), `none` is
  `NULL`.  `part->nodes[i]` is never reassigned in the code, so the index
  identifies the address.
* `double` is `ℚ` (exact arithmetic).
-/

namespace NC

/-- `struct Node`, partition.h. -/
structure Node where
  id : ℕ
  strength : ℚ
  module : ℕ
  prev : Option ℕ
  next : Option ℕ

/-- `struct Module`, partition.h. -/
structure Module where
  id : ℕ
  size : ℕ
  strength : ℚ
  first : Option ℕ
  last : Option ℕ

/-- `struct Partition`, partition.h. -/
structure Partition where
  N : ℕ
  M : ℕ
  nempty : ℕ
  nodes : ℕ → Node
  modules : ℕ → Module

/-- `struct AdjaArray`, partition.h.  `idx` has `N+1` cells, `neighbors` and
`strength` have `2*E+1` cells (partition.c 18-21). -/
structure Adj where
  N : ℕ
  E : ℕ
  idx : ℕ → ℕ
  neighbors : ℕ → ℕ
  strength : ℕ → ℚ

/-- Write to the node at index `i`. -/
def setNode (i : ℕ) (f : Node → Node) (p : Partition) : Partition :=
  { p with nodes := Function.update p.nodes i (f (p.nodes i)) }

/-- Write to the module at index `m`. -/
def setModule (m : ℕ) (f : Module → Module) (p : Partition) : Partition :=
  { p with modules := Function.update p.modules m (f (p.modules m)) }

/-- `CreatePartition`, partition.c 44-83.  The array `modules` is allocated with
`N` pointers (line 56) but `M` of them are written: `M > N` writes out of
bounds, outcome `none`. -/
def CreatePartition (N M : ℕ) : Option Partition :=
  if N < M then none else
  some
  { N := N, M := M, nempty := M
    nodes := fun i => { id := i, strength := 0, module := 0, prev := none, next := none }
    modules := fun m => { id := m, size := 0, strength := 0, first := none, last := none } }

/-- `CreateAdjaArray`, partition.c 10-25 (`calloc`: zeros, and `idx[N] = 2E`). -/
def CreateAdjaArray (N E : ℕ) : Adj :=
  { N := N, E := E
    idx := Function.update (fun _ => 0) N (2 * E)
    neighbors := fun _ => 0
    strength := fun _ => 0 }

/-- Follow `next` (or `prev`) links from a pointer, `for (node = start; node != NULL;
node = node->next)`, collecting the visited nodes; `none` when `fuel` steps do not
reach `NULL` (the C loop would not terminate within `fuel` steps). -/
def walk (nx : ℕ → Option ℕ) : ℕ → Option ℕ → Option (List ℕ)
  | _, none => some []
  | 0, some _ => none
  | fuel + 1, some a => (walk nx fuel (nx a)).map (a :: ·)

/-- The nodes of module `m` in list order, as visited by the C loops
`for (node = part->modules[m]->first; node != NULL; node = node->next)`.
The fuel `N+1` is enough for every acyclic list of nodes. -/
def moduleNodes (p : Partition) (m : ℕ) : Option (List ℕ) :=
  walk (fun i => (p.nodes i).next) (p.N + 1) (p.modules m).first

/-- The slots `adj->idx[i] .. adj->idx[i+1]-1` of node `i`. -/
def slots (adj : Adj) (i : ℕ) : List ℕ :=
  List.range' (adj.idx i) (adj.idx (i + 1) - adj.idx i)

/-- Unlink node `i` from the list of module `old`; movements.c 128-137. -/
def extractNode (i old : ℕ) (p : Partition) : Partition :=
  let nd := p.nodes i
  let p := match nd.prev with
    | some q => setNode q (fun n => { n with next := nd.next }) p
    | none => setModule old (fun m => { m with first := nd.next }) p
  match nd.next with
    | some q => setNode q (fun n => { n with prev := nd.prev }) p
    | none => setModule old (fun m => { m with last := nd.prev }) p

/-- Push node `i` in front of the list of module `new`; movements.c 139-146. -/
def pushNode (i new : ℕ) (p : Partition) : Partition :=
  let fst := (p.modules new).first
  let p := setNode i (fun n => { n with next := fst, prev := none }) p
  let p := match fst with
    | some q => setNode q (fun n => { n with prev := some i }) p
    | none => setModule new (fun m => { m with last := some i }) p
  setModule new (fun m => { m with first := some i }) p

/-- Size/strength/nempty bookkeeping of `ChangeModule`, movements.c 113-124.
`none` stands for an unsigned wrap-around of `size` or `nempty`. -/
def moveCounters (s : ℚ) (old new : ℕ) (p : Partition) : Option Partition := do
  if (p.modules old).size = 0 then none
  let p := setModule old (fun m => { m with strength := m.strength - s, size := m.size - 1 }) p
  let p := if (p.modules old).size = 0 then { p with nempty := p.nempty + 1 } else p
  let p ← if (p.modules new).size = 0 then
      (if p.nempty = 0 then none else some { p with nempty := p.nempty - 1 })
    else some p
  return setModule new (fun m => { m with strength := m.strength + s, size := m.size + 1 }) p

/-- `ChangeModule`, movements.c 101-147. -/
def ChangeModule (nodeId newModuleId : ℕ) (p : Partition) : Option Partition := do
  if ¬ nodeId < p.N then none
  let old := (p.nodes nodeId).module
  if ¬ old < p.M then none
  if ¬ newModuleId < p.M then none
  let p := setNode nodeId (fun n => { n with module := (p.modules newModuleId).id }) p
  let p ← moveCounters (p.nodes nodeId).strength old newModuleId p
  return pushNode nodeId newModuleId (extractNode nodeId old p)

/-- Set the `module` field of all listed nodes; movements.c 181-182. -/
def relabel (l : List ℕ) (newId : ℕ) (p : Partition) : Partition :=
  l.foldl (fun p i => setNode i (fun n => { n with module := newId }) p) p

/-- `MergeModules`, movements.c 160-199.  Dereferences of `large->first` and
`small->last` (lines 194-195) are `none` when they are NULL. -/
def MergeModules (id1 id2 : ℕ) (p : Partition) : Option Partition := do
  if ¬ id1 < p.M then none
  if ¬ id2 < p.M then none
  if (p.modules id1).size = 0 ∨ (p.modules id2).size = 0 then
    return p
  let gt := (p.modules id1).size > (p.modules id2).size
  let small := if gt then id2 else id1
  let large := if gt then id1 else id2
  let l ← moduleNodes p small
  let p := relabel l (p.modules large).id p
  let p := { p with nempty := p.nempty + 1 }
  let p := setModule large (fun m => { m with size := m.size + (p.modules small).size }) p
  let p := setModule small (fun m => { m with size := 0 }) p
  let p := setModule large (fun m => { m with strength := m.strength + (p.modules small).strength }) p
  let p := setModule small (fun m => { m with strength := 0 }) p
  let lf ← (p.modules large).first
  let p := setNode lf (fun n => { n with prev := (p.modules small).last }) p
  let sl ← (p.modules small).last
  let p := setNode sl (fun n => { n with next := (p.modules large).first }) p
  let p := setModule large (fun m => { m with first := (p.modules small).first }) p
  let p := setModule small (fun m => { m with last := none }) p
  let p := setModule small (fun m => { m with first := none }) p
  return p

/-- `dEChangeModule`, movements.c 19-42. -/
def dEChangeModule (nodeid newModuleid : ℕ) (p : Partition) (adj : Adj) : Option ℚ := do
  if ¬ nodeid < p.N then none
  let old := (p.nodes nodeid).module
  if ¬ old < p.M then none
  if ¬ newModuleid < p.M then none
  let dE := (slots adj nodeid).foldl (fun dE i =>
    let j := adj.neighbors i
    if (p.nodes j).module = old then dE - adj.strength i
    else if (p.nodes j).module = newModuleid then dE + adj.strength i
    else dE) 0
  let s := (p.nodes nodeid).strength
  let dE := dE + s * ((p.modules old).strength - s - (p.modules newModuleid).strength)
  return 2 * dE

/-- `dEMergeModules`, movements.c 55-92. -/
def dEMergeModules (moduleId1 moduleId2 : ℕ) (p : Partition) (adj : Adj) : Option ℚ := do
  if ¬ moduleId1 < p.M then none
  if ¬ moduleId2 < p.M then none
  let gt := (p.modules moduleId1).size > (p.modules moduleId2).size
  let small := if gt then moduleId2 else moduleId1
  let idlarge := if gt then moduleId1 else moduleId2
  let l ← moduleNodes p small
  let dE := l.foldl (fun dE a =>
    (slots adj (p.nodes a).id).foldl (fun dE i =>
      let j := adj.neighbors i
      if (p.nodes j).module = idlarge then dE + adj.strength i else dE) dE) 0
  let dE := dE - (p.modules moduleId1).strength * (p.modules moduleId2).strength
  return 2 * dE

/-- Edge value lookup, partition.c 264-270: the first slot of `a` whose neighbour
is `b` decides, 0 when there is none. -/
def edgeValue (adj : Adj) (a b : ℕ) : ℚ :=
  match (slots adj a).find? (fun i => adj.neighbors i = b) with
  | some i => adj.strength i
  | none => 0

/-- The two inner loops of `PartitionModularity` (partition.c 260-275) over the
node list of one module: `node2` runs over the part of the list behind `node1`. -/
def modularityPairs (p : Partition) (adj : Adj) : List ℕ → ℚ → ℚ
  | [], q => q
  | a :: l, q => modularityPairs p adj l (l.foldl (fun q b =>
      q + 2 * (edgeValue adj (p.nodes a).id (p.nodes b).id
                - (p.nodes a).strength * (p.nodes b).strength)) q)

/-- `PartitionModularity`, partition.c 248-286. -/
def PartitionModularity (p : Partition) (adj : Adj) (diagonal_term : Bool) : Option ℚ := do
  let q ← (List.range p.M).foldlM (fun q m => do
    let l ← moduleNodes p m
    return modularityPairs p adj l q) (0 : ℚ)
  return if diagonal_term then
    (List.range p.N).foldl (fun q i => q - (p.nodes i).strength * (p.nodes i).strength) q
  else q

/-- One iteration of the random dispatch, fillpartitions.c 286-304, with `j` the
value drawn by `gsl_rng_uniform_int` (which is `< M`). -/
def assignOne (p : Partition) (i j : ℕ) : Option Partition := do
  if ¬ j < p.M then none
  if (p.modules j).size = 0 then
    if p.nempty = 0 then none
    let p := { p with nempty := p.nempty - 1 }
    let p := setNode i (fun n => { n with module := j }) p
    return setModule j (fun m => { m with
      size := 1, strength := (p.nodes i).strength, first := some i, last := some i }) p
  else
    let p := setNode i (fun n => { n with module := j }) p
    let p := setModule j (fun m => { m with
      size := m.size + 1, strength := m.strength + (p.nodes i).strength }) p
    let la ← (p.modules j).last
    let p := setNode la (fun n => { n with next := some i }) p
    let p := setNode i (fun n => { n with prev := (p.modules j).last }) p
    return setModule j (fun m => { m with last := some i }) p

/-- `AssignNodesToModules`, fillpartitions.c 270-306.  `draws i` is the value of
the `i`-th call of `gsl_rng_uniform_int(gen, M)`. -/
def AssignNodesToModules (p : Partition) (draws : ℕ → ℕ) : Option Partition :=
  if p.N = p.M then
    some ((List.range p.N).foldl (fun p i =>
      let p := setNode i (fun n => { n with module := i }) p
      setModule i (fun m => { m with
        size := 1, strength := (p.nodes i).strength, first := some i, last := some i }) p)
      { p with nempty := 0 })
  else
    (List.range p.N).foldlM (fun p i => assignOne p i (draws i)) p

/-- `CopyPartitionStruct`, partition.c 89-132.  The copy starts from
`CreatePartition(N, M)`; link pointers are translated through the `id` field of the
node they point to (lines 113, 117, 123, 127). -/
def CopyPartitionStruct (p : Partition) : Option Partition := do
  let c ← CreatePartition p.N p.M
  let tr (o : Option ℕ) : Option ℕ := o.map (fun i => (p.nodes i).id)
  return { c with
    nempty := p.nempty
    nodes := fun i => if i < p.N then
        { id := (p.nodes i).id, strength := (p.nodes i).strength, module := (p.nodes i).module
          prev := tr (p.nodes i).prev, next := tr (p.nodes i).next }
      else c.nodes i
    modules := fun m => if m < p.M then
        { id := (p.modules m).id, size := (p.modules m).size, strength := (p.modules m).strength
          first := tr (p.modules m).first, last := tr (p.modules m).last }
      else c.modules m }

/-- State of the second loop of `CompressPartition`: the partition, which module
slots have been set to NULL, and the index `j` into `empty_id`. -/
structure CompressState where
  p : Partition
  freed : ℕ → Bool
  j : ℕ

/-- One iteration (index `i`) of the loop partition.c 326-335. -/
def compressStep (emptyId : List ℕ) (s : CompressState) (i : ℕ) : Option CompressState := do
  if s.freed i then return s
  let l ← moduleNodes s.p i
  let e ← emptyId[s.j]?
  let p := relabel l e s.p
  let p := { p with modules := Function.update p.modules e { p.modules i with id := e } }
  return { p := p, freed := Function.update s.freed e false, j := s.j + 1 }

/-- `CompressPartition`, partition.c 292-347.  The loop index `i` is unsigned and
runs from `M_old-1` down while `i >= M`; for `M = 0` it never stops and runs out of
bounds, outcome `none`.  The write to `part->modules[empty_id[j]]->id` goes through
the same pointer as `part->modules[i]`; slot `i >= M` is dropped afterwards. -/
def CompressPartition (p : Partition) : Option Partition := do
  if p.nempty = 0 then return p
  if p.M < p.nempty then none
  let M := p.M - p.nempty
  let freed : ℕ → Bool := fun m => decide ((p.modules m).size = 0)
  let emptyId := (List.range p.M).filter (fun m => (p.modules m).size = 0)
  -- `empty_id` has room for `nempty` entries
  if p.nempty < emptyId.length then none
  if M = 0 then none
  let s ← ((List.range' M (p.M - M)).reverse).foldlM (compressStep emptyId)
    { p := p, freed := freed, j := 0 }
  return { s.p with nempty := 0, M := M }

end NC
