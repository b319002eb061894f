import Verif.Group.FastModel
import Verif.Tools.Model

/-!
# Further functions of `src/modules.c`: removal of links by group, statistics of sizes, soft mapping,
# partitions without network

Same conventions as `Verif.Group.Model`.
-/

namespace GP

/-! ## Removal of links while walking along them -/

/-- A cell of an adjacency list: its address (number), the node it points to, the weight. -/
structure Cell where
  addr : ℕ
  ref : ℕ
  weight : ℚ
deriving DecidableEq, Repr

/-- The cells of an adjacency list. -/
def cells (row : List (ℕ × ℚ)) : List Cell := row.zipIdx.map fun x => ⟨x.2, x.1.1, x.1.2⟩

/-- `nei->next` when `nei` points to the cell `at_` (`none`: the header) and the cells in use are
`live`.  The outer `none` is the reading of memory already freed. -/
def nextCell (live : List Cell) (at_ : Option ℕ) : Option (Option Cell) :=
  match at_ with
  | none => some live.head?
  | some k =>
    match live.dropWhile (fun c => c.addr ≠ k) with
    | [] => none
    | _ :: rest => some rest.head?

/-- The inner loop of src/modules.c:681-683, 702-705 and 1508-1511: `rm j` tells whether links to
`j` are to be removed; `RemoveLink` (src/graph.c:461-467) frees the first cell that points to `j`. What it
does to the list of the other node (`symmetric_sw`) is left out: as `C122` shows, the loop does not
get beyond the first removal. -/
def removeWalk (rm : ℕ → Bool) : (fuel : ℕ) → (live : List Cell) → (at_ : Option ℕ) → Option (List Cell)
  | 0, _, _ => none
  | fuel + 1, live, at_ => do
    match ← nextCell live at_ with
    | none => some live
    | some c =>
      if rm c.ref then removeWalk rm fuel (live.eraseP fun d => d.ref = c.ref) (some c.addr)
      else removeWalk rm fuel live (some c.addr)

/-- The loop for one node. -/
def removeRow (rm : ℕ → ℕ → Bool) (v : ℕ) (net : Net) : Option Net := do
  let live ← removeWalk (rm v) ((net.neig v).length + 1) (cells (net.neig v)) none
  return { net with neig := Function.update net.neig v (live.map fun c => (c.ref, c.weight)) }

/-- The loop over nodes. -/
def removeRows (rm : ℕ → ℕ → Bool) (vs : List ℕ) (net : Net) : Option Net :=
  vs.foldlM (fun net v => removeRow rm v net) net

/-- `RemoveWithinGroupLinks`, src/modules.c:672-686. -/
def RemoveWithinGroupLinks (p : Part) (g : ℕ) (net : Net) : Option Net :=
  removeRows (fun _ _ => true) (p.grp g).nodes net

/-- `RemoveBetweenGroupLinks`, src/modules.c:693-712. -/
def RemoveBetweenGroupLinks (m : ℕ) (p : Part) (net : Net) : Option Net :=
  removeRows (fun v j => p.inGroup v ≠ p.inGroup j) ((List.range m).flatMap fun g => (p.grp g).nodes) net

/-- `RemoveInterGroupLinks`, src/modules.c:1497-1514. -/
def RemoveInterGroupLinks (p : Part) (net : Net) : Option Net :=
  removeRows (fun v j => p.inGroup v ≠ p.inGroup j) (List.range net.n) net

/-! ## Statistics -/

/-- The array `sizes` of `GroupSizeStatistics`, src/modules.c:1164-1169. -/
def groupSizes (m : ℕ) (p : Part) : List ℚ :=
  ((List.range m).filter fun g => 0 < (p.grp g).size).map fun g => ((p.grp g).size : ℚ)

/-- `GroupSizeStatistics`, src/modules.c:1149-1180: mean, standard deviation, minimum, maximum; `none`
when there is no group (division 0/0 and reading beyond the array). -/
noncomputable def GroupSizeStatistics (m : ℕ) (p : Part) : Option (ℝ × ℝ × ℚ × ℚ) := do
  let a ← Tools.mean ((groupSizes m p).map fun x : ℚ => (x : ℝ))
  let s ← Tools.stddev ((groupSizes m p).map fun x : ℚ => (x : ℝ))
  let l ← Tools.cmin (groupSizes m p)
  let u ← Tools.cmax (groupSizes m p)
  return (a, s, l, u)

/-! ## Soft mapping -/

/-- `MapPartToNetSoft`, src/modules.c:1376-1413, to a network of `n` nodes.  A node of a list that is
not in the network gives a NULL from `tfind`, which is dereferenced (`none`). -/
def MapPartToNetSoft (n m : ℕ) (p : Part) : Option Part :=
  if ∀ g < m, ∀ v ∈ (p.grp g).nodes, v < n then
    some { grp := fun g => if g < m then { Grp.empty with nodes := (p.grp g).nodes, size := (p.grp g).size }
                           else p.grp g
           inGroup := mapInGroup m p }
  else none

/-! ## Partitions without network -/

/-- A group of labels: the list and the size. -/
structure SoftGrp where
  labels : List String
  size : ℕ
deriving DecidableEq, Repr

/-- `AddNodeToGroupSoft`, src/modules.c:416-441, as far as labels are concerned. -/
def AddNodeToGroupSoft (g : SoftGrp) (label : String) : SoftGrp :=
  { labels := g.labels ++ [label], size := g.size + 1 }

/-- `CreateEquiNPartitionSoft`, src/modules.c:217-238; `none` stands for an overflow of the label. -/
def CreateEquiNPartitionSoft (ngroups gsize : ℕ) : Option (List SoftGrp) :=
  if ngroups * gsize ≤ 2147483647 then
    some ((List.range ngroups).map fun i => (List.range gsize).foldl
      (fun g j => AddNodeToGroupSoft g (toString (j + i * gsize + 1))) ⟨[], 0⟩)
  else none

end GP
