import Verif.Group.SAModel

/-!
# Model: partitions made from a network (`src/modules.c`)

`CopyPartition` is in `Verif.Group.SAModel`.
-/

namespace GP

/-- Adding the nodes of a list to a group, in order (the loop of `CopyGroup`, src/modules.c:1012-1016). -/
def addAllTo (net : Net) (g : ℕ) (vs : List ℕ) (p : Part) : Part :=
  vs.foldl (fun p v => AddNodeToGroup net g v p) p

/-- A pointer that walks along the nodes of the network: `some k` after `k` nodes (0 is the header),
`none` is NULL. -/
abbrev Cursor := Option ℕ

/-- `if ((p = p->next) != NULL) AddNodeToGroup(g, p);` (src/modules.c:200-202); outer `none`: NULL is
dereferenced. -/
def equiStep (net : Net) (g : ℕ) : Cursor × Part → Option (Cursor × Part)
  | (none, _) => none
  | (some k, p) => if k < net.n then some (some (k + 1), AddNodeToGroup net g k p) else some (none, p)

/-- The loop over `j` (src/modules.c:199-203). -/
def equiRow (net : Net) (g : ℕ) : (gsize : ℕ) → Cursor × Part → Option (Cursor × Part)
  | 0, s => some s
  | j + 1, s => do
    let s ← equiStep net g s
    equiRow net g j s

/-- The loop over `i` (src/modules.c:197-204). -/
def equiRows (net : Net) (gsize : ℕ) : (todo i : ℕ) → Cursor × Part → Option (Cursor × Part)
  | 0, _, s => some s
  | todo + 1, i, s => do
    let s ← equiRow net i gsize s
    equiRows net gsize todo (i + 1) s

/-- `CreateEquiNPartition`, src/modules.c:182-208, for a positive `gsize` (0 divides by zero): the
labels of the groups left by `CompressPart` (src/modules.c:572-592: those that are not empty), and the
groups.  `inGroup` are the fields of the nodes before the call. -/
def CreateEquiNPartition (net : Net) (inGroup : ℕ → Option ℕ) (gsize : ℕ) : Option (List ℕ × Part) :=
  if gsize = 0 then none
  else do
    let ngroups := net.n / gsize
    let (_, p) ← equiRows net gsize (ngroups + 1) 0 (some 0, { Part.empty with inGroup := inGroup })
    return ((List.range (ngroups + 1)).filter fun g => (p.grp g).size ≠ 0, p)

/-- Labels for which a group has been created, and the groups. -/
structure FG where
  made : List ℕ
  part : Part

/-- One node in `CreatePartitionFromInGroup` (src/modules.c:272-277): a node with `inGroup == -1`
reads before the start of `glist` (`none`). -/
def fromStep (net : Net) (v : ℕ) (s : FG) : Option FG := do
  let g ← s.part.inGroup v
  let s := if s.made.contains g then s else { s with made := s.made ++ [g] }
  return { s with part := AddNodeToGroup net g v s.part }

/-- `CreatePartitionFromInGroup`, src/modules.c:247-282, on a network whose `inGroup` fields are
`inGroup`. -/
def CreatePartitionFromInGroup (net : Net) (inGroup : ℕ → Option ℕ) : Option FG :=
  (List.range net.n).foldlM (fun s v => fromStep net v s)
    { made := [], part := { grp := fun _ => Grp.empty, inGroup := inGroup } }

end GP
