import Verif.IO.Model
import Verif.CSR.Model
import Verif.SA.Model
import Verif.Project.Model
import Verif.Roles.Model

/-!
# The program `netcarto` (`/repo/netcarto/main_netcarto.c` 33-277)

The command line (`getopt`, 83-140) is the structure `Options`; opening of files, the progress messages and the release of
memory at the end are left out. The program prints numbers with `%f`; here they are exact.
-/

namespace NCP

open NC RG FIO

/-- What the options set. `-m` and `-a` set variables that are never used (124-129). `acc` stands for the test with `exp` in
the annealing and `fuel` bounds its loops (see `NC.SAParams`). -/
structure Options where
  weighted : Bool
  bipartite : Bool
  invert : Bool
  fac : ℚ
  Ts : ℚ
  probaComponents : ℚ
  acc : ℚ → ℚ → ℚ → Bool
  fuel : ℕ

/-- A line of the arrays `nodes1`, `nodes2`, `weights`. -/
def toEdge (e : ℕ × ℕ × ℚ) : Edge := ⟨e.1, e.2.1, e.2.2⟩

/-- Construction of the network, 168-184: labels, partition, and adjacency array. The value returned by `EdgeListFileInput` is
not looked at: after an error `E`, `N` and the arrays are used without having been set (undefined). `junk` is what
`ProjectBipartEdgeList` finds in memory it has not written. -/
def load (o : Options) (junk : Junk) (strtod : String → Option ℚ) (lines : List (List String)) :
    Option (List String × Partition × Adj) := do
  match ← EdgeListFileInput lines o.weighted (o.bipartite.toNat + o.invert.toNat) strtod with
  | .error _ => none
  | .ok edges labels =>
    let N := labels.length
    let es := edges.map toEdge
    if o.bipartite then
      let (_, p, a) ← ProjectBipartEdgeList junk es
      return (labels, p, a)
    else
      let p ← CreatePartition N N
      let (a, p) ← EdgeListToAdjaArray es (CreateAdjaArray N es.length) p true
      return (labels, p, a)

/-- `labels[i]`. -/
def label (labels : List String) (i : ℕ) : List Char := (labels.getD i "").toList

/-- Parameters of the annealing, 192-199. -/
def saParams (o : Options) (N : ℕ) : SAParams :=
  { acc := o.acc, fac := o.fac, Ti := 1 / N, Tf := 1 / 10 ^ 200, Ts := o.Ts, probaComponents := o.probaComponents
    nochangeLimit := 25, fuel := o.fuel }

/-- Clustering, 191-201. The partition has as many modules as nodes, so `AssignNodesToModules` draws nothing. `GeneralSA` may leave
NULL in `part`, which `CompressPartition` follows (undefined). -/
def cluster (o : Options) (N : ℕ) (p : Partition) (a : Adj) (t : Tape) : Res Partition := do
  let p ← Res.ofOption (AssignNodesToModules p fun _ => 0)
  let r ← GeneralSA (saParams o N) p a t
  match r.1 with
  | none => .ub
  | some p => Res.ofOption (CompressPartition p)

/-- What is printed without `-r`. -/
structure Printed where
  modularity : ℚ
  modularityDiag : ℚ
  text : List Char
deriving DecidableEq

/-- Output without `-r`, 221-222 and 250-256. -/
def report (labels : List String) (p : Partition) (a : Adj) : Option Printed := do
  let q ← PartitionModularity p a false
  let qd ← PartitionModularity p a true
  let text ← ClusteringOutput p (label labels)
  return ⟨q, qd, text⟩

/-- `netcarto -f lines` without `-p` and `-r`. -/
def netcarto (o : Options) (junk : Junk) (strtod : String → Option ℚ) (lines : List (List String)) (t : Tape) : Res Printed := do
  let (labels, p, a) ← Res.ofOption (load o junk strtod lines)
  let p ← cluster o labels.length p a t
  Res.ofOption (report labels p a)

/-- `netcarto -f lines -p file` without `-r`, 204-222 and 250-256: number of nodes that are missing, number of modules, and the rest
of the output. -/
def netcartoFile (o : Options) (junk : Junk) (strtod : String → Option ℚ) (lines : List (List String)) (file : List Char) :
    Rd (Int × ℕ × Printed) :=
  (Rd.ofOption (load o junk strtod lines)).bind fun r =>
    (AssignNodesToModulesFromFile file r.2.1 (label r.1)).bind fun s =>
      (Rd.ofOption (report r.1 s.2 r.2.2)).bind fun out => .ok (s.1, s.2.M, out)

/-- A line of the table of roles. `none` in `participation` is NaN. -/
structure Row where
  label : List Char
  module : ℕ
  connectivity : ℝ
  participation : Option ℚ
  role : ℕ

/-- `GetRole` for a participation that may be NaN (all comparisons are false). -/
noncomputable def roleOf (P : Option ℚ) (z : ℝ) : ℕ :=
  match P with
  | some P => Roles.GetRole (P : ℝ) z
  | none => if z < 5 / 2 then 3 else 6

/-- `PartitionRolesMetrics` on arrays of zeros (225-232) and `TabularOutput`, src/io.c:214-231, without the head line. -/
noncomputable def table (labels : List String) (p : Partition) (a : Adj) : Option (List Row) := do
  let r ← Roles.PartitionRolesMetrics p a fun _ => 0
  return (List.range p.N).map fun i =>
    ⟨label labels i, (p.nodes i).module, r.connectivity i, r.participation i, roleOf (r.participation i) (r.connectivity i) + 1⟩

/-- `netcarto -f lines -r`: the two modularities and the table. -/
noncomputable def netcartoRoles (o : Options) (junk : Junk) (strtod : String → Option ℚ) (lines : List (List String)) (t : Tape) :
    Res (ℚ × ℚ × List Row) := do
  let (labels, p, a) ← Res.ofOption (load o junk strtod lines)
  let p ← cluster o labels.length p a t
  let q ← Res.ofOption (PartitionModularity p a false)
  let qd ← Res.ofOption (PartitionModularity p a true)
  let rows ← Res.ofOption (table labels p a)
  return (q, qd, rows)

end NCP
