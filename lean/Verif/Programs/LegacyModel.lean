import Verif.Programs.LegacySpec
import Verif.Utils.Model
import Verif.Group.SAModel
import Verif.Group.RoleModel

/-!
# The program `netcarto-legacy` (`netcarto/main_netcarto_legacy.c`)

The command line is the type `LegacyCall` (`getopt`, lines 65-88, is left out). The seed selects the tape. The files of the output open
without error; numbers are left as such; messages and `part.tmp` (the best division so far, written at each temperature) are left out.
`acc`, `accInv` stand for the tests with `exp`, and `fuel` bounds the loops (see `GP.SACommunityIdent`).
-/

namespace PG

open RG
open GR (FPrintPajekFile FPrintPajekPartitionFile CopyNetwork RandomizeSymmetricNetwork)

/-- How the program is called: without arguments (it asks for them); with `-h`; or with options, of which `-f` may be missing. -/
inductive LegacyCall where
  | ask
  | help
  | options (file : Option String) (rep : Int) (iterfac Tsched : ℚ)

/-- The nodes of the network and their links, as the functions of `src/modules.c` see them. -/
def inside (net : GR.Net) : GP.Net where
  n := net.n
  neig i := if i < net.n then (net.neig i).filterMap fun l => l.ref.map fun j => (j, l.weight) else []

/-- `FPrintPartition` with `list_sw = 0`, src/modules.c:1530-1564, for `m` groups with labels 0 to `m - 1`. (The groups that `CompressPart`
has removed are empty, and not printed either way.) -/
def groupLines (label : ℕ → String) (m : ℕ) (p : GP.Part) : List GroupLine :=
  (List.range m).filterMap fun g =>
    let G := p.grp g
    if 0 < G.size then some ⟨g + 1, G.size, G.totlinks, G.inlinks, G.outlinks, G.totlinksW, G.inlinksW, G.outlinksW, G.nodes.map label⟩
    else none

/-- The lines of `node_prop.dat`, netcarto/main_netcarto_legacy.c:139-147. -/
noncomputable def propLines (net : GR.Net) (m : ℕ) (p : GP.Part) : Option (List (String × Int × ℚ × ℝ)) :=
  (List.range net.n).mapM fun i => do
    let P ← GP.ParticipationCoefficient (inside net) p i
    let z ← GP.WithinModuleRelativeDegree (inside net) m p i 0
    return (net.label i, GP.NodeDegree (inside net) i, P, z)

/-- `SACommunityIdent(net, 2.0 / (double)S, Tf, Tsched, iterfac, 0, 'o', 1, …)` with `Tf = 0`. -/
def legacySA (acc accInv : ℚ → ℚ → ℚ → Bool) (fuel : ℕ) (iterfac Tsched : ℚ) (net : GR.Net) (t : Tape) : Res GP.Outcome :=
  GP.SACommunityIdent acc accInv fuel (inside net) (2 / net.n) 0 Tsched iterfac 0 .one true t

/-- The loop of the randomizations, netcarto/main_netcarto_legacy.c:169-184: the modularities `ranmodlis`. -/
def shuffles (sa : GR.Net → Tape → Res GP.Outcome) (net : GR.Net) : ℕ → Tape → Res (List ℚ × Tape)
  | 0, t => .ok ([], t)
  | k + 1, t => do
    let copy ← Res.ofOption (CopyNetwork net)
    let (netran, t) ← RandomizeSymmetricNetwork copy 100 t
    let o ← sa netran t
    let q ← Res.ofOption (GP.Modularity o.m o.part)
    let (l, t) ← shuffles sa net k o.tape
    return (q :: l, t)

/-- `ranmodav` and `ranmodst`, netcarto/main_netcarto_legacy.c:187-192; the quotients are 0/0 for `rep = 0`. -/
noncomputable def shuffleStats (rep : Int) (l : List ℚ) : Option ℚ × Option ℝ :=
  let av : ℚ := l.foldl (fun s x => s + x) 0
  if rep = 0 then (none, none)
  else
    let av := av / rep
    let st : ℚ := l.foldl (fun s x => s + (x - av) * (x - av)) 0
    (some av, some (Real.sqrt ((st / rep : ℚ) : ℝ)))

/-- `main`, netcarto/main_netcarto_legacy.c:23-214. Without arguments `scanf("%s", &netF)` writes the name over the pointer `netF`, which
is then given to `fopen` (lines 57, 106); without `-f` the pointer is never set. For negative `rep` the vector `ranmodlis` is NULL, or
too large, and never used. -/
noncomputable def netcartoLegacy (acc accInv : ℚ → ℚ → ℚ → Bool) (fuel : ℕ) (files : String → Option (List Char)) (t : Tape) :
    LegacyCall → Res (Option LegacyFiles)
  | .ask => .ub
  | .help => .ok none
  | .options none _ _ _ => .ub
  | .options (some f) rep iterfac Tsched => do
    let net ← UT.load files f
    let o ← legacySA acc accInv fuel iterfac Tsched net t
    let realmod ← Res.ofOption (GP.Modularity o.m o.part)
    let network ← Res.ofOption (FPrintPajekFile net false true)
    let nodeProp ← Res.ofOption (propLines net o.m o.part)
    let roles ← Res.ofOption (GP.CatalogRoleIdent (inside net) o.m o.part)
    let (l, _) ← shuffles (legacySA acc accInv fuel iterfac Tsched) net rep.toNat o.tape
    return some
      { modules := groupLines net.label o.m o.part
        modularity := realmod
        network := network
        modulesClu := FPrintPajekPartitionFile net o.part.inGroup
        nodeProp := nodeProp
        roles := groupLines net.label 7 roles
        rolesClu := FPrintPajekPartitionFile net roles.inGroup
        randomized := (realmod, shuffleStats rep l) }

end PG
