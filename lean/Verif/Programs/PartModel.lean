import Verif.Basic.Res
import Verif.IO.Model
import Verif.Compare.Model
import Verif.Print.Model
import Verif.Bipart.BuildModel
import Verif.Bipart.ModModel

/-!
# The programs that read a file of groups: mutualinfo, bipartitemodularity, bipartitemodularity_w

`argv` holds the arguments after the name of the program; none of the three programs looks at `argc`, a missing argument is a NULL
given to `fopen` or `atoi` (`ub`). `files` gives the text of a file (`none`: it cannot be opened; the programs do not check this).
A program that never ends is `starved`. The number printed is `some x`; `none` is what is not a finite number (and the overflow of
an `int` product in the functions called, which the models of these functions do not tell from it).
-/

namespace PG

open RG

/-- `fopen`, `FCreatePartition`, `fclose`. -/
def readPart (files : String → Option (List Char)) (name : String) : Res (List (List (List Char))) :=
  match files name with
  | none => .ub
  | some text =>
    match FIO.FCreatePartition text with
    | .ok P => .ok P
    | .ub => .ub
    | .hang => .starved

/-- utils/main_mutualinfo.c:10-48: the number printed. -/
noncomputable def mutualinfo (files : String → Option (List Char)) (argv : List String) : Res (Option ℝ) :=
  match argv with
  | f1 :: f2 :: _ => do
    let part1 ← readPart files f1
    let part2 ← readPart files f2
    return CP.MutualInformation part1 part2
  | _ => .ub

/-- `fopen`, `FBuildNetworkBipart(inf, weighted, 0)`, `fclose`. The network NULL (malformed line) is dereferenced at once by the
programs, at `binet->net1`. -/
def loadBi (files : String → Option (List Char)) (weighted : Bool) (strtod : String → Option ℚ) (name : String) : Res BP.LBi :=
  match files name with
  | none => .ub
  | some text =>
    match BP.FBuildNetworkBipart (GR.fileFields text) weighted false strtod with
    | some (some b) => .ok b
    | _ => .ub

/-- What `MapPartToNet`, src/modules.c:1233-1295, does to the members of the groups: each label is looked up among the nodes of the
network; for one that is not there `GetNodeDict` gives NULL and `node->num` dereferences it. The labels of a network are all
different, so that the search tree is a search in the list. The counters of the groups, not used by the programs, are left out. -/
def mapPart (label : ℕ → String) (n : ℕ) (P : List (List (List Char))) : Option (List (List ℕ)) :=
  P.mapM fun g => g.mapM fun l => BP.seek label (String.ofList l) n 0

/-- utils/main_bipartitemodularity.c:11-65 (`weighted = false`) and utils/main_bipartitemodularity_w.c:11-65 (`true`): the
modularity printed. The two programs differ in the flag given to `FBuildNetworkBipart` and in the function called. -/
def bipartitemodularity (weighted : Bool) (strtod : String → Option ℚ) (atoi : String → Int) (files : String → Option (List Char))
    (argv : List String) : Res (Option ℚ) :=
  match argv with
  | f :: fp :: inv :: _ => do
    let b ← loadBi files weighted strtod f
    let P ← readPart files fp
    let b := if atoi inv = 1 then b.swap else b
    let part ← Res.ofOption (mapPart b.label1 b.bi.n1 P)
    return if weighted then BP.ModularityBipartWeighted b.bi part else BP.ModularityBipart b.bi part
  | _ => .ub

end PG
