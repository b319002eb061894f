import Verif.Basic.Res
import Verif.Print.Model
import Verif.Graph.SumModel
import Verif.Graph.RandomModel
import Verif.Graph.SetsModel
import Verif.Btw.Model
import Verif.Spectrum.Model

/-!
# The small programs of utils/

Each program is modelled from its arguments to its output. `argv` holds the arguments after the name of the program; `files` gives the
text of a file (`none`: it cannot be opened; the programs do not check this, `getline` and `fclose` on NULL are undefined). Outcome:
`ok none` if the program prints how to use it and stops, `ok (some r)` if it prints `r`, `ub` for undefined behaviour. Numbers are left
as such: the conversion to decimal text by `%d`, `%g`, `%lf` is not modelled. `RemoveGraph` at the end is the subject of C135.
-/

namespace UT

open GR RG

/-- `fopen`, `FBuildNetwork(infile, 0, 0, 0, 1)`, `fclose`. The network NULL (malformed line) is passed on and dereferenced by every
one of the programs. -/
def load (files : String → Option (List Char)) (name : String) : Res Net :=
  match files name with
  | none => .ub
  | some text =>
    match FBuildNetwork (fileFields text) false false false true (fun _ => none) with
    | some (some net) => .ok net
    | _ => .ub

/-- utils/main_countlinks.c:15-55: number of nodes, of links, and `(double)(2 * L) / (double)N` (NaN for no nodes). -/
def countlinks (files : String → Option (List Char)) (argv : List String) : Res (Option (ℕ × ℕ × Option ℚ)) :=
  match argv with
  | [] => .ok none
  | f :: _ => do
    let net ← load files f
    let N := CountNodes net
    let L := (TotalNLinks net true).1
    return some (N, L, if N = 0 then none else some ((2 * L : ℕ) / (N : ℚ)))

/-- The loop that prints, utils/main_nodeprop.c:54-56; `dvar1` holds the betweenness. -/
def nodeLines (dvar1 : ℕ → ℚ) : List ℕ → Net → List (String × ℕ × ℚ)
  | [], _ => []
  | i :: is, net => (net.label i, (NodeDegree net i).1, dvar1 i) :: nodeLines dvar1 is (NodeDegree net i).2

/-- utils/main_nodeprop.c:13-59: label, degree and betweenness of each node. -/
def nodeprop (files : String → Option (List Char)) (argv : List String) : Res (Option (List (String × ℕ × ℚ))) :=
  match argv with
  | [] => .ok none
  | f :: _ => do
    let net ← load files f
    let btw ← Res.ofOption (BT.CalculateNodeBetweenness (targets net) net.n)
    return some (nodeLines btw (List.range net.n) net)

/-- utils/main_netcompare.c:15-83. -/
def netcompare (files : String → Option (List Char)) (argv : List String) : Res (Option Cmp) :=
  match argv with
  | fA :: fB :: _ => do
    let netA ← load files fA
    let netB ← load files fB
    let r ← Res.ofOption (CompareTwoNetworks netA netB)
    return some r
  | _ => .ok none

/-- utils/main_getgiant.c:8-36: the text printed. -/
def getgiant (files : String → Option (List Char)) (argv : List String) : Res (Option (List Char)) :=
  match argv with
  | [] => .ok none
  | f :: _ => do
    let net ← load files f
    let giant ← Res.ofOption (GetLargestWeaklyConnectedSet net 10000000)
    let s ← Res.ofOption (FPrintNetAdjacencyList (fun _ => "") giant false true)
    return some s

/-- utils/main_netrandomize.c:15-67: the text printed. Only one argument is asked for but `argv[2]` is used: `atoi(NULL)` is undefined.
The seed selects the tape `t`. -/
def netrandomize (files : String → Option (List Char)) (argv : List String) (t : Tape) : Res (Option (List Char)) :=
  match argv with
  | [] => .ok none
  | [_] => .ub
  | f :: _ :: _ => do
    let net ← load files f
    let (net, _) ← RandomizeSymmetricNetwork net 100 t
    let s ← Res.ofOption (FPrintNetAdjacencyList (fun _ => "") net false true)
    return some s

/-- utils/main_lapspec.c:11-49: the values printed with the numbers 1, 2, …; `gsl_vector_get` beyond the vector is undefined. -/
noncomputable def lapspec (files : String → Option (List Char)) (argv : List String) : Res (Option (List (ℕ × ℝ))) :=
  match argv with
  | [] => .ok none
  | f :: _ => do
    let net ← load files f
    let (spec, _) ← Res.ofOption (LaplacianSpectrum net)
    let l ← Res.ofOption ((List.range (CountNodes net)).mapM fun i => (spec[i]?).map fun x => (i + 1, x))
    return some l

end UT
