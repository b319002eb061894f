import Verif.Programs.Model
import Verif.Missing.NetScoreModel
import Verif.Missing.ReconstructModel
import Verif.Print.Model

/-!
# The program reliability_reconstruct

Conventions as in `Verif.Programs.Model`. `scratch t` is what `malloc` leaves in `n2gList` at the call of a sampler for which the random
numbers `t` are left; there are never two such calls, each uses random numbers.
-/

namespace PG

open RG

/-- The nodes and links of a network as the samplers see them. -/
def nodesOf (net : GR.Net) : GP.Net where
  n := net.n
  neig i := if i < net.n then (net.neig i).filterMap fun l => l.ref.map fun j => (j, l.weight) else []

/-- Random numbers left after the last sample. -/
def leftOver (tr : List LS.St) (t : Tape) : Tape := (tr.getLast?.map fun s => s.tape).getD t

/-- `NetworkScore`, src/missing.c:850-1015, with the estimate of the decorrelation step and the thermalization, as in `WU.LinkScore`. -/
noncomputable def NetworkScore (mi : LS.St → LS.St → ℝ) (solver : WU.Solver) (acc : ℝ → ℚ → Bool) (tar obs : GP.Net) (linC : ℝ)
    (nIter fuel : ℕ) (scratch : ℕ → Int) (t : Tape) : Res (Option ℝ × List LS.St) := do
  let (p, t) ← GP.randomInit obs obs.n (List.range obs.n) GP.Part.empty t
  let H ← Res.ofOption (LS.PartitionH obs obs.n linC p)
  let (d, s) ← WU.warmup .epsilon (LS.LinkScoreMCStep acc obs linC) (fun s => s.H)
    (WU.GetDecorrelationStep (LS.LinkScoreMCStep acc obs linC) mi solver obs.n 0 false fuel) fuel
    { part := p, G2G := LS.initG2G obs p, n2g := scratch, H := H, slg := [], tape := t }
  let (a, tr) ← LS.netSample (LS.LinkScoreMCStep acc obs linC d) obs tar nIter { s with H := 0 } { base := none, tar := 0, obs := 0 } []
  if nIter = 0 then return (none, tr)
  else return (some (a.tar / nIter / (a.obs / nIter)), tr)

variable (mi : LS.St → LS.St → ℝ) (solver : WU.Solver) (acc : ℝ → ℚ → Bool) (fuel : ℕ) (scratch : Tape → ℕ → Int)

/-- `NetworkScore(net, netObs, 0.0, 100, gen, 'q')`, src/missing.c:1066 and 1107. With 100 samples the result is a number. -/
noncomputable def netScore (obs net : GR.Net) (t : Tape) : Res (ℝ × Tape) := do
  let (x, tr) ← NetworkScore mi solver acc (nodesOf net) (nodesOf obs) 0 100 fuel (scratch t) t
  let x ← Res.ofOption x
  return (x, leftOver tr t)

/-- `LinkScore(net, 0.0, 1000, gen, 'q')`, src/missing.c:1072. -/
noncomputable def linkScore (net : GR.Net) (t : Tape) : Res ((ℕ → ℕ → ℚ) × Tape) := do
  let (M, tr) ← WU.LinkScore mi solver acc (nodesOf net) 0 1000 fuel (scratch t) t
  return (M, leftOver tr t)

/-- `main` of `reliability_reconstruct`, reliability/main_reliability_reconstruct.c:23-59: the text of the file `net_reconstructed.dat`. -/
noncomputable def reliability_reconstruct (inner outer : ℕ) (files : String → Option (List Char)) (argv : List String) (t : Tape) :
    Res (Option (List Char)) :=
  match argv with
  | [] => .ok none
  | [_] => .ok none
  | f :: _ :: _ => do
    let net ← UT.load files f
    let s ← NR.NetReconstruct (netScore mi solver acc fuel scratch net) (linkScore mi solver acc fuel scratch) inner outer net t
    let text ← Res.ofOption (GR.FPrintNetAdjacencyList (fun _ => "") s.net false true)
    return some text

end PG
