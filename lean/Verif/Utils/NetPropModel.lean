import Verif.Utils.Model
import Verif.BFS.CorrModel
import Verif.Btw.Stats
import Verif.BFS.Indices

/-!
# The program netprop (`utils/main_netprop.c`)
-/

namespace UT

open GR RG

/-- What `netprop` prints. Inner `none`: the quotient printed has denominator 0 (`nan` or `inf`). -/
structure NetProp where
  ncomponents : ℕ
  sizeGC : ℕ
  avOther : ℚ
  nodes : ℕ
  links : ℕ
  avDegree : ℚ
  inversePath : ℚ
  clustering : Option ℚ
  assortativity : Option ℚ
  betMean : ℝ
  betStddev : ℝ
  betMin : ℚ
  betMax : ℚ
  synchronizability : ℝ
  kk2 : Option ℚ

/-- The loop over the components, utils/main_netprop.c:44-48: `sizeGC` and `sizeothers`. -/
def sizes : List Net → ℕ × ℕ → ℕ × ℕ
  | [], x => x
  | c :: cs, (sizeGC, sizeothers) => sizes cs (if sizeGC < CountNodes c then CountNodes c else sizeGC, sizeothers + CountNodes c)

/-- `ClusteringCoefficient` (src/graph.c:1775-1816) with the quotient 0/0 (inner `none`) apart from undefined behaviour. -/
def clustering (adj : ℕ → List ℕ) (n : ℕ) : Option (Option ℚ) := do
  let (c, nodes) ← BFS.clusterSum adj n (List.range n) (0, n)
  return if nodes = 0 then none else some (c / nodes)

/-- utils/main_netprop.c:38-77. `components` has 1000 places; more components are written beyond it. The components are not removed
from memory. -/
noncomputable def properties (net : Net) : Option NetProp := do
  let r ← GetAllConnectedSets net
  if 1000 < r.length then none
  else
    let (sizeGC, sizeothers) := sizes (r.map Prod.snd) (0, 0)
    let links := TotalNLinks net true
    let (avDegree, net) ← AverageDegree links.2 true
    let inversePath ← BFS.AverageInverseDistance (targets net) net.n
    let clust ← clustering (targets net) net.n
    let assort ← BFS.Assortativity (targets net) net.n
    let (betMean, betStddev, betMin, betMax) ← BT.NodeBetweennessStatistics (targets net) net.n
    let (sync, net) ← Synchronizability net
    let (k, net) ← AverageDegree net true
    let (k2, net) ← AverageSquaredDegree net
    return { ncomponents := r.length, sizeGC := sizeGC
             avOther := if 1 < r.length then ((sizeothers : ℚ) - sizeGC) / ((r.length : ℚ) - 1) else 0
             nodes := CountNodes net, links := links.1, avDegree := avDegree, inversePath := inversePath
             clustering := clust, assortativity := assort
             betMean := betMean, betStddev := betStddev, betMin := betMin, betMax := betMax
             synchronizability := sync, kk2 := if k2 = 0 then none else some (k / k2) }

/-- utils/main_netprop.c:13-90. -/
noncomputable def netprop (files : String → Option (List Char)) (argv : List String) : Res (Option NetProp) :=
  match argv with
  | [] => .ok none
  | f :: _ => do
    let net ← load files f
    let r ← Res.ofOption (properties net)
    return some r

end UT
