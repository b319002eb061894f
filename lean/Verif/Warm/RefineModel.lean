import Verif.Warm.Model
import Verif.Missing.ScoreModel
import Verif.Missing.GibbsModel
import Verif.Block.Model
import Verif.KState.Model
import Verif.Recommend.Model

/-!
# Model: samplers together with their warm-up

The functions of the earlier models with the calls of `GetDecorrelationStep…` and `Thermalize…` in place of an arbitrary warm-up. `mi` is
`MutualInformation` of the partitions of two states, `solver` the library solver; `fuel` bounds each of the loops.
-/

namespace WU

open RG

variable {σ : Type}

/-- `GetDecorrelationStep` and `ThermalizeLinkScoreMC` one after the other, src/missing.c:593-620. -/
noncomputable def warmup (test : Test) (step : ℕ → σ → Res σ) (H : σ → ℝ) (decor : σ → Res (ℕ × σ)) (fuel : ℕ) (s : σ) :
    Res (ℕ × σ) := do
  let (d, s) ← decor s
  let s ← Thermalize test step H d fuel s
  return (d, s)

/-- `LinkScore`, src/missing.c:514-710. -/
noncomputable def LinkScore (mi : LS.St → LS.St → ℝ) (solver : Solver) (acc : ℝ → ℚ → Bool) (net : GP.Net) (linC : ℝ) (nIter fuel : ℕ)
    (scratch : ℕ → Int) (t : Tape) : Res ((ℕ → ℕ → ℚ) × List LS.St) := do
  let (p, t) ← GP.randomInit net net.n (List.range net.n) GP.Part.empty t
  let H ← Res.ofOption (LS.PartitionH net net.n linC p)
  let (d, s) ← warmup .epsilon (LS.LinkScoreMCStep acc net linC) (fun s => s.H)
    (GetDecorrelationStep (LS.LinkScoreMCStep acc net linC) mi solver net.n 0 false fuel) fuel
    { part := p, G2G := LS.initG2G net p, n2g := scratch, H := H, slg := [], tape := t }
  let (M, tr) ← LS.sample (LS.LinkScoreMCStep acc net linC d) net.n nIter s (fun _ _ => 0) []
  return (fun i j => M i j / nIter, tr)

/-- `GibbsLinkScore`, src/missing.c:2406-2585. -/
noncomputable def GibbsLinkScore (net : GP.Net) (linC : ℝ) (nIter fuel : ℕ) (scratch : ℕ → Int) (t : Tape) :
    Res ((ℕ → ℕ → ℚ) × List LS.St) := do
  let t ← LS.skip net.n t
  let p := (List.range net.n).foldl (fun p v => GP.AddNodeToGroup net v v p) GP.Part.empty
  let H ← Res.ofOption (LS.PartitionH net net.n linC p)
  let s ← Thermalize .epsilon (fun _ => LS.GibbsLinkScoreStep net linC) (fun s => s.H) 1 fuel
    (LS.St.mk p (LS.initG2G net p) scratch H [] t)
  let (M, tr) ← LS.sample (LS.GibbsLinkScoreStep net linC) net.n nIter s (fun _ _ => 0) []
  return (fun i j => M i j / nIter, tr)

/-- `LinkScoreMB`, src/multiblock.c:450-660 (and its copies). -/
noncomputable def LinkScoreMB (mi : LS.St → LS.St → ℝ) (solver : Solver) (K : BK.Kern) (debug : Bool) (acc : ℝ → ℚ → Bool) (net : GP.Net)
    (linC : ℝ) (nIter fuel : ℕ) (scratch : ℕ → Int) (t : Tape) : Res ((ℕ → ℕ → ℝ) × List LS.St) := do
  let (p, t) ← GP.randomInit net net.n (List.range net.n) GP.Part.empty t
  let H ← Res.ofOption (BK.PartitionH K net net.n linC p)
  let (d, s) ← warmup .epsilon (BK.LSMCStepMB K acc net linC) (fun s => s.H)
    (GetDecorrelationStep (BK.LSMCStepMB K acc net linC) mi solver net.n 0 false fuel) fuel
    { part := p, G2G := LS.initG2G net p, n2g := scratch, H := H, slg := [], tape := t }
  let s := if debug then s else { s with H := 0 }
  let (M, tr) ← BK.sample K (BK.LSMCStepMB K acc net linC d) net.n nIter s (fun _ _ => 0) []
  return (fun i j => M i j / nIter, tr)

/-- `LSMultiLinkScoreKState`, src/missing.c:1727-1988; `decor = 0`: the decorrelation step is estimated (1843-1857). -/
noncomputable def LSMultiLinkScoreKState (mi : KS.KSt → KS.KSt → ℝ) (solver : Solver) (acc : ℝ → ℚ → Bool) (net : GP.Net) (K nIter decor : ℕ)
    (reset : Bool) (fuel : ℕ) (t : Tape) : Res (ℕ → ℕ × ℕ → Option ℚ) := do
  let p := (List.range net.n).foldl (fun p v => GP.AddNodeToGroup net v v p) GP.Part.empty
  let H ← Res.ofOption (KS.LSHKState net K p)
  let (d, s) ← warmup .strict (KS.LSMCStepKState acc net K) (fun s => s.H)
    (fun s => if decor = 0 then GetDecorrelationStep (KS.LSMCStepKState acc net K) mi solver net.n 10 true fuel s else .ok (decor, s)) fuel
    (KS.KSt.mk p (fun k v g => KS.NWeightLinksToGroup net p v g k) (fun k g g' => KS.NWeightG2GLinks net p g g' k)
      (LS.NNonEmptyGroups net.n p) H t)
  let (_, A) ← KS.kSample acc net K d nIter fuel (if reset then { s with H := 0 } else s)
    (KS.Acc.mk 0 0 fun _ _ => some 0)
  return fun k q => if A.norm = 0 then none else (A.score k q).map (· / A.norm)

/-- Warm-up of the two-partition samplers, src/recommend.c:893-930 and 1714-1750. -/
noncomputable def warmup2 (step : ℕ → RC.View → Res RC.View) (mi1 mi2 : RC.View → RC.View → ℝ) (solver : Solver) (n1 n2 decor fuel : ℕ)
    (s : RC.View) : Res (ℕ × RC.View) :=
  warmup .strict step (fun s => s.H)
    (fun s => if decor = 0 then GetDecorrelationStep2 step mi1 mi2 solver n1 n2 fuel s else .ok (decor, s)) fuel s

/-- `MultiLinkScore2State`, src/recommend.c:742-1055. -/
noncomputable def MultiLinkScore2State (mi1 mi2 : RC.View → RC.View → ℝ) (solver : Solver) (acc : ℝ → ℚ → Bool) (b : BP.Bi)
    (qs : List (ℕ × ℕ)) (nIter decor : ℕ) (reset : Bool) (fuel : ℕ) (t : Tape) : Res (ℕ × ℕ → Option ℚ) := do
  let c ← Res.ofOption (RC.clean b qs)
  let p1 := RC.ownGroups c.n1
  let p2 := RC.ownGroups c.n2
  let H ← Res.ofOption (RC.H2State c p1 p2)
  let (d, s) ← warmup2 (RC.MCStep2State acc c) mi1 mi2 solver c.n1 c.n2 decor fuel (RC.startView c p1 p2 H t)
  let score ← RC.bRun (RC.MCStep2State acc c) (fun s _ q => RC.score2 s q) nIter [] d reset fuel s
  return score 1

/-- `MultiLinkScoreKState`, src/recommend.c:1575-1880. -/
noncomputable def MultiLinkScoreKState (mi1 mi2 : RC.View → RC.View → ℝ) (solver : Solver) (acc : ℝ → ℚ → Bool) (b : BP.Bi) (K : ℕ)
    (qs : List (ℕ × ℕ)) (nIter decor fuel : ℕ) (t : Tape) : Res (ℕ → ℕ × ℕ → Option ℚ) := do
  let c ← Res.ofOption (RC.clean b qs)
  let p1 := RC.ownGroups c.n1
  let p2 := RC.ownGroups c.n2
  let H ← Res.ofOption (RC.HKState c K p1 p2)
  let (d, s) ← warmup2 (RC.MCStepKState acc c K) mi1 mi2 solver c.n1 c.n2 decor fuel (RC.startView c p1 p2 H t)
  RC.bRun (RC.MCStepKState acc c K) (RC.scoreK K) nIter [] d false fuel s

end WU
