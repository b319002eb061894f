import Verif.Missing.ScoreModel
import Mathlib.Analysis.SpecialFunctions.Exp
import Mathlib.Analysis.Real.Sqrt

/-!
# Errors of the block model, reliability of a network, and samples of partitions (`src/missing.c`)

As in `Verif.Missing.ScoreModel`, `warm` stands for the calls of `LinkScoreMCStep` made by
`GetDecorrelationStep` and `ThermalizeLinkScoreMC`, `scratch` for what `malloc` leaves in `n2gList`.
Products of sizes of groups do not overflow an `int`.
-/

namespace LS

open GP RG

/-- Number of iterations passed by `SBMError`, src/missing.c:727. -/
def sbmIter : ℕ := 10000

/-- `IsThereLink(nlist[i], nlist[j])`, src/graph.c:807-818. -/
def isLink (net : Net) (i j : ℕ) : Bool := (net.neig i).any fun x => x.1 = j

/-- The double loop of `SBMError`, src/missing.c:737-749. -/
def sbmSum (net : Net) (M : ℕ → ℕ → ℚ) : ℚ :=
  (List.range net.n).foldl (fun s i => (List.range' (i + 1) (net.n - (i + 1))).foldl (fun s j =>
    if isLink net i j then s + (1 - M i j) * (1 - M i j) else s + M i j * M i j) s) 0

/-- `SBMError`, src/missing.c:717-758, with the states sampled by `LinkScore`; `none`: the result is
not a number. -/
noncomputable def SBMError (acc : ℝ → ℚ → Bool) (net : Net) (warm : List ℕ) (decorStep : ℕ)
    (scratch : ℕ → Int) (t : Tape) : Res (Option ℝ × (ℕ → ℕ → ℚ) × List St) := do
  let (M, tr) ← LinkScore acc net 0 sbmIter warm decorStep scratch t
  let np := net.n * (net.n - 1) / 2
  if np = 0 then return (none, M, tr)
  else return (some (Real.sqrt ((sbmSum net M : ℝ) / np)), M, tr)

/-- `log(r + 1) + LogChoose(r, lObs) - log(2 * r + 1) - LogChoose(2 * r, lObs + l)`. -/
noncomputable def logPair (r lObs l : Int) : Option ℝ := do
  let a ← lterm r lObs
  let b ← lterm (2 * r) (lObs + l)
  return a - b

/-- The two assignments to `contribTar` and `contribObs`, src/missing.c:971-974 and 985-988. -/
noncomputable def addPair (c : ℝ × ℝ) (r lObs lTar : Int) : Option (ℝ × ℝ) := do
  let a ← logPair r lObs lTar
  let b ← logPair r lObs lObs
  return (c.1 + a, c.2 + b)

/-- Contributions of one partition, `p` of the observed network and its copy `q` mapped to the target
network, src/missing.c:959-992. -/
noncomputable def netContrib (tar : Net) (n : ℕ) (G2G : ℕ → ℕ → Int) (p q : Part) : Option (ℝ × ℝ) :=
  (List.range n).foldlM (fun c g1 =>
    if 0 < (p.grp g1).size then do
      let c ← addPair c ((p.grp g1).size * ((p.grp g1).size - 1) / 2) (p.grp g1).inlinks (q.grp g1).inlinks
      (List.range' (g1 + 1) (n - (g1 + 1))).foldlM (fun c g2 =>
        if 0 < (p.grp g2).size then
          addPair c ((p.grp g1).size * (p.grp g2).size) (G2G g1 g2) (NG2GLinks tar q g1 g2)
        else some c) c
    else some c) (0, 0)

/-- Variables of the loop of `NetworkScore`: `contribBase` (`none` as long as `contribBase_sw` is 0),
`scoreTar`, `scoreObs`. -/
structure Acc where
  base : Option ℝ
  tar : ℝ
  obs : ℝ

/-- Update of the scores, src/missing.c:993-998. -/
noncomputable def Acc.add (a : Acc) (c : ℝ × ℝ) : Acc :=
  let base := a.base.getD c.2
  { base := some base, tar := a.tar + Real.exp (c.1 - base), obs := a.obs + Real.exp (c.2 - base) }

/-- The copy of the partition mapped to the target network, src/missing.c:955-956. -/
def mapCopy (obs tar : Net) (p : Part) : Part :=
  MapPartToNet tar obs.n (CopyPartition obs obs.n p.grp p.inGroup)

/-- The partition mapped back to the observed network, src/missing.c:957; making the copy has set the
`inGroup` fields of its nodes. -/
def mapBack (obs : Net) (p : Part) : Part :=
  MapPartToNet obs obs.n { p with inGroup := (CopyPartition obs obs.n p.grp p.inGroup).inGroup }

/-- The sampling loop, src/missing.c:936-1001. -/
noncomputable def netSample (step : St → Res St) (obs tar : Net) : ℕ → St → Acc → List St →
    Res (Acc × List St)
  | 0, _, a, tr => .ok (a, tr)
  | k + 1, s, a, tr => do
    let s ← step s
    let q := mapCopy obs tar s.part
    let s := { s with part := mapBack obs s.part }
    let c ← Res.ofOption (netContrib tar obs.n s.G2G s.part q)
    netSample step obs tar k s (a.add c) (tr ++ [s])

/-- The start of all samplers: a random partition, its energy and link counts, and the calls of the
sampler before sampling begins (e.g. src/missing.c:857-927). -/
noncomputable def prepare (acc : ℝ → ℚ → Bool) (net : Net) (linC : ℝ) (warm : List ℕ)
    (scratch : ℕ → Int) (t : Tape) : Res St := do
  let (p, t) ← randomInit net net.n (List.range net.n) Part.empty t
  let H ← Res.ofOption (PartitionH net net.n linC p)
  steps acc net linC warm
    { part := p, G2G := initG2G net p, n2g := scratch, H := H, slg := [], tape := t }

/-- `NetworkScore`, src/missing.c:850-1015, for target networks with the labels of the observed one in
the same order; not in debug mode, so that the energy is reset to 0. `none`: 0/0. -/
noncomputable def NetworkScore (acc : ℝ → ℚ → Bool) (tar obs : Net) (linC : ℝ) (nIter : ℕ) (warm : List ℕ)
    (decorStep : ℕ) (scratch : ℕ → Int) (t : Tape) : Res (Option ℝ × List St) := do
  let s ← prepare acc obs linC warm scratch t
  let (a, tr) ← netSample (LinkScoreMCStep acc obs linC decorStep) obs tar nIter { s with H := 0 }
    { base := none, tar := 0, obs := 0 } []
  if nIter = 0 then return (none, tr)
  else return (some (a.tar / nIter / (a.obs / nIter)), tr)

/-- The sampling loop of `PartitionSampling`, src/missing.c:1229-1249: the copies saved so far, and
the states they were made from. -/
noncomputable def partSample (step : St → Res St) (net : Net) : ℕ → St → List Part → List St →
    Res (List Part × List St)
  | 0, _, ps, tr => .ok (ps, tr)
  | k + 1, s, ps, tr => do
    let s ← step s
    let c := CopyPartition net net.n s.part.grp s.part.inGroup
    let s := { s with part := mapBack net s.part }
    partSample step net k s (ps ++ [c]) (tr ++ [s])

/-- `PartitionSampling`, src/missing.c:1131-1260, not in debug mode; `thin` is
`(int)(decorStep*thinning)` (0 if that is negative: no attempt is made in either case). -/
noncomputable def PartitionSampling (acc : ℝ → ℚ → Bool) (net : Net) (linC : ℝ) (nIter : ℕ) (warm : List ℕ)
    (burnin decorStep thin : ℕ) (scratch : ℕ → Int) (t : Tape) : Res (List Part × List St) := do
  let s ← prepare acc net linC (warm ++ List.replicate burnin decorStep) scratch t
  partSample (LinkScoreMCStep acc net linC thin) net nIter { s with H := 0 } [] []

end LS
