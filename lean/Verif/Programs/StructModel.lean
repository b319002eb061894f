import Verif.Programs.LegacyModel
import Verif.Missing.NetScoreModel
import Verif.Tools.Model

/-!
# Error of the block model compared with random networks (`src/missing.c:760-790`)

The network is that of `Verif.Graph.Model`; the sampler of `SBMError` sees it as `PG.inside`, as in `netcarto-legacy`.
-/

namespace PG

open RG
open GR (CopyNetwork RandomizeSymmetricNetwork)

/-- What `SBMError` leaves open (see `LS.LinkScore`), as functions of the network and of the random numbers to come: the course of the
warm-up, the decorrelation step, and what `malloc` leaves in the scratch array. -/
structure Open where
  warm : GR.Net → Tape → List ℕ
  decor : GR.Net → Tape → ℕ
  scratch : GR.Net → Tape → ℕ → Int

/-- `SBMError(net, gen)`, with the random numbers that are left: those left by the last sampled state. -/
noncomputable def sbmError (acc : ℝ → ℚ → Bool) (o : Open) (net : GR.Net) (t : Tape) : Res (Option ℝ × Tape) := do
  let (e, _, tr) ← LS.SBMError acc (inside net) (o.warm net t) (o.decor net t) (o.scratch net t) t
  return (e, (tr.getLast?.map LS.St.tape).getD t)

/-- The loop, src/missing.c:777-780: the same network is randomized again and again. Also the networks whose error was taken. -/
def structLoop (err : GR.Net → Tape → Res (Option ℝ × Tape)) : ℕ → GR.Net → Tape → Res (List (GR.Net × Option ℝ) × Tape)
  | 0, _, t => .ok ([], t)
  | k + 1, net, t => do
    let (net, t) ← RandomizeSymmetricNetwork net 100 t
    let (e, t) ← err net t
    let (l, t) ← structLoop err k net t
    return ((net, e) :: l, t)

/-- The quotient, src/missing.c:783; `none`: not a finite number. -/
noncomputable def structQuot (ori : Option ℝ) (ran : List (Option ℝ)) : Option ℝ := do
  let ori ← ori
  let ran ← ran.mapM id
  let m ← Tools.mean ran
  let s ← Tools.stddev ran
  if s = 0 then none else some ((m - ori) / s)

/-- `SBMStructureScore`, src/missing.c:765-790, for `nrep ≥ 0`, with any function for the error. The second component has the networks made
and their errors, the third is the error of the network itself. -/
noncomputable def SBMStructureScore (err : GR.Net → Tape → Res (Option ℝ × Tape)) (net : GR.Net) (nrep : ℕ) (t : Tape) :
    Res (Option ℝ × List (GR.Net × Option ℝ) × Option ℝ) := do
  let (ori, t) ← err net t
  let randNet ← Res.ofOption (CopyNetwork net)
  let (l, _) ← structLoop err nrep randNet t
  return (structQuot ori (l.map (·.2)), l, ori)

end PG
