import Verif.Basic.Res
import Verif.Tools.Model
import Mathlib.Analysis.SpecialFunctions.Exp
import Mathlib.Analysis.SpecialFunctions.Sqrt

/-!
# Model: decorrelation and thermalisation of the samplers

`GetDecorrelationStep`, `ThermalizeLinkScoreMC` and their copies in `src/missing.c`, `src/multiblock.c`, `src/only_deg.c`,
`src/sparse_missing.c` and `src/recommend.c`. The copies differ in the sampler they call, in the shortest time they look at, in the
test for equilibrium and in rounding; the model has these as parameters. `σ` is the state of a sampler, `step f` a call with
factor `f`.
-/

namespace WU

open RG Tools

variable {σ : Type}

/-- Calls of a sampler with the given factors. -/
def calls (step : ℕ → σ → Res σ) : List ℕ → σ → Res σ
  | [], s => .ok s
  | f :: fs, s => do
    let s ← step f s
    calls step fs s

/-! ## Thermalisation -/

/-- The two tests for equilibrium. -/
inductive Test where
  | epsilon
  | strict

/-- `sqrt(nrep)`, src/missing.c:447, 473. -/
noncomputable def root : ℝ := Real.sqrt 20

/-- `epsilon`: src/missing.c:473-474, `EPSILON` is `1.e-6`; `strict`: src/recommend.c:701 (and 1533, 2215, src/missing.c:1684). -/
def Test.Passes : Test → ℝ → ℝ → ℝ → ℝ → Prop
  | .epsilon, m0, s0, m1, s1 => (m0 - s0 / root) - (m1 + s1 / root) < 1 / 10 ^ 6
  | .strict, m0, s0, m1, s1 => m0 - s0 / root < m1 + s1 / root

/-- The loop over `rep`, src/missing.c:455-468: energies after each call. -/
def batch (step : ℕ → σ → Res σ) (H : σ → ℝ) (f : ℕ) : ℕ → σ → Res (List ℝ × σ)
  | 0, s => .ok ([], s)
  | k + 1, s => do
    let s ← step f s
    let r ← batch step H f k s
    return (H s :: r.1, r.2)

open Classical in
/-- The `do` loop, src/missing.c:452-499: at most `fuel` turns. -/
noncomputable def thermLoop (test : Test) (step : ℕ → σ → Res σ) (H : σ → ℝ) (f : ℕ) : ℕ → ℝ → ℝ → ℕ → σ → Res σ
  | 0, _, _, _, _ => .starved
  | fuel + 1, m0, s0, eq, s => do
    let (hs, s) ← batch step H f 20 s
    let m1 ← Res.ofOption (mean hs)
    let s1 ← Res.ofOption (stddev hs)
    if test.Passes m0 s0 m1 s1 then
      if eq + 1 < 5 then thermLoop test step H f fuel m0 s0 (eq + 1) s else .ok s
    else thermLoop test step H f fuel m1 s1 0 s

/-- `ThermalizeLinkScoreMC`, src/missing.c:431-505; with the test `epsilon` also src/missing.c:2320-2398, src/multiblock.c:365-441,
995-1071, 1638-1717, 2274-2353, src/only_deg.c:363-439, 1001-1080 and src/sparse_missing.c:344-428, with the test `strict`
src/missing.c:1639-1716 and src/recommend.c:650-735, 1488-1564, 2171-2246. Messages are left out. -/
noncomputable def Thermalize (test : Test) (step : ℕ → σ → Res σ) (H : σ → ℝ) (f fuel : ℕ) (s : σ) : Res σ :=
  thermLoop test step H f fuel (10 ^ 10) (1 / 10 ^ 10) 0 s

/-! ## Decorrelation -/

/-- Sum of the absolute values of `ExponentialRootF`, src/missing.c:41-61, for `a + (1 - a) exp (-x/b)` through two points. -/
noncomputable def residual (x1 y1 x2 y2 a b : ℝ) : ℝ :=
  |y1 - a - (1 - a) * Real.exp (-x1 / b)| + |y2 - a - (1 - a) * Real.exp (-x2 / b)|

open Classical in
/-- The solver loop, src/missing.c:83-97. `it i` is the point after `i + 1` calls of `gsl_multiroot_fsolver_iterate`, `none` if the call
reports that it is stuck. The point `b = 0`, where the functions are not defined, counts as no solution. -/
noncomputable def decayLoop (it : ℕ → Option (ℝ × ℝ)) (x1 y1 x2 y2 : ℝ) : ℕ → ℕ → ℝ
  | 0, _ => -1
  | k + 1, i =>
    match it i with
    | none => -1
    | some (a, b) => if b ≠ 0 ∧ residual x1 y1 x2 y2 a b < 1 / 10 ^ 7 then b else decayLoop it x1 y1 x2 y2 k (i + 1)

/-- What the library does: the points visited for `nnod`, `x1`, `y1`, `x2`, `y2`. Left open. -/
abbrev Solver := ℕ → ℝ → ℝ → ℝ → ℝ → ℕ → Option (ℝ × ℝ)

/-- `CalculateDecay`, src/missing.c:63-103. -/
noncomputable def CalculateDecay (solver : Solver) (nnod : ℕ) (x1 y1 x2 y2 : ℝ) : ℝ :=
  decayLoop (solver nnod x1 y1 x2 y2) x1 y1 x2 y2 1000 0

/-- The loop over `step`, src/missing.c:367-374: `mi` is `MutualInformation` with the reference partition, a real number. -/
def watch (step : ℕ → σ → Res σ) (mi : σ → ℝ) (x1 : ℕ) : ℕ → ℕ → Option ℝ → σ → Res (Option ℝ × σ)
  | 0, _, y1, s => .ok (y1, s)
  | k + 1, i, y1, s => do
    let s ← step 1 s
    watch step mi x1 k (i + 1) (if i = x1 then some (mi s) else y1) s

/-- One estimate, src/missing.c:366-378. -/
noncomputable def estimate (step : ℕ → σ → Res σ) (mi : σ → σ → ℝ) (solver : Solver) (nnod x1 x2 : ℕ) (s : σ) : Res (ℝ × σ) := do
  let (y1, s') ← watch step (mi s) x1 (x2 + 1) 0 none s
  let y1 ← Res.ofOption y1
  return (2 * CalculateDecay solver nnod x1 y1 x2 (mi s s'), s')

open Classical in
/-- The loop over `rep`, src/missing.c:358-396, at most `fuel` turns: negative estimates are made again. -/
noncomputable def estimates (one : σ → Res (ℝ × σ)) : ℕ → ℕ → σ → Res (List ℝ × σ)
  | _, 0, s => .ok ([], s)
  | 0, _ + 1, _ => .starved
  | fuel + 1, left + 1, s => do
    let (d, s) ← one s
    if d < 0 then estimates one fuel (left + 1) s
    else do
      let (ds, s) ← estimates one fuel left s
      return (d :: ds, s)

open Classical in
/-- Body of the last loop, src/missing.c:404-418: `result` and `norm`. For `sigma = 0` the quotient is 0/0, not a number, and the
test fails, as it does here. -/
noncomputable def discard (m sigma : ℝ) (r : ℝ × ℕ) (d : ℝ) : ℝ × ℕ :=
  if |d - m| / sigma > 2 then (r.1 - d, r.2) else (r.1, r.2 + 1)

/-- Removal of bad estimates, src/missing.c:399-418, and the quotient; `none`: 0/0. -/
noncomputable def chauvenet (ds : List ℝ) : Option ℝ := do
  let m ← mean ds
  let sigma ← stddev ds
  let r := ds.foldl (discard m sigma) (m * ds.length, 0)
  if r.2 = 0 then none else some (r.1 / r.2)

open Classical in
/-- Conversion to `int` of a number that is not negative; `none`: too large, undefined. `rounding`: `(int)(x + 0.5)`. -/
noncomputable def toInt (rounding : Bool) (x : ℝ) : Option ℕ :=
  let y := if rounding then x + 1 / 2 else x
  if y < 2 ^ 31 then some ⌊y⌋₊ else none

/-- Times at which one-partition samplers are looked at. `least = 0`: src/missing.c:353-354, src/multiblock.c:286-287, 916-917,
src/only_deg.c:284-285; `least = 10`: src/missing.c:1537-1540. -/
def times (nnod least : ℕ) : ℕ × ℕ :=
  let x2 := if nnod / 5 < least then least else nnod / 5
  (x2 / 4, x2)

/-- `GetDecorrelationStep`, src/missing.c:331-423 (`least = 0`, without rounding; copies in src/multiblock.c:263-357, 893-987,
src/only_deg.c:261-355), and `LSGetDecorrelationStepKState`, src/missing.c:1515-1629 (`least = 10`, with rounding). -/
noncomputable def GetDecorrelationStep (step : ℕ → σ → Res σ) (mi : σ → σ → ℝ) (solver : Solver) (nnod least : ℕ) (rounding : Bool)
    (fuel : ℕ) (s : σ) : Res (ℕ × σ) := do
  let (ds, s) ← estimates (estimate step mi solver nnod (times nnod least).1 (times nnod least).2) fuel 10 s
  let v ← Res.ofOption (chauvenet ds)
  let d ← Res.ofOption (toInt rounding v)
  return (d, s)

/-! ## Two partitions -/

/-- The loop over `step`, src/recommend.c:529-550. -/
def watch2 (step : ℕ → σ → Res σ) (mi1 mi2 : σ → ℝ) (x1 : ℕ) : ℕ → ℕ → Option (ℝ × ℝ) → σ → Res (Option (ℝ × ℝ) × σ)
  | 0, _, y, s => .ok (y, s)
  | k + 1, i, y, s => do
    let s ← step 1 s
    watch2 step mi1 mi2 x1 k (i + 1) (if i = x1 then some (mi1 s, mi2 s) else y) s

/-- One pair of estimates, src/recommend.c:527-560: `1.e-6` for a single node. -/
noncomputable def estimate2 (step : ℕ → σ → Res σ) (mi1 mi2 : σ → σ → ℝ) (solver : Solver) (n1 n2 x1 x2 : ℕ) (s : σ) :
    Res ((ℝ × ℝ) × σ) := do
  let (y, s') ← watch2 step (mi1 s) (mi2 s) x1 (x2 + 1) 0 none s
  let y ← Res.ofOption y
  return ((if 1 < n1 then 2 * CalculateDecay solver n1 x1 y.1 x2 (mi1 s s') else 1 / 10 ^ 6,
    if 1 < n2 then 2 * CalculateDecay solver n2 x1 y.2 x2 (mi2 s s') else 1 / 10 ^ 6), s')

open Classical in
/-- The loop over `rep`, src/recommend.c:518-582. -/
noncomputable def estimates2 (one : σ → Res ((ℝ × ℝ) × σ)) : ℕ → ℕ → σ → Res (List (ℝ × ℝ) × σ)
  | _, 0, s => .ok ([], s)
  | 0, _ + 1, _ => .starved
  | fuel + 1, left + 1, s => do
    let (d, s) ← one s
    if d.1 < 0 ∨ d.2 < 0 then estimates2 one fuel (left + 1) s
    else do
      let (ds, s) ← estimates2 one fuel left s
      return (d :: ds, s)

open Classical in
/-- The slower of the two partitions, src/recommend.c:585-610. -/
noncomputable def slower (ds : List (ℝ × ℝ)) : Option (List ℝ) := do
  let m1 ← mean (ds.map Prod.fst)
  let m2 ← mean (ds.map Prod.snd)
  return if m1 > m2 then ds.map Prod.fst else ds.map Prod.snd

/-- `GetDecorrelationStep2State`, src/recommend.c:482-644, and `GetDecorrelationStepKState`, 1325-1480. -/
noncomputable def GetDecorrelationStep2 (step : ℕ → σ → Res σ) (mi1 mi2 : σ → σ → ℝ) (solver : Solver) (n1 n2 fuel : ℕ) (s : σ) :
    Res (ℕ × σ) := do
  let (ds, s) ← estimates2 (estimate2 step mi1 mi2 solver n1 n2 (times (n1 + n2) 10).1 (times (n1 + n2) 10).2) fuel 10 s
  let l ← Res.ofOption (slower ds)
  let v ← Res.ofOption (chauvenet l)
  let d ← Res.ofOption (toInt true v)
  return (d, s)

end WU
