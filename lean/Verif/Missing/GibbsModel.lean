import Verif.Missing.ScoreModel
import Mathlib.Analysis.SpecialFunctions.Exp

/-! # The Gibbs sampler (`src/missing.c`, `GibbsLinkScoreStep`) -/

namespace LS

open GP RG

/-- Local variables assigned only inside the loop over destinations, src/missing.c:2070-2083
(`noldg`, `n2oldg`, `oldg2oldg`, `effectng`). They are assigned together; before that they hold
nothing (reading them is undefined behaviour). -/
structure Regs where
  noldg : Int
  n2oldg : Int
  oldg2oldg : Int
  effectng : Int

/-- Variables of the loop over destinations: `n2gList`, the array `dH` (allocated, not initialised),
`norm`, and the registers. -/
structure GScan where
  n2g : ℕ → Int
  dH : ℕ → Option ℝ
  norm : ℝ
  regs : Option Regs

/-- Body of the loop over destinations, src/missing.c:2061-2175. The energy change is computed as in
`LinkScoreMCStep` (same statements). -/
noncomputable def gibbsDest (net : Net) (linC : ℝ) (p : Part) (G2G : ℕ → ℕ → Int) (slg : List ℕ) (v old : ℕ)
    (s : GScan) (new : ℕ) : Option GScan :=
  if new = old then
    some (GScan.mk s.n2g (Function.update s.dH new (some 0)) (s.norm + Real.exp (-0)) s.regs)
  else do
    let d ← deltaH net linC p G2G s.n2g slg v old new
    some (GScan.mk d.n2g (Function.update s.dH new (some d.dH)) (s.norm + Real.exp (-d.dH))
      (some (Regs.mk (p.grp old).size (NLinksToGroup net p v old) (p.grp old).inlinks d.effectng)))

/-- One group in the loop for the virtual empty group, src/missing.c:2188-2246 (`nnewg`, `n2newg`,
`newg2oldg`, `newg2g` are 0). -/
noncomputable def emptyTerm (p : Part) (G2G : ℕ → ℕ → Int) (old : ℕ) (r : Regs) (n2g : ℕ → Int) (g : ℕ) : Option ℝ :=
  if 0 < (p.grp g).size then
    if g = old then do
      let a ← lterm (r.noldg * (r.noldg - 1) / 2) r.oldg2oldg
      let b ← lterm ((r.noldg - 1) * (r.noldg - 2) / 2) (r.oldg2oldg - r.n2oldg)
      let c ← lterm (0 * r.noldg) 0
      let d ← lterm ((0 + 1) * (r.noldg - 1)) (0 + r.n2oldg - 0)
      return (-a) + b - c + d
    else do
      let ng := (p.grp g).size
      let a ← lterm (r.noldg * ng) (G2G old g)
      let b ← lterm ((r.noldg - 1) * ng) (G2G old g - n2g g)
      let c ← lterm (0 * ng) 0
      let d ← lterm ((0 + 1) * ng) (0 + n2g g)
      return (-a) + b - c + d
  else some 0

/-- The correction for the empty group, src/missing.c:2249-2262: its first branch needs
`nnewg != 0`, so only the second can run. -/
noncomputable def emptyCorrection (n : ℕ) (r : Regs) : Option ℝ :=
  if r.noldg ≠ 1 then do
    let a ← lfact (n - r.effectng)
    let b ← lfact (n - (r.effectng + 1))
    return a - b
  else some 0

/-- Energy change towards an empty group, src/missing.c:2177-2262. -/
noncomputable def emptyDH (n : ℕ) (linC : ℝ) (p : Part) (G2G : ℕ → ℕ → Int) (slg : List ℕ) (old : ℕ) (n2g : ℕ → Int)
    (regs : Option Regs) : Option ℝ := do
  let r ← regs
  let x ← slg.foldlM (fun x g => do
    let y ← emptyTerm p G2G old r n2g g
    some (x + y)) ((if r.noldg = 1 then -linC else 0) + linC)
  let c ← emptyCorrection n r
  return x + c

open Classical in
/-- `while (cum < dice) cum += exp(-dH[slg[target++]]); newgnum = slg[target - 1];`,
src/missing.c:2277-2282. Leaving the list, reading an entry never written, and `slg[-1]` (when the loop
does not run) are `none`. -/
noncomputable def walkSlg (dH : ℕ → Option ℝ) (dice : ℝ) : List ℕ → ℝ → Option ℕ → Option ℕ
  | [], cum, last => if cum < dice then none else last
  | g :: l, cum, last =>
    if cum < dice then do
      let x ← dH g
      walkSlg dH dice l (cum + Real.exp (-x)) (some g)
    else last

/-- `GetEmptyGroup`, src/modules.c:1189-1200: the first empty group. -/
def GetEmptyGroup (n : ℕ) (p : Part) : Option ℕ :=
  (List.range n).find? fun g => (p.grp g).size = 0

open Classical in
/-- Choice of the destination, src/missing.c:2265-2283, with the energy change that goes with it. -/
noncomputable def gibbsChoose (n : ℕ) (p : Part) (slg : List ℕ) (s : GScan) (dHempty norm : ℝ) (u : ℚ) :
    Option (ℕ × ℝ) :=
  if norm * u > norm - ((n : ℝ) - slg.length) * Real.exp (-dHempty) then do
    let g ← GetEmptyGroup n p
    return (g, dHempty)
  else do
    let g ← walkSlg s.dH (norm * u) slg 0 none
    let x ← s.dH g
    return (g, x)

/-- State of the sampler inside a call. -/
structure GSt where
  st : St
  dH : ℕ → Option ℝ
  regs : Option Regs

/-- Making the move, src/missing.c:2286-2304. -/
noncomputable def gibbsMove (net : Net) (s : GSt) (v old : ℕ) (sc : GScan) (new : ℕ) (dH : ℝ) (t : Tape) : Res GSt := do
  let slg ← addToShortlist net.n new s.st.slg
  return GSt.mk (St.mk (MoveNode net v old new s.st.part).2 (s.st.slg.foldl (g2gStep old new sc.n2g) s.st.G2G) sc.n2g
    (s.st.H + dH) slg t) (Function.update sc.dH new (some dH)) sc.regs

/-- The move of one node, src/missing.c:2053-2304. -/
noncomputable def gibbsNode (net : Net) (linC : ℝ) (s : GSt) (v : ℕ) : Res GSt :=
  match s.st.part.inGroup v with
  | none => .ub
  | some old => do
    let sc ← Res.ofOption (s.st.slg.foldlM (gibbsDest net linC s.st.part s.st.G2G s.st.slg v old)
      (GScan.mk s.st.n2g s.dH 0 s.regs))
    let e ← Res.ofOption (emptyDH net.n linC s.st.part s.st.G2G s.st.slg old sc.n2g sc.regs)
    let (u, t) ← draw s.st.tape
    let (new, dH) ← Res.ofOption (gibbsChoose net.n s.st.part s.st.slg sc e
      (sc.norm + Real.exp (-e) * ((net.n : ℝ) - s.st.slg.length)) u)
    gibbsMove net s v old sc new dH t

/-- All nodes in turn. -/
noncomputable def gibbsNodes (net : Net) (linC : ℝ) : List ℕ → GSt → Res GSt
  | [], s => .ok s
  | v :: vs, s => do
    let s ← gibbsNode net linC s v
    gibbsNodes net linC vs s

/-- `GibbsLinkScoreStep`, src/missing.c:2008-2311. -/
noncomputable def GibbsLinkScoreStep (net : Net) (linC : ℝ) (s : St) : Res St := do
  let g ← gibbsNodes net linC (List.range net.n)
    (GSt.mk { s with slg := (List.range net.n).filter fun g => 0 < (s.part.grp g).size } (fun _ => none) none)
  return g.st

/-- Calls of the sampler one after another. -/
noncomputable def gibbsSteps (net : Net) (linC : ℝ) : ℕ → St → Res St
  | 0, s => .ok s
  | k + 1, s => do
    let s ← GibbsLinkScoreStep net linC s
    gibbsSteps net linC k s

/-- The random numbers drawn and not used, src/missing.c:2464-2468. -/
def skip : ℕ → Tape → Res Tape
  | 0, t => .ok t
  | k + 1, t => do
    let (_, t) ← draw t
    skip k t

/-- `GibbsLinkScore`, src/missing.c:2406-2585. Every node starts in its own group. The number of calls
`GibbsThermalizeLinkScore` makes depends on running means and is left open (`warm`). -/
noncomputable def GibbsLinkScore (net : Net) (linC : ℝ) (nIter warm : ℕ) (scratch : ℕ → Int) (t : Tape) :
    Res ((ℕ → ℕ → ℚ) × List St) := do
  let t ← skip net.n t
  let p := (List.range net.n).foldl (fun p v => AddNodeToGroup net v v p) Part.empty
  let H ← Res.ofOption (PartitionH net net.n linC p)
  let s ← gibbsSteps net linC warm (St.mk p (initG2G net p) scratch H [] t)
  let (M, tr) ← sample (GibbsLinkScoreStep net linC) net.n nIter s (fun _ _ => 0) []
  return (fun i j => M i j / nIter, tr)

end LS
