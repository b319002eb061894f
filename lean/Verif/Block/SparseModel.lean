import Verif.Block.Model
import Mathlib.Analysis.SpecialFunctions.Gamma.Basic

/-!
# The sparse block model (`src/sparse_missing.c`)

The sampler of `src/missing.c` with a Beta prior instead of a uniform one. The energy terms are logarithms of
Gamma functions, and the loops do not skip empty groups. Statements that are letter by letter those of
`src/multiblock.c` (`groupDH`, `correction`, `gibbsChoose`, `gibbsMove`, `accumulate`, …) are shared; there is
no `linC` here and no term for the number of groups.
-/

namespace BK

open GP hiding St
open RG LS

/-- `gsl_sf_lngamma` for the arguments that can occur (GSL stops the program at 0). -/
noncomputable def lngamma (x : ℝ) : Option ℝ := if 0 < x then some (Real.log (Real.Gamma x)) else none

/-- `FastLogGamma`, src/tools.c:554-561, with the table of `InitializeFastLogGamma` (520-531): from the table or
computed, the value is the same; a negative index is outside the table. -/
noncomputable def FastLogGamma (r : Int) (x : ℝ) : Option ℝ := if r < 0 then none else lngamma (r + x)

/-- Term of a pair of groups, src/sparse_missing.c:52-53 and 153. -/
noncomputable def sparseTerm (a b : ℝ) (r l : Int) : Option ℝ := do
  let x ← FastLogGamma r (a + b)
  let y ← FastLogGamma l a
  let z ← FastLogGamma (r - l) b
  return x - y - z

/-- The sparse kernel; the score is src/sparse_missing.c:585 and 600 (its rounding to `float` is left out). -/
noncomputable def SPARSE (a b : ℝ) : Kern :=
  ⟨sparseTerm a b, fun _ => some 0, fun r l => some (((l : ℝ) + a) / ((r : ℝ) + a + b))⟩

/-- `SparsePartitionH`, src/sparse_missing.c:38-66, for the groups `0 … n-1`. -/
noncomputable def SparsePartitionH (K : Kern) (net : Net) (n : ℕ) (p : Part) : Option ℝ := do
  let H ← (List.range n).foldlM (fun H g1 => do
    let a ← K.term ((p.grp g1).size * ((p.grp g1).size - 1) / 2) (p.grp g1).inlinks
    (List.range' (g1 + 1) (n - (g1 + 1))).foldlM (fun H g2 => do
      let b ← K.term ((p.grp g1).size * (p.grp g2).size) (NG2GLinks net p g1 g2)
      some (H + b)) (H + a)) 0
  let nnod := (List.range n).foldl (fun s g => s + (p.grp g).size) 0
  let f ← lfact (nnod - NNonEmptyGroups n p)
  return H - f

/-- Body of the loop over the shortlist, src/sparse_missing.c:142-203: only the count of groups depends on the
group being empty. -/
noncomputable def sparseScan (K : Kern) (net : Net) (p : Part) (G2G : ℕ → ℕ → Int) (v old new : ℕ) (s : Scan) (g : ℕ) :
    Option Scan := do
  let eff := if 0 < (p.grp g).size then s.effectng + 1 else s.effectng
  let k := NLinksToGroup net p v g
  let d ← groupDH K net p G2G v old new g k
  some { dH := s.dH + d, effectng := eff, n2g := Function.update s.n2g g k }

/-- The energy change of moving `v` from `old` to `new`, src/sparse_missing.c:131-217. -/
noncomputable def sparseDelta (K : Kern) (net : Net) (p : Part) (G2G : ℕ → ℕ → Int) (n2g : ℕ → Int) (slg : List ℕ)
    (v old new : ℕ) : Option Scan := do
  let s ← slg.foldlM (sparseScan K net p G2G v old new) { dH := 0, effectng := 0, n2g := n2g }
  let c ← correction K net.n p old new s.effectng
  return { s with dH := s.dH + c }

/-- Body of the loop over destinations, src/sparse_missing.c:127-221. -/
noncomputable def sparseDest (K : Kern) (net : Net) (p : Part) (G2G : ℕ → ℕ → Int) (slg : List ℕ) (v old : ℕ)
    (s : GScan) (new : ℕ) : Option GScan :=
  if new = old then
    some (GScan.mk s.n2g (Function.update s.dH new (some 0)) (s.norm + Real.exp (-0)) s.regs)
  else do
    let d ← sparseDelta K net p G2G s.n2g slg v old new
    some (GScan.mk d.n2g (Function.update s.dH new (some d.dH)) (s.norm + Real.exp (-d.dH))
      (some (Regs.mk (p.grp old).size (NLinksToGroup net p v old) (p.grp old).inlinks d.effectng)))

/-- One group in the loop for the virtual empty group, src/sparse_missing.c:230-272. -/
noncomputable def sparseEmptyTerm (K : Kern) (p : Part) (G2G : ℕ → ℕ → Int) (old : ℕ) (r : Regs) (n2g : ℕ → Int) (g : ℕ) :
    Option ℝ :=
  if g = old then do
    let a ← K.term (r.noldg * (r.noldg - 1) / 2) r.oldg2oldg
    let b ← K.term ((r.noldg - 1) * (r.noldg - 2) / 2) (r.oldg2oldg - r.n2oldg)
    let c ← K.term (0 * r.noldg) 0
    let d ← K.term ((0 + 1) * (r.noldg - 1)) (0 + r.n2oldg - 0)
    return (-a) + b - c + d
  else do
    let ng := (p.grp g).size
    let a ← K.term (r.noldg * ng) (G2G old g)
    let b ← K.term ((r.noldg - 1) * ng) (G2G old g - n2g g)
    let c ← K.term (0 * ng) 0
    let d ← K.term ((0 + 1) * ng) (0 + n2g g)
    return (-a) + b - c + d

/-- Energy change towards an empty group, src/sparse_missing.c:223-287. -/
noncomputable def sparseEmptyDH (K : Kern) (n : ℕ) (p : Part) (G2G : ℕ → ℕ → Int) (slg : List ℕ) (old : ℕ) (n2g : ℕ → Int)
    (regs : Option Regs) : Option ℝ := do
  let r ← regs
  let x ← slg.foldlM (fun x g => do
    let y ← sparseEmptyTerm K p G2G old r n2g g
    some (x + y)) 0
  let c ← emptyCorrection K n r
  return x + c

/-- The move of one node, src/sparse_missing.c:120-331. -/
noncomputable def sparseNode (K : Kern) (net : Net) (s : GSt) (v : ℕ) : Res GSt :=
  match s.st.part.inGroup v with
  | none => .ub
  | some old => do
    let sc ← Res.ofOption (s.st.slg.foldlM (sparseDest K net s.st.part s.st.G2G s.st.slg v old)
      (GScan.mk s.st.n2g s.dH 0 s.regs))
    let e ← Res.ofOption (sparseEmptyDH K net.n s.st.part s.st.G2G s.st.slg old sc.n2g sc.regs)
    let (u, t) ← draw s.st.tape
    let (new, dH) ← Res.ofOption (gibbsChoose net.n s.st.part s.st.slg sc e
      (sc.norm + Real.exp (-e) * ((net.n : ℝ) - s.st.slg.length)) u)
    gibbsMove net s v old sc new dH t

/-- All nodes in turn. -/
noncomputable def sparseNodes (K : Kern) (net : Net) : List ℕ → GSt → Res GSt
  | [], s => .ok s
  | v :: vs, s => do
    let s ← sparseNode K net s v
    sparseNodes K net vs s

/-- `SparseGibbsLinkScoreStep`, src/sparse_missing.c:75-335. -/
noncomputable def SparseGibbsLinkScoreStep (K : Kern) (net : Net) (s : St) : Res St := do
  let g ← sparseNodes K net (List.range net.n)
    (GSt.mk { s with slg := (List.range net.n).filter fun g => 0 < (s.part.grp g).size } (fun _ => none) none)
  return g.st

/-- Calls of the sampler one after another. -/
noncomputable def sparseSteps (K : Kern) (net : Net) : ℕ → St → Res St
  | 0, s => .ok s
  | k + 1, s => do
    let s ← SparseGibbsLinkScoreStep K net s
    sparseSteps K net k s

/-- `TotalNLinks(net, 1)`, src/graph.c:1448-1460. -/
def TotalNLinks (net : Net) : ℕ := ((List.range net.n).map fun v => (net.neig v).length).sum / 2

/-- `betaA` and `betaB`, src/sparse_missing.c:472-474. A division by zero is undefined: with one node, or with all
pairs linked, the program goes on with a NaN or infinite `betaA`, all comparisons of the sampler with it are false
and it reads `slg[-1]`. (With no node at all the NaN is not used; this case is not represented.) -/
noncomputable def sparsePrior (net : Net) : Option (ℝ × ℝ) :=
  if net.n * (net.n - 1) = 0 then none else
    let density : ℝ := 2 * TotalNLinks net / ((net.n * (net.n - 1) : ℕ) : ℝ)
    let betaB : ℝ := 1 / 2
    if 1 - density = 0 then none else some (density * betaB / (1 - density), betaB)

/-- `SparseGibbsLinkScore`, src/sparse_missing.c:436-638, up to the tables of logarithms: filling the table for
`betaA` reads `lngamma (0 + betaA)` (477). `warm` is the number of calls made by
`SparseGibbsThermalizeLinkScore`. -/
noncomputable def SparseGibbsLinkScore (net : Net) (nIter warm : ℕ) (scratch : ℕ → Int) (t : Tape) :
    Res ((ℕ → ℕ → ℝ) × List St) := do
  let (a, b) ← Res.ofOption (sparsePrior net)
  let _ ← Res.ofOption (lngamma (0 + a))
  let t ← skip net.n t
  let p := (List.range net.n).foldl (fun p v => AddNodeToGroup net v v p) Part.empty
  let H ← Res.ofOption (SparsePartitionH (SPARSE a b) net net.n p)
  let s ← sparseSteps (SPARSE a b) net warm
    { part := p, G2G := initG2G net p, n2g := scratch, H := H, slg := [], tape := t }
  let (M, tr) ← sample (SPARSE a b) (SparseGibbsLinkScoreStep (SPARSE a b) net) net.n nIter s (fun _ _ => 0) []
  return (fun i j => M i j / nIter, tr)

end BK
