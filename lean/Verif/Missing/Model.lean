import Verif.Group.SAModel
import Mathlib.Analysis.SpecialFunctions.Log.Basic
import Mathlib.Data.Nat.Choose.Basic
import Mathlib.Data.Nat.Factorial.Basic

/-!
# The link prediction sampler (`src/missing.c`)

Energies are real numbers. `FastLogChoose` and `FastLogFact` are replaced by the logarithms they
return (C39 proves that the tables are transparent); arguments outside `0 ≤ l ≤ r`, for which the C
code reads outside the table or GSL aborts, are `none`.
-/

namespace LS

open GP RG

/-- `log(r + 1) + FastLogChoose(r, l, …)`. -/
noncomputable def lterm (r l : Int) : Option ℝ :=
  if 0 ≤ l ∧ l ≤ r then
    some (Real.log ((r : ℝ) + 1) + Real.log ((r.toNat.choose l.toNat : ℕ) : ℝ))
  else none

/-- `gsl_sf_lnfact(k)`, `FastLogFact(k, …)`. -/
noncomputable def lfact (k : Int) : Option ℝ :=
  if 0 ≤ k then some (Real.log ((k.toNat.factorial : ℕ) : ℝ)) else none

/-- `NNonEmptyGroups`, src/modules.c:638-647, of the groups `0 … n-1`. -/
def NNonEmptyGroups (n : ℕ) (p : Part) : Int :=
  (List.range n).foldl (fun s g => if 0 < (p.grp g).size then s + 1 else s) 0

/-- `PartitionH`, src/missing.c:111-140, for the groups `0 … n-1`. -/
noncomputable def PartitionH (net : Net) (n : ℕ) (linC : ℝ) (p : Part) : Option ℝ := do
  let H ← (List.range n).foldlM (fun H g1 =>
    if 0 < (p.grp g1).size then do
      let a ← lterm ((p.grp g1).size * ((p.grp g1).size - 1) / 2) (p.grp g1).inlinks
      (List.range' (g1 + 1) (n - (g1 + 1))).foldlM (fun H g2 =>
        if 0 < (p.grp g2).size then do
          let b ← lterm ((p.grp g1).size * (p.grp g2).size) (NG2GLinks net p g1 g2)
          some (H + b)
        else some H) (H + a)
    else some H) (linC * NNonEmptyGroups n p)
  let nnod := (List.range n).foldl (fun s g => if 0 < (p.grp g).size then s + (p.grp g).size else s) 0
  let f ← lfact (nnod - NNonEmptyGroups n p)
  return H - f

/-- Energy change due to one group `g` of the shortlist, src/missing.c:209-281; `n2g` is
`n2gList[g->label]`, just computed. -/
noncomputable def groupDH (net : Net) (p : Part) (G2G : ℕ → ℕ → Int) (v old new g : ℕ) (n2g : Int) : Option ℝ :=
  let noldg := (p.grp old).size
  let nnewg := (p.grp new).size
  let n2oldg := NLinksToGroup net p v old
  let n2newg := NLinksToGroup net p v new
  let newg2oldg := NG2GLinks net p new old
  let oldg2oldg := (p.grp old).inlinks
  let newg2newg := (p.grp new).inlinks
  if g = old then do
    let a ← lterm (noldg * (noldg - 1) / 2) oldg2oldg
    let b ← lterm ((noldg - 1) * (noldg - 2) / 2) (oldg2oldg - n2oldg)
    let c ← lterm (nnewg * noldg) newg2oldg
    let d ← lterm ((nnewg + 1) * (noldg - 1)) (newg2oldg + n2oldg - n2newg)
    return (-a) + b - c + d
  else if g = new then do
    let a ← lterm (nnewg * (nnewg - 1) / 2) newg2newg
    let b ← lterm ((nnewg + 1) * nnewg / 2) (newg2newg + n2newg)
    return (-a) + b
  else do
    let oldg2g := G2G old g
    let newg2g := G2G new g
    let ng := (p.grp g).size
    let a ← lterm (noldg * ng) oldg2g
    let b ← lterm ((noldg - 1) * ng) (oldg2g - n2g)
    let c ← lterm (nnewg * ng) newg2g
    let d ← lterm ((nnewg + 1) * ng) (newg2g + n2g)
    return (-a) + b - c + d

/-- Variables of the loop over the shortlist: `dH`, `effectng`, `n2gList`. -/
structure Scan where
  dH : ℝ
  effectng : Int
  n2g : ℕ → Int

/-- Body of the loop over the shortlist, src/missing.c:205-285. -/
noncomputable def scanGroup (net : Net) (p : Part) (G2G : ℕ → ℕ → Int) (v old new : ℕ) (s : Scan) (g : ℕ) :
    Option Scan :=
  if 0 < (p.grp g).size then do
    let k := NLinksToGroup net p v g
    let d ← groupDH net p G2G v old new g k
    some { dH := s.dH + d, effectng := s.effectng + 1, n2g := Function.update s.n2g g k }
  else some { s with n2g := Function.update s.n2g g 0 }

/-- Correction for labelled groups, src/missing.c:287-295. -/
noncomputable def correction (n : ℕ) (p : Part) (old new : ℕ) (eff : Int) : Option ℝ :=
  if (p.grp old).size = 1 ∧ (p.grp new).size ≠ 0 then do
    let a ← lfact (n - eff)
    let b ← lfact (n - (eff - 1))
    return a - b
  else if (p.grp old).size ≠ 1 ∧ (p.grp new).size = 0 then do
    let a ← lfact (n - eff)
    let b ← lfact (n - (eff + 1))
    return a - b
  else some 0

/-- The energy change of moving `v` from `old` to `new`, src/missing.c:188-295, and `n2gList`. -/
noncomputable def deltaH (net : Net) (linC : ℝ) (p : Part) (G2G : ℕ → ℕ → Int) (n2g : ℕ → Int) (slg : List ℕ)
    (v old new : ℕ) : Option Scan := do
  let d0 := (if (p.grp old).size = 1 then -linC else 0) + (if (p.grp new).size = 0 then linC else 0)
  let s ← slg.foldlM (scanGroup net p G2G v old new) { dH := d0, effectng := 0, n2g := n2g }
  let c ← correction net.n p old new s.effectng
  return { s with dH := s.dH + c }

/-- `M[i][j] = x`. -/
def set2 (M : ℕ → ℕ → Int) (i j : ℕ) (x : Int) : ℕ → ℕ → Int :=
  Function.update M i (Function.update (M i) j x)

/-- Body of the update of `G2G`, src/missing.c:305-308. -/
def g2gStep (old new : ℕ) (n2g : ℕ → Int) (M : ℕ → ℕ → Int) (i : ℕ) : ℕ → ℕ → Int :=
  let M := set2 M i old (M i old - n2g i)
  let M := set2 M old i (M i old)
  let M := set2 M i new (M i new + n2g i)
  set2 M new i (M i new)

/-- Update of `G2G`, src/missing.c:304-309. -/
def g2gUpdate (n old new : ℕ) (n2g : ℕ → Int) (M : ℕ → ℕ → Int) : ℕ → ℕ → Int :=
  (List.range n).foldl (g2gStep old new n2g) M

/-- State of the sampler: partition, `G2G`, `n2gList`, running energy `*H`, shortlist, random numbers. -/
structure St where
  part : Part
  G2G : ℕ → ℕ → Int
  n2g : ℕ → Int
  H : ℝ
  slg : List ℕ
  tape : Tape

/-- Metropolis rule, src/missing.c:298: `dH <= 0 || uniform < exp(-dH)`; the second comparison is
the arbitrary function `acc` of `dH` and the random number. -/
noncomputable def metropolis (acc : ℝ → ℚ → Bool) (dH : ℝ) (t : Tape) : Res (Bool × Tape) :=
  if dH ≤ 0 then .ok (true, t)
  else do
    let (u, t) ← draw t
    return (acc dH u, t)

/-- Append to the shortlist, an array of `nnod` integers, src/missing.c:312-317. -/
def addToShortlist (n new : ℕ) (slg : List ℕ) : Res (List ℕ) :=
  if new ∈ slg then .ok slg
  else if slg.length < n then .ok (slg ++ [new]) else .ub

/-- Accepting a move, src/missing.c:300-317. -/
noncomputable def acceptMove (net : Net) (s : St) (v old new : ℕ) (d : Scan) (t : Tape) : Res St := do
  let slg ← addToShortlist net.n new s.slg
  return {
    part := (MoveNode net v old new s.part).2
    G2G := g2gUpdate net.n old new d.n2g s.G2G
    n2g := d.n2g
    H := s.H + d.dH
    slg := slg
    tape := t }

/-- Destination other than the present group, src/missing.c:192-194. -/
def destination (n old : ℕ) (t : Tape) : Res (ℕ × Tape) :=
  redraw (fun u => ⌊u * n⌋₊) (fun g => g == old) t

/-- Acceptance and its effect. -/
noncomputable def decideMove (acc : ℝ → ℚ → Bool) (net : Net) (s : St) (v old new : ℕ) (d : Scan) (t : Tape) :
    Res St := do
  let (a, t) ← metropolis acc d.dH t
  if a then acceptMove net s v old new d t
  else .ok { s with n2g := d.n2g, tape := t }

/-- One attempt to move a node, src/missing.c:186-318. -/
noncomputable def attempt (acc : ℝ → ℚ → Bool) (net : Net) (linC : ℝ) (s : St) : Res St := do
  let (v, t) ← pick net.n s.tape
  match s.part.inGroup v with
  | none => .ub
  | some old => do
    let (new, t) ← destination net.n old t
    let d ← Res.ofOption (deltaH net linC s.part s.G2G s.n2g s.slg v old new)
    decideMove acc net s v old new d t

/-- `LinkScoreMCStep`, src/missing.c:149-322. There are as many groups as nodes. -/
noncomputable def LinkScoreMCStep (acc : ℝ → ℚ → Bool) (net : Net) (linC : ℝ) (factor : ℕ) (s : St) : Res St :=
  iter (attempt acc net linC) (net.n * factor)
    { s with slg := (List.range net.n).filter fun g => 0 < (s.part.grp g).size }

end LS
