import Verif.Missing.Model

/-! # `LinkScore`: averaging over sampled partitions (`src/missing.c`) -/

namespace LS

open GP RG

/-- `predA[x][y] += c; predA[y][x] += c`. -/
def bump (c : ℚ) (x : ℕ) (M : ℕ → ℕ → ℚ) (y : ℕ) : ℕ → ℕ → ℚ :=
  let M := Function.update M x (Function.update (M x) y (M x y + c))
  Function.update M y (Function.update (M y) x (M y x + c))

/-- Pairs inside a group, src/missing.c:653-660. -/
def addWithin (c : ℚ) : List ℕ → (ℕ → ℕ → ℚ) → ℕ → ℕ → ℚ
  | [], M => M
  | x :: l, M => addWithin c l (l.foldl (bump c x) M)

/-- Pairs between two groups, src/missing.c:668-675. -/
def addBetween (c : ℚ) (l l' : List ℕ) (M : ℕ → ℕ → ℚ) : ℕ → ℕ → ℚ :=
  l.foldl (fun M x => l'.foldl (bump c x) M) M

/-- `(float)(l + 1) / (float)(r + 2)`; rounding to `float` is not modelled. -/
def contrib (l r : Int) : ℚ := ((l + 1 : Int) : ℚ) / ((r + 2 : Int) : ℚ)

/-- Contributions of group `i`, src/missing.c:646-679. -/
def addGroup (n : ℕ) (p : Part) (G2G : ℕ → ℕ → Int) (M : ℕ → ℕ → ℚ) (i : ℕ) : ℕ → ℕ → ℚ :=
  if 0 < (p.grp i).size then
    let M := addWithin (contrib (p.grp i).inlinks ((p.grp i).size * ((p.grp i).size - 1) / 2)) (p.grp i).nodes M
    (List.range' (i + 1) (n - (i + 1))).foldl (fun M j =>
      if 0 < (p.grp j).size then
        addBetween (contrib (G2G i j) ((p.grp i).size * (p.grp j).size)) (p.grp i).nodes (p.grp j).nodes M
      else M) M
  else M

/-- Contribution of one sampled partition, src/missing.c:643-680. -/
def accumulate (n : ℕ) (p : Part) (G2G : ℕ → ℕ → Int) (M : ℕ → ℕ → ℚ) : ℕ → ℕ → ℚ :=
  (List.range n).foldl (addGroup n p G2G) M

/-- The matrix `G2G` at the start, src/missing.c:579-586. -/
def initG2G (net : Net) (p : Part) : ℕ → ℕ → Int := fun i j =>
  if i = j then (p.grp i).inlinks else if i < j then NG2GLinks net p i j else NG2GLinks net p j i

/-- The sampling loop, src/missing.c:621-682: state, matrix, and the states sampled so far. -/
noncomputable def sample (step : St → Res St) (n : ℕ) : ℕ → St → (ℕ → ℕ → ℚ) → List St →
    Res ((ℕ → ℕ → ℚ) × List St)
  | 0, _, M, tr => .ok (M, tr)
  | k + 1, s, M, tr => do
    let s ← step s
    sample step n k s (accumulate n s.part s.G2G M) (tr ++ [s])

/-- Calls of the sampler one after another. -/
noncomputable def steps (acc : ℝ → ℚ → Bool) (net : Net) (linC : ℝ) : List ℕ → St → Res St
  | [], s => .ok s
  | f :: fs, s => do
    let s ← LinkScoreMCStep acc net linC f s
    steps acc net linC fs s

/-- `LinkScore`, src/missing.c:514-710. `scratch` is what `malloc` leaves in `n2gList`.
`GetDecorrelationStep` and `ThermalizeLinkScoreMC` only call `LinkScoreMCStep`; how often and with
which factor depends on mutual informations and running means, and is left open: `warm` is any list of
factors, `decorStep` any number. The second component of the result lists the sampled states. -/
noncomputable def LinkScore (acc : ℝ → ℚ → Bool) (net : Net) (linC : ℝ) (nIter : ℕ) (warm : List ℕ) (decorStep : ℕ)
    (scratch : ℕ → Int) (t : Tape) : Res ((ℕ → ℕ → ℚ) × List St) := do
  let (p, t) ← randomInit net net.n (List.range net.n) Part.empty t
  let H ← Res.ofOption (PartitionH net net.n linC p)
  let s ← steps acc net linC warm
    { part := p, G2G := initG2G net p, n2g := scratch, H := H, slg := [], tape := t }
  let (M, tr) ← sample (LinkScoreMCStep acc net linC decorStep) net.n nIter s (fun _ _ => 0) []
  return (fun i j => M i j / nIter, tr)

end LS
