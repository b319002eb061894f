import Verif.KState.Model
import Verif.Bipart.Model

/-!
# Recommender: Monte Carlo on two partitions of a bipartite network of ratings (`src/recommend.c`)

Both sets of nodes are numbered from 0; the weight of a link is the rating. Each set is divided into as
many groups as it has nodes. The link counters inside `struct group` are not used here and are not
modelled: groups are those of `Verif.Group.Model` over a network without links. `FastLog`, `FastLogChoose`,
`FastLogFact` are the logarithms they return (C39).

`MCStep2State` (two ratings) and `MCStepKState` (`K` ratings) are the same code up to the energy of a pair of
groups, which is the parameter `pt` below. `(*G2G)[k]` in `MCStepKState` is `*(&G1G2[0] + k)`, that is
`G1G2[k]`.
-/

namespace RC

open GP RG LS KS
open BP (Bi)

/-- A set of nodes; the network of `Verif.Group.Model` without links. -/
def dots (n : ℕ) : Net := { n := n, neig := fun _ => [] }

/-- State of the sampler, seen from one of the sets: the partition of this set and of the other one, node to
group counts `N` (nodes of this set) and `Ninv`, group to group counts `G` and `Ginv`, all by rating; numbers
of non-empty groups; running energy; random numbers. -/
structure View where
  part : Part
  opart : Part
  N : ℕ → ℕ → ℕ → Int
  Ninv : ℕ → ℕ → ℕ → Int
  G : ℕ → ℕ → ℕ → Int
  Ginv : ℕ → ℕ → ℕ → Int
  ng : Int
  ong : Int
  H : ℝ
  tape : Tape

/-- The state seen from the other set: the assignments of pointers at src/recommend.c:311-354 and 1160-1202. -/
def View.swap (s : View) : View := ⟨s.opart, s.part, s.Ninv, s.N, s.Ginv, s.G, s.ong, s.ng, s.H, s.tape⟩

/-- `NLinksToGroup`, src/modules.c:817-828, for a list of neighbours. -/
def nl (l : List (ℕ × ℚ)) (f : ℕ → Option ℕ) (g : ℕ) : Int :=
  l.foldl (fun s x => if f x.1 = some g then s + 1 else s) 0

/-- `NWeightLinksToGroup`, src/modules.c:837-848, for a list of neighbours. -/
def nwl (l : List (ℕ × ℚ)) (f : ℕ → Option ℕ) (g k : ℕ) : Int :=
  l.foldl (fun s x => if x.2 = (k : ℚ) ∧ f x.1 = some g then s + 1 else s) 0

/-- `NG2GLinks`, src/modules.c:912-924, for groups of different partitions. -/
def bng2g (b : Bi) (p1 p2 : Part) (g1 g2 : ℕ) : Int :=
  (p1.grp g1).nodes.foldl (fun s v => s + nl (b.neig1 v) p2.inGroup g2) 0

/-- `NWeightG2GLinks`, src/modules.c:933-946, for groups of different partitions. -/
def bnwg2g (b : Bi) (p1 p2 : Part) (g1 g2 k : ℕ) : Int :=
  (p1.grp g1).nodes.foldl (fun s v => s + nwl (b.neig1 v) p2.inGroup g2 k) 0

/-- Number of nodes in the non-empty groups `0 … n-1`. -/
def nnodOf (n : ℕ) (p : Part) : Int :=
  (List.range n).foldl (fun s g => if 0 < (p.grp g).size then s + (p.grp g).size else s) 0

/-- `H2State`, src/recommend.c:228-264. -/
noncomputable def H2State (b : Bi) (p1 p2 : Part) : Option ℝ := do
  let H ← (List.range b.n1).foldlM (fun H g1 =>
    if 0 < (p1.grp g1).size then
      (List.range b.n2).foldlM (fun H g2 =>
        if 0 < (p2.grp g2).size then do
          let a ← lterm (bng2g b p1 p2 g1 g2) (bnwg2g b p1 p2 g1 g2 1)
          some (H + a)
        else some H) H
    else some H) 0
  let f1 ← lfact (nnodOf b.n1 p1 - NNonEmptyGroups b.n1 p1)
  let f2 ← lfact (nnodOf b.n2 p2 - NNonEmptyGroups b.n2 p2)
  some (H - (f1 + f2))

/-- `HKState`, src/recommend.c:1069-1106. -/
noncomputable def HKState (b : Bi) (K : ℕ) (p1 p2 : Part) : Option ℝ := do
  let H ← (List.range b.n1).foldlM (fun H g1 =>
    (List.range b.n2).foldlM (fun H g2 => do
      let f ← lfact (bng2g b p1 p2 g1 g2 + K - 1)
      let r ← countRatings K (fun k => bnwg2g b p1 p2 g1 g2 k)
      some (H + (f - r.2))) H) 0
  let f1 ← lfact ((List.range b.n1).foldl (fun s g => s + (p1.grp g).size) 0 - NNonEmptyGroups b.n1 p1)
  let f2 ← lfact (nnodOf b.n2 p2 - NNonEmptyGroups b.n2 p2)
  some (H - (f1 + f2))

/-- Energy of a pair of groups with two ratings, e.g. src/recommend.c:361-368. -/
noncomputable def pt2 (c : ℕ → Int) : Option ℝ := lterm (c 0 + c 1) (c 1)

/-- Energy of the pairs of `old` and `new` with the non-empty groups of the other set, src/recommend.c:359-376,
425-440, 1207-1230, 1266-1290. -/
noncomputable def config (pt : (ℕ → Int) → Option ℝ) (m : ℕ) (o : Part) (G : ℕ → ℕ → ℕ → Int) (old new : ℕ) :
    Option ℝ :=
  (List.range m).foldlM (fun s g =>
    if 0 < (o.grp g).size then do
      let a ← pt (fun k => G k old g)
      let b ← pt (fun k => G k new g)
      some (s + (a + b))
    else some s) 0

/-- `G[old][i] -= c[i]; G[new][i] += c[i]`. -/
def colStep (old new : ℕ) (c : ℕ → Int) (M : ℕ → ℕ → Int) (i : ℕ) : ℕ → ℕ → Int :=
  let M := set2 M old i (M old i - c i)
  set2 M new i (M new i + c i)

/-- `Ginv[i][old] -= c[i]; Ginv[i][new] += c[i]`. -/
def rowStep (old new : ℕ) (c : ℕ → Int) (M : ℕ → ℕ → Int) (i : ℕ) : ℕ → ℕ → Int :=
  let M := set2 M i old (M i old - c i)
  set2 M i new (M i new + c i)

/-- The loops over the groups of the other set, for every rating, src/recommend.c:382-391, 452-461. -/
def updG (K m old new : ℕ) (c : ℕ → ℕ → Int) (G : ℕ → ℕ → ℕ → Int) : ℕ → ℕ → ℕ → Int := fun k =>
  if k < K then (List.range m).foldl (colStep old new (c k)) (G k) else G k

/-- The same for the transposed matrices. -/
def updGinv (K m old new : ℕ) (c : ℕ → ℕ → Int) (G : ℕ → ℕ → ℕ → Int) : ℕ → ℕ → ℕ → Int := fun k =>
  if k < K then (List.range m).foldl (rowStep old new (c k)) (G k) else G k

/-- The tentative move in the first set, src/recommend.c:378-411 and 1236-1264; for two ratings the
`if`/`else if` on the weight is the loop of `n2gStep` with `K = 2`. The message for other weights is left
out. -/
def tent (b : Bi) (K v old new : ℕ) (s : View) : View :=
  let p := (MoveNode (dots b.n1) v old new s.part).2
  { s with
    part := p
    G := updG K b.n2 old new (fun k => s.N k v) s.G
    Ginv := updGinv K b.n2 old new (fun k => s.N k v) s.Ginv
    Ninv := (b.neig1 v).foldl (n2gStep K old new 1) s.Ninv
    ng := s.ng - (if (p.grp old).size = 0 then 1 else 0) + (if (p.grp new).size = 1 then 1 else 0) }

/-- Undoing the move, src/recommend.c:449-472, 1288-1309. -/
def untent (b : Bi) (K v old new : ℕ) (s : View) : View :=
  let p := (MoveNode (dots b.n1) v new old s.part).2
  { s with
    part := p
    G := updG K b.n2 old new (fun k i => - s.N k v i) s.G
    Ginv := updGinv K b.n2 old new (fun k i => - s.N k v i) s.Ginv
    Ninv := (b.neig1 v).foldl (n2gStep K old new (-1)) s.Ninv
    ng := s.ng + (if (p.grp old).size = 1 then 1 else 0) - (if (p.grp new).size = 0 then 1 else 0) }

/-- The energy change, from the state before and after the tentative move, src/recommend.c:356-443. -/
noncomputable def bDelta (pt : (ℕ → Int) → Option ℝ) (b : Bi) (s s' : View) (old new : ℕ) : Option ℝ := do
  let a ← config pt b.n2 s.opart s.G old new
  let c ← labelTerm b.n1 s.ng (((s.part.grp old).size = 1) || ((s.part.grp new).size = 0))
  let a' ← config pt b.n2 s'.opart s'.G old new
  let c' ← labelTerm b.n1 s'.ng (((s'.part.grp old).size = 0) || ((s'.part.grp new).size = 1))
  some ((-a) + c + a' - c')

/-- Acceptance, src/recommend.c:446-473. -/
noncomputable def bDecide (acc : ℝ → ℚ → Bool) (b : Bi) (K v old new : ℕ) (s' : View) (dH : ℝ) (t : Tape) :
    Res View := do
  let (a, t) ← metropolis acc dH t
  if a then .ok { s' with H := s'.H + dH, tape := t }
  else .ok { untent b K v old new s' with tape := t }

/-- One attempt in the first set, src/recommend.c:320-331, 356-473. -/
noncomputable def moveIn (acc : ℝ → ℚ → Bool) (pt : (ℕ → Int) → Option ℝ) (b : Bi) (K : ℕ) (s : View) : Res View := do
  let (v, t) ← pick b.n1 s.tape
  match s.part.inGroup v with
  | none => .ub
  | some old => do
    let (new, t) ← destination b.n1 old t
    let dH ← Res.ofOption (bDelta pt b s (tent b K v old new s) old new)
    bDecide acc b K v old new (tent b K v old new s) dH t

/-- `set_ratio`, src/recommend.c:305. (0/0 for one node in each set: then the comparison below is false in C;
here the ratio is 0, with the same effect.) The product of `int`s is not checked for overflow. -/
def setRatio (b : Bi) : ℚ := ((b.n1 : ℚ) * b.n1 - 1) / ((b.n1 : ℚ) * b.n1 + (b.n2 : ℚ) * b.n2 - 2)

/-- The same state seen from the other set. -/
def swapRes : Res View → Res View
  | .ok s => .ok s.swap
  | .starved => .starved
  | .ub => .ub

/-- One attempt, src/recommend.c:310-474. -/
noncomputable def bAttempt (acc : ℝ → ℚ → Bool) (pt : (ℕ → Int) → Option ℝ) (b : Bi) (K : ℕ) (s : View) : Res View := do
  let (u, t) ← draw s.tape
  if u < setRatio b then moveIn acc pt b K { s with tape := t }
  else swapRes (moveIn acc pt b.swap K (View.swap { s with tape := t }))

/-- `MCStep2State`, src/recommend.c:274-477. -/
noncomputable def MCStep2State (acc : ℝ → ℚ → Bool) (b : Bi) (factor : ℕ) (s : View) : Res View :=
  iter (bAttempt acc pt2 b 2) ((b.n1 + b.n2) * factor) s

/-- `MCStepKState`, src/recommend.c:1116-1313. -/
noncomputable def MCStepKState (acc : ℝ → ℚ → Bool) (b : Bi) (K factor : ℕ) (s : View) : Res View :=
  iter (bAttempt acc (pairTerm K) b K) ((b.n1 + b.n2) * factor) s

/-! ## Scores -/

/-- Copy of the ratings without those of the queries, src/recommend.c:787-799 and 1618-1630. -/
def clean (b : Bi) (qs : List (ℕ × ℕ)) : Option Bi :=
  qs.foldlM (fun c q => if BP.isThere (c.neig1 q.1) q.2 then BP.RemoveLink c q.1 q.2 else some c) (BP.CopyBipart b)

/-- Every node in the group of its own number, src/recommend.c:811-845. -/
def ownGroups (n : ℕ) : Part := (List.range n).foldl (fun p v => AddNodeToGroup (dots n) v v p) Part.empty

/-- Tables of the initial state, src/recommend.c:847-886 and 1671-1700. -/
def startView (c : Bi) (p1 p2 : Part) (H : ℝ) (t : Tape) : View :=
  View.mk p1 p2 (fun k v g => nwl (c.neig1 v) p2.inGroup g k) (fun k v g => nwl (c.neig2 v) p1.inGroup g k)
    (fun k g g' => bnwg2g c p1 p2 g g' k) (fun k g' g => bnwg2g c p1 p2 g g' k) (NNonEmptyGroups c.n1 p1)
    (NNonEmptyGroups c.n2 p2) H t

/-- What a sample adds to the score of a query, src/recommend.c:986-990; rounding to `float` is not modelled. -/
def score2 (s : View) (q : ℕ × ℕ) : Option ℚ := do
  let g ← s.part.inGroup q.1
  let g' ← s.opart.inGroup q.2
  let l := s.G 1 g g'
  let r := s.G 0 g g' + s.G 1 g g'
  some (((l + 1 : Int) : ℚ) / ((r + 2 : Int) : ℚ))

/-- What a sample adds to the score of rating `k` for a query, src/recommend.c:1804-1812. -/
def scoreK (K : ℕ) (s : View) (k : ℕ) (q : ℕ × ℕ) : Option ℚ := do
  let g ← s.part.inGroup q.1
  let g' ← s.opart.inGroup q.2
  let n := (List.range K).foldl (fun n k2 => n + s.G k2 g g') 0
  some (((s.G k g g' + 1 : Int) : ℚ) / ((n + K : Int) : ℚ))

/-- Calls of a Monte Carlo step with the given factors. -/
noncomputable def bSteps (step : ℕ → View → Res View) : List ℕ → View → Res View
  | [], s => .ok s
  | f :: fs, s => do
    let s ← step f s
    bSteps step fs s

/-- One turn of the sampling loop after the step, src/recommend.c:961-991 and 1783-1813, with the `iter++`. `f` is
what a sample adds. -/
noncomputable def bCollect (f : View → ℕ → ℕ × ℕ → Option ℚ) (s : View) (A : Acc) : View × Acc :=
  let restart := s.H < -400
  let s' := if restart then { s with H := 0 } else s
  let A' := if restart then Acc.mk 0 0 (fun _ _ => some 0) else A
  (s', Acc.mk (A'.iter + 1) (A'.norm + 1) fun k q => do
    let x ← A'.score k q
    let y ← f s k q
    some (x + y))

/-- The sampling loop, src/recommend.c:938-1016 and 1758-1840, at most `fuel` turns (a restart sets `iter` back). -/
noncomputable def bSample (step : ℕ → View → Res View) (f : View → ℕ → ℕ × ℕ → Option ℚ) (decorStep nIter : ℕ) :
    ℕ → View → Acc → Res (View × Acc)
  | 0, s, A => if A.iter < nIter then .starved else .ok (s, A)
  | fuel + 1, s, A =>
    if A.iter < nIter then do
      let s ← step decorStep s
      bSample step f decorStep nIter fuel (bCollect f s A).1 (bCollect f s A).2
    else .ok (s, A)

/-- Warm-up, sampling and division by `norm`. -/
noncomputable def bRun (step : ℕ → View → Res View) (f : View → ℕ → ℕ × ℕ → Option ℚ) (nIter : ℕ) (warm : List ℕ)
    (decorStep : ℕ) (reset : Bool) (fuel : ℕ) (s : View) : Res (ℕ → ℕ × ℕ → Option ℚ) := do
  let s ← bSteps step warm s
  let (_, A) ← bSample step f decorStep nIter fuel (if reset then { s with H := 0 } else s) (Acc.mk 0 0 fun _ _ => some 0)
  return fun k q => if A.norm = 0 then none else (A.score k q).map (· / A.norm)

/-- `MultiLinkScore2State`, src/recommend.c:742-1055: score of each query. `none`: the division 0/0 without samples.
`GetDecorrelationStep2State` and `ThermalizeMC2State` (482-735) only call `MCStep2State`, with factors and a number
of calls that depend on mutual informations and running means; this is left open: `warm` is any list of factors and
`decorStep` any number. `reset`: `verbose_sw` other than `d`. Temporary files are left out. -/
noncomputable def MultiLinkScore2State (acc : ℝ → ℚ → Bool) (b : Bi) (qs : List (ℕ × ℕ)) (nIter : ℕ) (warm : List ℕ)
    (decorStep : ℕ) (reset : Bool) (fuel : ℕ) (t : Tape) : Res (ℕ × ℕ → Option ℚ) := do
  let c ← Res.ofOption (clean b qs)
  let p1 := ownGroups c.n1
  let p2 := ownGroups c.n2
  let H ← Res.ofOption (H2State c p1 p2)
  let score ← bRun (MCStep2State acc c) (fun s _ q => score2 s q) nIter warm decorStep reset fuel (startView c p1 p2 H t)
  return score 1

/-- `MultiLinkScoreKState`, src/recommend.c:1575-1880: score of each rating for each query. The origin of energies is
not reset after the thermalisation (the statement is commented out, 1756). -/
noncomputable def MultiLinkScoreKState (acc : ℝ → ℚ → Bool) (b : Bi) (K : ℕ) (qs : List (ℕ × ℕ)) (nIter : ℕ)
    (warm : List ℕ) (decorStep : ℕ) (fuel : ℕ) (t : Tape) : Res (ℕ → ℕ × ℕ → Option ℚ) := do
  let c ← Res.ofOption (clean b qs)
  let p1 := ownGroups c.n1
  let p2 := ownGroups c.n2
  let H ← Res.ofOption (HKState c K p1 p2)
  bRun (MCStepKState acc c K) (scoreK K) nIter warm decorStep false fuel (startView c p1 p2 H t)

end RC
