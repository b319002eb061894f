import Verif.Missing.ScoreModel

/-!
# Link reliability with K states (`src/missing.c`)

The weight of a link is the observed rating. Groups are numbered `0 … n-1`, as many as nodes; the loops
over the list of groups visit them in this order. `FastLogFact` is the logarithm of the factorial (C39);
for a negative argument GSL aborts, which is `none`.
-/

namespace KS

open GP RG LS

/-- `NWeightLinksToGroup`, src/modules.c:837-848, for the weight `(double)k`. -/
def NWeightLinksToGroup (net : Net) (p : Part) (v g k : ℕ) : Int :=
  (net.neig v).foldl (fun s x => if x.2 = (k : ℚ) ∧ p.inGroup x.1 = some g then s + 1 else s) 0

/-- `NWeightG2GLinks`, src/modules.c:933-946. -/
def NWeightG2GLinks (net : Net) (p : Part) (g1 g2 k : ℕ) : Int :=
  let s := (p.grp g1).nodes.foldl (fun s v => s + NWeightLinksToGroup net p v g2 k) 0
  if g1 = g2 then s / 2 else s

/-- The inner loop over the ratings: number of ratings and sum of `lnfact`, for the counts `c`. -/
noncomputable def countRatings (K : ℕ) (c : ℕ → Int) : Option (Int × ℝ) :=
  (List.range K).foldlM (fun (r : Int × ℝ) k => do
    let f ← lfact (c k)
    some (r.1 + c k, r.2 + f)) (0, 0)

/-- Contribution of a pair of groups computed from the counts of the `K` ratings between them,
e.g. src/missing.c:1399-1405. -/
noncomputable def pairTerm (K : ℕ) (c : ℕ → Int) : Option ℝ := do
  let r ← countRatings K c
  let f ← lfact (r.1 + K - 1)
  some (f - r.2)

/-- Pair `g1`, `g2` in `LSHKState`, src/missing.c:1326-1331: here the total counts all links, of
whatever weight. -/
noncomputable def pairH (net : Net) (K : ℕ) (p : Part) (g1 g2 : ℕ) : Option ℝ := do
  let f ← lfact (NG2GLinks net p g1 g2 + K - 1)
  let r ← countRatings K (fun k => NWeightG2GLinks net p g1 g2 k)
  some (f - r.2)

/-- `LSHKState`, src/missing.c:1308-1339. -/
noncomputable def LSHKState (net : Net) (K : ℕ) (p : Part) : Option ℝ := do
  let H ← (List.range net.n).foldlM (fun H g1 =>
    (List.range' g1 (net.n - g1)).foldlM (fun H g2 => do
      let a ← pairH net K p g1 g2
      some (H + a)) H) 0
  let nnod := (List.range net.n).foldl (fun s g => s + (p.grp g).size) 0
  let f ← lfact (nnod - NNonEmptyGroups net.n p)
  some (H - f)

/-- State of the sampler: partition, counts `N2G` and `G2G` by rating, number of non-empty groups,
running energy, random numbers. -/
structure KSt where
  part : Part
  N2G : ℕ → ℕ → ℕ → Int
  G2G : ℕ → ℕ → ℕ → Int
  ng : Int
  H : ℝ
  tape : Tape

/-- Contribution of group `g` to the energy of the pairs of `old` and `new`, src/missing.c:1397-1415 and
1454-1471. -/
noncomputable def groupTerm (K : ℕ) (G : ℕ → ℕ → ℕ → Int) (old new g : ℕ) : Option ℝ := do
  let a ← pairTerm K (fun k => G k old g)
  let b ← (if g ≠ old then pairTerm K (fun k => G k new g) else some 0)
  some (a + b)

/-- The loops over all groups, src/missing.c:1394-1416 and 1451-1473. -/
noncomputable def configTerm (K n : ℕ) (G : ℕ → ℕ → ℕ → Int) (old new : ℕ) : Option ℝ :=
  (List.range n).foldlM (fun s g => do
    let a ← groupTerm K G old new g
    some (s + a)) 0

/-- `FastLogFact(nnod - *ng)` if the number of groups may change, src/missing.c:1418-1420 and
1475-1477. -/
noncomputable def labelTerm (n : ℕ) (ng : Int) (b : Bool) : Option ℝ :=
  if b then lfact (n - ng) else some 0

/-- Body of the update of `G2G` for one rating, src/missing.c:1427-1430 with `c = N2G[k][node]`, and
1488-1491 with `c = -N2G[k][node]`. -/
def kStep (old new : ℕ) (c : ℕ → Int) (M : ℕ → ℕ → Int) (i : ℕ) : ℕ → ℕ → Int :=
  let M := set2 M old i (M old i - c i)
  let M := set2 M new i (M new i + c i)
  let M := set2 M i old (M old i)
  set2 M i new (M new i)

/-- Update of `G2G`, src/missing.c:1425-1432; the ratings do not interact. -/
def kUpdate (n old new : ℕ) (c : ℕ → Int) (M : ℕ → ℕ → Int) : ℕ → ℕ → Int :=
  (List.range n).foldl (kStep old new c) M

/-- Update of `G2G` for all ratings. -/
def updateG2G (K n old new : ℕ) (c : ℕ → ℕ → Int) (G : ℕ → ℕ → ℕ → Int) : ℕ → ℕ → ℕ → Int := fun k =>
  if k < K then kUpdate n old new (c k) (G k) else G k

/-- Update of `N2G` for one neighbour, src/missing.c:1435-1440 (`e = 1`) and 1495-1500 (`e = -1`). -/
def n2gStep (K old new : ℕ) (e : Int) (N : ℕ → ℕ → ℕ → Int) (x : ℕ × ℚ) : ℕ → ℕ → ℕ → Int :=
  (List.range K).foldl (fun N (k : ℕ) =>
    if x.2 = (k : ℚ) then
      let M := set2 (N k) x.1 old (N k x.1 old - e)
      Function.update N k (set2 M x.1 new (M x.1 new + e))
    else N) N

/-- Update of `N2G`, src/missing.c:1433-1441 and 1493-1501. -/
def updateN2G (net : Net) (K v old new : ℕ) (e : Int) (N : ℕ → ℕ → ℕ → Int) : ℕ → ℕ → ℕ → Int :=
  (net.neig v).foldl (n2gStep K old new e) N

/-- The tentative move, src/missing.c:1422-1446. -/
def tentative (net : Net) (K v old new : ℕ) (s : KSt) : KSt :=
  let p := (MoveNode net v old new s.part).2
  { s with
    part := p
    G2G := updateG2G K net.n old new (fun k => s.N2G k v) s.G2G
    N2G := updateN2G net K v old new 1 s.N2G
    ng := s.ng - (if (p.grp old).size = 0 then 1 else 0) + (if (p.grp new).size = 1 then 1 else 0) }

/-- Undoing the move, src/missing.c:1484-1505. -/
def undo (net : Net) (K v old new : ℕ) (s : KSt) : KSt :=
  let p := (MoveNode net v new old s.part).2
  { s with
    part := p
    G2G := updateG2G K net.n old new (fun k i => - s.N2G k v i) s.G2G
    N2G := updateN2G net K v old new (-1) s.N2G
    ng := s.ng + (if (p.grp old).size = 1 then 1 else 0) - (if (p.grp new).size = 0 then 1 else 0) }

/-- The energy change, src/missing.c:1391-1477: `s` before and `s'` after the tentative move. -/
noncomputable def kDelta (n K : ℕ) (s s' : KSt) (old new : ℕ) : Option ℝ := do
  let a ← configTerm K n s.G2G old new
  let c ← labelTerm n s.ng (((s.part.grp old).size = 1) || ((s.part.grp new).size = 0))
  let a' ← configTerm K n s'.G2G old new
  let c' ← labelTerm n s'.ng (((s'.part.grp old).size = 0) || ((s'.part.grp new).size = 1))
  some ((-a) + c + a' - c')

/-- Acceptance, src/missing.c:1479-1506. -/
noncomputable def kDecide (acc : ℝ → ℚ → Bool) (net : Net) (K v old new : ℕ) (s' : KSt) (dH : ℝ) (t : Tape) :
    Res KSt := do
  let (a, t) ← metropolis acc dH t
  if a then .ok { s' with H := s'.H + dH, tape := t }
  else .ok { undo net K v old new s' with tape := t }

/-- One attempt to move a node, src/missing.c:1379-1507. -/
noncomputable def kAttempt (acc : ℝ → ℚ → Bool) (net : Net) (K : ℕ) (s : KSt) : Res KSt := do
  let (v, t) ← pick net.n s.tape
  match s.part.inGroup v with
  | none => .ub
  | some old => do
    let (new, t) ← destination net.n old t
    let dH ← Res.ofOption (kDelta net.n K s (tentative net K v old new s) old new)
    kDecide acc net K v old new (tentative net K v old new s) dH t

/-- `LSMCStepKState`, src/missing.c:1349-1511. -/
noncomputable def LSMCStepKState (acc : ℝ → ℚ → Bool) (net : Net) (K factor : ℕ) (s : KSt) : Res KSt :=
  iter (kAttempt acc net K) (net.n * factor) s

/-- Calls of the sampler one after another. -/
noncomputable def kSteps (acc : ℝ → ℚ → Bool) (net : Net) (K : ℕ) : List ℕ → KSt → Res KSt
  | [], s => .ok s
  | f :: fs, s => do
    let s ← LSMCStepKState acc net K f s
    kSteps acc net K fs s

/-- The queries, src/missing.c:1776-1785: all pairs of nodes `i < j`. -/
def queries (n : ℕ) : List (ℕ × ℕ) :=
  (List.range n).flatMap fun i => (List.range' (i + 1) (n - (i + 1))).map fun j => (i, j)

/-- What one sample adds to the score of a query, src/missing.c:1930-1934; rounding to `float` is not
modelled; `none` if a node is in no group. -/
def sampleScore (K : ℕ) (s : KSt) (k : ℕ) (q : ℕ × ℕ) : Option ℚ := do
  let a ← s.part.inGroup q.1
  let b ← s.part.inGroup q.2
  let n := (List.range K).foldl (fun n k2 => n + s.G2G k2 a b) 0
  some (((s.G2G k a b + 1 : Int) : ℚ) / ((n + K : Int) : ℚ))

/-- Variables of the sampling loop: `iter`, `norm`, the scores by rating and query. -/
structure Acc where
  iter : ℕ
  norm : ℕ
  score : ℕ → ℕ × ℕ → Option ℚ

/-- One turn of the sampling loop after the Monte Carlo step, src/missing.c:1909-1936; includes the
`iter++` of the loop. Returns also the energy, reset at a restart. -/
noncomputable def collect (K : ℕ) (s : KSt) (A : Acc) : KSt × Acc :=
  let restart := s.H < -400
  let s' := if restart then { s with H := 0 } else s
  let A' := if restart then Acc.mk 0 0 (fun _ _ => some 0) else A
  (s', Acc.mk (A'.iter + 1) (A'.norm + 1) fun k q => do
    let x ← A'.score k q
    let y ← sampleScore K s k q
    some (x + y))

/-- The sampling loop, src/missing.c:1886-1966. It ends when `iter` reaches `nIter`; since a restart
sets `iter` back, the number of turns is not known in advance: `fuel` turns, `starved` when they do
not suffice. The output of temporary files is left out. -/
noncomputable def kSample (acc : ℝ → ℚ → Bool) (net : Net) (K decorStep nIter : ℕ) : ℕ → KSt → Acc → Res (KSt × Acc)
  | 0, s, A => if A.iter < nIter then .starved else .ok (s, A)
  | fuel + 1, s, A =>
    if A.iter < nIter then do
      let s ← LSMCStepKState acc net K decorStep s
      kSample acc net K decorStep nIter fuel (collect K s A).1 (collect K s A).2
    else .ok (s, A)

/-- `LSMultiLinkScoreKState`, src/missing.c:1727-1988: the score of rating `k` for query `q`. `none`: the
division `0/0` when there were no samples. `LSGetDecorrelationStepKState` and `LSThermalizeMCKState` only call
`LSMCStepKState`, with factors and a number of calls that depend on mutual informations and running means;
this is left open: `warm` is any list of factors, `decorStep` any number. `reset` is whether the origin of
energies is reset after the thermalisation (`verbose_sw` other than `d`). -/
noncomputable def LSMultiLinkScoreKState (acc : ℝ → ℚ → Bool) (net : Net) (K nIter : ℕ) (warm : List ℕ)
    (decorStep : ℕ) (reset : Bool) (fuel : ℕ) (t : Tape) : Res (ℕ → ℕ × ℕ → Option ℚ) := do
  let p := (List.range net.n).foldl (fun p v => AddNodeToGroup net v v p) Part.empty
  let H ← Res.ofOption (LSHKState net K p)
  let s ← kSteps acc net K warm
    (KSt.mk p (fun k v g => NWeightLinksToGroup net p v g k) (fun k g g' => NWeightG2GLinks net p g g' k)
      (NNonEmptyGroups net.n p) H t)
  let (_, A) ← kSample acc net K decorStep nIter fuel (if reset then { s with H := 0 } else s)
    (Acc.mk 0 0 fun _ _ => some 0)
  return fun k q => if A.norm = 0 then none else (A.score k q).map (· / A.norm)

end KS
