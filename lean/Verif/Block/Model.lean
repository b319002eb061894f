import Verif.Missing.GibbsModel
import Verif.Missing.ScoreModel

/-!
# Multi-layer and penalised block models (`src/multiblock.c`, `src/only_deg.c`)

The two files contain three copies of the samplers of `src/missing.c`; they differ only in the term
that a pair of groups contributes to the energy, in the extra term `LogDegeneracy` for the number of
groups, and in the contribution of a sampled partition to the scores. The model has these three as
parameters (`Kern`) and then gives them for each copy. Two reads are real risks and are modelled: the
table of harmonic numbers has a size, and reading outside it gives `none`.

Kernel-independent pieces (`St`, `Scan`, `g2gUpdate`, `walkSlg`, `gibbsChoose`, `gibbsMove`, …) are
those of `Verif.Missing`: the C text is the same.
-/

namespace BK

open GP hiding St
open RG LS

/-- What distinguishes the copies: the term of a pair of groups with `r` pairs of nodes and `l` links,
the term for the number of groups, and the contribution to the score of a pair of nodes. -/
structure Kern where
  term : Int → Int → Option ℝ
  deg : Int → Option ℝ
  score : Int → Int → Option ℝ

/-! ## The tables -/

/-- Harmonic number, `HarmonicList[i]` (src/tools.c:576-579). -/
def harm (k : ℕ) : ℚ := ∑ i ∈ Finset.range k, 1 / ((i : ℚ) + 1)

/-- `InitializeHarmonicList`, src/tools.c:570-582, as a loop. -/
def InitializeHarmonicList (size : ℕ) : List ℚ :=
  (List.range' 1 (size - 1)).foldl (fun l (i : ℕ) => l ++ [l.getLastD 0 + 1 / (i : ℚ)]) [0]

/-- Reading a table: outside is undefined. -/
def readTable (l : List ℚ) (i : Int) : Option ℚ :=
  if 0 ≤ i then l[i.toNat]? else none

/-- `LOGDEGENERACY`, src/multiblock.c:29 (the same table in src/only_deg.c), in units of `10⁻¹⁴`. -/
def LOGDEGENERACY : List ℕ :=
  [0, 0, 109861228866811, 270805020110000, 472738781870000, 705012252030000, 962410428290000,
   1241239145130000, 1538733029650000, 1852781797130000, 2181719964890000, 2524192860420000,
   2879076954920000, 3245425233500000, 3622428176780000, 4009385507910000, 4405685287410000,
   4810788051220000, 5224214542700000, 5645536078470000, 6074366876720000, 6510357870220000,
   6953191659920000, 7402578357050000, 7858252126020000, 8319968285900000, 8787500861710000,
   9260640501340000, 9739192691990000, 10222976224100000, 10711821861300000, 11205571182200000,
   11704075568200000, 12207195314000000, 12714798842700000, 13226762011800000, 13742967494900000,
   14263304231700000, 14787666935300000, 15315955650000000, 15848075353400000, 16383935597500000,
   16923450183500000, 17466536867300000, 18013117091300000, 18563115740300000, 19116460918600000,
   19673083745700000, 20232918169100000, 20795900792700000, 21361970718400000, 21931069400200000,
   22503140510000000, 23078129812400000, 23655985049900000, 24236655835700000, 24820093554300000,
   25406251269100000, 25995083636400000, 26586546825200000, 27180598441800000, 27777197460200000,
   28376304156500000, 28977880047000000, 29581887831300000, 30188291337800000, 30797055472700000,
   31408146172600000, 32021530359500000, 32637175897900000, 33383811100000000, 34008576300000000,
   34635409400000000, 35264281600000000, 35895164900000000, 36528032200000000, 37162857100000000,
   37799613700000000, 38438277000000000, 39078822500000000, 39721226400000000, 40365465500000000,
   41011517100000000, 41659359100000000, 42308970000000000, 42960328600000000, 43613414500000000,
   44268207500000000, 44924688000000000, 45582836800000000, 46242635200000000, 46904064900000000,
   47567107900000000, 48231746600000000, 48897964100000000, 49565743300000000, 50235068000000000,
   50905921900000000, 51578289400000000, 52252155000000000, 52927503500000000, 53604320200000000,
   54282590400000000, 54962300000000000, 55643434900000000, 56325981500000000, 57009926300000000,
   57695256100000000, 58381958000000000, 59070019300000000, 59759427500000000, 60450170300000000,
   61142235800000000, 61835612000000000, 62530287500000000, 63226250900000000, 63923490800000000,
   64621996400000000, 65321756700000000, 66022761300000000, 66724999500000000, 67428461200000000,
   68133136200000000, 68839014600000000, 69546086500000000, 70254342500000000, 70963772900000000,
   71674368500000000, 72386120100000000, 73099018600000000, 73813055200000000, 74528221200000000,
   75244507800000000, 75961906700000000, 76680409400000000, 77400007700000000, 78120693500000000,
   78842458800000000, 79565295700000000, 80289196400000000, 81014153400000000, 81740159000000000,
   82467205800000000, 83195286500000000, 83924393800000000, 84654520700000000, 85385660100000000,
   86117805000000000, 86850948600000000, 87585084200000000]

/-- `LogDegeneracy`, src/multiblock.c:30-40 and src/only_deg.c:31-41. A negative argument would read
before the table. -/
noncomputable def LogDegeneracy (k : Int) : Option ℝ :=
  if k < 0 then none
  else if k < 150 then (LOGDEGENERACY[k.toNat]?).map fun x : ℕ => (x : ℝ) / 10 ^ 14
  else some (14681 / 10000 * k * (Real.log k - 1))

/-! ## The three copies -/

/-- Term of the AND model, src/multiblock.c:66-67:
`log(r + 1) + LogChoose(r, l) - log(HarmonicList[r + 1] - HarmonicList[l])`. -/
noncomputable def andTerm (tab : List ℚ) (r l : Int) : Option ℝ := do
  let a ← lterm r l
  let x ← readTable tab (r + 1)
  let y ← readTable tab l
  return a - Real.log ((x : ℝ) - y)

/-- Term of the OR model, src/multiblock.c:695-696: `HarmonicList[r - l]` in place of
`HarmonicList[l]`. -/
noncomputable def orTerm (tab : List ℚ) (r l : Int) : Option ℝ := do
  let a ← lterm r l
  let x ← readTable tab (r + 1)
  let y ← readTable tab (r - l)
  return a - Real.log ((x : ℝ) - y)

/-- Contribution of the AND model to the score, src/multiblock.c:606-608. Rounding to `float` is not
modelled. -/
noncomputable def andScore (tab : List ℚ) (r l : Int) : Option ℝ := do
  let a ← readTable tab (r + 2)
  let b ← readTable tab (l + 1)
  let c ← readTable tab (r + 1)
  let d ← readTable tab l
  return ((l : ℝ) + 1) * (a - b) / (((r : ℝ) + 2) * (c - d))

/-- Contribution of the OR model, src/multiblock.c:1229-1231; it is the probability of *no* link. -/
noncomputable def orScore (tab : List ℚ) (r l : Int) : Option ℝ := do
  let a ← readTable tab (r + 2)
  let b ← readTable tab (r - l + 1)
  let c ← readTable tab (r + 1)
  let d ← readTable tab (r - l)
  return ((r : ℝ) - l + 1) * (a - b) / (((r : ℝ) + 2) * (c - d))

/-- `LinkScoreMB` and `GibbsLinkScoreMB`, with their table. -/
noncomputable def AND (tab : List ℚ) : Kern := ⟨andTerm tab, LogDegeneracy, andScore tab⟩

/-- `ORLinkScoreMB` and `ORGibbsLinkScoreMB`, with their table. -/
noncomputable def OR (tab : List ℚ) : Kern := ⟨orTerm tab, LogDegeneracy, orScore tab⟩

/-- src/only_deg.c: the harmonic terms are commented out, the score is that of src/missing.c. -/
noncomputable def OD : Kern := ⟨lterm, LogDegeneracy, fun r l => some (((l : ℝ) + 1) / ((r : ℝ) + 2))⟩

/-- The table the main functions allocate, src/multiblock.c:483 (and 1110, 1755, 2391):
`InitializeHarmonicList(1 + nnod * (nnod - 1) / 2)`. -/
def codeTable (n : ℕ) : List ℚ := InitializeHarmonicList (1 + n * (n - 1) / 2)

/-! ## Energy and moves -/

/-- `PartitionH`, src/multiblock.c:49-85, for the groups `0 … n-1`. -/
noncomputable def PartitionH (K : Kern) (net : Net) (n : ℕ) (linC : ℝ) (p : Part) : Option ℝ := do
  let H ← (List.range n).foldlM (fun H g1 =>
    if 0 < (p.grp g1).size then do
      let a ← K.term ((p.grp g1).size * ((p.grp g1).size - 1) / 2) (p.grp g1).inlinks
      (List.range' (g1 + 1) (n - (g1 + 1))).foldlM (fun H g2 =>
        if 0 < (p.grp g2).size then do
          let b ← K.term ((p.grp g1).size * (p.grp g2).size) (NG2GLinks net p g1 g2)
          some (H + b)
        else some H) (H + a)
    else some H) (linC * NNonEmptyGroups n p)
  let nnod := (List.range n).foldl (fun s g => if 0 < (p.grp g).size then s + (p.grp g).size else s) 0
  let f ← lfact (nnod - NNonEmptyGroups n p)
  let x ← K.deg (NNonEmptyGroups n p)
  return H - f - x

/-- Energy change due to one group `g` of the shortlist, src/multiblock.c:153-224; `n2g` is
`n2gList[g->label]`, just computed. -/
noncomputable def groupDH (K : Kern) (net : Net) (p : Part) (G2G : ℕ → ℕ → Int) (v old new g : ℕ) (n2g : Int) : Option ℝ :=
  let noldg := (p.grp old).size
  let nnewg := (p.grp new).size
  let n2oldg := NLinksToGroup net p v old
  let n2newg := NLinksToGroup net p v new
  let newg2oldg := NG2GLinks net p new old
  let oldg2oldg := (p.grp old).inlinks
  let newg2newg := (p.grp new).inlinks
  if g = old then do
    let a ← K.term (noldg * (noldg - 1) / 2) oldg2oldg
    let b ← K.term ((noldg - 1) * (noldg - 2) / 2) (oldg2oldg - n2oldg)
    let c ← K.term (nnewg * noldg) newg2oldg
    let d ← K.term ((nnewg + 1) * (noldg - 1)) (newg2oldg + n2oldg - n2newg)
    return (-a) + b - c + d
  else if g = new then do
    let a ← K.term (nnewg * (nnewg - 1) / 2) newg2newg
    let b ← K.term ((nnewg + 1) * nnewg / 2) (newg2newg + n2newg)
    return (-a) + b
  else do
    let oldg2g := G2G old g
    let newg2g := G2G new g
    let ng := (p.grp g).size
    let a ← K.term (noldg * ng) oldg2g
    let b ← K.term ((noldg - 1) * ng) (oldg2g - n2g)
    let c ← K.term (nnewg * ng) newg2g
    let d ← K.term ((nnewg + 1) * ng) (newg2g + n2g)
    return (-a) + b - c + d

/-- Body of the loop over the shortlist, src/multiblock.c:147-229. -/
noncomputable def scanGroup (K : Kern) (net : Net) (p : Part) (G2G : ℕ → ℕ → Int) (v old new : ℕ) (s : Scan) (g : ℕ) :
    Option Scan :=
  if 0 < (p.grp g).size then do
    let k := NLinksToGroup net p v g
    let d ← groupDH K net p G2G v old new g k
    some { dH := s.dH + d, effectng := s.effectng + 1, n2g := Function.update s.n2g g k }
  else some { s with n2g := Function.update s.n2g g 0 }

/-- Correction for labelled groups, src/multiblock.c:231-241. -/
noncomputable def correction (K : Kern) (n : ℕ) (p : Part) (old new : ℕ) (eff : Int) : Option ℝ :=
  if (p.grp old).size = 1 ∧ (p.grp new).size ≠ 0 then do
    let a ← lfact (n - eff)
    let b ← lfact (n - (eff - 1))
    let x ← K.deg eff
    let y ← K.deg (eff - 1)
    return a - b + (x - y)
  else if (p.grp old).size ≠ 1 ∧ (p.grp new).size = 0 then do
    let a ← lfact (n - eff)
    let b ← lfact (n - (eff + 1))
    let x ← K.deg eff
    let y ← K.deg (eff + 1)
    return a - b + (x - y)
  else some 0

/-- The energy change of moving `v` from `old` to `new`, src/multiblock.c:128-241, and `n2gList`. -/
noncomputable def deltaH (K : Kern) (net : Net) (linC : ℝ) (p : Part) (G2G : ℕ → ℕ → Int) (n2g : ℕ → Int) (slg : List ℕ)
    (v old new : ℕ) : Option Scan := do
  let d0 := (if (p.grp old).size = 1 then -linC else 0) + (if (p.grp new).size = 0 then linC else 0)
  let s ← slg.foldlM (scanGroup K net p G2G v old new) { dH := d0, effectng := 0, n2g := n2g }
  let c ← correction K net.n p old new s.effectng
  return { s with dH := s.dH + c }

/-- Acceptance and its effect, src/multiblock.c:243-256; as in src/missing.c but without a
shortlist. -/
noncomputable def decideMove (acc : ℝ → ℚ → Bool) (net : Net) (s : St) (v old new : ℕ) (d : Scan) (t : Tape) :
    Res St := do
  let (a, t) ← metropolis acc d.dH t
  if a then .ok { s with
    part := (MoveNode net v old new s.part).2
    G2G := g2gUpdate net.n old new d.n2g s.G2G
    n2g := d.n2g
    H := s.H + d.dH
    tape := t }
  else .ok { s with n2g := d.n2g, tape := t }

/-- One attempt to move a node, src/multiblock.c:119-257. The energy change runs over all `nnod`
groups. -/
noncomputable def attempt (K : Kern) (acc : ℝ → ℚ → Bool) (net : Net) (linC : ℝ) (s : St) : Res St := do
  let (v, t) ← pick net.n s.tape
  match s.part.inGroup v with
  | none => .ub
  | some old => do
    let (new, t) ← destination net.n old t
    let d ← Res.ofOption (deltaH K net linC s.part s.G2G s.n2g (List.range net.n) v old new)
    decideMove acc net s v old new d t

/-- `LSMCStepMB`, src/multiblock.c:94-258. -/
noncomputable def LSMCStepMB (K : Kern) (acc : ℝ → ℚ → Bool) (net : Net) (linC : ℝ) (factor : ℕ) (s : St) : Res St :=
  iter (attempt K acc net linC) (net.n * factor) s

/-- Body of the loop over destinations, src/multiblock.c:1367-1482. The energy change is computed as in
`LSMCStepMB` (same statements). -/
noncomputable def gibbsDest (K : Kern) (net : Net) (linC : ℝ) (p : Part) (G2G : ℕ → ℕ → Int) (slg : List ℕ) (v old : ℕ)
    (s : GScan) (new : ℕ) : Option GScan :=
  if new = old then
    some (GScan.mk s.n2g (Function.update s.dH new (some 0)) (s.norm + Real.exp (-0)) s.regs)
  else do
    let d ← deltaH K net linC p G2G s.n2g slg v old new
    some (GScan.mk d.n2g (Function.update s.dH new (some d.dH)) (s.norm + Real.exp (-d.dH))
      (some (Regs.mk (p.grp old).size (NLinksToGroup net p v old) (p.grp old).inlinks d.effectng)))

/-- One group in the loop for the virtual empty group, src/multiblock.c:1496-1555 (`nnewg`, `n2newg`,
`newg2oldg`, `newg2g` are 0). -/
noncomputable def emptyTerm (K : Kern) (p : Part) (G2G : ℕ → ℕ → Int) (old : ℕ) (r : Regs) (n2g : ℕ → Int) (g : ℕ) : Option ℝ :=
  if 0 < (p.grp g).size then
    if g = old then do
      let a ← K.term (r.noldg * (r.noldg - 1) / 2) r.oldg2oldg
      let b ← K.term ((r.noldg - 1) * (r.noldg - 2) / 2) (r.oldg2oldg - r.n2oldg)
      let c ← K.term (0 * r.noldg) 0
      let d ← K.term ((0 + 1) * (r.noldg - 1)) (0 + r.n2oldg - 0)
      return (-a) + b - c + d
    else do
      let ng := (p.grp g).size
      let a ← K.term (r.noldg * ng) (G2G old g)
      let b ← K.term ((r.noldg - 1) * ng) (G2G old g - n2g g)
      let c ← K.term (0 * ng) 0
      let d ← K.term ((0 + 1) * ng) (0 + n2g g)
      return (-a) + b - c + d
  else some 0

/-- The correction for the empty group, src/multiblock.c:1558-1567: its first branch needs
`nnewg != 0`, so only the second can run. -/
noncomputable def emptyCorrection (K : Kern) (n : ℕ) (r : Regs) : Option ℝ :=
  if r.noldg ≠ 1 then do
    let a ← lfact (n - r.effectng)
    let b ← lfact (n - (r.effectng + 1))
    let x ← K.deg r.effectng
    let y ← K.deg (r.effectng + 1)
    return a - b + (x - y)
  else some 0

/-- Energy change towards an empty group, src/multiblock.c:1484-1567. -/
noncomputable def emptyDH (K : Kern) (n : ℕ) (linC : ℝ) (p : Part) (G2G : ℕ → ℕ → Int) (slg : List ℕ) (old : ℕ) (n2g : ℕ → Int)
    (regs : Option Regs) : Option ℝ := do
  let r ← regs
  let x ← slg.foldlM (fun x g => do
    let y ← emptyTerm K p G2G old r n2g g
    some (x + y)) ((if r.noldg = 1 then -linC else 0) + linC)
  let c ← emptyCorrection K n r
  return x + c

/-- The move of one node, src/multiblock.c:1361-1622. -/
noncomputable def gibbsNode (K : Kern) (net : Net) (linC : ℝ) (s : GSt) (v : ℕ) : Res GSt :=
  match s.st.part.inGroup v with
  | none => .ub
  | some old => do
    let sc ← Res.ofOption (s.st.slg.foldlM (gibbsDest K net linC s.st.part s.st.G2G s.st.slg v old)
      (GScan.mk s.st.n2g s.dH 0 s.regs))
    let e ← Res.ofOption (emptyDH K net.n linC s.st.part s.st.G2G s.st.slg old sc.n2g sc.regs)
    let (u, t) ← draw s.st.tape
    let (new, dH) ← Res.ofOption (gibbsChoose net.n s.st.part s.st.slg sc e
      (sc.norm + Real.exp (-e) * ((net.n : ℝ) - s.st.slg.length)) u)
    gibbsMove net s v old sc new dH t

/-- All nodes in turn. -/
noncomputable def gibbsNodes (K : Kern) (net : Net) (linC : ℝ) : List ℕ → GSt → Res GSt
  | [], s => .ok s
  | v :: vs, s => do
    let s ← gibbsNode K net linC s v
    gibbsNodes K net linC vs s

/-- `GibbsLinkScoreStep`, src/multiblock.c:1309-1628. -/
noncomputable def GibbsLinkScoreStep (K : Kern) (net : Net) (linC : ℝ) (s : St) : Res St := do
  let g ← gibbsNodes K net linC (List.range net.n)
    (GSt.mk { s with slg := (List.range net.n).filter fun g => 0 < (s.part.grp g).size } (fun _ => none) none)
  return g.st

/-- Calls of the sampler one after another. -/
noncomputable def gibbsSteps (K : Kern) (net : Net) (linC : ℝ) : ℕ → St → Res St
  | 0, s => .ok s
  | k + 1, s => do
    let s ← GibbsLinkScoreStep K net linC s
    gibbsSteps K net linC k s

/-! ## Scores -/

/-- `predA[x][y] += c; predA[y][x] += c`. -/
noncomputable def bumpR (c : ℝ) (x : ℕ) (M : ℕ → ℕ → ℝ) (y : ℕ) : ℕ → ℕ → ℝ :=
  let M := Function.update M x (Function.update (M x) y (M x y + c))
  Function.update M y (Function.update (M y) x (M y x + c))

/-- Pairs inside a group, src/multiblock.c:609-616. -/
noncomputable def addWithinR (c : ℝ) : List ℕ → (ℕ → ℕ → ℝ) → ℕ → ℕ → ℝ
  | [], M => M
  | x :: l, M => addWithinR c l (l.foldl (bumpR c x) M)

/-- Pairs between two groups, src/multiblock.c:626-633. -/
noncomputable def addBetweenR (c : ℝ) (l l' : List ℕ) (M : ℕ → ℕ → ℝ) : ℕ → ℕ → ℝ :=
  l.foldl (fun M x => l'.foldl (bumpR c x) M) M

/-- Contributions of group `i`, src/multiblock.c:601-637. -/
noncomputable def addGroup (K : Kern) (n : ℕ) (p : Part) (G2G : ℕ → ℕ → Int) (M : ℕ → ℕ → ℝ) (i : ℕ) :
    Option (ℕ → ℕ → ℝ) :=
  if 0 < (p.grp i).size then do
    let c ← K.score ((p.grp i).size * ((p.grp i).size - 1) / 2) (p.grp i).inlinks
    (List.range' (i + 1) (n - (i + 1))).foldlM (fun M j =>
      if 0 < (p.grp j).size then do
        let c ← K.score ((p.grp i).size * (p.grp j).size) (G2G i j)
        some (addBetweenR c (p.grp i).nodes (p.grp j).nodes M)
      else some M) (addWithinR c (p.grp i).nodes M)
  else some M

/-- Contribution of one sampled partition, src/multiblock.c:598-638. -/
noncomputable def accumulate (K : Kern) (n : ℕ) (p : Part) (G2G : ℕ → ℕ → Int) (M : ℕ → ℕ → ℝ) :
    Option (ℕ → ℕ → ℝ) :=
  (List.range n).foldlM (addGroup K n p G2G) M

/-- The sampling loop, src/multiblock.c:557-640: matrix, and the states sampled. -/
noncomputable def sample (K : Kern) (step : St → Res St) (n : ℕ) : ℕ → St → (ℕ → ℕ → ℝ) → List St →
    Res ((ℕ → ℕ → ℝ) × List St)
  | 0, _, M, tr => .ok (M, tr)
  | k + 1, s, M, tr => do
    let s ← step s
    let M ← Res.ofOption (accumulate K n s.part s.G2G M)
    sample K step n k s M (tr ++ [s])

/-- Calls of the Metropolis sampler one after another. -/
noncomputable def steps (K : Kern) (acc : ℝ → ℚ → Bool) (net : Net) (linC : ℝ) : List ℕ → St → Res St
  | [], s => .ok s
  | f :: fs, s => do
    let s ← LSMCStepMB K acc net linC f s
    steps K acc net linC fs s

/-- `LinkScoreMB`, src/multiblock.c:450-660, up to the final map of the averages. `scratch` is what
`malloc` leaves in `n2gList`. As for `LinkScore` of src/missing.c, the number of calls made by
`GetDecorrelationStepMB` and `ThermalizeLSMCMB` is left open (`warm`, `decorStep`). `debug`: the
verbosity is 'd'; otherwise the origin of the running energy is reset before sampling (559-567). -/
noncomputable def LinkScoreMB (K : Kern) (debug : Bool) (acc : ℝ → ℚ → Bool) (net : Net) (linC : ℝ) (nIter : ℕ) (warm : List ℕ)
    (decorStep : ℕ) (scratch : ℕ → Int) (t : Tape) : Res ((ℕ → ℕ → ℝ) × List St) := do
  let (p, t) ← randomInit net net.n (List.range net.n) Part.empty t
  let H ← Res.ofOption (PartitionH K net net.n linC p)
  let s ← steps K acc net linC warm
    { part := p, G2G := initG2G net p, n2g := scratch, H := H, slg := [], tape := t }
  let s := if debug then s else { s with H := 0 }
  let (M, tr) ← sample K (LSMCStepMB K acc net linC decorStep) net.n nIter s (fun _ _ => 0) []
  return (fun i j => M i j / nIter, tr)

/-- `GibbsLinkScoreMB`, src/multiblock.c:1726-1935, likewise. `K0` is the kernel of the energy function
called at the start: `GibbsLinkScoreMB_OD` (src/only_deg.c) calls `PartitionHMB`, not its own. -/
noncomputable def GibbsLinkScoreMB (K0 K : Kern) (net : Net) (linC : ℝ) (nIter warm : ℕ) (scratch : ℕ → Int)
    (t : Tape) : Res ((ℕ → ℕ → ℝ) × List St) := do
  let t ← skip net.n t
  let p := (List.range net.n).foldl (fun p v => AddNodeToGroup net v v p) Part.empty
  let H ← Res.ofOption (PartitionH K0 net net.n linC p)
  let s ← gibbsSteps K net linC warm
    { part := p, G2G := initG2G net p, n2g := scratch, H := H, slg := [], tape := t }
  let (M, tr) ← sample K (GibbsLinkScoreStep K net linC) net.n nIter s (fun _ _ => 0) []
  return (fun i j => M i j / nIter, tr)

/-- The final loop of the OR versions, src/multiblock.c:1266-1272. -/
noncomputable def orFinal (r : Res ((ℕ → ℕ → ℝ) × List St)) : Res ((ℕ → ℕ → ℝ) × List St) := do
  let (M, tr) ← r
  return (fun i j => 1 - M i j, tr)

end BK
