import Verif.NC.Model
import Verif.Basic.Res

/-!
# Model of the simulated annealing of netcarto

Files: `/repo/src/sannealing.c` (39-304), `/repo/src/movements.c` (220-343).

Energies and temperatures are rationals (rounding of `double` is not modelled).  The Metropolis
test `gsl_rng_uniform(gen) < exp(dE/T)` is `acc dE T u` for an *arbitrary* Boolean function
`acc`; every theorem is for all `acc`.
-/

namespace NC

open RG

/-- `(dE >= 0) || (gsl_rng_uniform(gen) < exp(dE/T))`, e.g. sannealing.c 88 (short circuit: no
value is drawn when `dE >= 0`). -/
def metropolis (acc : ℚ → ℚ → ℚ → Bool) (dE T : ℚ) (t : Tape) : Res (Bool × Tape) :=
  if 0 ≤ dE then .ok (true, t)
  else do
    let (u, t) ← draw t
    return (acc dE T u, t)

/-- `part->nodes[i]->module`; out of range is undefined. -/
def moduleOf (p : Partition) (i : ℕ) : Res ℕ :=
  if i < p.N then .ok (p.nodes i).module else .ub

/-- `EPSILON_MOD`, sannealing.c 24. -/
def epsMod : ℚ := 1 / 1000000

/-! ## Splitting along connected components, movements.c 220-293 -/

/-- Local variables of `SplitModuleByComponent`; `stack` is `to_visit` (top first), `toMove` the
stack `to_move`. -/
structure CompState where
  visited : ℕ → Bool
  stack : List ℕ
  toFind : ℕ
  toMove : List ℕ

/-- `AddToStack` on a stack created by `CreateStack cap`, movements.c 298-327 (no bound check in
the C code: writing past the capacity is undefined). -/
def addToStack (cap : ℕ) (x : ℕ) (st : List ℕ) : Res (List ℕ) :=
  if st.length < cap then .ok (x :: st) else .ub

/-- Loop over the neighbours, movements.c 271-279. -/
def visitNeighbours (N : ℕ) (adj : Adj) : List ℕ → CompState → Res CompState
  | [], s => .ok s
  | i :: is, s =>
    let k := adj.neighbors i
    if k < N then
      if s.visited k then visitNeighbours N adj is s
      else do
        let st ← addToStack N k s.stack
        visitNeighbours N adj is { s with visited := Function.update s.visited k true, stack := st }
    else .ub

/-- `while((j=PopFromStack(to_visit))!=-1 && to_find)`, movements.c 260-281.  `fuel` bounds the
number of iterations; needing more is reported as `ub`, so that the theorems include
termination. -/
def traverse (p : Partition) (adj : Adj) (target cap : ℕ) (addToEmpty : Bool) :
    ℕ → CompState → Res CompState
  | 0, _ => .ub
  | fuel + 1, s =>
    match s.stack with
    | [] => .ok s
    | j :: rest =>
      if s.toFind = 0 then .ok { s with stack := rest }
      else do
        let s := { s with stack := rest }
        let m ← moduleOf p j
        let s ←
          if m = target then do
            let mv ← if addToEmpty then addToStack cap j s.toMove else .ok s.toMove
            .ok { s with toFind := s.toFind - 1, toMove := mv }
          else .ok s
        let s ← visitNeighbours p.N adj (slots adj j) s
        traverse p adj target cap addToEmpty fuel s

/-- Loop over the nodes of the module, movements.c 241-283; returns the state, the number of
components and the rest of the tape. -/
def scanModule (p : Partition) (adj : Adj) (target cap : ℕ) :
    List ℕ → CompState → ℕ → Tape → Res (CompState × ℕ × Tape)
  | [], s, c, t => .ok (s, c, t)
  | x :: xs, s, c, t =>
    if s.toFind = 0 then .ok (s, c, t)
    else if s.visited x then scanModule p adj target cap xs s c t
    else do
      let c := c + 1
      let (flag, t) ←
        if c = 1 then .ok (false, t)
        else if c = 2 then .ok (true, t)
        else do
          let (u, t) ← draw t
          .ok (decide (u > 1 / 2), t)
      let st ← addToStack p.N x s.stack
      let s ← traverse p adj target cap flag (p.N + 1)
        { s with visited := Function.update s.visited x true, stack := st }
      scanModule p adj target cap xs s c t

/-- `while((i=PopFromStack(to_move))!=-1) ChangeModule(i,emptyModuleId,part)`,
movements.c 286-287. -/
def moveAll (empty : ℕ) : List ℕ → Partition → Res Partition
  | [], p => .ok p
  | x :: xs, p => do
    let p ← Res.ofOption (ChangeModule x empty p)
    moveAll empty xs p

/-- `SplitModuleByComponent`, movements.c 220-293. -/
def SplitModuleByComponent (target empty : ℕ) (p : Partition) (adj : Adj) (t : Tape) :
    Res (Partition × ℕ × Tape) := do
  let l ← Res.ofOption (moduleNodes p target)
  let size := (p.modules target).size
  let (s, c, t) ← scanModule p adj target size l
    { visited := fun _ => false, stack := [], toFind := size, toMove := [] } 0 t
  let p ← moveAll empty s.toMove p
  return (p, c, t)

/-! ## Splitting by a nested annealing, sannealing.c 246-304 -/

/-- Random split, sannealing.c 269-272. -/
def randomHalves (empty : ℕ) : List ℕ → Partition → Tape → Res (Partition × Tape)
  | [], p, t => .ok (p, t)
  | x :: xs, p, t => do
    let (u, t) ← draw t
    let p ← if u < 1 / 2 then Res.ofOption (ChangeModule x empty p) else .ok p
    randomHalves empty xs p t

/-- Temperature loop, sannealing.c 274-301; `fuel` iterations are executed at most. -/
def splitLoop (acc : ℚ → ℚ → ℚ → Bool) (adj : Adj) (target empty : ℕ) (indices : List ℕ)
    (Tf Ts : ℚ) (limit : ℕ) : ℕ → ℚ → ℕ → Partition → Tape → Res (Partition × Tape)
  | 0, _, _, _, _ => .starved
  | fuel + 1, T, nochange, p, t =>
    if ¬ T > Tf then .ok (p, t)
    else do
      let (r, t) ← pick indices.length t
      let nodeid ← Res.ofOption indices[r]?
      let oldg ← moduleOf p nodeid
      let newg := if oldg = target then empty else target
      let dE ← Res.ofOption (dEChangeModule nodeid newg p adj)
      let (ok, t) ← metropolis acc dE T t
      let p ← if ok then Res.ofOption (ChangeModule nodeid newg p) else .ok p
      let dE := if ok then dE else 0
      if |dE| < epsMod then
        if nochange + 1 > limit then .ok (p, t)
        else splitLoop acc adj target empty indices Tf Ts limit fuel (T * Ts) (nochange + 1) p t
      else splitLoop acc adj target empty indices Tf Ts limit fuel (T * Ts) 0 p t

/-- `SplitModuleSA`, sannealing.c 246-304 (allocation failure is not modelled). -/
def SplitModuleSA (acc : ℚ → ℚ → ℚ → Bool) (fuel target empty : ℕ) (Ti Tf Ts : ℚ) (limit : ℕ)
    (p : Partition) (adj : Adj) (t : Tape) : Res (Partition × Tape) := do
  let indices ← Res.ofOption (moduleNodes p target)
  let (p, t) ← randomHalves empty indices p t
  splitLoop acc adj target empty indices Tf Ts limit fuel Ti 0 p t

/-! ## The annealing, sannealing.c 39-230 -/

/-- Constant arguments of `GeneralSA`. -/
structure SAParams where
  acc : ℚ → ℚ → ℚ → Bool
  fac : ℚ
  Ti : ℚ
  Tf : ℚ
  Ts : ℚ
  probaComponents : ℚ
  nochangeLimit : ℕ
  /-- bound on the iterations of each temperature loop -/
  fuel : ℕ

/-- One individual movement, sannealing.c 74-92. -/
def individualMove (c : SAParams) (adj : Adj) (T : ℚ) (s : Partition × ℚ × Tape) :
    Res (Partition × ℚ × Tape) := do
  let (p, E, t) := s
  let (target, t) ← pick p.N t
  let oldg ← moduleOf p target
  let (newg, t) ← redraw (fun u => ⌊u * p.M⌋₊) (fun g => g == oldg) t
  let dE ← Res.ofOption (dEChangeModule target newg p adj)
  let (ok, t) ← metropolis c.acc dE T t
  if ok then do
    let p ← Res.ofOption (ChangeModule target newg p)
    return (p, E + dE, t)
  else return (p, E, t)

/-- Merge part of a collective movement, sannealing.c 99-117 (`part->M-1` is unsigned; a
partition with nodes has `M ≥ 1`). -/
def mergeMove (c : SAParams) (adj : Adj) (T : ℚ) (s : Partition × ℚ × Tape) :
    Res (Partition × ℚ × Tape) := do
  let (p, E, t) := s
  let (target, t) ← pick p.N t
  let g1 ← moduleOf p target
  if p.nempty + 1 < p.M then
    let (g2, t) ← redraw (fun u => (p.nodes ⌊u * p.N⌋₊).module) (fun g => g1 == g) t
    let dE ← Res.ofOption (dEMergeModules g1 g2 p adj)
    let (ok, t) ← metropolis c.acc dE T t
    if ok then do
      let p ← Res.ofOption (MergeModules g1 g2 p)
      return (p, E + dE, t)
    else return (p, E, t)
  else return (p, E, t)

/-- Acceptance of a split, sannealing.c 163-185. -/
def acceptSplit (c : SAParams) (adj : Adj) (T : ℚ) (target empty : ℕ)
    (s : Partition × ℚ × Tape) : Res (Partition × ℚ × Tape) := do
  let (p, E, t) := s
  if (p.modules target).size ≠ 0 ∧ (p.modules empty).size ≠ 0 then
    let d ← Res.ofOption (dEMergeModules target empty p adj)
    let dE := -d
    let (ok, t) ← metropolis c.acc dE T t
    if ok then return (p, E + dE, t)
    else do
      let p ← Res.ofOption (MergeModules target empty p)
      return (p, E, t)
  else return (p, E, t)

/-- Split part of a collective movement, sannealing.c 120-187.  When no module has size 0 the
variable `empty` stays uninitialised: undefined. -/
def splitMove (c : SAParams) (adj : Adj) (T : ℚ) (s : Partition × ℚ × Tape) :
    Res (Partition × ℚ × Tape) := do
  let (p, E, t) := s
  if p.nempty = 0 then return (p, E, t)
  else
    let empty ← Res.ofOption ((List.range p.M).find? (fun j => (p.modules j).size == 0))
    let (target, t) ← redraw (fun u => (p.nodes ⌊u * p.N⌋₊).module)
      (fun g => (p.modules g).size == 1) t
    let (u, t) ← draw t
    let (p, ncomponent, t) ←
      if u < c.probaComponents then SplitModuleByComponent target empty p adj t
      else .ok (p, 1, t)
    let (p, t) ←
      if ncomponent = 1 then
        SplitModuleSA c.acc c.fuel target empty c.Ti T (95 / 100) c.nochangeLimit p adj t
      else .ok (p, t)
    acceptSplit c adj T target empty (p, E, t)

/-- One collective movement, sannealing.c 96-188. -/
def collectiveMove (c : SAParams) (adj : Adj) (T : ℚ) (s : Partition × ℚ × Tape) :
    Res (Partition × ℚ × Tape) := do
  let s ← mergeMove c adj T s
  splitMove c adj T s

/-- `for (i=n; i; i--) step`. -/
def repeatM {α : Type} (step : α → Res α) : ℕ → α → Res α
  | 0, s => .ok s
  | n + 1, s => do
    let s ← step s
    repeatM step n s

/-- sannealing.c 60-63. -/
def individualMovements (c : SAParams) (N : ℕ) : ℕ :=
  if c.fac * (N * N) < 10 then 10 else ⌊c.fac * (N * N)⌋₊

/-- sannealing.c 64-67. -/
def collectiveMovements (c : SAParams) (N : ℕ) : ℕ :=
  if c.fac * N < 2 then 2 else ⌊c.fac * N⌋₊

/-- Variables of `GeneralSA` at a round boundary.  `best` is `best_part` (`NULL` = `none`) with
`best_E` (minus infinity when `none`).  `seen` is a ghost variable (not in the C code): the
partitions current at the end of the rounds so far, with the answer of the "no change" test. -/
structure SAState where
  part : Partition
  E : ℚ
  previousE : ℚ
  best : Option (Partition × ℚ)
  nochange : ℕ
  tape : Tape
  seen : List (Partition × Bool)

/-- The test of sannealing.c 191-192.  With `previousE = 0` the C quotient is inf or nan, and
the second disjunct holds. -/
def noChange (E previousE : ℚ) : Bool :=
  decide (|E - previousE| / |previousE| < epsMod ∨ |previousE| < epsMod)

/-- Bookkeeping at the end of a round, sannealing.c 191-221; the Boolean says whether the
temperature loop is left by `break`. -/
def roundEnd (c : SAParams) (s : SAState) : Res (SAState × Bool) := do
  let nc := noChange s.E s.previousE
  let s := { s with seen := s.seen ++ [(s.part, nc)] }
  if nc then
    let n := s.nochange + 1
    if n = c.nochangeLimit then
      match s.best with
      | none => .ok ({ s with nochange := n }, true)          -- E + eps >= -inf
      | some (bp, bE) =>
        if s.E + epsMod ≥ bE then .ok ({ s with nochange := n }, true)
        else do
          let p ← Res.ofOption (CopyPartitionStruct bp)
          .ok ({ s with part := p, E := bE, nochange := 0, previousE := bE }, false)
    else .ok ({ s with nochange := n, previousE := s.E }, false)
  else
    let better := match s.best with
      | none => true
      | some (_, bE) => decide (s.E > bE)
    if better then do
      let p ← Res.ofOption (CopyPartitionStruct s.part)
      .ok ({ s with best := some (p, s.E), nochange := 0, previousE := s.E }, false)
    else .ok ({ s with previousE := s.E }, false)

/-- One round of the temperature loop, sannealing.c 72-221. -/
def saRound (c : SAParams) (adj : Adj) (T : ℚ) (s : SAState) : Res (SAState × Bool) := do
  let (p, E, t) ← repeatM (individualMove c adj T) (individualMovements c s.part.N)
    (s.part, s.E, s.tape)
  let (p, E, t) ← repeatM (collectiveMove c adj T) (collectiveMovements c s.part.N) (p, E, t)
  roundEnd c { s with part := p, E := E, tape := t }

/-- The temperature loop, sannealing.c 71-223. -/
def saLoop (c : SAParams) (adj : Adj) : ℕ → ℚ → SAState → Res SAState
  | 0, _, _ => .starved
  | fuel + 1, T, s =>
    if ¬ T > c.Tf then .ok s
    else do
      let (s, stop) ← saRound c adj T s
      if stop then .ok s else saLoop c adj fuel (T * c.Ts) s

/-- Initial values, sannealing.c 47-54. -/
def saInit (p : Partition) (t : Tape) : SAState :=
  { part := p, E := 0, previousE := 0, best := none, nochange := 0, tape := t, seen := [] }

/-- `GeneralSA`, sannealing.c 39-230.  The result is the partition left in `*ppart`
(`none` = NULL), together with the ghost list of the partitions current at round boundaries.
The return value is 0 whenever the model returns (2 is returned on allocation failure only). -/
def GeneralSA (c : SAParams) (p : Partition) (adj : Adj) (t : Tape) :
    Res (Option Partition × List (Partition × Bool)) := do
  let s ← saLoop c adj c.fuel c.Ti (saInit p t)
  return (s.best.map Prod.fst, s.seen)

end NC
