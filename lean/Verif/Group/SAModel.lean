import Verif.Group.Model
import Verif.BFS.Model
import Verif.SA.Model

/-!
# `SAGroupSplit` and `SACommunityIdent` (`src/modules.c`)

Energies are rationals.  The tests `gsl_rng_uniform(gen) < exp(dE/T)` and
`gsl_rng_uniform(gen) > exp(-dE/T)` are arbitrary functions of `(dE, T, u)`.  Output to files and
`stderr` is left out.
-/

namespace GP

open RG

/-- Repeat a step (a `for` loop whose counter is not used). -/
def iter {σ : Type} (f : σ → Res σ) : ℕ → σ → Res σ
  | 0, s => .ok s
  | k + 1, s => do
    let s ← f s
    iter f k s

/-- `BuildNetFromGroup`, src/modules.c:1057-1083: the nodes of the list, numbered in order, and the
links between them. -/
def BuildNetFromGroup (net : Net) (ns : List ℕ) : Net :=
  { n := ns.length
    neig := fun i => match ns[i]? with
      | none => []
      | some v => (net.neig v).filterMap fun x =>
          if x.1 ∈ ns then some (ns.idxOf x.1, x.2) else none }

/-! ## `SAGroupSplit` -/

/-- The loop that merges random clusters until two are left, src/modules.c:2150-2172. Groups are
counted from 1; number 0 is the header, which has no node list (NULL is dereferenced). Only the
lists of the groups are kept: the counters are not used. -/
def mergeClusters : (fuel : ℕ) → List (List ℕ) → Tape → Res (List (List ℕ) × Tape)
  | 0, _, _ => .ub
  | fuel + 1, gs, t =>
    if gs.length ≤ 2 then .ok (gs, t)
    else do
      let (u, t) ← draw t
      let g1 := ⌈u * gs.length⌉₊
      let (g2, t) ← redraw (fun u => ⌈u * gs.length⌉₊) (fun g => g = g1) t
      if g1 = 0 ∨ g2 = 0 then .ub
      else
        match gs[g1 - 1]?, gs[g2 - 1]? with
        | some a, some b =>
          mergeClusters fuel ((gs.set (g2 - 1) (b ++ a)).eraseIdx (g1 - 1)) t
        | _, _ => .ub

/-- Random assignment of the nodes to two groups, src/modules.c:2188-2196. -/
def splitInit (sub : Net) : List ℕ → Part → Tape → Res (Part × Tape)
  | [], p, t => .ok (p, t)
  | v :: vs, p, t => do
    let (des, t) ← pick 2 t
    splitInit sub vs (AddNodeToGroup sub des v p) t

/-- One proposed move in `SAGroupSplit`, src/modules.c:2204-2246. -/
def splitMove (acc : ℚ → ℚ → ℚ → Bool) (sub : Net) (L T : ℚ) (s : Part × Tape) : Res (Part × Tape) := do
  let (target, t) ← pick sub.n s.2
  match s.1.inGroup target with
  | none => .ub
  | some oldg =>
    let newg := if oldg = 0 then 1 else 0
    let (a, t) ← NC.metropolis acc (dEMove sub s.1 L target oldg newg) T t
    return (if a then (MoveNode sub target oldg newg s.1).2 else s.1, t)

/-- Temperature loop of `SAGroupSplit`, src/modules.c:2200-2250; `starved` if it is not over after
`fuel` turns. -/
def splitAnneal (acc : ℚ → ℚ → ℚ → Bool) (sub : Net) (L Tf Ts : ℚ) :
    (fuel : ℕ) → ℚ → Part × Tape → Res (Part × Tape)
  | 0, _, _ => .starved
  | fuel + 1, T, s =>
    if T > Tf then do
      let s ← iter (splitMove acc sub L T) sub.n s
      splitAnneal acc sub L Tf Ts fuel (T * Ts) s
    else .ok s

/-- Condition of src/modules.c:2143-2147 with `cluster_sw = 1`: a value is drawn only if there are
several clusters. -/
def useClusters (k : ℕ) (t : Tape) : Res (Bool × Tape) :=
  if 1 < k then do
    let (u, t) ← draw t
    return (decide (u < 1 / 2), t)
  else .ok (false, t)

/-- Random division and annealing, src/modules.c:2176-2252. -/
def splitByAnnealing (acc : ℚ → ℚ → ℚ → Bool) (fuel : ℕ) (sub : Net) (Ti Tf Ts : ℚ) (t : Tape) :
    Res (Part × Tape) := do
  let s ← splitInit sub (List.range sub.n) Part.empty t
  let L : Int := (List.range sub.n).foldl (fun s v => s + NodeDegree sub v) 0
  let L := L / 2
  if 0 < L then splitAnneal acc sub L Tf Ts fuel Ti s else .ok s

/-- `SAGroupSplit` (`cluster_sw = 1`, as called), src/modules.c:2112-2262: the lists of the groups of
the result, in order. -/
def SAGroupSplit (acc : ℚ → ℚ → ℚ → Bool) (fuel : ℕ) (net : Net) (ns : List ℕ) (Ti Tf Ts : ℚ) (t : Tape) :
    Res (List (List ℕ) × Tape) := do
  let sub := BuildNetFromGroup net ns
  let back := fun (l : List ℕ) => l.filterMap fun i => ns[i]?
  let c ← Res.ofOption (BFS.ClustersPartition (fun i => (sub.neig i).map (·.1)) sub.n)
  let (byClusters, t) ← useClusters c.groups.length t
  if byClusters then do
    let (gs, t) ← mergeClusters (c.groups.length + 1) c.groups t
    return (gs.map back, t)
  else do
    let s ← splitByAnnealing acc fuel sub Ti Tf Ts t
    return ([back (s.1.grp 0).nodes, back (s.1.grp 1).nodes], s.2)

/-! ## `SACommunityIdent` -/

/-- `CopyPartition` (src/modules.c:1034-1051) with `CopyGroup` (999-1023): new groups with the same
nodes, added one by one. The counters of the copy are computed with whatever the `inGroup` fields
say while this goes on. -/
def CopyPartition (net : Net) (m : ℕ) (orig : ℕ → Grp) (inGroup : ℕ → Option ℕ) : Part :=
  (List.range m).foldl
    (fun p g => (orig g).nodes.foldl (fun p v => AddNodeToGroup net g v p) p)
    { grp := fun _ => Grp.empty, inGroup := inGroup }

/-- Partition, `energy` and the rest of the tape. -/
structure St where
  part : Part
  energy : ℚ
  tape : Tape

/-- Settings of a run. `m` is `ngroup`, `L` is `totallinks`. -/
structure Cfg where
  net : Net
  m : ℕ
  L : ℚ
  acc : ℚ → ℚ → ℚ → Bool
  accInv : ℚ → ℚ → ℚ → Bool
  fuel : ℕ
  Ti : ℚ

/-- One individual move, src/modules.c:2396-2449. -/
def moveStep (c : Cfg) (T : ℚ) (s : St) : Res St := do
  let (dice, t) ← pick c.net.n s.tape
  match s.part.inGroup dice with
  | none => .ub
  | some oldg =>
    let (newg, t) ← redraw (fun u => ⌊u * c.m⌋₊) (fun g => g = oldg) t
    if newg < c.m then do
      let dE := dEMove c.net s.part c.L dice oldg newg
      let (a, t) ← NC.metropolis c.acc dE T t
      if a then return { part := (MoveNode c.net dice oldg newg s.part).2, energy := s.energy + dE, tape := t }
      else return { s with tape := t }
    else .ub

/-- A proposed merge, src/modules.c:2456-2493. -/
def mergeStep (c : Cfg) (T : ℚ) (s : St) : Res St := do
  let (dice, t) ← pick c.net.n s.tape
  match s.part.inGroup dice with
  | none => .ub
  | some g1 =>
    if (s.part.grp g1).size < c.net.n then do
      let (dice, t) ← redraw (fun u => ⌊u * c.net.n⌋₊) (fun d => s.part.inGroup d = some g1) t
      match s.part.inGroup dice with
      | none => .ub
      | some g2 =>
        let dE := dEMerge c.net s.part c.L g1 g2
        let (a, t) ← NC.metropolis c.acc dE T t
        if a then do
          let p ← Res.ofOption (MergeGroups c.net g1 g2 s.part)
          return { part := p, energy := s.energy + dE, tape := t }
        else return { s with tape := t }
    else return { s with tape := t }

/-- `(dE > 0) && (gsl_rng_uniform(gen) > exp(-dE/T))`, src/modules.c:2547. -/
def inverseMetropolis (acc : ℚ → ℚ → ℚ → Bool) (dE T : ℚ) (t : Tape) : Res (Bool × Tape) :=
  if 0 < dE then do
    let (u, t) ← draw t
    return (acc dE T u, t)
  else .ok (false, t)

/-- A proposed split, src/modules.c:2495-2554. -/
def splitStep (c : Cfg) (T : ℚ) (s : St) : Res St := do
  let (dice, t) ← pick c.net.n s.tape
  match s.part.inGroup dice with
  | none => .ub
  | some g =>
    match (List.range c.m).find? (fun e => (s.part.grp e).size = 0) with
    | none => return { s with tape := t }
    | some e => do
      let (gs, t) ← SAGroupSplit c.acc c.fuel c.net (s.part.grp g).nodes c.Ti T (95 / 100) t
      match gs with
      | [] => .ub
      | l :: _ => do
        let p := l.foldl (fun p v => (MoveNode c.net v g e p).2) s.part
        let dE := dEMerge c.net p c.L g e
        let (a, t) ← inverseMetropolis c.accInv dE T t
        if a then do
          let p ← Res.ofOption (MergeGroups c.net g e p)
          return { s with part := p, tape := t }
        else return { part := p, energy := s.energy - dE, tape := t }

/-- Variables of the temperature loop. `best` is the list of groups of `best_part`. -/
structure Ann where
  s : St
  energyant : ℚ
  count : ℕ
  best : Option (ℕ → Grp)
  bestE : ℚ

/-- `limit`. -/
def limit : ℕ := 25

/-- No-change counter and restart from the best partition, src/modules.c:2558-2596. -/
def checkStop (c : Cfg) (a : Ann) : Res Ann :=
  if |a.s.energy - a.energyant| / |a.energyant| < NC.epsMod ∨ |a.energyant| < NC.epsMod then
    let count := a.count + 1
    if count = limit ∧ a.s.energy + NC.epsMod < a.bestE then
      match a.best with
      | none => .ub
      | some b =>
        let p := MapPartToNet c.net c.m (CopyPartition c.net c.m b a.s.part.inGroup)
        .ok { a with s := { a.s with part := p, energy := a.bestE }, count := 0 }
    else .ok { a with count := count }
  else .ok { a with count := 0 }

/-- Save the best partition, src/modules.c:2597-2609. -/
def saveBest (c : Cfg) (a : Ann) : Ann :=
  let a := { a with energyant := a.s.energy }
  if a.s.energy > a.bestE then
    let cp := CopyPartition c.net c.m a.s.part.grp a.s.part.inGroup
    { a with best := some cp.grp, bestE := a.s.energy
             s := { a.s with part := MapPartToNet c.net c.m { a.s.part with inGroup := cp.inGroup } } }
  else a

/-- The temperature loop, src/modules.c:2371-2626; `starved` if it is not over after `fuel` turns. -/
def anneal (c : Cfg) (cicle1 cicle2 : ℕ) (collective : Bool) (Tf Ts : ℚ) :
    (fuel : ℕ) → ℚ → Ann → Res Ann
  | 0, _, _ => .starved
  | fuel + 1, T, a =>
    if T > Tf ∧ a.count < limit then do
      let s ← iter (moveStep c T) cicle1 a.s
      let s ← if collective then
          iter (fun s => do let s ← mergeStep c T s; splitStep c T s) cicle2 s
        else .ok s
      let a ← checkStop c { a with s := s }
      anneal c cicle1 cicle2 collective Tf Ts fuel (T * Ts) (saveBest c a)
    else .ok a

/-- `initial_sw`: 'o' or 'r'. (With any other character the list of groups stays NULL and is
dereferenced.) -/
inductive Init where
  | one
  | random
deriving DecidableEq, Repr

/-- Random placement, src/modules.c:2342-2347. -/
def randomInit (net : Net) (m : ℕ) : List ℕ → Part → Tape → Res (Part × Tape)
  | [], p, t => .ok (p, t)
  | v :: vs, p, t => do
    let (dice, t) ← pick m t
    if dice < m then randomInit net m vs (AddNodeToGroup net dice v p) t else .ub

/-- Number of iterations, src/modules.c:2356-2364. -/
def cicles (fac : ℚ) (n : ℕ) : ℕ × ℕ :=
  (if fac * (n * n) < 10 then 10 else ⌊fac * (n * n)⌋₊, if fac * n < 2 then 2 else ⌊fac * n⌋₊)

/-- Result of a run: the partition, the number of groups before `CompressPart`, the variables
`energy`, `best_E` and `count` at the end, and the random numbers that are left. -/
structure Outcome where
  part : Part
  m : ℕ
  energy : ℚ
  bestE : ℚ
  count : ℕ
  tape : Tape

/-- `CompressPart` (src/modules.c:573-594) on the list of groups: the labels of those that stay. -/
def Outcome.labels (o : Outcome) : List ℕ := (List.range o.m).filter fun g => (o.part.grp g).size ≠ 0

/-- Number of groups. -/
def nGroups (net : Net) (ngroup : ℕ) : Init → ℕ
  | .one => net.n
  | .random => ngroup

/-- Initial partition, src/modules.c:2326-2349. -/
def initial (net : Net) (ngroup : ℕ) (t : Tape) : Init → Res (Part × Tape)
  | .one => .ok ((List.range net.n).foldl (fun p v => AddNodeToGroup net v v p) Part.empty, t)
  | .random => randomInit net ngroup (List.range net.n) Part.empty t

/-- `SACommunityIdent`, src/modules.c:2278-2630. In a network without links `energy` is not a number,
no best partition is ever saved and NULL is dereferenced at the end: outcome `ub`. (The function does
not get there with one node, as it never finds another group to move the node to, nor with final
temperature 0, which a cooling factor of at least 1/2 never reaches. No theorem uses that this is `ub`
and not an endless loop.) -/
def SACommunityIdent (acc accInv : ℚ → ℚ → ℚ → Bool) (fuel : ℕ) (net : Net) (Ti Tf Ts fac : ℚ)
    (ngroup : ℕ) (init : Init) (collective : Bool) (t : Tape) : Res Outcome := do
  let m := nGroups net ngroup init
  let (p, t) ← initial net ngroup t init
  let L : Int := (List.range net.n).foldl (fun s v => s + NodeDegree net v) 0
  let energy ← Res.ofOption (Modularity m p)
  let c : Cfg := { net := net, m := m, L := L, acc := acc, accInv := accInv, fuel := fuel, Ti := Ti }
  let a ← anneal c (cicles fac net.n).1 (cicles fac net.n).2 collective Tf Ts fuel Ti
    { s := { part := p, energy := energy, tape := t }, energyant := 0, count := 0, best := none, bestE := -100 }
  match a.best with
  | none => .ub
  | some _ => return { part := a.s.part, m := m, energy := a.s.energy, bestE := a.bestE, count := a.count, tape := a.s.tape }

end GP
