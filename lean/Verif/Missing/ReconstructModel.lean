import Verif.Graph.Model
import Verif.Models.Model

/-!
# Networks made from link scores (`src/missing.c`)

`NetworkScore` and `LinkScore` (C106, C31) are arguments: functions of the network and of the random
numbers. `status` fields of links are not modelled.
-/

namespace NR

open GR MD RG

/-- Body of the loop that adds the links of `NetFromSBMScores`, src/missing.c:836-841; the loops run
over the pairs `MD.pairs`. -/
def addScored (M : ℕ → ℕ → ℚ) (net : Net) (e : ℕ × ℕ) : Net :=
  if 1 / 2 < M e.1 e.2 then linkBoth net e.1 e.2 else net

/-- `NetFromSBMScores`, src/missing.c:805-848, from the scores `M` of `net`. -/
def NetFromSBMScores (net : Net) (M : ℕ → ℕ → ℚ) : Option Net := do
  let new ← EmptyGraph net.n
  let new := { new with label := fun i => if i < net.n then net.label i else new.label i }
  return (MD.pairs net.n).foldl (addScored M) new

/-- Variables `maxLinkScore`, `minLinkScore`, `n1Add`, `n2Add`, `n1Remove`, `n2Remove` of
`NetReconstruct`; `none`: never assigned. -/
structure Pick where
  maxS : ℚ
  minS : ℚ
  add : Option (ℕ × ℕ)
  rem : Option (ℕ × ℕ)

/-- Body of the double loop, src/missing.c:1085-1097. -/
def pickStep (net : Net) (M : ℕ → ℕ → ℚ) (s : Pick) (e : ℕ × ℕ) : Pick :=
  let s := if s.maxS < M e.1 e.2 ∧ IsThereLink net e.1 e.2 = false then
    { s with add := some e, maxS := M e.1 e.2 } else s
  if M e.1 e.2 < s.minS ∧ IsThereLink net e.1 e.2 = true then
    { s with rem := some e, minS := M e.1 e.2 } else s

/-- Largest score of a missing link and smallest score of a link, src/missing.c:1081-1099. -/
def pickLinks (net : Net) (M : ℕ → ℕ → ℚ) (add rem : Option (ℕ × ℕ)) : Pick :=
  (MD.pairs net.n).foldl (pickStep net M) { maxS := 0, minS := 1, add := add, rem := rem }

/-- Add one link and remove another, src/missing.c:1102-1104; the other way round it undoes the
change, 1118-1120. -/
def swapLinks (net : Net) (a r : ℕ × ℕ) : Option Net :=
  let net := (AddAdjacency net a.1 a.2 false false 1).2
  let net := (AddAdjacency net a.2 a.1 false false 1).2
  RemoveLink net r.1 r.2 true

variable {R : Type} [LinearOrder R]

/-- Variables of the inner loop: the network, `scoreOld`, `someChanged`, `someRejected`, the four
pointers, the random numbers. -/
structure Rec (R : Type) where
  net : Net
  score : R
  changed : Bool
  rejected : ℕ
  add : Option (ℕ × ℕ)
  rem : Option (ℕ × ℕ)
  tape : Tape

/-- One turn of the inner loop, src/missing.c:1079-1121; using a pointer never assigned is undefined. -/
def recStep (netScore : Net → Tape → Res (R × Tape)) (M : ℕ → ℕ → ℚ) (s : Rec R) : Res (Rec R) :=
  let p := pickLinks s.net M s.add s.rem
  match p.add, p.rem with
  | some a, some r => do
    let net ← Res.ofOption (swapLinks s.net a r)
    let (score, t) ← netScore net s.tape
    if s.score < score then
      return { net := net, score := score, changed := true, rejected := 0, add := some a, rem := some r, tape := t }
    else do
      let net ← Res.ofOption (swapLinks net r a)
      return { s with net := net, rejected := s.rejected + 1, add := some a, rem := some r, tape := t }
  | _, _ => .ub

/-- The inner loop, src/missing.c:1076-1122, until five changes in a row are rejected; `starved` if
that has not happened after `fuel` turns. -/
def recInner (netScore : Net → Tape → Res (R × Tape)) (M : ℕ → ℕ → ℚ) : ℕ → Rec R → Res (Rec R)
  | 0, _ => .starved
  | fuel + 1, s => do
    let s ← recStep netScore M s
    if s.rejected < 5 then recInner netScore M fuel s else return s

/-- The outer loop, src/missing.c:1069-1123. -/
def recOuter (netScore : Net → Tape → Res (R × Tape)) (linkScore : Net → Tape → Res ((ℕ → ℕ → ℚ) × Tape))
    (inner : ℕ) : ℕ → Rec R → Res (Rec R)
  | 0, _ => .starved
  | fuel + 1, s => do
    let (M, t) ← linkScore s.net s.tape
    let s ← recInner netScore M inner { s with changed := false, rejected := 0, tape := t }
    if s.changed then recOuter netScore linkScore inner fuel s else return s

/-- `NetReconstruct`, src/missing.c:1044-1126: the network and `scoreOld`. -/
def NetReconstruct (netScore : Net → Tape → Res (R × Tape)) (linkScore : Net → Tape → Res ((ℕ → ℕ → ℚ) × Tape))
    (inner outer : ℕ) (obs : Net) (t : Tape) : Res (Rec R) := do
  let net ← Res.ofOption (CopyNetwork obs)
  let (score, t) ← netScore net t
  recOuter netScore linkScore inner outer
    { net := net, score := score, changed := false, rejected := 0, add := none, rem := none, tape := t }

end NR
