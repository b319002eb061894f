import Verif.Graph.Model

/-!
# Removal and addition of random links (`RemoveRandomLinks`, `AddRandomLinks`, src/graph.c)

`gsl_rng_uniform_int(gen, n)` is `⌊u n⌋` for the next value `u` of the tape; with `n = 0` the library
calls its error handler, which aborts (`ub`).
-/

namespace GR
open RG

/-- One mark (src/graph.c:936-939): redraw until an unmarked position is found. -/
def markOne (total : ℕ) (marks : List Bool) (t : Tape) : Res (List Bool × Tape) :=
  if total = 0 then .ub
  else do
    let (k, t) ← redraw (fun u => ⌊u * total⌋₊) (fun k => marks.getD k false) t
    return (marks.set k true, t)

/-- The marking loop (src/graph.c:935-940). -/
def markLinks (total : ℕ) : (nLinks : ℕ) → List Bool → Tape → Res (List Bool × Tape)
  | 0, marks, t => .ok (marks, t)
  | k + 1, marks, t => do
    let (marks, t) ← markOne total marks t
    markLinks total k marks t

/-- Walk along the adjacency list of node `p` (src/graph.c:946-961). The pointer `n` is the number `pos`
of links already passed.  `none`: a NULL pointer in a link, a read past the end of `targetList`,
or (simplification) removal of a link when an earlier element of the list points to the same
node, which frees an element at or before `n`.  `fuel` bounds the iterations; see
`RemoveRandomLinks`. -/
def thinRow (sym : Bool) (marks : List Bool) (p : ℕ) :
    (fuel pos counter : ℕ) → Net → Option (ℕ × Net)
  | 0, pos, counter, net => if (net.neig p)[pos]? = none then some (counter, net) else none
  | fuel + 1, pos, counter, net =>
    match (net.neig p)[pos]? with
    | none => some (counter, net)
    | some l => do
      let j ← l.ref
      if p ≤ j ∨ sym = false then
        let mark ← marks[counter]?
        if mark then
          if ((net.neig p).take pos).any fun x => x.ref = some j then none
          else
            let net ← RemoveLink net p j sym
            thinRow sym marks p fuel pos (counter + 1) net
        else thinRow sym marks p fuel (pos + 1) (counter + 1) net
      else thinRow sym marks p fuel (pos + 1) counter net

/-- Loop over the nodes (src/graph.c:945-962). Each iteration of the inner loop passes or removes one
link of the list of `p`, so its length is enough fuel. -/
def thinNodes (sym : Bool) (marks : List Bool) : (nodes : List ℕ) → ℕ → Net → Option (ℕ × Net)
  | [], counter, net => some (counter, net)
  | p :: ps, counter, net => do
    let (counter, net) ← thinRow sym marks p (net.neig p).length 0 counter net
    thinNodes sym marks ps counter net

/-- `RemoveRandomLinks`, src/graph.c:919-967. -/
def RemoveRandomLinks (net : Net) (nLinks : ℕ) (sym : Bool) (t : Tape) : Res (Net × Tape) := do
  let (total, net) := TotalNLinks net sym
  let (marks, t) ← markLinks total nLinks (List.replicate total false) t
  let (_, net) ← Res.ofOption (thinNodes sym marks (List.range net.n) 0 net)
  return (net, t)

/-- Selection of two nodes that are different and not linked (src/graph.c:996-999): two draws each
time. -/
def pickPair (net : Net) : Tape → Res ((ℕ × ℕ) × Tape)
  | u1 :: u2 :: t =>
    if (0 ≤ u1 ∧ u1 < 1) ∧ (0 ≤ u2 ∧ u2 < 1) then
      let n1 := ⌊u1 * net.n⌋₊
      let n2 := ⌊u2 * net.n⌋₊
      if n1 = n2 ∨ IsThereLink net n1 n2 then pickPair net t else .ok ((n1, n2), t)
    else .starved
  | _ => .starved

/-- The loop of `AddRandomLinks` (src/graph.c:995-1002). -/
def addRandomLoop : (nLinks : ℕ) → Net → Tape → Res (Net × Tape)
  | 0, net, t => .ok (net, t)
  | k + 1, net, t =>
    if net.n = 0 then .ub
    else do
      let ((n1, n2), t) ← pickPair net t
      let net := (AddAdjacency net n1 n2 false false 1).2
      let net := (AddAdjacency net n2 n1 false false 1).2
      addRandomLoop k net t

/-- `AddRandomLinks`, src/graph.c:974-1007: `symmetric_sw` is not used. -/
def AddRandomLinks (net : Net) (nLinks : ℕ) (_sym : Bool) (t : Tape) : Res (Net × Tape) :=
  addRandomLoop nLinks net t

end GR
