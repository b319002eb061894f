import Verif.Graph.Model

/-!
# Randomisation of the links of a symmetric network (`RandomizeSymmetricNetwork`, src/graph.c)
-/

namespace GR
open RG

/-- Lists of link origins and ends, `ori` and `des` (src/graph.c:1309-1319), as one list of pairs. -/
def linkList (net : Net) : List (ℕ × ℕ) :=
  (List.range net.n).flatMap fun i =>
    (net.neig i).filterMap fun l => l.ref.bind fun j => if j < i then some (i, j) else none

/-- The arrays `ori`, `des` of `nlink` slots each, zeroed by `calloc` (`none`) before they are filled
(src/graph.c:1306-1319); more links than slots is a write out of bounds. -/
def linkArray (net : Net) (nlink : ℕ) : Option (List (Option (ℕ × ℕ))) :=
  let L := linkList net
  if L.length ≤ nlink then some (L.map some ++ List.replicate (nlink - L.length) none) else none

/-- Selection of two links without common nodes that can be switched (src/graph.c:1326-1344); both
`do … while` loops draw three numbers each time.  Reading outside the arrays is undefined; so is
(simplification) reading a slot that was never filled, which ends in a NULL dereference at 1343. -/
def pickFour (net : Net) (links : List (Option (ℕ × ℕ))) :
    Tape → Res ((ℕ × ℕ × ℕ × ℕ × ℕ × ℕ) × Tape)
  | u1 :: u2 :: u3 :: t =>
    if (0 ≤ u1 ∧ u1 < 1) ∧ (0 ≤ u2 ∧ u2 < 1) ∧ (0 ≤ u3 ∧ u3 < 1) then
      let t1 := ⌊u1 * links.length⌋₊
      let t2 := ⌊u2 * links.length⌋₊
      match links[t1]?, links[t2]? with
      | some (some (n1, n2)), some (some (o, d)) =>
        let n3 := if u3 < 1 / 2 then d else o
        let n4 := if u3 < 1 / 2 then o else d
        if n3 = n1 ∨ n3 = n2 ∨ n4 = n1 ∨ n4 = n2 then pickFour net links t
        else if IsThereLink net n1 n4 ∨ IsThereLink net n2 n3 then pickFour net links t
        else .ok ((t1, t2, n1, n2, n3, n4), t)
      | _, _ => .ub
    else .starved
  | _ => .starved

/-- Switch of the links `n1–n2`, `n3–n4` to `n1–n4`, `n3–n2` (src/graph.c:1346-1352). -/
def switchLinks (net : Net) (n1 n2 n3 n4 : ℕ) : Option Net := do
  let net ← RemoveLink net n1 n2 true
  let net ← RemoveLink net n3 n4 true
  let net := (AddAdjacency net n1 n4 false false 1).2
  let net := (AddAdjacency net n4 n1 false false 1).2
  let net := (AddAdjacency net n3 n2 false false 1).2
  return (AddAdjacency net n2 n3 false false 1).2

/-- Loop of `RandomizeSymmetricNetwork` (src/graph.c:1324-1358). -/
def randomizeLoop : (iters : ℕ) → Net → List (Option (ℕ × ℕ)) → Tape → Res (Net × Tape)
  | 0, net, _, t => .ok (net, t)
  | k + 1, net, links, t => do
    let ((t1, t2, n1, n2, n3, n4), t) ← pickFour net links t
    let net ← Res.ofOption (switchLinks net n1 n2 n3 n4)
    randomizeLoop k net ((links.set t1 (some (n1, n4))).set t2 (some (n3, n2))) t

/-- `RandomizeSymmetricNetwork`, src/graph.c:1287-1364. -/
def RandomizeSymmetricNetwork (net : Net) (times : ℚ) (t : Tape) : Res (Net × Tape) := do
  let (nlink, net) := TotalNLinks net true
  let (u, t) ← draw t
  let niter := ⌈times * nlink + u⌉.toNat
  let links ← Res.ofOption (linkArray net nlink)
  randomizeLoop niter net links t

end GR
