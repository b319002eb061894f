import Verif.BFS.Indices

/-!
# Model: degree correlations, transitivity and square clustering (`src/graph.c`)

The degree of a node is the length of its adjacency list (`NodeDegree`, src/graph.c:1388-1396, with a
correct cache, see C44).  Integer variables are C `int`s: a value above `INT_MAX` is undefined
behaviour (outer `none`).  Divisions of `double`s are exact; a division by zero is the inner `none`.
-/

namespace BFS

/-- A value stored in an `int` (no value here is negative). -/
def i32 (k : ℕ) : Option ℕ := if k ≤ 2147483647 then some k else none

/-- The loop `x += v` over the values of `v`, each computed in an `int`. -/
def addAll : List ℕ → ℕ → Option ℕ
  | [], s => some s
  | v :: vs, s => do
    let x ← i32 v
    let s' ← i32 (s + x)
    addAll vs s'

/-- The variables `jk`, `jpk` and `j2pk2` of `Assortativity`. -/
structure AS where
  jk : ℕ
  jpk : ℕ
  j2pk2 : ℕ
deriving DecidableEq, Repr

/-- The body of the inner loop of `Assortativity`, src/graph.c:2393-2396. -/
def assortLink (dp dq : ℕ) (a : AS) : Option AS := do
  let x ← i32 (dp * dq)
  let jk ← i32 (a.jk + x)
  let y ← i32 (dp + dq)
  let jpk ← i32 (a.jpk + y)
  let u ← i32 (dp * dp)
  let v ← i32 (dq * dq)
  let w ← i32 (u + v)
  let j2pk2 ← i32 (a.j2pk2 + w)
  return { jk, jpk, j2pk2 }

/-- The inner loop of `Assortativity`, src/graph.c:2391-2397. -/
def assortRow (adj : ℕ → List ℕ) (p : ℕ) : List ℕ → AS → Option AS
  | [], a => some a
  | q :: qs, a => do
    let a' ← assortLink (adj p).length (adj q).length a
    assortRow adj p qs a'

/-- The second outer loop of `Assortativity`, src/graph.c:2389-2398. -/
def assortNodes (adj : ℕ → List ℕ) : List ℕ → AS → Option AS
  | [], a => some a
  | p :: ps, a => do
    let a' ← assortRow adj p (adj p) a
    assortNodes adj ps a'

/-- `Assortativity`, src/graph.c:2364-2409. -/
def Assortativity (adj : ℕ → List ℕ) (n : ℕ) : Option (Option ℚ) := do
  let M ← addAll ((List.range n).map fun p => (adj p).length) 0
  let a ← assortNodes adj (List.range n) { jk := 0, jpk := 0, j2pk2 := 0 }
  let M2 ← i32 (2 * M)
  let m : ℚ := (a.jpk : ℚ) / M2
  let den : ℚ := (a.j2pk2 : ℚ) / M2 - m * m
  return if M = 0 ∨ den = 0 then none else some (((a.jk : ℚ) / M - m * m) / den)

/-- `CalculateKnn`, src/graph.c:2414-2426. -/
def CalculateKnn (adj : ℕ → List ℕ) (p : ℕ) : Option (Option ℚ) := do
  let totdeg ← addAll ((adj p).map fun q => (adj q).length) 0
  let nneig := (adj p).length
  return if nneig = 0 then none else some ((totdeg : ℚ) / nneig)

/-- `CommonNeighbors`, src/graph.c:2985-2996; `IsThereLink(v, j)` is 1 when `j` is in the list of
`v`. -/
def CommonNeighbors (adj : ℕ → List ℕ) (i j : ℕ) : ℕ :=
  (adj i).foldl (fun ncom v => ncom + if j ∈ adj v then 1 else 0) 0

/-- Loop of `ClusteringCoefficient2` (src/graph.c:1839-1857): `tri` and `ctr`. -/
def tripletSum (adj : ℕ → List ℕ) (n : ℕ) : List ℕ → ℕ × ℕ → Option (ℕ × ℕ)
  | [], x => some x
  | p :: ps, (tri, ctr) => do
    let (l, st) ← neighbours adj n p
    let k := l.length
    if 1 < k then do
      let tri' ← i32 (tri + CalculateLinksBetweenNeig adj l (Function.update st p false))
      let x ← i32 (k * (k - 1))
      let ctr' ← i32 (ctr + x)
      tripletSum adj n ps (tri', ctr')
    else tripletSum adj n ps (tri, ctr)

/-- `ClusteringCoefficient2`, src/graph.c:1823-1863. -/
def ClusteringCoefficient2 (adj : ℕ → List ℕ) (n : ℕ) : Option (Option ℚ) := do
  let (tri, ctr) ← tripletSum adj n (List.range n) (0, 0)
  return if ctr = 0 then none else some ((tri : ℚ) / ctr)

/-- `CountPredecessors`, src/graph.c:1066-1081: the header is not counted. -/
def CountPredecessors (e : Entry) : ℕ := if e.pred.head? = some none then 0 else e.pred.length

/-- `while (pl->d < 2) { pl = pl->next; k1++; }` from the entry after the first one
(src/graph.c:1908-1913, 2019-2024): `k1` and the entries from `pl` on.  Past the end NULL is
dereferenced (`none`). -/
def skipFirst : List Entry → ℕ → Option (ℕ × List Entry)
  | [], _ => none
  | e :: es, k1 => if e.d < 2 then skipFirst es (k1 + 1) else some (k1, e :: es)

/-- The number `C_v` (src/graph.c:1916-1922, 2026-2032). -/
def squares (l : List Entry) : Option ℕ :=
  addAll (l.map fun e => CountPredecessors e * (CountPredecessors e - 1)) 0

/-- `OneNodeSquareClustering`, src/graph.c:1984-2046. -/
def OneNodeSquareClustering (adj : ℕ → List ℕ) (n p : ℕ) : Option ℚ :=
  if (adj p).length = 0 then some (-1)
  else do
    let (lp, q1) ← RenewQueue adj 0 (n + 1) 0 (Enqueue p none 0 0 Q.empty)
    let (_, q2) ← RenewQueue adj 1 (n + 1) lp q1
    if q2.list.length ≠ q1.list.length then do
      let (k1, rest) ← skipFirst (q2.list.drop 1) 0
      let cv ← squares rest
      let k2 := rest.length
      return if k1 ≤ 1 then -2 else (cv : ℚ) / ((k2 : ℚ) * k1 * ((k1 : ℚ) - 1))
    else return -3

/-- The body of the loop of `SquareClustering` from the second `if` on (src/graph.c:1898-1931): the
number added to `C_av`, or `none` inside when the node is not counted (`nodes--`).  The line printed
is left out. -/
def squareNode (adj : ℕ → List ℕ) (n p : ℕ) : Option (Option ℚ) := do
  let (lp, q1) ← RenewQueue adj 0 (n + 1) 0 (Enqueue p none 0 0 Q.empty)
  if q1.list.length < n then do
    let (_, q2) ← RenewQueue adj 1 (n + 1) lp q1
    let (k1, rest) ← skipFirst (q2.list.drop 1) 0
    let cv ← squares rest
    let k2 := rest.length
    if 1 < k1 then do
      let x ← i32 (k2 * k1 * (k1 - 1))
      return some ((cv : ℚ) / x)
    else return none
  else return none

/-- The loop of `SquareClustering`, src/graph.c:1891-1934: `C_av` and `nodes`. -/
def squareSum (adj : ℕ → List ℕ) (n : ℕ) : List ℕ → ℚ × ℕ → Option (ℚ × ℕ)
  | [], x => some x
  | p :: ps, (c, nodes) => do
    match ← squareNode adj n p with
    | some x => squareSum adj n ps (c + x, nodes)
    | none => squareSum adj n ps (c, nodes - 1)

/-- `SquareClustering`, src/graph.c:1869-1941.  After `Enqueue` the list has one node: a network of
one node gives -1. -/
def SquareClustering (adj : ℕ → List ℕ) (n : ℕ) : Option (Option ℚ) :=
  if n = 1 then some (some (-1))
  else do
    let (c, nodes) ← squareSum adj n (List.range n) (0, n)
    return if nodes = 0 then none else some (c / nodes)

end BFS
