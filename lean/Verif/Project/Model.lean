import Verif.CSR.Model
import Mathlib.Data.List.Sort

/-!
# Bipartite projection (`/repo/src/fillpartitions.c` 112-259)

The code reads memory it has not written: the variable `strength` is not initialised (158, 165) and the elements after the
end of `ed` (167, 185) and of `projected` (209, 234) are read. What is found there is the parameter `Junk`.
-/

namespace NC

/-- What the code finds where it has not written: in `strength`, in `ed[count].node2`, and in `projected[j]`. -/
structure Junk where
  strength : ℚ
  team : ℕ
  edge : Edge

/-- `EdgeCompare`, fillpartitions.c 112-128 (`u` is `node1`, `v` is `node2`). -/
def EdgeCompare (a b : Edge) : ℤ :=
  if a.v < b.v then -1
  else if b.v < a.v then 1
  else if a.u < b.u then -1
  else if b.u < a.u then 1
  else 0

/-- `qsort` with `EdgeCompare`. (The order of elements that compare equal is not specified in C; here it is that of the
input. The edges of the input are different, and the sums over equal projected edges do not depend on it.) -/
def sortEdges (l : List Edge) : List Edge := l.insertionSort (fun a b => EdgeCompare a b ≤ 0)

/-- `ed[i+1].node2`, where `rest` are the edges after the `i`-th. -/
def nextTeam (junk : Junk) (rest : List Edge) : ℕ :=
  match rest with
  | [] => junk.team
  | e :: _ => e.v

/-- Variables of the first loop. -/
structure TeamSt where
  p : Partition
  degree : ℕ
  strength : ℚ
  Emax : ℕ
  fac1 : ℚ
  fac2 : ℚ

/-- First loop over the sorted edges, 162-175. -/
def teamLoop (junk : Junk) : TeamSt → List Edge → TeamSt
  | s, [] => s
  | s, e :: rest =>
    let s := { s with
      degree := s.degree + 1
      strength := s.strength + e.w
      p := setNode e.u (fun n => { n with strength := n.strength + e.w }) s.p }
    let s := if e.v ≠ nextTeam junk rest ∨ rest = [] then
        { s with
          Emax := s.Emax + s.degree * (s.degree - 1) / 2
          fac2 := s.fac2 + s.strength
          fac1 := s.fac1 + s.strength * (s.strength - s.strength / s.degree)
          degree := 0
          strength := 0 }
      else s
    teamLoop junk s rest

/-- The two inner loops, 186-200, for the edges `ed[x0..i]` of a team: `before` are the edges `ed[x0..x-1]`. (The branches of
the test at 188 are equal.) -/
def pairsFrom (before : List Edge) : List Edge → List Edge
  | [] => []
  | e :: rest => before.map (fun f => ⟨e.u, f.u, e.w * f.w⟩) ++ pairsFrom (before ++ [e]) rest

/-- Second loop, 183-204; `team` are the edges `ed[x0..i-1]`. -/
def projLoop (junk : Junk) : List Edge → List Edge → List Edge → List Edge
  | _, out, [] => out
  | team, out, e :: rest =>
    if e.v ≠ nextTeam junk rest ∨ rest = [] then projLoop junk [] (out ++ pairsFrom [] (team ++ [e])) rest
    else projLoop junk (team ++ [e]) out rest

/-- `projected[i+1]`. -/
def nextEdge (junk : Junk) (rest : List Edge) : Edge :=
  match rest with
  | [] => junk.edge
  | e :: _ => e

/-- Number of different projected edges and degrees, 208-216. -/
def countLoop (junk : Junk) : ℕ × (ℕ → ℕ) → List Edge → ℕ × (ℕ → ℕ)
  | s, [] => s
  | (E, d), e :: rest =>
    if EdgeCompare e (nextEdge junk rest) ≠ 0 ∨ rest = [] then
      let d := Function.update d e.u (d e.u + 1)
      countLoop junk (E, Function.update d e.v (d e.v + 1)) rest
    else countLoop junk (E - 1, d) rest

/-- The array under construction and the next free position of each row. -/
structure ProjSt where
  adj : Adj
  idx : ℕ → ℕ

/-- Addition to the two slots of an edge, 232-233. -/
def addSlots (s : ProjSt) (u v : ℕ) (w : ℚ) : ProjSt :=
  let st := Function.update s.adj.strength (s.idx u) (s.adj.strength (s.idx u) + w)
  { s with adj := { s.adj with strength := Function.update st (s.idx v) (st (s.idx v) + w) } }

/-- The targets of the two slots, 236-239. -/
def closeSlots (s : ProjSt) (u v : ℕ) : ProjSt :=
  let nb := Function.update s.adj.neighbors (s.idx u) v
  let idx := Function.update s.idx u (s.idx u + 1)
  { adj := { s.adj with neighbors := Function.update nb (s.idx v) u }
    idx := Function.update idx v (idx v + 1) }

/-- Filling of the array, 231-241; `none` outside its `2E+1` cells. -/
def projFill (junk : Junk) : ProjSt → List Edge → Option ProjSt
  | s, [] => some s
  | s, e :: rest =>
    if s.idx e.u < 2 * s.adj.E + 1 ∧ s.idx e.v < 2 * s.adj.E + 1 then
      let s := addSlots s e.u e.v e.w
      let s := if EdgeCompare e (nextEdge junk rest) ≠ 0 then closeSlots s e.u e.v else s
      projFill junk s rest
    else none

/-- Loop over the nodes, 221-226: `idx` and `adj->idx`. -/
def projIdx (degree : ℕ → ℕ) (s : ProjSt × ℕ) (i : ℕ) : ProjSt × ℕ :=
  ({ adj := { s.1.adj with idx := Function.update s.1.adj.idx i s.2 }
     idx := Function.update s.1.idx i s.2 }, s.2 + degree i)

/-- Last loop, 243-250. -/
def projScale (fac1 fac2 : ℚ) (s : Partition × Adj) (i : ℕ) : Partition × Adj :=
  (setNode i (fun n => { n with strength := n.strength * fac2 }) s.1,
   (slots s.2 i).foldl (fun a k => { a with strength := Function.update a.strength k (a.strength k * fac1) }) s.2)

/-- `ProjectBipartEdgeList`, fillpartitions.c 134-259: number of projected edges, partition, and array. Division by zero (no team with
two members) gives 0 in the model, infinity in C; the factor is then not used. -/
def ProjectBipartEdgeList (junk : Junk) (edges : List Edge) : Option (ℕ × Partition × Adj) := do
  let N := edges.foldl (fun N e => if N < e.u + 1 then e.u + 1 else N) 0
  let ed := sortEdges edges
  let p ← CreatePartition N N
  let t := teamLoop junk { p := p, degree := 0, strength := junk.strength, Emax := 0, fac1 := 0, fac2 := 0 } ed
  let proj := projLoop junk [] [] ed
  if t.Emax < proj.length then none
  let proj := sortEdges proj
  let (E, degree) := countLoop junk (proj.length, fun _ => 0) proj
  let s := ((List.range N).foldl (projIdx degree) ({ adj := CreateAdjaArray N E, idx := fun _ => 0 }, 0)).1
  let s ← projFill junk s proj
  let r := (List.range N).foldl (projScale (1 / t.fac1) (1 / t.fac2)) (t.p, s.adj)
  return (E, r.1, r.2)

end NC
