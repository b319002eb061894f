import Verif.NC.Model

/-!
# Model of the conversion edge list → adjacency array

File: `/repo/src/fillpartitions.c` (27-100).
-/

namespace NC

/-- One line of the edge list: `nd_in[i]`, `nd_out[i]`, `weight[i]`. -/
structure Edge where
  u : ℕ
  v : ℕ
  w : ℚ
deriving DecidableEq

/-- State of the first loop: weight sum, partition (node strengths), degrees. -/
structure DegState where
  sum : ℚ
  p : Partition
  degree : ℕ → ℕ

/-- Body of the first loop, fillpartitions.c 42-48; `none` when a node index is out of range. -/
def degStep (N : ℕ) (s : DegState) (e : Edge) : Option DegState :=
  if e.u < N ∧ e.v < N then
    let p := setNode e.u (fun n => { n with strength := n.strength + e.w }) s.p
    let p := setNode e.v (fun n => { n with strength := n.strength + e.w }) p
    let d := Function.update s.degree e.u (s.degree e.u + 1)
    let d := Function.update d e.v (d e.v + 1)
    some { sum := s.sum + e.w, p := p, degree := d }
  else none

/-- State of the second loop: adjacency array, partition, running position. -/
structure IdxState where
  adj : Adj
  p : Partition
  pos : ℕ

/-- Body of the second loop, fillpartitions.c 60-64. -/
def idxStep (degree : ℕ → ℕ) (W : ℚ) (s : IdxState) (i : ℕ) : IdxState :=
  { adj := { s.adj with idx := Function.update s.adj.idx i s.pos }
    pos := s.pos + degree i
    p := setNode i (fun n => { n with strength := n.strength / W }) s.p }

/-- State of the third loop: adjacency array and remaining degrees. -/
structure FillState where
  adj : Adj
  degree : ℕ → ℤ

/-- Write one slot; `none` outside the `2E+1` cells of the arrays. -/
def writeSlot (a : Adj) (pos : ℤ) (target : ℕ) (w : ℚ) : Option Adj :=
  if 0 ≤ pos ∧ pos < 2 * a.E + 1 then
    some { a with
      neighbors := Function.update a.neighbors pos.toNat target
      strength := Function.update a.strength pos.toNat w }
  else none

/-- Body of the third loop, fillpartitions.c 74-88.  Both positions are computed before
either degree counter is decremented. -/
def fillStep (W : ℚ) (s : FillState) (e : Edge) : Option FillState := do
  let idx_in : ℤ := s.adj.idx (e.u + 1) - s.degree e.u
  let idx_out : ℤ := s.adj.idx (e.v + 1) - s.degree e.v
  let a ← writeSlot s.adj idx_in e.v (e.w / W)
  let a ← writeSlot a idx_out e.u (e.w / W)
  let d := Function.update s.degree e.u (s.degree e.u - 1)
  let d := Function.update d e.v (d e.v - 1)
  return { adj := a, degree := d }

/-- `EdgeListToAdjaArray`, fillpartitions.c 27-100.  `edges` are the three parallel arrays; the
function reads `adj->E` entries (reading past the end of the arrays is `none`).
`weightsum = 0` with normalisation divides by zero (inf/nan in C); in the model `x / 0 = 0`,
theorems about normalised values assume a nonzero sum. -/
def EdgeListToAdjaArray (edges : List Edge) (adj : Adj) (p : Partition) (normalize : Bool) :
    Option (Adj × Partition) := do
  if edges.length < adj.E then none
  if p.N < adj.N then none
  let es := edges.take adj.E
  let s ← es.foldlM (degStep adj.N) { sum := 0, p := p, degree := fun _ => 0 }
  let W := if normalize then s.sum * 2 else 1
  let t := (List.range adj.N).foldl (idxStep s.degree W) { adj := adj, p := s.p, pos := 0 }
  let f ← es.foldlM (fillStep W) { adj := t.adj, degree := fun i => (s.degree i : ℤ) }
  return (f.adj, t.p)

end NC
