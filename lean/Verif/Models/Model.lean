import Verif.Graph.Model

/-!
# Random network models (`src/models.c`)

Probabilities are rational numbers. Sizes are natural numbers that fit an `int`; the product `2 * S * m` in `PAGraph` is not
checked for overflow.
-/

namespace MD

open GR RG

/-- `sprintf(&label[0], "%d", node1+1)`. -/
def numLabel (i : ℕ) : String := toString (i + 1)

/-- Loop that creates the nodes `0 … S-1`, src/models.c:31-34, 58-61. -/
def createNodes (S : ℕ) : Option Net :=
  (List.range S).foldlM (fun net i => (CreateNodeGraph net (numLabel i)).map (·.2)) CreateHeaderGraph

/-- `EmptyGraph`, src/models.c:21-38. -/
def EmptyGraph (S : ℕ) : Option Net := createNodes S

/-- The two calls of `AddAdjacency`, src/models.c:67-68: weight 0. -/
def linkBoth (net : Net) (i j : ℕ) : Net :=
  (AddAdjacency (AddAdjacency net i j false false 0).2 j i false false 0).2

/-- The pairs `node1 < node2` in the order of the two loops, src/models.c:64-65. -/
def pairs (S : ℕ) : List (ℕ × ℕ) :=
  (List.range S).flatMap fun i => (List.range' (i + 1) (S - (i + 1))).map fun j => (i, j)

/-- The loops over pairs, src/models.c:64-71 and 179-197: `q i j` is the probability, `none` when it is not a number. -/
def linkLoop (q : ℕ → ℕ → Option ℚ) : List (ℕ × ℕ) → Net → Tape → Res (Net × Tape)
  | [], net, t => .ok (net, t)
  | x :: xs, net, t => do
    let (u, t) ← draw t
    let p ← Res.ofOption (q x.1 x.2)
    if u < p then linkLoop q xs (linkBoth net x.1 x.2) t else linkLoop q xs net t

/-- `ERGraph`, src/models.c:45-76. -/
def ERGraph (S : ℕ) (p : ℚ) (t : Tape) : Res (Net × Tape) := do
  let net ← Res.ofOption (createNodes S)
  linkLoop (fun _ _ => some p) (pairs S) net t

/-- The field `inGroup` of node `v`, src/models.c:168-175. -/
def blockOf : List ℕ → ℕ → ℕ
  | [], _ => 0
  | s :: ss, v => if v < s then 0 else blockOf ss (v - s) + 1

/-- `UndirectedBlockGraph`, src/models.c:147-202. -/
def UndirectedBlockGraph (gsize : List ℕ) (q : ℕ → ℕ → Option ℚ) (t : Tape) : Res (Net × Tape) := do
  let net ← Res.ofOption (createNodes gsize.sum)
  linkLoop (fun i j => q (blockOf gsize i) (blockOf gsize j)) (pairs gsize.sum) net t

/-- Quotient of `double`s; `none` for a division by 0. -/
def quot (x y : ℚ) : Option ℚ := if y = 0 then none else some (x / y)

/-- The matrix of `GirvanNewmanGraph`, src/models.c:218-226; below the diagonal it keeps the zeros of `allocate_d_mat`
(src/tools.c:114-135). -/
def gnMatrix (ngroup gsize : ℕ) (kin kout : ℚ) (g1 g2 : ℕ) : Option ℚ :=
  if g1 = g2 then quot kin ((gsize : ℚ) - 1)
  else if g1 < g2 then quot kout ((gsize : ℚ) * ((ngroup : ℚ) - 1))
  else some 0

/-- `GirvanNewmanGraph`, src/models.c:209-235. -/
def GirvanNewmanGraph (ngroup gsize : ℕ) (kin kout : ℚ) (t : Tape) : Res (Net × Tape) :=
  UndirectedBlockGraph (List.replicate ngroup gsize) (gnMatrix ngroup gsize kin kout) t

/-! ## Preferential attachment -/

/-- Variables of `PAGraph`: the network and the part of `paList` written so far. -/
structure PA where
  net : Net
  list : List ℕ

/-- One link, src/models.c:103-106 and 119-122. `paList` has `cap` cells. -/
def paLink (cap : ℕ) (i j : ℕ) (s : PA) : Res PA :=
  if s.list.length + 2 ≤ cap then .ok { net := linkBoth s.net i j, list := s.list ++ [i, j] } else .ub

/-- The first loop, src/models.c:100-108: a complete graph of `m` nodes. `nodeList` has `S` cells. -/
def paStart (S m cap : ℕ) : Res PA :=
  (List.range m).foldlM (fun s i =>
    if i < S then do
      let r ← Res.ofOption (CreateNodeGraph s.net (numLabel i))
      (List.range i).foldlM (fun s j => paLink cap i j s) { s with net := r.2 }
    else .ub) { net := CreateHeaderGraph, list := [] }

/-- `paList[(int)(gsl_rng_uniform(gen) * norm)]`: cells not written yet are 0 (`calloc`). -/
def paCell (l : List ℕ) (u : ℚ) : ℕ := l.getD ⌊u * l.length⌋₊ 0

/-- The links of one new node, src/models.c:114-123. -/
def paLinks (cap i : ℕ) : (todo : ℕ) → PA → Tape → Res (PA × Tape)
  | 0, s, t => .ok (s, t)
  | todo + 1, s, t => do
    if cap = 0 then .ub else
    let (j, t) ← redraw (paCell s.list) (fun j => IsThereLink s.net i j) t
    let s ← paLink cap i j s
    paLinks cap i todo s t

/-- The second loop, src/models.c:111-124. -/
def paGrow (m cap : ℕ) : List ℕ → PA → Tape → Res (PA × Tape)
  | [], s, t => .ok (s, t)
  | i :: is, s, t => do
    let r ← Res.ofOption (CreateNodeGraph s.net (numLabel i))
    let (s, t) ← paLinks cap i m { s with net := r.2 } t
    paGrow m cap is s t

/-- `PAGraph`, src/models.c:83-130. The result also shows `paList`, which is freed in C. -/
def PAGraph (S m : ℕ) (t : Tape) : Res (PA × Tape) := do
  let s ← paStart S m (2 * S * m)
  paGrow m (2 * S * m) (List.range' m (S - m)) s t

end MD
