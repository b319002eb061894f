import Mathlib.Algebra.Order.Floor.Ring
import Mathlib.Data.Rat.Floor
import Mathlib.Algebra.Field.Rat
import Mathlib.Algebra.Order.Ring.Rat
import Mathlib.Analysis.Real.Sqrt
import Verif.Group.Model
import Verif.BFS.CorrModel

/-!
Model of the graph layout in `src/layout.c`: the grid of boxes, the enumeration of neighbouring
boxes, forces and energies, the Verlet integration and the normalisation of coordinates.

Simplifications.  `double` is exact: rationals or reals.  A division by zero makes the result NaN or
infinite; since every NaN that appears here spreads to all coordinates or is converted to `int`, such
a division ends the run with `none`.  Nodes are `0, …, n-1`, and both `num` and `trans` of a node are
its index.  Boxes are lists of nodes, and `box_list` a function from box numbers to lists.
-/

namespace LY

section Field
variable {K : Type*} [Field K] [LinearOrder K] [FloorRing K]

/-- The search for a minimum that starts at `s` (`src/layout.c:254-262`, `487-492`). -/
def least (s : K) (f : ℕ → K) (n : ℕ) : K :=
  (List.range n).foldl (fun m i => if f i < m then f i else m) s

/-- The search for a maximum that starts at `s` (`src/layout.c:254-266`, `493-496`). -/
def most (s : K) (f : ℕ → K) (n : ℕ) : K :=
  (List.range n).foldl (fun m i => if f i > m then f i else m) s

/-- One coordinate in `NormalizeCoordinates` (`src/layout.c:246-274`) and `NormalizeCoordinates3D`
(`src/layout.c:280-316`).  With no node nothing is divided. -/
def NormalizeCoordinate (f : ℕ → K) (n : ℕ) : Option (ℕ → K) :=
  let lo := least (10 ^ 100) f n
  let hi := most (-(10 ^ 100)) f n
  if 0 < n ∧ hi - lo = 0 then none
  else some fun i => if i < n then (f i - lo) / (hi - lo) else f i

/-- `NormalizeCoordinates` (`src/layout.c:246-274`). -/
def NormalizeCoordinates (x y : ℕ → K) (n : ℕ) : Option ((ℕ → K) × (ℕ → K)) := do
  let x' ← NormalizeCoordinate x n
  let y' ← NormalizeCoordinate y n
  some (x', y')

/-- One of the coordinates of a box (`src/layout.c:327-337`): the limits are made larger, the second
of them with the new value of the first; the quotient is rounded down.  Converting NaN or an infinity
to `int` is undefined. -/
def cell (nbox : ℕ) (x lo hi : K) : Option ℤ :=
  let lo' := lo - (hi - lo) * (1 / 100000)
  let hi' := hi + (hi - lo') * (1 / 100000)
  if hi' - lo' = 0 then none else some ⌊(x - lo') / (hi' - lo') * (nbox : K)⌋

/-- `AssignBox` (`src/layout.c:321-340`). -/
def AssignBox (nbox : ℕ) (x y xmin xmax ymin ymax : K) : Option ℤ := do
  let intx ← cell nbox x xmin xmax
  let inty ← cell nbox y ymin ymax
  some (inty * nbox + intx)

/-- `AssignBox3D` (`src/layout.c:739-765`). -/
def AssignBox3D (nbox : ℕ) (x y z xmin xmax ymin ymax zmin zmax : K) : Option ℤ := do
  let intx ← cell nbox x xmin xmax
  let inty ← cell nbox y ymin ymax
  let intz ← cell nbox z zmin zmax
  some (intz * nbox * nbox + inty * nbox + intx)

end Field

/-! ### Boxes -/

/-- `AddNodeToBox` (`src/layout.c:31-37`): in front of the list. -/
def AddNodeToBox (v : ℕ) (box : List ℕ) : List ℕ := v :: box

/-- `RemoveNodeFromBox` (`src/layout.c:42-55`): the first entry for the node; the search runs into
a null pointer if there is none. -/
def RemoveNodeFromBox (v : ℕ) (box : List ℕ) : Option (List ℕ) :=
  if v ∈ box then some (box.erase v) else none

/-- `condition` in two dimensions (`src/layout.c:534-537`, and `414-417` in `PotentialEnergy`): boxes
that are skipped.  The remainder of C is taken: `nei_box` may be negative there only if it is less
than `box`. -/
def skip (b : ℕ) (box : ℕ) (row col : ℤ) : Prop :=
  let nei : ℤ := box + row * b + col
  nei < box ∨ (col = 1 ∧ nei.tmod b = 0) ∨ (col = -1 ∧ box % b = 0) ∨
    (row = 1 ∧ (box : ℤ) ≥ (b * b : ℕ) - b)

instance (b box : ℕ) (row col : ℤ) : Decidable (skip b box row col) := by
  unfold skip; infer_instance

/-- The pairs `(box, nei_box)` in the order of the loops (`src/layout.c:524-540`). -/
def boxPairs (b : ℕ) : List (ℕ × ℤ) :=
  (List.range (b * b)).flatMap fun box =>
    [0, 1].flatMap fun row => [-1, 0, 1].flatMap fun col =>
      if skip b box row col then [] else [(box, box + row * b + col)]

/-- `condition` in three dimensions (`src/layout.c:997-1011`, and `857-871` in `PotentialEnergy3D`),
for `nbox` boxes. -/
def skip3 (nbox b : ℕ) (box : ℕ) (row col pla : ℤ) : Prop :=
  let nei : ℤ := box + pla * b * b + row * b + col
  nei < box ∨ (col = 1 ∧ nei.tmod b = 0) ∨ (col = -1 ∧ box % b = 0) ∨
    (row = 1 ∧ nei.tmod (b * b) < b) ∨ (row = -1 ∧ box % (b * b) < b) ∨
    (pla = 1 ∧ (box : ℤ) ≥ (nbox : ℤ) - b * b) ∨ (pla = -1 ∧ box < b * b)

instance (nbox b box : ℕ) (row col pla : ℤ) : Decidable (skip3 nbox b box row col pla) := by
  unfold skip3; infer_instance

/-- The pairs `(box, nei_box)` in three dimensions, when the first loop runs over `nbox` boxes. -/
def boxPairsOf (nbox b : ℕ) : List (ℕ × ℤ) :=
  (List.range nbox).flatMap fun box =>
    [-1, 0, 1].flatMap fun row => [-1, 0, 1].flatMap fun col => [-1, 0, 1].flatMap fun pla =>
      if skip3 nbox b box row col pla then [] else [(box, box + pla * b * b + row * b + col)]

/-- The pairs of boxes of `CalculateNodeForces3D` (`src/layout.c:983-1013`): `nbox` is the cube of
`boxprow`. -/
def boxPairs3D (b : ℕ) : List (ℕ × ℤ) := boxPairsOf (b * b * b) b

/-- The pairs of boxes of `PotentialEnergy3D` (`src/layout.c:843-873`): `nbox` is the square of
`boxprow`. -/
def boxPairsEnergy3D (b : ℕ) : List (ℕ × ℤ) := boxPairsOf (b * b) b

/-- The pairs of nodes for one pair of boxes (`src/layout.c:542-554`). -/
def pairsIn (boxes : ℕ → List ℕ) (box nei : ℕ) : List (ℕ × ℕ) :=
  (boxes box).flatMap fun n1 => ((boxes nei).filter fun n2 => box ≠ nei ∨ (box = nei ∧ n1 > n2)).map
    fun n2 => (n1, n2)

/-- The pairs of nodes for which the loops reach the calculation of `dx`, in order.  A negative
number of a box does not occur (see `C96_box_pairs`). -/
def nodePairs (boxes : ℕ → List ℕ) (ps : List (ℕ × ℤ)) : List (ℕ × ℕ) :=
  ps.flatMap fun p => pairsIn boxes p.1 p.2.toNat

/-! ### Forces and energy in two dimensions -/

/-- The arrays `Fx` and `Fy`. -/
structure Force where
  x : ℕ → ℝ
  y : ℕ → ℝ

/-- The four assignments `F[n1] += ...; F[n2] -= ...` (`src/layout.c:518-521`, `563-566`). -/
noncomputable def push (F : Force) (i j : ℕ) (fx fy : ℝ) : Force :=
  let gx := Function.update F.x i (F.x i + fx)
  let gy := Function.update F.y i (F.y i + fy)
  { x := Function.update gx j (gx j - fx), y := Function.update gy j (gy j - fy) }

/-- `dis = sqrt(dx * dx + dy * dy)` (`src/layout.c:515`, `558`). -/
noncomputable def dis (x y : ℕ → ℝ) (i j : ℕ) : ℝ :=
  Real.sqrt ((x j - x i) * (x j - x i) + (y j - y i) * (y j - y i))

/-- The length beyond which charges do not interact (`src/layout.c:483-500`). -/
noncomputable def cutoff (n b : ℕ) (x y : ℕ → ℝ) : ℝ :=
  (most (-(10 ^ 5)) x n - least (10 ^ 5) x n + most (-(10 ^ 5)) y n - least (10 ^ 5) y n) / 2 / b

/-- `epsilon` (`src/layout.c:480`). -/
noncomputable def epsilon (n : ℕ) : ℝ := Real.sqrt n / 10000

/-- The links `(n1, n2, weight)` that the loops of `src/layout.c:503-512` select. -/
def springs (net : GP.Net) : List (ℕ × ℕ × ℚ) :=
  (List.range net.n).flatMap fun n1 =>
    ((net.neig n1).filter fun e => n1 > e.1).map fun e => (n1, e.1, e.2)

/-- The body of the loop over the links (`src/layout.c:512-522`): `Fmod * dx / dis` is NaN if the two
nodes are in one place. -/
noncomputable def springStep (x y : ℕ → ℝ) (F : Force) (e : ℕ × ℕ × ℚ) : Option Force :=
  if dis x y e.1 e.2.1 = 0 then none
  else some (push F e.1 e.2.1
    (e.2.2 * dis x y e.1 e.2.1 * (x e.2.1 - x e.1) / dis x y e.1 e.2.1)
    (e.2.2 * dis x y e.1 e.2.1 * (y e.2.1 - y e.1) / dis x y e.1 e.2.1))

open Classical in
/-- The body of the loop over pairs of nodes (`src/layout.c:556-567`). -/
noncomputable def chargeStep (n b : ℕ) (x y : ℕ → ℝ) (F : Force) (p : ℕ × ℕ) : Option Force :=
  if dis x y p.1 p.2 < cutoff n b x y ∨ b ≤ 2 then
    if dis x y p.1 p.2 = 0 then none
    else
      let Fmod := -(1 / (n : ℝ)) / (dis x y p.1 p.2 * dis x y p.1 p.2 + epsilon n)
      some (push F p.1 p.2 (Fmod * (x p.2 - x p.1) / dis x y p.1 p.2)
        (Fmod * (y p.2 - y p.1) / dis x y p.1 p.2))
  else some F

/-- `CalculateNodeForces` (`src/layout.c:464-577`). -/
noncomputable def CalculateNodeForces (net : GP.Net) (x y : ℕ → ℝ) (boxes : ℕ → List ℕ) (b : ℕ) :
    Option Force := do
  let F ← (springs net).foldlM (springStep x y) ⟨fun _ => 0, fun _ => 0⟩
  (nodePairs boxes (boxPairs b)).foldlM (chargeStep net.n b x y) F

open Classical in
/-- `PotentialEnergy` (`src/layout.c:348-456`).  `sqrt(dis*dis + epsilon)` is positive as soon as
there is a node. -/
noncomputable def PotentialEnergy (net : GP.Net) (x y : ℕ → ℝ) (boxes : ℕ → List ℕ) (b : ℕ) : ℝ :=
  let E := (springs net).foldl (fun E e => E + e.2.2 * dis x y e.1 e.2.1 * dis x y e.1 e.2.1 / 2) 0
  (nodePairs boxes (boxPairs b)).foldl (fun E p =>
    if dis x y p.1 p.2 < cutoff net.n b x y ∨ b ≤ 2 then
      E + 1 / (net.n : ℝ) / Real.sqrt (dis x y p.1 p.2 * dis x y p.1 p.2 + epsilon net.n)
    else E) E

/-! ### Molecular dynamics -/

/-- The variables of `MDGraphLayout`: coordinates, previous coordinates, boxes. -/
structure MD where
  x : ℕ → ℝ
  y : ℕ → ℝ
  px : ℕ → ℝ
  py : ℕ → ℝ
  boxes : ℕ → List ℕ
  oldbox : ℕ → ℕ

/-- The number of boxes per row (`src/layout.c:606-611`) when the caller gives none: undefined if the
square of the number of nodes does not fit in an `int` or if there is no link. -/
noncomputable def boxesPerRow (n links : ℕ) : Option ℕ := do
  let sq ← BFS.i32 (n * n)
  if links = 0 then none
  else some (max 1 ⌊Real.sqrt ((sq : ℝ) / (10 * links))⌋₊)

/-- Placing the nodes one after the other (`src/layout.c:627-641`); `x0` and `y0` are the random
numbers.  A number outside the list of boxes is an access out of bounds. -/
noncomputable def place (b : ℕ) (x0 y0 : ℕ → ℝ) : ℕ → Option MD
  | 0 => some ⟨x0, y0, x0, y0, fun _ => [], fun _ => 0⟩
  | i + 1 => do
    let s ← place b x0 y0 i
    let k ← AssignBox b (x0 i) (y0 i) 0 1 0 1
    if 0 ≤ k ∧ k < b * b then
      some { s with
        boxes := Function.update s.boxes k.toNat (AddNodeToBox i (s.boxes k.toNat))
        oldbox := Function.update s.oldbox i k.toNat }
    else none

/-- The new coordinate of a node (`src/layout.c:664-671`). -/
noncomputable def verlet (drag dt x px F : ℝ) : ℝ :=
  (2 * x - px * (1 - drag * dt * (1 / 2)) + F * dt * dt) / (1 + drag * dt * (1 / 2))

/-- The body of the loop that moves nodes to new boxes (`src/layout.c:697-705`). -/
noncomputable def rebox (b : ℕ) (xmin xmax ymin ymax : ℝ) (s : MD) (i : ℕ) : Option MD := do
  let k ← AssignBox b (s.x i) (s.y i) xmin xmax ymin ymax
  if k ≠ s.oldbox i then
    let l ← RemoveNodeFromBox i (s.boxes (s.oldbox i))
    if 0 ≤ k ∧ k < b * b then
      let boxes' := Function.update s.boxes (s.oldbox i) l
      some { s with
        boxes := Function.update boxes' k.toNat (AddNodeToBox i (boxes' k.toNat))
        oldbox := Function.update s.oldbox i k.toNat }
    else none
  else some s

/-- One step of the integration (`src/layout.c:644-706`), and the kinetic energy `T`. -/
noncomputable def mdStep (net : GP.Net) (drag dt : ℝ) (b : ℕ) (s : MD) : Option (MD × ℝ) := do
  let F ← CalculateNodeForces net s.x s.y s.boxes b
  if 1 + drag * dt * (1 / 2) = 0 ∨ 2 * dt = 0 then none
  else
    let x' := fun i => if i < net.n then verlet drag dt (s.x i) (s.px i) (F.x i) else s.x i
    let y' := fun i => if i < net.n then verlet drag dt (s.y i) (s.py i) (F.y i) else s.y i
    let T := (List.range net.n).foldl (fun T i =>
      let vx := (x' i - s.px i) / (2 * dt)
      let vy := (y' i - s.py i) / (2 * dt)
      T + (vx * vx + vy * vy) / 2) 0
    let s' ← (List.range net.n).foldlM
      (rebox b (least (10 ^ 50) x' net.n) (most (-(10 ^ 50)) x' net.n)
        (least (10 ^ 50) y' net.n) (most (-(10 ^ 50)) y' net.n))
      { s with x := x', y := y', px := s.x, py := s.y }
    some (s', T)

open Classical in
/-- The loop over the steps (`src/layout.c:644-718`): it ends early when the nodes hardly move. -/
noncomputable def mdLoop (net : GP.Net) (drag dt : ℝ) (b : ℕ) : ℕ → MD → Option MD
  | 0, s => some s
  | k + 1, s => do
    let r ← mdStep net drag dt b s
    if r.2 / net.n < 1 / 100000 then some r.1 else mdLoop net drag dt b k r.1

/-- `MDGraphLayout` (`src/layout.c:586-735`) for a network that is connected, so that
`ArrangeComponents` does nothing (`src/layout.c:131-132`), and a positive number `b` of boxes per
row. -/
noncomputable def MDGraphLayout (net : GP.Net) (drag dt : ℝ) (nsteps b : ℕ) (x0 y0 : ℕ → ℝ) :
    Option ((ℕ → ℝ) × (ℕ → ℝ)) := do
  let s ← place b x0 y0 net.n
  let s ← mdLoop net drag dt b nsteps s
  let p ← NormalizeCoordinates s.x s.y net.n
  NormalizeCoordinates p.1 p.2 net.n

end LY
