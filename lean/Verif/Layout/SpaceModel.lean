import Verif.Layout.Model
import Mathlib.Analysis.SpecialFunctions.Pow.Real

/-!
Model of the layouts in three dimensions of `src/layout.c`: `CalculateNodeForces3D`, `MDGraphLayout3D` and `MDGraphLayout2Dp`.

Same simplifications as in `Verif.Layout.Model`. The three arrays for the coordinates, or for the forces, are one function of
the direction: 0 for x, 1 for y, 2 for z.
-/

namespace LY

/-- Three arrays: `coorX`, `coorY`, `coorZ`, or `Fx`, `Fy`, `Fz`, or `prev_xco`, `prev_yco`, `prev_zco`. -/
abbrev Pos := Fin 3 → ℕ → ℝ

/-- `dis = sqrt(dx * dx + dy * dy + dz * dz)` (`src/layout.c:962`, `1034`). -/
noncomputable def dis3 (r : Pos) (i j : ℕ) : ℝ :=
  Real.sqrt ((r 0 j - r 0 i) * (r 0 j - r 0 i) + (r 1 j - r 1 i) * (r 1 j - r 1 i) + (r 2 j - r 2 i) * (r 2 j - r 2 i))

/-- The length beyond which charges do not interact (`src/layout.c:926-947`). -/
noncomputable def cutoff3 (n b : ℕ) (r : Pos) : ℝ :=
  (most (-(10 ^ 5)) (r 0) n - least (10 ^ 5) (r 0) n + most (-(10 ^ 5)) (r 1) n - least (10 ^ 5) (r 1) n +
    most (-(10 ^ 5)) (r 2) n - least (10 ^ 5) (r 2) n) / 3 / b

/-- The six assignments `F[n1] += ...; F[n2] -= ...` (`src/layout.c:965-970`, `1038-1043`). -/
noncomputable def push3 (F : Pos) (i j : ℕ) (f : Fin 3 → ℝ) : Pos := fun d =>
  let g := Function.update (F d) i (F d i + f d)
  Function.update g j (g j - f d)

/-- The body of the loop over the links (`src/layout.c:957-971`). -/
noncomputable def springStep3 (r F : Pos) (e : ℕ × ℕ × ℚ) : Option Pos :=
  if dis3 r e.1 e.2.1 = 0 then none
  else some (push3 F e.1 e.2.1 fun d => e.2.2 * dis3 r e.1 e.2.1 * (r d e.2.1 - r d e.1) / dis3 r e.1 e.2.1)

open Classical in
/-- The body of the loop over pairs of nodes (`src/layout.c:1031-1044`). -/
noncomputable def chargeStep3 (n b : ℕ) (r F : Pos) (p : ℕ × ℕ) : Option Pos :=
  if dis3 r p.1 p.2 < cutoff3 n b r ∨ b ≤ 2 then
    if dis3 r p.1 p.2 = 0 then none
    else
      let Fmod := -(1 / (n : ℝ)) / (dis3 r p.1 p.2 * dis3 r p.1 p.2 + epsilon n)
      some (push3 F p.1 p.2 fun d => Fmod * (r d p.2 - r d p.1) / dis3 r p.1 p.2)
  else some F

/-- `CalculateNodeForces3D` (`src/layout.c:908-1052`). -/
noncomputable def CalculateNodeForces3D (net : GP.Net) (r : Pos) (boxes : ℕ → List ℕ) (b : ℕ) : Option Pos := do
  let F ← (springs net).foldlM (springStep3 r) fun _ _ => 0
  (nodePairs boxes (boxPairs3D b)).foldlM (chargeStep3 net.n b r) F

/-- The variables of `MDGraphLayout3D`: coordinates, previous coordinates, boxes. -/
structure MD3 where
  r : Pos
  pr : Pos
  boxes : ℕ → List ℕ
  oldbox : ℕ → ℕ

/-- The number of boxes per row (`src/layout.c:1074-1079`, `1245-1251`) when the caller gives none. Its third power is at most a tenth of
the square of the number of nodes, so it fits in an `int`. -/
noncomputable def boxesPerRow3 (n links : ℕ) : Option ℕ := do
  let sq ← BFS.i32 (n * n)
  if links = 0 then none
  else some (max 1 ⌊((sq : ℝ) / (10 * links)) ^ ((1 : ℝ) / 3)⌋₊)

/-- Placing the nodes one after the other (`src/layout.c:1098-1114`, `1270-1286`). -/
noncomputable def place3 (b : ℕ) (r0 : Pos) : ℕ → Option MD3
  | 0 => some ⟨r0, r0, fun _ => [], fun _ => 0⟩
  | i + 1 => do
    let s ← place3 b r0 i
    let k ← AssignBox3D b (r0 0 i) (r0 1 i) (r0 2 i) 0 1 0 1 0 1
    if 0 ≤ k ∧ k < b * b * b then
      some { s with
        boxes := Function.update s.boxes k.toNat (AddNodeToBox i (s.boxes k.toNat))
        oldbox := Function.update s.oldbox i k.toNat }
    else none

/-- `AssignBox3D` of a node, for the limits of the drawing (`src/layout.c:1120-1122`, `1157-1168`, `1185-1186`). -/
noncomputable def boxOf (n b : ℕ) (r : Pos) (i : ℕ) : Option ℤ :=
  AssignBox3D b (r 0 i) (r 1 i) (r 2 i) (least (10 ^ 50) (r 0) n) (most (-(10 ^ 50)) (r 0) n)
    (least (10 ^ 50) (r 1) n) (most (-(10 ^ 50)) (r 1) n) (least (10 ^ 50) (r 2) n) (most (-(10 ^ 50)) (r 2) n)

/-- The body of the loop that moves nodes to new boxes (`src/layout.c:1183-1192`, `1355-1364`). -/
noncomputable def rebox3 (n b : ℕ) (s : MD3) (i : ℕ) : Option MD3 := do
  let k ← boxOf n b s.r i
  if k ≠ s.oldbox i then
    let l ← RemoveNodeFromBox i (s.boxes (s.oldbox i))
    if 0 ≤ k ∧ k < b * b * b then
      let boxes' := Function.update s.boxes (s.oldbox i) l
      some { s with
        boxes := Function.update boxes' k.toNat (AddNodeToBox i (boxes' k.toNat))
        oldbox := Function.update s.oldbox i k.toNat }
    else none
  else some s

/-- One step of the integration and the kinetic energy `T` (`src/layout.c:1117-1193` with `kz = 0`, since there is no such term;
`1289-1365`). -/
noncomputable def mdStep3 (net : GP.Net) (drag dt : ℝ) (b : ℕ) (kz : ℝ) (s : MD3) : Option (MD3 × ℝ) := do
  let F ← CalculateNodeForces3D net s.r s.boxes b
  if 1 + drag * dt * (1 / 2) = 0 ∨ 2 * dt = 0 then none
  else
    let r' : Pos := fun d i => if i < net.n then
      verlet drag dt (s.r d i) (s.pr d i) (if d = 2 then F d i - kz * (s.r 2 i - 1 / 2) else F d i) else s.r d i
    let T := (List.range net.n).foldl (fun T i =>
      let vx := (r' 0 i - s.pr 0 i) / (2 * dt)
      let vy := (r' 1 i - s.pr 1 i) / (2 * dt)
      let vz := (r' 2 i - s.pr 2 i) / (2 * dt)
      T + (vx * vx + vy * vy + vz * vz) / 2) 0
    let s' ← (List.range net.n).foldlM (rebox3 net.n b) { s with r := r', pr := s.r }
    some (s', T)

open Classical in
/-- The loop over the steps of `MDGraphLayout3D` (`src/layout.c:1117-1208`). -/
noncomputable def mdLoop3 (net : GP.Net) (drag dt : ℝ) (b : ℕ) : ℕ → MD3 → Option MD3
  | 0, s => some s
  | k + 1, s => do
    let r ← mdStep3 net drag dt b 0 s
    if r.2 / net.n < 1 / 100000 then some r.1 else mdLoop3 net drag dt b k r.1

open Classical in
/-- The loop over the steps of `MDGraphLayout2Dp` (`src/layout.c:1289-1387`); `kz` is the strength of the spring in the z direction, `sw`
the variable `kz_sw`. -/
noncomputable def mdLoop2Dp (net : GP.Net) (drag dt : ℝ) (b : ℕ) : ℕ → ℝ → Bool → MD3 → Option MD3
  | 0, _, _, s => some s
  | k + 1, kz, sw, s => do
    let r ← mdStep3 net drag dt b kz s
    let kz' := if sw then kz + dt else kz
    let sw' := sw || decide (r.2 / net.n < 1 / 1000)
    if r.2 / net.n < 1 / 100000 then some r.1 else mdLoop2Dp net drag dt b k kz' sw' r.1

/-- `MDGraphLayout3D` (`src/layout.c:1054-1224`) for a positive number `b` of boxes per row; with `NormalizeCoordinates3D`
(`src/layout.c:280-316`). -/
noncomputable def MDGraphLayout3D (net : GP.Net) (drag dt : ℝ) (nsteps b : ℕ) (r0 : Pos) : Option ((ℕ → ℝ) × (ℕ → ℝ) × (ℕ → ℝ)) := do
  let s ← place3 b r0 net.n
  let s ← mdLoop3 net drag dt b nsteps s
  let x ← NormalizeCoordinate (s.r 0) net.n
  let y ← NormalizeCoordinate (s.r 1) net.n
  let z ← NormalizeCoordinate (s.r 2) net.n
  some (x, y, z)

/-- `MDGraphLayout2Dp` (`src/layout.c:1221-1405`) up to `ArrangeComponents`, for a positive number `b` of boxes per row. -/
noncomputable def flatten2Dp (net : GP.Net) (drag dt : ℝ) (nsteps b : ℕ) (r0 : Pos) : Option ((ℕ → ℝ) × (ℕ → ℝ)) := do
  let s ← place3 b r0 net.n
  let s ← mdLoop2Dp net drag dt b nsteps 0 false s
  NormalizeCoordinates (s.r 0) (s.r 1) net.n

/-- `MDGraphLayout2Dp` (`src/layout.c:1221-1405`) for a network that is connected, so that `ArrangeComponents` does nothing. -/
noncomputable def MDGraphLayout2Dp (net : GP.Net) (drag dt : ℝ) (nsteps b : ℕ) (r0 : Pos) : Option ((ℕ → ℝ) × (ℕ → ℝ)) := do
  let p ← flatten2Dp net drag dt nsteps b r0
  NormalizeCoordinates p.1 p.2 net.n

end LY
