import Verif.Layout.Model
import Verif.BFS.Model
import Verif.Group.SAModel

/-!
Model of `ArrangeComponents` (`src/layout.c:116-241`): the components of a drawing are moved as rigid
circles.  The arrays `xce` and `yce` come from `malloc` (`allocate_d_vec`, `src/tools.c:95-106`) and
are increased without having been set; what they hold before is the argument `jx`, `jy`.
-/

namespace LY
open RG

/-- The circle of each component: centre, radius, and the total displacement. -/
structure Circles where
  xce : ℕ → ℝ
  yce : ℕ → ℝ
  rad : ℕ → ℝ
  dxtot : ℕ → ℝ
  dytot : ℕ → ℝ

/-- The centre of a component: the sum of the coordinates is added to what the array holds
(`src/layout.c:155-163`). -/
noncomputable def centre (j : ℝ) (x : ℕ → ℝ) (g : List ℕ) : ℝ :=
  g.foldl (fun c v => c + x v) j / (g.length : ℝ)

open Classical in
/-- The radius of a component (`src/layout.c:172-185`). -/
noncomputable def radius (cx cy : ℝ) (x y : ℕ → ℝ) (g : List ℕ) : ℝ :=
  g.foldl (fun r v =>
    let d := Real.sqrt ((cx - x v) * (cx - x v) + (cy - y v) * (cy - y v))
    if d > r then d else r) 0 * (102 / 100)

/-- The circles (`src/layout.c:147-186`). -/
noncomputable def circles (jx jy x y : ℕ → ℝ) (groups : List (List ℕ)) : Circles :=
  { xce := fun g => centre (jx g) x (groups.getD g [])
    yce := fun g => centre (jy g) y (groups.getD g [])
    rad := fun g => radius (centre (jx g) x (groups.getD g [])) (centre (jy g) y (groups.getD g []))
      x y (groups.getD g [])
    dxtot := fun _ => 0
    dytot := fun _ => 0 }

/-- The first of the largest components (`src/layout.c:165-170`): `maxsize` and the index. -/
def largest (groups : List (List ℕ)) : ℕ × ℕ :=
  (List.range groups.length).foldl (fun m g =>
    if (groups.getD g []).length > m.1 then ((groups.getD g []).length, g) else m) (0, 0)

open Classical in
/-- `CircleDistance` (`src/layout.c:86-111`). -/
noncomputable def CircleDistance (target : ℕ) (xtot ytot : ℝ) (xce yce rad : ℕ → ℝ) (N : ℕ) : ℝ :=
  let dis := Real.sqrt ((xce target - xtot) * (xce target - xtot) +
    (yce target - ytot) * (yce target - ytot))
  (List.range N).foldl (fun dis i =>
    if i ≠ target then
      let overlap := rad target + rad i - Real.sqrt ((xce target - xce i) * (xce target - xce i) +
        (yce target - yce i) * (yce target - yce i))
      if overlap > 0 then dis + 10 ^ 5 * overlap else dis
    else dis) dis

open Classical in
/-- One attempt to move a circle (`src/layout.c:193-219`). -/
noncomputable def attempt (N : ℕ) (xtot ytot width : ℝ) (s : Circles × Tape) : Res (Circles × Tape) := do
  let (c, t) := s
  let (target, t) ← pick N t
  if target < N then
    let disi := CircleDistance target xtot ytot c.xce c.yce c.rad N
    let (u, t) ← draw t
    let (v, t) ← draw t
    let dx := width * 2 * ((u : ℝ) - 1 / 2)
    let dy := width * 2 * ((v : ℝ) - 1 / 2)
    let xce := Function.update c.xce target (c.xce target + dx)
    let yce := Function.update c.yce target (c.yce target + dy)
    let disf := CircleDistance target xtot ytot xce yce c.rad N
    if disf > disi then
      .ok ({ c with xce := Function.update xce target (xce target - dx)
                    yce := Function.update yce target (yce target - dy) }, t)
    else
      .ok ({ c with xce := xce
                    yce := yce
                    dxtot := Function.update c.dxtot target (c.dxtot target + dx)
                    dytot := Function.update c.dytot target (c.dytot target + dy) }, t)
  else .ub

open Classical in
/-- `while (width > 1.0e-2)` (`src/layout.c:189-223`); not finished if the fuel does not suffice. -/
noncomputable def shrink (N : ℕ) (xtot ytot : ℝ) : ℕ → ℝ → Circles × Tape → Res (Circles × Tape)
  | 0, _, _ => .starved
  | fuel + 1, width, s =>
    if width > 1 / 100 then do
      let s ← GP.iter (attempt N xtot ytot width) (100 * N) s
      shrink N xtot ytot fuel (width * (9 / 10)) s
    else .ok s

/-- `ArrangeComponents` (`src/layout.c:116-241`).  `p->coorX += dxtot[cp->inGroup]` needs every node
in a group.  The loop over widths ends after 44 rounds. -/
noncomputable def ArrangeComponents (adj : ℕ → List ℕ) (n : ℕ) (jx jy x y : ℕ → ℝ) (t : Tape) :
    Res ((ℕ → ℝ) × (ℕ → ℝ) × Tape) := do
  let conn ← Res.ofOption (BFS.IsGraphConnected adj n)
  if conn = 0 then
    let p ← Res.ofOption (BFS.ClustersPartition adj n)
    let N := (p.groups.filter fun g => 0 < g.length).length
    if N < p.groups.length then .ub
    else
      let c := circles jx jy x y p.groups
      let m := (largest p.groups).2
      let (c, t) ← shrink N (c.xce m) (c.yce m) 45 1 (c, t)
      if ∀ i ∈ List.range n, ∃ g, p.inGroup i = some g ∧ g < N then
        .ok (fun i => if i < n then x i + c.dxtot ((p.inGroup i).getD 0) else x i,
             fun i => if i < n then y i + c.dytot ((p.inGroup i).getD 0) else y i, t)
      else .ub
  else .ok (x, y, t)

end LY
