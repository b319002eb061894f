import Verif.Programs.Model
import Verif.Layout.SpaceModel
import Verif.Layout.ArrangeModel

/-!
# The programs that draw networks (`utils/main_netlayout.c`, `utils/main_multinetlayout.c`)

Conventions as in `Verif.Programs.Model` and `Verif.Layout.Model`: coordinates are real numbers, and a division by zero ends the run as
undefined (the program prints `nan` or converts NaN to `int`). The lines of progress are left out; `MDGraphLayout` prints them to the
standard error, `MDGraphLayout3D` and `MDGraphLayout2Dp` to the standard output, before the lines with the coordinates
(`src/layout.c:1081`, `1191`, `1253`, `1363`). `atoi` and `atof` are arguments.
-/

namespace PG

open RG
open GR (targets TotalNLinks AddTwoNetworks)

/-- `k` random numbers. -/
def draws : ℕ → Tape → Res (List ℚ × Tape)
  | 0, t => .ok ([], t)
  | k + 1, t => do
    let (u, t) ← draw t
    let (l, t) ← draws k t
    return (u :: l, t)

/-- First place of node `i` in direction `d`, when `k` numbers are drawn for each node (`src/layout.c:631-632`, `1102-1104`,
`1274-1276`). -/
noncomputable def coord (k : ℕ) (l : List ℚ) (d i : ℕ) : ℝ := ((l.getD (k * i + d) 0 : ℚ) : ℝ)

/-- The end of `MDGraphLayout` and of `MDGraphLayout2Dp` (`src/layout.c:720-723`, `1386-1389`). -/
noncomputable def finish (net : GR.Net) (jx jy x y : ℕ → ℝ) (t : Tape) : Res ((ℕ → ℝ) × (ℕ → ℝ)) := do
  let p ← Res.ofOption (LY.NormalizeCoordinates x y net.n)
  let (x, y, _) ← LY.ArrangeComponents (targets net) net.n jx jy p.1 p.2 t
  Res.ofOption (LY.NormalizeCoordinates x y net.n)

/-- `MDGraphLayout(net, drag, dt, nsteps, gen, 0)` for any network, `src/layout.c:586-735`. -/
noncomputable def layout2D (net : GR.Net) (drag dt : ℝ) (nsteps : ℕ) (jx jy : ℕ → ℝ) (t : Tape) : Res ((ℕ → ℝ) × (ℕ → ℝ)) := do
  let b ← Res.ofOption (LY.boxesPerRow net.n (TotalNLinks net true).1)
  let (l, t) ← draws (2 * net.n) t
  let s ← Res.ofOption (LY.place b (coord 2 l 0) (coord 2 l 1) net.n)
  let s ← Res.ofOption (LY.mdLoop (toNet net) drag dt b nsteps s)
  finish net jx jy s.x s.y t

/-- `MDGraphLayout2Dp(net, drag, dt, nsteps, gen, 0)` for any network, `src/layout.c:1221-1405`. -/
noncomputable def layout2Dp (net : GR.Net) (drag dt : ℝ) (nsteps : ℕ) (jx jy : ℕ → ℝ) (t : Tape) : Res ((ℕ → ℝ) × (ℕ → ℝ)) := do
  let b ← Res.ofOption (LY.boxesPerRow3 net.n (TotalNLinks net true).1)
  let (l, t) ← draws (3 * net.n) t
  let s ← Res.ofOption (LY.place3 b (fun d => coord 3 l d) net.n)
  let s ← Res.ofOption (LY.mdLoop2Dp (toNet net) drag dt b nsteps 0 false s)
  finish net jx jy (s.r 0) (s.r 1) t

/-- `MDGraphLayout3D(net, drag, dt, nsteps, gen, 0)`, `src/layout.c:1054-1224`. -/
noncomputable def layout3D (net : GR.Net) (drag dt : ℝ) (nsteps : ℕ) (t : Tape) : Res ((ℕ → ℝ) × (ℕ → ℝ) × (ℕ → ℝ)) := do
  let b ← Res.ofOption (LY.boxesPerRow3 net.n (TotalNLinks net true).1)
  let (l, _) ← draws (3 * net.n) t
  Res.ofOption (LY.MDGraphLayout3D (toNet net) drag dt nsteps b fun d => coord 3 l d)

/-- `PrintNodeCoordinates`, `src/layout.c:71-78`: label, x and y; there is no z. -/
def PrintNodeCoordinates (net : GR.Net) (x y : ℕ → ℝ) : List (String × ℝ × ℝ) :=
  (List.range net.n).map fun i => (net.label i, x i, y i)

/-- `step` and `damp`: 0.05 if the argument is negative (`utils/main_netlayout.c:36-42`). -/
noncomputable def orDefault (v : ℚ) : ℝ := if v < 0 then 1 / 20 else (v : ℝ)

/-- `main` of `netlayout`, `utils/main_netlayout.c:10-91`: the lines with coordinates. The length of the step must not be 0 (then the kinetic
energy, which ends the loop, is 0/0): no statement is made about this case. -/
noncomputable def netlayout (atoi : String → Int) (atof : String → ℚ) (jx jy : ℕ → ℝ) (files : String → Option (List Char))
    (argv : List String) (t : Tape) : Res (Option (List (String × ℝ × ℝ))) :=
  match argv with
  | f :: _ :: step :: nsteps :: damp :: method :: _ => do
    let net ← UT.load files f
    let net := (TotalNLinks net true).2
    if atof step = 0 then .starved
    else if atoi method = 3 then do
      let p ← layout3D net (orDefault (atof damp)) (orDefault (atof step)) (atoi nsteps).toNat t
      return some (PrintNodeCoordinates net p.1 p.2.1)
    else if atoi method = 2 then do
      let p ← layout2Dp net (orDefault (atof damp)) (orDefault (atof step)) (atoi nsteps).toNat jx jy t
      return some (PrintNodeCoordinates net p.1 p.2)
    else do
      let p ← layout2D net (orDefault (atof damp)) (orDefault (atof step)) (atoi nsteps).toNat jx jy t
      return some (PrintNodeCoordinates net p.1 p.2)
  | _ => .ok none

/-- The networks of all files, `utils/main_multinetlayout.c:41-46`. -/
def loadAll (files : String → Option (List Char)) : List String → Res (List GR.Net)
  | [] => .ok []
  | f :: fs => do
    let net ← UT.load files f
    let nets ← loadAll files fs
    return net :: nets

/-- `main` of `multinetlayout`, `utils/main_multinetlayout.c:10-75`. -/
noncomputable def multinetlayout (jx jy : ℕ → ℝ) (files : String → Option (List Char)) (argv : List String) (t : Tape) :
    Res (Option (List (String × ℝ × ℝ))) :=
  match argv with
  | f :: g :: more => do
    let nets ← loadAll files (f :: g :: more)
    match nets with
    | [] => .ub
    | net :: nets => do
      let sum ← Res.ofOption (nets.foldlM AddTwoNetworks net)
      let p ← layout2D sum (1 / 20) (1 / 20) 100000 jx jy t
      return some (PrintNodeCoordinates sum p.1 p.2)
  | _ => .ok none

end PG
