import Verif.Group.Model
import Mathlib.Analysis.Real.Sqrt

/-!
# The matrix of connections between groups (`BlockModel` of `src/modules.c`)

Same conventions as `Verif.Group.Model`; `double` is `ℝ`, an inner `none` is a value that is not
finite, an outer `none` an `int` overflow (undefined behaviour).
-/

namespace GP

open scoped BigOperators

/-- The value of an `int` expression. -/
def int32 (x : Int) : Option Int := if -2147483648 ≤ x ∧ x ≤ 2147483647 then some x else none

open Classical in
/-- Division of two `double`. -/
noncomputable def dv (x y : ℝ) : Option ℝ := if y = 0 then none else some (x / y)

/-- The groups that are not empty, in the order of the list. -/
def bmGroups (m : ℕ) (p : Part) : List ℕ := (List.range m).filter fun g => 0 < (p.grp g).size

/-- The variable `nodes`, src/modules.c:736-740. -/
def bmNodes (m : ℕ) (p : Part) : Int :=
  ∑ g ∈ (Finset.range m).filter (fun g => 0 < (p.grp g).size), (p.grp g).size

/-- The variable `links`, src/modules.c:736-748 (the inner loop starts after `g1`). -/
def bmLinks (net : Net) (m : ℕ) (p : Part) : Int :=
  ∑ g1 ∈ (Finset.range m).filter (fun g => 0 < (p.grp g).size), ((p.grp g1).inlinks +
    ∑ g2 ∈ (Finset.range m).filter (fun g2 => g1 < g2 ∧ 0 < (p.grp g2).size), NG2GLinks net p g1 g2)

/-- The number of connections used by all types but `p`. -/
def bmCount (net : Net) (p : Part) (g1 g2 : ℕ) : Int :=
  if g1 = g2 then (p.grp g1).inlinks else NG2GLinks net p g1 g2

/-- The product of sizes. -/
def bmSizes (p : Part) (g1 g2 : ℕ) : Int :=
  if g1 = g2 then (p.grp g1).size * ((p.grp g1).size - 1) else (p.grp g1).size * (p.grp g2).size

/-- One matrix element, the `switch` of src/modules.c:759-803. A type that is none of the five
leaves `bij` as it was initialised. -/
noncomputable def bmEntry (net : Net) (p : Part) (ty : Char) (links : Int) (prob : Option ℝ)
    (g1 g2 : ℕ) : Option (Option ℝ) :=
  if ty = 'n' then some (some (bmCount net p g1 g2))
  else if ty = 'f' then some (dv (bmCount net p g1 g2) links)
  else if ty = 'p' then
    (int32 (bmSizes p g1 g2)).map fun (d : Int) => dv (NG2GLinks net p g1 g2) d
  else if ty = 'e' then
    (int32 (((p.grp g1).inlinks + (p.grp g1).totlinks) *
      ((p.grp g2).inlinks + (p.grp g2).totlinks))).bind fun (d : Int) =>
    (int32 (4 * links * links)).map fun (l : Int) =>
    (dv (bmCount net p g1 g2) links).bind fun f => (dv d l).map fun x => f - x
  else if ty = 'z' then
    (int32 (bmSizes p g1 g2)).map fun (d : Int) => prob.bind fun pr =>
      dv (bmCount net p g1 g2 - pr * (if g1 = g2 then (d : ℝ) / 2 else (d : ℝ)))
        (Real.sqrt ((if g1 = g2 then (d : ℝ) / 2 else (d : ℝ)) * pr * (1 - pr)))
  else some (some 0)

/-- `BlockModel`, src/modules.c:724-811: the lines printed (two labels plus 1, and the value). -/
noncomputable def BlockModel (net : Net) (m : ℕ) (p : Part) (ty : Char) :
    Option (List (ℕ × ℕ × Option ℝ)) :=
  (int32 (bmNodes m p * (bmNodes m p - 1))).bind fun (nn : Int) =>
  ((bmGroups m p).flatMap fun g1 => (bmGroups m p).map fun g2 => (g1, g2)).mapM fun x =>
    (bmEntry net p ty (bmLinks net m p) (dv (2 * bmLinks net m p) nn) x.1 x.2).map fun b =>
      (x.1 + 1, x.2 + 1, b)

end GP
