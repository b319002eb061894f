import Verif.Basic.Res
import Mathlib.Data.Nat.Choose.Basic
import Mathlib.Data.Nat.Factorial.Basic
import Mathlib.Analysis.SpecialFunctions.Log.Basic
import Mathlib.Analysis.Real.Sqrt

/-!
# Numeric helpers (`src/tools.c`)

`double` is exact (`ℚ`, or `ℝ` when logarithms or square roots occur).  `none` = undefined
behaviour or abort.
-/

namespace Tools

open RG

/-! ## Means and extrema -/

/-- The accumulation loops of `mean` and `stddev`, src/tools.c:238-239, 256-259. -/
noncomputable def accumulate (f : ℝ → ℝ) (data : List ℝ) : ℝ :=
  data.foldl (fun m x => m + f x) 0

/-- `mean`, src/tools.c:232-242, for an array of exactly `N` values.  `N = 0` gives `0.0/0`
(not a number), modelled as `none`. -/
noncomputable def mean (data : List ℝ) : Option ℝ :=
  if data.length = 0 then none
  else some (accumulate (fun x => x) data / data.length)

open Classical in
/-- `stddev`, src/tools.c:249-269. -/
noncomputable def stddev (data : List ℝ) : Option ℝ :=
  if data.length = 0 then none
  else
    let m := accumulate (fun x => x) data / data.length
    let m2 := accumulate (fun x => x * x) data / data.length
    some (if m2 - m * m > 0 then Real.sqrt (m2 - m * m) else 0)

/-- `max`, src/tools.c:276-287; `data[0]` of an empty array is out of bounds. -/
def cmax : List ℚ → Option ℚ
  | [] => none
  | x :: xs => some (xs.foldl (fun m y => if y > m then y else m) x)

/-- `min`, src/tools.c:294-305. -/
def cmin : List ℚ → Option ℚ
  | [] => none
  | x :: xs => some (xs.foldl (fun m y => if y < m then y else m) x)

/-! ## Factorial and binomial -/

/-- Product of two `long int` (64 bits); overflow (outside
`-2^63 … 2^63-1`) is undefined behaviour. -/
def mul64 (x y : Int) : Res Int :=
  if -9223372036854775808 ≤ x * y ∧ x * y ≤ 9223372036854775807 then .ok (x * y) else .ub

/-- `fact`, src/tools.c:319-326, cut after `fuel` nested calls. -/
def fact : (fuel : ℕ) → Int → Res Int
  | 0, _ => .starved
  | fuel + 1, a =>
    if a = 0 then .ok 1
    else do
      let r ← fact fuel (a - 1)
      mul64 a r

/-- Loop of `Choose`, src/tools.c:346-347: `i` runs from `i0`, `steps` times. -/
def chooseLoop (n k : Int) : (steps : ℕ) → (i : Int) → ℚ → ℚ
  | 0, _, accum => accum
  | steps + 1, i, accum => chooseLoop n k steps (i + 1) (accum * ((n - k + i : Int) / (i : Int)))

/-- `Choose`, src/tools.c:334-350, in exact arithmetic; `int` overflow of `n-k+i` not modelled. -/
def Choose (n k : Int) : Int :=
  if k > n then 0
  else
    let k := if k > n.tdiv 2 then n - k else k
    ⌊chooseLoop n k k.toNat 1 1 + 1 / 2⌋

/-- `LogChoose`, src/tools.c:357-362.  GSL's `gsl_sf_lnchoose(a,b)` is trusted to be
`log (a choose b)`; for `b > a` GSL calls its error handler, which aborts (`none`). -/
noncomputable def LogChoose (a b : ℕ) : Option ℝ :=
  if b ≤ a then some (Real.log (a.choose b)) else none

/-- The memo table of `FastLogChoose`: a square matrix. -/
structure Table where
  size : ℕ
  at' : ℕ → ℕ → ℝ

/-- `InitializeFastLogChoose`, src/tools.c:369-381: every entry `-1.0`. -/
noncomputable def InitializeFastLogChoose (size : ℕ) : Table := { size := size, at' := fun _ _ => -1 }

open Classical in
/-- `FastLogChoose`, src/tools.c:403-416. Arguments are non-negative; a column index outside the
matrix is undefined behaviour. -/
noncomputable def FastLogChoose (r l : ℕ) (t : Table) : Option (ℝ × Table) :=
  if r < t.size then
    if l < t.size then
      if t.at' r l < 0 then do
        let v ← LogChoose r l
        return (v, { t with at' := fun a b => if a = r ∧ b = l then v else t.at' a b })
      else some (t.at' r l, t)
    else none
  else do
    let v ← LogChoose r l
    return (v, t)

/-- A history of queries against one table. -/
noncomputable def queries : Table → List (ℕ × ℕ) → Option (List ℝ × Table)
  | t, [] => some ([], t)
  | t, (r, l) :: qs => do
    let (v, t) ← FastLogChoose r l t
    let (vs, t) ← queries t qs
    return (v :: vs, t)

/-! ## Precomputed vectors -/

/-- `InitializeFastLogFact`, src/tools.c:472-483 (`gsl_sf_lnfact` trusted to be `log i!`). -/
noncomputable def InitializeFastLogFact (size : ℕ) : List ℝ :=
  (List.range size).map fun i : ℕ => Real.log (i.factorial : ℝ)

/-- `FastLogFact`, src/tools.c:506-513, non-negative argument. -/
noncomputable def FastLogFact (r : ℕ) (list : List ℝ) (size : ℕ) : Option ℝ :=
  if r < size then list[r]? else some (Real.log (r.factorial : ℝ))

/-- `InitializeFastLog`, src/tools.c:423-434. Entry 0 is `log 0 = -inf` in C, `none` here. -/
noncomputable def InitializeFastLog (size : ℕ) : List (Option ℝ) :=
  (List.range size).map fun i : ℕ => if i = 0 then none else some (Real.log (i : ℝ))

/-- `FastLog`, src/tools.c:457-464; `none` for `log 0`, non-negative argument. -/
noncomputable def FastLog (r : ℕ) (list : List (Option ℝ)) (size : ℕ) : Option ℝ :=
  if r < size then (list[r]?).join else if r = 0 then none else some (Real.log (r : ℝ))

/-- Loop of `InitializeHarmonicList`, src/tools.c:578-579: appends entries `i, i+1, …`. -/
def harmonicLoop : (steps : ℕ) → (i : ℕ) → (prev : ℚ) → List ℚ
  | 0, _, _ => []
  | steps + 1, i, prev =>
    let v := prev + 1 / (i : ℚ)
    v :: harmonicLoop steps (i + 1) v

/-- `InitializeHarmonicList`, src/tools.c:570-582; with size 0 the write to entry 0 is out of
bounds. -/
def InitializeHarmonicList (size : ℕ) : Option (List ℚ) :=
  if size = 0 then none else some (0 :: harmonicLoop (size - 1) 1 0)

/-! ## Counting lines -/

/-- `fgets(line, 1000, f)` on the remaining characters of a text: at most 999 characters, stopping
after a newline; returns what is left, `none` at the end of the file. `room` is the number of
characters that still fit. -/
def fgetsRest : (room : ℕ) → List Char → List Char
  | 0, s => s
  | _, [] => []
  | room + 1, c :: s => if c = '\n' then s else fgetsRest room s

theorem fgetsRest_length (room : ℕ) (s : List Char) : (fgetsRest room s).length ≤ s.length := by
  induction s generalizing room with
  | nil => cases room <;> simp [fgetsRest]
  | cons c s ih =>
    cases room with
    | zero => simp [fgetsRest]
    | succ r =>
      simp only [fgetsRest]
      split_ifs
      · simp
      · exact (ih r).trans (by simp)

/-- `CountLinesInFile`, src/tools.c:608-621, on the contents of the file (an unreadable file makes
`fgets(NULL)` undefined; not modelled). -/
def CountLinesInFile (s : List Char) : ℕ :=
  match s with
  | [] => 0
  | c :: s => CountLinesInFile (fgetsRest 999 (c :: s)) + 1
termination_by s.length
decreasing_by
  simp only [fgetsRest]
  split_ifs
  · simp
  · have := fgetsRest_length 998 s
    simp only [List.length_cons]; omega

end Tools
