import Mathlib.Analysis.SpecialFunctions.Log.Basic

/-!
# Comparison of partitions (`src/modules.c`)

A partition is the list of its groups. The size of a group is the length of its list (C23).
-/

namespace CP

/-- Largest `int`. -/
def INT_MAX : ℕ := 2147483647

/-- `PartitionSize`, src/modules.c:617-631. -/
def PartitionSize {α : Type} (P : List (List α)) : ℕ := P.foldl (fun s g => s + g.length) 0

/-- First two loops, src/modules.c:1621-1634. -/
noncomputable def entropy {α : Type} (S : ℕ) (P : List (List α)) : ℝ :=
  P.foldl (fun H g => if 0 < g.length then H + (g.length : ℝ) * Real.log ((g.length : ℝ) / S) else H) 0

/-- Overlap of two groups with the `break`, src/modules.c:1651-1662. What is compared is the number of the node
(`label_sw = 0`) or its label (`label_sw = 1`). -/
def overlap {α : Type} [DecidableEq α] (g1 g2 : List α) : ℕ := g1.foldl (fun s x => if g2.any (· == x) then s + 1 else s) 0

/-- What a pair of groups adds to `H12`, src/modules.c:1663-1665; the products are products of `int`s, `none` when one
overflows. -/
noncomputable def jointTerm {α : Type} [DecidableEq α] (S : ℕ) (g1 g2 : List α) : Option ℝ :=
  if 0 < overlap g1 g2 then
    if overlap g1 g2 * S ≤ INT_MAX ∧ g1.length * g2.length ≤ INT_MAX then
      some ((overlap g1 g2 : ℝ) * Real.log (((overlap g1 g2 * S : ℕ) : ℝ) / ((g1.length * g2.length : ℕ) : ℝ)))
    else none
  else some 0

/-- Loop over the pairs of groups, src/modules.c:1639-1669. -/
noncomputable def joint {α : Type} [DecidableEq α] (S : ℕ) (P Q : List (List α)) : Option ℝ :=
  P.foldlM (fun H g1 =>
    if 0 < g1.length then
      Q.foldlM (fun H g2 =>
        if 0 < g2.length then do
          let x ← jointTerm S g1 g2
          some (H + x)
        else some H) H
    else some H) 0

/-- `MutualInformation`, src/modules.c:1603-1677. `none`: overflow, or the division 0/0 (NaN). The size is that of the
first partition; a different size of the second only gives a warning. -/
noncomputable def MutualInformation {α : Type} [DecidableEq α] (P Q : List (List α)) : Option ℝ := do
  let S := PartitionSize P
  let H12 ← joint S P Q
  if entropy S P + entropy S Q = 0 then none
  else some (-2 * H12 / (entropy S P + entropy S Q))

/-! ## `CorrectlyClassified` -/

/-- A group: its label and its nodes. -/
structure Grp where
  label : ℕ
  nodes : List ℕ

/-- Reading an array of `n` integers at an index that may be negative. -/
def get (n : ℕ) (a : ℕ → Int) (i : Int) : Option Int := if 0 ≤ i ∧ i < n then some (a i.toNat) else none

/-- Writing. -/
def set (n : ℕ) (a : ℕ → Int) (i : Int) (x : Int) : Option (ℕ → Int) :=
  if 0 ≤ i ∧ i < n then some (Function.update a i.toNat x) else none

/-- Group of each node in the reference partition, src/modules.c:1719-1726. -/
def refGroups (n : ℕ) (R : List Grp) : Option (ℕ → Int) :=
  R.foldlM (fun a g => g.nodes.foldlM (fun a (v : ℕ) => set n a v g.label) a) fun _ => -1

/-- The three arrays of the mapping loop. -/
structure Maps where
  score : ℕ → Int
  max : ℕ → Int
  map : ℕ → Int

/-- Scores of one group, src/modules.c:1732-1735. -/
def addScores (n : ℕ) (group : ℕ → Int) (nodes : List ℕ) (score : ℕ → Int) : Option (ℕ → Int) :=
  nodes.foldlM (fun s (v : ℕ) => do
    let g ← get n group v
    let x ← get n s g
    set n s g (x + 1)) score

/-- Comparison with one reference group, src/modules.c:1740-1744. -/
def pickStep (n : ℕ) (l : ℕ) (m : Maps) (g1 : Grp) : Option Maps := do
  let x ← get n m.score g1.label
  let y ← get n m.max l
  if y < x then do
    let max ← set n m.max l x
    let map ← set n m.map l g1.label
    let score ← set n m.score g1.label 0
    some (Maps.mk score max map)
  else do
    let score ← set n m.score g1.label 0
    some (Maps.mk score m.max m.map)

/-- The mapping loop, src/modules.c:1730-1746. -/
def mapGroups (n : ℕ) (group : ℕ → Int) (R A : List Grp) : Option Maps :=
  A.foldlM (fun m g2 => do
    let score ← addScores n group g2.nodes m.score
    R.foldlM (pickStep n g2.label) (Maps.mk score m.max m.map)) (Maps.mk (fun _ => 0) (fun _ => 0) fun _ => -1)

/-- One pair of groups mapped to the same group, src/modules.c:1754-1759. -/
def dupStep (n : ℕ) (max : ℕ → Int) (g1 : Grp) (map : ℕ → Int) (g2 : Grp) : Option (ℕ → Int) := do
  let a ← get n map g1.label
  let b ← get n map g2.label
  if a = b then do
    let x ← get n max g1.label
    let y ← get n max g2.label
    if y < x then set n map g2.label (-1) else set n map g1.label (-1)
  else some map

/-- Groups mapped to the same group, src/modules.c:1751-1761. -/
def dropDuplicates (n : ℕ) (max : ℕ → Int) : List Grp → (ℕ → Int) → Option (ℕ → Int)
  | [], map => some map
  | g1 :: gs, map => do
    let map ← gs.foldlM (dupStep n max g1) map
    dropDuplicates n max gs map

/-- Number of nodes of one group that are in the reference group it is mapped to, src/modules.c:1767-1774. -/
def countGroup (n : ℕ) (group map : ℕ → Int) (g2 : Grp) (correct : ℕ) : Option ℕ := do
  let m ← get n map g2.label
  if -1 < m then
    g2.nodes.foldlM (fun c (v : ℕ) => do
      let x ← get n group v
      some (if x = m then c + 1 else c)) correct
  else some correct

/-- `CorrectlyClassified`, src/modules.c:1688-1784. `nnod`, the number of nodes of the reference partition, is increased
in the last loop by the sizes of the groups. `none`: access out of bounds or 0/0. -/
def CorrectlyClassified (R A : List Grp) : Option ℚ := do
  let n := PartitionSize (R.map (·.nodes))
  let group ← refGroups n R
  let m ← mapGroups n group R A
  let map ← dropDuplicates n m.max A m.map
  let correct ← A.foldlM (fun c g2 => countGroup n group map g2 c) 0
  let nnod := A.foldl (fun s g2 => s + g2.nodes.length) n
  if nnod = 0 then none else some ((correct : ℚ) / nnod)

end CP
