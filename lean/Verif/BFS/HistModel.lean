import Verif.BFS.Model

/-!
# Model: printed distributions of distances (`src/graph.c`)

`double` is exact. The progress lines on the standard output (src/graph.c:1512) are left out.
-/

namespace BFS

/-- What goes to the file: the lines with two numbers, and the numbers after `#Average distance`,
`#Normalization` and `#z`. -/
structure HistFile where
  lines : List (ℕ × ℚ)
  average : ℚ
  norm : ℚ
  z : ℚ

/-- `FPrintDistanceHistogram`, src/graph.c:1483-1545 (the loop over nodes, 1506-1533, is that of
`AverageInverseDistance`); `none`: a cell outside `histogram` is written. -/
def FPrintDistanceHistogram (adj : ℕ → List ℕ) (n : ℕ) : Option HistFile := do
  let h ← inverseLoop adj n (List.range n) (fun _ => 0)
  return {
    lines := ((List.range 10000).filter fun i => h i ≠ 0).map fun i => (i, h i / ((n : ℚ) - 1))
    average := ∑ i ∈ Finset.range 10000, if h i ≠ 0 then (i : ℚ) * h i / ((n : ℚ) - 1) else 0
    norm := ∑ i ∈ Finset.range 10000, if h i ≠ 0 then h i / ((n : ℚ) - 1) else 0
    z := h 1 }

/-- The loop over nodes of `FPrintDistanceHistogramFromNode`, src/graph.c:1571-1592: only the node
with number `ori` is searched from, and whole numbers are added to the cells. -/
def fromNodeLoop (adj : ℕ → List ℕ) (n ori : ℕ) : List ℕ → (ℕ → ℚ) → Option (ℕ → ℚ)
  | [], h => some h
  | p :: ps, h =>
    if p = ori then do
      let D ← search adj n p
      let h' ← fillHist 1 1 D.rounds h
      fromNodeLoop adj n ori ps h'
    else fromNodeLoop adj n ori ps h

/-- `FPrintDistanceHistogramFromNode`, src/graph.c:1550-1608: the numbers after `#Average distance` and
`#z`. -/
def FPrintDistanceHistogramFromNode (adj : ℕ → List ℕ) (n ori : ℕ) : Option (ℚ × ℚ) := do
  let h ← fromNodeLoop adj n ori (List.range n) (fun _ => 0)
  return (∑ i ∈ Finset.range 10000, if h i ≠ 0 then (i : ℚ) * h i / ((n : ℚ) - 1) else 0, h 1)

end BFS
