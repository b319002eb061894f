import Verif.CSR.Model
import Verif.NC.Spec

/-! # Specification vocabulary for edge lists -/

namespace NC

/-- What node `i` should see in the edge list: opposite end and weight of every incident edge, in
input order (weights divided by `W`). -/
def incident (W : ℚ) (i : ℕ) : List Edge → List (ℕ × ℚ)
  | [] => []
  | e :: es =>
    if e.u = i then (e.v, e.w / W) :: incident W i es
    else if e.v = i then (e.u, e.w / W) :: incident W i es
    else incident W i es

/-- The weight matrix of an edge list: total (scaled) weight of the edges joining `i` and `j`. -/
def weightMatrix (W : ℚ) (edges : List Edge) (i j : ℕ) : ℚ :=
  (edges.map (fun e => if (e.u = i ∧ e.v = j) ∨ (e.u = j ∧ e.v = i) then e.w / W else 0)).sum

/-- Total weight of an edge list. -/
def totalWeight (edges : List Edge) : ℚ := (edges.map (fun e => e.w)).sum

/-- End points in range and no self loop. -/
def LoopFree (N : ℕ) (edges : List Edge) : Prop := ∀ e ∈ edges, e.u < N ∧ e.v < N ∧ e.u ≠ e.v

/-- No unordered pair of nodes is listed twice. -/
def NoDuplicates (edges : List Edge) : Prop :=
  edges.Pairwise (fun e f => ¬ (e.u = f.u ∧ e.v = f.v) ∧ ¬ (e.u = f.v ∧ e.v = f.u))

/-- The contents of row `i` of an adjacency array. -/
def rowOf (a : Adj) (i : ℕ) : List (ℕ × ℚ) :=
  (List.range' (a.idx i) (a.idx (i + 1) - a.idx i)).map (fun s => (a.neighbors s, a.strength s))

end NC
