import Mathlib.Logic.Function.Basic
import Mathlib.Data.Rat.Defs
import Mathlib.Algebra.Field.Rat

/-!
# Node betweenness (`src/graph.c`)

As in `Verif.BFS`, a network is `n` nodes `0 … n-1` and `adj i`, the targets of the adjacency list of node `i` in order.
The stack, the queue and the queues of predecessors are lists (their functions are the topic of C38); memory is not modelled.
-/

namespace BT

/-- Variables of one search (src/graph.c:2247-2256): queue, stack (top first), predecessors, `sigma`, `d`. -/
structure St where
  Q : List ℕ
  S : List ℕ
  P : ℕ → List ℕ
  sigma : ℕ → ℕ
  d : ℕ → ℤ

/-- State before the loop, src/graph.c:2269-2285. -/
def St.init (s : ℕ) : St :=
  { Q := [s], S := [], P := fun _ => []
    sigma := Function.update (fun _ => 0) s 1
    d := Function.update (fun _ => -1) s 0 }

/-- First test of the body, src/graph.c:2291-2295. -/
def discover (v : ℕ) (st : St) (w : ℕ) : St :=
  if st.d w < 0 then { st with Q := st.Q ++ [w], d := Function.update st.d w (st.d v + 1) } else st

/-- Second test of the body, src/graph.c:2296-2300. -/
def count (v : ℕ) (st : St) (w : ℕ) : St :=
  if st.d w = st.d v + 1 then
    { st with sigma := Function.update st.sigma w (st.sigma w + st.sigma v), P := Function.update st.P w (st.P w ++ [v]) }
  else st

/-- Body of the loop over the neighbours, src/graph.c:2289-2301, with unbounded `sigma`. -/
def visit (v : ℕ) (st : St) (w : ℕ) : St := count v (discover v st w) w

/-- Largest `int`. -/
def INT_MAX : ℕ := 2147483647

/-- The same with `int` cells: overflow is undefined (`none`). -/
def visitC (v : ℕ) (st : St) (w : ℕ) : Option St :=
  if (visit v st w).sigma w ≤ INT_MAX then some (visit v st w) else none

/-- The search, src/graph.c:2286-2302; `none`: undefined, or not finished after `fuel` rounds. -/
def searchLoop (adj : ℕ → List ℕ) : (fuel : ℕ) → St → Option St
  | 0, _ => none
  | fuel + 1, st =>
    match st.Q with
    | [] => some st
    | v :: q => do
      let st ← (adj v).foldlM (visitC v) { st with Q := q, S := v :: st.S }
      searchLoop adj fuel st

/-- One round of the second loop, src/graph.c:2305-2313: `delta` and the betweenness (`dvar1`). -/
def unwindStep (s : ℕ) (st : St) (db : (ℕ → ℚ) × (ℕ → ℚ)) (w : ℕ) : (ℕ → ℚ) × (ℕ → ℚ) :=
  let delta := (st.P w).foldl
    (fun (delta : ℕ → ℚ) (v : ℕ) => Function.update delta v (delta v + (1 + delta w) * st.sigma v / st.sigma w)) db.1
  (delta, if w ≠ s then Function.update db.2 w (db.2 w + delta w) else db.2)

/-- Contribution of one source, src/graph.c:2264-2326. The search takes at most one round for each node and one more. -/
def source (adj : ℕ → List ℕ) (n : ℕ) (btw : ℕ → ℚ) (s : ℕ) : Option (ℕ → ℚ) := do
  let st ← searchLoop adj (n + 1) (St.init s)
  return (st.S.foldl (unwindStep s st) (fun _ => 0, btw)).2

/-- `CalculateNodeBetweenness`, src/graph.c:2246-2328: the fields `dvar1`. -/
def CalculateNodeBetweenness (adj : ℕ → List ℕ) (n : ℕ) : Option (ℕ → ℚ) :=
  (List.range n).foldlM (source adj n) (fun _ => 0)

end BT
