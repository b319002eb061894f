import Verif.BFS.Model

/-!
# Model: strongly connected sets (`src/graph.c`)

`AreConnectedList` is run on a copy of the network with the same numbers (see C44), so that the
`state` fields of the network itself are not touched by it.
-/

namespace BFS

/-- The loop over the entries after `lp` (src/graph.c:2558-2568, 2647-2663, 2924-2940): an entry whose
node does not reach the set found so far is unlinked from the list (`DequeueOne`, src/graph.c:1142-1174,
which also corrects `header->last`), the others are added to the set.  The `state` of an unlinked node
stays 1.  Result: the entries left and `this_net`. -/
def prune (adj : ℕ → List ℕ) (n : ℕ) : List Entry → (ℕ → Bool) → Option (List Entry × (ℕ → Bool))
  | [], this => some ([], this)
  | e :: es, this => do
    let c ← AreConnectedList adj n e.node this
    if c then do
      let (kept, this') ← prune adj n es (Function.update this e.node true)
      return (e :: kept, this')
    else prune adj n es this

/-- The loop `do … while (*size != size_ant)` of the three functions below (src/graph.c:2554-2570,
2643-2665, 2918-2942).  Result: the nodes in the list at the end, in order; these are the nodes put in
the set. -/
def strongGrow (adj : ℕ → List ℕ) (n : ℕ) :
    (fuel : ℕ) → (d lp : ℕ) → Q → (this : ℕ → Bool) → Option (List ℕ)
  | 0, _, _, _, _ => none
  | fuel + 1, d, lp, q, this => do
    let (lp', q') ← RenewQueue adj d (n + 1) lp q
    let (kept, this') ← prune adj n (q'.list.drop lp') this
    let q'' : Q := { q' with list := q'.list.take lp' ++ kept }
    if q''.list.length ≠ q.list.length then strongGrow adj n fuel (d + 1) lp' q'' this'
    else return q''.list.map Entry.node

/-- One turn of the outer loops, from node `p` (src/graph.c:2546-2570, 2629-2665, 2903-2942). -/
def strongSet (adj : ℕ → List ℕ) (n p : ℕ) : Option (List ℕ) :=
  strongGrow adj n (n + 1) 0 0 (Enqueue p none 0 0 Q.empty) fun v => v == p

/-- The outer loop of `CountStronglyConnectedSets` (src/graph.c:2540-2577) and of
`GetAllConnectedSets` (src/graph.c:2895-2952): the sets found, in order. -/
def strongSets (adj : ℕ → List ℕ) (n : ℕ) :
    (fuel : ℕ) → (selected : ℕ → Bool) → (anod : ℕ) → (sets : List (List ℕ)) → Option (List (List ℕ))
  | 0, _, _, _ => none
  | fuel + 1, selected, anod, sets => do
    let p ← firstUnselected selected n
    let S ← strongSet adj n p
    if anod + S.length < n then
      strongSets adj n fuel (fun v => selected v || S.contains v) (anod + S.length) (sets ++ [S])
    else return sets ++ [S]

/-- `CountStronglyConnectedSets`, src/graph.c:2513-2585. -/
def CountStronglyConnectedSets (adj : ℕ → List ℕ) (n : ℕ) : Option ℕ := do
  let sets ← strongSets adj n (n + 1) (fun _ => false) 0 []
  return sets.length

/-- The outer loop of `GetLargestStronglyConnectedSet`, src/graph.c:2621-2685; `best` are the nodes of
`giant`. -/
def strongLoop (adj : ℕ → List ℕ) (n : ℕ) (thres : Int) :
    (fuel : ℕ) → (selected : ℕ → Bool) → (anod : ℕ) → (best : List ℕ) → Option (List ℕ)
  | 0, _, _, _ => none
  | fuel + 1, selected, anod, best => do
    let p ← firstUnselected selected n
    let S ← strongSet adj n p
    let best' := if best.length < S.length then S else best
    if best.length < S.length ∧ (n / 2 < S.length ∨ thres < S.length) then return best'
    else if anod + S.length < n then
      strongLoop adj n thres fuel (fun v => selected v || S.contains v) (anod + S.length) best'
    else return best'

/-- `GetLargestStronglyConnectedSet`, src/graph.c:2592-2693: the nodes (numbers in the original
network) of the network returned, in order. -/
def GetLargestStronglyConnectedSet (adj : ℕ → List ℕ) (n : ℕ) (thres : Int) : Option (List ℕ) :=
  strongLoop adj n thres (n + 1) (fun _ => false) 0 []

end BFS
