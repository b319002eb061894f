import Verif.BFS.Model
import Verif.Btw.Spec

/-!
# Link betweenness (`src/graph.c`)

Same conventions as in `Verif.BFS`.  The `btw` field of the link from `i` to `j` is `btw i j` (no repeated links).
-/

namespace BT

open BFS

/-- `CountPredecessors`, src/graph.c:1066-1081: 0 if the first predecessor is the header of the list. -/
def CountPredecessors (e : Entry) : ℕ :=
  match e.pred with
  | none :: _ => 0
  | l => l.length

/-- Local and link betweenness. -/
structure LSt where
  bet : ℕ → ℚ
  btw : ℕ → ℕ → ℚ

/-- `tar->btw += x` for the link from `i` to `j`. -/
def addBtw (btw : ℕ → ℕ → ℚ) (i j : ℕ) (x : ℚ) : ℕ → ℕ → ℚ :=
  fun a b => if a = i ∧ b = j then btw a b + x else btw a b

/-- Body of the loop over the predecessors, src/graph.c:2115-2127. Both searches for the link end in a NULL dereference if it is not
there (`none`), and so does the use of the header as a predecessor. -/
def predStep (adj : ℕ → List ℕ) (e : Entry) (st : LSt) (p : Option ℕ) : Option LSt :=
  match p with
  | none => none
  | some u =>
    let bet := Function.update st.bet u (st.bet u + st.bet e.node / CountPredecessors e)
    if u ∈ adj e.node ∧ e.node ∈ adj u then
      some { bet := bet
             btw := addBtw (addBtw st.btw e.node u (bet e.node / CountPredecessors e)) u e.node (bet e.node / CountPredecessors e) }
    else none

/-- Loop from the end of the list, src/graph.c:2111-2133, until an entry without predecessors; to pass the first entry would dereference
NULL (`none`). -/
def backLoop (adj : ℕ → List ℕ) : List Entry → LSt → Option LSt
  | [], _ => none
  | e :: es, st =>
    if CountPredecessors e ≠ 0 then do
      let st ← e.pred.foldlM (predStep adj e) st
      backLoop adj es st
    else some st

/-- One source, src/graph.c:2089-2136; `ocupacio` is 1 for all nodes. -/
def linkSource (adj : ℕ → List ℕ) (n : ℕ) (btw : ℕ → ℕ → ℚ) (s : ℕ) : Option (ℕ → ℕ → ℚ) := do
  let D ← search adj n s
  let st ← backLoop adj D.q.list.reverse { bet := fun _ => 1, btw := btw }
  return st.btw

/-- `CalculateLinkBetweenness`, src/graph.c:2055-2141: the fields `btw`. -/
def CalculateLinkBetweenness (adj : ℕ → List ℕ) (n : ℕ) : Option (ℕ → ℕ → ℚ) :=
  (List.range n).foldlM (linkSource adj n) (fun _ _ => 0)

/-! ## Specification -/

/-- Share of the shortest paths from `s` to `t` that go along the link from `i` to `j`. -/
noncomputable def linkShare (adj : ℕ → List ℕ) (s t i j : ℕ) : ℚ :=
  ((shortest adj s t).countP fun l => decide ((i, j) ∈ l.zip l.tail) : ℕ) / ((shortest adj s t).length : ℕ)

/-- Betweenness of a link, counted in both directions, over the ordered pairs of nodes. -/
noncomputable def linkBetweenness (adj : ℕ → List ℕ) (n i j : ℕ) : ℚ :=
  ∑ s ∈ Finset.range n, ∑ t ∈ Finset.range n, (linkShare adj s t i j + linkShare adj s t j i)

end BT
