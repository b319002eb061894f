import Verif.Btw.LinkModel

/-!
# The link with the largest betweenness (`src/graph.c`)

Same conventions as in `Verif.Btw.LinkModel`.
-/

namespace BT

open BFS

/-- State: values, the link `big` points to (`none`: NULL), and what has been written to `*n1` and `*n2` (`none`: nothing). -/
structure BSt where
  l : LSt
  big : Option (ℕ × ℕ)
  out : Option (ℕ × ℕ)

/-- `tar->btw > big->btw`, or `big` is NULL, src/graph.c:2206. -/
def better (btw : ℕ → ℕ → ℚ) (big : Option (ℕ × ℕ)) (i j : ℕ) : Bool :=
  match big with
  | none => true
  | some (a, b) => decide (btw a b < btw i j)

/-- Body of the loop over the predecessors, src/graph.c:2198-2217. The comparison comes after the first of the two additions; it
is made for the link from the node to its predecessor only. -/
def bigPred (adj : ℕ → List ℕ) (e : Entry) (st : BSt) (p : Option ℕ) : Option BSt :=
  match p with
  | none => none
  | some u =>
    let bet := Function.update st.l.bet u (st.l.bet u + st.l.bet e.node / CountPredecessors e)
    if u ∈ adj e.node ∧ e.node ∈ adj u then
      let x := bet e.node / CountPredecessors e
      let btw := addBtw st.l.btw e.node u x
      let c := better btw st.big e.node u
      some { l := { bet := bet, btw := addBtw btw u e.node x }
             big := if c then some (e.node, u) else st.big
             out := if c then some (u, e.node) else st.out }
    else none

/-- Loop from the end of the list, src/graph.c:2194-2221. -/
def bigBack (adj : ℕ → List ℕ) : List Entry → BSt → Option BSt
  | [], _ => none
  | e :: es, st =>
    if CountPredecessors e ≠ 0 then do
      let st ← e.pred.foldlM (bigPred adj e) st
      bigBack adj es st
    else some st

/-- One source, src/graph.c:2171-2224. -/
def bigSource (adj : ℕ → List ℕ) (n : ℕ) (st : BSt) (s : ℕ) : Option BSt := do
  let D ← search adj n s
  bigBack adj D.q.list.reverse { st with l := { bet := fun _ => 1, btw := st.l.btw } }

/-- First value of `big`, src/graph.c:2181. -/
def firstLink (adj : ℕ → List ℕ) : Option (ℕ × ℕ) := (adj 0).head?.map fun v => (0, v)

/-- `CalculateBiggestLinkBetweenness`, src/graph.c:2147-2229: the fields `btw` and what is written to `*n1` and `*n2`. Without nodes
`root->next` is NULL and is dereferenced. -/
def CalculateBiggestLinkBetweenness (adj : ℕ → List ℕ) (n : ℕ) : Option ((ℕ → ℕ → ℚ) × Option (ℕ × ℕ)) :=
  if n = 0 then none else do
    let st ← (List.range n).foldlM (bigSource adj n)
      { l := { bet := fun _ => 1, btw := fun _ _ => 0 }, big := firstLink adj, out := none }
    return (st.l.btw, st.out)

end BT
