import Verif.Graph.Model

/-!
# Model: removal of isolated nodes (`src/graph.c`)
-/

namespace GR

/-- The nodes that stay in the list, src/graph.c:850-862. -/
def keptNodes (net : Net) : List ℕ := (List.range net.n).filter fun i => (NodeDegree net i).1 ≠ 0

/-- `n->node = n->ref->num`, src/graph.c:1270, after the nodes have been renumbered. Nodes are identified by
their position in the list, so the target of the link gets its new position. If the target was freed (or is
NULL), memory that is not allocated is read (`none`). -/
def renumberLink (kept : List ℕ) (l : Link) : Option Link := do
  let j ← l.ref
  if j ∈ kept then return { l with ref := some (kept.idxOf j) } else none

/-- `RemoveIsolatedNodes`, src/graph.c:843-869, with `RenumberNodes`, src/graph.c:1251-1273: number of nodes
removed, and the network. `NodeDegree` leaves the degree it has counted in the node. -/
def RemoveIsolatedNodes (net : Net) : Option (ℕ × Net) := do
  let rows ← (keptNodes net).mapM fun i => (net.neig i).mapM (renumberLink (keptNodes net))
  return (net.n - (keptNodes net).length,
    { n := (keptNodes net).length
      label := fun k => net.label ((keptNodes net).getD k 0)
      neig := fun k => rows.getD k []
      degree := fun k => (NodeDegree net ((keptNodes net).getD k 0)).1
      strength := fun k => net.strength ((keptNodes net).getD k 0) })

end GR
