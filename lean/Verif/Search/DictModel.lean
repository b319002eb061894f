import Verif.Search.Model
import Verif.Graph.Model
import Mathlib.Data.String.Basic

/-!
# Label dictionaries (`src/graph.c`)

A key of the tree is the address of a `struct node_tree` with the label in it, which never changes. Addresses
are numbers; the `ref` fields are a function of the address. `strcmp` compares bytes, the order of `String`
compares characters; for texts in UTF-8 both are the same.
-/

namespace TS

/-- A tree of `struct node_tree` (src/graph.h:20-25) and their fields `ref`. -/
structure Dict where
  tree : Tree (ℕ × String)
  ref : ℕ → Option ℕ

/-- `NULL`; `CreateNodeTree` (src/graph.c:92-106) sets `ref` to `NULL`. -/
def Dict.empty : Dict := { tree := .nil, ref := fun _ => none }

/-- One round of `MakeLabelDict`, src/graph.c:357-364; the `p`-th tree node has the address `p`. -/
def dictStep (net : GR.Net) (d : Dict) (p : ℕ) : Option Dict := do
  let (k, t) ← tsearch Prod.snd (p, net.label p) d.tree
  return { tree := t, ref := Function.update d.ref k.1 (some p) }

/-- `MakeLabelDict`, src/graph.c:350-367. -/
def MakeLabelDict (net : GR.Net) : Option Dict := (List.range net.n).foldlM (dictStep net) .empty

/-- `GetNodeDict`, src/graph.c:755-771. -/
def GetNodeDict (label : String) (d : Dict) : Option ℕ :=
  match tfind Prod.snd label d.tree with
  | some k => d.ref k.1
  | none => none

/-- State of the readers `FBuildNetwork` (src/graph.c:533-640) and `FBuildNetworkBipart` as far as the
dictionary goes: the labels of the nodes created, in order, and the next free address. -/
structure Reader where
  dict : Dict
  nodes : List String
  next : ℕ

/-- `tsearch` for a label read and the creation of a node if it is new, src/graph.c:574-585: the node. -/
def intern (s : Reader) (label : String) : Option (ℕ × Reader) := do
  let (k, t) ← tsearch Prod.snd (s.next, label) s.dict.tree
  match s.dict.ref k.1 with
  | none => return (s.nodes.length,
      { dict := { tree := t, ref := Function.update s.dict.ref k.1 (some s.nodes.length) }
        nodes := s.nodes ++ [label]
        next := s.next + 1 })
  | some n => return (n, { dict := { tree := t, ref := s.dict.ref }, nodes := s.nodes, next := s.next + 1 })

/-- All labels of a file: the nodes, and the state afterwards. -/
def internAll (s : Reader) : List String → Option (List ℕ × Reader)
  | [] => some ([], s)
  | l :: ls => do
    let (n, s) ← intern s l
    let (ns, s) ← internAll s ls
    return (n :: ns, s)

end TS
