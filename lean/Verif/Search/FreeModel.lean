import Verif.Basic.Res
import Verif.Search.Model
import Mathlib.Logic.Function.Basic

/-!
# Freeing a dictionary of labels (`src/graph.c`)

Memory is a function from addresses to blocks; NULL is 0, and an address without block has been freed or was
never allocated. Reading such an address, or freeing it unless it is NULL, is undefined.
-/

namespace TS

open RG

/-- Blocks: `struct node_t` (declared in src/graph.c:481-489 as a copy of the one private to the library),
`struct node_tree` (src/graph.h:56-59; only the pointer to the label) and the characters of a label. -/
inductive DCell where
  | node (key left right : ℕ)
  | leaf (label : ℕ)
  | chars
deriving DecidableEq, Repr

/-- Memory. -/
abbrev DMem := ℕ → Option DCell

/-- `free` of the C library. -/
def cfree (a : ℕ) (h : DMem) : Res DMem :=
  if a = 0 then .ok h
  else match h a with
    | none => .ub
    | some _ => .ok (Function.update h a none)

/-- `FreeNodeTree`, src/graph.c:379-385. -/
def FreeNodeTree (a : ℕ) (h : DMem) : Res DMem :=
  match h a with
  | some (.leaf label) => do
    let h ← cfree label h
    cfree a h
  | _ => .ub

/-- `FreeLabelDict`, src/graph.c:498-510, cut after `fuel` nested calls. (`free_node_tree`, src/io.c:31-42,
differs in freeing the leaf without label.) -/
def FreeLabelDict : (fuel : ℕ) → (dict : ℕ) → DMem → Res DMem
  | 0, _, _ => .starved
  | fuel + 1, dict, h =>
    if dict = 0 then .ok h
    else match h dict with
      | some (.node key left right) => do
        let h ← FreeLabelDict fuel left h
        let h ← FreeLabelDict fuel right h
        let h ← FreeNodeTree key h
        cfree dict h
      | _ => .ub

/-- Addresses of the three blocks of an entry of the dictionary. -/
structure Entry where
  node : ℕ
  leaf : ℕ
  label : ℕ
deriving DecidableEq, Repr

/-- Address of the root. -/
def Tree.addr : Tree Entry → ℕ
  | .nil => 0
  | .node _ _ k _ => k.node

/-- All blocks of a dictionary. -/
def Tree.blocks : Tree Entry → List ℕ
  | .nil => []
  | .node _ l k r => k.node :: k.leaf :: k.label :: (l.blocks ++ r.blocks)

/-- The tree as the library has it in memory. `tag = false`: lib/search.c:122-130, which has the colour in a
field after the three pointers. `tag = true`: recent versions of the GNU C library
(misc/tsearch.c with `USE_MALLOC_LOW_BIT`; not part of the repository, and taken on trust here), which have
the colour in the lowest bit of the left pointer. -/
def Tree.Stored (tag : Bool) (h : DMem) : Tree Entry → Prop
  | .nil => True
  | .node c l k r => h k.node = some (.node k.leaf (if tag && c then l.addr + 1 else l.addr) r.addr) ∧
      h k.leaf = some (.leaf k.label) ∧ h k.label = some .chars ∧ l.Stored tag h ∧ r.Stored tag h

/-- Some node is red. -/
def Tree.hasRed : Tree Entry → Bool
  | .nil => false
  | .node c l _ r => c || l.hasRed || r.hasRed

end TS
