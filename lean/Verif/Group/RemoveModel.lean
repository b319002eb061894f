import Verif.Basic.Res
import Mathlib.Logic.Function.Basic

/-!
# Freeing a partition with its hierarchy (`src/modules.c`, `src/graph.c`)

Memory is a function from addresses to blocks; NULL is 0, and an address without block has been freed or was
never allocated. Reading such an address, or freeing it unless it is NULL, is undefined.
-/

namespace GP

open RG

/-- Blocks: `struct group` (src/modules.h:18-36; the pointers only), `struct node_lis` (the pointers to the next
entry and to the label) and the characters of a label. -/
inductive PCell where
  | group (next nodeList offspr : ℕ)
  | lis (next label : ℕ)
  | chars
deriving DecidableEq, Repr

/-- Memory. -/
abbrev PMem := ℕ → Option PCell

/-- `free` of the C library. -/
def pfree (a : ℕ) (h : PMem) : Res PMem :=
  if a = 0 then .ok h
  else match h a with
    | none => .ub
    | some _ => .ok (Function.update h a none)

/-- Reading an entry of a list. -/
def lisAt (a : ℕ) (h : PMem) : Res (ℕ × ℕ) :=
  match h a with
  | some (.lis next label) => .ok (next, label)
  | _ => .ub

/-- Reading a group. -/
def groupAt (a : ℕ) (h : PMem) : Res (ℕ × ℕ × ℕ) :=
  match h a with
  | some (.group next nodeList offspr) => .ok (next, nodeList, offspr)
  | _ => .ub

/-- `if (p != NULL) f(p)`. -/
def unlessNull (f : ℕ → PMem → Res PMem) (p : ℕ) (h : PMem) : Res PMem := if p ≠ 0 then f p h else .ok h

/-- `FreeNodeLis`, src/graph.c:390-396. -/
def FreeNodeLis (p : ℕ) (h : PMem) : Res PMem := do
  let x ← lisAt p h
  let h ← pfree x.2 h
  pfree p h

/-- `FreeAdjacencyList`, src/graph.c:402-409, cut after `fuel` nested calls. -/
def FreeAdjacencyList : (fuel : ℕ) → (p : ℕ) → PMem → Res PMem
  | 0, _, _ => .starved
  | fuel + 1, p, h => do
    let x ← lisAt p h
    let h ← unlessNull (FreeAdjacencyList fuel) x.1 h
    FreeNodeLis p h

/-- `RemovePartition`, src/modules.c:299-312, cut after `fuel` nested calls. The pointers are read again after
each call, as in the code. -/
def RemovePartition : (fuel : ℕ) → (part : ℕ) → PMem → Res PMem
  | 0, _, _ => .starved
  | fuel + 1, part, h => do
    let g ← groupAt part h
    let h ← unlessNull (RemovePartition fuel) g.1 h
    let g ← groupAt part h
    let h ← unlessNull (FreeAdjacencyList fuel) g.2.1 h
    let g ← groupAt part h
    let h ← unlessNull (RemovePartition fuel) g.2.2 h
    pfree part h

end GP
