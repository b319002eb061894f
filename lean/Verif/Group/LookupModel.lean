import Verif.Group.Model

/-!
# Lists of groups as cells in memory, and lookups (`src/modules.c`, `src/graph.c`)

Memory is a function from addresses to cells; address 0 is NULL and holds nothing, and neither does an
address that has been freed.  Reading such an address is undefined (`ub`).  Loops over `next` get a
bound on the number of turns (`starved` when it is used up).
-/

namespace GP

open RG

/-- The fields `label`, `size` and `next` of `struct group` (src/modules.h:13-34). The list of nodes is
left out. -/
structure GCell where
  label : Int
  size : Int
  next : ℕ
deriving DecidableEq, Repr

/-- Memory holding groups. -/
abbrev GMem := ℕ → Option GCell

/-- `CompressPart`, src/modules.c:573-594, from `g1` on. `FreeNodeLis` frees the list of nodes, which is
not modelled. -/
def CompressCells : (fuel : ℕ) → (g1 : ℕ) → GMem → Res GMem
  | 0, _, _ => .starved
  | fuel + 1, g1, h =>
    match h g1 with
    | none => .ub
    | some c =>
      if c.next = 0 then .ok h
      else
        match h c.next with
        | none => .ub
        | some d =>
          if d.size = 0 then
            CompressCells fuel g1
              (Function.update (Function.update h g1 (some { c with next := d.next })) c.next none)
          else CompressCells fuel c.next h

/-- `GetGroup`, src/modules.c:602-612; NULL is 0. -/
def GetGroup (label : Int) : (fuel : ℕ) → (g : ℕ) → GMem → Res ℕ
  | 0, _, _ => .starved
  | fuel + 1, g, h =>
    match h g with
    | none => .ub
    | some c =>
      if c.next = 0 then .ok 0
      else
        match h c.next with
        | none => .ub
        | some d => if d.label = label then .ok c.next else GetGroup label fuel c.next h

/-- `NGroups`, src/modules.c:620-629; `ngroup` is the number counted so far. -/
def NGroups : (fuel : ℕ) → (part : ℕ) → (ngroup : ℕ) → GMem → Res ℕ
  | 0, _, _, _ => .starved
  | fuel + 1, part, ngroup, h =>
    match h part with
    | none => .ub
    | some c => if c.next = 0 then .ok ngroup else NGroups fuel c.next (ngroup + 1) h

/-- `NNonEmptyGroups`, src/modules.c:637-647. -/
def NNonEmptyCells : (fuel : ℕ) → (part : ℕ) → (ngroup : ℕ) → GMem → Res ℕ
  | 0, _, _, _ => .starved
  | fuel + 1, part, ngroup, h =>
    match h part with
    | none => .ub
    | some c =>
      if c.next = 0 then .ok ngroup
      else
        match h c.next with
        | none => .ub
        | some d => NNonEmptyCells fuel c.next (if d.size > 0 then ngroup + 1 else ngroup) h

/-- The loop of `GetLink`, src/graph.c:776-784, over the links of a node as pairs (number of the target,
weight): the position of the link, `none` when `(pn->next)->node` is read with `pn->next` NULL. -/
def GetLink (n2 : ℕ) : List (ℕ × ℚ) → Option ℕ
  | [] => none
  | x :: l => if x.1 ≠ n2 then (GetLink n2 l).map (· + 1) else some 0

/-- `ResetNetGroup`, src/modules.c:1217-1224. -/
def ResetNetGroup (net : Net) (p : Part) : Part :=
  { p with inGroup := fun v => if v < net.n then none else p.inGroup v }

/-- The field `inGroup` as an integer. -/
def labelNum : Option ℕ → Int
  | none => -1
  | some g => g

/-- `StrengthToGroupByNum`, src/modules.c:893-904; a label is any integer, -1 that of nodes without
group. -/
def StrengthToGroupByNum (net : Net) (p : Part) (v : ℕ) (gLabel : Int) : ℚ :=
  (net.neig v).foldl (fun s x => if labelNum (p.inGroup x.1) = gLabel then s + x.2 else s) 0

end GP
