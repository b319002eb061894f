import Verif.Basic.Res
import Mathlib.Logic.Function.Basic

/-!
# Linked stack and queue (`src/datastruct.c`)

The heap maps addresses to live cells; `none` means "not allocated (never, or freed)".
Reading, writing or freeing a cell that is not live is undefined behaviour (`Res.ub`).

`calloc` may return any address that is not live at that moment, in particular one that was freed
before (also the one a stale pointer still holds).  The address it returns is therefore an argument
of the operation; an address that is live cannot be returned by `calloc`, and such a history is
cut with `Res.starved` (it is not a history of the program).
-/

namespace DS

open RG

/-- `void *` payload: `none` is `NULL`. -/
abbrev Ptr (α : Type) := Option α

/-- `struct stack_node` and `struct queue_node`, src/datastruct.h (same two fields). -/
structure Cell (α : Type) where
  data : Ptr α
  next : Option ℕ

/-- Live cells by address. -/
abbrev Heap (α : Type) := ℕ → Option (Cell α)

variable {α : Type}

/-- `calloc(1, sizeof(node))` returning address `a`, followed by the two field assignments
(src/datastruct.c:58-60, 179-181).  Allocation failure is not modelled. -/
def calloc (h : Heap α) (a : ℕ) (c : Cell α) : Res (Heap α) :=
  match h a with
  | none => .ok (Function.update h a (some c))
  | some _ => .starved

/-- Dereference of a node pointer; `NULL` or a dead address is undefined behaviour. -/
def deref (h : Heap α) (p : Option ℕ) : Res (Cell α) :=
  match p with
  | none => .ub
  | some a => Res.ofOption (h a)

/-- `free` of a node pointer. Freeing a dead address is undefined behaviour (`free(NULL)` is
harmless). -/
def cfree (h : Heap α) (p : Option ℕ) : Res (Heap α) :=
  match p with
  | none => .ok h
  | some a => match h a with
    | none => .ub
    | some _ => .ok (Function.update h a none)

/-- Assignment `p->next = q`. -/
def setNext (h : Heap α) (p q : Option ℕ) : Res (Heap α) :=
  match p with
  | none => .ub
  | some a => match h a with
    | none => .ub
    | some c => .ok (Function.update h a (some { c with next := q }))

/-! ## Stack -/

/-- `struct stack` together with the heap its nodes live in. The struct itself is not a heap cell
(its own allocation in `stack_create`, `stack_free` is not modelled). -/
structure Stack (α : Type) where
  heap : Heap α
  top : Option ℕ
  length : Int

/-- `stack_create`, src/datastruct.c:23-32. -/
def stack_create (h : Heap α) : Stack α := { heap := h, top := none, length := 0 }

/-- `stack_empty`, src/datastruct.c:39-46. -/
def stack_empty (s : Stack α) : Bool := s.top.isNone

/-- `stack_push`, src/datastruct.c:53-65; `a` is the address `calloc` returned. -/
def stack_push (s : Stack α) (a : ℕ) (x : Ptr α) : Res (Stack α) := do
  let h ← calloc s.heap a { data := x, next := s.top }
  return { heap := h, top := some a, length := s.length + 1 }

/-- `stack_pop`, src/datastruct.c:72-89. -/
def stack_pop (s : Stack α) : Res (Ptr α × Stack α) :=
  if stack_empty s then .ok (none, s)
  else do
    let temp := s.top
    let c ← deref s.heap temp
    let theData := c.data
    let h ← cfree s.heap temp
    return (theData, { heap := h, top := c.next, length := s.length - 1 })

/-- `stack_top`, src/datastruct.c:96-103. -/
def stack_top (s : Stack α) : Res (Ptr α) :=
  if stack_empty s then .ok none
  else do
    let c ← deref s.heap s.top
    return c.data

/-- `stack_clear`, src/datastruct.c:110-116; the `while` loop is cut after `fuel` tests. -/
def stack_clear : (fuel : ℕ) → Stack α → Res (Stack α)
  | 0, _ => .starved
  | fuel + 1, s =>
    if stack_empty s then .ok s
    else do
      let (_, s) ← stack_pop s
      stack_clear fuel s

/-! ## Queue -/

/-- `struct queue` together with the heap its nodes live in. -/
structure Queue (α : Type) where
  heap : Heap α
  first : Option ℕ
  last : Option ℕ
  length : Int

/-- `queue_create`, src/datastruct.c:143-153. -/
def queue_create (h : Heap α) : Queue α :=
  { heap := h, first := none, last := none, length := 0 }

/-- `queue_empty`, src/datastruct.c:160-167. -/
def queue_empty (q : Queue α) : Bool := q.first.isNone

/-- `queue_enqueue`, src/datastruct.c:174-194. `last` is dereferenced in the non-empty case only;
after the last element was dequeued it still holds a freed address. -/
def queue_enqueue (q : Queue α) (a : ℕ) (x : Ptr α) : Res (Queue α) := do
  let h ← calloc q.heap a { data := x, next := none }
  if queue_empty q then
    return { heap := h, first := some a, last := some a, length := q.length + 1 }
  else do
    let h ← setNext h q.last (some a)
    return { heap := h, first := q.first, last := some a, length := q.length + 1 }

/-- `queue_dequeue`, src/datastruct.c:201-218. -/
def queue_dequeue (q : Queue α) : Res (Ptr α × Queue α) :=
  if queue_empty q then .ok (none, q)
  else do
    let temp := q.first
    let c ← deref q.heap temp
    let theData := c.data
    let h ← cfree q.heap temp
    return (theData, { heap := h, first := c.next, last := q.last, length := q.length - 1 })

/-- `queue_first`, src/datastruct.c:225-232. -/
def queue_first (q : Queue α) : Res (Ptr α) :=
  if queue_empty q then .ok none
  else do
    let c ← deref q.heap q.first
    return c.data

/-- `queue_clear`, src/datastruct.c:239-245; the `while` loop is cut after `fuel` tests. -/
def queue_clear : (fuel : ℕ) → Queue α → Res (Queue α)
  | 0, _ => .starved
  | fuel + 1, q =>
    if queue_empty q then .ok q
    else do
      let (_, q) ← queue_dequeue q
      queue_clear fuel q

/-! ## Histories of calls -/

/-- A call a client makes; `put a x`: insertion of `x` for which `calloc` answers `a`;
`clear fuel`: `clear` with the bound on its loop. -/
inductive Op (α : Type) where
  | put (a : ℕ) (x : Ptr α)
  | take
  | peek
  | isEmpty
  | getLength
  | clear (fuel : ℕ)

/-- What a call shows to the client. -/
inductive Out (α : Type) where
  | unit
  | data (p : Ptr α)
  | bool (b : Bool)
  | int (n : Int)

/-- One call on a stack (src/datastruct.c:39-116; the length is read from the struct field). -/
def stackStep (s : Stack α) : Op α → Res (Out α × Stack α)
  | .put a x => do
    let s ← stack_push s a x
    return (.unit, s)
  | .take => do
    let (p, s) ← stack_pop s
    return (.data p, s)
  | .peek => do
    let p ← stack_top s
    return (.data p, s)
  | .isEmpty => .ok (.bool (stack_empty s), s)
  | .getLength => .ok (.int s.length, s)
  | .clear fuel => do
    let s ← stack_clear fuel s
    return (.unit, s)

/-- One call on a queue (src/datastruct.c:160-245). -/
def queueStep (q : Queue α) : Op α → Res (Out α × Queue α)
  | .put a x => do
    let q ← queue_enqueue q a x
    return (.unit, q)
  | .take => do
    let (p, q) ← queue_dequeue q
    return (.data p, q)
  | .peek => do
    let p ← queue_first q
    return (.data p, q)
  | .isEmpty => .ok (.bool (queue_empty q), q)
  | .getLength => .ok (.int q.length, q)
  | .clear fuel => do
    let q ← queue_clear fuel q
    return (.unit, q)

/-- A history of calls: the answers in order and the final state. -/
def run {S : Type} (step : S → Op α → Res (Out α × S)) : S → List (Op α) → Res (List (Out α) × S)
  | s, [] => .ok ([], s)
  | s, o :: os => do
    let (r, s) ← step s o
    let (rs, s) ← run step s os
    return (r :: rs, s)

end DS
