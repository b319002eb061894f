import Verif.Search.Model

/-!
# Deletion from search trees, walking through them (`lib/search.c`)

`none` is undefined behaviour or `abort`. The stack of locations is the path; its size is `stackSize`. The
pointer `tdelete` returns is the parent of the node deleted, or the root itself (perhaps freed); only
whether it is NULL is modelled.
-/

namespace TS

variable {K L : Type}

/-- `stacksize`, lib/search.c:380. -/
def stackSize : ℕ := 100

/-- Key of the leftmost node. -/
def Tree.first : Tree K → Option K
  | .nil => none
  | .node _ .nil k _ => some k
  | .node _ l _ _ => l.first

/-- The loop to the successor, lib/search.c:424-435: the path to the leftmost node, its colour and its right
subtree. -/
def leftmost : List (Crumb K) → Tree K → Option (List (Crumb K) × Bool × Tree K)
  | _, .nil => none
  | path, .node c .nil _ r => some (path, c, r)
  | path, .node c l k r =>
    if path.length = stackSize then none else leftmost ({ right := false, red := c, key := k, other := r } :: path) l

/-- Repair where the brother `q` of `r` is black, lib/search.c:499-557 and 573-603: either `r = p` and the
next place, or the whole tree. -/
def repair (p : Crumb K) (rest : List (Crumb K)) (r : Tree K) : Option ((List (Crumb K) × Tree K) ⊕ Tree K) :=
  match p.other with
  | .nil => none
  | .node qc ql qk qr =>
    if ql.isRed = false ∧ qr.isRed = false then
      some (.inl (rest, { p with other := .node true ql qk qr }.join r))
    else if p.right = false then
      if qr.isRed = false then
        match ql with
        | .nil => none
        | .node _ a k2 b => some (.inr (plug rest (.node p.red (.node false r p.key a) k2 (.node qc b qk qr))))
      else some (.inr (plug rest (.node p.red (.node false r p.key ql) qk (qr.paint false))))
    else
      if ql.isRed = false then
        match qr with
        | .nil => none
        | .node _ a k2 b => some (.inr (plug rest (.node p.red (.node qc ql qk a) k2 (.node false b p.key r))))
      else some (.inr (plug rest (.node p.red (ql.paint false) qk (.node false qr p.key r))))

/-- Rotation that gives `r` a black brother, lib/search.c:472-496 and 559-572; the stack gets one more
entry. -/
def blackBrother (p : Crumb K) (rest : List (Crumb K)) : Option (Crumb K × List (Crumb K)) :=
  match p.other with
  | .nil => none
  | .node qc ql qk qr =>
    if qc then
      if stackSize ≤ rest.length + 1 then none
      else if p.right = false then
        some ({ right := false, red := true, key := p.key, other := ql }, { right := false, red := false, key := qk, other := qr } :: rest)
      else
        some ({ right := true, red := true, key := p.key, other := qr }, { right := true, red := false, key := qk, other := ql } :: rest)
    else some (p, rest)

/-- The loop that repairs the tree after a black node was lost above `r`, lib/search.c:465-608. -/
def fixup : ℕ → List (Crumb K) → Tree K → Option (Tree K)
  | 0, _, _ => none
  | _ + 1, [], r => some (r.paint false)
  | fuel + 1, p :: rest, r =>
    if r.isRed then some (plug (p :: rest) (r.paint false))
    else do
      let (p, rest) ← blackBrother p rest
      match ← repair p rest r with
      | .inl (path, r) => fixup fuel path r
      | .inr t => some t

/-- `r` takes the place of the unchained node of colour `c`, lib/search.c:438-609. -/
def unchain (path : List (Crumb K)) (c : Bool) (r : Tree K) : Option (Tree K) :=
  if c then some (plug path r) else fixup (path.length + 2) path r

/-- Deletion of the node found under `path`, lib/search.c:411-612. The key of the successor is written
before it is unchained. -/
def deleteAt (path : List (Crumb K)) (c : Bool) (l : Tree K) (r : Tree K) : Option (Tree K) :=
  match l, r with
  | .nil, r => unchain path c r
  | l, .nil => unchain path c l
  | l, r => do
    let k ← r.first
    if path.length = stackSize then none
    else do
      let (path, c, r) ← leftmost ({ right := true, red := c, key := k, other := l } :: path) r
      unchain path c r

variable [LinearOrder L] (lab : K → L)

/-- The search in `tdelete`, lib/search.c:392-404. -/
def deleteLoop (x : L) : List (Crumb K) → Tree K → Option (Bool × Tree K)
  | path, .nil => some (false, plug path .nil)
  | path, .node c l k r =>
    if x = lab k then do
      let t ← deleteAt path c l r
      return (true, t)
    else if path.length = stackSize then none
    else if x < lab k then deleteLoop x ({ right := false, red := c, key := k, other := r } :: path) l
    else deleteLoop x ({ right := true, red := c, key := k, other := l } :: path) r

/-- `tdelete`, lib/search.c:370-613: whether the result is not NULL, and the tree. -/
def tdelete (x : L) (t : Tree K) : Option (Bool × Tree K) := deleteLoop lab x [] t

/-- `VISIT` of `<search.h>`. -/
inductive Visit where
  | preorder
  | postorder
  | endorder
  | leaf
  deriving DecidableEq

/-- `trecurse`, lib/search.c:622-640: the calls of the action. -/
def trecurse : ℕ → Tree K → List (K × Visit × ℕ)
  | _, .nil => []
  | level, .node _ l k r =>
    match l, r with
    | .nil, .nil => [(k, .leaf, level)]
    | l, r => (k, .preorder, level) :: trecurse (level + 1) l ++ (k, .postorder, level) :: trecurse (level + 1) r ++
        [(k, .endorder, level)]

/-- `twalk`, lib/search.c:646-655. -/
def twalk (t : Tree K) : List (K × Visit × ℕ) := trecurse 0 t

/-- `tdestroy`, lib/search.c:664-685: the keys given to the function that frees them. -/
def tdestroy : Tree K → List K
  | .nil => []
  | .node _ l k r => tdestroy l ++ tdestroy r ++ [k]

end TS
