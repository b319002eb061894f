import Mathlib.Order.Defs.LinearOrder
import Mathlib.Data.Nat.Notation

/-!
# Search trees (`lib/search.c`)

Trees with red and black nodes. A location of the C code (`node *`) is modelled by the subtree found there
together with the path to it. `malloc` does not fail. The comparison function compares labels from a linear
order; several keys may have the same label.
-/

namespace TS

/-- `struct node_t`, lib/search.c:122-130. -/
inductive Tree (K : Type) where
  | nil
  | node (red : Bool) (left : Tree K) (key : K) (right : Tree K)

variable {K L : Type}

/-- The node is there and red. -/
def Tree.isRed : Tree K → Bool
  | .nil => false
  | .node c _ _ _ => c

/-- `if (t) t->red = b`. -/
def Tree.paint (b : Bool) : Tree K → Tree K
  | .nil => .nil
  | .node _ l k r => .node b l k r

/-- Number of nodes. -/
def Tree.size : Tree K → ℕ
  | .nil => 0
  | .node _ l _ r => l.size + r.size + 1

/-- A node passed on the way down: the way taken (`right` if the comparison was positive: `p_r > 0`), its
colour and key, and the subtree on the other side. -/
structure Crumb (K : Type) where
  right : Bool
  red : Bool
  key : K
  other : Tree K

/-- The node with a given subtree on the side taken. -/
def Crumb.join (c : Crumb K) (t : Tree K) : Tree K :=
  if c.right then .node c.red c.other c.key t else .node c.red t c.key c.other

/-- The whole tree. -/
def plug : List (Crumb K) → Tree K → Tree K
  | [], t => t
  | c :: path, t => plug path (c.join t)

/-- Which rotation was done. -/
inductive Rot where
  | no
  | single
  | double

/-- `maybe_split_for_insert`, lib/search.c:186-264, for the subtree `t` under `path`. `stale` says which of
`parentp` and `gparentp` no longer are the places of the parent and the grandparent because of rotations:
none (0), `gparentp` (1), both (2). Reading a stale location counts as undefined, as does reading
`gparentp` where there is no grandparent. -/
def split (mode : Bool) (path : List (Crumb K)) (t : Tree K) (stale : ℕ) : Option (List (Crumb K) × Tree K × Rot) :=
  match t with
  | .nil => none
  | .node c l k r =>
    if mode || (r.isRed && l.isRed) then
      let l := l.paint false
      let r := r.paint false
      match path with
      | [] => some ([], .node true l k r, .no)
      | p :: path' =>
        if 2 ≤ stale then none
        else if p.red then
          match path' with
          | [] => none
          | g :: rest =>
            if 1 ≤ stale then none
            else if p.right != g.right then
              if p.right = false then
                some (rest, .node false (.node true g.other g.key l) k (.node true r p.key p.other), .double)
              else
                some (rest, .node false (.node true p.other p.key l) k (.node true r g.key g.other), .double)
            else
              if p.right = false then
                some ({ right := false, red := false, key := p.key, other := .node true p.other g.key g.other } :: rest,
                  .node true l k r, .single)
              else
                some ({ right := true, red := false, key := p.key, other := .node true g.other g.key p.other } :: rest,
                  .node true l k r, .single)
        else some (path, .node true l k r, .no)
    else some (path, .node c l k r, .no)

/-- Staleness of `parentp` and `gparentp` after `gparentp = parentp; parentp = rootp`,
lib/search.c:304-306. -/
def nextStale (stale : ℕ) : Rot → ℕ
  | .no => stale - 1
  | .single => 1
  | .double => 2

variable [LinearOrder L] (lab : K → L)

/-- The loop of `tsearch` and the insertion, lib/search.c:287-326: the key of the node returned and the
tree. -/
def searchLoop (key : K) : ℕ → List (Crumb K) → Tree K → ℕ → Option (K × Tree K)
  | 0, _, _, _ => none
  | _ + 1, path, .nil, _ => some (key, plug path (.node true .nil key .nil))
  | fuel + 1, path, .node c l k r, stale =>
    if lab key = lab k then some (k, plug path (.node c l k r))
    else do
      let (path, t, rot) ← split false path (.node c l k r) stale
      match t with
      | .nil => none
      | .node c l k r =>
        let crumb : Crumb K := if lab key < lab k then { right := false, red := c, key := k, other := r }
          else { right := true, red := c, key := k, other := l }
        match if lab key < lab k then l else r with
        | .nil => do
          let (path, t, _) ← split true (crumb :: path) (.node true .nil key .nil) (nextStale stale rot)
          return (key, plug path t)
        | .node c' l' k' r' => searchLoop key fuel (crumb :: path) (.node c' l' k' r') (nextStale stale rot)

/-- `tsearch`, lib/search.c:269-327. -/
def tsearch (key : K) (t : Tree K) : Option (K × Tree K) :=
  searchLoop lab key (2 * t.size + 1) [] (t.paint false) 0

/-- `tfind`, lib/search.c:336-361. -/
def tfind (x : L) : Tree K → Option K
  | .nil => none
  | .node _ l k r => if x = lab k then some k else if x < lab k then tfind x l else tfind x r

end TS
