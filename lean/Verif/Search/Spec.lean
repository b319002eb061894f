import Verif.Search.Model
import Mathlib.Data.List.Basic

/-! # Search trees: what is meant -/

namespace TS

variable {K L : Type}

/-- The keys from left to right. -/
def Tree.keys : Tree K → List K
  | .nil => []
  | .node _ l k r => l.keys ++ k :: r.keys

/-- Red-black trees with the colour of the root and the number of black nodes on every way down: no red
node has a red child, and all ways down have the same number of black nodes. -/
inductive RB : Bool → ℕ → Tree K → Prop
  | nil : RB false 0 .nil
  | red {n l k r} : RB false n l → RB false n r → RB true n (.node true l k r)
  | black {a b n l k r} : RB a n l → RB b n r → RB false (n + 1) (.node false l k r)

/-- A search tree as `tsearch` keeps it: labels increase from left to right, and the tree is red-black. -/
structure Valid [LinearOrder L] (lab : K → L) (t : Tree K) : Prop where
  sorted : t.keys.Pairwise fun x y => lab x < lab y
  rb : ∃ c n, RB c n t

/-- Number of nodes on the longest way down. -/
def Tree.height : Tree K → ℕ
  | .nil => 0
  | .node _ l _ r => max l.height r.height + 1

end TS
