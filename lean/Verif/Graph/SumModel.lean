import Verif.Graph.Model
import Mathlib.Algebra.Order.Field.Rat

/-!
# Sum and comparison of two networks (`AddTwoNetworks`, `CompareTwoNetworks`, src/graph.c)
-/

namespace GR

/-- "Add nodes in B missing from A" (src/graph.c:3213-3218), for the nodes of `B` in `nodes`. -/
def addMissingNodes (A B : Net) (nodes : List ℕ) (sum : Net) : Option Net :=
  nodes.foldlM (fun sum p =>
    if dictFind A (B.label p) = none then (CreateNodeGraph sum (B.label p)).map Prod.snd
    else some sum) sum

/-- Body of the loop over the links of `B` (src/graph.c:3226-3230). A soft link (`NULL` pointer) or a
label missing from the dictionary is a NULL dereference (`none`). -/
def addOneLink (B : Net) (p : ℕ) (sum : Net) (l : Link) : Option Net := do
  let q ← l.ref
  let i ← dictFind sum (B.label p)
  let j ← dictFind sum (B.label q)
  return (AddAdjacency sum i j true false 1).2

/-- Loop over all links of `B` (src/graph.c:3223-3232). (The dictionary of the sum is built once; the
labels of the nodes do not change in the loop.) -/
def addLinksOf (B : Net) (nodes : List ℕ) (sum : Net) : Option Net :=
  nodes.foldlM (fun sum p => (B.neig p).foldlM (addOneLink B p) sum) sum

/-- `AddTwoNetworks`, src/graph.c:3205-3237. -/
def AddTwoNetworks (A B : Net) : Option Net := do
  let sum ← CopyNetwork A
  let sum ← addMissingNodes A B (List.range B.n) sum
  addLinksOf B (List.range B.n) sum

/-- Values returned by `CompareTwoNetworks` through its pointers; a probability `none` is the NaN of
`0.0 / 0.0`. -/
structure Cmp where
  nA_nod : ℕ
  nB_nod : ℕ
  ncom_nod : ℕ
  p_nAB : Option ℚ
  p_nBA : Option ℚ
  nA_lin : ℕ
  nB_lin : ℕ
  ncom_lin : ℕ
  p_lAB : Option ℚ
  p_lBA : Option ℚ
deriving DecidableEq, Repr

/-- Quotient of two counts as `double`s; a zero denominator comes only with a zero numerator (a part
of the denominator is counted in the numerator), which gives NaN. -/
def quot (a b : ℕ) : Option ℚ := if b = 0 then none else some ((a : ℚ) / b)

/-- Both ends of the link `l` of node `p` of `X`, looked up in the dictionary of `Y`
(src/graph.c:3150-3151, 3171-3172). Outer `none`: `ref` is NULL; inner `none`: one of the ends is not a
node of `Y`. -/
def bothIn (X Y : Net) (p : ℕ) (l : Link) : Option (Option (ℕ × ℕ)) := do
  let q ← l.ref
  return do
    let n1 ← dictFind Y (X.label p)
    let n2 ← dictFind Y (X.label q)
    return (n1, n2)

/-- Body of the loops over the links of one network (src/graph.c:3149-3161, 3170-3178): number of links
with both ends in the other network, and number of those that the other network has too. -/
def countOne (X Y : Net) (p : ℕ) (c : ℕ × ℕ) (l : Link) : Option (ℕ × ℕ) := do
  match ← bothIn X Y p l with
  | none => return c
  | some (n1, n2) => return (c.1 + 1, if IsThereLink Y n1 n2 then c.2 + 1 else c.2)

/-- Loop over the links of one network (src/graph.c:3144-3163, 3165-3180). -/
def countLinks (X Y : Net) (nodes : List ℕ) : Option (ℕ × ℕ) :=
  nodes.foldlM (fun c p => (X.neig p).foldlM (countOne X Y p) c) (0, 0)

/-- `CompareTwoNetworks`, src/graph.c:3087-3196 (the messages on `stderr` and `ntot_lin`, which is
never used, are left out). -/
def CompareTwoNetworks (A B : Net) : Option Cmp := do
  let nA := (List.range A.n).foldl (fun c _ => c + 1) 0
  let nB := (List.range B.n).foldl (fun c _ => c + 1) 0
  let com := (List.range B.n).foldl
    (fun c p => if (dictFind A (B.label p)).isSome then c + 1 else c) 0
  let (la, lcom) ← countLinks A B (List.range A.n)
  let (lb, _) ← countLinks B A (List.range B.n)
  let la := la / 2
  let lb := lb / 2
  let lcom := lcom / 2
  return { nA_nod := nA, nB_nod := nB, ncom_nod := com
           p_nAB := quot com nB, p_nBA := quot com nA
           nA_lin := la, nB_lin := lb, ncom_lin := lcom
           p_lAB := quot lcom lb, p_lBA := quot lcom la }

end GR
