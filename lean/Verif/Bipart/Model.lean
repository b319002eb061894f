import Verif.Basic.Res
import Verif.Group.Model

/-!
# Bipartite networks (`src/bipartite.c`, `src/recommend.c`)

The nodes of each set are numbered from 0 in the order of their list, and a pointer to a node is its number.
Labels are taken to be distinct within a set, so that a look-up by label in a dictionary made from the same set
is the identity (`MakeLabelDict`, `GetNodeDict`: C44). Cached degrees are taken to be up to date (C15).
-/

namespace BP

open RG

/-- `struct binet`, src/bipartite.h:20-23: neighbours of the nodes of the two sets, with weights. -/
structure Bi where
  n1 : ℕ
  n2 : ℕ
  neig1 : ℕ → List (ℕ × ℚ)
  neig2 : ℕ → List (ℕ × ℚ)

/-- `InvertBipart`, src/bipartite.c:523-531. -/
def Bi.swap (b : Bi) : Bi := ⟨b.n2, b.n1, b.neig2, b.neig1⟩

/-- `AddAdjacency` without adding weights, src/graph.c:120-170; between the two sets there are no links of a node
with itself. -/
def addAdj (l : List (ℕ × ℚ)) (j : ℕ) (w : ℚ) : List (ℕ × ℚ) :=
  if l.any (fun x => x.1 == j) then l else l ++ [(j, w)]

/-- `IsThereLink`, src/graph.c:807-818. -/
def isThere (l : List (ℕ × ℚ)) (j : ℕ) : Bool := l.any fun x => x.1 == j

/-- Removal of the first element for `j`, src/graph.c:461-467; without one the loop reads through NULL. -/
def remAdj : List (ℕ × ℚ) → ℕ → Option (List (ℕ × ℚ))
  | [], _ => none
  | x :: l, j => if x.1 = j then some l else do
    let l ← remAdj l j
    some (x :: l)

/-- `RemoveLink(node i of net1, node j of net2, 1)`, src/graph.c:445-479. -/
def RemoveLink (b : Bi) (i j : ℕ) : Option Bi := do
  let l1 ← remAdj (b.neig1 i) j
  let l2 ← remAdj (b.neig2 j) i
  some ⟨b.n1, b.n2, Function.update b.neig1 i l1, Function.update b.neig2 j l2⟩

/-- Two calls of `AddAdjacency`, one for each direction. -/
def addLink (b : Bi) (i j : ℕ) (w : ℚ) : Bi :=
  ⟨b.n1, b.n2, Function.update b.neig1 i (addAdj (b.neig1 i) j w), Function.update b.neig2 j (addAdj (b.neig2 j) i w)⟩

/-- `CopyBipart`, src/bipartite.c:443-515: nodes first, then all links of the first set. -/
def CopyBipart (b : Bi) : Bi :=
  (List.range b.n1).foldl (fun c i => (b.neig1 i).foldl (fun c x => addLink c i x.1 x.2) c)
    ⟨b.n1, b.n2, fun _ => [], fun _ => []⟩

/-- `NLinksBipart`, src/bipartite.c:539-549. -/
def NLinksBipart (b : Bi) : Int := (List.range b.n1).foldl (fun s i => s + (b.neig1 i).length) 0

/-- `CountUnobserved`, src/recommend.c:57-62. -/
def CountUnobserved (b : Bi) : Int := b.n1 * b.n2 - NLinksBipart b

/-- `unobservedSet[n++] = …` in an array of `cap` slots: a write after the end is undefined. -/
def push (cap : ℕ) (l : List (ℕ × ℕ)) (q : ℕ × ℕ) : Option (List (ℕ × ℕ)) :=
  if l.length < cap then some (l ++ [q]) else none

/-- `BuildUnobservedSet`, src/recommend.c:70-88. -/
def BuildUnobservedSet (b : Bi) : Option (List (ℕ × ℕ)) :=
  (List.range b.n1).foldlM (fun l i => (List.range b.n2).foldlM (fun l j =>
    if isThere (b.neig1 i) j then some l else push (CountUnobserved b).toNat l (i, j)) l) []

/-- `RemoveRatings`, src/recommend.c:96-115. The loop removes the element after `m` or moves on to it, so that
every element of the initial list is looked at once. -/
def RemoveRatings (b : Bi) (r : ℚ) : Option Bi :=
  (List.range b.n1).foldlM (fun b i => (b.neig1 i).foldlM (fun b x =>
    if x.2 = r then RemoveLink b i x.1 else some b) b) b

/-- `NCommonLinksBipart`, src/bipartite.c:325-341, for two lists of neighbours. -/
def NCommonLinksBipart (l1 l2 : List (ℕ × ℚ)) : ℕ :=
  l1.foldl (fun s x => l2.foldl (fun s y => if x.1 = y.1 then s + 1 else s) s) 0

/-- `SumProductsOfCommonWeightsBipart`, src/bipartite.c:350-370. -/
def SumProductsOfCommonWeightsBipart (l1 l2 : List (ℕ × ℚ)) : ℚ :=
  l1.foldl (fun s x => l2.foldl (fun s y => if x.1 = y.1 then s + x.2 * y.2 else s) s) 0

/-- Both directions of a link of a one-mode network. -/
def addBoth (neig : ℕ → List (ℕ × ℚ)) (i j : ℕ) (w : ℚ) : ℕ → List (ℕ × ℚ) :=
  let neig := Function.update neig i (addAdj (neig i) j w)
  Function.update neig j (addAdj (neig j) i w)

/-- Conversion of a `double` to `int`: towards zero. Values outside the range of `int` are not modelled. -/
def toInt (x : ℚ) : Int := if 0 ≤ x then ⌊x⌋ else ⌈x⌉

/-- The loop over pairs of nodes common to `ProjectBipart` and `ProjectBipartWeighted`, for the weight `int weight`
of a pair. -/
def project (b : Bi) (weight : ℕ → ℕ → Int) : GP.Net :=
  { n := b.n1
    neig := (List.range b.n1).foldl (fun neig i => (List.range' (i + 1) (b.n1 - (i + 1))).foldl (fun neig j =>
      if 0 < weight i j then addBoth neig i j (weight i j : ℚ) else neig) neig) fun _ => [] }

/-- `ProjectBipart`, src/bipartite.c:558-602. -/
def ProjectBipart (b : Bi) : GP.Net := project b fun i j => NCommonLinksBipart (b.neig1 i) (b.neig1 j)

/-- `ProjectBipartWeighted`, src/bipartite.c:605-649: the weight is an `int`. -/
def ProjectBipartWeighted (b : Bi) : GP.Net :=
  project b fun i j => toInt (SumProductsOfCommonWeightsBipart (b.neig1 i) (b.neig1 j))

/-- `ori`, `des`, src/bipartite.c:675-684, as one list of pairs. The arrays have `NLinksBipart` slots. -/
def linkList (b : Bi) : List (ℕ × ℕ) :=
  (List.range b.n1).flatMap fun i => (b.neig1 i).map fun x => (i, x.1)

/-- Selection of the two links, src/bipartite.c:692-706. The argument `t1` is the link drawn in the outer loop, if we
are in the inner one. -/
def pickSwap (b : Bi) (L : List (ℕ × ℕ)) : Option ℕ → Tape → Res ((ℕ × ℕ) × Tape)
  | _, [] => .starved
  | none, u :: t =>
    if 0 ≤ u ∧ u < 1 then
      if ⌊u * L.length⌋₊ < L.length then pickSwap b L (some ⌊u * L.length⌋₊) t else .ub
    else .starved
  | some t1, u :: t =>
    if 0 ≤ u ∧ u < 1 then
      match L[t1]?, L[⌊u * L.length⌋₊]? with
      | some (n1, n2), some (n3, n4) =>
        if n1 = n3 ∨ n2 = n4 then pickSwap b L (some t1) t
        else if isThere (b.neig1 n1) n4 ∨ isThere (b.neig2 n2) n3 then pickSwap b L none t
        else .ok ((t1, ⌊u * L.length⌋₊), t)
      | _, _ => .ub
    else .starved

/-- The switch, src/bipartite.c:709-714. -/
def switch (b : Bi) (n1 n2 n3 n4 : ℕ) : Option Bi := do
  let b ← RemoveLink b n1 n2
  let b ← RemoveLink b n3 n4
  some (addLink (addLink b n1 n4 0) n3 n2 0)

/-- One turn of the loop, src/bipartite.c:689-720. -/
def swapOnce (s : Bi × List (ℕ × ℕ) × Tape) : Res (Bi × List (ℕ × ℕ) × Tape) := do
  let ((t1, t2), t) ← pickSwap s.1 s.2.1 none s.2.2
  match s.2.1[t1]?, s.2.1[t2]? with
  | some (n1, n2), some (n3, n4) =>
    let b ← Res.ofOption (switch s.1 n1 n2 n3 n4)
    .ok (b, (s.2.1.set t1 (n1, n4)).set t2 (n3, n2), t)
  | _, _ => .ub

/-- `niter` turns. -/
def swapLoop : ℕ → Bi × List (ℕ × ℕ) × Tape → Res (Bi × List (ℕ × ℕ) × Tape)
  | 0, s => .ok s
  | k + 1, s => do
    let s ← swapOnce s
    swapLoop k s

/-- `RandomizeBipart`, src/bipartite.c:657-726. -/
def RandomizeBipart (b : Bi) (times : ℚ) (t : Tape) : Res (Bi × Tape) := do
  let r ← swapLoop ⌈times * (NLinksBipart b : ℚ)⌉.toNat (b, linkList b, t)
  return (r.1, r.2.2)

end BP
