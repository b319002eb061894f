import Verif.Bipart.Model
import Verif.Graph.Model

/-!
# Building a bipartite network from a file, removing nodes (`src/bipartite.c`)

The two sets are lists of nodes of their own, with labels of their own: the same label may be used in both.
-/

namespace BP

open RG

/-- One of the two lists of nodes (`struct node_gra`, src/graph.h:18-33) with the links to the other. -/
structure Side where
  n : ℕ
  label : ℕ → String
  neig : ℕ → List (ℕ × ℚ)

/-- `CreateHeaderGraph`, src/graph.c:14-38. -/
def Side.empty : Side := ⟨0, fun _ => "", fun _ => []⟩

/-- `struct binet`, src/bipartite.h:20-23, with the labels of the nodes. -/
structure LBi where
  bi : Bi
  label1 : ℕ → String
  label2 : ℕ → String

/-- `AddAdjacency`, src/graph.c:120-170, between the two sets. -/
def addAdjW (add : Bool) (j : ℕ) (w : ℚ) : List (ℕ × ℚ) → List (ℕ × ℚ)
  | [] => [(j, w)]
  | x :: l => if x.1 = j then (if add then (x.1, x.2 + w) :: l else x :: l) else x :: addAdjW add j w l

/-- "Check if the nodes already exist, and create them otherwise", src/bipartite.c:92-112, for one of the sets. The
tree of labels (`tsearch`) is an association list. -/
def Side.get (s : Side) (dict : List (String × ℕ)) (a : String) : ℕ × Side × List (String × ℕ) :=
  match dict.lookup a with
  | some i => (i, s, dict)
  | none => (s.n, ⟨s.n + 1, Function.update s.label s.n a, Function.update s.neig s.n []⟩, (a, s.n) :: dict)

/-- `AddAdjacency` for node `i` of a set. -/
def Side.add (s : Side) (add : Bool) (i j : ℕ) (w : ℚ) : Side :=
  { s with neig := Function.update s.neig i (addAdjW add j w (s.neig i)) }

/-- The loop of `FBuildNetworkBipart`, src/bipartite.c:73-118. Outer `none`: a label overflows its buffer; inner `none`:
the function returns NULL. -/
def buildLoop (weighted add : Bool) (strtod : String → Option ℚ) : List (List String) → Side → List (String × ℕ) →
    Side → List (String × ℕ) → Option (Option (Side × Side))
  | [], s1, _, s2, _ => some (some (s1, s2))
  | toks :: lines, s1, d1, s2, d2 =>
    match GR.readLine weighted strtod toks with
    | none => none
    | some none => some none
    | some (some (a, b, w)) =>
      let r1 := s1.get d1 a
      let r2 := s2.get d2 b
      buildLoop weighted add strtod lines (r1.2.1.add add r1.1 r2.1 w) r1.2.2 (r2.2.1.add add r2.1 r1.1 w) r2.2.2

/-- `FBuildNetworkBipart`, src/bipartite.c:52-129, on the lines of the file split into fields. -/
def FBuildNetworkBipart (lines : List (List String)) (weighted add : Bool) (strtod : String → Option ℚ) :
    Option (Option LBi) :=
  (buildLoop weighted add strtod lines Side.empty [] Side.empty []).map fun r => r.map fun s =>
    ⟨⟨s.1.n, s.2.n, s.1.neig, s.2.neig⟩, s.1.label, s.2.label⟩

/-- `InvertBipart`, src/bipartite.c:523-531. -/
def LBi.swap (b : LBi) : LBi := ⟨b.bi.swap, b.label2, b.label1⟩

/-- "Get to the target node", src/bipartite.c:386-392: the position of the label among the nodes from `i`. After the
last node `p->next` is NULL. -/
def seek (label : ℕ → String) (a : String) : (todo i : ℕ) → Option ℕ
  | 0, _ => none
  | todo + 1, i => if label i = a then some i else seek label a todo (i + 1)

/-- "Remove all links from/to the node", src/bipartite.c:395-399: the first link is removed until there are none. -/
def unlinkAll : (fuel : ℕ) → Bi → ℕ → Option Bi
  | 0, b, i => if b.neig1 i = [] then some b else none
  | fuel + 1, b, i =>
    match b.neig1 i with
    | [] => some b
    | x :: _ => do
      let b ← RemoveLink b i x.1
      unlinkAll fuel b i

/-- Number of a node after the removal of node `k`. -/
def renum (k i : ℕ) : ℕ := if k < i then i - 1 else i

/-- Number before the removal. -/
def unnum (k i : ℕ) : ℕ := if i < k then i else i + 1

/-- "Remove the node" and "Renumber the nodes" and the adjacencies, src/bipartite.c:402-425: pointers stay, numbers are
given again in the order of the list. -/
def dropNode (b : LBi) (k : ℕ) : LBi :=
  { bi := { n1 := b.bi.n1 - 1
            n2 := b.bi.n2
            neig1 := fun i => b.bi.neig1 (unnum k i)
            neig2 := fun j => (b.bi.neig2 j).map fun x => (renum k x.1, x.2) }
    label1 := fun i => b.label1 (unnum k i)
    label2 := b.label2 }

/-- `RemoveNodeBipart`, src/bipartite.c:377-427. The loop over links runs until the list is empty; the number of turns
is the number of links, as each removes one (`unlinkAll` is `none` otherwise). -/
def RemoveNodeBipart (b : LBi) (label : String) (set : ℕ) : Option LBi :=
  if set = 1 then do
    let k ← seek b.label1 label b.bi.n1 0
    let bi ← unlinkAll (b.bi.neig1 k).length b.bi k
    some (dropNode { b with bi := bi } k)
  else do
    let b := b.swap
    let k ← seek b.label1 label b.bi.n1 0
    let bi ← unlinkAll (b.bi.neig1 k).length b.bi k
    some (dropNode { b with bi := bi } k).swap

end BP
