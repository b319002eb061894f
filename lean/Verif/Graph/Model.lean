import Verif.Basic.Res
import Mathlib.Logic.Function.Basic
import Mathlib.Data.Rat.Defs

/-!
# Networks as lists of nodes with adjacency lists (`src/graph.c`)

A `struct node_gra` is identified by its position in the network (`num` equals the position, as
`CreateNodeGraph` and `RenumberNodes` make it); `struct node_lis` elements are values.  The `node`
field of a link (number of the target) is not stored apart: it is the number of `ref`.
Coordinates and scratch fields that no modelled function reads are left out.
-/

namespace GR

/-- `struct node_lis` (src/graph.h:46-54): label of the target, pointer to it (`none` for `NULL`,
a "soft" link), weight. -/
structure Link where
  nodeLabel : String
  ref : Option ℕ
  weight : ℚ
deriving DecidableEq, Repr

/-- A network (src/graph.h:20-38): number of nodes and, by node, its label, the adjacency list
without its header, and the cached degree and strength. -/
structure Net where
  n : ℕ
  label : ℕ → String
  neig : ℕ → List Link
  degree : ℕ → ℕ
  strength : ℕ → ℚ

/-- `CreateHeaderGraph`, src/graph.c:16-38: a network without nodes. -/
def CreateHeaderGraph : Net :=
  { n := 0, label := fun _ => "", neig := fun _ => [], degree := fun _ => 0, strength := fun _ => 0 }

/-- A label fits its buffer of `MAX_LABEL_LENGTH` bytes, terminator included (src/graph.h:11). -/
def fits (s : String) : Bool := decide (s.utf8ByteSize < 100)

/-- `CreateNodeGraph`, src/graph.c:49-76: append a node without links; `strcpy` of a label that does
not fit is undefined behaviour. -/
def CreateNodeGraph (net : Net) (label : String) : Option (ℕ × Net) :=
  if fits label then
    some (net.n,
      { n := net.n + 1
        label := Function.update net.label net.n label
        neig := Function.update net.neig net.n []
        degree := Function.update net.degree net.n 0
        strength := Function.update net.strength net.n 0 })
  else none

/-- Reset of the cached degree and strength of a node (src/graph.c:136-139, 454-457). -/
def resetCaches (net : Net) (i : ℕ) : Net :=
  { net with degree := Function.update net.degree i 0
             strength := Function.update net.strength i 0 }

/-- The walk along the adjacency list in `AddAdjacency` (src/graph.c:141-168): either the link is
found, or a new one is appended. -/
def addLink (j : ℕ) (jlabel : String) (add : Bool) (w : ℚ) : List Link → Int × List Link
  | [] => (1, [{ nodeLabel := jlabel, ref := some j, weight := w }])
  | l :: ls =>
    if l.ref = some j then
      if add then (1, { l with weight := l.weight + w } :: ls) else (0, l :: ls)
    else
      let r := addLink j jlabel add w ls
      (r.1, l :: r.2)

/-- `AddAdjacency`, src/graph.c:119-170. `auto` and `add` are `auto_link_sw`, `add_weight_sw` ≠ 0;
`status` and `btw` are not modelled. -/
def AddAdjacency (net : Net) (i j : ℕ) (auto add : Bool) (w : ℚ) : Int × Net :=
  if i = j ∧ auto = false then (0, net)
  else
    let net := resetCaches (resetCaches net i) j
    let r := addLink j (net.label j) add w (net.neig i)
    (r.1, { net with neig := Function.update net.neig i r.2 })

/-- The walk along the adjacency list in `AddAdjacencySoft` (src/graph.c:194-221): labels are
compared, the pointer of a new link is `NULL`. -/
def addLinkSoft (jlabel : String) (add : Bool) (w : ℚ) : List Link → Int × List Link
  | [] => (1, [{ nodeLabel := jlabel, ref := none, weight := w }])
  | l :: ls =>
    if l.nodeLabel = jlabel then
      if add then (1, { l with weight := l.weight + w } :: ls) else (0, l :: ls)
    else
      let r := addLinkSoft jlabel add w ls
      (r.1, l :: r.2)

/-- `AddAdjacencySoft`, src/graph.c:178-223. The caches are not reset. (Overflow of the label
buffer is not modelled: callers pass labels of nodes.) -/
def AddAdjacencySoft (net : Net) (i : ℕ) (jlabel : String) (auto add : Bool) (w : ℚ) : Int × Net :=
  if net.label i = jlabel ∧ auto = false then (0, net)
  else
    let r := addLinkSoft jlabel add w (net.neig i)
    (r.1, { net with neig := Function.update net.neig i r.2 })

/-- Position of the node a label dictionary (`MakeLabelDict`, src/graph.c:350-367, with `tsearch`)
returns: for repeated labels the last node with that label, because `ref` is overwritten. -/
def dictFind (net : Net) (label : String) : Option ℕ :=
  (List.range net.n).reverse.find? fun i => net.label i = label

/-- `RewireAdjacencyByLabel`, src/graph.c:229-257. A label that is not in the network makes
`adja->ref->num` a NULL dereference (`none`). -/
def RewireAdjacencyByLabel (net : Net) : Option Net := do
  let rewire (l : Link) : Option Link := do
    let r ← dictFind net l.nodeLabel
    return { l with ref := some r }
  let rows ← (List.range net.n).mapM fun i => (net.neig i).mapM rewire
  return { net with
    neig := fun i => if i < net.n then rows.getD i [] else net.neig i
    degree := fun i => if i < net.n then 0 else net.degree i
    strength := fun i => if i < net.n then 0 else net.strength i }

/-- `CopyAdjacencyList`, src/graph.c:301-311: soft copies of the links in `links` at node `i`. -/
def CopyAdjacencyList (links : List Link) (net : Net) (i : ℕ) : Net :=
  links.foldl (fun net l => (AddAdjacencySoft net i l.nodeLabel true false l.weight).2) net

/-- Loop of `CopyNetwork` (src/graph.c:325-336) over the nodes `k, k+1, …` of the source. -/
def copyNodes (src : Net) : (todo : ℕ) → (k : ℕ) → Net → Option Net
  | 0, _, net => some net
  | todo + 1, k, net => do
    let (i, net) ← CreateNodeGraph net (src.label k)
    copyNodes src todo (k + 1) (CopyAdjacencyList (src.neig k) net i)

/-- `CopyNetwork`, src/graph.c:316-344. -/
def CopyNetwork (src : Net) : Option Net := do
  let net ← copyNodes src src.n 0 CreateHeaderGraph
  RewireAdjacencyByLabel net

/-- The walk in `RemoveLink` (src/graph.c:461-467, 471-477): unlink the first link to `j`;
without one the walk dereferences NULL (`none`). -/
def dropLink (j : ℕ) : List Link → Option (List Link)
  | [] => none
  | l :: ls =>
    if l.ref = some j then some ls
    else do
      let r ← dropLink j ls
      return l :: r

/-- `RemoveLink`, src/graph.c:444-479. -/
def RemoveLink (net : Net) (i j : ℕ) (sym : Bool) : Option Net := do
  let net := resetCaches (resetCaches net i) j
  let r ← dropLink j (net.neig i)
  let net := { net with neig := Function.update net.neig i r }
  if sym ∧ i ≠ j then do
    let r ← dropLink i (net.neig j)
    return { net with neig := Function.update net.neig j r }
  else return net

/-- `NodeDegree`, src/graph.c:1388-1396: the cached value if it is not 0. -/
def NodeDegree (net : Net) (i : ℕ) : ℕ × Net :=
  if net.degree i = 0 ∧ net.neig i ≠ [] then
    let d := (net.neig i).foldl (fun d _ => d + 1) (net.degree i)
    (d, { net with degree := Function.update net.degree i d })
  else (net.degree i, net)

/-- `NodeStrength`, src/graph.c:1468-1477: the cached value if it is not 0. -/
def NodeStrength (net : Net) (i : ℕ) : ℚ × Net :=
  if net.strength i = 0 ∧ net.neig i ≠ [] then
    let s := (net.neig i).foldl (fun s l => s + l.weight) (net.strength i)
    (s, { net with strength := Function.update net.strength i s })
  else (net.strength i, net)

/-- `IsThereLink`, src/graph.c:806-818; also `IsThereLinkSoft`, src/graph.c:824-836 (numbers
identify nodes). -/
def IsThereLink (net : Net) (i j : ℕ) : Bool := (net.neig i).any fun l => l.ref = some j

/-! ## Building a network from a file -/

/-- One line of the file read with `sscanf` (src/graph.c:557-571), given as its list of
white-space separated fields.  Outer `none`: a label overflows its buffer; inner `none`: not enough
fields.  `strtod` is the conversion done by `%lf` (a field that does not start with a number is
`none`). -/
def readLine (weighted : Bool) (strtod : String → Option ℚ) (toks : List String) :
    Option (Option (String × String × ℚ)) :=
  match toks with
  | [] => some none
  | [a] => if fits a then some none else none
  | a :: b :: rest =>
    if fits a ∧ fits b then
      if weighted then
        match rest with
        | [] => some none
        | c :: _ => some ((strtod c).map fun w => (a, b, w))
      else some (some (a, b, 1))
    else none

/-- "Check if the node already exists, and create it otherwise" (src/graph.c:574-598). The tree of
labels (`tsearch`) is an association list. -/
def getNode (net : Net) (dict : List (String × ℕ)) (label : String) :
    Option (ℕ × Net × List (String × ℕ)) :=
  match dict.lookup label with
  | some i => some (i, net, dict)
  | none => do
    let (i, net) ← CreateNodeGraph net label
    return (i, net, (label, i) :: dict)

/-- Loop of `FBuildNetwork`, src/graph.c:555-605. Outer `none`: undefined behaviour; inner `none`:
the function returns `NULL`. -/
def buildLoop (weighted auto add sym : Bool) (strtod : String → Option ℚ) :
    List (List String) → Net → List (String × ℕ) → Option (Option Net)
  | [], net, _ => some (some net)
  | toks :: lines, net, dict => do
    match ← readLine weighted strtod toks with
    | none => return none
    | some (a, b, w) =>
      let (n1, net, dict) ← getNode net dict a
      let (n2, net, dict) ← getNode net dict b
      let net := (AddAdjacency net n1 n2 auto add w).2
      let net := if sym ∧ n1 ≠ n2 then (AddAdjacency net n2 n1 auto add w).2 else net
      buildLoop weighted auto add sym strtod lines net dict

/-- `FBuildNetwork`, src/graph.c:533-611, on the lines of the file split into fields. -/
def FBuildNetwork (lines : List (List String)) (weighted auto add sym : Bool)
    (strtod : String → Option ℚ) : Option (Option Net) :=
  buildLoop weighted auto add sym strtod lines CreateHeaderGraph []

/-! ## Whole-network queries -/

/-- `CountNodes`, src/graph.c:1373-1380. -/
def CountNodes (net : Net) : ℕ := net.n

/-- Sum over the nodes `i, i+1, …` of the answers of `NodeDegree` passed through `f`
(loops at src/graph.c:1430-1434 and 1452-1454). -/
def sumDegrees (f : ℕ → ℕ) : (todo : ℕ) → (i : ℕ) → Net → ℕ × Net
  | 0, _, net => (0, net)
  | todo + 1, i, net =>
    let d := NodeDegree net i
    let r := sumDegrees f todo (i + 1) d.2
    (f d.1 + r.1, r.2)

/-- `TotalNLinks`, src/graph.c:1447-1460. -/
def TotalNLinks (net : Net) (sym : Bool) : ℕ × Net :=
  let r := sumDegrees id net.n 0 net
  (if sym then r.1 / 2 else r.1, r.2)

/-- `AverageSquaredDegree`, src/graph.c:1424-1438: the quotient is computed between `int`s; an
empty network divides by zero (`none`). -/
def AverageSquaredDegree (net : Net) : Option (ℚ × Net) :=
  let r := sumDegrees (fun k => k * k) net.n 0 net
  if net.n = 0 then none else some (((r.1 / net.n : ℕ) : ℚ), r.2)

/-- `AverageDegree`, src/graph.c:1406-1415 (`none`: division by zero). -/
def AverageDegree (net : Net) (sym : Bool) : Option (ℚ × Net) :=
  let r := TotalNLinks net sym
  if net.n = 0 then none
  else some (if sym then ((2 * r.1 : ℕ) : ℚ) / net.n else (r.1 : ℚ) / net.n, r.2)

/-- `IsThereNode`, src/graph.c:790-799, with explicit addresses of the label buffers: `p->label ==
label` compares pointers. -/
def IsThereNode (label : ℕ) (labelAddr : List ℕ) : Bool := labelAddr.any fun a => a = label

end GR
