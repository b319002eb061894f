import Verif.Graph.Model
import Mathlib.Algebra.BigOperators.Group.Finset.Basic
import Mathlib.Data.List.Dedup

/-!
# Specification: a network is a partial weight function on ordered pairs of nodes
-/

namespace GR

/-- `g i j` is the weight of the link from `i` to `j`, `none` if there is none. -/
abbrev WG := ℕ → ℕ → Option ℚ

/-- Change one entry. -/
def WG.set (g : WG) (i j : ℕ) (v : Option ℚ) : WG :=
  fun a b => if a = i ∧ b = j then v else g a b

/-- Number of links that start at `i`, among nodes `< n`. -/
def WG.degree (g : WG) (n i : ℕ) : ℕ := ((Finset.range n).filter fun j => (g i j).isSome).card

/-- Sum of the weights of the links that start at `i`. -/
def WG.strength (g : WG) (n i : ℕ) : ℚ := ∑ j ∈ Finset.range n, (g i j).getD 0

/-- What adding a link means. -/
def WG.add (g : WG) (i j : ℕ) (auto add : Bool) (w : ℚ) : Int × WG :=
  if i = j ∧ auto = false then (0, g)
  else match g i j with
    | none => (1, g.set i j (some w))
    | some v => if add then (1, g.set i j (some (v + w))) else (0, g)

/-- What removing a link means; removing an absent link is not allowed. -/
def WG.remove (g : WG) (i j : ℕ) (sym : Bool) : Option WG :=
  if (g i j).isNone then none
  else if sym ∧ i ≠ j then
    if (g j i).isNone then none else some ((g.set i j none).set j i none)
  else some (g.set i j none)

/-- A call of the link interface. -/
inductive Op where
  | add (i j : ℕ) (auto add : Bool) (w : ℚ)
  | remove (i j : ℕ) (sym : Bool)
  | degree (i : ℕ)
  | strength (i : ℕ)
  | isLink (i j : ℕ)

/-- Answer of a call. -/
inductive Out where
  | unit
  | int (r : Int)
  | nat (d : ℕ)
  | rat (s : ℚ)
  | bool (b : Bool)
deriving DecidableEq

/-- Nodes named by a call are nodes of the network. -/
def Op.inRange (n : ℕ) : Op → Prop
  | .add i j _ _ _ => i < n ∧ j < n
  | .remove i j _ => i < n ∧ j < n
  | .degree i => i < n
  | .strength i => i < n
  | .isLink i j => i < n ∧ j < n

/-- Meaning of a call on the weight function; `none` when a link to be removed is absent. -/
def specStep (n : ℕ) (g : WG) : Op → Option (Out × WG)
  | .add i j auto add w => some (.int (g.add i j auto add w).1, (g.add i j auto add w).2)
  | .remove i j sym => (g.remove i j sym).map fun g => (.unit, g)
  | .degree i => some (.nat (g.degree n i), g)
  | .strength i => some (.rat (g.strength n i), g)
  | .isLink i j => some (.bool (g i j).isSome, g)

/-- The same call made on the network. -/
def netStep (net : Net) : Op → Option (Out × Net)
  | .add i j auto add w =>
    let r := AddAdjacency net i j auto add w
    some (.int r.1, r.2)
  | .remove i j sym => (RemoveLink net i j sym).map fun net => (.unit, net)
  | .degree i => some (.nat (NodeDegree net i).1, (NodeDegree net i).2)
  | .strength i => some (.rat (NodeStrength net i).1, (NodeStrength net i).2)
  | .isLink i j => some (.bool (IsThereLink net i j), net)

/-- A history of calls. -/
def runOps {S : Type} (step : S → Op → Option (Out × S)) : S → List Op → Option (List Out × S)
  | s, [] => some ([], s)
  | s, o :: os => do
    let (r, s) ← step s o
    let (rs, s) ← runOps step s os
    return (r :: rs, s)

/-- The adjacency lists of `net` hold exactly the links of `g`: every list has one element per link
that starts there, pointing to a node of the network, with its weight. -/
def Holds (net : Net) (g : WG) : Prop :=
  ∀ i, i < net.n →
    ((net.neig i).map Link.ref).Nodup ∧
    (∀ l ∈ net.neig i, ∃ j, j < net.n ∧ l.ref = some j ∧ g i j = some l.weight) ∧
    ∀ j w, g i j = some w → ∃ l ∈ net.neig i, l.ref = some j ∧ l.weight = w

/-- The cached degree and strength of every node are empty (0) or right.  True of every new network;
kept by every operation below. -/
def CachesOK (net : Net) : Prop :=
  ∀ i, i < net.n → (net.degree i = 0 ∨ net.degree i = (net.neig i).length) ∧
    (net.strength i = 0 ∨ net.strength i = ((net.neig i).map Link.weight).sum)

/-- The label stored in every link is the label of its target. -/
def LabelsOK (net : Net) : Prop :=
  ∀ i, i < net.n → ∀ l ∈ net.neig i, ∀ j, l.ref = some j → l.nodeLabel = net.label j

/-- A well formed line, split into fields, and the link it describes: two labels that fit their
buffers and, for weighted files, a number; other fields are ignored. -/
def LineSays (weighted : Bool) (strtod : String → Option ℚ) (toks : List String)
    (l : String × String × ℚ) : Prop :=
  fits l.1 = true ∧ fits l.2.1 = true ∧
  if weighted then ∃ c rest, toks = l.1 :: l.2.1 :: c :: rest ∧ strtod c = some l.2.2
  else (∃ rest, toks = l.1 :: l.2.1 :: rest) ∧ l.2.2 = 1

/-- A line without enough fields (or whose weight is not a number). -/
def LineBad (weighted : Bool) (strtod : String → Option ℚ) (toks : List String) : Prop :=
  (∀ s ∈ toks, fits s = true) ∧
  if weighted then toks.length < 3 ∨ ∃ a b c rest, toks = a :: b :: c :: rest ∧ strtod c = none
  else toks.length < 2

/-- Weights given by the lines of a file to the link from label `a` to label `b`, in file order. -/
def statedWeights (sym : Bool) (lines : List (String × String × ℚ)) (a b : String) : List ℚ :=
  lines.flatMap fun l =>
    (if l.1 = a ∧ l.2.1 = b then [l.2.2] else []) ++
    (if sym ∧ l.1 ≠ l.2.1 ∧ l.2.1 = a ∧ l.1 = b then [l.2.2] else [])

/-- Distinct labels in order of first appearance. -/
def firstLabels (lines : List (String × String × ℚ)) : List String :=
  ((lines.flatMap fun l => [l.1, l.2.1]).reverse.dedup).reverse

/-- Weight of the link from `a` to `b` described by a file. -/
def fileWeight (auto add sym : Bool) (lines : List (String × String × ℚ)) (a b : String) : Option ℚ :=
  if a = b ∧ auto = false then none
  else match statedWeights sym lines a b with
    | [] => none
    | w :: ws => some (if add then w + ws.sum else w)

end GR
