import Verif.Print.Model
import Verif.Bipart.BuildModel

/-!
# Writing bipartite networks, and Pajek files (`src/bipartite.c`, `src/graph.c`, `src/modules.c`)
-/

namespace BP

open GR (linkLine)

/-- `FPrintBipart`, src/bipartite.c:812-833: the links of the nodes of the first set. -/
def FPrintBipart (showG : ℚ → String) (b : LBi) (weighted : Bool) : List Char :=
  (List.range b.bi.n1).flatMap fun i => (b.bi.neig1 i).flatMap fun l => linkLine showG weighted (b.label1 i) (b.label2 l.1) l.2

end BP

namespace GR

/-- A line of a Pajek file: the number of vertices (and of those of the first set); a vertex, number and label; the title
of the links; a link with its weight if it is printed. -/
inductive PLine where
  | vertices (n : ℕ) (n1 : Option ℕ)
  | vertex (num : ℕ) (label : String)
  | arcs
  | edges
  | link (i j : ℕ) (w : Option ℚ)
  | member (g : ℤ)
deriving DecidableEq, Repr

/-- Links of one node, src/graph.c:715-728. A soft link is undefined behaviour. -/
def pajekRow (weighted sym : Bool) (i : ℕ) : List Link → Option (List PLine)
  | [] => some []
  | l :: ls => do
    let j ← l.ref
    let rest ← pajekRow weighted sym i ls
    return if sym = false ∨ i ≤ j then .link (i + 1) (j + 1) (if weighted then some l.weight else none) :: rest else rest

/-- All links, src/graph.c:713-729. -/
def pajekRows (net : Net) (weighted sym : Bool) : List ℕ → Option (List PLine)
  | [] => some []
  | i :: is => do
    let a ← pajekRow weighted sym i (net.neig i)
    let b ← pajekRows net weighted sym is
    return a ++ b

/-- `FPrintPajekFile`, src/graph.c:674-734. Coordinates and the opening of the file are left out. -/
def FPrintPajekFile (net : Net) (weighted sym : Bool) : Option (List PLine) := do
  let links ← pajekRows net weighted sym (List.range net.n)
  return .vertices net.n none :: ((List.range net.n).map fun i => .vertex (i + 1) (net.label i)) ++
    (if sym then .edges else .arcs) :: links

/-- `FPrintPajekFileBipart`, src/bipartite.c:743-806. Coordinates are left out. -/
def FPrintPajekFileBipart (b : BP.LBi) (weighted : Bool) : List PLine :=
  .vertices (b.bi.n1 + b.bi.n2) (some b.bi.n1) :: ((List.range b.bi.n1).map fun i => .vertex (i + 1) (b.label1 i)) ++
    ((List.range b.bi.n2).map fun j => .vertex (j + b.bi.n1 + 1) (b.label2 j)) ++ .edges ::
    (List.range b.bi.n1).flatMap fun i => (b.bi.neig1 i).map fun l =>
      .link (i + 1) (l.1 + b.bi.n1 + 1) (if weighted then some l.2 else none)

/-- `FPrintPajekPartitionFile`, src/modules.c:1573-1587; a node without group has `inGroup == -1`. -/
def FPrintPajekPartitionFile (net : Net) (inGroup : ℕ → Option ℕ) : List PLine :=
  .vertices net.n none :: (List.range net.n).map fun i => .member (match inGroup i with | some g => (g : ℤ) + 1 | none => -1 + 1)

end GR
