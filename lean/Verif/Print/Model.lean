import Verif.Graph.Model
import Verif.IO.Model

/-!
# Writing networks to files (`src/graph.c`), and the lines and fields a reader sees

Files are lists of characters. `fprintf` never fails here (no full disk). The conversion `%g` is a parameter.
-/

namespace GR

open FIO (isSpace)

/-- The line of one link, src/graph.c:651-660: the two labels and, if asked, the weight. -/
def linkLine (showG : ℚ → String) (weighted : Bool) (a b : String) (w : ℚ) : List Char :=
  if weighted then a.toList ++ ' ' :: b.toList ++ ' ' :: (showG w).toList ++ ['\n']
  else a.toList ++ ' ' :: b.toList ++ ['\n']

/-- The links of one node in `FPrintNetAdjacencyList`, src/graph.c:646-661. `n->ref` is dereferenced: a soft link is
undefined behaviour. `strcmp` compares bytes, which is the order of `String`. -/
def printRow (showG : ℚ → String) (net : Net) (weighted sym : Bool) (i : ℕ) : List Link → Option (List Char)
  | [] => some []
  | l :: ls => do
    let j ← l.ref
    let rest ← printRow showG net weighted sym i ls
    return if sym = false ∨ net.label i ≤ net.label j then linkLine showG weighted (net.label i) (net.label j) l.weight ++ rest
      else rest

/-- The loop over nodes of `FPrintNetAdjacencyList`, src/graph.c:645-663. -/
def printRows (showG : ℚ → String) (net : Net) (weighted sym : Bool) : List ℕ → Option (List Char)
  | [] => some []
  | i :: is => do
    let a ← printRow showG net weighted sym i (net.neig i)
    let b ← printRows showG net weighted sym is
    return a ++ b

/-- `FPrintNetAdjacencyList`, src/graph.c:635-664: what is appended to the file. -/
def FPrintNetAdjacencyList (showG : ℚ → String) (net : Net) (weighted sym : Bool) : Option (List Char) :=
  printRows showG net weighted sym (List.range net.n)

/-- `FPrintDegrees`, src/graph.c:623-628, one pair per line; `NodeDegree` fills the cache. -/
def FPrintDegrees (net : Net) : List ℕ → List (String × ℕ) × Net
  | [] => ([], net)
  | i :: is =>
    let d := NodeDegree net i
    let r := FPrintDegrees d.2 is
    ((net.label i, d.1) :: r.1, r.2)

/-! ## Reading text: `getline` and the fields of `sscanf` -/

/-- Lines of a file, as `getline` returns them (src/graph.c:555), without the end of line; `cur` is the line so far. -/
def linesFrom (cur : List Char) : List Char → List (List Char)
  | [] => if cur = [] then [] else [cur]
  | c :: s => if c = '\n' then cur :: linesFrom [] s else linesFrom (cur ++ [c]) s

/-- Fields separated by white space, as `%s` reads them (src/graph.c:558, 566); `cur` is the field so far. -/
def wordsFrom (cur : List Char) : List Char → List (List Char)
  | [] => if cur = [] then [] else [cur]
  | c :: s =>
    if isSpace c then (if cur = [] then wordsFrom [] s else cur :: wordsFrom [] s)
    else wordsFrom (cur ++ [c]) s

/-- The lines of a file split into fields: the input of `FBuildNetwork`. -/
def fileFields (s : List Char) : List (List String) :=
  (linesFrom [] s).map fun l => (wordsFrom [] l).map String.ofList

end GR
