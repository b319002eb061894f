import Verif.NC.Model

/-!
# Reading and writing files (`src/io.c`, partition files of `src/modules.c`)

A file is the list of its bytes, written as characters; a label is the list of its bytes. `EdgeListFileInput` takes the
file already divided into lines and fields, as `getline` and `sscanf` divide it.
-/

namespace FIO

open NC

/-- Outcome of a reader: a value, undefined behaviour, or a loop that never ends. -/
inductive Rd (α : Type) where
  | ok (a : α)
  | ub
  | hang
deriving DecidableEq, Repr

/-- Sequencing. -/
def Rd.bind {α β : Type} : Rd α → (α → Rd β) → Rd β
  | .ok a, f => f a
  | .ub, _ => .ub
  | .hang, _ => .hang

/-- From a model function in which `none` is undefined behaviour. -/
def Rd.ofOption {α : Type} : Option α → Rd α
  | some a => .ok a
  | none => .ub

/-- A label fits its buffer of `MAX_LABEL_LENGTH` bytes with the final NUL (src/io.h:14, src/graph.h:11). -/
def fits {α : Type} (l : List α) : Bool := decide (l.length < 100)

/-! ## Clusterings of netcarto -/

/-- Tabulation or end of line. -/
def isSep (c : Char) : Bool := c == '\t' || c == '\n'

/-- `ClusteringOutput`, src/io.c:232-245. -/
def ClusteringOutput (p : Partition) (labels : ℕ → List Char) : Option (List Char) :=
  (List.range p.M).foldlM (fun out m => do
    let l ← moduleNodes p m
    some (l.foldl (fun out i => out ++ labels (p.nodes i).id ++ ['\t']) out ++ ['\n'])) []

/-- `fscanf(inF, "%[^\t\n]%[\t\n]", &label, &sep)`, src/io.c:266 and src/modules.c:126, on the rest `s` of the file, when
`s` does not start with a separator: label, contents of `sep`, rest. `sep` has two bytes, so a run of two separators does
not fit. Without a separator at the end of the file `sep` keeps what it had (`old`). -/
def scanLabel (old : Option Char) (s : List Char) : Rd (List Char × Option Char × List Char) :=
  let l := s.takeWhile (fun c => !isSep c)
  let r := s.dropWhile (fun c => !isSep c)
  let run := r.takeWhile isSep
  if ¬ fits l then .ub
  else
    match run with
    | [] => .ok (l, old, r)
    | [c] => .ok (l, some c, r.dropWhile isSep)
    | _ => .ub

/-- Loop `while (!feof(inF))`, src/io.c:265-292, and 125-134 of src/modules.c: `step` is what is done with a label and
with `sep[0]`. A file that starts with a separator is never read on: `fscanf` returns 0 and `feof` stays 0. At the end of the
file (only possible at the first turn) `fscanf` returns -1 and the label, not initialised, is used. `sep` is not
initialised either. -/
def scanLoop {σ : Type} (step : σ → List Char → Char → Rd σ) : (fuel : ℕ) → Option Char → σ → List Char → Rd σ
  | 0, _, _, _ => .hang
  | fuel + 1, old, st, s =>
    match s with
    | [] => .ub
    | c :: _ =>
      if isSep c then .hang
      else (scanLabel old s).bind fun r =>
        match r.2.1 with
        | none => .ub
        | some c => (step st r.1 c).bind fun st =>
          if r.2.2 = [] then .ok st else scanLoop step fuel (some c) st r.2.2

/-- `hsearch(e, FIND)` after all labels have been entered, src/io.c:258-262: the node with this label. (For repeated labels
the first one is kept.) -/
def findLabel (labels : ℕ → List Char) (N : ℕ) (l : List Char) : Option ℕ := (List.range N).find? fun i => labels i = l

/-- Variables of the loop: the partition, the module `j`, and `nnode`. -/
structure ASt where
  p : Partition
  j : ℕ
  nnode : Int

/-- Body of the loop, src/io.c:268-290. The assignment of node to module is that of `AssignNodesToModules`. -/
def assignStep (labels : ℕ → List Char) (st : ASt) (l : List Char) (c : Char) : Rd ASt :=
  match findLabel labels st.p.N l with
  | none => .ub
  | some i => (Rd.ofOption (assignOne st.p i st.j)).bind fun p =>
    .ok { p := p, j := if c = '\n' then st.j + 1 else st.j, nnode := st.nnode - 1 }

/-- `AssignNodesToModulesFromFile`, src/io.c:247-296. -/
def AssignNodesToModulesFromFile (s : List Char) (p : Partition) (labels : ℕ → List Char) : Rd (Int × Partition) :=
  (scanLoop (assignStep labels) (s.length + 1) none { p := p, j := 0, nnode := p.N } s).bind fun st =>
    (Rd.ofOption (CompressPartition st.p)).bind fun p => .ok (st.nnode, p)

/-! ## Partition files of rgraph. A partition is the list of its groups, a group the list of its labels. -/

/-- `FReadPartition`, src/modules.c:112-136: the groups closed so far and the current one. -/
def readStep (st : List (List (List Char)) × List (List Char)) (l : List Char) (c : Char) :
    Rd (List (List (List Char)) × List (List Char)) :=
  .ok (if c = '\n' then (st.1 ++ [st.2 ++ [l]], []) else (st.1, st.2 ++ [l]))

/-- `FReadPartition`, src/modules.c:112-136. -/
def FReadPartition (s : List Char) : Rd (List (List (List Char))) :=
  (scanLoop readStep (s.length + 1) none ([], []) s).bind fun st => .ok (st.1 ++ [st.2])

/-- `isspace`. -/
def isSpace (c : Char) : Bool := c == ' ' || c == '\t' || c == '\n' || c == '\x0b' || c == '\x0c' || c == '\r'

/-- The separator of groups. -/
def slashes : List Char := ['/', '/', '/']

/-- `FPrintPartition` with `list_sw = 1`, src/modules.c:1529-1567. -/
def FPrintPartition (P : List (List (List Char))) : List Char :=
  P.foldl (fun out g =>
    if 0 < g.length then g.foldl (fun out l => out ++ l ++ ['\n']) out ++ slashes ++ ['\n'] else out) []

/-- `fscanf(inF, "%s\n", label)`: the word and the rest of the file after the white space that follows it; `none` at the
end of the file. -/
def scanWord (s : List Char) : Option (List Char × List Char) :=
  let s := s.dropWhile isSpace
  if s = [] then none
  else some (s.takeWhile (fun c => !isSpace c), (s.dropWhile (fun c => !isSpace c)).dropWhile isSpace)

/-- Inner loop of `FCreatePartition`, src/modules.c:164-170: `label` is the current word, `g` the group. At the end of the
file the same label is added for ever. -/
def readGroup : (fuel : ℕ) → List Char → List Char → List (List Char) → Rd (List (List Char) × List Char)
  | 0, _, _, _ => .hang
  | fuel + 1, s, label, g =>
    if label = slashes then .ok (g, s)
    else
      match scanWord s with
      | none => .hang
      | some (w, s) => if fits w then readGroup fuel s w (g ++ [label]) else .ub

/-- Outer loop, src/modules.c:157-171. When the end of the file has been reached at the start of a turn (an empty
file), the label is not initialised. -/
def readGroups : (fuel : ℕ) → List Char → List (List (List Char)) → Rd (List (List (List Char)))
  | 0, _, _ => .hang
  | fuel + 1, s, P =>
    match scanWord s with
    | none => .ub
    | some (w, s) =>
      if fits w then
        (readGroup (s.length + 1) s w []).bind fun r =>
          if r.2 = [] then .ok (P ++ [r.1]) else readGroups fuel r.2 (P ++ [r.1])
      else .ub

/-- `FCreatePartition`, src/modules.c:142-174. -/
def FCreatePartition (s : List Char) : Rd (List (List (List Char))) := readGroups (s.length + 1) s []

/-! ## Edge lists of netcarto -/

/-- Fields of one line, src/io.c:96-119: `none` if there are not enough. Further fields are ignored. `strtod` is the
conversion of `%lf`. Outer `none`: a label overflows its buffer. -/
def readFields (weighted : Bool) (strtod : String → Option ℚ) (toks : List String) : Option (Option (String × String × ℚ)) :=
  match toks with
  | [] => some none
  | [a] => if a.utf8ByteSize < 100 then some none else none
  | a :: b :: rest =>
    if a.utf8ByteSize < 100 ∧ b.utf8ByteSize < 100 then
      if weighted then
        match rest with
        | [] => some none
        | c :: _ => some ((strtod c).map fun w => (a, b, w))
      else some (some (a, b, 1))
    else none

/-- Variables of `EdgeListFileInput`: the two trees with the identifiers, the arrays filled so far, and their capacities. -/
structure ESt where
  tree1 : List (String × ℕ)
  tree2 : List (String × ℕ)
  labels : List String
  nOther : ℕ
  edges : List (ℕ × ℕ × ℚ)
  Nmax : ℕ
  Emax : ℕ

/-- A label of the first tree, src/io.c:122-137 and 142-151: its identifier; new ones are stored in `labels`, which has
`Nmax + 1` slots. -/
def node1 (st : ESt) (l : String) : Option (ℕ × ESt) :=
  match st.tree1.lookup l with
  | some i => some (i, st)
  | none =>
    if st.labels.length < st.Nmax + 1 then
      some (st.labels.length, { st with tree1 := (l, st.labels.length) :: st.tree1, labels := st.labels ++ [l] })
    else none

/-- A label of the second tree, src/io.c:157-165. -/
def node2 (st : ESt) (l : String) : ℕ × ESt :=
  match st.tree2.lookup l with
  | some i => (i, st)
  | none => (st.nOther, { st with tree2 := (l, st.nOther) :: st.tree2, nOther := st.nOther + 1 })

/-- Growth of the arrays, src/io.c:169-181. -/
def growArrays (st : ESt) : ESt :=
  { st with
    Nmax := if st.Nmax ≤ st.labels.length + 2 then st.Nmax * 2 else st.Nmax
    Emax := if st.Emax ≤ st.edges.length + 1 then st.Emax * 2 else st.Emax }

/-- One line, src/io.c:89-182; the arrays of edges have `Emax + 1` slots. Inner `none`: the function returns 1. -/
def readEdge (weighted : Bool) (bipartite : ℕ) (strtod : String → Option ℚ) (st : ESt) (toks : List String) :
    Option (Option ESt) := do
  if ¬ st.edges.length < st.Emax + 1 then none
  match ← readFields weighted strtod toks with
  | none => return none
  | some (a, b, w) =>
    let l1 := if 1 < bipartite then b else a
    let l2 := if 1 < bipartite then a else b
    let (i, st) ← node1 st l1
    let (j, st) ← if bipartite = 0 then node1 st l2 else some (node2 st l2)
    return some (growArrays { st with edges := st.edges ++ [(i, j, w)] })

/-- The loop over the lines. -/
def readEdges (weighted : Bool) (bipartite : ℕ) (strtod : String → Option ℚ) : ESt → List (List String) →
    Option (Option ESt)
  | st, [] => some (some st)
  | st, l :: ls => do
    match ← readEdge weighted bipartite strtod st l with
    | none => return none
    | some st => readEdges weighted bipartite strtod st ls

/-- What `EdgeListFileInput` gives back: 1 or 2, or 0 with the edges and the labels. -/
inductive EOut where
  | error (code : ℕ)
  | ok (edges : List (ℕ × ℕ × ℚ)) (labels : List String)

/-- `EdgeListFileInput`, src/io.c:53-210. -/
def EdgeListFileInput (lines : List (List String)) (weighted : Bool) (bipartite : ℕ) (strtod : String → Option ℚ) :
    Option EOut :=
  if 2 < bipartite then some (.error 2)
  else do
    match ← readEdges weighted bipartite strtod
        { tree1 := [], tree2 := [], labels := [], nOther := 0, edges := [], Nmax := 10, Emax := 100 } lines with
    | none => return .error 1
    | some st => return .ok st.edges st.labels

end FIO
