import Verif.Bipart.BuildModel
import Verif.Recommend.Model

/-!
# Model: queries and the recommender programs (`src/recommend.c`, `recommender/`)

The dictionaries of labels (`MakeLabelDict`, `GetNodeDict`) give the node with the label, if there is one (C113).
-/

namespace RC

open RG BP

/-- `GetNodeDict`, src/graph.c:757-773, for a set of `n` nodes. -/
def findLabel (n : ℕ) (label : ℕ → String) (a : String) : Option ℕ := (List.range n).find? fun i => label i = a

/-- Node of the first set with a label, created without links if absent, src/recommend.c:180-189. -/
def touch1 (b : LBi) (a : String) : ℕ × LBi :=
  match findLabel b.bi.n1 b.label1 a with
  | some i => (i, b)
  | none => (b.bi.n1, { b with
      bi := { b.bi with n1 := b.bi.n1 + 1, neig1 := Function.update b.bi.neig1 b.bi.n1 [] }
      label1 := Function.update b.label1 b.bi.n1 a })

/-- The same for the second set, src/recommend.c:190-199. -/
def touch2 (b : LBi) (a : String) : ℕ × LBi :=
  match findLabel b.bi.n2 b.label2 a with
  | some i => (i, b)
  | none => (b.bi.n2, { b with
      bi := { b.bi with n2 := b.bi.n2 + 1, neig2 := Function.update b.bi.neig2 b.bi.n2 [] }
      label2 := Function.update b.label2 b.bi.n2 a })

/-- `fscanf(inFile, "%s %s\n", node1, node2)`, src/recommend.c:179: the buffers after the call and the words left. Buffers for
which there is no word stay as they are. -/
def scanPair : List String → Option String → Option String → Option String × Option String × List String
  | [], p1, p2 => (p1, p2, [])
  | [a], _, p2 => (some a, p2, [])
  | a :: c :: rest, _, _ => (some a, some c, rest)

/-- The loop of `ReadQueries`, src/recommend.c:178-201, on the words of the file. `none`: a label does not fit its buffer, or a
buffer is used that nothing has been read into. -/
def queryLoop : ℕ → List String → Option String → Option String → LBi → Option (LBi × List (ℕ × ℕ))
  | 0, _, _, _, b => some (b, [])
  | nq + 1, toks, p1, p2, b =>
    match scanPair toks p1 p2 with
    | (some a, some c, rest) =>
      if GR.fits a ∧ GR.fits c then do
        let r1 := touch1 b a
        let r2 := touch2 r1.2 c
        let r ← queryLoop nq rest (some a) (some c) r2.2
        return (r.1, (r1.1, r2.1) :: r.2)
      else none
    | _ => none

/-- `ReadQueries`, src/recommend.c:158-213: the network afterwards and the queries, as pairs of nodes. -/
def ReadQueries (words : List String) (nQueries : ℕ) (b : LBi) : Option (LBi × List (ℕ × ℕ)) :=
  queryLoop nQueries words none none b

/-- `main` of `multi_recommend_2`, recommender/main_multi_recommend_2.c:48-72, after the arguments: the lines printed. The files are given
as lines split into words; all lines are shorter than the buffer of `CountLinesInFile`. Inner `none`: the file of ratings is
not well formed and `ReadRecommenderObservations` (src/recommend.c:136-141) returns NULL, which is then dereferenced: undefined. -/
noncomputable def recommend2 (acc : ℝ → ℚ → Bool) (strtod : String → Option ℚ) (ratings queries : List (List String)) (nIter : ℕ)
    (warm : List ℕ) (decorStep fuel : ℕ) (t : Tape) : Res (List (String × String × Option ℚ)) := do
  let r ← Res.ofOption (FBuildNetworkBipart ratings true false strtod)
  let b ← Res.ofOption r
  let (d, qs) ← Res.ofOption (ReadQueries queries.flatten queries.length b)
  let score ← MultiLinkScore2State acc d.bi qs nIter warm decorStep true fuel t
  return qs.map fun q => (d.label1 q.1, d.label2 q.2, score q)

/-- `main` of `multi_recommend_k`, recommender/main_multi_recommend_k.c:49-76: the lines printed, with `K` scores each. -/
noncomputable def recommendK (acc : ℝ → ℚ → Bool) (strtod : String → Option ℚ) (K : ℕ) (ratings queries : List (List String))
    (nIter : ℕ) (warm : List ℕ) (decorStep fuel : ℕ) (t : Tape) : Res (List (String × String × List (Option ℚ))) := do
  let r ← Res.ofOption (FBuildNetworkBipart ratings true false strtod)
  let b ← Res.ofOption r
  let (d, qs) ← Res.ofOption (ReadQueries queries.flatten queries.length b)
  let score ← MultiLinkScoreKState acc d.bi K qs nIter warm decorStep fuel t
  return qs.map fun q => (d.label1 q.1, d.label2 q.2, (List.range K).map fun k => score k q)

/-- What happens to the arguments of a program. -/
inductive Args where
  | usage
  | run (args : List String)
  | undefined
deriving DecidableEq

/-- Arguments of `multi_recommend_2`, recommender/main_multi_recommend_2.c:36-45: `argv` without its terminating NULL, `argv[0]` included.
`atoi(NULL)` is undefined. -/
def args2 (argv : List String) : Args :=
  if argv.length < 3 then .usage
  else match argv[1]?, argv[2]?, argv[3]? with
    | some o, some q, some s => .run [o, q, s]
    | _, _, _ => .undefined

/-- Arguments of `multi_recommend_k`, recommender/main_multi_recommend_k.c:37-46. -/
def argsK (argv : List String) : Args :=
  if argv.length < 4 then .usage
  else match argv[1]?, argv[2]?, argv[3]?, argv[4]? with
    | some k, some o, some q, some s => .run [k, o, q, s]
    | _, _, _, _ => .undefined

end RC
