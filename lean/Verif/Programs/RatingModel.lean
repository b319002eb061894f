import Verif.Programs.PartModel
import Verif.Tools.Model
import Verif.Recommend.QueryModel
import Verif.Recommend.GibbsModel
import Verif.Recommend.Conflict
import Verif.Warm.RefineModel

/-!
# The programs that predict ratings: multi_recommend_2, multi_recommend_k, multi_recommend_k_gibbs and conflict

`argv` holds the arguments after the name of the program. `files` gives the text of a file (`none`: it cannot be opened; the programs do not
check this). `strtod` reads a rating (`sscanf` with `%lf`), `atoi` a number. Lines printed for the progress are left out. A program that never
ends is `starved`.
-/

namespace PG

open RG

/-- The words that calls of `fscanf` with `%s` find in the rest of a file. -/
def scanAll : ℕ → List Char → List String
  | 0, _ => []
  | fuel + 1, s =>
    match FIO.scanWord s with
    | none => []
    | some (w, r) => String.ofList w :: scanAll fuel r

/-- `CountLinesInFile`, `fopen`, `ReadQueries`, `fclose`, recommender/main_multi_recommend_2.c:51-56. -/
def readQueries (files : String → Option (List Char)) (name : String) (b : BP.LBi) : Res (BP.LBi × List (ℕ × ℕ)) :=
  match files name with
  | none => .ub
  | some text => Res.ofOption (RC.ReadQueries (scanAll text.length text) (Tools.CountLinesInFile text) b)

variable (mi1 mi2 : RC.View → RC.View → ℝ) (solver : WU.Solver) (acc : ℝ → ℚ → Bool) (fuel : ℕ)
variable (strtod : String → Option ℚ) (atoi : String → Int) (files : String → Option (List Char))

/-- `main` of `multi_recommend_2`, recommender/main_multi_recommend_2.c:22-76: the lines of the results. Two arguments are asked for but `argv[3]`
is used: `atoi(NULL)` is undefined. -/
noncomputable def multi_recommend_2 (argv : List String) (t : Tape) : Res (Option (List (String × String × Option ℚ))) :=
  match argv with
  | [] => .ok none
  | [_] => .ok none
  | [_, _] => .ub
  | o :: q :: _ :: _ => do
    let b ← loadBi files true strtod o
    let (d, qs) ← readQueries files q b
    let score ← WU.MultiLinkScore2State mi1 mi2 solver acc d.bi qs 10000 0 true fuel t
    return some (qs.map fun q => (d.label1 q.1, d.label2 q.2, score q))

/-- `main` of `multi_recommend_k`, recommender/main_multi_recommend_k.c:22-79. `argv[4]` is not asked for. `MultiLinkScoreKState` has arrays
with `K` elements on the stack, undefined for `K` less than 1. A query takes two lines of the output, labels and scores; here they are one. -/
noncomputable def multi_recommend_k (argv : List String) (t : Tape) : Res (Option (List (String × String × List (Option ℚ)))) :=
  match argv with
  | [] => .ok none
  | [_] => .ok none
  | [_, _] => .ok none
  | [_, _, _] => .ub
  | k :: o :: q :: _ :: _ => do
    let b ← loadBi files true strtod o
    let (d, qs) ← readQueries files q b
    let K ← Res.ofOption (if 0 < atoi k then some (atoi k).toNat else none)
    let score ← WU.MultiLinkScoreKState mi1 mi2 solver acc d.bi K qs 10000 0 fuel t
    return some (qs.map fun q => (d.label1 q.1, d.label2 q.2, (List.range K).map fun k => score k q))

/-- `GibbsMultiLinkScoreKState`, src/recommend.c:2256-2529, with its thermalization, 2395-2403. -/
noncomputable def GibbsMultiLinkScoreKState (b : BP.Bi) (K : ℕ) (qs : List (ℕ × ℕ)) (nIter : ℕ) (t : Tape) :
    Res (ℕ → ℕ × ℕ → Option ℚ) := do
  let c ← Res.ofOption (RC.clean b qs)
  let p1 := RC.ownGroups c.n1
  let p2 := RC.ownGroups c.n2
  let H ← Res.ofOption (RC.HKState c K p1 p2)
  let s ← WU.Thermalize .strict (fun _ => RC.GibbsStepKState c K) (fun s => s.H) 0 fuel (RC.startView c p1 p2 H t)
  let A ← RC.gSample (RC.GibbsStepKState c K) (RC.scoreK K) nIter fuel s s.H (KS.Acc.mk 0 0 fun _ _ => some 0)
  return fun k q => if A.norm = 0 then none else (A.score k q).map (· / A.norm)

/-- `main` of `multi_recommend_k_gibbs`, recommender/main_multi_recommend_k_gibbs.c:22-79. -/
noncomputable def multi_recommend_k_gibbs (argv : List String) (t : Tape) : Res (Option (List (String × String × List (Option ℚ)))) :=
  match argv with
  | [] => .ok none
  | [_] => .ok none
  | [_, _] => .ok none
  | [_, _, _] => .ub
  | k :: o :: q :: _ :: _ => do
    let b ← loadBi files true strtod o
    let (d, qs) ← readQueries files q b
    let K ← Res.ofOption (if 0 < atoi k then some (atoi k).toNat else none)
    let score ← GibbsMultiLinkScoreKState fuel d.bi K qs 10000 t
    return some (qs.map fun q => (d.label1 q.1, d.label2 q.2, (List.range K).map fun k => score k q))

/-- `AllLinkScore2State`, src/conflict.c:34-309, with its warm-up, 168-221. -/
noncomputable def AllLinkScore2State (b : BP.Bi) (nIter decor : ℕ) (reset : Bool) (t : Tape) : Res (List ((ℕ × ℕ) × Option ℚ)) := do
  let p1 := RC.ownGroups b.n1
  let p2 := RC.ownGroups b.n2
  let H ← Res.ofOption (RC.H2State b p1 p2)
  let (d, s) ← WU.warmup2 (RC.MCStep2State acc b) mi1 mi2 solver b.n1 b.n2 decor fuel (RC.startView b p1 p2 H t)
  let score ← RC.bRun (RC.MCStep2State acc b) (fun s _ q => RC.score2 s q) nIter [] d reset fuel s
  return (RC.allPairs b).map fun q => (q, score 1 q)

/-- `main` of `conflict`, conflict/main_conflict.c:22-70: the lines of `link_scores.dat`. The number of pairs is an `int`. -/
noncomputable def conflict (argv : List String) (t : Tape) : Res (Option (List (String × String × Option ℚ))) :=
  match argv with
  | [] => .ok none
  | [_] => .ok none
  | o :: _ :: _ => do
    let b ← loadBi files true strtod o
    let _ ← Res.ofOption (if b.bi.n1 * b.bi.n2 ≤ 2147483647 then some () else none)
    let r ← AllLinkScore2State mi1 mi2 solver acc fuel b.bi 10000 0 true t
    return some (RC.conflictLines b.label1 b.label2 r)

end PG
