import Verif.Programs.Model

/-!
# The program reliability_links_k

Conventions as in `Verif.Programs.Model`. `strtod` reads a weight (`sscanf` with `%lf`), `atoi` a number.
-/

namespace PG

open RG
open GR (IsThereLink)

/-- `fopen`, `FBuildNetwork(infile, 1, 0, 0, 1)`, `fclose`: a file that cannot be opened gives NULL to `fgets`; a malformed line gives the
network NULL, dereferenced by `LSMultiLinkScoreKState`. -/
def loadW (strtod : String → Option ℚ) (files : String → Option (List Char)) (f : String) : Res GR.Net :=
  match files f with
  | none => .ub
  | some text =>
    match GR.FBuildNetwork (GR.fileFields text) true false false true strtod with
    | some (some net) => .ok net
    | _ => .ub

/-- A line of the output: two labels and the scores of the ratings (`none`: not a number). -/
abbrev KLine := String × String × List (Option ℚ)

/-- The loop that prints, reliability/main_reliability_links_k.c:70-88. -/
def kLines (net : GR.Net) (K : ℕ) (score : ℕ → ℕ × ℕ → Option ℚ) : List (ℕ × ℕ) → List KLine × List KLine
  | [] => ([], [])
  | q :: qs =>
    let r := kLines net K score qs
    let line := (net.label q.1, net.label q.2, (List.range K).map fun k => score k q)
    if IsThereLink net q.1 q.2 = false then (line :: r.1, r.2) else (r.1, line :: r.2)

/-- `main` of `reliability_links_k`, reliability/main_reliability_links_k.c:18-99: the lines of the files `unobserved_k.dat` and
`observed_k.dat`. Two arguments are asked for but `argv[3]` is used: `atoi(NULL)` is undefined. A negative `K` is a size given to `calloc` and
an index of a table (`FastLogFact(K - 1)`); it is taken as undefined. The decorrelation step given is -1, so that it is estimated; verbosity
`'v'`, so that the running energy is reset. -/
noncomputable def reliability_links_k (mi : KS.KSt → KS.KSt → ℝ) (solver : WU.Solver) (acc : ℝ → ℚ → Bool) (fuel : ℕ)
    (strtod : String → Option ℚ) (atoi : String → Int) (files : String → Option (List Char)) (argv : List String) (t : Tape) :
    Res (Option (List KLine × List KLine)) :=
  match argv with
  | [] => .ok none
  | [_] => .ok none
  | [_, _] => .ub
  | k :: f :: _ :: _ => do
    let net ← loadW strtod files f
    let K ← Res.ofOption (if 0 ≤ atoi k then some (atoi k).toNat else none)
    let score ← WU.LSMultiLinkScoreKState mi solver acc (toNet net) K 10000 0 true fuel t
    return some (kLines net K score (KS.queries net.n))

end PG
