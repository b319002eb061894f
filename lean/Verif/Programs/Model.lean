import Verif.Utils.Model
import Verif.Warm.RefineModel
import Verif.Block.SparseModel

/-!
# The programs that score links (`reliability/`, `multiblock/`, `only_deg/`)

Conventions as in `Verif.Utils.Model`: `argv` without the name of the program, `files` the texts of the files; `ok none` if the program
prints how to use it. Numbers are left as such (`%g` is not modelled); opening the files of the output never fails. The seed selects the
tape.
-/

namespace PG

open RG
open GR (IsThereLink)

/-- The nodes and links of a network as the samplers see them. The links of a network read from a file all point to nodes. -/
def toNet (net : GR.Net) : GP.Net where
  n := net.n
  neig i := (net.neig i).filterMap fun l => l.ref.map fun j => (j, l.weight)

variable {R : Type}

/-- The loops that print, reliability/main_reliability_links_gibbs.c:82-89 (and the same in the other programs): `p1` runs over the list,
`p2` over the nodes after it. -/
def scoreLines (net : GR.Net) (M : ℕ → ℕ → R) : List ℕ → List (R × String × String)
  | [] => []
  | i :: is => (is.map fun j => (M i j, net.label i, net.label j)) ++ scoreLines net M is

/-- Lines for the files `missing.dat` and `spurious.dat`, reliability/main_reliability_links.c:65-78. -/
def splitLines (net : GR.Net) (M : ℕ → ℕ → R) : List ℕ → List (R × String × String) × List (R × String × String)
  | [] => ([], [])
  | i :: is =>
    let r := splitLines net M is
    ((is.filter fun j => IsThereLink net i j = false).map (fun j => (M i j, net.label i, net.label j)) ++ r.1,
      (is.filter fun j => IsThereLink net i j).map (fun j => (M i j, net.label i, net.label j)) ++ r.2)

/-- `main` of `reliability_links`, reliability/main_reliability_links.c:18-91: the lines of the files `missing.dat` and `spurious.dat`. Only
one argument is asked for but `argv[2]` is used: `atoi(NULL)` is undefined. -/
noncomputable def reliability_links (mi : LS.St → LS.St → ℝ) (solver : WU.Solver) (acc : ℝ → ℚ → Bool) (fuel : ℕ) (scratch : ℕ → Int)
    (files : String → Option (List Char)) (argv : List String) (t : Tape) :
    Res (Option (List (ℚ × String × String) × List (ℚ × String × String))) :=
  match argv with
  | [] => .ok none
  | [_] => .ub
  | f :: _ :: _ => do
    let net ← UT.load files f
    let (newA, _) ← WU.LinkScore mi solver acc (toNet net) 0 10000 fuel scratch t
    return some (splitLines net newA (List.range net.n))

/-- The programs that print the scores of all pairs: `score` gives the matrix. -/
noncomputable def allScores (score : GP.Net → Tape → Res ((ℕ → ℕ → R) × List LS.St)) (files : String → Option (List Char))
    (argv : List String) (t : Tape) : Res (Option (List (R × String × String))) :=
  match argv with
  | [] => .ok none
  | [_] => .ub
  | f :: _ :: _ => do
    let net ← UT.load files f
    let (newA, _) ← score (toNet net) t
    return some (scoreLines net newA (List.range net.n))

/-- `main` of `reliability_links_gibbs`, reliability/main_reliability_links_gibbs.c:18-100: what is printed. -/
noncomputable def reliability_links_gibbs (fuel : ℕ) (scratch : ℕ → Int) :
    (String → Option (List Char)) → List String → Tape → Res (Option (List (ℚ × String × String))) :=
  allScores fun net t => WU.GibbsLinkScore net 0 10000 fuel scratch t

/-- `main` of `reliability_links_gibbs_sparse`, reliability/main_reliability_links_gibbs_sparse.c:18-100. -/
noncomputable def reliability_links_gibbs_sparse (warm : ℕ) (scratch : ℕ → Int) :
    (String → Option (List Char)) → List String → Tape → Res (Option (List (ℝ × String × String))) :=
  allScores fun net t => BK.SparseGibbsLinkScore net 10000 warm scratch t

/-- Name of the file of the output: `strcpy` and `strcat` to a buffer of 200 bytes, multiblock/main_reliability_links_mb.c:62-63. -/
def outName (f suffix : String) : Option String :=
  if f.utf8ByteSize + suffix.utf8ByteSize < 200 then some (f ++ suffix) else none

/-- The programs that write the scores of all pairs to a file: its name and its lines. -/
noncomputable def scoreFile (suffix : String) (score : GP.Net → Tape → Res ((ℕ → ℕ → ℝ) × List LS.St))
    (files : String → Option (List Char)) (argv : List String) (t : Tape) : Res (Option (String × List (ℝ × String × String))) :=
  match argv with
  | [] => .ok none
  | [_] => .ub
  | f :: _ :: _ => do
    let net ← UT.load files f
    let (newA, _) ← score (toNet net) t
    let name ← Res.ofOption (outName f suffix)
    return some (name, scoreLines net newA (List.range net.n))

/-- `main` of `reliability_links_mb`, multiblock/main_reliability_links_mb.c:15-84; verbosity `'q'`, so the running energy starts at 0. -/
noncomputable def reliability_links_mb (mi : LS.St → LS.St → ℝ) (solver : WU.Solver) (acc : ℝ → ℚ → Bool) (fuel : ℕ) (scratch : ℕ → Int) :
    (String → Option (List Char)) → List String → Tape → Res (Option (String × List (ℝ × String × String))) :=
  scoreFile ".AND_scores" fun net t => WU.LinkScoreMB mi solver (BK.AND (BK.codeTable net.n)) false acc net 0 10000 fuel scratch t

/-- `main` of `reliability_links_mb_OR`, multiblock/main_reliability_links_mb_OR.c:15-84. -/
noncomputable def reliability_links_mb_OR (mi : LS.St → LS.St → ℝ) (solver : WU.Solver) (acc : ℝ → ℚ → Bool) (fuel : ℕ)
    (scratch : ℕ → Int) :
    (String → Option (List Char)) → List String → Tape → Res (Option (String × List (ℝ × String × String))) :=
  scoreFile ".OR_scores" fun net t =>
    BK.orFinal (WU.LinkScoreMB mi solver (BK.OR (BK.codeTable net.n)) false acc net 0 10000 fuel scratch t)

/-- `main` of `reliability_links_mb_gibbs`, multiblock/main_reliability_links_mb_gibbs.c:15-84. -/
noncomputable def reliability_links_mb_gibbs (warm : ℕ) (scratch : ℕ → Int) :
    (String → Option (List Char)) → List String → Tape → Res (Option (String × List (ℝ × String × String))) :=
  scoreFile ".AND_scores" fun net t =>
    BK.GibbsLinkScoreMB (BK.AND (BK.codeTable net.n)) (BK.AND (BK.codeTable net.n)) net 0 10000 warm scratch t

/-- `main` of `reliability_links_mb_gibbs_OR`, multiblock/main_reliability_links_mb_gibbs_OR.c:15-84. -/
noncomputable def reliability_links_mb_gibbs_OR (warm : ℕ) (scratch : ℕ → Int) :
    (String → Option (List Char)) → List String → Tape → Res (Option (String × List (ℝ × String × String))) :=
  scoreFile ".OR_scores" fun net t =>
    BK.orFinal (BK.GibbsLinkScoreMB (BK.OR (BK.codeTable net.n)) (BK.OR (BK.codeTable net.n)) net 0 10000 warm scratch t)

/-- `main` of `only_degeneration_mb`, only_deg/main_only_degeneration_mb.c:15-84. -/
noncomputable def only_degeneration_mb (mi : LS.St → LS.St → ℝ) (solver : WU.Solver) (acc : ℝ → ℚ → Bool) (fuel : ℕ) (scratch : ℕ → Int) :
    (String → Option (List Char)) → List String → Tape → Res (Option (String × List (ℝ × String × String))) :=
  scoreFile ".scores" fun net t => WU.LinkScoreMB mi solver BK.OD false acc net 0 10000 fuel scratch t

/-- `main` of `only_degeneration_mb_gibbs`, only_deg/main_only_degeneration_mb_gibbs.c:15-84. -/
noncomputable def only_degeneration_mb_gibbs (warm : ℕ) (scratch : ℕ → Int) :
    (String → Option (List Char)) → List String → Tape → Res (Option (String × List (ℝ × String × String))) :=
  scoreFile ".scores" fun net t =>
    BK.GibbsLinkScoreMB (BK.AND (BK.codeTable net.n)) BK.OD net 0 10000 warm scratch t

end PG
