import Verif.Utils.Spec
import Mathlib.Combinatorics.SimpleGraph.Basic
import Mathlib.Data.List.ProdSigma
import Mathlib.Data.Rat.Defs
import Mathlib.Data.Real.Basic

/-!
# Specification of the programs that score links, in terms of the labels of the file

A division of the nodes is a function from labels to numbers of groups.
-/

namespace PG

open UT

/-- All pairs of different labels of a file. -/
def allPairs (ps : List (String × String)) : SimpleGraph String where
  Adj a b := a ≠ b ∧ a ∈ names ps ∧ b ∈ names ps
  symm := ⟨fun _ _ h => ⟨h.1.symm, h.2.2, h.2.1⟩⟩
  loopless := ⟨fun _ h => h.1 rfl⟩

/-- Number of edges with one end in a group and the other in the other group (inside the group if they are the same). -/
noncomputable def between (G : SimpleGraph String) (F : String → ℕ) (g g' : ℕ) : ℕ :=
  {e ∈ G.edgeSet | ∃ a b, e = s(a, b) ∧ F a = g ∧ F b = g'}.ncard

/-- Pairs of labels between the groups of `a` and `b`, and those of them that are linked. -/
noncomputable def seen (ps : List (String × String)) (F : String → ℕ) (a b : String) : ℕ × ℕ :=
  (between (allPairs ps) F (F a) (F b), between (graph ps) F (F a) (F b))

/-- Reliability of a link given a division: `(l + 1) / (r + 2)` if `l` of the `r` pairs between the groups are linked. -/
noncomputable def reliability (ps : List (String × String)) (F : String → ℕ) (a b : String) : ℚ :=
  (((seen ps F a b).2 : ℚ) + 1) / ((seen ps F a b).1 + 2)

/-- Chance that one more pair of the two groups is linked, if `L r l` is the probability of a given pattern of `l` links on `r` pairs. -/
noncomputable def chance (L : ℕ → ℕ → ℝ) (ps : List (String × String)) (F : String → ℕ) (a b : String) : ℝ :=
  L ((seen ps F a b).1 + 1) ((seen ps F a b).2 + 1) / L (seen ps F a b).1 (seen ps F a b).2

/-- The pairs of labels, in the order of the file, the label that appears first being the first of the pair. -/
def ordered (ps : List (String × String)) : List (String × String) :=
  (names ps ×ˢ names ps).filter fun p => (names ps).idxOf p.1 < (names ps).idxOf p.2

/-- The lines `value label label` for some pairs. -/
def lines {R : Type} (v : String → String → R) (l : List (String × String)) : List (R × String × String) :=
  l.map fun p => (v p.1 p.2, p.1, p.2)

/-- 10000 divisions of the labels into groups numbered from 0, no more groups than labels. -/
structure Divisions (ps : List (String × String)) (Fs : List (String → ℕ)) : Prop where
  count : Fs.length = 10000
  groups : ∀ F ∈ Fs, ∀ a ∈ names ps, F a < (names ps).length

/-- Average over 10000 divisions. -/
def average {R : Type} [Field R] (Fs : List (String → ℕ)) (v : (String → ℕ) → R) : R := (Fs.map v).sum / 10000

/-- The values `v` are averages of `val` over 10000 divisions, and strictly between 0 and 1 on the pairs of labels. -/
def Averaged {R : Type} [Field R] [LT R] (ps : List (String × String)) (val : (String → ℕ) → String → String → R) (v : String → String → R) :
    Prop :=
  (∃ Fs, Divisions ps Fs ∧ ∀ a b, v a b = average Fs fun F => val F a b) ∧ ∀ p ∈ ordered ps, 0 < v p.1 p.2 ∧ v p.1 p.2 < 1

end PG
