import Verif.Programs.PartSpec
import Verif.Tools.Spec

/-!
# Specification of the programs that predict ratings, in terms of labels

`ls` are the lines `person thing rating` of the file of ratings, `qs` the lines `person thing` of the file of queries. A division is a pair of
functions from labels to numbers of groups, one for persons and one for things.
-/

namespace PG

open scoped BigOperators

/-- The words of the file are those of the queries, there are as many lines as queries, and no line is longer than 998 characters; labels
have less than 100 bytes. -/
structure Asks (text : List Char) (qs : List (String × String)) : Prop where
  words : wordsOf text = qs.flatMap fun q => [q.1.toList, q.2.toList]
  lines : Tools.lineCount text = qs.length
  short : Tools.ShortLines 999 text
  fit : ∀ q ∈ qs, q.1.utf8ByteSize < 100 ∧ q.2.utf8ByteSize < 100

variable (ls : List (String × String × ℚ)) (qs : List (String × String))

/-- The rating in the first line with these two labels. -/
def told (a b : String) : Option ℚ := (ls.find? fun l => l.1 = a ∧ l.2.1 = b).map fun l => l.2.2

/-- A division of the persons and one of the things. -/
abbrev Division := (String → ℕ) × (String → ℕ)

/-- Number of ratings `k` that persons of group `g` give to things of group `g'`, the pairs of the queries not counted. -/
def ratingsOf (F : Division) (k g g' : ℕ) : ℕ :=
  {p ∈ column1 ls ×ˢ column2 ls | told ls p.1 p.2 = some (k : ℚ) ∧ p ∉ qs ∧ F.1 p.1 = g ∧ F.2 p.2 = g'}.card

/-- Forecast of rating `k`, given a division: `(nₖ + 1) / (n + K)` if `nₖ` of the `n` ratings between the two groups are `k`. -/
def forecast (K : ℕ) (F : Division) (k : ℕ) (a b : String) : ℚ :=
  ((ratingsOf ls qs F k (F.1 a) (F.2 b) : ℚ) + 1) / (∑ k' ∈ Finset.range K, (ratingsOf ls qs F k' (F.1 a) (F.2 b) : ℚ) + K)

/-- The persons and the things, each once and in the order of the files. -/
def persons : List String := (ls.map (fun l => l.1) ++ qs.map Prod.fst).reverse.dedup.reverse

/-- See `persons`. -/
def things : List String := (ls.map (fun l => l.2.1) ++ qs.map Prod.snd).reverse.dedup.reverse

/-- The values of rating `k` are averages of `forecast` over the same 10000 divisions for all pairs and ratings; for each pair of labels
they are positive and add up to 1. -/
structure Forecasts (K : ℕ) (v : ℕ → String → String → ℚ) : Prop where
  averages : ∃ Fs : List Division, Fs.length = 10000 ∧
    (∀ F ∈ Fs, (∀ a ∈ persons ls qs, F.1 a < (persons ls qs).length) ∧ ∀ b ∈ things ls qs, F.2 b < (things ls qs).length) ∧
    ∀ k a b, v k a b = (Fs.map fun F => forecast ls qs K F k a b).sum / 10000
  positive : ∀ k a b, 0 < v k a b
  total : ∀ a b, ∑ k ∈ Finset.range K, v k a b = 1

/-- The lines `person thing score₀ … score_{K-1}`. -/
def forecastLines (K : ℕ) (v : ℕ → String → String → ℚ) : List (String × String × List (Option ℚ)) :=
  qs.map fun q => (q.1, q.2, (List.range K).map fun k => some (v k q.1 q.2))

/-- All pairs of a person and a thing, those of the first person first, in the order of the files. -/
def everyPair : List (String × String) := persons ls [] ×ˢ things ls []

end PG
