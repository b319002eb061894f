import Verif.Bipart.Model

/-!
# Participation coefficient in a bipartite network (`src/bipartite.c`)
-/

namespace BP

/-- `inGroupCount[g] += 1`, src/bipartite.c:1045-1046, in an array of `cap` slots; also `norm++`. -/
def countGroup (cap : ℕ) (g : ℤ) (s : ℕ × (ℕ → ℕ)) : Option (ℕ × (ℕ → ℕ)) :=
  if 0 ≤ g ∧ g < cap then some (s.1 + 1, Function.update s.2 g.toNat (s.2 g.toNat + 1)) else none

/-- The members of one team, src/bipartite.c:1042-1048. -/
def countTeam (cap : ℕ) (inGroup : ℕ → ℤ) (i : ℕ) : List (ℕ × ℚ) → ℕ × (ℕ → ℕ) → Option (ℕ × (ℕ → ℕ))
  | [], s => some s
  | y :: l, s =>
    if y.1 ≠ i then do
      let s ← countGroup cap (inGroup y.1) s
      countTeam cap inGroup i l s
    else countTeam cap inGroup i l s

/-- The teams of the node, src/bipartite.c:1040-1049. -/
def countTeams (b : Bi) (inGroup : ℕ → ℤ) (i : ℕ) : List (ℕ × ℚ) → ℕ × (ℕ → ℕ) → Option (ℕ × (ℕ → ℕ))
  | [], s => some s
  | x :: l, s => do
    let s ← countTeam b.n1 inGroup i (b.neig2 x.1) s
    countTeams b inGroup i l s

/-- `ParticipationCoefficientBipart`, src/bipartite.c:1019-1064. The array has a slot for every number up to that of the
last node, `n1` slots. Outer `none`: access out of its bounds. Inner `none`: not a number (0/0). -/
def ParticipationCoefficientBipart (b : Bi) (inGroup : ℕ → ℤ) (i : ℕ) : Option (Option ℚ) := do
  let s ← countTeams b inGroup i (b.neig1 i) (0, fun _ => 0)
  if s.1 = 0 ∧ 0 < b.n1 then some none
  else some (some (1 - (List.range b.n1).foldl (fun P g => P + (s.2 g : ℚ) * (s.2 g : ℚ) / ((s.1 : ℚ) * (s.1 : ℚ))) 0))

/-- `mean`, src/tools.c:232-245, of values some of which may not be numbers, called by
`StatisticsParticipationCoefficientBipart`, src/bipartite.c:1071-1096. The mean of no values is 0/0. -/
def meanNaN (l : List (Option ℚ)) : Option ℚ := do
  let s ← l.foldlM (fun s x => x.map (s + ·)) 0
  if l = [] then none else some (s / l.length)

/-- `*PMean` of `StatisticsParticipationCoefficientBipart`, src/bipartite.c:1071-1096. -/
def ParticipationMean (b : Bi) (inGroup : ℕ → ℤ) : Option (Option ℚ) := do
  let l ← (List.range b.n1).mapM (ParticipationCoefficientBipart b inGroup)
  some (meanNaN l)

end BP
