import Verif.Layout.SpaceModel

/-!
# Potential energy in three dimensions (`src/layout.c`)
-/

namespace LY

open Classical in
/-- `PotentialEnergy3D` (`src/layout.c:772-901`). -/
noncomputable def PotentialEnergy3D (net : GP.Net) (r : Pos) (boxes : ℕ → List ℕ) (b : ℕ) : ℝ :=
  let dis2 (i j : ℕ) : ℝ := (r 0 j - r 0 i) * (r 0 j - r 0 i) + (r 1 j - r 1 i) * (r 1 j - r 1 i) + (r 2 j - r 2 i) * (r 2 j - r 2 i)
  let E := (springs net).foldl (fun E e => E + e.2.2 * dis2 e.1 e.2.1 / 2) 0
  (nodePairs boxes (boxPairsEnergy3D b)).foldl (fun E p =>
    if dis2 p.1 p.2 < cutoff3 net.n b r * cutoff3 net.n b r ∨ b ≤ 2 then
      E + 1 / (net.n : ℝ) / Real.sqrt (dis2 p.1 p.2 + epsilon net.n)
    else E) E

end LY
