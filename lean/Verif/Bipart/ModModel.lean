import Verif.Bipart.Spec

/-!
# Modularity of a bipartite network (`src/bipartite.c:841-951`)

A partition is the list of its groups, a group the list of its nodes (of the first set), as `part->next` and `nodeList->next` give
them. A `double` that is not a finite number (division by 0) and an `int` outside its range are `none`; `NodeDegree` is `unsigned`
and wraps around. Cached strengths are taken to be up to date (C15).
-/

namespace BP

/-- Product of two `int`s. -/
def imul (a b : ℕ) : Option ℕ := if a * b ≤ 2147483647 then some (a * b) else none

/-- Product of two `unsigned`s. -/
def umul (a b : ℕ) : ℕ := a * b % 4294967296

/-- Quotient of two `double`s. -/
def quot (x y : ℚ) : Option ℚ := if y = 0 then none else some (x / y)

/-- The pairs that the two loops over `n1` and `n2` visit, src/bipartite.c:870-872 (also 914-916, 942-944). -/
def upper : List ℕ → List (ℕ × ℕ)
  | [] => []
  | x :: l => l.map (fun y => (x, y)) ++ upper l

/-- The loops over the groups and pairs of nodes with `bimod += term`. -/
def pairLoop (term : ℕ → ℕ → Option ℚ) (part : List (List ℕ)) : Option ℚ :=
  part.foldlM (fun s g => (upper g).foldlM (fun s p => (term p.1 p.2).map (s + ·)) s) 0

/-- `ModularityBipart`, src/bipartite.c:848-886. -/
def ModularityBipart (b : Bi) (part : List (List ℕ)) : Option ℚ := do
  let sms : ℚ := (List.range b.n2).foldl (fun s a => s + ((b.neig2 a).length : ℚ)) 0
  let sms2 : ℚ := (List.range b.n2).foldl (fun s a => s + (umul (b.neig2 a).length (b.neig2 a).length : ℚ)) 0
  let bimod ← pairLoop (fun i j => do
    let t12 ← imul (b.neig1 i).length (b.neig1 j).length
    let x ← quot (NCommonLinksBipart (b.neig1 i) (b.neig1 j)) (sms2 - sms)
    let y ← quot t12 (sms * sms)
    some (x - y)) part
  some (bimod * 2)

/-- `NodeStrength`, src/graph.c:1468-1489. -/
def strength (l : List (ℕ × ℚ)) : ℚ := l.foldl (fun s x => s + x.2) 0

/-- `ModularityBipartWeighted`, src/bipartite.c:893-930. -/
def ModularityBipartWeighted (b : Bi) (part : List (List ℕ)) : Option ℚ := do
  let sWa : ℚ := (List.range b.n2).foldl (fun s a => s + strength (b.neig2 a)) 0
  let sWa2 : ℚ := (List.range b.n2).foldl (fun s a => s + strength (b.neig2 a) * strength (b.neig2 a)) 0
  let bimod ← pairLoop (fun i j => do
    let x ← quot (SumProductsOfCommonWeightsBipart (b.neig1 i) (b.neig1 j)) (sWa2 - sWa)
    let y ← quot (strength (b.neig1 i) * strength (b.neig1 j)) (sWa * sWa)
    some (x - y)) part
  some (bimod * 2)

end BP
