import Verif.Bipart.BuildModel

/-!
# Random modular bipartite networks (`src/bipartite.c`, `utils/main_modularbipart.c`)
-/

namespace BP

open RG

/-- Arguments of `BuildModularBipartiteNetwork`, src/bipartite.c:153-162. `nmod` is the length of `sizes`. -/
structure GenArgs where
  sizes : List ℕ
  colProb : Option (List ℚ)
  S2 : ℕ
  mmin : ℤ
  mmax : ℤ
  geomP : ℚ
  p : ℚ

/-- "Assign each node to a module", src/bipartite.c:195-203: `module` and `mod_starting`. -/
def assign (sizes : List ℕ) : List ℕ × List ℕ :=
  sizes.foldl (fun s n => (s.1 ++ List.replicate n s.2.length, s.2 ++ [s.1.length])) ([], [])

/-- Choice of the colour with given probabilities, src/bipartite.c:228-236: `col` is `teamcol + 1`. Reading after the
end of `col_prob` is undefined. -/
def colourLoop (dice : ℚ) : List ℚ → (cum : ℚ) → (col : ℕ) → Option ℕ
  | l, cum, col => if cum < dice then match l with
    | [] => none
    | q :: l => colourLoop dice l (cum + q) (col + 1)
    else some col

/-- "color" of a team, src/bipartite.c:228-240. `none` stands for -1. -/
def teamColour (a : GenArgs) (t : Tape) : Res (Option ℕ × Tape) :=
  match a.colProb with
  | some l => do
    let (dice, t) ← draw t
    let c ← Res.ofOption (colourLoop dice l 0 0)
    return (if c = 0 then none else some (c - 1), t)
  | none => do
    let (c, t) ← pick a.sizes.length t
    return (some c, t)

/-- `geometric_dist_val`, src/tools.c:208-217. -/
def geometric (p : ℚ) : (val : ℕ) → Tape → Res (ℕ × Tape)
  | _, [] => .starved
  | val, u :: t =>
    if 0 ≤ u ∧ u < 1 then
      if p < u then geometric p (val + 1) t else .ok (val, t)
    else .starved

/-- "Determine the number of actors in the team", src/bipartite.c:243-250. -/
def teamSize (a : GenArgs) (t : Tape) : Res (ℤ × Tape) :=
  if a.mmin < 0 then do
    let (m, t) ← geometric a.geomP 0 t
    return ((m : ℤ), t)
  else if a.mmax ≠ a.mmin then do
    let (u, t) ← draw t
    return (⌊u * ((a.mmax + 1 - a.mmin : ℤ) : ℚ) + (a.mmin : ℚ)⌋, t)
  else .ok (a.mmin, t)

/-- `modSizes[teamcol]`. -/
def sizeOf (a : GenArgs) (col : Option ℕ) : Res ℕ :=
  match col with
  | none => .ub
  | some c => Res.ofOption a.sizes[c]?

/-- `gsl_rng_uniform(gen) < p && n_team_col < modSizes[teamcol]`, src/bipartite.c:254-255: the size is not looked up when
the first condition fails. -/
def sameColour (a : GenArgs) (col : Option ℕ) (ncol : ℕ) (u : ℚ) : Res Bool :=
  if u < a.p then do
    let s ← sizeOf a col
    return decide (ncol < s)
  else .ok false

/-- Selection of the member with the colour of the team, src/bipartite.c:257-261. -/
def targetInside (a : GenArgs) (b : Bi) (i : ℕ) (col : Option ℕ) (t : Tape) : Res (ℕ × Tape) := do
  let s ← sizeOf a col
  let start ← Res.ofOption ((col.bind fun c => (assign a.sizes).2[c]?))
  redraw (fun u => start + ⌊u * s⌋₊) (fun k => isThere (b.neig1 k) i) t

/-- "choose node at random", src/bipartite.c:263-266. -/
def targetAnywhere (a : GenArgs) (b : Bi) (i : ℕ) (t : Tape) : Res (ℕ × Tape) :=
  redraw (fun u => ⌊u * (assign a.sizes).1.length⌋₊) (fun k => isThere (b.neig1 k) i) t

/-- One spot of team `i`, src/bipartite.c:252-274; `ncol` is `n_team_col`. A target that is not in `list1` is undefined.
The links have weight 0. -/
def spot (a : GenArgs) (i : ℕ) (col : Option ℕ) (s : Bi × ℕ × Tape) : Res (Bi × ℕ × Tape) := do
  let (u, t) ← draw s.2.2
  let same ← sameColour a col s.2.1 u
  let (k, t) ← if same then targetInside a s.1 i col t else targetAnywhere a s.1 i t
  match (assign a.sizes).1[k]? with
  | none => .ub
  | some m =>
    let ncol := if same then s.2.1 + 1 else if some m = col then s.2.1 + 1 else s.2.1
    return (addLink s.1 k i 0, ncol, t)

/-- The spots of a team. -/
def spots (a : GenArgs) (i : ℕ) (col : Option ℕ) : (m : ℕ) → Bi × ℕ × Tape → Res (Bi × ℕ × Tape)
  | 0, s => .ok s
  | m + 1, s => do
    let s ← spot a i col s
    spots a i col m s

/-- The teams from `i` on, src/bipartite.c:222-275; `cols` are the values of `inGroup` of the teams. -/
def teamLoop (a : GenArgs) : (todo i : ℕ) → Bi × List (Option ℕ) × Tape → Res (Bi × List (Option ℕ) × Tape)
  | 0, _, s => .ok s
  | todo + 1, i, s => do
    let (col, t) ← teamColour a s.2.2
    let (m, t) ← teamSize a t
    let r ← spots a i col m.toNat (s.1, 0, t)
    teamLoop a todo (i + 1) (r.1, s.2.1 ++ [col], r.2.2)

/-- Result of `BuildModularBipartiteNetwork`: the network and `inGroup` of the nodes of both sets. -/
structure Modular where
  net : LBi
  group1 : List ℕ
  group2 : List (Option ℕ)

/-- `BuildModularBipartiteNetwork`, src/bipartite.c:152-294. -/
def BuildModularBipartiteNetwork (a : GenArgs) (t : Tape) : Res (Modular × Tape) := do
  let r ← teamLoop a a.S2 0 (⟨(assign a.sizes).1.length, a.S2, fun _ => [], fun _ => []⟩, [], t)
  return (⟨⟨r.1, fun i => "A" ++ toString (i + 1), fun i => "B" ++ toString (i + 1)⟩, (assign a.sizes).1, r.2.1⟩, r.2.2)

/-- `main` of `modularbipart`, utils/main_modularbipart.c:17-41: the arguments of the call. -/
def modularbipart (nMod modSize nTeam _teamSize : ℕ) (teamHomog : ℚ) (t : Tape) : Res (Modular × Tape) :=
  BuildModularBipartiteNetwork ⟨List.replicate nMod modSize, none, nTeam, modSize, modSize, -1, teamHomog⟩ t

end BP
