import Verif.Recommend.Model

/-!
# Recommender: the heat-bath ("Gibbs") sampler (`src/recommend.c:1895-2529`)

Same state as in `Verif.Recommend.Model`. Each step gives every node of the first set, then every node of the second
one, a new group; a list of groups (`slg`) holds those that were not empty at the start of the step and those filled
during the step; the others are empty and are counted together. `exp` and sums are exact.
-/

namespace RC

open GP RG LS KS
open BP (Bi)

/-- The shortlist at the start, src/recommend.c:1938-1950. -/
def shortlist (n : ℕ) (p : Part) : List ℕ := (List.range n).filter fun g => decide (0 < (p.grp g).size)

/-- Sum over the non-empty groups of the shortlist of the other set of the energy of a pair of groups with the counts
`c k g`: the loops at src/recommend.c:2007-2033, 2042-2065, 2093-2103. -/
noncomputable def rowSum (pt : (ℕ → Int) → Option ℝ) (o : Part) (slo : List ℕ) (c : ℕ → ℕ → Int) : Option ℝ :=
  slo.foldlM (fun s g =>
    if 0 < (o.grp g).size then do
      let a ← pt (fun k => c k g)
      some (s + a)
    else some s) 0

/-- Correction for the number of labellings, src/recommend.c:2067-2072: `so`, `sn` the sizes of the old and of the new
group. -/
noncomputable def samTerm (n : ℕ) (ng so sn : Int) : Option ℝ :=
  if so = 1 ∧ 0 < sn then do
    let a ← lfact (n - ng)
    let c ← lfact (n - (ng - 1))
    some (a - c)
  else if 1 < so ∧ sn = 0 then do
    let a ← lfact (n - ng)
    let c ← lfact (n - (ng + 1))
    some (a - c)
  else some 0

/-- `-dHoo + dHno`, src/recommend.c:2004-2033. -/
noncomputable def fixedPart (K : ℕ) (s : View) (slo : List ℕ) (v old : ℕ) : Option ℝ := do
  let oo ← rowSum (pairTerm K) s.opart slo (fun k g => s.G k old g)
  let no ← rowSum (pairTerm K) s.opart slo (fun k g => s.G k old g - s.N k v g)
  some (-oo + no)

/-- `dH` of a group of the shortlist, src/recommend.c:2037-2078. -/
noncomputable def gDelta (b : Bi) (K : ℕ) (s : View) (slo : List ℕ) (v old : ℕ) (fix : ℝ) (new : ℕ) : Option ℝ := do
  let on ← rowSum (pairTerm K) s.opart slo (fun k g => s.G k new g)
  let nn ← rowSum (pairTerm K) s.opart slo (fun k g => s.G k new g + s.N k v g)
  let sam ← samTerm b.n1 s.ng (s.part.grp old).size (s.part.grp new).size
  if new = old then some 0 else some (fix - on + nn + sam)

/-- Correction for an empty destination, src/recommend.c:2105-2109. -/
noncomputable def gainTerm (n : ℕ) (ng so : Int) : Option ℝ :=
  if 1 < so then do
    let a ← lfact (n - ng)
    let c ← lfact (n - (ng + 1))
    some (a - c)
  else some 0

/-- `dHempty`, src/recommend.c:2081-2111. -/
noncomputable def gEmpty (b : Bi) (K : ℕ) (s : View) (slo : List ℕ) (v old : ℕ) (fix : ℝ) : Option ℝ := do
  let on ← rowSum (fun _ => lfact ((K : Int) - 1)) s.opart slo (fun _ _ => 0)
  let nn ← rowSum (pairTerm K) s.opart slo (fun k g => s.N k v g)
  let sam ← gainTerm b.n1 s.ng (s.part.grp old).size
  some (fix - on + nn + sam)

/-- `GetEmptyGroup`, src/modules.c:1189-1200, of the groups `0 … n-1`. -/
def firstEmpty (n : ℕ) (p : Part) : Option ℕ := (List.range n).find? fun g => decide ((p.grp g).size = 0)

/-- `target=0; cum=0; while (cum<dice) cum += exp(-dH[slg[target++]]); newgnum = slg[target-1]`,
src/recommend.c:2132-2136, on the rest `l` of the shortlist with its values of `dH`; `last` is `slg[target-1]`,
`none` at the start (`slg[-1]`); also undefined past the end of the list. -/
noncomputable def gScan (dice : ℝ) : ℝ → Option (ℕ × ℝ) → List (ℕ × ℝ) → Option (ℕ × ℝ)
  | cum, last, [] => if cum < dice then none else last
  | cum, last, x :: l => if cum < dice then gScan dice (cum + Real.exp (-x.2)) (some x) l else last

/-- The choice of the destination, src/recommend.c:2112-2137: the new group, its `dH`, the shortlist. Writing past the
end of `slg` is undefined. -/
noncomputable def gChoose (n : ℕ) (p : Part) (slg : List ℕ) (ds : List (ℕ × ℝ)) (dHe : ℝ) (u : ℚ) :
    Option (ℕ × ℝ × List ℕ) :=
  let norm := (ds.map fun x => Real.exp (-x.2)).sum + ((n : ℝ) - slg.length) * Real.exp (-dHe)
  let dice := norm * u
  if norm - ((n : ℝ) - slg.length) * Real.exp (-dHe) < dice then do
    let g ← firstEmpty n p
    if g ∈ slg then some (g, dHe, slg)
    else if slg.length < n then some (g, dHe, slg ++ [g])
    else none
  else do
    let x ← gScan dice 0 none ds
    some (x.1, x.2, slg)

/-- One node of the first set, src/recommend.c:1953-2161; `slg` is the shortlist of this set, `slo` the other one. The
node is moved even if the new group is the old one; only the number of groups is left alone then. -/
noncomputable def gMove (b : Bi) (K : ℕ) (slo : List ℕ) (v : ℕ) (x : View × List ℕ) : Res (View × List ℕ) :=
  match x.1.part.inGroup v with
  | none => .ub
  | some old => do
    let fix ← Res.ofOption (fixedPart K x.1 slo v old)
    let ds ← Res.ofOption (x.2.mapM fun g => do
      let d ← gDelta b K x.1 slo v old fix g
      some (g, d))
    let dHe ← Res.ofOption (gEmpty b K x.1 slo v old fix)
    let (u, t) ← draw x.1.tape
    let (new, dH, slg) ← Res.ofOption (gChoose b.n1 x.1.part x.2 ds dHe u)
    let s' := tent b K v old new x.1
    return ({ s' with ng := if old = new then x.1.ng else s'.ng, H := s'.H + dH, tape := t }, slg)

/-- All nodes of a set. -/
noncomputable def gSweep (b : Bi) (K : ℕ) (slo : List ℕ) : List ℕ → View × List ℕ → Res (View × List ℕ)
  | [], x => .ok x
  | v :: vs, x => do
    let x ← gMove b K slo v x
    gSweep b K slo vs x

/-- `GibbsStepKState`, src/recommend.c:1895-2165. -/
noncomputable def GibbsStepKState (b : Bi) (K : ℕ) (s : View) : Res View := do
  let (s', slg1) ← gSweep b K (shortlist b.n2 s.opart) (List.range b.n1) (s, shortlist b.n1 s.part)
  let (s'', _) ← gSweep b.swap K slg1 (List.range b.n2) (s'.swap, shortlist b.n2 s.opart)
  return s''.swap

/-- One turn of the sampling loop after the step, src/recommend.c:2430-2463, with the `iter++`; `H0` is the origin of
energies. -/
noncomputable def gCollect (f : View → ℕ → ℕ × ℕ → Option ℚ) (s : View) (H0 : ℝ) (A : Acc) : ℝ × Acc :=
  let restart := 400 < H0 - s.H
  let H0' := if restart then s.H else H0
  let A' := if restart then Acc.mk 0 0 (fun _ _ => some 0) else A
  (H0', Acc.mk (A'.iter + 1) (A'.norm + 1) fun k q => do
    let x ← A'.score k q
    let y ← f s k q
    some (x + y))

/-- The sampling loop, src/recommend.c:2409-2489, at most `fuel` turns (a restart sets `iter` back). -/
noncomputable def gSample (step : View → Res View) (f : View → ℕ → ℕ × ℕ → Option ℚ) (nIter : ℕ) :
    ℕ → View → ℝ → Acc → Res Acc
  | 0, _, _, A => if A.iter < nIter then .starved else .ok A
  | fuel + 1, s, H0, A =>
    if A.iter < nIter then do
      let s ← step s
      gSample step f nIter fuel s (gCollect f s H0 A).1 (gCollect f s H0 A).2
    else .ok A

/-- `GibbsMultiLinkScoreKState`, src/recommend.c:2257-2529: score of each rating for each query.
`GibbsThermalizeKState` (2171-2244) only calls `GibbsStepKState`, a number of times that depends on running means; this
is left open: `warm` is any number. Temporary files are left out. -/
noncomputable def GibbsMultiLinkScoreKState (b : Bi) (K : ℕ) (qs : List (ℕ × ℕ)) (nIter warm fuel : ℕ) (t : Tape) :
    Res (ℕ → ℕ × ℕ → Option ℚ) := do
  let c ← Res.ofOption (clean b qs)
  let p1 := ownGroups c.n1
  let p2 := ownGroups c.n2
  let H ← Res.ofOption (HKState c K p1 p2)
  let s ← iter (GibbsStepKState c K) warm (startView c p1 p2 H t)
  let A ← gSample (GibbsStepKState c K) (scoreK K) nIter fuel s s.H (Acc.mk 0 0 fun _ _ => some 0)
  return fun k q => if A.norm = 0 then none else (A.score k q).map (· / A.norm)

end RC
