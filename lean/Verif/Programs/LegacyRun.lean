import Verif.Programs.Legacy

/-!
# C166: what `netcarto-legacy` writes
-/

set_option linter.unusedSimpArgs false
set_option linter.unusedSectionVars false

namespace PG

open RG UT Finset
open GR (Holds SymSimple WG targets Link CopyNetwork RandomizeSymmetricNetwork FPrintPajekFile FPrintPajekPartitionFile)
open GP (Part PartOK Full members NZ degSum)
open scoped BigOperators

attribute [local instance] Classical.propDecidable

/-! ## The random numbers left -/

theorem pickFour_nz (net : GR.Net) (links : List (Option (ℕ × ℕ))) : ∀ (t : Tape), NZ t → ∀ r, GR.pickFour net links t = .ok r → NZ r.2
  | [], _, r, h => by cases h
  | [_], _, r, h => by cases h
  | [_, _], _, r, h => by cases h
  | u1 :: u2 :: u3 :: t, hz, r, h => by
    have hz' : NZ t := fun u hu => hz u (by simp [hu])
    unfold GR.pickFour at h
    split_ifs at h
    all_goals
      dsimp only at h
      split at h
      · split_ifs at h
        · exact pickFour_nz net links t hz' r h
        · exact pickFour_nz net links t hz' r h
        · cases h; exact hz'
      · cases h

theorem inv {α β : Type} {x : Res α} {f : α → Res β} {b : β} (h : (x >>= f) = .ok b) : ∃ a, x = .ok a ∧ f a = .ok b := by
  cases x with
  | ok a => exact ⟨a, rfl, h⟩
  | starved => cases h
  | ub => cases h

theorem loop_nz : ∀ (k : ℕ) (net : GR.Net) (links : List (Option (ℕ × ℕ))) (t : Tape), NZ t → ∀ r, GR.randomizeLoop k net links t = .ok r →
    NZ r.2
  | 0, _, _, t, hz, r, h => by cases h; exact hz
  | k + 1, net, links, t, hz, r, h => by
    unfold GR.randomizeLoop at h
    obtain ⟨⟨⟨t1, t2, n1, n2, n3, n4⟩, t'⟩, e, h⟩ := inv h
    obtain ⟨net', -, h⟩ := inv h
    exact loop_nz k _ _ t' (pickFour_nz _ _ t hz _ e) r h

theorem randomize_nz {net : GR.Net} {times : ℚ} {t : Tape} (hz : NZ t) : ∀ r, RandomizeSymmetricNetwork net times t = .ok r → NZ r.2 := by
  intro r h
  unfold RandomizeSymmetricNetwork at h
  obtain ⟨⟨u, t'⟩, e, h⟩ := inv h
  obtain ⟨links, -, h⟩ := inv h
  refine loop_nz _ _ _ t' ?_ r h
  cases t with
  | nil => cases e
  | cons v t =>
    simp only [draw] at e
    by_cases hv : 0 ≤ v ∧ v < 1
    · rw [if_pos hv] at e
      cases e
      exact fun v hv => hz v (by simp [hv])
    · rw [if_neg hv] at e; cases e

theorem holds_and {α : Type} {P Q : α → Prop} {x : Res α} (h : x.Holds P) (hq : ∀ a, x = .ok a → Q a) : x.Holds fun a => P a ∧ Q a := by
  cases x with
  | ok a => exact ⟨h, hq a rfl⟩
  | starved => trivial
  | ub => exact h

/-! ## The annealing -/

section
variable {acc accInv : ℚ → ℚ → ℚ → Bool} {fuel : ℕ} {iterfac Tsched : ℚ}

theorem sa_ok {V : List String} {G : SimpleGraph String} {net : GR.Net} (D : Drawn V G net)
    (hl : ∃ a ∈ V, ∃ b ∈ V, G.Adj a b) {t : Tape} (hz : NZ t) :
    (legacySA acc accInv fuel iterfac Tsched net t).Holds fun o => PartOK (inside net) net.n o.part ∧ o.m = net.n ∧ NZ o.tape ∧
      ∃ F : String → ℕ, (∀ i < net.n, o.part.inGroup i = some (F (net.label i))) ∧
        GP.Modularity o.m o.part = some (modularityOf V.toFinset G fun a => F a + 1) := by
  obtain ⟨a, ha, b, hb, hab⟩ := hl
  obtain ⟨i, hi, rfl⟩ := D.mem.1 (List.mem_toFinset.2 ha)
  have hpos : 0 < ∑ a ∈ V.toFinset, linksTo G a V.toFinset := by
    refine lt_of_lt_of_le ?_ (single_le_sum (f := fun a => linksTo G a V.toFinset) (fun _ _ => Nat.zero_le _) (List.mem_toFinset.2 ha))
    unfold linksTo
    exact card_pos.2 ⟨b, mem_filter.2 ⟨List.mem_toFinset.2 hb, hab⟩⟩
  have hdeg : degSum (inside net) ≠ 0 := by
    rw [D.degSum]
    exact_mod_cast hpos.ne'
  have hn : (0 : ℚ) < 2 / net.n := by
    have : (0 : ℚ) < net.n := by exact_mod_cast Nat.lt_of_le_of_lt (Nat.zero_le i) hi
    positivity
  refine (GP.run_all D.simple hdeg acc accInv fuel hn Tsched iterfac 0 .one (by simp) true hz).mono ?_
  rintro o ⟨⟨h1, h2, h3, h4, -⟩, h5, h6, -⟩
  obtain ⟨F, hF⟩ := D.division (f := o.part.inGroup) h2
  have hm : o.m = net.n := h5
  refine ⟨hm ▸ h1, hm, h6, F, hF, ?_⟩
  rw [h3, h4, D.newman hF]

theorem copy_loaded {ps : List (String × String)} {net : GR.Net} (L : Loaded ps net) (hl : (graph ps).edgeSet.Nonempty) :
    ∃ copy, CopyNetwork net = some copy ∧ copy.n = net.n ∧ (∀ i < net.n, copy.label i = net.label i) ∧ Holds copy (weights ps net) ∧
      GR.CachesOK copy ∧ SymSimple copy.n (weights ps net) ∧ ∃ i j, (weights ps net i j).isSome := by
  obtain ⟨copy, e, c1, c2, c3, c4⟩ := GR.copy_ok L.holds L.link_labels L.fit L.distinct
  refine ⟨copy, e, c1, c2, ?_, fun i hi => ⟨Or.inl (c4 i (c1 ▸ hi)).1, Or.inl (c4 i (c1 ▸ hi)).2⟩, c1 ▸ L.symSimple, ?_⟩
  · intro i hi
    rw [c1] at hi
    rw [c3 i hi, c1]
    exact L.holds i hi
  · obtain ⟨x, hx⟩ := hl
    induction x with
    | _ a b =>
      rw [SimpleGraph.mem_edgeSet] at hx
      obtain ⟨i, hi, rfl⟩ := L.node_of (adj_names hx).1
      obtain ⟨j, hj, rfl⟩ := L.node_of (adj_names hx).2
      exact ⟨i, j, L.weights_isSome.2 ⟨hi, hj, hx⟩⟩

theorem shuffles_ok {ps : List (String × String)} {net : GR.Net} (L : Loaded ps net) (hl : (graph ps).edgeSet.Nonempty) :
    ∀ (k : ℕ) {t : Tape}, NZ t → (shuffles (legacySA acc accInv fuel iterfac Tsched) net k t).Holds fun r => r.1.length = k ∧
      ∀ q ∈ r.1, ∃ H F, SameDegrees (names ps).toFinset (graph ps) H ∧ q = modularityOf (names ps).toFinset H F
  | 0, t, _ => ⟨rfl, by simp⟩
  | k + 1, t, hz => by
    have D := drawn_loaded L
    obtain ⟨copy, e, c1, c2, hhold, hcache, hsym, hlink⟩ := copy_loaded L hl
    unfold shuffles
    rw [e]
    simp only [Res.ofOption_some, Res.bind_ok]
    refine (holds_and (GR.C17_degrees_preserved hhold hcache hsym hlink 100 t) (randomize_nz hz)).bind ?_
    rintro ⟨ran, t1⟩ ⟨⟨r1, r2, -, g', r3, r4, r5, -⟩, hz1⟩
    dsimp only at r1 r2 r3 r4 r5 hz1 ⊢
    have rn : ran.n = net.n := r1.trans c1
    have rl : ∀ i < net.n, ran.label i = net.label i := fun i hi => by rw [r2, c2 i hi]
    rw [← r1] at r4
    -- the graph of the random network
    let H : SimpleGraph String :=
      { Adj := fun a b => ∃ i j, i < net.n ∧ j < net.n ∧ net.label i = a ∧ net.label j = b ∧ (g' i j).isSome
        symm := ⟨fun a b ⟨i, j, hi, hj, ha, hb, h⟩ => ⟨j, i, hj, hi, hb, ha, by rw [r4.sym]; exact h⟩⟩
        loopless := ⟨fun a ⟨i, j, hi, hj, ha, hb, h⟩ => by
          obtain rfl := L.distinct i j hi hj (ha.trans hb.symm)
          rw [r4.loop] at h; cases h⟩ }
    have hlab : (List.range ran.n).map ran.label = names ps := by
      rw [← L.labels, rn]
      exact List.map_congr_left fun i hi => rl i (List.mem_range.1 hi)
    have hH : ∀ i < ran.n, ∀ j < ran.n, H.Adj (ran.label i) (ran.label j) ↔ (g' i j).isSome := by
      intro i hi j hj
      rw [rn] at hi hj
      rw [rl i hi, rl j hj]
      constructor
      · rintro ⟨i', j', hi', hj', ei, ej, h⟩
        obtain rfl := L.distinct i' i hi' hi ei
        obtain rfl := L.distinct j' j hj' hj ej
        exact h
      · exact fun h => ⟨i, j, hi, hj, rfl, rfl, h⟩
    have D' : Drawn (names ps) H ran := drawn r3 r4 (names_nodup ps) hlab hH
    have same : SameDegrees (names ps).toFinset (graph ps) H := by
      refine ⟨?_, ?_⟩
      · rintro a b ⟨i, j, hi, hj, rfl, rfl, -⟩
        exact ⟨D.mem.2 ⟨i, hi, rfl⟩, D.mem.2 ⟨j, hj, rfl⟩⟩
      · intro a ha
        obtain ⟨i, hi, rfl⟩ := D.mem.1 ha
        rw [degrees L.holds L.symSimple D hi]
        have := degrees r3 r4 D' (i := i) (rn ▸ hi)
        rw [rl i hi] at this
        rw [this, rn, ← c1, r5]
    have hl' : ∃ a ∈ names ps, ∃ b ∈ names ps, H.Adj a b := by
      obtain ⟨x, hx⟩ := hl
      induction x with
      | _ a b =>
        rw [SimpleGraph.mem_edgeSet] at hx
        have hab := adj_names hx
        have h1 : 0 < linksTo H a (names ps).toFinset := by
          rw [same.2 a (List.mem_toFinset.2 hab.1)]
          unfold linksTo
          exact card_pos.2 ⟨b, mem_filter.2 ⟨List.mem_toFinset.2 hab.2, hx⟩⟩
        unfold linksTo at h1
        obtain ⟨c, hc⟩ := card_pos.1 h1
        obtain ⟨hc1, hc2⟩ := mem_filter.1 hc
        exact ⟨a, hab.1, c, List.mem_toFinset.1 hc1, hc2⟩
    refine (sa_ok D' hl' hz1).bind ?_
    rintro o ⟨-, -, hz2, F, -, hq⟩
    rw [hq]
    simp only [Res.ofOption_some, Res.bind_ok]
    refine (shuffles_ok L hl k hz2).bind ?_
    rintro ⟨l, t2⟩ ⟨k1, k2⟩
    refine ⟨by simpa using k1, ?_⟩
    intro q hq
    rcases List.mem_cons.1 hq with rfl | hq
    · exact ⟨H, _, same, rfl⟩
    · exact k2 q hq

end

/-! ## Output -/

theorem network_ok {ps : List (String × String)} {net : GR.Net} (L : Loaded ps net) :
    ∃ f, FPrintPajekFile net false true = some f ∧ DrawsNetwork (names ps) (graph ps) f := by
  obtain ⟨f, rest, e, e1, h1, -, -, h2, h3⟩ := GR.C119_pajek L.holds false true
  have hget : ∀ i < net.n, (names ps).getD i "" = net.label i := by
    intro i hi
    rw [List.getD_eq_getElem?_getD, L.label_get hi]; rfl
  refine ⟨f, e, ⟨rest, by rw [e1, L.len]⟩, ?_, h2, ?_⟩
  · rw [h1, L.len]
    refine List.map_congr_left fun i hi => ?_
    rw [hget i (by rw [L.len]; exact List.mem_range.1 hi)]
  · intro x y w
    rw [h3]
    constructor
    · rintro ⟨i, j, v, hi, rfl, rfl, hc, hg, rfl⟩
      obtain ⟨-, hj, ha⟩ := L.weights_isSome.1 (show (weights ps net i j).isSome by rw [hg]; rfl)
      have hne : i ≠ j := by rintro rfl; exact (graph ps).loopless.irrefl _ ha
      refine ⟨rfl, i, j, rfl, rfl, ?_, by rw [← L.len]; exact hj, by rw [hget i hi, hget j hj]; exact ha⟩
      rcases hc with hc | hc
      · cases hc
      · omega
    · rintro ⟨rfl, i, j, rfl, rfl, hij, hj, ha⟩
      rw [← L.len] at hj
      have hi : i < net.n := hij.trans hj
      rw [hget i hi, hget j hj] at ha
      refine ⟨i, j, 1, hi, rfl, rfl, Or.inr hij.le, ?_, rfl⟩
      obtain ⟨w, hw⟩ := Option.isSome_iff_exists.1 (L.weights_isSome.2 ⟨hi, hj, ha⟩)
      rw [hw, L.weights_one hw]

theorem map_names {β : Type} {ps : List (String × String)} {net : GR.Net} (L : Loaded ps net) (h : String → β) :
    (names ps).map h = (List.range net.n).map fun i => h (net.label i) := by
  rw [← L.labels, List.map_map]
  rfl

theorem clu_ok {ps : List (String × String)} {net : GR.Net} (L : Loaded ps net) {f : ℕ → Option ℕ} {F : String → ℕ}
    (hF : ∀ i < net.n, f i = some (F (net.label i))) :
    FPrintPajekPartitionFile net f = .vertices (names ps).length none :: (names ps).map fun a => GR.PLine.member ((F a + 1 : ℕ) : ℤ) := by
  unfold FPrintPajekPartitionFile
  rw [L.len]
  congr 1
  rw [map_names L, ← L.len]
  refine List.map_congr_left fun i hi => ?_
  rw [hF i (List.mem_range.1 hi)]
  simp

theorem foldl_sum (f : ℚ → ℚ) : ∀ (l : List ℚ) (s : ℚ), l.foldl (fun s x => s + f x) s = s + (l.map f).sum
  | [], s => by simp
  | x :: l, s => by rw [List.foldl_cons, foldl_sum f l]; simp [add_assoc]

theorem stats_ok {rep : Int} (hr : 0 ≤ rep) {l : List ℚ} (hl : l.length = rep.toNat) : shuffleStats rep l = (meanOf l, deviationOf l) := by
  have hrep : (rep : ℚ) = l.length := by
    rw [hl]
    exact_mod_cast (Int.toNat_of_nonneg hr).symm
  unfold shuffleStats meanOf deviationOf
  dsimp only
  rw [foldl_sum (fun x => x), foldl_sum (fun x => (x - (0 + (l.map fun x => x).sum) / rep) * (x - (0 + (l.map fun x => x).sum) / rep))]
  by_cases h0 : rep = 0
  · have : l = [] := by rw [← List.length_eq_zero_iff, hl, h0]; rfl
    simp [h0, this]
  · have : l ≠ [] := by
      rintro rfl
      rw [List.length_nil] at hl
      omega
    rw [if_neg h0, if_neg this, if_neg this, hrep]
    simp [pow_two]

/-! ## The program -/

section
variable {files : String → Option (List Char)} {f : String} {text : List Char} {ps : List (String × String)}

/-- **C166**: for a well-formed file with a link in which no label has more than 46340 links, whatever the options and the decisions of
the annealing, and random numbers without 0, a run of `netcarto-legacy` with `-f` does nothing undefined, and if it ends its files describe a
division of the labels into modules: members and all counts of links (`modules.dat`), modularity, network (`network.net`), numbers of modules
(`modules.clu`), degrees, participation coefficients and within-module degrees (`node_prop.dat`), roles (`roles.dat`, `roles.clu`); and
`randomized_mod.dat` has mean and standard deviation of the modularities of `rep` divisions of random graphs with the same degrees
(`NaN` for `rep = 0`, 0 for negative `rep`). -/
theorem C166_legacy (hf : files f = some text) (hs : Says text ps) (hl : (graph ps).edgeSet.Nonempty)
    (hd : ∀ a, degree ps a ≤ 46340) (acc accInv : ℚ → ℚ → ℚ → Bool) (fuel : ℕ) (rep : Int) (iterfac Tsched : ℚ) {t : Tape} (hz : NZ t) :
    (netcartoLegacy acc accInv fuel files t (.options (some f) rep iterfac Tsched)).Holds fun r => ∃ o F, r = some o ∧ Describes ps F o ∧
      (0 ≤ rep → Compares ps rep.toNat o) ∧ (rep < 0 → o.randomized = (o.modularity, some 0, some 0)) := by
  obtain ⟨net, e, L⟩ := load_ok hf hs
  have D := drawn_loaded L
  have hl2 : ∃ a ∈ names ps, ∃ b ∈ names ps, (graph ps).Adj a b := by
    obtain ⟨x, hx⟩ := hl
    induction x with
    | _ a b =>
      rw [SimpleGraph.mem_edgeSet] at hx
      exact ⟨a, (adj_names hx).1, b, (adj_names hx).2, hx⟩
  have hd' : ∀ a, linksTo (graph ps) a (names ps).toFinset ≤ 46340 := fun a => by rw [linksTo_degree]; exact hd a
  simp only [netcartoLegacy]
  rw [e]
  simp only [Res.bind_ok]
  refine (sa_ok D hl2 hz).bind ?_
  rintro o ⟨hp, hm, hz1, F, hF, hq⟩
  rw [hm] at hq ⊢
  have hfull : Full (inside net) o.part := fun i hi => by rw [hF i hi]; simp
  obtain ⟨nf, en, hnet⟩ := network_ok L
  obtain ⟨r, er, hr1, hr2⟩ := D.roles hp hF fun a _ => hd' a
  have hprop : propLines net net.n o.part = some ((names ps).map fun a => (a, (degree ps a : Int),
      participationOf (names ps).toFinset (graph ps) (fun a => F a + 1) a, withinOf (names ps).toFinset (graph ps) (fun a => F a + 1) a)) := by
    unfold propLines
    rw [GR.mapM_some (h := fun i => (net.label i, (degree ps (net.label i) : Int),
      participationOf (names ps).toFinset (graph ps) (fun a => F a + 1) (net.label i),
      withinOf (names ps).toFinset (graph ps) (fun a => F a + 1) (net.label i)))]
    · rw [map_names L]
    · intro i hi
      have hi := List.mem_range.1 hi
      rw [D.participation hp hF hi (hd' _), D.within hp hF hi]
      have : GP.NodeDegree (inside net) i = degree ps (net.label i) := by
        rw [GP.NodeDegree_eq D.simple]
        have := D.to_set (subset_refl _) hi
        rw [D.image, linksTo_degree] at this
        exact this
      simp only [Option.bind_eq_bind, Option.bind_some, this]
      rfl
  rw [hq, en, hprop, er]
  simp only [Res.ofOption_some, Res.bind_ok]
  refine (shuffles_ok L hl rep.toNat hz1).bind ?_
  rintro ⟨l, t2⟩ ⟨k1, k2⟩
  refine ⟨_, fun a => F a + 1, rfl, ?_, ?_, ?_⟩
  · refine ⟨?_, D.lists hp hfull hF (loaded_w L), rfl, hnet, clu_ok L hF, rfl, ?_⟩
    · intro a ha
      obtain ⟨i, hi, rfl⟩ := L.node_of ha
      have := (hp.range i _ (hF i hi)).2
      rw [← L.len]
      exact ⟨by omega, by omega⟩
    · refine ⟨fun a => Roles.GetRole ((participationOf (names ps).toFinset (graph ps) (fun a => F a + 1) a : ℚ) : ℝ)
        (withinOf (names ps).toFinset (graph ps) (fun a => F a + 1) a) + 1, fun a => Drawn.role_eq _ _, ?_, clu_ok L hr2⟩
      exact D.lists hr1 (fun i hi => by rw [hr2 i hi]; simp) hr2 (loaded_w L)
  · intro h0
    exact ⟨l, k1, k2, by dsimp only; rw [stats_ok h0 k1]⟩
  · intro h0
    have : l = [] := by rw [← List.length_eq_zero_iff, k1]; omega
    subst this
    unfold shuffleStats
    rw [if_neg (by omega)]
    simp

/-- **C166**, limits: called without arguments the program writes the name of the file over a pointer and follows it; without `-f` it follows a
pointer that was never set, although it says that it reads the standard input; and it crashes for a file that cannot be opened and for
a malformed line. -/
theorem C166_crash (acc accInv : ℚ → ℚ → ℚ → Bool) (fuel : ℕ) (t : Tape) (rep : Int) (iterfac Tsched : ℚ) :
    netcartoLegacy acc accInv fuel files t .ask = .ub ∧
    netcartoLegacy acc accInv fuel files t (.options none rep iterfac Tsched) = .ub ∧
    (files f = none → netcartoLegacy acc accInv fuel files t (.options (some f) rep iterfac Tsched) = .ub) ∧
    ∀ text, files f = some text → Malformed text → netcartoLegacy acc accInv fuel files t (.options (some f) rep iterfac Tsched) = .ub := by
  refine ⟨rfl, rfl, ?_, ?_⟩
  · intro h
    simp only [netcartoLegacy]
    rw [load_missing h]; rfl
  · intro text h hm
    simp only [netcartoLegacy]
    rw [load_malformed h hm]; rfl

/-- **C166**, limits: if no two links of the graph can be switched — there are no labels `a`, `b`, `c`, `d` such that `a`–`b` and `c`–`d` are
links and `a`–`d` and `b`–`c` are not, as in stars, triangles and all complete graphs — the program never ends when asked for randomizations. -/
theorem C166_never_ends (hf : files f = some text) (hs : Says text ps) (hl : (graph ps).edgeSet.Nonempty)
    (hd : ∀ a, degree ps a ≤ 46340)
    (hno : ∀ a b c d, (graph ps).Adj a b → (graph ps).Adj c d → c ≠ a → c ≠ b → d ≠ a → d ≠ b → (graph ps).Adj a d ∨ (graph ps).Adj b c)
    (acc accInv : ℚ → ℚ → ℚ → Bool) (fuel : ℕ) {rep : Int} (hr : 0 < rep) (iterfac Tsched : ℚ) {t : Tape} (hz : NZ t) :
    netcartoLegacy acc accInv fuel files t (.options (some f) rep iterfac Tsched) = .starved := by
  have key := C166_legacy hf hs hl hd acc accInv fuel rep iterfac Tsched hz
  cases hres : netcartoLegacy acc accInv fuel files t (.options (some f) rep iterfac Tsched) with
  | starved => rfl
  | ub => rw [hres] at key; exact key.elim
  | ok r =>
    exfalso
    obtain ⟨net, e, L⟩ := load_ok hf hs
    simp only [netcartoLegacy] at hres
    rw [e] at hres
    simp only [Res.bind_ok] at hres
    obtain ⟨o, -, hres⟩ := inv hres
    obtain ⟨_, -, hres⟩ := inv hres
    obtain ⟨_, -, hres⟩ := inv hres
    obtain ⟨_, -, hres⟩ := inv hres
    obtain ⟨_, -, hres⟩ := inv hres
    obtain ⟨_, hres, -⟩ := inv hres
    obtain ⟨k, hk⟩ := Nat.exists_eq_succ_of_ne_zero (n := rep.toNat) (by omega)
    rw [hk] at hres
    unfold shuffles at hres
    obtain ⟨copy, e', c1, c2, hhold, hcache, hsym, hlink⟩ := copy_loaded L hl
    rw [e'] at hres
    simp only [Res.ofOption_some, Res.bind_ok] at hres
    rw [GR.C17_never_ends hhold hcache hsym hlink ?_ (by norm_num)] at hres
    · cases hres
    · intro i j k l hij hkl h1 h2 h3 h4
      obtain ⟨hi, hj, hij⟩ := L.weights_isSome.1 hij
      obtain ⟨hk, hl, hkl⟩ := L.weights_isSome.1 hkl
      have ne : ∀ {x y}, x < net.n → y < net.n → x ≠ y → net.label x ≠ net.label y := fun hx hy h e => h (L.distinct _ _ hx hy e)
      rcases hno _ _ _ _ hij hkl (ne hk hi h1) (ne hk hj h2) (ne hl hi h3) (ne hl hj h4) with hh | hh
      · exact Or.inl (L.weights_isSome.2 ⟨hi, hl, hh⟩)
      · exact Or.inr (L.weights_isSome.2 ⟨hj, hk, hh⟩)

end

/-! ## Examples -/

/-- A file with one link. -/
def justOne : String → Option (List Char) := fun f => if f = "net" then some (tex "a b\n") else none

theorem says_justOne : Says (tex "a b\n") [("a", "b")] := by
  have : GR.fileFields (tex "a b\n") = [["a", "b"]] := by decide +kernel
  unfold Says
  rw [this]
  exact .cons ⟨by decide +kernel, by decide +kernel, [], rfl⟩ .nil

/-- Random numbers. -/
def numbers (k : ℕ) : Tape := (List.range k).map fun i => (((i * i + i) % 31 + 1 : ℕ) : ℚ) / 32

theorem numbers_nz (k : ℕ) : NZ (numbers k) := by
  intro u hu
  obtain ⟨i, -, rfl⟩ := List.mem_map.1 hu
  positivity

theorem edge_justOne : (graph [("a", "b")]).edgeSet.Nonempty :=
  ⟨s("a", "b"), (SimpleGraph.mem_edgeSet _).2 ⟨by decide +kernel, Or.inl (by simp)⟩⟩

theorem degree_justOne (a : String) : degree [("a", "b")] a ≤ 46340 := by
  have hsub : (graph [("a", "b")]).neighborSet a ⊆ {"a", "b"} := by
    rintro x ⟨-, hx⟩
    simp only [List.mem_singleton, Prod.mk.injEq] at hx
    simp only [Set.mem_insert_iff, Set.mem_singleton_iff]
    tauto
  have h1 := Set.ncard_le_ncard hsub (Set.toFinite _)
  have h2 := Set.ncard_insert_le "a" ({"b"} : Set String)
  rw [Set.ncard_singleton] at h2
  unfold degree
  omega

/-- The hypotheses of `C166_legacy` hold, and there are runs that end. -/
example : ∃ o F, netcartoLegacy (fun _ _ _ => false) (fun _ _ _ => true) 100 justOne (numbers 2000) (.options (some "net") 0 1 (99 / 100)) =
    .ok (some o) ∧ Describes [("a", "b")] F o ∧ o.randomized = (o.modularity, none, none) := by
  have key := C166_legacy (files := justOne) (f := "net") rfl says_justOne edge_justOne degree_justOne (fun _ _ _ => false) (fun _ _ _ => true) 100 0 1 (99 / 100)
    (numbers_nz 2000)
  have hsa : (match UT.load justOne "net" with
      | .ok net => (match legacySA (fun _ _ _ => false) (fun _ _ _ => true) 100 1 (99 / 100) net (numbers 2000) with
        | .ok _ => true
        | _ => false)
      | _ => false) = true := by decide +kernel
  cases hres : netcartoLegacy (fun _ _ _ => false) (fun _ _ _ => true) 100 justOne (numbers 2000) (.options (some "net") 0 1 (99 / 100)) with
  | ub => rw [hres] at key; exact key.elim
  | ok r =>
    rw [hres] at key
    obtain ⟨o, F, rfl, h1, h2, -⟩ := key
    refine ⟨o, F, rfl, h1, ?_⟩
    obtain ⟨qs, hq, -, h⟩ := h2 (by norm_num)
    have : qs = [] := List.length_eq_zero_iff.1 hq
    subst this
    rw [h]
    simp [meanOf, deviationOf]
  | starved =>
    exfalso
    obtain ⟨net, e, L⟩ := load_ok (files := justOne) (f := "net") rfl says_justOne
    rw [e] at hsa
    dsimp only at hsa
    simp only [netcartoLegacy] at hres
    rw [e] at hres
    simp only [Res.bind_ok] at hres
    have opt : ∀ {α β : Type} (x : Option α) (g : α → Res β), (Res.ofOption x >>= g) = .starved → ∃ a, g a = .starved := by
      intro α β x g h
      cases x with
      | none => cases h
      | some a => exact ⟨a, h⟩
    cases hr : legacySA (fun _ _ _ => false) (fun _ _ _ => true) 100 1 (99 / 100) net (numbers 2000) with
    | ok o =>
      rw [hr] at hres
      obtain ⟨_, hres⟩ := opt _ _ hres
      obtain ⟨_, hres⟩ := opt _ _ hres
      obtain ⟨_, hres⟩ := opt _ _ hres
      obtain ⟨_, hres⟩ := opt _ _ hres
      cases hres
    | starved => rw [hr] at hsa; cases hsa
    | ub => rw [hr] at hsa; cases hsa

/-- The hypotheses of `C166_never_ends` hold for a single link. -/
example (t : Tape) (hz : NZ t) : netcartoLegacy (fun _ _ _ => false) (fun _ _ _ => true) 100 justOne t (.options (some "net") 1 1 (99 / 100)) =
    .starved := by
  refine C166_never_ends (f := "net") rfl says_justOne edge_justOne degree_justOne ?_ _ _ _ (by norm_num) _ _ hz
  rintro a b c d ⟨-, h1⟩ ⟨-, h2⟩ h3 h4 h5 h6
  simp at h1 h2
  rcases h1 with ⟨rfl, rfl⟩ | ⟨rfl, rfl⟩ <;> rcases h2 with ⟨rfl, rfl⟩ | ⟨rfl, rfl⟩ <;> simp_all

end PG
