import Verif.Block.Meaning
import Verif.Block.Table

/-! # C64 – C68: the multi-layer block models of src/multiblock.c and src/only_deg.c -/

set_option linter.unusedSimpArgs false

namespace BK

open GP hiding St
open RG LS Finset

variable {net : Net}

/-! ## C64: what the samplers return -/

/-- **C64.** `LinkScoreMB`, whenever it returns: the requested number of partitions was sampled, each with exact
link counts and with the energy `- log P` of the AND model (up to one constant for the whole run, zero in debug
mode); the score of a pair of nodes is the average over the samples of the probability that one more pair of their
two groups is linked; it is symmetric, strictly between 0 and 1, and the diagonal is 0. -/
theorem C64_and_metropolis (h : net.Simple) (hn : 0 < net.n) (debug : Bool) (acc : ℝ → ℚ → Bool) (linC : ℝ) {nIter : ℕ}
    (hI : 0 < nIter) (warm : List ℕ) (decorStep : ℕ) (scratch : ℕ → Int) (t : Tape) :
    Safe (fun r => ∃ c, (debug = true → c = 0) ∧
        ScoresOK (cost likeAnd) logDeg (predict likeAnd) net linC c nIter r.1 r.2)
      (LinkScoreMB (AND (codeTable net.n)) debug acc net linC nIter warm decorStep scratch t) :=
  Safe.of_le (linkScore_le (and_code_le net.n) debug acc nIter warm decorStep scratch t)
    (Safe.of_holds (linkScore_holds (and_computes' (long_e _)) (and_scores' (long_s _)) h hn debug acc linC hI warm
      decorStep scratch t))

/-- **C64.** The same for `GibbsLinkScoreMB`; the energy is exact. -/
theorem C64_and_gibbs (h : net.Simple) (linC : ℝ) {nIter : ℕ} (hI : 0 < nIter) (warm : ℕ) (scratch : ℕ → Int) (t : Tape) :
    Safe (fun r => ScoresOK (cost likeAnd) logDeg (predict likeAnd) net linC 0 nIter r.1 r.2)
      (GibbsLinkScoreMB (AND (codeTable net.n)) (AND (codeTable net.n)) net linC nIter warm scratch t) := by
  refine Safe.of_le (gibbsScore_le (and_code_le net.n) (and_code_le net.n) nIter warm scratch t) ?_
  have := gibbsScore_safe (and_computes' (long_e net.n)) (and_scores' (long_s _)) h (and_computes' (long_e _)) linC hI
    warm scratch t
  rwa [sub_self] at this

/-- What a matrix of scores of the OR model has to be. -/
structure OrOK (net : Net) (linC c : ℝ) (nIter : ℕ) (M : ℕ → ℕ → ℝ) (tr : List St) : Prop where
  sampled : tr.length = nIter
  exact_states : ∀ s ∈ tr, Exact (cost likeOr) logDeg net linC c s
  average : ∀ a < net.n, ∀ b < net.n, a ≠ b →
    M a b = (tr.map fun s => score (predict likeOr) net s.part.inGroup a b).sum / nIter
  symmetric : ∀ a < net.n, ∀ b < net.n, M a b = M b a
  bounds : ∀ a < net.n, ∀ b < net.n, a ≠ b → 0 < M a b ∧ M a b < 1
  diagonal : ∀ a < net.n, M a a = 1

theorem sum_one_sub {α : Type} (g : α → ℝ) : ∀ l : List α, (l.map fun x => 1 - g x).sum = l.length - (l.map g).sum
  | [] => by simp
  | x :: l => by
    rw [List.map_cons, List.sum_cons, sum_one_sub g l, List.map_cons, List.sum_cons, List.length_cons]
    push_cast
    ring

theorem score_or {f : ℕ → Option ℕ} {a b : ℕ} (ha : f a ≠ none) (hb : f b ≠ none) :
    score (fun r l => 1 - predict likeOr r l) net f a b = 1 - score (predict likeOr) net f a b := by
  unfold score
  cases h1 : f a with
  | none => exact absurd h1 ha
  | some g =>
    cases h2 : f b with
    | none => exact absurd h2 hb
    | some g' => rfl

theorem or_ok {linC c : ℝ} {nIter : ℕ} (hI : 0 < nIter) {M : ℕ → ℕ → ℝ} {tr : List St}
    (hM : ScoresOK (cost likeOr) logDeg (fun r l => 1 - predict likeOr r l) net linC c nIter M tr) :
    OrOK net linC c nIter (fun i j => 1 - M i j) tr := by
  have hI' : (0 : ℝ) < nIter := by exact_mod_cast hI
  refine ⟨hM.sampled, hM.exact_states, ?_, ?_, ?_, ?_⟩
  · intro a ha b hb hab
    rw [hM.average a ha b hb hab]
    have : (tr.map fun s => score (fun r l => 1 - predict likeOr r l) net s.part.inGroup a b) =
        tr.map fun s => 1 - score (predict likeOr) net s.part.inGroup a b := by
      apply List.map_congr_left
      intro s hs
      have hf := (hM.exact_states s hs).full
      exact score_or (hf a ha) (hf b hb)
    rw [this, sum_one_sub (fun s : St => score (predict likeOr) net s.part.inGroup a b), hM.sampled]
    field_simp
    ring
  · intro a ha b hb
    rw [hM.symmetric a ha b hb]
  · intro a ha b hb hab
    have := hM.bounds a ha b hb hab
    exact ⟨by linarith, by linarith⟩
  · intro a ha
    simp [hM.diagonal a ha]

theorem orFinal_safe {P Q : (ℕ → ℕ → ℝ) → List St → Prop} (hPQ : ∀ M tr, P M tr → Q (fun i j => 1 - M i j) tr)
    {r : Res ((ℕ → ℕ → ℝ) × List St)} (h : Safe (fun x => P x.1 x.2) r) : Safe (fun x => Q x.1 x.2) (orFinal r) := by
  unfold orFinal
  refine Safe.bind h ?_
  rintro ⟨M, tr⟩ hM
  exact hPQ M tr hM

/-- **C64.** `ORLinkScoreMB`: as for AND with the OR model, but the diagonal of the scores is 1. -/
theorem C64_or_metropolis (h : net.Simple) (hn : 0 < net.n) (debug : Bool) (acc : ℝ → ℚ → Bool) (linC : ℝ) {nIter : ℕ}
    (hI : 0 < nIter) (warm : List ℕ) (decorStep : ℕ) (scratch : ℕ → Int) (t : Tape) :
    Safe (fun r => ∃ c, (debug = true → c = 0) ∧ OrOK net linC c nIter r.1 r.2)
      (orFinal (LinkScoreMB (OR (codeTable net.n)) debug acc net linC nIter warm decorStep scratch t)) := by
  refine orFinal_safe
    (P := fun M tr => ∃ c, (debug = true → c = 0) ∧
      ScoresOK (cost likeOr) logDeg (fun r l => 1 - predict likeOr r l) net linC c nIter M tr)
    (Q := fun M tr => ∃ c, (debug = true → c = 0) ∧ OrOK net linC c nIter M tr) ?_
    (Safe.of_le (linkScore_le (or_code_le net.n) debug acc nIter warm decorStep scratch t)
      (Safe.of_holds (linkScore_holds (or_computes' (long_e _)) (or_scores' (long_s _)) h hn debug acc linC hI warm
        decorStep scratch t)))
  rintro M tr ⟨c, h1, h2⟩
  exact ⟨c, h1, or_ok hI h2⟩

/-- **C64.** `ORGibbsLinkScoreMB`. -/
theorem C64_or_gibbs (h : net.Simple) (linC : ℝ) {nIter : ℕ} (hI : 0 < nIter) (warm : ℕ) (scratch : ℕ → Int) (t : Tape) :
    Safe (fun r => OrOK net linC 0 nIter r.1 r.2)
      (orFinal (GibbsLinkScoreMB (OR (codeTable net.n)) (OR (codeTable net.n)) net linC nIter warm scratch t)) := by
  have := gibbsScore_safe (or_computes' (long_e net.n)) (or_scores' (long_s _)) h (or_computes' (long_e _)) linC hI
    warm scratch t
  rw [sub_self] at this
  exact orFinal_safe (Q := fun M tr => OrOK net linC 0 nIter M tr) (fun M tr hM => or_ok hI hM)
    (Safe.of_le (gibbsScore_le (or_code_le net.n) (or_code_le net.n) nIter warm scratch t) this)

/-! ## C65: the table of harmonic numbers -/

/-- **C65.** Full statement: the four functions never read outside the table of harmonic numbers.  It is false, see
the next theorems.  What holds: had the table two more entries, the Metropolis versions would never be undefined. -/
theorem C65_long_table_partial (h : net.Simple) (hn : 0 < net.n) (debug : Bool) (acc : ℝ → ℚ → Bool) (linC : ℝ)
    {nIter : ℕ} (hI : 0 < nIter) (warm : List ℕ) (decorStep : ℕ) (scratch : ℕ → Int) (t : Tape) :
    LinkScoreMB (AND (InitializeHarmonicList (1 + net.n * (net.n - 1) / 2 + 2))) debug acc net linC nIter warm decorStep
        scratch t ≠ .ub ∧
    LinkScoreMB (OR (InitializeHarmonicList (1 + net.n * (net.n - 1) / 2 + 2))) debug acc net linC nIter warm decorStep
        scratch t ≠ .ub := by
  have e : LongE net.n (1 + net.n * (net.n - 1) / 2 + 2) := by unfold LongE; omega
  have e' : LongS net.n (1 + net.n * (net.n - 1) / 2 + 2) := by unfold LongS; omega
  constructor
  · intro hu
    have := linkScore_holds (and_computes' e) (and_scores' e') h hn debug acc linC hI warm decorStep scratch t
    rw [hu] at this
    exact this
  · intro hu
    have := linkScore_holds (or_computes' e) (or_scores' e') h hn debug acc linC hI warm decorStep scratch t
    rw [hu] at this
    exact this

/-- **C65.** With the table of the code, the energy of a partition is defined exactly when there are three nodes or
more and they are in two groups or more. -/
theorem C65_energy (h : net.Simple) (hn : 0 < net.n) {p : Part} (hp : PartOK net net.n p) (hf : Full net p) (linC : ℝ) :
    ((PartitionH (AND (codeTable net.n)) net net.n linC p).isSome ↔ 3 ≤ net.n ∧ 2 ≤ (used net p.inGroup).card) ∧
    ((PartitionH (OR (codeTable net.n)) net net.n linC p).isSome ↔ 3 ≤ net.n ∧ 2 ≤ (used net p.inGroup).card) := by
  rw [partitionH_cut (and_cut _) h hn hp hf, partitionH_cut (or_cut _) h hn hp hf]
  constructor <;> split_ifs with hc <;> simp [hc]

/-- **C65.** For every network there are runs of `LinkScoreMB` and `ORLinkScoreMB` that read outside the table: those
in which all nodes are first placed in the same group. -/
theorem C65_undefined (h : net.Simple) (hn : 0 < net.n) (debug : Bool) (acc : ℝ → ℚ → Bool) (linC : ℝ) (nIter : ℕ)
    (warm : List ℕ) (decorStep : ℕ) (scratch : ℕ → Int) (t : Tape) :
    LinkScoreMB (AND (codeTable net.n)) debug acc net linC nIter warm decorStep scratch (List.replicate net.n 0 ++ t) = .ub ∧
    LinkScoreMB (OR (codeTable net.n)) debug acc net linC nIter warm decorStep scratch (List.replicate net.n 0 ++ t) = .ub :=
  ⟨run_zero (and_cut _) h hn debug acc linC nIter warm decorStep scratch t,
    run_zero (or_cut _) h hn debug acc linC nIter warm decorStep scratch t⟩

/-- **C65.** On networks of one or two nodes no run of `LinkScoreMB` or `ORLinkScoreMB` returns. -/
theorem C65_small (h : net.Simple) (hn : 0 < net.n) (hs : net.n < 3) (debug : Bool) (acc : ℝ → ℚ → Bool) (linC : ℝ) (nIter : ℕ)
    (warm : List ℕ) (decorStep : ℕ) (scratch : ℕ → Int) (t : Tape) (r : (ℕ → ℕ → ℝ) × List St) :
    LinkScoreMB (AND (codeTable net.n)) debug acc net linC nIter warm decorStep scratch t ≠ .ok r ∧
    LinkScoreMB (OR (codeTable net.n)) debug acc net linC nIter warm decorStep scratch t ≠ .ok r := by
  constructor
  · intro hu
    have := run_small (and_cut _) h hn hs debug acc linC nIter warm decorStep scratch t
    rw [hu] at this
    exact this
  · intro hu
    have := run_small (or_cut _) h hn hs debug acc linC nIter warm decorStep scratch t
    rw [hu] at this
    exact this

/-- **C65.** In every state in which one node is alone and all others are together, the samplers read outside the
table as soon as they consider to join them. -/
theorem C65_join {linC : ℝ} {p : Part} (hp : PartOK net net.n p) {G2G : ℕ → ℕ → Int} {n2g : ℕ → Int} {slg : List ℕ}
    {v old new : ℕ} (hmem : new ∈ slg) (hnew : new < net.n) (hne : new ≠ old) (hn : 1 < net.n)
    (hall : (block net p.inGroup new).card + 1 = net.n) :
    deltaH (AND (codeTable net.n)) net linC p G2G n2g slg v old new = none ∧
    deltaH (OR (codeTable net.n)) net linC p G2G n2g slg v old new = none :=
  ⟨delta_cut (and_cut _) hp hmem hnew hne hn hall, delta_cut (or_cut _) hp hmem hnew hne hn hall⟩

theorem not_ok {α : Type} {a b : Res α} (h : RLe a b) (hb : b = .ub) (x : α) : a ≠ .ok x := by
  intro ha
  have := h x ha
  rw [hb] at this
  cases this

/-- **C65.** The three Gibbs samplers cannot leave a state with a single group, nor go on when the first draw is 0: no
call returns from there (the code uses variables that were never set). -/
theorem C65_gibbs_stuck (h : net.Simple) {linC c : ℝ} {s : St} {F : Int → Int → ℝ} (hs : Exact F logDeg net linC c s)
    (hbad : (used net s.part.inGroup).card = 1 ∨ 2 ≤ (used net s.part.inGroup).card ∧ ∃ t, s.tape = 0 :: t) (s' : St) :
    GibbsLinkScoreStep (AND (codeTable net.n)) net linC s ≠ .ok s' ∧
    GibbsLinkScoreStep (OR (codeTable net.n)) net linC s ≠ .ok s' ∧
    GibbsLinkScoreStep OD net linC s ≠ .ok s' := by
  have key : ∀ {K : Kern} {G : Int → Int → ℝ}, Computes K net.n G logDeg → GibbsLinkScoreStep K net linC s = .ub := by
    intro K G hK
    have hs' : Exact G logDeg net linC (s.H - energy G logDeg net linC s.part.inGroup) s :=
      ⟨hs.part, hs.full, hs.counts, by ring⟩
    rcases hbad with h1 | ⟨h2, t, ht⟩
    · exact step_one_group hK h hs' h1
    · exact step_zero_draw hK h hs' h2 ht
  exact ⟨not_ok (gibbsStep_le (and_code_le net.n) s) (key (and_computes' (long_e _))) s',
    not_ok (gibbsStep_le (or_code_le net.n) s) (key (or_computes' (long_e _))) s',
    not_ok (RLe.refl _) (key (od_computes' _)) s'⟩

/-! ## C66: meaning of the terms -/

theorem term_some_and {size : ℕ} (hs : 0 < size) {r l : Int} {x : ℝ} (h : andTerm (InitializeHarmonicList size) r l = some x) :
    0 ≤ l ∧ l ≤ r ∧ x = andF r l := by
  unfold andTerm at h
  cases hl : lterm r l with
  | none => rw [hl] at h; cases h
  | some a =>
    have hb : 0 ≤ l ∧ l ≤ r := by
      unfold lterm at hl
      by_contra hc
      rw [if_neg hc] at hl
      cases hl
    rw [lterm_od hb.1 hb.2, read_eq hs, read_eq hs] at h
    simp only [Option.bind_eq_bind, Option.bind_some] at h
    by_cases h1 : 0 ≤ r + 1 ∧ r + 1 < size
    · rw [if_pos h1, if_pos ⟨hb.1, by omega⟩] at h
      simp at h
      exact ⟨hb.1, hb.2, h.symm⟩
    · rw [if_neg h1] at h; cases h

theorem term_some_or {size : ℕ} (hs : 0 < size) {r l : Int} {x : ℝ} (h : orTerm (InitializeHarmonicList size) r l = some x) :
    0 ≤ l ∧ l ≤ r ∧ x = orF r l := by
  unfold orTerm at h
  cases hl : lterm r l with
  | none => rw [hl] at h; cases h
  | some a =>
    have hb : 0 ≤ l ∧ l ≤ r := by
      unfold lterm at hl
      by_contra hc
      rw [if_neg hc] at hl
      cases hl
    rw [lterm_od hb.1 hb.2, read_eq hs, read_eq hs] at h
    simp only [Option.bind_eq_bind, Option.bind_some] at h
    by_cases h1 : 0 ≤ r + 1 ∧ r + 1 < size
    · rw [if_pos h1, if_pos ⟨by omega, by omega⟩] at h
      simp at h
      exact ⟨hb.1, hb.2, h.symm⟩
    · rw [if_neg h1] at h; cases h

/-- **C66.** The cost that the code gives to a pair of groups with `r` node pairs and `l` links is minus the logarithm of
the probability of the links under the model: AND of two layers (src/multiblock.c), OR of two layers, one layer
(src/only_deg.c and src/missing.c), with uniform priors. -/
theorem C66_cost {size : ℕ} (hs : 0 < size) {r l : Int} {x : ℝ} :
    (andTerm (InitializeHarmonicList size) r l = some x → x = -Real.log (likeAnd r.toNat l.toNat)) ∧
    (orTerm (InitializeHarmonicList size) r l = some x → x = -Real.log (likeOr r.toNat l.toNat)) ∧
    (lterm r l = some x → x = -Real.log (like1 r.toNat l.toNat)) := by
  refine ⟨fun h => ?_, fun h => ?_, fun h => ?_⟩
  · obtain ⟨h0, h1, rfl⟩ := term_some_and hs h
    exact cost_and h0 h1
  · obtain ⟨h0, h1, rfl⟩ := term_some_or hs h
    exact cost_or h0 h1
  · have hb : 0 ≤ l ∧ l ≤ r := by
      unfold lterm at h
      by_contra hc
      rw [if_neg hc] at h
      cases h
    rw [lterm_od hb.1 hb.2] at h
    have := Option.some.inj h
    rw [← this]
    exact cost_one hb.1 hb.2

/-- **C66.** The contribution of a partition to the score of a pair is the probability that one more pair of the two
groups is linked, given the links seen (OR: that it is not linked). -/
theorem C66_predict {size : ℕ} {r l : ℕ} (h : l ≤ r) (hs : r + 2 < size) :
    andScore (InitializeHarmonicList size) r l = some (likeAnd (r + 1) (l + 1) / likeAnd r l) ∧
    orScore (InitializeHarmonicList size) r l = some (1 - likeOr (r + 1) (l + 1) / likeOr r l) ∧
    OD.score r l = some (like1 (r + 1) (l + 1) / like1 r l) := by
  have h0 : (0 : Int) ≤ l := by omega
  have h1 : (l : Int) ≤ r := by omega
  refine ⟨?_, ?_, ?_⟩
  · have := predict_and h0 h1
    unfold predict at this
    rw [Int.toNat_natCast, Int.toNat_natCast] at this
    rw [← this]
    unfold andScore andS
    rw [read_some (by omega) (by omega), read_some (by omega) (by omega), read_some (by omega) (by omega),
      read_some h0 (by omega)]
    rfl
  · have := predict_or h0 h1
    unfold predict at this
    rw [Int.toNat_natCast, Int.toNat_natCast] at this
    rw [← this]
    unfold orScore orS andS
    rw [read_some (by omega) (by omega), read_some (by omega) (by omega), read_some (by omega) (by omega),
      read_some (by omega) (by omega)]
    simp
  · have := predict_one h0 h1
    unfold predict at this
    rw [Int.toNat_natCast, Int.toNat_natCast] at this
    rw [← this]
    rfl

/-- **C66.** One link seen on one pair: the next pair is linked with probability 4/9 (AND) and 2/3 (one layer). -/
theorem C66_values : likeAnd 2 2 / likeAnd 1 1 = 4 / 9 ∧ like1 2 2 / like1 1 1 = 2 / 3 := by
  rw [likeAnd_eq le_rfl, likeAnd_eq le_rfl, like1_eq le_rfl, like1_eq le_rfl]
  norm_num [harm, sum_range_succ]

/-! ## C67: the penalty for the number of groups -/

/-- **C67.** `LogDegeneracy` is defined for every number of groups, never negative and non-decreasing, also across the
change from the table to the formula. -/
theorem C67_log_degeneracy {j k : ℕ} (h : j ≤ k) : ∃ x y, LogDegeneracy j = some x ∧ LogDegeneracy k = some y ∧ 0 ≤ x ∧ x ≤ y :=
  ⟨_, _, logDeg_defined j, logDeg_defined k, logDeg_nonneg j, logDeg_mono h⟩

/-- The two sides of the change. -/
example : (∃ x, LogDegeneracy 149 = some x) ∧ ∃ x, LogDegeneracy 150 = some x :=
  ⟨⟨_, logDeg_defined 149⟩, ⟨_, logDeg_defined 150⟩⟩

/-! ## C68: src/only_deg.c -/

/-- **C68.** `LinkScoreMB_OD` is never undefined, and what it returns is as in C64 with the one-layer model. -/
theorem C68_metropolis (h : net.Simple) (hn : 0 < net.n) (debug : Bool) (acc : ℝ → ℚ → Bool) (linC : ℝ) {nIter : ℕ}
    (hI : 0 < nIter) (warm : List ℕ) (decorStep : ℕ) (scratch : ℕ → Int) (t : Tape) :
    (LinkScoreMB OD debug acc net linC nIter warm decorStep scratch t).Holds fun r =>
      ∃ c, (debug = true → c = 0) ∧ ScoresOK (cost like1) logDeg (predict like1) net linC c nIter r.1 r.2 :=
  linkScore_holds (od_computes' _) (od_scores' _) h hn debug acc linC hI warm decorStep scratch t

/-- Every node in a group of its own. -/
def own (n : ℕ) (v : ℕ) : Option ℕ := if v < n then some v else none

theorem own_block {g : ℕ} (hg : g < net.n) : block net (own net.n) g = {g} := by
  ext v
  rw [mem_block, mem_singleton]
  unfold own
  constructor
  · rintro ⟨h1, h2⟩
    rw [if_pos h1] at h2
    exact Option.some.inj h2
  · rintro rfl
    exact ⟨hg, if_pos hg⟩

theorem own_pairs {g g' : ℕ} (hg : g < net.n) (hg' : g' < net.n) : pairs net (own net.n) g g' = if g = g' then 0 else 1 := by
  unfold pairs
  rw [own_block hg, own_block hg']
  simp

theorem own_links (h : net.Simple) {g g' : ℕ} (hg : g < net.n) (hg' : g' < net.n) :
    links net (own net.n) g g' = if g = g' then 0 else net.a g g' := by
  unfold links
  rw [own_block hg, own_block hg']
  by_cases e : g = g'
  · subst e
    have : net.a g g = 0 := by unfold Net.a; rw [h.irrefl]; rfl
    simp [this]
  · simp [e]

/-- Difference of the AND cost and the one-layer cost for a single pair. -/
theorem cost_diff (x : Int) (hx : x = 0 ∨ x = 1) :
    cost likeAnd 1 x - cost like1 1 x = if x = 0 then -Real.log (3 / 2) else Real.log 2 := by
  have h2 : harm 2 = 3 / 2 := by norm_num [harm, sum_range_succ]
  have h1 : harm 1 = 1 := by norm_num [harm]
  have h0 : harm 0 = 0 := by norm_num [harm]
  rcases hx with rfl | rfl
  · rw [← cost_and (by norm_num) (by norm_num), ← cost_one (by norm_num) (by norm_num)]
    unfold andF
    rw [show ((1 : Int) + 1).toNat = 2 from rfl, show (0 : Int).toNat = 0 from rfl, h2, h0]
    norm_num
  · rw [← cost_and (by norm_num) (by norm_num), ← cost_one (by norm_num) (by norm_num)]
    unfold andF
    rw [show ((1 : Int) + 1).toNat = 2 from rfl, show (1 : Int).toNat = 1 from rfl, h2, h1]
    norm_num
    rw [one_div, Real.log_inv]
    ring

theorem cost_zero : cost likeAnd 0 0 = 0 ∧ cost like1 0 0 = 0 := by
  rw [← cost_and le_rfl le_rfl, ← cost_one le_rfl le_rfl]
  exact ⟨andF_zero, odF_zero⟩

/-- Pairs `g < g'` of nodes. -/
def nodePairs (n : ℕ) : Finset (ℕ × ℕ) := (range n ×ˢ range n).filter fun x => x.1 < x.2

/-- The wrong initial energy, minus the right one. -/
theorem offset_eq (h : net.Simple) (linC : ℝ) :
    energy (cost likeAnd) logDeg net linC (own net.n) - energy (cost like1) logDeg net linC (own net.n) =
      ((nodePairs net.n).filter fun x => net.a x.1 x.2 = 1).card * Real.log 2 -
      ((nodePairs net.n).filter fun x => net.a x.1 x.2 ≠ 1).card * Real.log (3 / 2) := by
  have key : ∀ G : Int → Int → ℝ, G 0 0 = 0 → ∑ g ∈ range net.n, T G net (own net.n) g g +
      ∑ g ∈ range net.n, ∑ g' ∈ (range net.n).filter (g < ·), T G net (own net.n) g g' =
      ∑ x ∈ nodePairs net.n, G 1 (net.a x.1 x.2) := by
    intro G h0
    rw [sum_eq_zero (fun g hg => ?_), zero_add]
    · unfold nodePairs
      rw [sum_filter, sum_product]
      refine sum_congr rfl fun g hg => ?_
      rw [sum_filter]
      refine sum_congr rfl fun g' hg' => ?_
      by_cases hl : g < g'
      · rw [if_pos hl, if_pos hl]
        unfold T
        rw [own_pairs (mem_range.1 hg) (mem_range.1 hg'), own_links h (mem_range.1 hg) (mem_range.1 hg'),
          if_neg (by omega), if_neg (by omega)]
      · rw [if_neg hl, if_neg hl]
    · unfold T
      rw [own_pairs (mem_range.1 hg) (mem_range.1 hg), own_links h (mem_range.1 hg) (mem_range.1 hg), if_pos rfl,
        if_pos rfl, h0]
  have k1 := key _ cost_zero.1
  have k2 := key _ cost_zero.2
  have e : energy (cost likeAnd) logDeg net linC (own net.n) - energy (cost like1) logDeg net linC (own net.n) =
      ∑ x ∈ nodePairs net.n, (cost likeAnd 1 (net.a x.1 x.2) - cost like1 1 (net.a x.1 x.2)) := by
    rw [sum_sub_distrib, ← k1, ← k2]
    unfold energy
    ring
  rw [e, ← sum_filter_add_sum_filter_not _ (fun x : ℕ × ℕ => net.a x.1 x.2 = 1)]
  have s1 : ∑ x ∈ (nodePairs net.n).filter (fun x => net.a x.1 x.2 = 1),
      (cost likeAnd 1 (net.a x.1 x.2) - cost like1 1 (net.a x.1 x.2)) =
      ∑ x ∈ (nodePairs net.n).filter (fun x => net.a x.1 x.2 = 1), Real.log 2 := by
    refine sum_congr rfl fun x hx => ?_
    rw [(mem_filter.1 hx).2, cost_diff 1 (Or.inr rfl)]
    norm_num
  have s2 : ∑ x ∈ (nodePairs net.n).filter (fun x => ¬ net.a x.1 x.2 = 1),
      (cost likeAnd 1 (net.a x.1 x.2) - cost like1 1 (net.a x.1 x.2)) =
      ∑ x ∈ (nodePairs net.n).filter (fun x => ¬ net.a x.1 x.2 = 1), -Real.log (3 / 2) := by
    refine sum_congr rfl fun x hx => ?_
    have h1 := (mem_filter.1 hx).2
    have h2 : net.a x.1 x.2 = 0 := by
      unfold Net.a at h1 ⊢
      split_ifs with hs
      · rw [if_pos hs] at h1; exact absurd rfl h1
      · rfl
    rw [h2, cost_diff 0 (Or.inl rfl)]
    norm_num
  rw [s1, s2, sum_const, sum_const, nsmul_eq_mul, nsmul_eq_mul]
  ring

theorem powers_ne (a b : ℕ) (h : 0 < a + b) : (a : ℝ) * Real.log 2 - b * Real.log (3 / 2) ≠ 0 := by
  intro he
  have h1 : (a + b : ℝ) * Real.log 2 = b * Real.log 3 := by
    rw [Real.log_div (by norm_num) (by norm_num)] at he
    linarith
  have h2 : Real.log ((2 : ℝ) ^ (a + b)) = Real.log ((3 : ℝ) ^ b) := by
    rw [Real.log_pow, Real.log_pow]
    push_cast
    exact h1
  have h3 : (2 : ℝ) ^ (a + b) = (3 : ℝ) ^ b := Real.log_injOn_pos (by simp) (by simp) h2
  have h4 : 2 ^ (a + b) = 3 ^ b := by exact_mod_cast h3
  have e1 : Even (2 ^ (a + b)) := (Nat.even_pow.2 ⟨even_two, by omega⟩)
  rw [h4] at e1
  have := (Nat.even_pow.1 e1).1
  exact absurd this (by decide)

/-- **C68.** `GibbsLinkScoreMB_OD`. Full statement: the running energy is the one-layer energy of the current
partition. It is false, see the next theorem: the starting value is computed with the AND model.  What holds, whenever it
returns: link counts and scores are right, and the energy is off by the same constant in all samples. -/
theorem C68_gibbs_partial (h : net.Simple) (linC : ℝ) {nIter : ℕ} (hI : 0 < nIter) (warm : ℕ) (scratch : ℕ → Int) (t : Tape) :
    Safe (fun r => ScoresOK (cost like1) logDeg (predict like1) net linC
        (((nodePairs net.n).filter fun x => net.a x.1 x.2 = 1).card * Real.log 2 -
          ((nodePairs net.n).filter fun x => net.a x.1 x.2 ≠ 1).card * Real.log (3 / 2)) nIter r.1 r.2)
      (GibbsLinkScoreMB (AND (codeTable net.n)) OD net linC nIter warm scratch t) := by
  refine Safe.of_le (gibbsScore_le (and_code_le net.n) (KLe.refl OD) nIter warm scratch t) ?_
  have := gibbsScore_safe (od_computes' net.n) (od_scores' _) h (and_computes' (long_e _)) linC hI warm scratch t
  rw [← offset_eq h linC]
  exact this

/-- **C68.** For every network of two nodes or more, the energy of every sample is wrong. -/
theorem C68_energy_wrong (h : net.Simple) (hn : 2 ≤ net.n) (linC : ℝ) {nIter : ℕ} (hI : 0 < nIter) (warm : ℕ)
    (scratch : ℕ → Int) (t : Tape) :
    Safe (fun r => r.2.length = nIter ∧ ∀ s ∈ r.2, s.H ≠ energy (cost like1) logDeg net linC s.part.inGroup)
      (GibbsLinkScoreMB (AND (codeTable net.n)) OD net linC nIter warm scratch t) := by
  have := C68_gibbs_partial h linC hI warm scratch t
  cases hr : GibbsLinkScoreMB (AND (codeTable net.n)) OD net linC nIter warm scratch t with
  | starved => trivial
  | ub => trivial
  | ok r =>
    rw [hr] at this
    have ok : ScoresOK _ _ _ _ _ _ _ r.1 r.2 := this
    refine ⟨ok.sampled, fun s hs he => ?_⟩
    have h1 := (ok.exact_states s hs).energy
    rw [he] at h1
    have h2 := left_eq_add.1 h1
    refine powers_ne _ _ ?_ h2
    rw [card_filter_add_card_filter_not]
    exact card_pos.2 ⟨(0, 1), by unfold nodePairs; simp; omega⟩

/-! ## Examples -/

theorem foldlM_isSome {α β : Type} {f : β → α → Option β} : ∀ (l : List α) (b : β), (∀ x ∈ l, ∀ b, (f b x).isSome) →
    (l.foldlM f b).isSome
  | [], _, _ => rfl
  | x :: l, b, h => by
    rw [List.foldlM_cons]
    have hx := h x (by simp) b
    obtain ⟨y, hy⟩ := Option.isSome_iff_exists.1 hx
    rw [hy]
    exact foldlM_isSome l y (fun z hz => h z (by simp [hz]))

theorem accumulate_isSome {K : Kern} {n : ℕ} {p : Part} {G2G : ℕ → ℕ → Int} (M : ℕ → ℕ → ℝ)
    (h1 : ∀ i < n, (K.score ((p.grp i).size * ((p.grp i).size - 1) / 2) (p.grp i).inlinks).isSome)
    (h2 : ∀ i < n, ∀ j < n, i < j → (K.score ((p.grp i).size * (p.grp j).size) (G2G i j)).isSome) :
    (accumulate K n p G2G M).isSome := by
  unfold accumulate
  refine foldlM_isSome _ _ fun i hi M => ?_
  have hi := List.mem_range.1 hi
  unfold addGroup
  split
  · obtain ⟨c, hc⟩ := Option.isSome_iff_exists.1 (h1 i hi)
    rw [hc]
    simp only [Option.bind_eq_bind, Option.bind_some]
    refine foldlM_isSome _ _ fun j hj M => ?_
    rw [List.mem_range'_1] at hj
    split
    · obtain ⟨c, hc⟩ := Option.isSome_iff_exists.1 (h2 i hi j (by omega) (by omega))
      rw [hc]; rfl
    · rfl
  · rfl

theorem andScore_isSome {size : ℕ} {r l : Int} (h0 : 0 ≤ l) (h1 : l ≤ r) (h2 : r + 2 < size) :
    (andScore (InitializeHarmonicList size) r l).isSome := by
  unfold andScore
  rw [read_some (by omega) (by omega), read_some (by omega) (by omega), read_some (by omega) (by omega),
    read_some h0 (by omega)]
  rfl

/-- The tailed triangle, every node in a group of its own. -/
def tailedOwn : Part :=
  AddNodeToGroup tailed 3 3 (AddNodeToGroup tailed 2 2 (AddNodeToGroup tailed 1 1 (AddNodeToGroup tailed 0 0 Part.empty)))

theorem tailedOwn_ok : PartOK tailed 4 tailedOwn ∧ Full tailed tailedOwn := by
  constructor
  · unfold tailedOwn
    refine add_ok tailed_simple (add_ok tailed_simple (add_ok tailed_simple (add_ok tailed_simple
      (empty_ok tailed 4) ?_ ?_ ?_) ?_ ?_ ?_) ?_ ?_ ?_) ?_ ?_ ?_ <;> decide
  · unfold Full
    decide

/-- Non-vacuity of C64: on a triangle with a tail there are runs of `LinkScoreMB` that return. -/
example : ∃ r, LinkScoreMB (AND (codeTable 4)) true (fun _ _ => true) tailed 0 2 [] 0 (fun _ => 7) [0, 1 / 4, 1 / 2, 3 / 4] = .ok r := by
  obtain ⟨hp, hf⟩ := tailedOwn_ok
  have e1 : randomInit tailed tailed.n (List.range tailed.n) Part.empty [0, 1 / 4, 1 / 2, 3 / 4] = .ok (tailedOwn, []) := by
    change randomInit tailed 4 [0, 1, 2, 3] Part.empty [0, 1 / 4, 1 / 2, 3 / 4] = _
    norm_num [randomInit, pick, draw, tailedOwn, Nat.floor_eq_iff]
  have hG : ∀ i < 4, ∀ j < 4, i ≠ j → 0 ≤ initG2G tailed tailedOwn i j ∧ initG2G tailed tailedOwn i j ≤ 1 := by decide +kernel
  have hsz : ∀ i < 4, (tailedOwn.grp i).size = 1 ∧ (tailedOwn.grp i).inlinks = 0 := by decide +kernel
  have hA : ∀ M, (accumulate (AND (codeTable 4)) 4 tailedOwn (initG2G tailed tailedOwn) M).isSome := by
    intro M
    apply accumulate_isSome
    · intro i hi
      rw [(hsz i hi).1, (hsz i hi).2]
      exact andScore_isSome (by omega) (by omega) (by norm_num)
    · intro i hi j hj hij
      rw [(hsz i hi).1, (hsz j hj).1]
      have := hG i hi j hj (by omega)
      exact andScore_isSome this.1 (by omega) (by norm_num)
  have hE : PartitionH (AND (codeTable tailed.n)) tailed tailed.n 0 tailedOwn =
      some (energy andF logDeg tailed 0 tailedOwn.inGroup) := by
    rw [partitionH_cut (and_cut _) tailed_simple (by decide) hp hf, if_pos (by decide)]
  unfold LinkScoreMB
  rw [e1, Res.bind_ok]
  dsimp only
  rw [show AND (codeTable 4) = AND (codeTable tailed.n) from rfl, hE]
  simp only [Res.ofOption_some, Res.bind_ok, steps]
  unfold sample
  obtain ⟨M1, h1⟩ := Option.isSome_iff_exists.1 (hA fun _ _ => 0)
  obtain ⟨M2, h2⟩ := Option.isSome_iff_exists.1 (hA M1)
  unfold sample
  unfold sample
  simp only [LSMCStepMB, Nat.mul_zero, iter, Res.bind_ok, if_true]
  change ∃ r, (do
    let x ← (do
      let M ← Res.ofOption (accumulate (AND (codeTable 4)) 4 tailedOwn (initG2G tailed tailedOwn) fun _ _ => 0)
      let M ← Res.ofOption (accumulate (AND (codeTable 4)) 4 tailedOwn (initG2G tailed tailedOwn) M)
      Res.ok (M, _))
    _) = Res.ok r
  rw [h1]
  simp only [Res.ofOption_some, Res.bind_ok]
  rw [h2]
  exact ⟨_, rfl⟩

/-- Non-vacuity of C65: `tailedOwn` has an energy; all nodes in one group have not. -/
example : (PartitionH (AND (codeTable tailed.n)) tailed tailed.n 0 tailedOwn).isSome :=
  (C65_energy tailed_simple (by decide) tailedOwn_ok.1 tailedOwn_ok.2 0).1.2 (by decide)

example : LinkScoreMB (AND (codeTable tailed.n)) false (fun _ _ => true) tailed 0 1 [] 1 (fun _ => 0) [0, 0, 0, 0] = .ub :=
  (C65_undefined tailed_simple (by decide) false (fun _ _ => true) 0 1 [] 1 (fun _ => 0) []).1

/-- Non-vacuity of `C65_gibbs_stuck`: four groups and a first draw of 0. -/
example : ∃ s : St, Exact (cost likeAnd) logDeg tailed 0 0 s ∧ 2 ≤ (used tailed s.part.inGroup).card ∧ s.tape = [0, 1 / 2] :=
  ⟨{ part := tailedOwn, G2G := initG2G tailed tailedOwn, n2g := fun _ => 7,
      H := energy (cost likeAnd) logDeg tailed 0 tailedOwn.inGroup, slg := [], tape := [0, 1 / 2] },
    ⟨tailedOwn_ok.1, tailedOwn_ok.2, fun _ hi _ hj => initG2G_eq tailed_simple tailedOwn_ok.1 hi hj, (add_zero _).symm⟩,
    by decide, rfl⟩

/-- Non-vacuity of C68: the offset of the tailed triangle is `4 log 2 - 2 log (3/2)`. -/
example : ((nodePairs tailed.n).filter fun x => tailed.a x.1 x.2 = 1).card = 4 ∧
    ((nodePairs tailed.n).filter fun x => tailed.a x.1 x.2 ≠ 1).card = 2 := by decide

theorem gibbsNode_ok {K : Kern} {F : Int → Int → ℝ} {D : ℕ → ℝ} {c : ℝ} (hK : Computes K net.n F D) (h : net.Simple) {linC : ℝ}
    {s : GSt} (hs : GInv F D net linC c s) {u : ℚ} {t : Tape} (ht : s.st.tape = u :: t) (h0 : 0 < u) (h1 : u < 1) {v : ℕ}
    (hv : v < net.n) : ∃ s', gibbsNode K net linC s v = .ok s' ∧ GInv F D net linC c s' ∧ s'.st.tape = t := by
  obtain ⟨old, sc, e, hold, hn2g, hrun, _, hc⟩ := gibbsNode_run hK h hs hv
  rw [← s.withTape_self, hrun, ht]
  have hd : draw (u :: t) = .ok (u, t) := by simp only [draw]; rw [if_pos ⟨h0.le, h1⟩]
  obtain ⟨c1, c2, _⟩ := hc u h0.le h1
  obtain ⟨⟨new, x⟩, hr⟩ := Option.isSome_iff_exists.1 (c2 h0)
  rw [hd, Res.bind_ok]
  dsimp only
  rw [hr]
  simp only [Res.ofOption_some, Res.bind_ok]
  obtain ⟨k1, k2⟩ := c1 _ hr
  have hm := gibbsMove_holds h hs hold hn2g k1 k2 t
  cases hg : gibbsMove net s v old sc new x t with
  | ub => rw [hg] at hm; exact absurd hm (by simp)
  | starved =>
    exfalso
    unfold gibbsMove addToShortlist at hg
    split_ifs at hg <;> cases hg
  | ok s' =>
    rw [hg] at hm
    exact ⟨s', rfl, hm.1, hm.2⟩

/-- A step of the Gibbs sampler returns if there are two groups or more and enough draws. -/
theorem gibbsNodes_ok {K : Kern} {F : Int → Int → ℝ} {D : ℕ → ℝ} {c : ℝ} (hK : Computes K net.n F D) (h : net.Simple) {linC : ℝ} :
    ∀ (vs : List ℕ) (s : GSt), GInv F D net linC c s → (∀ u ∈ s.st.tape, 0 < u ∧ u < 1) → vs.length ≤ s.st.tape.length →
    (∀ v ∈ vs, v < net.n) → ∃ s', gibbsNodes K net linC vs s = .ok s' ∧ GInv F D net linC c s'
  | [], s, hs, _, _, _ => ⟨s, rfl, hs⟩
  | v :: vs, s, hs, ht, hl, hv => by
    cases htt : s.st.tape with
    | nil => rw [htt] at hl; simp at hl
    | cons u t =>
      rw [htt] at hl ht
      obtain ⟨s1, e1, i1, t1⟩ := gibbsNode_ok hK h hs htt (ht u (by simp)).1 (ht u (by simp)).2 (hv v (by simp))
      obtain ⟨s2, e2, i2⟩ := gibbsNodes_ok hK h vs s1 i1 (by rw [t1]; exact fun x hx => ht x (by simp [hx]))
        (by rw [t1]; simpa using hl) (fun w hw => hv w (by simp [hw]))
      refine ⟨s2, ?_, i2⟩
      unfold gibbsNodes
      rw [e1]
      exact e2

/-- Non-vacuity of C68: with eight draws equal to 1/2, `GibbsLinkScoreMB_OD` returns one sample. -/
example : ∃ r, GibbsLinkScoreMB (AND (codeTable tailed.n)) OD tailed 0 1 0 (fun _ => 7) (List.replicate 8 (1 / 2)) = .ok r := by
  have h := tailed_simple
  obtain ⟨hp, hi⟩ := own_groups h tailed.n (le_refl _)
  have hf : Full tailed ((List.range tailed.n).foldl (fun p v => AddNodeToGroup tailed v v p) Part.empty) := by
    intro v hv
    rw [hi, if_pos hv]; simp
  generalize hP : (List.range tailed.n).foldl (fun p v => AddNodeToGroup tailed v v p) Part.empty = P at hp hi hf
  have hu : 2 ≤ (used tailed P.inGroup).card := by
    have : P.inGroup = fun v => if v < 4 then some v else none := funext hi
    rw [this]; decide
  have hsk : skip tailed.n (List.replicate 8 (1 / 2)) = .ok (List.replicate 4 (1 / 2)) := by
    norm_num [skip, draw, tailed, List.replicate]
  unfold GibbsLinkScoreMB
  rw [hsk, Res.bind_ok, hP]
  dsimp only
  rw [partitionH_cut (and_cut _) h (by decide) hp hf, if_pos ⟨by decide, hu⟩]
  simp only [Res.ofOption_some, Res.bind_ok, gibbsSteps]
  unfold sample
  unfold GibbsLinkScoreStep
  have hs : Exact (cost like1) logDeg tailed 0 (energy andF logDeg tailed 0 P.inGroup - energy (cost like1) logDeg tailed 0 P.inGroup)
      { part := P, G2G := initG2G tailed P, n2g := fun _ => 7, H := energy andF logDeg tailed 0 P.inGroup, slg := [],
        tape := List.replicate 4 (1 / 2) } :=
    ⟨hp, hf, fun i hi j hj => initG2G_eq h hp hi hj, by ring⟩
  obtain ⟨s', e1, i1⟩ := gibbsNodes_ok (od_computes' tailed.n) h (List.range tailed.n) _ (start_inv hs hu)
    (by intro u hu; rw [List.eq_of_mem_replicate hu]; norm_num) (by simp [tailed]) (fun v hv => List.mem_range.1 hv)
  unfold startList at e1
  dsimp only at e1 ⊢
  rw [e1]
  simp only [Res.bind_ok, Res.pure_eq]
  rw [accumulate_pure (od_scores' tailed.n) h i1.1.part i1.1.counts]
  exact ⟨_, rfl⟩

end BK
