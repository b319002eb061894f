import Verif.Block.SparseMeaning
import Verif.Block.Balance
import Verif.Block.GibbsBalance
import Verif.Recommend.Posterior

/-!
# C184: the scores of the two-layer, degree and sparse models are posterior probabilities

As C181, for every model of the links between two groups that is given by the probability `L r l` of a given pattern of `l`
links on `r` pairs (`like1`, `likeAnd`, `likeOr`, `likeBeta`, all integrals over unknown probabilities). A division into `k`
groups has weight `exp (D k - linC k)` beforehand; `D` is the table `LogDegeneracy` in multiblock.c and only_deg.c.
-/

namespace BK

open GP LS Finset MH

/-! ## Bayesian model -/

section spec

variable (L : ℕ → ℕ → ℝ) (D : ℕ → ℝ) (net : Net) (linC : ℝ) (A : Fin net.n → Fin net.n)

/-- `L` gives probabilities: patterns have positive probability, and a further pair is linked or not. -/
def Pattern : Prop := (∀ r l, l ≤ r → 0 < L r l) ∧ ∀ r l, l ≤ r → L r l = L (r + 1) l + L (r + 1) (l + 1)

/-- Linked pairs of a cell. -/
def tied (g g' : Fin net.n) : ℕ := ((cell net A g g').filter fun p => (net.link p.1 p.2).isSome).card

/-- Probability of the network for this division. -/
noncomputable def evidence : ℝ := ∏ g, ∏ g' ∈ univ.filter (g ≤ ·), L (cell net A g g').card (tied net A g g')

/-- Weight of a division beforehand. -/
noncomputable def prior : ℝ := Real.exp (D (univ.image A).card - linC * (univ.image A).card)

/-- Probability that a further pair in the groups of `i` and `j` is linked, given the network and the division. -/
noncomputable def expected (i j : Fin net.n) : ℝ :=
  L ((cell net A (A i) (A j)).card + 1) (tied net A (A i) (A j) + 1) / L (cell net A (A i) (A j)).card (tied net A (A i) (A j))

/-- The same given the network only. -/
noncomputable def posterior (i j : Fin net.n) : ℝ :=
  haveI : Fintype (Quotient (divisions net.n)) := Fintype.ofFinite _
  (∑ q : Quotient (divisions net.n), prior D net linC q.out * evidence L net q.out * expected L net q.out i j) /
    ∑ q : Quotient (divisions net.n), prior D net linC q.out * evidence L net q.out

end spec

variable {L : ℕ → ℕ → ℝ} {D : ℕ → ℝ} {net : Net}

/-- **C184**: the models of the programs are of this kind. -/
theorem C184_models : Pattern like1 ∧ Pattern likeAnd ∧ Pattern likeOr ∧ ∀ a b, 0 < a → 0 < b → Pattern (likeBeta a b) := by
  refine ⟨⟨fun r l h => like1_pos h, like1_rec⟩, ⟨fun r l h => likeAnd_pos h, likeAnd_rec⟩, ⟨fun r l h => likeOr_pos h, fun r l h => likeOr_rec h⟩,
    fun a b ha hb => ?_⟩
  have hpos : ∀ r l, l ≤ r → 0 < likeBeta a b r l := fun r l h => by
    rw [likeBeta_eq ha hb h]
    exact div_pos (ProbabilityTheory.beta_pos (by positivity) (by positivity)) (ProbabilityTheory.beta_pos ha hb)
  refine ⟨hpos, fun r l h => ?_⟩
  have h1 := predict_beta ha hb h
  unfold predict at h1
  rw [Int.toNat_natCast, Int.toNat_natCast] at h1
  have h2 : likeBeta a b (r + 1) l / likeBeta a b r l = ((r - l : ℕ) + b) / (r + a + b) := by
    have comm : ∀ s t, ProbabilityTheory.beta s t = ProbabilityTheory.beta t s := fun s t => by
      unfold ProbabilityTheory.beta
      rw [mul_comm, add_comm]
    have flip : ∀ {r l : ℕ}, l ≤ r → likeBeta a b r l = likeBeta b a r (r - l) := by
      intro r l h
      rw [likeBeta_eq ha hb h, likeBeta_eq hb ha (Nat.sub_le r l), comm, comm a b,
        Nat.sub_sub_self h]
    rw [flip (show l ≤ r + 1 by omega), flip h, show r + 1 - l = (r - l) + 1 by omega]
    have := predict_beta hb ha (Nat.sub_le r l)
    unfold predict at this
    rw [Int.toNat_natCast, Int.toNat_natCast] at this
    rw [this]
    ring
  have p := hpos r l h
  have hd : (0 : ℝ) < r + a + b := by positivity
  have hc : ((r - l : ℕ) : ℝ) = r - l := Nat.cast_sub h
  rw [div_eq_iff p.ne'] at h1 h2
  rw [h1, h2, ← add_mul, hc, ← add_div, show (r : ℝ) - l + b + (l + a) = r + a + b by ring, div_self hd.ne', one_mul]

theorem tied_le (A : Fin net.n → Fin net.n) (g g' : Fin net.n) : tied net A g g' ≤ (cell net A g g').card := card_filter_le _ _

theorem exp_T (h : net.Simple) (hL : Pattern L) (A : Fin net.n → Fin net.n) (g g' : Fin net.n) :
    Real.exp (-T (cost L) net (lift A) g g') = L (cell net A g g').card (tied net A g g') := by
  unfold T cost
  rw [pairs_cell, links_cell h, Int.toNat_natCast, Int.toNat_natCast, neg_neg]
  exact Real.exp_log (hL.1 _ _ (tied_le A g g'))

/-- **C184**: the Boltzmann weight of a division, without the factor for its labels, is its weight beforehand times the
probability of the network. -/
theorem C184_weight (h : net.Simple) (hL : Pattern L) (D : ℕ → ℝ) (linC : ℝ) (A : Fin net.n → Fin net.n) :
    Real.exp (-unlabelled (cost L) D net linC (lift A)) = prior D net linC A * evidence L net A := by
  have hev : evidence L net A = Real.exp (-(∑ g ∈ range net.n, T (cost L) net (lift A) g g +
      ∑ g ∈ range net.n, ∑ g' ∈ (range net.n).filter (g < ·), T (cost L) net (lift A) g g')) := by
    unfold evidence
    rw [← sum_add_distrib, ← sum_neg_distrib, Real.exp_sum, prod_range]
    refine prod_congr rfl fun g _ => ?_
    have hset : univ.filter (g ≤ ·) = insert g (univ.filter (g < ·)) := by
      ext x
      simp only [mem_filter, mem_univ, true_and, mem_insert]
      exact le_iff_eq_or_lt.trans (or_congr_left eq_comm)
    rw [hset, prod_insert (by simp), ← exp_T h hL, neg_add, Real.exp_add]
    congr 1
    rw [← sum_neg_distrib, Real.exp_sum, prod_filter, prod_filter, prod_range]
    refine prod_congr rfl fun g' _ => ?_
    rw [← exp_T h hL]
    simp only [Fin.lt_def]
  unfold unlabelled prior
  rw [hev, ← Real.exp_add, used_image]
  congr 1
  ring

/-- **C184**: what the programs add to the score of a pair for a division is the probability of the link, given the
division (one minus it in the OR model, `or_scores'`). -/
theorem C184_score (h : net.Simple) (L : ℕ → ℕ → ℝ) (A : Fin net.n → Fin net.n) (i j : Fin net.n) :
    score (predict L) net (lift A) i j = expected L net A i j ∧
    score (fun r l => 1 - predict L r l) net (lift A) i j = 1 - expected L net A i j := by
  unfold score predict expected
  rw [lift_lt, lift_lt]
  dsimp only
  rw [pairs_cell, links_cell h, Int.toNat_natCast, Int.toNat_natCast]
  exact ⟨rfl, rfl⟩

theorem expected_same {A A' : Fin net.n → Fin net.n} (hA : SameBlocks A A') (i j : Fin net.n) :
    expected L net A i j = expected L net A' i j := by
  have hc : cell net A' (A' i) (A' j) = cell net A (A i) (A j) := by
    unfold cell
    refine filter_congr fun p _ => ?_
    rw [hA, hA, hA, hA]
  unfold expected tied
  rw [hc]

theorem expected_between (hL : Pattern L) (A : Fin net.n → Fin net.n) (i j : Fin net.n) :
    0 ≤ expected L net A i j ∧ expected L net A i j ≤ 1 := by
  have hle := tied_le A (A i) (A j)
  have p1 := hL.1 _ _ hle
  have p2 := hL.1 ((cell net A (A i) (A j)).card + 1) (tied net A (A i) (A j) + 1) (by omega)
  have p3 := hL.1 ((cell net A (A i) (A j)).card + 1) (tied net A (A i) (A j)) (by omega)
  have e := hL.2 _ _ hle
  unfold expected
  exact ⟨(div_pos p2 p1).le, (div_le_one p1).2 (by linarith)⟩

/-- **C184**: in the Boltzmann distribution of the samplers the mean of the score of a pair is the posterior probability of
the link. -/
theorem C184_posterior (h : net.Simple) (hL : Pattern L) (D : ℕ → ℝ) (linC : ℝ) (i j : Fin net.n) :
    mean (E (cost L) D net linC) (fun A => score (predict L) net (lift A) i j) = posterior L D net linC i j ∧
    mean (E (cost L) D net linC) (fun A => score (fun r l => 1 - predict L r l) net (lift A) i j) = 1 - posterior L D net linC i j := by
  classical
  let : Fintype (Quotient (divisions net.n)) := Fintype.ofFinite _
  have classes : ∀ {f : (Fin net.n → Fin net.n) → ℝ}, (∀ A B, SameBlocks A B → f A = f B) →
      ∑ A, Real.exp (-E (cost L) D net linC A) * f A = net.n.factorial *
        ∑ q : Quotient (divisions net.n), prior D net linC q.out * evidence L net q.out * f q.out := by
    intro f hf
    rw [RC.sum_divisions, mul_sum]
    refine sum_congr rfl fun q _ => ?_
    rw [← C184_weight h hL, ← mul_assoc, ← (C173_labels h (cost L) D linC q.out).2, sum_mul]
    refine sum_congr rfl fun A hA => ?_
    rw [hf _ _ (mem_filter.1 hA).2]
  have h1 := classes (f := fun A => expected L net A i j) (fun A B hs => expected_same hs i j)
  have h2 := classes (f := fun _ => 1) (fun _ _ _ => rfl)
  simp only [mul_one] at h2
  have hp : (∑ A, Real.exp (-E (cost L) D net linC A)) ≠ 0 := (sum_pos (fun _ _ => Real.exp_pos _) ⟨id, mem_univ _⟩).ne'
  have key : mean (E (cost L) D net linC) (fun A => score (predict L) net (lift A) i j) = posterior L D net linC i j := by
    unfold mean posterior
    simp only [(C184_score h L _ i j).1]
    rw [h1, h2, mul_div_mul_left]
    exact_mod_cast net.n.factorial_ne_zero
  refine ⟨key, ?_⟩
  rw [← key]
  unfold mean
  simp only [(C184_score h L _ i j).1, (C184_score h L _ i j).2, mul_sub, mul_one, sum_sub_distrib]
  rw [sub_div, div_self hp]

/-- **C184** for the Metropolis samplers: whatever the start, the mean of the score of a pair, averaged over samples taken
at any times late enough, is as near as one likes to the posterior probability of the link (one minus it in the OR model). The
scores printed are such averages (C64, C68, C69), and each attempt has the probabilities of `kernel` (C173). -/
theorem C184_metropolis (h : net.Simple) (hL : Pattern L) (hn : 3 ≤ net.n) (D : ℕ → ℝ) (linC : ℝ) {ε : ℝ} (hε : 0 < ε) :
    ∃ J, ∀ ts : List ℕ, ts ≠ [] → (∀ k ∈ ts, J ≤ k) → ∀ A (i j : Fin net.n),
      |(ts.map fun k => ((next (kernel (E (cost L) D net linC)))^[k] fun A => score (predict L) net (lift A) i j) A).sum /
        ts.length - posterior L D net linC i j| ≤ ε ∧
      |(ts.map fun k => ((next (kernel (E (cost L) D net linC)))^[k] fun A => score (fun r l => 1 - predict L r l) net (lift A) i j) A).sum /
        ts.length - (1 - posterior L D net linC i j)| ≤ ε := by
  have : Nonempty (Fin net.n) := ⟨⟨0, by omega⟩⟩
  obtain ⟨d, hd, hc⟩ := C180_converges_partial (cost L) D net hn linC
  have h3 : (3 : ℝ) ≤ net.n := by exact_mod_cast hn
  have hd0 : 0 ≤ d := by have := hd id id; linarith
  have hp : 0 < Real.exp (-d) / (net.n * ((net.n : ℝ) - 1)) := div_pos (Real.exp_pos _) (by nlinarith)
  have hp1 : Real.exp (-d) / (net.n * ((net.n : ℝ) - 1)) ≤ 1 := by
    rw [div_le_one (by nlinarith)]
    exact (Real.exp_le_one_iff.2 (by linarith)).trans (by nlinarith)
  have q0 : 0 < (Real.exp (-d) / (net.n * ((net.n : ℝ) - 1))) ^ (2 * net.n) := pow_pos hp _
  have q1 := pow_le_one₀ (n := 2 * net.n) hp.le hp1
  obtain ⟨J, hJ⟩ := exists_pow_lt_of_lt_one hε
    (show 1 - (Real.exp (-d) / (net.n * ((net.n : ℝ) - 1))) ^ (2 * net.n) < 1 by linarith)
  refine ⟨J * (2 * net.n), fun ts hts hlate A i j => ⟨?_, ?_⟩⟩
  · refine late_average (by linarith) (by linarith) (by omega) (fun k => ?_) hJ.le ts hts hlate
    have := hc k (fun A => score (predict L) net (lift A) i j) 0 1
      (fun A => by rw [(C184_score h L A i j).1]; exact (expected_between hL A i j).1)
      (fun A => by rw [(C184_score h L A i j).1]; exact (expected_between hL A i j).2) A
    rw [(C184_posterior h hL D linC i j).1] at this
    rwa [sub_zero, mul_one] at this
  · refine late_average (by linarith) (by linarith) (by omega) (fun k => ?_) hJ.le ts hts hlate
    have := hc k (fun A => score (fun r l => 1 - predict L r l) net (lift A) i j) 0 1
      (fun A => by rw [(C184_score h L A i j).2]; linarith [(expected_between hL A i j).2])
      (fun A => by rw [(C184_score h L A i j).2]; linarith [(expected_between hL A i j).1]) A
    rw [(C184_posterior h hL D linC i j).2] at this
    rwa [sub_zero, mul_one] at this

/-- **C184** for the heat-bath samplers, with times counted in sweeps. -/
theorem C184_heat_bath (h : net.Simple) (hL : Pattern L) (hn : 0 < net.n) (D : ℕ → ℝ) (linC : ℝ) {ε : ℝ} (hε : 0 < ε) :
    ∃ J, ∀ ts : List ℕ, ts ≠ [] → (∀ k ∈ ts, J ≤ k) → ∀ A (i j : Fin net.n),
      |(ts.map fun k => ((sweep (E (cost L) D net linC) (List.finRange net.n))^[k] fun A => score (predict L) net (lift A) i j) A).sum /
        ts.length - posterior L D net linC i j| ≤ ε ∧
      |(ts.map fun k => ((sweep (E (cost L) D net linC) (List.finRange net.n))^[k] fun A =>
        score (fun r l => 1 - predict L r l) net (lift A) i j) A).sum / ts.length - (1 - posterior L D net linC i j)| ≤ ε := by
  have : Nonempty (Fin net.n) := ⟨⟨0, hn⟩⟩
  obtain ⟨-, d, hd, hc⟩ := C179_converges h hn (cost L) D linC
  have h1 : (1 : ℝ) ≤ net.n := by exact_mod_cast hn
  have hd0 : 0 ≤ d := by have := hd id id; linarith
  have hp : 0 < Real.exp (-d) / net.n := div_pos (Real.exp_pos _) (by linarith)
  have hp1 : Real.exp (-d) / net.n ≤ 1 := by
    rw [div_le_one (by linarith)]
    exact (Real.exp_le_one_iff.2 (by linarith)).trans h1
  have q0 : 0 < (Real.exp (-d) / net.n) ^ net.n := pow_pos hp _
  have q1 := pow_le_one₀ (n := net.n) hp.le hp1
  obtain ⟨J, hJ⟩ := exists_pow_lt_of_lt_one hε (show 1 - (Real.exp (-d) / net.n) ^ net.n < 1 by linarith)
  refine ⟨J, fun ts hts hlate A i j => ⟨?_, ?_⟩⟩
  · refine late_average (by linarith) (by linarith) one_pos (fun k => ?_) hJ.le ts hts (by simpa using hlate)
    have := hc k (fun A => score (predict L) net (lift A) i j) 0 1
      (fun A => by rw [(C184_score h L A i j).1]; exact (expected_between hL A i j).1)
      (fun A => by rw [(C184_score h L A i j).1]; exact (expected_between hL A i j).2) A
    rw [(C184_posterior h hL D linC i j).1] at this
    rw [sub_zero, mul_one] at this
    rwa [Nat.div_one]
  · refine late_average (by linarith) (by linarith) one_pos (fun k => ?_) hJ.le ts hts (by simpa using hlate)
    have := hc k (fun A => score (fun r l => 1 - predict L r l) net (lift A) i j) 0 1
      (fun A => by rw [(C184_score h L A i j).2]; linarith [(expected_between hL A i j).2])
      (fun A => by rw [(C184_score h L A i j).2]; linarith [(expected_between hL A i j).1]) A
    rw [(C184_posterior h hL D linC i j).2] at this
    rw [sub_zero, mul_one] at this
    rwa [Nat.div_one]

example := C184_metropolis tailed_simple C184_models.2.1 (by decide) logDeg 0 (ε := 1 / 100) (by norm_num)
example := C184_heat_bath tailed_simple C184_models.2.2.1 (by decide) logDeg 0 (ε := 1 / 100) (by norm_num)

end BK
