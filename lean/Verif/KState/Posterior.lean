import Verif.KState.Average
import Verif.KState.Balance
import Verif.Recommend.Posterior

/-!
# C183: the forecasts of ratings between nodes of one set are posterior probabilities

As C182, for a network with one set of nodes whose links have ratings (`LSMultiLinkScoreKState`): every two groups, and
every group with itself, have their own multiset of ratings, all multisets and orders being equally likely.
-/

namespace KS

open GP RG LS Finset MH

/-! ## Bayesian model -/

section spec

variable (net : Net) (K : ℕ) (F : Fin net.n → Fin net.n)

/-- How often each rating is found between two groups. -/
def found (g g' : Fin net.n) (k : Fin K) : ℕ := ((cell net F g g').filter fun p => net.link p.1 p.2 = some ((k : ℕ) : ℚ)).card

/-- Probability of the ratings for this division. -/
noncomputable def evidence : ℝ := ∏ g, ∏ g' ∈ univ.filter (g ≤ ·), chance (found net K F g g')

/-- Probability that a further rating between the groups of `i` and `j` is `k`, given the ratings and the division. -/
noncomputable def expected (k : Fin K) (i j : Fin net.n) : ℝ :=
  chance (found net K F (F i) (F j) + Pi.single k 1) / chance (found net K F (F i) (F j))

/-- Probability that a further rating between `i` and `j` is `k` given the ratings, all divisions being equally likely
beforehand. -/
noncomputable def posterior (k : Fin K) (i j : Fin net.n) : ℝ :=
  haveI : Fintype (Quotient (divisions net.n)) := Fintype.ofFinite _
  (∑ q : Quotient (divisions net.n), evidence net K q.out * expected net K q.out k i j) /
    ∑ q : Quotient (divisions net.n), evidence net K q.out

end spec

variable {net : Net} {K : ℕ}

theorem ratings_found (h : net.Simple) (F : Fin net.n → Fin net.n) (k : Fin K) (g g' : Fin net.n) :
    ratings net (lift F) k g g' = (found net K F g g' k : ℤ) := by
  have key := sum_cell (F := F) (fun u v => ra net k u v) (fun u v => by unfold ra; rw [h.sym]) (fun u => by
    unfold ra; rw [h.irrefl]; rfl) g g'
  have hc : ∑ p ∈ cell net F g g', ra net k p.1 p.2 = (found net K F g g' k : ℤ) := by
    unfold ra found
    rw [card_filter]
    push_cast
    rfl
  unfold ratings
  rw [sum_blocks, key, hc]
  by_cases e : g = g'
  · subst e
    rw [if_pos rfl]
    simp only [if_true]
    omega
  · rw [if_neg e]
    simp only [if_neg (fun e' => e (Fin.ext e')), one_mul]

theorem exp_TK (h : net.Simple) (hK : 0 < K) (F : Fin net.n → Fin net.n) (g g' : Fin net.n) :
    Real.exp (-TK net K (lift F) g g') = chance (found net K F g g') / (K - 1).factorial := by
  unfold TK
  rw [sum_range, sum_range]
  simp only [ratings_found h, Int.toNat_natCast]
  rw [show ((∑ i : Fin K, (found net K F g g' i : ℤ)) + K - 1).toNat = (∑ i, found net K F g g' i) + K - 1 by
    rw [← Nat.cast_sum]; omega]
  rw [neg_sub, Real.exp_sub, Real.exp_sum, Real.exp_log (by exact_mod_cast Nat.factorial_pos _), chance_eq hK]
  have : ∏ x : Fin K, Real.exp (Real.log ((found net K F g g' x).factorial : ℝ)) =
      ((∏ x, (found net K F g g' x).factorial : ℕ) : ℝ) := by
    push_cast
    exact prod_congr rfl fun x _ => Real.exp_log (by exact_mod_cast Nat.factorial_pos _)
  rw [this]
  have p2 : ((K - 1).factorial : ℝ) ≠ 0 := by exact_mod_cast (K - 1).factorial_ne_zero
  field_simp

/-- **C183**: the Boltzmann weight of a division, without the factor for its labels, is the probability of the ratings,
up to a factor that is the same for all divisions. -/
theorem C183_weight (h : net.Simple) (hK : 0 < K) :
    ∃ c : ℝ, 0 < c ∧ ∀ F : Fin net.n → Fin net.n, Real.exp (-unlabelled net K (lift F)) = c * evidence net K F := by
  have hf : (0 : ℝ) < (K - 1).factorial := by exact_mod_cast (K - 1).factorial_pos
  refine ⟨∏ g : Fin net.n, ∏ _g' ∈ univ.filter (g ≤ ·), (((K - 1).factorial : ℝ))⁻¹,
    prod_pos fun _ _ => prod_pos fun _ _ => inv_pos.2 hf, fun F => ?_⟩
  unfold unlabelled evidence
  rw [← sum_add_distrib, ← sum_neg_distrib, Real.exp_sum, prod_range, ← prod_mul_distrib]
  refine prod_congr rfl fun g _ => ?_
  have hset : univ.filter (g ≤ ·) = insert g (univ.filter (g < ·)) := by
    ext x
    simp only [mem_filter, mem_univ, true_and, mem_insert]
    exact le_iff_eq_or_lt.trans (or_congr_left eq_comm)
  rw [← prod_mul_distrib, hset, prod_insert (by simp), neg_add, Real.exp_add, exp_TK h hK, div_eq_inv_mul]
  congr 1
  rw [← sum_neg_distrib, Real.exp_sum, prod_filter, prod_filter, prod_range]
  refine prod_congr rfl fun g' _ => ?_
  rw [exp_TK h hK, div_eq_inv_mul]
  simp only [Fin.lt_def]

/-- The score as a function of the division. -/
noncomputable def guess (net : Net) (K : ℕ) (k : Fin K) (i j : Fin net.n) (F : Fin net.n → Fin net.n) : ℝ :=
  (pairScore net K (lift F) k i j : ℝ)

/-- **C183**: what the program adds to the score of a pair for a division is the probability of the rating, given the
division. -/
theorem C183_estimate (h : net.Simple) (hK : 0 < K) (F : Fin net.n → Fin net.n) (k : Fin K) (i j : Fin net.n) :
    guess net K k i j F = expected net K F k i j := by
  unfold guess pairScore expected
  rw [chance_next hK, lift_lt, lift_lt]
  dsimp only
  rw [sum_range]
  simp only [ratings_found h]
  push_cast
  rfl

theorem expected_same {A A' : Fin net.n → Fin net.n} (hA : SameBlocks A A') (k : Fin K) (i j : Fin net.n) :
    expected net K A k i j = expected net K A' k i j := by
  have hc : cell net A' (A' i) (A' j) = cell net A (A i) (A j) := by
    unfold cell
    refine filter_congr fun p _ => ?_
    rw [hA, hA, hA, hA]
  have : found net K A (A i) (A j) = found net K A' (A' i) (A' j) := by
    funext k
    unfold found
    rw [hc]
  unfold expected
  rw [this]

/-- **C183**: in the Boltzmann distribution of the sampler the mean of the score of a pair is the posterior probability of
the rating. -/
theorem C183_posterior (h : net.Simple) (hK : 0 < K) (k : Fin K) (i j : Fin net.n) :
    mean (E net K) (guess net K k i j) = posterior net K k i j := by
  classical
  let : Fintype (Quotient (divisions net.n)) := Fintype.ofFinite _
  obtain ⟨c, hc, hw⟩ := C183_weight h hK
  have classes : ∀ {f : (Fin net.n → Fin net.n) → ℝ}, (∀ A B, SameBlocks A B → f A = f B) →
      ∑ A, Real.exp (-E net K A) * f A =
        net.n.factorial * c * ∑ q : Quotient (divisions net.n), evidence net K q.out * f q.out := by
    intro f hf
    rw [RC.sum_divisions, mul_sum]
    refine sum_congr rfl fun q _ => ?_
    rw [← mul_assoc, mul_assoc (net.n.factorial : ℝ), ← hw, ← (C174_labels h K q.out).2, sum_mul]
    refine sum_congr rfl fun A hA => ?_
    rw [hf _ _ (mem_filter.1 hA).2]
  have e : guess net K k i j = fun F => expected net K F k i j := funext fun F => C183_estimate h hK F k i j
  have h1 := classes (f := fun F => expected net K F k i j) (fun A B hs => expected_same hs k i j)
  have h2 := classes (f := fun _ => 1) (fun _ _ _ => rfl)
  simp only [mul_one] at h2
  unfold mean posterior
  rw [e, h1, h2, mul_div_mul_left]
  exact mul_ne_zero (by exact_mod_cast net.n.factorial_ne_zero) hc.ne'

theorem guess_between (h : net.Simple) (hK : 0 < K) (k : Fin K) (i j : Fin net.n) (F : Fin net.n → Fin net.n) :
    0 ≤ guess net K k i j F ∧ guess net K k i j F ≤ 1 := by
  rw [C183_estimate h hK]
  unfold expected
  rw [chance_next hK]
  have hK' : (1 : ℝ) ≤ K := by exact_mod_cast hK
  have hle : (found net K F (F i) (F j) k : ℝ) ≤ ∑ k, (found net K F (F i) (F j) k : ℝ) :=
    single_le_sum (f := fun k => (found net K F (F i) (F j) k : ℝ)) (fun _ _ => Nat.cast_nonneg _) (mem_univ k)
  have h0 : (0 : ℝ) ≤ ∑ k, (found net K F (F i) (F j) k : ℝ) := sum_nonneg fun _ _ => Nat.cast_nonneg _
  constructor
  · positivity
  · rw [div_le_one (by linarith)]
    linarith

/-- **C183**: whatever the start, the mean of the score of a pair, averaged over samples taken at any times late enough, is
as near as one likes to the posterior probability of the rating. The scores returned are such averages (`C32_average`), and
each attempt has the probabilities of `kernel` (C174). -/
theorem C183_metropolis (h : net.Simple) (hK : 0 < K) (hn : 3 ≤ net.n) {ε : ℝ} (hε : 0 < ε) :
    ∃ J, ∀ ts : List ℕ, ts ≠ [] → (∀ l ∈ ts, J ≤ l) → ∀ F (k : Fin K) (i j : Fin net.n),
      |(ts.map fun l => ((next (kernel (E net K)))^[l] (guess net K k i j)) F).sum / ts.length - posterior net K k i j| ≤ ε := by
  have : Nonempty (Fin net.n) := ⟨⟨0, by omega⟩⟩
  obtain ⟨D, hD, hc⟩ := C180_converges_partial net hn K
  have h3 : (3 : ℝ) ≤ net.n := by exact_mod_cast hn
  have hD0 : 0 ≤ D := by have := hD id id; linarith
  have hp : 0 < Real.exp (-D) / (net.n * ((net.n : ℝ) - 1)) := div_pos (Real.exp_pos _) (by nlinarith)
  have hp1 : Real.exp (-D) / (net.n * ((net.n : ℝ) - 1)) ≤ 1 := by
    rw [div_le_one (by nlinarith)]
    exact (Real.exp_le_one_iff.2 (by linarith)).trans (by nlinarith)
  have q0 : 0 < (Real.exp (-D) / (net.n * ((net.n : ℝ) - 1))) ^ (2 * net.n) := pow_pos hp _
  have q1 := pow_le_one₀ (n := 2 * net.n) hp.le hp1
  obtain ⟨J, hJ⟩ := exists_pow_lt_of_lt_one hε
    (show 1 - (Real.exp (-D) / (net.n * ((net.n : ℝ) - 1))) ^ (2 * net.n) < 1 by linarith)
  refine ⟨J * (2 * net.n), fun ts hts hlate F k i j => ?_⟩
  refine late_average (by linarith) (by linarith) (by omega) (fun l => ?_) hJ.le ts hts hlate
  have := hc l (guess net K k i j) 0 1 (fun F => (guess_between h hK k i j F).1) (fun F => (guess_between h hK k i j F).2) F
  rw [C183_posterior h hK] at this
  rwa [sub_zero, mul_one] at this

example := C183_metropolis tailed_simple (K := 3) (by norm_num) (by decide) (ε := 1 / 100) (by norm_num)

end KS
