import Mathlib.Data.Sym.Card
import Mathlib.Data.Nat.Choose.Multinomial
import Verif.Missing.Posterior
import Verif.Recommend.GibbsBalance

/-!
# C182: the forecasts of the recommenders are posterior probabilities

The model behind the forecasts: persons and things are divided into groups, and the ratings that a group of persons gives
to a group of things are as likely as follows: every multiset of ratings is equally likely beforehand (the same as a
distribution of ratings chosen uniformly among all distributions), and in every order.
-/

namespace MH

open Finset

/-- Probability of a given sequence of ratings of which `c k` are `k`: all multisets with as many ratings are equally
likely, and all orders of the multiset. -/
noncomputable def chance {K : ℕ} (c : Fin K → ℕ) : ℝ :=
  1 / ((Fintype.card (Sym (Fin K) (∑ k, c k)) : ℝ) * (Nat.multinomial univ c : ℕ))

theorem chance_eq {K : ℕ} (hK : 0 < K) (c : Fin K → ℕ) :
    chance c = (K - 1).factorial * (∏ k, (c k).factorial : ℕ) / ((∑ k, c k) + K - 1).factorial := by
  unfold chance
  have h1 : Fintype.card (Sym (Fin K) (∑ k, c k)) = (K + (∑ k, c k) - 1).choose (∑ k, c k) := by
    rw [Sym.card_sym_eq_choose, Fintype.card_fin]
  have h2 := Nat.multinomial_spec univ c
  have h3 := Nat.choose_mul_factorial_mul_factorial (n := K + (∑ k, c k) - 1) (k := ∑ k, c k) (by omega)
  rw [show K + (∑ k, c k) - 1 - ∑ k, c k = K - 1 by omega] at h3
  rw [h1, show (∑ k, c k) + K - 1 = K + (∑ k, c k) - 1 by omega]
  have p1 : (((∏ k, (c k).factorial : ℕ) : ℕ) : ℝ) ≠ 0 := by
    exact_mod_cast (prod_pos fun k _ => (c k).factorial_pos).ne'
  have p2 : ((K - 1).factorial : ℝ) ≠ 0 := by exact_mod_cast (K - 1).factorial_ne_zero
  rw [← h3, ← h2]
  have p3 : ((Nat.multinomial univ c : ℕ) : ℝ) ≠ 0 := by exact_mod_cast (Nat.multinomial_pos univ c).ne'
  have p4 : (((K + (∑ k, c k) - 1).choose (∑ k, c k) : ℕ) : ℝ) ≠ 0 := by
    exact_mod_cast (Nat.choose_pos (by omega)).ne'
  push_cast at p1 ⊢
  field_simp

theorem chance_pos {K : ℕ} (hK : 0 < K) (c : Fin K → ℕ) : 0 < chance c := by
  rw [chance_eq hK]
  refine div_pos (mul_pos ?_ ?_) ?_
  · exact_mod_cast (K - 1).factorial_pos
  · exact_mod_cast prod_pos fun k _ => (c k).factorial_pos
  · exact_mod_cast Nat.factorial_pos _

/-- Laplace's rule of succession. -/
theorem chance_next {K : ℕ} (hK : 0 < K) (c : Fin K → ℕ) (k : Fin K) :
    chance (c + Pi.single k 1) / chance c = ((c k : ℝ) + 1) / ((∑ k, (c k : ℝ)) + K) := by
  have hs : ∑ i, (c + Pi.single k 1 : Fin K → ℕ) i = (∑ i, c i) + 1 := by
    simp [sum_add_distrib]
  have hp : (∏ i, ((c + Pi.single k 1 : Fin K → ℕ) i).factorial) = (c k + 1) * ∏ i, (c i).factorial := by
    rw [← mul_prod_erase univ _ (mem_univ k), ← mul_prod_erase univ (fun i => (c i).factorial) (mem_univ k), ← mul_assoc]
    congr 1
    · simp [Nat.factorial_succ]
    · refine prod_congr rfl fun i hi => ?_
      simp [ne_of_mem_erase hi]
  rw [chance_eq hK, chance_eq hK, hs, hp, show (∑ i, c i) + 1 + K - 1 = ((∑ i, c i) + K - 1) + 1 by omega, Nat.factorial_succ]
  have e : (((((∑ i, c i) + K - 1) + 1 : ℕ)) : ℝ) = (∑ i, (c i : ℝ)) + K := by
    rw [show (∑ i, c i) + K - 1 + 1 = (∑ i, c i) + K by omega]
    push_cast
    rfl
  rw [Nat.cast_mul, Nat.cast_mul, e]
  have p1 : ((∏ k, (c k).factorial : ℕ) : ℝ) ≠ 0 := by
    exact_mod_cast (prod_pos fun k _ => (c k).factorial_pos).ne'
  have p2 : ((K - 1).factorial : ℝ) ≠ 0 := by exact_mod_cast (K - 1).factorial_ne_zero
  have p3 : ((((∑ i, c i) + K - 1).factorial : ℕ) : ℝ) ≠ 0 := by exact_mod_cast Nat.factorial_ne_zero _
  have hK' : (0 : ℝ) < K := by exact_mod_cast hK
  have p4 : (∑ i, (c i : ℝ)) + K ≠ 0 := by positivity
  push_cast at p1 p3 ⊢
  field_simp

example : chance ![1, 0] = 1 / 2 := by rw [chance_eq (by norm_num)]; simp [Fin.prod_univ_two, Fin.sum_univ_two]

end MH

namespace RC

open GP hiding St
open RG LS KS Finset MH
open BP (Bi)

/-! ## Bayesian model -/

section spec

variable (b : Bi) (K : ℕ) (A : Fin b.n1 → Fin b.n1) (B : Fin b.n2 → Fin b.n2)

/-- How often each rating is given by group `g` to group `g'`. -/
def found (g : Fin b.n1) (g' : Fin b.n2) (k : Fin K) : ℕ :=
  (univ.filter fun p : Fin b.n1 × Fin b.n2 => A p.1 = g ∧ B p.2 = g' ∧ ((p.2 : ℕ), ((k : ℕ) : ℚ)) ∈ b.neig1 p.1).card

/-- Probability of the ratings for these divisions. -/
noncomputable def evidence : ℝ := ∏ g, ∏ g', chance (found b K A B g g')

/-- Probability that a further rating of the group of `i` for the group of `j` is `k`, given the ratings and the divisions. -/
noncomputable def expected (k : Fin K) (i : Fin b.n1) (j : Fin b.n2) : ℝ :=
  chance (found b K A B (A i) (B j) + Pi.single k 1) / chance (found b K A B (A i) (B j))

/-- Probability that a further rating of `i` for `j` is `k` given the ratings, all pairs of divisions being equally likely
beforehand. -/
noncomputable def posterior (k : Fin K) (i : Fin b.n1) (j : Fin b.n2) : ℝ :=
  haveI : Fintype (Quotient (divisions b.n1)) := Fintype.ofFinite _
  haveI : Fintype (Quotient (divisions b.n2)) := Fintype.ofFinite _
  (∑ q : Quotient (divisions b.n1), ∑ q' : Quotient (divisions b.n2), evidence b K q.out q'.out * expected b K q.out q'.out k i j) /
    ∑ q : Quotient (divisions b.n1), ∑ q' : Quotient (divisions b.n2), evidence b K q.out q'.out

end spec

variable {b : Bi} {K : ℕ}

theorem cnt_found (A : Fin b.n1 → Fin b.n1) (B : Fin b.n2 → Fin b.n2) (k : Fin K) (g : Fin b.n1) (g' : Fin b.n2) :
    cnt b (lift A) (lift B) k g g' = (found b K A B g g' k : ℤ) := by
  unfold cnt blk found ra
  rw [card_filter, Fintype.sum_prod_type]
  simp only [sum_filter, sum_range, lift_lt, Option.some.injEq, Fin.ext_iff]
  push_cast
  refine sum_congr rfl fun u _ => ?_
  by_cases h : (A u : ℕ) = g
  · simp only [h, true_and, if_true]
    refine sum_congr rfl fun v _ => ?_
    by_cases h' : (B v : ℕ) = g' <;> simp [h']
  · simp [h]

theorem exp_TKb (hK : 0 < K) (A : Fin b.n1 → Fin b.n1) (B : Fin b.n2 → Fin b.n2) (g : Fin b.n1) (g' : Fin b.n2) :
    Real.exp (-TKb K (fun k => cnt b (lift A) (lift B) k g g')) = chance (found b K A B g g') / (K - 1).factorial := by
  unfold TKb
  rw [sum_range, sum_range]
  simp only [cnt_found, Int.toNat_natCast]
  rw [show ((∑ i : Fin K, (found b K A B g g' i : ℤ)) + K - 1).toNat = (∑ i, found b K A B g g' i) + K - 1 by
    rw [← Nat.cast_sum]; omega]
  rw [neg_sub, Real.exp_sub, Real.exp_sum, Real.exp_log (by exact_mod_cast Nat.factorial_pos _), chance_eq hK]
  have : ∏ x : Fin K, Real.exp (Real.log ((found b K A B g g' x).factorial : ℝ)) =
      ((∏ x, (found b K A B g g' x).factorial : ℕ) : ℝ) := by
    push_cast
    exact prod_congr rfl fun x _ => Real.exp_log (by exact_mod_cast Nat.factorial_pos _)
  rw [this]
  have p2 : ((K - 1).factorial : ℝ) ≠ 0 := by exact_mod_cast (K - 1).factorial_ne_zero
  field_simp

/-- **C182**: the Boltzmann weight of two divisions, without the factor for their labels, is the probability of the
ratings, up to a factor that is the same for all divisions. -/
theorem C182_weight (hK : 0 < K) (A : Fin b.n1 → Fin b.n1) (B : Fin b.n2 → Fin b.n2) :
    Real.exp (-unlabelled (TKb K) b (lift A) (lift B)) = evidence b K A B / ((K - 1).factorial : ℝ) ^ (b.n1 * b.n2) := by
  unfold unlabelled evidence
  rw [← sum_neg_distrib, Real.exp_sum, prod_range]
  have : ∀ g : Fin b.n1, Real.exp (-∑ g' ∈ range b.n2, TKb K (fun k => cnt b (lift A) (lift B) k g g')) =
      (∏ g', chance (found b K A B g g')) / ((K - 1).factorial : ℝ) ^ b.n2 := by
    intro g
    rw [← sum_neg_distrib, Real.exp_sum, prod_range]
    simp only [exp_TKb hK]
    rw [prod_div_distrib, prod_const, card_univ, Fintype.card_fin]
  simp only [this]
  rw [prod_div_distrib, prod_const, card_univ, Fintype.card_fin, ← pow_mul, mul_comm b.n2]

/-- **C182**: what the programs add to the forecast of a pair for two divisions is the probability of the rating, given the
divisions. -/
theorem C182_estimate (hK : 0 < K) (A : Fin b.n1 → Fin b.n1) (B : Fin b.n2 → Fin b.n2) (k : Fin K) (i : Fin b.n1) (j : Fin b.n2) :
    (estimate b K (lift A, lift B) k (i, j) : ℝ) = expected b K A B k i j := by
  unfold estimate expected
  rw [chance_next hK, sum_range]
  simp only [lift_lt, Option.getD_some, cnt_found]
  push_cast
  rfl

/-- **C182**: with two ratings the energies of `H2State` and `HKState` are the same. -/
theorem C182_two : E T2 b = E (TKb 2) b := by
  funext A B
  unfold E bEnergy
  congr 1
  rw [sum_range, sum_range]
  refine sum_congr rfl fun g _ => ?_
  rw [sum_range, sum_range]
  refine sum_congr rfl fun g' _ => ?_
  have h0 := cnt_found A B (0 : Fin 2) g g'
  have h1 := cnt_found A B (1 : Fin 2) g g'
  simp only [Fin.val_zero, Fin.val_one] at h0 h1
  unfold T2 TKb
  rw [sum_range_succ, sum_range_one, sum_range_succ, sum_range_one]
  dsimp only
  rw [h0, h1]
  generalize found b 2 A B g g' 0 = x
  generalize found b 2 A B g g' 1 = y
  rw [show ((x : ℤ) + y + (2 : ℕ) - 1).toNat = x + y + 1 by omega, show ((x : ℤ) + y).toNat = x + y by omega, Int.toNat_natCast,
    Int.toNat_natCast, Nat.factorial_succ, ← Nat.add_choose_mul_factorial_mul_factorial]
  have hx : ((x.factorial : ℕ) : ℝ) ≠ 0 := by exact_mod_cast x.factorial_ne_zero
  have hy : ((y.factorial : ℕ) : ℝ) ≠ 0 := by exact_mod_cast y.factorial_ne_zero
  have hc : (((x + y).choose x : ℕ) : ℝ) ≠ 0 := by exact_mod_cast (Nat.choose_pos (by omega)).ne'
  have hn : ((x : ℝ) + y + 1) ≠ 0 := by positivity
  rw [Nat.choose_symm_add (a := x) (b := y)] at *
  push_cast
  rw [Real.log_mul hn (by positivity), Real.log_mul (by positivity) hy, Real.log_mul hc hx]
  ring

theorem sum_divisions {n : ℕ} (g : (Fin n → Fin n) → ℝ) :
    haveI : Fintype (Quotient (divisions n)) := Fintype.ofFinite _
    ∑ A, g A = ∑ q : Quotient (divisions n), ∑ A ∈ univ.filter (fun A => SameBlocks q.out A), g A := by
  classical
  let : Fintype (Quotient (divisions n)) := Fintype.ofFinite _
  rw [← sum_fiberwise univ (fun A => (Quotient.mk (divisions n) A)) g]
  refine sum_congr rfl fun q _ => ?_
  have hset : (univ.filter fun A => Quotient.mk (divisions n) A = q) = univ.filter fun A => SameBlocks q.out A := by
    ext A
    simp only [mem_filter, mem_univ, true_and]
    constructor
    · intro e
      subst e
      exact Quotient.mk_out (s := divisions n) A
    · intro e
      rw [← Quotient.out_eq q]
      exact Quotient.sound (s := divisions n) (SameBlocks.symm e)
  rw [hset]

theorem sum_classes (hK : 0 < K) {f : (Fin b.n1 → Fin b.n1) → (Fin b.n2 → Fin b.n2) → ℝ}
    (hf : ∀ A A' B B', SameBlocks A A' → SameBlocks B B' → f A B = f A' B') :
    haveI : Fintype (Quotient (divisions b.n1)) := Fintype.ofFinite _
    haveI : Fintype (Quotient (divisions b.n2)) := Fintype.ofFinite _
    ∑ A, ∑ B, Real.exp (-E (TKb K) b A B) * f A B =
      b.n1.factorial * b.n2.factorial / ((K - 1).factorial : ℝ) ^ (b.n1 * b.n2) *
        ∑ q : Quotient (divisions b.n1), ∑ q' : Quotient (divisions b.n2), evidence b K q.out q'.out * f q.out q'.out := by
  classical
  let : Fintype (Quotient (divisions b.n1)) := Fintype.ofFinite _
  let : Fintype (Quotient (divisions b.n2)) := Fintype.ofFinite _
  rw [sum_divisions, mul_sum]
  refine sum_congr rfl fun q _ => ?_
  rw [sum_congr rfl fun A _ => sum_divisions (n := b.n2) _, sum_comm, mul_sum]
  refine sum_congr rfl fun q' _ => ?_
  have h1 := (C175_labels (TKb K) b q.out q'.out).2
  rw [C182_weight hK] at h1
  rw [← mul_assoc, div_mul_eq_mul_div, mul_div_assoc, ← h1, sum_mul]
  refine sum_congr rfl fun A hA => ?_
  rw [sum_mul]
  refine sum_congr rfl fun B hB => ?_
  rw [hf _ _ _ _ (mem_filter.1 hA).2 (mem_filter.1 hB).2]

theorem expected_same {A A' : Fin b.n1 → Fin b.n1} {B B' : Fin b.n2 → Fin b.n2} (hA : SameBlocks A A') (hB : SameBlocks B B')
    (k : Fin K) (i : Fin b.n1) (j : Fin b.n2) : expected b K A B k i j = expected b K A' B' k i j := by
  have : found b K A B (A i) (B j) = found b K A' B' (A' i) (B' j) := by
    funext k
    unfold found
    congr 1
    refine filter_congr fun p _ => ?_
    rw [hA, hB]
  unfold expected
  rw [this]

/-- The estimate as a function of the divisions. -/
noncomputable def guess (b : Bi) (K : ℕ) (k : Fin K) (i : Fin b.n1) (j : Fin b.n2)
    (x : (Fin b.n1 → Fin b.n1) × (Fin b.n2 → Fin b.n2)) : ℝ := (estimate b K (lift x.1, lift x.2) k (i, j) : ℝ)

/-- **C182**: in the Boltzmann distribution of the samplers the mean of the estimate for a pair is the posterior
probability of the rating. -/
theorem C182_posterior (hK : 0 < K) (k : Fin K) (i : Fin b.n1) (j : Fin b.n2) :
    mean (fun x => E (TKb K) b x.1 x.2) (guess b K k i j) = posterior b K k i j := by
  have e : guess b K k i j = fun x => expected b K x.1 x.2 k i j := funext fun x => C182_estimate hK x.1 x.2 k i j
  have h1 := sum_classes (b := b) hK (f := fun A B => expected b K A B k i j) (fun A A' B B' hA hB => expected_same hA hB k i j)
  have h2 := sum_classes (b := b) hK (f := fun _ _ => 1) (fun _ _ _ _ _ _ => rfl)
  simp only [mul_one] at h2
  unfold mean posterior
  rw [e, Fintype.sum_prod_type, Fintype.sum_prod_type, h1, h2, mul_div_mul_left]
  refine div_ne_zero (mul_ne_zero ?_ ?_) (pow_ne_zero _ ?_) <;> exact_mod_cast Nat.factorial_ne_zero _

theorem estimate_between (hK : 0 < K) (A : Fin b.n1 → Fin b.n1) (B : Fin b.n2 → Fin b.n2) (k : Fin K) (i : Fin b.n1) (j : Fin b.n2) :
    0 ≤ (estimate b K (lift A, lift B) k (i, j) : ℝ) ∧ (estimate b K (lift A, lift B) k (i, j) : ℝ) ≤ 1 := by
  rw [C182_estimate hK]
  unfold expected
  rw [chance_next hK]
  have hK' : (1 : ℝ) ≤ K := by exact_mod_cast hK
  have hle : (found b K A B (A i) (B j) k : ℝ) ≤ ∑ k, (found b K A B (A i) (B j) k : ℝ) :=
    single_le_sum (f := fun k => (found b K A B (A i) (B j) k : ℝ)) (fun _ _ => Nat.cast_nonneg _) (mem_univ k)
  have h0 : (0 : ℝ) ≤ ∑ k, (found b K A B (A i) (B j) k : ℝ) := sum_nonneg fun _ _ => Nat.cast_nonneg _
  constructor
  · positivity
  · rw [div_le_one (by linarith)]
    linarith

/-- **C182** for `MultiLinkScoreKState` and, with `K = 2` and `C182_two`, `MultiLinkScore2State`: whatever the start, the
mean of the estimate for a pair, averaged over samples taken at any times late enough, is as near as one likes to the
posterior probability of the rating. The forecasts printed are such averages (`C50_means`, `C50_score2`), and each attempt has
the probabilities of `mixed` (C175). -/
theorem C182_metropolis (hK : 0 < K) (n1 : 3 ≤ b.n1) (n2 : 3 ≤ b.n2) {ε : ℝ} (hε : 0 < ε) :
    ∃ J, ∀ ts : List ℕ, ts ≠ [] → (∀ l ∈ ts, J ≤ l) → ∀ x (k : Fin K) (i : Fin b.n1) (j : Fin b.n2),
      |(ts.map fun l => ((next (table (TKb K) b (setRatio b)))^[l] (guess b K k i j)) x).sum /
        ts.length - posterior b K k i j| ≤ ε := by
  obtain ⟨p, hp0, hp1, hc⟩ := C180_converges_partial (TKb K) b n1 n2
  have q0 : 0 < p ^ (2 * b.n1 + 2 * b.n2) := pow_pos hp0 _
  have q1 := pow_le_one₀ (n := 2 * b.n1 + 2 * b.n2) hp0.le hp1.le
  obtain ⟨J, hJ⟩ := exists_pow_lt_of_lt_one hε (show 1 - p ^ (2 * b.n1 + 2 * b.n2) < 1 by linarith)
  refine ⟨J * (2 * b.n1 + 2 * b.n2), fun ts hts hlate x k i j => ?_⟩
  refine late_average (by linarith) (by linarith) (by omega) (fun l => ?_) hJ.le ts hts hlate
  have := hc l (guess b K k i j) 0 1 (fun x => (estimate_between hK x.1 x.2 k i j).1)
    (fun x => (estimate_between hK x.1 x.2 k i j).2) x
  rw [C182_posterior hK] at this
  rwa [sub_zero, mul_one] at this

/-- **C182** for `GibbsMultiLinkScoreKState`, with times counted in steps of `GibbsStepKState`. -/
theorem C182_heat_bath (hK : 0 < K) (n1 : 0 < b.n1) (n2 : 0 < b.n2) {ε : ℝ} (hε : 0 < ε) :
    ∃ J, ∀ ts : List ℕ, ts ≠ [] → (∀ l ∈ ts, J ≤ l) → ∀ x (k : Fin K) (i : Fin b.n1) (j : Fin b.n2),
      |(ts.map fun l => ((round (TKb K) b)^[l] (guess b K k i j)) x).sum /
        ts.length - posterior b K k i j| ≤ ε := by
  obtain ⟨D, hD, hc⟩ := (C179_converges (TKb K) b n1 n2).2
  have hD0 : 0 ≤ D := by have := hD id id id id; linarith
  have hle : ∀ n : ℕ, 0 < n → Real.exp (-D) / n ≤ 1 := by
    intro n hn
    have hn1 : (1 : ℝ) ≤ n := by exact_mod_cast hn
    rw [div_le_one (by linarith)]
    exact (Real.exp_le_one_iff.2 (by linarith)).trans hn1
  have hpos : ∀ n : ℕ, 0 < n → 0 < Real.exp (-D) / n := fun n hn => div_pos (Real.exp_pos _) (by exact_mod_cast hn)
  have q0 : 0 < (Real.exp (-D) / b.n1) ^ b.n1 * (Real.exp (-D) / b.n2) ^ b.n2 := mul_pos (pow_pos (hpos _ n1) _) (pow_pos (hpos _ n2) _)
  have q1 := mul_le_one₀ (pow_le_one₀ (n := b.n1) (hpos _ n1).le (hle _ n1)) (pow_pos (hpos _ n2) b.n2).le
    (pow_le_one₀ (n := b.n2) (hpos _ n2).le (hle _ n2))
  obtain ⟨J, hJ⟩ := exists_pow_lt_of_lt_one hε
    (show 1 - (Real.exp (-D) / b.n1) ^ b.n1 * (Real.exp (-D) / b.n2) ^ b.n2 < 1 by linarith)
  refine ⟨J, fun ts hts hlate x k i j => ?_⟩
  refine late_average (by linarith) (by linarith) one_pos (fun l => ?_) hJ.le ts hts (by simpa using hlate)
  have := hc l (guess b K k i j) 0 1 (fun x => (estimate_between hK x.1 x.2 k i j).1)
    (fun x => (estimate_between hK x.1 x.2 k i j).2) x
  rw [C182_posterior hK] at this
  rw [sub_zero, mul_one] at this
  rwa [Nat.div_one]

example := C182_heat_bath (b := movies) (K := 2) (by norm_num) (by decide) (by decide) (ε := 1 / 100) (by norm_num)

end RC
