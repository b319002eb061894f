import Verif.Accuracy

/-!
# C186: a generator with finitely many values changes the scores by an amount inverse to their number

C172 to C185 take random numbers that are uniform on [0, 1). The generators of the library give `k / M` with `k < M`
(`M = 2³²` for the default of GSL). Each node and each label is then chosen for `M / n` values of `k` to within one, a
move is accepted for a number of values within one of `M` times its probability, and the mean of a score after many
attempts is within `C / M` of the posterior probability. `C` does not depend on `M`.

Simplified: the values drawn are independent and equally likely; a label equal to the old one is drawn again
(missing.c:195-197), which gives each of the others its share of the values that are left.
-/

open Finset

namespace MH

/-- Number of values `k / M` for which `floor (u * n)` is `g` (missing.c:192, 196). -/
def share (M n g : ℕ) : ℕ := ((range M).filter fun k : ℕ => ⌊(k : ℚ) / M * n⌋₊ = g).card

/-- Number of values `k / M` below `a` (missing.c:297). -/
noncomputable def below (M : ℕ) (a : ℝ) : ℕ := ((range M).filter fun k : ℕ => (((k : ℚ) / M : ℚ) : ℝ) < a).card

/-- Mean of `f` after an attempt at a move (missing.c:192-297) with a generator of `M` values. -/
noncomputable def rounded {n : ℕ} (M : ℕ) (E f : (Fin n → Fin n) → ℝ) (F : Fin n → Fin n) : ℝ :=
  f F + ∑ v : Fin n, ∑ g ∈ univ.filter (· ≠ F v), (share M n v : ℝ) / M * ((share M n g : ℝ) / ((M : ℝ) - share M n (F v))) *
    ((below M (min 1 (Real.exp (E F - E (Function.update F v g)))) : ℝ) / M) * (f (Function.update F v g) - f F)

/-- **C186**: a node or label is chosen for `M / n` values to within one. -/
theorem C186_share {M n g : ℕ} (hM : 0 < M) (hg : g < n) : |(share M n g : ℝ) - M / n| ≤ 1 := by
  have hMq : (0 : ℚ) < M := by exact_mod_cast hM
  have hnq : (0 : ℚ) < n := by exact_mod_cast (by omega : 0 < n)
  have e : ((range M).filter fun k : ℕ => ⌊(k : ℚ) / M * n⌋₊ = g) = Ico ⌈(g : ℚ) * M / n⌉₊ ⌈((g : ℚ) + 1) * M / n⌉₊ := by
    ext k
    rw [mem_filter, mem_range, mem_Ico, Nat.ceil_le, Nat.lt_ceil, Nat.floor_eq_iff (by positivity), div_le_iff₀ hnq,
      lt_div_iff₀ hnq, div_mul_eq_mul_div, le_div_iff₀ hMq, div_lt_iff₀ hMq]
    refine ⟨fun h => h.2, fun h => ⟨?_, h⟩⟩
    have : ((g : ℚ) + 1) ≤ n := by exact_mod_cast hg
    have : (k : ℚ) * n < M * n := by nlinarith [h.2]
    exact_mod_cast lt_of_mul_lt_mul_right this hnq.le
  have a0 : (0 : ℚ) ≤ (g : ℚ) * M / n := by positivity
  have b0 : (0 : ℚ) ≤ ((g : ℚ) + 1) * M / n := by positivity
  have hab : (g : ℚ) * M / n ≤ ((g : ℚ) + 1) * M / n := by gcongr; linarith
  have a1 := Nat.le_ceil ((g : ℚ) * M / n)
  have a2 := Nat.ceil_lt_add_one a0
  have b1 := Nat.le_ceil (((g : ℚ) + 1) * M / n)
  have b2 := Nat.ceil_lt_add_one b0
  have hd : ((g : ℚ) + 1) * M / n = (g : ℚ) * M / n + M / n := by ring
  have hq : |(share M n g : ℚ) - M / n| ≤ 1 := by
    unfold share
    rw [e, Nat.card_Ico, Nat.cast_sub (Nat.ceil_mono hab), abs_le]
    constructor <;> linarith
  have hr : (((|(share M n g : ℚ) - M / n| : ℚ)) : ℝ) ≤ ((1 : ℚ) : ℝ) := Rat.cast_le.2 hq
  push_cast at hr
  exact hr

/-- **C186**: a move that should be accepted with probability `a` is accepted for `M a` values to within one. -/
theorem C186_accept {M : ℕ} (hM : 0 < M) {a : ℝ} (h0 : 0 ≤ a) (h1 : a ≤ 1) :
    (M : ℝ) * a ≤ below M a ∧ (below M a : ℝ) ≤ M * a + 1 ∧ below M a ≤ M := by
  have hMr : (0 : ℝ) < M := by exact_mod_cast hM
  have e : ((range M).filter fun k : ℕ => (((k : ℚ) / M : ℚ) : ℝ) < a) = range ⌈(M : ℝ) * a⌉₊ := by
    ext k
    rw [mem_filter, mem_range, mem_range, Nat.lt_ceil]
    push_cast
    rw [div_lt_iff₀ hMr, mul_comm a]
    refine ⟨fun h => h.2, fun h => ⟨?_, h⟩⟩
    have : (k : ℝ) < M := by nlinarith
    exact_mod_cast this
  refine ⟨?_, ?_, (card_filter_le _ _).trans (card_range M).le⟩
  · unfold below
    rw [e, card_range]
    exact Nat.le_ceil _
  · unfold below
    rw [e, card_range]
    exact (Nat.ceil_lt_add_one (by positivity)).le

/-- Every value chooses some label. -/
theorem share_sum {M n : ℕ} (hM : 0 < M) (hn : 0 < n) : ∑ g : Fin n, (share M n g : ℝ) = M := by
  have hMq : (0 : ℚ) < M := by exact_mod_cast hM
  have hnq : (0 : ℚ) < n := by exact_mod_cast hn
  have h := card_eq_sum_card_fiberwise (s := range M) (t := range n) (f := fun k : ℕ => ⌊(k : ℚ) / M * n⌋₊) (fun k hk => by
    have hk' : (k : ℚ) < M := by exact_mod_cast mem_range.1 hk
    simp only [coe_range, Set.mem_Iio]
    rw [Nat.floor_lt (by positivity), div_mul_eq_mul_div, div_lt_iff₀ hMq, mul_comm]
    exact mul_lt_mul_of_pos_left hk' hnq)
  rw [card_range] at h
  rw [Fin.sum_univ_eq_sum_range (fun g => (share M n g : ℝ)) n]
  unfold share
  exact_mod_cast h.symm

/-- Difference of two products of three numbers. -/
theorem three {a b c a' b' c' : ℝ} (ha : 0 ≤ a) (hb : 0 ≤ b) (hb' : 0 ≤ b') (hc' : 0 ≤ c') (hc1 : c' ≤ 1) :
    |a' * b' * c' - a * b * c| ≤ |a' - a| * b' + a * |b' - b| + a * b * |c' - c| := by
  have e : a' * b' * c' - a * b * c = (a' - a) * (b' * c') + a * ((b' - b) * c') + a * b * (c' - c) := by ring
  rw [e]
  refine (abs_add_le _ _).trans (add_le_add ((abs_add_le _ _).trans (add_le_add ?_ ?_)) ?_)
  · rw [abs_mul, abs_of_nonneg (mul_nonneg hb' hc')]
    exact mul_le_mul_of_nonneg_left (mul_le_of_le_one_right hb' hc1) (abs_nonneg _)
  · rw [abs_mul, abs_of_nonneg ha, abs_mul, abs_of_nonneg hc']
    exact mul_le_mul_of_nonneg_left (mul_le_of_le_one_right (abs_nonneg _) hc1) ha
  · rw [abs_mul, abs_of_nonneg (mul_nonneg ha hb)]

variable {n M : ℕ}

/-- Values that choose another label. -/
theorem others (hM : 4 ≤ M) (hn : 2 ≤ n) (g : Fin n) : (M : ℝ) / 4 ≤ M - share M n g := by
  have h4 : (4 : ℝ) ≤ M := by exact_mod_cast hM
  have h2 : (2 : ℝ) ≤ n := by exact_mod_cast hn
  have h := (abs_le.1 (C186_share (by omega : 0 < M) g.2)).2
  have : (M : ℝ) / n ≤ M / 2 := by gcongr
  linarith

theorem others_sum (hM : 4 ≤ M) (hn : 2 ≤ n) (o : Fin n) :
    ∑ g ∈ univ.filter (· ≠ o), (share M n g : ℝ) / ((M : ℝ) - share M n o) = 1 := by
  have h := others hM hn o
  have h4 : (4 : ℝ) ≤ M := by exact_mod_cast hM
  rw [← sum_div, filter_ne', ← share_sum (M := M) (n := n) (by omega) (by omega), ← add_sum_erase univ _ (mem_univ o),
    add_sub_cancel_left]
  rw [← share_sum (M := M) (n := n) (by omega) (by omega), ← add_sum_erase univ _ (mem_univ o), add_sub_cancel_left] at h
  refine div_self (ne_of_gt (lt_of_lt_of_le ?_ h))
  rw [add_sum_erase univ (fun g : Fin n => (share M n g : ℝ)) (mem_univ o), share_sum (by omega) (by omega)]
  positivity

/-- **C186**: an attempt with a generator of `M` values changes every mean by at most `6 n / M`. -/
theorem C186_attempt (hM : 4 ≤ M) (hn : 2 ≤ n) (E : (Fin n → Fin n) → ℝ) {f : (Fin n → Fin n) → ℝ} {w : ℝ}
    (hw : ∀ F F', |f F' - f F| ≤ w) (F : Fin n → Fin n) : |rounded M E f F - next (kernel E) f F| ≤ 6 * n / M * w := by
  have h4 : (4 : ℝ) ≤ M := by exact_mod_cast hM
  have h2 : (2 : ℝ) ≤ n := by exact_mod_cast hn
  have hM0 : (0 : ℝ) < M := by linarith
  have hn0 : (0 : ℝ) < n := by linarith
  have hn1 : (0 : ℝ) < (n : ℝ) - 1 := by linarith
  have w0 : 0 ≤ w := (abs_nonneg _).trans (hw F F)
  have hc : ∀ v : Fin n, ((univ.filter (· ≠ F v)).card : ℝ) = (n : ℝ) - 1 := fun v => by
    rw [filter_ne', card_erase_of_mem (mem_univ _), card_univ, Fintype.card_fin, Nat.cast_sub (by omega), Nat.cast_one]
  -- One node.
  have hnode : ∀ v : Fin n, ∑ g ∈ univ.filter (· ≠ F v),
      |(share M n v : ℝ) / M * ((share M n g : ℝ) / ((M : ℝ) - share M n (F v))) *
          ((below M (min 1 (Real.exp (E F - E (Function.update F v g)))) : ℝ) / M) -
        1 / (n : ℝ) * (1 / ((n : ℝ) - 1)) * min 1 (Real.exp (E F - E (Function.update F v g)))| ≤
      1 / M + 1 / n * (4 * n / M) + 1 / n * (1 / M) := by
    intro v
    have ho := others hM hn (F v)
    have ho0 : (0 : ℝ) < M - share M n (F v) := by linarith
    have a1 : |(share M n v : ℝ) / M - 1 / n| ≤ 1 / M := by
      have e : (share M n v : ℝ) / M - 1 / n = (share M n v - M / n) / M := by field_simp
      rw [e, abs_div, abs_of_pos hM0]
      exact div_le_div_of_nonneg_right (C186_share (by omega) v.2) hM0.le
    have b1 : ∀ g : Fin n, |(share M n g : ℝ) / ((M : ℝ) - share M n (F v)) - 1 / ((n : ℝ) - 1)| ≤ 4 * n / M / ((n : ℝ) - 1) := by
      intro g
      have e : (share M n g : ℝ) / ((M : ℝ) - share M n (F v)) - 1 / ((n : ℝ) - 1) =
          (((n : ℝ) - 1) * (share M n g - M / n) + (share M n (F v) - M / n)) / (((M : ℝ) - share M n (F v)) * ((n : ℝ) - 1)) := by
        rw [div_sub_div _ _ ho0.ne' hn1.ne']
        congr 1
        field_simp
        ring
      rw [e, abs_div, abs_of_pos (mul_pos ho0 hn1), ← div_div]
      refine div_le_div_of_nonneg_right ?_ hn1.le
      have hnum : |((n : ℝ) - 1) * (share M n g - M / n) + (share M n (F v) - M / n)| ≤ n := by
        refine (abs_add_le _ _).trans ?_
        rw [abs_mul, abs_of_pos hn1]
        have := mul_le_mul_of_nonneg_left (C186_share (M := M) (by omega) g.2) hn1.le
        have := C186_share (M := M) (by omega) (F v).2
        linarith
      calc _ ≤ (n : ℝ) / (M / 4) := div_le_div₀ hn0.le hnum (by positivity) ho
        _ = 4 * n / M := by field_simp
    have c1 : ∀ g : Fin n, |(below M (min 1 (Real.exp (E F - E (Function.update F v g)))) : ℝ) / M -
        min 1 (Real.exp (E F - E (Function.update F v g)))| ≤ 1 / M := by
      intro g
      obtain ⟨p, q, -⟩ := C186_accept (M := M) (by omega) (a := min 1 (Real.exp (E F - E (Function.update F v g))))
        (le_min zero_le_one (Real.exp_pos _).le) (min_le_left _ _)
      rw [abs_le, neg_le_sub_iff_le_add, sub_le_iff_le_add, ← sub_nonneg, ← sub_nonneg (b := _ / _)]
      constructor
      · have : 0 ≤ (1 : ℝ) / M := by positivity
        have : min 1 (Real.exp (E F - E (Function.update F v g))) ≤ (below M (min 1 (Real.exp (E F - E (Function.update F v g)))) : ℝ) / M := by
          rw [le_div_iff₀ hM0]
          linarith
        linarith
      · rw [sub_nonneg, div_le_iff₀ hM0, add_mul, one_div, inv_mul_cancel₀ hM0.ne']
        linarith
    calc _ ≤ ∑ g ∈ univ.filter (· ≠ F v), (1 / (M : ℝ) * ((share M n g : ℝ) / ((M : ℝ) - share M n (F v))) +
          1 / n * (4 * n / M / ((n : ℝ) - 1)) + 1 / n * (1 / ((n : ℝ) - 1)) * (1 / M)) := by
          refine sum_le_sum fun g _ => ?_
          have hb' : 0 ≤ (share M n g : ℝ) / ((M : ℝ) - share M n (F v)) := by positivity
          obtain ⟨p, q, r⟩ := C186_accept (M := M) (by omega) (a := min 1 (Real.exp (E F - E (Function.update F v g))))
            (le_min zero_le_one (Real.exp_pos _).le) (min_le_left _ _)
          refine (three (by positivity) (by positivity) hb' (by positivity) ?_).trans ?_
          · rw [div_le_one hM0]
            exact_mod_cast r
          · exact add_le_add (add_le_add (mul_le_mul_of_nonneg_right a1 hb') (mul_le_mul_of_nonneg_left (b1 g) (by positivity)))
              (mul_le_mul_of_nonneg_left (c1 g) (by positivity))
      _ = _ := by
          rw [sum_add_distrib, sum_add_distrib, ← mul_sum, others_sum hM hn, sum_const, sum_const, nsmul_eq_mul, nsmul_eq_mul, hc]
          field_simp
  rw [next_kernel]
  unfold rounded
  rw [add_sub_add_left_eq_sub, ← sum_sub_distrib]
  calc _ ≤ ∑ v : Fin n, (1 / M + 1 / n * (4 * n / M) + 1 / n * (1 / M)) * w := by
        refine (abs_sum_le_sum_abs _ _).trans (sum_le_sum fun v _ => ?_)
        rw [← sum_sub_distrib]
        refine (abs_sum_le_sum_abs _ _).trans (le_trans ?_ (mul_le_mul_of_nonneg_right (hnode v) w0))
        rw [sum_mul]
        refine sum_le_sum fun g _ => ?_
        rw [← sub_mul, abs_mul]
        exact mul_le_mul_of_nonneg_left (hw _ _) (abs_nonneg _)
    _ = (5 * n + 1) / M * w := by
        rw [sum_const, card_univ, Fintype.card_fin, nsmul_eq_mul]
        field_simp
        ring
    _ ≤ _ := by
        refine mul_le_mul_of_nonneg_right (div_le_div_of_nonneg_right ?_ hM0.le) w0
        linarith

/-- Means stay between bounds. -/
theorem rounded_between (hM : 4 ≤ M) (hn : 2 ≤ n) (E : (Fin n → Fin n) → ℝ) {f : (Fin n → Fin n) → ℝ} {b : ℝ} (h : ∀ F, |f F| ≤ b)
    (F : Fin n → Fin n) : |rounded M E f F| ≤ b := by
  have h4 : (4 : ℝ) ≤ M := by exact_mod_cast hM
  have hM0 : (0 : ℝ) < M := by linarith
  have b0 : 0 ≤ b := (abs_nonneg _).trans (h F)
  let W : Fin n → Fin n → ℝ := fun v g => (share M n v : ℝ) / M * ((share M n g : ℝ) / ((M : ℝ) - share M n (F v))) *
    ((below M (min 1 (Real.exp (E F - E (Function.update F v g)))) : ℝ) / M)
  have hW0 : ∀ v g, 0 ≤ W v g := fun v g => by
    have := others hM hn (F v)
    have : (0 : ℝ) < M - share M n (F v) := by linarith
    positivity
  have hW1 : ∑ v : Fin n, ∑ g ∈ univ.filter (· ≠ F v), W v g ≤ 1 := by
    calc _ ≤ ∑ v : Fin n, ∑ g ∈ univ.filter (· ≠ F v), (share M n v : ℝ) / M * ((share M n g : ℝ) / ((M : ℝ) - share M n (F v))) := by
          refine sum_le_sum fun v _ => sum_le_sum fun g _ => mul_le_of_le_one_right ?_ ?_
          · have := others hM hn (F v)
            have : (0 : ℝ) < M - share M n (F v) := by linarith
            positivity
          · rw [div_le_one hM0]
            exact_mod_cast (C186_accept (M := M) (by omega) (le_min zero_le_one (Real.exp_pos _).le) (min_le_left _ _)).2.2
      _ = 1 := by
          rw [sum_congr rfl fun v _ => by rw [← mul_sum, others_sum hM hn, mul_one], ← sum_div, share_sum (by omega) (by omega)]
          exact div_self hM0.ne'
  have e : rounded M E f F = (1 - ∑ v : Fin n, ∑ g ∈ univ.filter (· ≠ F v), W v g) * f F +
      ∑ v : Fin n, ∑ g ∈ univ.filter (· ≠ F v), W v g * f (Function.update F v g) := by
    have : rounded M E f F = f F + ∑ v : Fin n, ∑ g ∈ univ.filter (· ≠ F v), W v g * (f (Function.update F v g) - f F) := rfl
    rw [this]
    simp only [mul_sub, sum_sub_distrib, ← sum_mul]
    ring
  rw [e]
  refine (abs_add_le _ _).trans ?_
  rw [abs_mul, abs_of_nonneg (by linarith : 0 ≤ 1 - ∑ v : Fin n, ∑ g ∈ univ.filter (· ≠ F v), W v g)]
  have h1 : |∑ v : Fin n, ∑ g ∈ univ.filter (· ≠ F v), W v g * f (Function.update F v g)| ≤
      (∑ v : Fin n, ∑ g ∈ univ.filter (· ≠ F v), W v g) * b := by
    rw [sum_mul]
    refine (abs_sum_le_sum_abs _ _).trans (sum_le_sum fun v _ => ?_)
    rw [sum_mul]
    refine (abs_sum_le_sum_abs _ _).trans (sum_le_sum fun g _ => ?_)
    rw [abs_mul, abs_of_nonneg (hW0 v g)]
    exact mul_le_mul_of_nonneg_left (h _) (hW0 v g)
  have h2 := mul_le_mul_of_nonneg_left (h F) (by linarith : 0 ≤ 1 - ∑ v : Fin n, ∑ g ∈ univ.filter (· ≠ F v), W v g)
  linarith

theorem rounded_sub (E f g : (Fin n → Fin n) → ℝ) (F : Fin n → Fin n) :
    rounded M E f F - rounded M E g F = rounded M E (fun F => f F - g F) F := by
  unfold rounded
  rw [add_sub_add_comm, ← sum_sub_distrib]
  congr 1
  refine sum_congr rfl fun v _ => ?_
  rw [← sum_sub_distrib]
  exact sum_congr rfl fun g _ => by ring

/-- **C186**: after many attempts the mean of `f` is within `C / M` of its Boltzmann mean, whatever the start. -/
theorem C186_limit (hn : 3 ≤ n) (E : (Fin n → Fin n) → ℝ) : ∃ c C : ℝ, 0 ≤ c ∧ c < 1 ∧ ∀ M, 4 ≤ M → ∀ f : (Fin n → Fin n) → ℝ,
    (∀ F, 0 ≤ f F) → (∀ F, f F ≤ 1) → ∀ k F, |((rounded M E)^[k] f) F - mean E f| ≤ c ^ (k / (2 * n)) + C / M := by
  have : Nonempty (Fin n) := ⟨⟨0, by omega⟩⟩
  obtain ⟨D, hD⟩ := bounded E
  have h3 : (3 : ℝ) ≤ n := by exact_mod_cast hn
  have hD0 : 0 ≤ D := by have := hD id id; linarith
  have hp : 0 < Real.exp (-D) / (n * ((n : ℝ) - 1)) := div_pos (Real.exp_pos _) (by nlinarith)
  have hp1 : Real.exp (-D) / (n * ((n : ℝ) - 1)) ≤ 1 := by
    rw [div_le_one (by nlinarith)]
    exact (Real.exp_le_one_iff.2 (by linarith)).trans (by nlinarith)
  have q0 : 0 < (Real.exp (-D) / (n * ((n : ℝ) - 1))) ^ (2 * n) := pow_pos hp _
  have q1 := pow_le_one₀ (n := 2 * n) hp.le hp1
  obtain ⟨c, hc⟩ : ∃ c, c = 1 - (Real.exp (-D) / (n * ((n : ℝ) - 1))) ^ (2 * n) := ⟨_, rfl⟩
  have c0 : 0 ≤ c := by linarith
  have c1 : c < 1 := by linarith
  refine ⟨c, 12 * n * ((2 * n : ℕ) / (1 - c)), c0, c1, fun M hM f f0 f1 k F => ?_⟩
  have hM0 : (0 : ℝ) < M := by exact_mod_cast (by omega : 0 < M)
  have hconv : ∀ k F, |((next (kernel E))^[k] f) F - mean E f| ≤ c ^ (k / (2 * n)) := fun k F => by
    have := metropolis_converges hn hD k f 0 1 f0 f1 F
    rwa [sub_zero, mul_one, ← hc] at this
  have key : ∀ k F, |((rounded M E)^[k] f) F - ((next (kernel E))^[k] f) F| ≤ 12 * n / M * ∑ j ∈ range k, c ^ (j / (2 * n)) := by
    intro k
    induction k with
    | zero => intro F; simp
    | succ k ih =>
      intro F
      rw [Function.iterate_succ_apply', Function.iterate_succ_apply', sum_range_succ, mul_add]
      have e : rounded M E ((rounded M E)^[k] f) F - next (kernel E) ((next (kernel E))^[k] f) F =
          rounded M E (fun F => ((rounded M E)^[k] f) F - ((next (kernel E))^[k] f) F) F +
          (rounded M E ((next (kernel E))^[k] f) F - next (kernel E) ((next (kernel E))^[k] f) F) := by
        rw [← rounded_sub]
        ring
      rw [e]
      refine (abs_add_le _ _).trans (add_le_add (rounded_between hM (by omega) E ih F) ?_)
      refine (C186_attempt hM (by omega) E (w := 2 * c ^ (k / (2 * n))) (fun F F' => ?_) F).trans (le_of_eq (by ring))
      have a := abs_le.1 (hconv k F)
      have b := abs_le.1 (hconv k F')
      rw [abs_le]
      constructor <;> linarith [a.1, a.2, b.1, b.2]
  have hs := mul_le_mul_of_nonneg_left (sum_geometric c0 c1 (show 0 < 2 * n by omega) k) (show 0 ≤ 12 * (n : ℝ) / M by positivity)
  have e : 12 * (n : ℝ) / M * ((2 * n : ℕ) / (1 - c)) = 12 * n * ((2 * n : ℕ) / (1 - c)) / M := by ring
  rw [e] at hs
  have h1 := abs_le.1 (key k F)
  have h2 := abs_le.1 (hconv k F)
  rw [abs_le]
  constructor <;> linarith [h1.1, h1.2, h2.1, h2.2]

example := C186_share (M := 2 ^ 32) (n := 34) (g := 33) (by norm_num) (by norm_num)
example : share 10 3 0 = 4 ∧ share 10 3 1 = 3 ∧ share 10 3 2 = 3 := by decide +kernel

end MH

namespace LS

open GP MH

/-- **C186** for `LinkScore`. -/
theorem C186_score {net : Net} (h : net.Simple) (hn : 3 ≤ net.n) (linC : ℝ) : ∃ c C : ℝ, 0 ≤ c ∧ c < 1 ∧
    ∀ M, 4 ≤ M → ∀ (i j : Fin net.n) (k : ℕ) F,
      |((rounded M (E net linC))^[k] fun F => (score net (lift F) i j : ℝ)) F - posterior net linC i j| ≤
        c ^ (k / (2 * net.n)) + C / M := by
  obtain ⟨c, C, c0, c1, H⟩ := C186_limit hn (E net linC)
  refine ⟨c, C, c0, c1, fun M hM i j k F => ?_⟩
  rw [← C181_posterior h]
  exact H M hM _ (fun F => (score_between h F i j).1) (fun F => (score_between h F i j).2) k F

/-- With two nodes, where the attempts never settle (C180), the score is the posterior probability at all times. -/
theorem C186_two {net : Net} (h : net.Simple) (hn : net.n = 2) (linC : ℝ) {i j : Fin net.n} (hij : i ≠ j) (F : Fin net.n → Fin net.n) :
    (score net (lift F) i j : ℝ) = posterior net linC i j := by
  have hcell : ∀ F : Fin net.n → Fin net.n, cell net F (F i) (F j) = univ.filter fun p : Fin net.n × Fin net.n => p.1 < p.2 := by
    intro F
    ext p
    unfold cell
    simp only [mem_filter, mem_univ, true_and]
    constructor
    · exact fun hp => hp.1
    · intro hp
      refine ⟨hp, ?_⟩
      have h1 := p.1.2
      have h2 := p.2.2
      have h3 := i.2
      have h4 := j.2
      have h5 : (p.1 : ℕ) < p.2 := hp
      have h6 : (i : ℕ) ≠ j := fun hc => hij (Fin.ext hc)
      rcases lt_or_ge (i : ℕ) j with hlt | hge
      · have a : p.1 = i := Fin.ext (by omega)
        have b : p.2 = j := Fin.ext (by omega)
        rw [a, b]
        simp
      · have a : p.1 = j := Fin.ext (by omega)
        have b : p.2 = i := Fin.ext (by omega)
        rw [a, b]
        simp
  have hconst : ∀ G : Fin net.n → Fin net.n, (score net (lift G) i j : ℝ) = score net (lift F) i j := fun G => by
    rw [C181_score h, C181_score h]
    unfold expected seen
    rw [hcell G, hcell F]
  rw [← C181_posterior h linC i j]
  unfold mean
  simp only [hconst]
  rw [← sum_mul, mul_div_cancel_left₀]
  exact (sum_pos (fun _ _ => Real.exp_pos _) ⟨id, mem_univ _⟩).ne'

example := C186_score tailed_simple (by decide) 0
example := C186_two pair_simple rfl 0 (i := (0 : Fin 2)) (j := (1 : Fin 2)) (show (0 : Fin 2) ≠ 1 by decide) id

end LS

namespace KS

open GP MH

/-- **C186** for `LSMultiLinkScoreKState`. -/
theorem C186_score {net : Net} {K : ℕ} (h : net.Simple) (hK : 0 < K) (hn : 3 ≤ net.n) : ∃ c C : ℝ, 0 ≤ c ∧ c < 1 ∧
    ∀ M, 4 ≤ M → ∀ (q : Fin K) (i j : Fin net.n) (k : ℕ) F,
      |((rounded M (E net K))^[k] (guess net K q i j)) F - posterior net K q i j| ≤ c ^ (k / (2 * net.n)) + C / M := by
  obtain ⟨c, C, c0, c1, H⟩ := C186_limit hn (E net K)
  refine ⟨c, C, c0, c1, fun M hM q i j k F => ?_⟩
  rw [← C183_posterior h hK]
  exact H M hM _ (fun F => (guess_between h hK q i j F).1) (fun F => (guess_between h hK q i j F).2) k F

example := C186_score tailed_simple (K := 3) (by norm_num) (by decide)

end KS

namespace BK

open GP LS MH

/-- **C186** for the Metropolis samplers of multiblock.c and only_deg.c. -/
theorem C186_score {net : Net} {L : ℕ → ℕ → ℝ} (h : net.Simple) (hL : Pattern L) (hn : 3 ≤ net.n) (D : ℕ → ℝ) (linC : ℝ) :
    ∃ c C : ℝ, 0 ≤ c ∧ c < 1 ∧ ∀ M, 4 ≤ M → ∀ (i j : Fin net.n) (k : ℕ) A,
      |((rounded M (E (cost L) D net linC))^[k] fun A => score (predict L) net (lift A) i j) A - posterior L D net linC i j| ≤
        c ^ (k / (2 * net.n)) + C / M := by
  obtain ⟨c, C, c0, c1, H⟩ := C186_limit hn (E (cost L) D net linC)
  refine ⟨c, C, c0, c1, fun M hM i j k A => ?_⟩
  rw [← (C184_posterior h hL D linC i j).1]
  exact H M hM _ (fun A => by rw [(C184_score h L A i j).1]; exact (expected_between hL A i j).1)
    (fun A => by rw [(C184_score h L A i j).1]; exact (expected_between hL A i j).2) k A

example := C186_score tailed_simple C184_models.2.1 (by decide) logDeg 0

end BK
