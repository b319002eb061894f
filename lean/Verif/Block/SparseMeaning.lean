import Verif.Block.Sparse
import Verif.Block.Meaning
import Mathlib.Probability.Distributions.Beta

/-! # The probabilistic meaning of the sparse terms

The specification: every pair of a block is linked with the same unknown probability, whose prior is the Beta
distribution with parameters `a` and `b` (the density is Mathlib's). -/

set_option linter.unusedSimpArgs false

namespace BK

open RG LS ProbabilityTheory MeasureTheory

/-- Probability of one given pattern of `l` links on `r` pairs, Beta prior. -/
noncomputable def likeBeta (a b : ℝ) (r l : ℕ) : ℝ :=
  ∫ x in (0 : ℝ)..1, x ^ l * (1 - x) ^ (r - l) * betaPDFReal a b x

variable {a b : ℝ}

theorem beta_integral {s t : ℝ} (hs : 0 < s) (ht : 0 < t) :
    ∫ x in (0 : ℝ)..1, x ^ (s - 1) * (1 - x) ^ (t - 1) = beta s t := by
  rw [beta_eq_betaIntegralReal s t hs ht]
  have : Complex.betaIntegral s t = ((∫ x in (0 : ℝ)..1, x ^ (s - 1) * (1 - x) ^ (t - 1) : ℝ) : ℂ) := by
    rw [Complex.betaIntegral, ← intervalIntegral.integral_ofReal]
    rw [intervalIntegral.integral_of_le zero_le_one, intervalIntegral.integral_of_le zero_le_one]
    apply setIntegral_congr_fun measurableSet_Ioc
    intro x hx
    dsimp only
    rw [Complex.ofReal_mul, Complex.ofReal_cpow hx.1.le, Complex.ofReal_cpow (by linarith [hx.2])]
    push_cast
    rfl
  rw [this, Complex.ofReal_re]

theorem likeBeta_eq (ha : 0 < a) (hb : 0 < b) {r l : ℕ} (_h : l ≤ r) :
    likeBeta a b r l = beta (l + a) ((r - l : ℕ) + b) / beta a b := by
  rw [← beta_integral (by positivity) (by positivity)]
  unfold likeBeta
  rw [div_eq_inv_mul, ← intervalIntegral.integral_const_mul]
  rw [intervalIntegral.integral_of_le zero_le_one, intervalIntegral.integral_of_le zero_le_one,
    integral_Ioc_eq_integral_Ioo, integral_Ioc_eq_integral_Ioo]
  apply setIntegral_congr_fun measurableSet_Ioo
  intro x hx
  dsimp only
  unfold betaPDFReal
  rw [if_pos ⟨hx.1, hx.2⟩]
  have h1 : 0 < x := hx.1
  have h2 : 0 < 1 - x := by linarith [hx.2]
  rw [show (l : ℝ) + a - 1 = l + (a - 1) by ring, show ((r - l : ℕ) : ℝ) + b - 1 = (r - l : ℕ) + (b - 1) by ring,
    Real.rpow_add h1, Real.rpow_add h2, Real.rpow_natCast, Real.rpow_natCast]
  ring

/-- Normalised term. -/
noncomputable def spF (a b : ℝ) (r l : Int) : ℝ := cost (likeBeta a b) r l

theorem beta_log {s t : ℝ} (hs : 0 < s) (ht : 0 < t) : Real.log (beta s t) =
    Real.log (Real.Gamma s) + Real.log (Real.Gamma t) - Real.log (Real.Gamma (s + t)) := by
  unfold beta
  rw [Real.log_div (mul_pos (Real.Gamma_pos_of_pos hs) (Real.Gamma_pos_of_pos ht)).ne'
    (Real.Gamma_pos_of_pos (by positivity)).ne',
    Real.log_mul (Real.Gamma_pos_of_pos hs).ne' (Real.Gamma_pos_of_pos ht).ne']

theorem cost_beta (ha : 0 < a) (hb : 0 < b) {r l : ℕ} (h : l ≤ r) : cost (likeBeta a b) r l =
    Real.log (Real.Gamma (r + (a + b))) - Real.log (Real.Gamma (l + a)) - Real.log (Real.Gamma ((r - l : ℕ) + b)) +
      Real.log (beta a b) := by
  unfold cost
  rw [Int.toNat_natCast, Int.toNat_natCast, likeBeta_eq ha hb h, Real.log_div (beta_pos (by positivity) (by positivity)).ne'
    (beta_pos ha hb).ne', beta_log (s := l + a) (by positivity) (by positivity)]
  rw [show (l : ℝ) + a + ((r - l : ℕ) + b) = r + (a + b) by rw [Nat.cast_sub h]; ring]
  ring

theorem predict_beta (ha : 0 < a) (hb : 0 < b) {r l : ℕ} (h : l ≤ r) :
    predict (likeBeta a b) r l = (l + a) / (r + a + b) := by
  unfold predict
  rw [Int.toNat_natCast, Int.toNat_natCast, likeBeta_eq ha hb h, likeBeta_eq ha hb (by omega)]
  have h0 := (beta_pos ha hb).ne'
  unfold beta at h0 ⊢
  rw [show r + 1 - (l + 1) = r - l by omega, show (((l + 1 : ℕ)) : ℝ) + a = (l + a) + 1 by push_cast; ring,
    Real.Gamma_add_one (by positivity), show (l : ℝ) + a + 1 + ((r - l : ℕ) + b) = (r + a + b) + 1 by
      rw [Nat.cast_sub h]; ring, Real.Gamma_add_one (by positivity),
    show (l : ℝ) + a + ((r - l : ℕ) + b) = r + a + b by rw [Nat.cast_sub h]; ring]
  have g1 := (Real.Gamma_pos_of_pos (show 0 < (l : ℝ) + a by positivity)).ne'
  have g2 := (Real.Gamma_pos_of_pos (show 0 < ((r - l : ℕ) : ℝ) + b by positivity)).ne'
  have g3 := (Real.Gamma_pos_of_pos (show 0 < (r : ℝ) + a + b by positivity)).ne'
  have g4 := (Real.Gamma_pos_of_pos ha).ne'
  have g5 := (Real.Gamma_pos_of_pos hb).ne'
  have g6 := (Real.Gamma_pos_of_pos (add_pos ha hb)).ne'
  have g7 : (r : ℝ) + a + b ≠ 0 := by positivity
  field_simp

theorem likeBeta_zero (ha : 0 < a) (hb : 0 < b) : likeBeta a b 0 0 = 1 := by
  rw [likeBeta_eq ha hb (le_refl _)]
  simp [div_self (beta_pos ha hb).ne']

/-- The kernel with normalised terms. -/
noncomputable def NORM (a b : ℝ) : Kern :=
  ⟨fun r l => (sparseTerm a b r l).map (· + Real.log (beta a b)), fun _ => some 0,
    fun r l => some (((l : ℝ) + a) / ((r : ℝ) + a + b))⟩

theorem norm_shift (a b : ℝ) : Shift (SPARSE a b) (NORM a b) (-Real.log (beta a b)) := by
  refine ⟨?_, rfl, rfl⟩
  intro r l
  unfold SPARSE NORM
  dsimp only
  cases sparseTerm a b r l <;> simp

theorem sparseTerm_eq (ha : 0 < a) (hb : 0 < b) {r l : ℕ} (h : l ≤ r) : sparseTerm a b r l =
    some (Real.log (Real.Gamma (r + (a + b))) - Real.log (Real.Gamma (l + a)) - Real.log (Real.Gamma ((r - l : ℕ) + b))) := by
  have e1 : FastLogGamma r (a + b) = some (Real.log (Real.Gamma (r + (a + b)))) := by
    unfold FastLogGamma lngamma
    rw [if_neg (by omega), if_pos (by push_cast; positivity)]
    simp
  have e2 : FastLogGamma l a = some (Real.log (Real.Gamma (l + a))) := by
    unfold FastLogGamma lngamma
    rw [if_neg (by omega), if_pos (by push_cast; positivity)]
    simp
  have e3 : FastLogGamma ((r : Int) - l) b = some (Real.log (Real.Gamma ((r - l : ℕ) + b))) := by
    unfold FastLogGamma lngamma
    rw [show (r : Int) - l = ((r - l : ℕ) : Int) by omega, if_neg (by omega), if_pos (by push_cast; positivity)]
    simp
  unfold sparseTerm
  rw [e1, e2, e3]
  rfl

theorem norm_computes (ha : 0 < a) (hb : 0 < b) (n : ℕ) : Computes (NORM a b) n (cost (likeBeta a b)) (fun _ => 0) := by
  refine ⟨?_, ?_, fun _ => rfl⟩
  · intro r l h0 h1 _
    obtain ⟨l, rfl⟩ := Int.eq_ofNat_of_zero_le h0
    obtain ⟨r, rfl⟩ := Int.eq_ofNat_of_zero_le (h0.trans h1)
    unfold NORM
    dsimp only
    rw [sparseTerm_eq ha hb (by omega), cost_beta ha hb (by omega)]
    rfl
  · unfold cost
    simp [likeBeta_zero ha hb]

theorem sparse_scores (ha : 0 < a) (hb : 0 < b) (n : ℕ) : Scores (SPARSE a b) n (predict (likeBeta a b)) := by
  refine ⟨?_, ?_⟩
  · intro r l h0 h1 _
    obtain ⟨l, rfl⟩ := Int.eq_ofNat_of_zero_le h0
    obtain ⟨r, rfl⟩ := Int.eq_ofNat_of_zero_le (h0.trans h1)
    unfold SPARSE
    dsimp only
    rw [predict_beta ha hb (by omega)]
    simp
  · intro r l h0 h1
    obtain ⟨l, rfl⟩ := Int.eq_ofNat_of_zero_le h0
    obtain ⟨r, rfl⟩ := Int.eq_ofNat_of_zero_le (h0.trans h1)
    have hlr : l ≤ r := by omega
    rw [predict_beta ha hb hlr]
    have : (l : ℝ) ≤ r := by exact_mod_cast hlr
    constructor
    · positivity
    · rw [div_lt_one (by positivity)]
      linarith

end BK
