import Verif.Block.Kernels
import Mathlib.Analysis.SpecialFunctions.Integrals.Basic

/-! # The probabilistic meaning of the terms and scores

The specification: a block with `r` node pairs, `l` of them linked.  In the one-layer model every pair of the block
is linked with the same unknown probability `x`, uniform on `[0, 1]`; in the AND model a link is seen when it is
in both layers, probability `x y`; in the OR model when it is in at least one of them. -/

set_option linter.unusedSimpArgs false

namespace BK

open RG LS

/-- Probability of one given pattern of `l` links on `r` pairs, one layer. -/
noncomputable def like1 (r l : ℕ) : ℝ := ∫ x in (0 : ℝ)..1, x ^ l * (1 - x) ^ (r - l)

/-- The same when a link is seen if both layers have it. -/
noncomputable def likeAnd (r l : ℕ) : ℝ :=
  ∫ x in (0 : ℝ)..1, ∫ y in (0 : ℝ)..1, (x * y) ^ l * (1 - x * y) ^ (r - l)

/-- The same when a link is seen if at least one of the layers has it. -/
noncomputable def likeOr (r l : ℕ) : ℝ :=
  ∫ x in (0 : ℝ)..1, ∫ y in (0 : ℝ)..1, (1 - (1 - x) * (1 - y)) ^ l * ((1 - x) * (1 - y)) ^ (r - l)

/-- Cost of a block: minus the logarithm of its probability. -/
noncomputable def cost (L : ℕ → ℕ → ℝ) (r l : Int) : ℝ := -Real.log (L r.toNat l.toNat)

/-- Probability that one more pair of the block is linked, given the `r` pairs seen, `l` of them linked. -/
noncomputable def predict (L : ℕ → ℕ → ℝ) (r l : Int) : ℝ := L (r.toNat + 1) (l.toNat + 1) / L r.toNat l.toNat

/-! ## Closed forms -/

/-- A family with the recurrence of a predictive distribution is fixed by its diagonal. -/
theorem fixed_by_diagonal {Z W : ℕ → ℕ → ℝ} (h0 : ∀ l, Z l l = W l l)
    (hZ : ∀ r l, l ≤ r → Z r l = Z (r + 1) l + Z (r + 1) (l + 1))
    (hW : ∀ r l, l ≤ r → W r l = W (r + 1) l + W (r + 1) (l + 1)) :
    ∀ k l, Z (l + k) l = W (l + k) l := by
  intro k
  induction k with
  | zero => exact h0
  | succ k ih =>
    intro l
    have e1 := hZ (l + k) l (by omega)
    have e2 := hW (l + k) l (by omega)
    have e3 := ih (l + 1)
    have e4 := ih l
    rw [show l + 1 + k = l + k + 1 by ring] at e3
    rw [show l + (k + 1) = l + k + 1 by ring]
    linarith

theorem like1_diag (l : ℕ) : like1 l l = 1 / ((l : ℝ) + 1) := by
  unfold like1
  simp [integral_pow]

theorem like1_rec (r l : ℕ) (h : l ≤ r) : like1 r l = like1 (r + 1) l + like1 (r + 1) (l + 1) := by
  unfold like1
  rw [← intervalIntegral.integral_add (Continuous.intervalIntegrable (by fun_prop) _ _)
    (Continuous.intervalIntegrable (by fun_prop) _ _)]
  congr 1
  funext x
  rw [show r + 1 - l = (r - l) + 1 by omega, show r + 1 - (l + 1) = r - l by omega]
  ring

theorem inner_continuous (r l : ℕ) :
    Continuous fun x : ℝ => ∫ y in (0 : ℝ)..1, (x * y) ^ l * (1 - x * y) ^ (r - l) := by
  apply intervalIntegral.continuous_parametric_intervalIntegral_of_continuous'
  fun_prop

theorem likeAnd_rec (r l : ℕ) (h : l ≤ r) : likeAnd r l = likeAnd (r + 1) l + likeAnd (r + 1) (l + 1) := by
  unfold likeAnd
  rw [← intervalIntegral.integral_add ((inner_continuous _ _).intervalIntegrable _ _)
    ((inner_continuous _ _).intervalIntegrable _ _)]
  congr 1
  funext x
  rw [← intervalIntegral.integral_add (Continuous.intervalIntegrable (by fun_prop) _ _)
    (Continuous.intervalIntegrable (by fun_prop) _ _)]
  congr 1
  funext y
  rw [show r + 1 - l = (r - l) + 1 by omega, show r + 1 - (l + 1) = r - l by omega]
  ring

theorem likeAnd_diag (l : ℕ) : likeAnd l l = 1 / ((l : ℝ) + 1) * (1 / ((l : ℝ) + 1)) := by
  unfold likeAnd
  have e : ∀ x : ℝ, (∫ y in (0 : ℝ)..1, (x * y) ^ l * (1 - x * y) ^ (l - l)) = x ^ l * (1 / ((l : ℝ) + 1)) := by
    intro x
    simp only [Nat.sub_self, pow_zero, mul_one, mul_pow]
    rw [intervalIntegral.integral_const_mul]
    simp [integral_pow]
  simp only [e]
  rw [intervalIntegral.integral_mul_const]
  simp [integral_pow]

theorem likeOr_swap {r l : ℕ} (h : l ≤ r) : likeOr r l = likeAnd r (r - l) := by
  unfold likeOr likeAnd
  rw [show r - (r - l) = l by omega]
  have e : ∀ x : ℝ, (∫ y in (0 : ℝ)..1, (1 - (1 - x) * (1 - y)) ^ l * ((1 - x) * (1 - y)) ^ (r - l)) =
      ∫ y in (0 : ℝ)..1, ((1 - x) * y) ^ (r - l) * (1 - (1 - x) * y) ^ l := by
    intro x
    have := intervalIntegral.integral_comp_sub_left (a := 0) (b := 1)
      (fun y : ℝ => ((1 - x) * y) ^ (r - l) * (1 - (1 - x) * y) ^ l) 1
    simp only [sub_self, sub_zero] at this
    rw [← this]
    congr 1
    funext y
    ring
  simp only [e]
  have := intervalIntegral.integral_comp_sub_left (a := 0) (b := 1)
    (fun x : ℝ => ∫ y in (0 : ℝ)..1, (x * y) ^ (r - l) * (1 - x * y) ^ l) 1
  simp only [sub_self, sub_zero] at this
  rw [this]

theorem choose_up (r l : ℕ) : (((r + 1).choose (l + 1) : ℕ) : ℝ) * ((l : ℝ) + 1) = ((r : ℝ) + 1) * (r.choose l : ℕ) := by
  have := Nat.add_one_mul_choose_eq r l
  exact_mod_cast this.symm

theorem choose_side (r l : ℕ) (h : l ≤ r) :
    (((r + 1).choose l : ℕ) : ℝ) * ((r : ℝ) + 1 - l) = ((r : ℝ) + 1) * (r.choose l : ℕ) := by
  have := Nat.choose_mul_succ_eq r l
  have e : ((r + 1 - l : ℕ) : ℝ) = (r : ℝ) + 1 - l := by
    rw [Nat.cast_sub (by omega)]; push_cast; ring
  rw [← e, mul_comm ((r : ℝ) + 1)]
  exact_mod_cast this.symm

theorem choose_ne (r l : ℕ) (h : l ≤ r) : ((r.choose l : ℕ) : ℝ) ≠ 0 := by
  exact_mod_cast (Nat.choose_pos h).ne'

/-- Closed form of the one-layer model. -/
theorem like1_eq {r l : ℕ} (h : l ≤ r) : like1 r l = 1 / (((r : ℝ) + 1) * (r.choose l : ℕ)) := by
  obtain ⟨k, rfl⟩ := Nat.exists_eq_add_of_le h
  refine fixed_by_diagonal (W := fun r l => 1 / (((r : ℝ) + 1) * (r.choose l : ℕ))) ?_ like1_rec ?_ k l
  · intro l; rw [like1_diag]; simp
  · intro r l h
    have c := choose_ne r l h
    have a := choose_up r l
    have b := choose_side r l h
    have hl : (0 : ℝ) < (l : ℝ) + 1 := by positivity
    have hr : (0 : ℝ) < (r : ℝ) + 1 := by positivity
    have hd : (0 : ℝ) < (r : ℝ) + 1 - l := by
      have : (l : ℝ) ≤ r := by exact_mod_cast h
      linarith
    have e1 : (((r + 1).choose (l + 1) : ℕ) : ℝ) = ((r : ℝ) + 1) * (r.choose l : ℕ) / ((l : ℝ) + 1) := by
      rw [← a]; field_simp
    have e2 : (((r + 1).choose l : ℕ) : ℝ) = ((r : ℝ) + 1) * (r.choose l : ℕ) / ((r : ℝ) + 1 - l) := by
      rw [← b]; field_simp
    rw [e1, e2]
    push_cast
    field_simp
    ring

/-- Closed form of the AND model. -/
theorem likeAnd_eq {r l : ℕ} (h : l ≤ r) :
    likeAnd r l = ((harm (r + 1) : ℝ) - harm l) / (((r : ℝ) + 1) * (r.choose l : ℕ)) := by
  obtain ⟨k, rfl⟩ := Nat.exists_eq_add_of_le h
  refine fixed_by_diagonal (W := fun r l => ((harm (r + 1) : ℝ) - harm l) / (((r : ℝ) + 1) * (r.choose l : ℕ))) ?_
    likeAnd_rec ?_ k l
  · intro l
    rw [likeAnd_diag]
    simp only [harm_succ]
    push_cast
    simp [div_eq_mul_inv]
  · intro r l h
    have c := choose_ne r l h
    have a := choose_up r l
    have b := choose_side r l h
    have hl : (0 : ℝ) < (l : ℝ) + 1 := by positivity
    have hr : (0 : ℝ) < (r : ℝ) + 1 := by positivity
    have hr2 : (0 : ℝ) < (r : ℝ) + 2 := by positivity
    have hd : (0 : ℝ) < (r : ℝ) + 1 - l := by
      have : (l : ℝ) ≤ r := by exact_mod_cast h
      linarith
    have e1 : (((r + 1).choose (l + 1) : ℕ) : ℝ) = ((r : ℝ) + 1) * (r.choose l : ℕ) / ((l : ℝ) + 1) := by
      rw [← a]; field_simp
    have e2 : (((r + 1).choose l : ℕ) : ℝ) = ((r : ℝ) + 1) * (r.choose l : ℕ) / ((r : ℝ) + 1 - l) := by
      rw [← b]; field_simp
    rw [e1, e2, harm_succ (r + 1), harm_succ l]
    push_cast
    rw [show (r : ℝ) + 1 + 1 = r + 2 by ring]
    field_simp
    ring

theorem likeAnd_pos {r l : ℕ} (h : l ≤ r) : 0 < likeAnd r l := by
  rw [likeAnd_eq h]
  have := harm_lt (show l < r + 1 by omega)
  have h1 : (0 : ℝ) < (harm (r + 1) : ℝ) - harm l := by
    have : (harm l : ℝ) < harm (r + 1) := by exact_mod_cast this
    linarith
  have h2 : (0 : ℝ) < (r.choose l : ℕ) := by exact_mod_cast Nat.choose_pos h
  positivity

theorem like1_pos {r l : ℕ} (h : l ≤ r) : 0 < like1 r l := by
  rw [like1_eq h]
  have h2 : (0 : ℝ) < (r.choose l : ℕ) := by exact_mod_cast Nat.choose_pos h
  positivity

/-! ## The code computes them -/

theorem exp_odF {r l : ℕ} (h : l ≤ r) : Real.exp (-odF r l) = like1 r l := by
  rw [like1_eq h]
  unfold odF
  have h2 : (0 : ℝ) < (r.choose l : ℕ) := by exact_mod_cast Nat.choose_pos h
  have h1 : (0 : ℝ) < (r : ℝ) + 1 := by positivity
  rw [Int.toNat_natCast, Int.toNat_natCast, Real.exp_neg, Real.exp_add, Int.cast_natCast, Real.exp_log h1,
    Real.exp_log h2, one_div]

theorem exp_andF {r l : ℕ} (h : l ≤ r) : Real.exp (-andF r l) = likeAnd r l := by
  rw [likeAnd_eq h]
  unfold andF
  have h1 : (0 : ℝ) < (harm (r + 1) : ℝ) - harm l := by
    have := harm_lt (show l < r + 1 by omega)
    have : (harm l : ℝ) < harm (r + 1) := by exact_mod_cast this
    linarith
  have e : ((r : Int) + 1).toNat = r + 1 := by omega
  rw [e, Int.toNat_natCast, neg_sub, Real.exp_sub, Real.exp_log h1, div_eq_mul_inv, ← Real.exp_neg, exp_odF h,
    like1_eq h, one_div, ← div_eq_mul_inv]

theorem orF_eq {r l : ℕ} (h : l ≤ r) : orF r l = andF r ((r - l : ℕ) : Int) := by
  unfold orF andF odF
  have e : ((r : Int) - l).toNat = r - l := by omega
  rw [e, Int.toNat_natCast, Int.toNat_natCast, Int.toNat_natCast, Nat.choose_symm h]

theorem exp_orF {r l : ℕ} (h : l ≤ r) : Real.exp (-orF r l) = likeOr r l := by
  rw [orF_eq h, exp_andF (by omega), likeOr_swap h]

theorem andS_eq {r l : ℕ} (h : l ≤ r) : andS r l = likeAnd (r + 1) (l + 1) / likeAnd r l := by
  rw [likeAnd_eq h, likeAnd_eq (by omega)]
  unfold andS
  have e : ((r : Int) + 1).toNat = r + 1 := by omega
  have e2 : ((r : Int) + 2).toNat = r + 2 := by omega
  have e3 : ((l : Int) + 1).toNat = l + 1 := by omega
  rw [e, e2, e3, Int.toNat_natCast]
  have c := choose_ne r l h
  have a := choose_up r l
  have hl : (0 : ℝ) < (l : ℝ) + 1 := by positivity
  have e1 : (((r + 1).choose (l + 1) : ℕ) : ℝ) = ((r : ℝ) + 1) * (r.choose l : ℕ) / ((l : ℝ) + 1) := by
    rw [← a]; field_simp
  have h1 : ((harm (r + 1) : ℝ) - harm l) ≠ 0 := by
    have := harm_lt (show l < r + 1 by omega)
    have : (harm l : ℝ) < harm (r + 1) := by exact_mod_cast this
    exact ne_of_gt (by linarith)
  have hr : (0 : ℝ) < (r : ℝ) + 1 := by positivity
  have hr2 : (0 : ℝ) < (r : ℝ) + 2 := by positivity
  rw [e1]
  push_cast
  rw [show (r : ℝ) + 1 + 1 = r + 2 by ring]
  field_simp

theorem odS_eq {r l : ℕ} (h : l ≤ r) : odS r l = like1 (r + 1) (l + 1) / like1 r l := by
  rw [like1_eq h, like1_eq (by omega)]
  unfold odS
  have c := choose_ne r l h
  have a := choose_up r l
  have hl : (0 : ℝ) < (l : ℝ) + 1 := by positivity
  have e1 : (((r + 1).choose (l + 1) : ℕ) : ℝ) = ((r : ℝ) + 1) * (r.choose l : ℕ) / ((l : ℝ) + 1) := by
    rw [← a]; field_simp
  have hr : (0 : ℝ) < (r : ℝ) + 1 := by positivity
  have hr2 : (0 : ℝ) < (r : ℝ) + 2 := by positivity
  rw [e1]
  push_cast
  rw [show (r : ℝ) + 1 + 1 = r + 2 by ring]
  field_simp

theorem likeOr_rec {r l : ℕ} (h : l ≤ r) : likeOr r l = likeOr (r + 1) l + likeOr (r + 1) (l + 1) := by
  rw [likeOr_swap h, likeOr_swap (by omega), likeOr_swap (by omega), likeAnd_rec _ _ (by omega),
    show r + 1 - (l + 1) = r - l by omega, show r + 1 - l = r - l + 1 by omega]
  ring

theorem orS_eq {r l : ℕ} (h : l ≤ r) : orS r l = likeOr (r + 1) l / likeOr r l := by
  unfold orS
  have e : (r : Int) - l = ((r - l : ℕ) : Int) := by omega
  rw [e, andS_eq (by omega), likeOr_swap h, likeOr_swap (by omega), show r + 1 - l = r - l + 1 by omega]

/-! ## The kernels in terms of the specification -/

theorem cost_and {r l : Int} (h0 : 0 ≤ l) (h1 : l ≤ r) : andF r l = cost likeAnd r l := by
  obtain ⟨a, rfl⟩ := Int.eq_ofNat_of_zero_le h0
  obtain ⟨b, rfl⟩ := Int.eq_ofNat_of_zero_le (h0.trans h1)
  unfold cost
  rw [Int.toNat_natCast, Int.toNat_natCast, ← exp_andF (by omega), Real.log_exp, neg_neg]

theorem cost_or {r l : Int} (h0 : 0 ≤ l) (h1 : l ≤ r) : orF r l = cost likeOr r l := by
  obtain ⟨a, rfl⟩ := Int.eq_ofNat_of_zero_le h0
  obtain ⟨b, rfl⟩ := Int.eq_ofNat_of_zero_le (h0.trans h1)
  unfold cost
  rw [Int.toNat_natCast, Int.toNat_natCast, ← exp_orF (by omega), Real.log_exp, neg_neg]

theorem cost_one {r l : Int} (h0 : 0 ≤ l) (h1 : l ≤ r) : odF r l = cost like1 r l := by
  obtain ⟨a, rfl⟩ := Int.eq_ofNat_of_zero_le h0
  obtain ⟨b, rfl⟩ := Int.eq_ofNat_of_zero_le (h0.trans h1)
  unfold cost
  rw [Int.toNat_natCast, Int.toNat_natCast, ← exp_odF (by omega), Real.log_exp, neg_neg]

theorem predict_and {r l : Int} (h0 : 0 ≤ l) (h1 : l ≤ r) : andS r l = predict likeAnd r l := by
  obtain ⟨a, rfl⟩ := Int.eq_ofNat_of_zero_le h0
  obtain ⟨b, rfl⟩ := Int.eq_ofNat_of_zero_le (h0.trans h1)
  unfold predict
  rw [Int.toNat_natCast, Int.toNat_natCast, andS_eq (by omega)]

theorem likeOr_pos {r l : ℕ} (h : l ≤ r) : 0 < likeOr r l := by
  rw [likeOr_swap h]; exact likeAnd_pos (by omega)

theorem predict_or {r l : Int} (h0 : 0 ≤ l) (h1 : l ≤ r) : orS r l = 1 - predict likeOr r l := by
  obtain ⟨a, rfl⟩ := Int.eq_ofNat_of_zero_le h0
  obtain ⟨b, rfl⟩ := Int.eq_ofNat_of_zero_le (h0.trans h1)
  unfold predict
  rw [Int.toNat_natCast, Int.toNat_natCast, orS_eq (by omega), eq_sub_iff_add_eq, ← add_div,
    ← likeOr_rec (by omega), div_self (likeOr_pos (by omega)).ne']

theorem predict_one {r l : Int} (h0 : 0 ≤ l) (h1 : l ≤ r) : odS r l = predict like1 r l := by
  obtain ⟨a, rfl⟩ := Int.eq_ofNat_of_zero_le h0
  obtain ⟨b, rfl⟩ := Int.eq_ofNat_of_zero_le (h0.trans h1)
  unfold predict
  rw [Int.toNat_natCast, Int.toNat_natCast, odS_eq (by omega)]

theorem and_computes' {n size : ℕ} (h : LongE n size) :
    Computes (AND (InitializeHarmonicList size)) n (cost likeAnd) logDeg where
  term := fun r l h0 h1 h2 => by rw [(and_computes h).term r l h0 h1 h2, cost_and h0 h1]
  zero := by rw [← cost_and le_rfl le_rfl, andF_zero]
  deg := (and_computes h).deg

theorem or_computes' {n size : ℕ} (h : LongE n size) :
    Computes (OR (InitializeHarmonicList size)) n (cost likeOr) logDeg where
  term := fun r l h0 h1 h2 => by rw [(or_computes h).term r l h0 h1 h2, cost_or h0 h1]
  zero := by rw [← cost_or le_rfl le_rfl, orF_zero]
  deg := (or_computes h).deg

theorem od_computes' (n : ℕ) : Computes OD n (cost like1) logDeg where
  term := fun r l h0 h1 h2 => by rw [(od_computes n).term r l h0 h1 h2, cost_one h0 h1]
  zero := by rw [← cost_one le_rfl le_rfl, odF_zero]
  deg := (od_computes n).deg

theorem and_scores' {n size : ℕ} (h : LongS n size) : Scores (AND (InitializeHarmonicList size)) n (predict likeAnd) where
  score := fun r l h0 h1 h2 => by rw [(and_scores h).score r l h0 h1 h2, predict_and h0 h1]
  bounds := fun r l h0 h1 => by rw [← predict_and h0 h1]; exact andS_bounds h0 h1

theorem or_scores' {n size : ℕ} (h : LongS n size) :
    Scores (OR (InitializeHarmonicList size)) n (fun r l => 1 - predict likeOr r l) where
  score := fun r l h0 h1 h2 => by rw [(or_scores h).score r l h0 h1 h2, predict_or h0 h1]
  bounds := fun r l h0 h1 => by
    rw [← predict_or h0 h1]
    exact andS_bounds (by omega) (by omega)

theorem od_scores' (n : ℕ) : Scores OD n (predict like1) where
  score := fun r l h0 h1 h2 => by rw [(od_scores n).score r l h0 h1 h2, predict_one h0 h1]
  bounds := fun r l h0 h1 => by rw [← predict_one h0 h1]; exact (od_scores n).bounds r l h0 h1

end BK
