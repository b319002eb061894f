import Verif.Basic.Sweep

/-!
# Averages over the samples of a random process

`P f x` is the mean of `f` after a step from `x`, as in `Verif.Basic.Sweep`. The mean of a function of several samples in a
row is defined step by step (`run`). If the process forgets its start geometrically, the mean square of the error of an
average over `m` samples is at most a constant over `m`, whatever the start.
-/

namespace MH

open Finset

variable {Ω : Type*}

/-! ## Specification -/

/-- `P f x` is a mean of values of `f`: linear, monotone, and the mean of 1 is 1. -/
structure Expect (P : (Ω → ℝ) → Ω → ℝ) : Prop where
  add : ∀ f g x, P (fun y => f y + g y) x = P f x + P g x
  mul : ∀ a f x, P (fun y => a * f y) x = a * P f x
  le : ∀ f g, (∀ y, f y ≤ g y) → ∀ x, P f x ≤ P g x
  one : ∀ x, P (fun _ => 1) x = 1

/-- Mean of a function `g` of the next `m` states of the process, started from `x`. -/
def run (P : (Ω → ℝ) → Ω → ℝ) : ℕ → (List Ω → ℝ) → Ω → ℝ
  | 0, g, _ => g []
  | m + 1, g, x => P (fun y => run P m (fun l => g (y :: l)) y) x

/-- Average of `f` over the samples. -/
noncomputable def average (f : Ω → ℝ) (l : List Ω) : ℝ := (l.map f).sum / l.length

/-- 1 if the average of the samples is wrong by `δ` or more, otherwise 0. -/
noncomputable def wrong (f : Ω → ℝ) (y δ : ℝ) (l : List Ω) : ℝ := if δ ≤ |average f l - y| then 1 else 0

/-! ## Processes -/

theorem Expect.const {P : (Ω → ℝ) → Ω → ℝ} (h : Expect P) (a : ℝ) (x : Ω) : P (fun _ => a) x = a := by
  have := h.mul a (fun _ => 1) x
  simpa [h.one] using this

theorem Expect.sub {P : (Ω → ℝ) → Ω → ℝ} (h : Expect P) (f : Ω → ℝ) (a : ℝ) (x : Ω) : P (fun y => f y - a) x = P f x - a := by
  have := h.add f (fun _ => -a) x
  rw [h.const] at this
  simpa [sub_eq_add_neg] using this

theorem Expect.comp {P Q : (Ω → ℝ) → Ω → ℝ} (hP : Expect P) (hQ : Expect Q) : Expect fun f => P (Q f) where
  add f g x := by
    rw [show Q (fun y => f y + g y) = fun y => Q f y + Q g y from funext fun y => hQ.add f g y, hP.add]
  mul a f x := by
    rw [show Q (fun y => a * f y) = fun y => a * Q f y from funext fun y => hQ.mul a f y, hP.mul]
  le f g h x := hP.le _ _ (fun y => hQ.le f g h y) x
  one x := by
    rw [show Q (fun _ => 1) = fun _ => 1 from funext fun y => hQ.one y, hP.one]

theorem Expect.iterate {P : (Ω → ℝ) → Ω → ℝ} (hP : Expect P) : ∀ k : ℕ, Expect (P^[k])
  | 0 => ⟨fun _ _ _ => rfl, fun _ _ _ => rfl, fun _ _ h x => h x, fun _ => rfl⟩
  | k + 1 => by
    rw [show P^[k + 1] = fun f => P (P^[k] f) from funext fun f => Function.iterate_succ_apply' P k f]
    exact hP.comp (hP.iterate k)

theorem Expect.next [Fintype Ω] {k : Ω → Ω → ℝ} (h0 : ∀ x y, 0 ≤ k x y) (h1 : ∀ x, ∑ y, k x y = 1) : Expect (next k) where
  add f g x := by simp only [MH.next, mul_add, sum_add_distrib]
  mul a f x := by simp only [MH.next, mul_sum, mul_left_comm]
  le f g h x := sum_le_sum fun y _ => mul_le_mul_of_nonneg_left (h y) (h0 x y)
  one x := by simp only [MH.next, mul_one, h1]

section
variable {ι : Type*} [DecidableEq ι] {α : ι → Type*} [∀ i, Fintype (α i)] [∀ i, Nonempty (α i)]

theorem Expect.avg (E : (∀ i, α i) → ℝ) (i : ι) : Expect (avg E i) where
  add f g x := by simp only [MH.avg, mul_add, sum_add_distrib, add_div]
  mul a f x := by
    simp only [MH.avg]
    rw [← mul_div_assoc, mul_sum]
    simp only [mul_left_comm]
  le f g h x := by
    unfold MH.avg
    exact div_le_div_of_nonneg_right (sum_le_sum fun a _ => mul_le_mul_of_nonneg_left (h _) (Real.exp_pos _).le) (avg_pos E i x).le
  one x := by
    simp only [MH.avg, mul_one]
    exact div_self (avg_pos E i x).ne'

theorem Expect.sweep (E : (∀ i, α i) → ℝ) : ∀ is : List ι, Expect (sweep E is)
  | [] => ⟨fun _ _ _ => rfl, fun _ _ _ => rfl, fun _ _ h x => h x, fun _ => rfl⟩
  | i :: is => (Expect.avg E i).comp (Expect.sweep E is)

end

/-! ## Several samples -/

section
variable {P : (Ω → ℝ) → Ω → ℝ} (hP : Expect P)
include hP

theorem run_add : ∀ (m : ℕ) (g g' : List Ω → ℝ) (x : Ω), run P m (fun l => g l + g' l) x = run P m g x + run P m g' x
  | 0, _, _, _ => rfl
  | m + 1, g, g', x => by
    simp only [run]
    rw [← hP.add]
    congr 1
    funext y
    exact run_add m _ _ y

theorem run_mul : ∀ (m : ℕ) (a : ℝ) (g : List Ω → ℝ) (x : Ω), run P m (fun l => a * g l) x = a * run P m g x
  | 0, _, _, _ => rfl
  | m + 1, a, g, x => by
    simp only [run]
    rw [← hP.mul]
    congr 1
    funext y
    exact run_mul m a _ y

theorem run_const : ∀ (m : ℕ) (a : ℝ) (x : Ω), run P m (fun _ => a) x = a
  | 0, _, _ => rfl
  | m + 1, a, x => by
    simp only [run]
    rw [show (fun y => run P m (fun _ => a) y) = fun _ => a from funext fun y => run_const m a y]
    exact hP.const a x

theorem run_le : ∀ (m : ℕ) (g g' : List Ω → ℝ), (∀ l, l.length = m → g l ≤ g' l) → ∀ x, run P m g x ≤ run P m g' x
  | 0, _, _, h, _ => h [] rfl
  | m + 1, _, _, h, x => hP.le _ _ (fun y => run_le m _ _ (fun l hl => h (y :: l) (by simp [hl])) y) x

/-- Mean of the sum of samples. -/
theorem run_sum (f : Ω → ℝ) : ∀ (m : ℕ) (x : Ω), run P m (fun l => (l.map f).sum) x = ∑ k ∈ range m, (P^[k + 1] f) x
  | 0, _ => by simp [run]
  | m + 1, x => by
    simp only [run, List.map_cons, List.sum_cons]
    have e : (fun y => run P m (fun l => f y + (l.map f).sum) y) = fun y => f y + ∑ k ∈ range m, (P^[k + 1] f) y := by
      funext y
      rw [run_add hP m (fun _ => f y), run_const hP, run_sum f m y]
    rw [e, hP.add, sum_range_succ', add_comm]
    congr 1
    have lin : ∀ (j : ℕ), P (fun y => ∑ k ∈ range j, (P^[k + 1] f) y) x = ∑ k ∈ range j, (P^[k + 1 + 1] f) x := by
      intro j
      induction j with
      | zero => simp [hP.const]
      | succ j ih =>
        simp only [sum_range_succ]
        rw [hP.add, ih, Function.iterate_succ_apply' P (j + 1) f]
    exact lin m

/-- Mean square of the sum of samples of a function whose means are small later on. -/
theorem run_square {h : Ω → ℝ} (h1 : ∀ x, |h x| ≤ 1) {B : ℝ} (hB : ∀ m x, |∑ k ∈ range m, (P^[k + 1] h) x| ≤ B) :
    ∀ (m : ℕ) (x : Ω), run P m (fun l => (l.map h).sum ^ 2) x ≤ m * (1 + 2 * B)
  | 0, _ => by simp [run]
  | m + 1, x => by
    simp only [run, List.map_cons, List.sum_cons]
    have hle : ∀ y, run P m (fun l => (h y + (l.map h).sum) ^ 2) y ≤ ((m + 1 : ℕ) : ℝ) * (1 + 2 * B) := by
      intro y
      have e : (fun l : List Ω => (h y + (l.map h).sum) ^ 2) =
          fun l => h y ^ 2 + (2 * h y * (l.map h).sum + (l.map h).sum ^ 2) := by
        funext l
        ring
      rw [e, run_add hP m (fun _ => h y ^ 2), run_const hP, run_add hP m (fun l => 2 * h y * (l.map h).sum), run_mul hP, run_sum hP]
      have a1 := run_square h1 hB m y
      have a2 : h y ^ 2 ≤ 1 := by
        rw [← sq_abs]
        exact pow_le_one₀ (abs_nonneg _) (h1 y)
      have a3 : h y * ∑ k ∈ range m, (P^[k + 1] h) y ≤ B := by
        refine (le_abs_self _).trans ?_
        rw [abs_mul]
        exact (mul_le_of_le_one_left (abs_nonneg _) (h1 y)).trans (hB m y)
      push_cast
      nlinarith
    exact (hP.le _ _ hle x).trans_eq (hP.const _ x)

end

/-! ## Geometric loss of memory -/

theorem sum_geometric {c : ℝ} (h0 : 0 ≤ c) (h1 : c < 1) {N : ℕ} (hN : 0 < N) (m : ℕ) : ∑ k ∈ range m, c ^ (k / N) ≤ N / (1 - c) := by
  have hc : 0 < 1 - c := by linarith
  have key : ∀ j, ∑ k ∈ range (N * j), c ^ (k / N) = N * (1 - c ^ j) / (1 - c) := by
    intro j
    induction j with
    | zero => simp
    | succ j ih =>
      have e : ∀ i ∈ range N, c ^ ((N * j + i) / N) = c ^ j := by
        intro i hi
        rw [Nat.mul_add_div hN, Nat.div_eq_of_lt (mem_range.1 hi), add_zero]
      rw [Nat.mul_succ, sum_range_add, ih, sum_congr rfl e, sum_const, card_range, nsmul_eq_mul]
      field_simp
      ring
  have hsub : ∑ k ∈ range m, c ^ (k / N) ≤ ∑ k ∈ range (N * m), c ^ (k / N) :=
    sum_le_sum_of_subset_of_nonneg (range_subset_range.2 (Nat.le_mul_of_pos_left m hN)) fun _ _ _ => pow_nonneg h0 _
  refine hsub.trans ?_
  rw [key, div_le_div_iff_of_pos_right hc]
  have : (0 : ℝ) ≤ N := Nat.cast_nonneg N
  nlinarith [pow_nonneg h0 m]

/-- If the process forgets its start geometrically, averages over `m` samples, taken every `s` steps after any number `w` of
steps, have a mean square error of at most a constant over `m`, and are wrong by `δ` or more with at most that over `δ²` as
probability. -/
theorem average_error {P : (Ω → ℝ) → Ω → ℝ} (hP : Expect P) {c : ℝ} (h0 : 0 ≤ c) (h1 : c < 1) {N : ℕ} (hN : 0 < N)
    {f : Ω → ℝ} (f0 : ∀ x, 0 ≤ f x) (f1 : ∀ x, f x ≤ 1) {y : ℝ} (hy : 0 ≤ y ∧ y ≤ 1) (hf : ∀ k x, |(P^[k] f) x - y| ≤ c ^ (k / N))
    {s : ℕ} (hs : 0 < s) (w : ℕ) {m : ℕ} (hm : 0 < m) (x : Ω) :
    (P^[w] (run (P^[s]) m fun l => (average f l - y) ^ 2)) x ≤ (1 + 2 * (N / (1 - c))) / m ∧
    ∀ δ, 0 < δ → (P^[w] (run (P^[s]) m (wrong f y δ))) x ≤ (1 + 2 * (N / (1 - c))) / (m * δ ^ 2) := by
  have hQ := hP.iterate s
  have hW := hP.iterate w
  have hm' : (0 : ℝ) < m := by exact_mod_cast hm
  have hit : ∀ k x, ((P^[s])^[k] fun x => f x - y) x = (P^[s * k] f) x - y := by
    intro k x
    rw [← Function.iterate_mul]
    exact (hP.iterate (s * k)).sub f y x
  have hB : ∀ m x, |∑ k ∈ range m, ((P^[s])^[k + 1] fun x => f x - y) x| ≤ N / (1 - c) := by
    intro m x
    refine (abs_sum_le_sum_abs _ _).trans (le_trans (sum_le_sum fun k _ => ?_) (sum_geometric h0 h1 hN m))
    rw [hit]
    refine (hf _ x).trans (pow_le_pow_of_le_one h0 h1.le (Nat.div_le_div_right ?_))
    nlinarith
  have hsq := run_square hQ (h := fun x => f x - y) (fun x => by
    rw [abs_le]
    exact ⟨by linarith [f0 x, hy.2], by linarith [f1 x, hy.1]⟩) hB m
  have hsum : ∀ l : List Ω, (l.map fun x => f x - y).sum = (l.map f).sum - l.length * y := by
    intro l
    induction l with
    | nil => simp
    | cons a l ih =>
      simp only [List.map_cons, List.sum_cons, List.length_cons, ih]
      push_cast
      ring
  have hmse : ∀ x, run (P^[s]) m (fun l => (average f l - y) ^ 2) x ≤ (1 + 2 * (N / (1 - c))) / m := by
    intro x
    have e : run (P^[s]) m (fun l => (average f l - y) ^ 2) x ≤
        run (P^[s]) m (fun l => (1 / (m : ℝ) ^ 2) * (l.map fun x => f x - y).sum ^ 2) x := by
      refine run_le hQ m _ _ (fun l hl => le_of_eq ?_) x
      rw [hsum, hl]
      unfold average
      rw [hl]
      field_simp
    refine e.trans ?_
    rw [run_mul hQ]
    refine (mul_le_mul_of_nonneg_left (hsq x) (by positivity)).trans_eq ?_
    field_simp
  refine ⟨(hW.le _ _ hmse x).trans_eq (hW.const _ x), fun δ hδ => ?_⟩
  have hch : ∀ x, run (P^[s]) m (wrong f y δ) x ≤ (1 + 2 * (N / (1 - c))) / (m * δ ^ 2) := by
    intro x
    have e : run (P^[s]) m (wrong f y δ) x ≤ run (P^[s]) m (fun l => (1 / δ ^ 2) * (average f l - y) ^ 2) x := by
      refine run_le hQ m _ _ (fun l _ => ?_) x
      unfold wrong
      split_ifs with hd
      · rw [one_div, ← div_eq_inv_mul, le_div_iff₀ (by positivity), one_mul, ← sq_abs (average f l - y)]
        exact pow_le_pow_left₀ hδ.le hd 2
      · positivity
    refine e.trans ?_
    rw [run_mul hQ]
    refine (mul_le_mul_of_nonneg_left (hmse x) (by positivity)).trans_eq ?_
    field_simp
  exact (hW.le _ _ hch x).trans_eq (hW.const _ x)

/-- A process on states with more detail (`Ω'`, e.g. a division with its list of groups) whose means of functions that do
not see the detail (nor tell apart states related by `R`, e.g. labellings of the same groups) are those of `P` has the same
means of such functions of several samples. -/
theorem run_project {Ω' : Type*} (π : Ω' → Ω) {R : Ω → Ω → Prop} (hR : ∀ x, R x x) {Q : (Ω' → ℝ) → Ω' → ℝ} {P : (Ω → ℝ) → Ω → ℝ}
    (hQ : ∀ f, (∀ x y, R x y → f x = f y) → ∀ z, Q (fun z => f (π z)) z = P f (π z))
    (hP : ∀ f, (∀ x y, R x y → f x = f y) → ∀ x y, R x y → P f x = P f y) :
    ∀ (m : ℕ) (g : List Ω → ℝ), (∀ l l', List.Forall₂ R l l' → g l = g l') →
      (∀ z, run Q m (fun l => g (l.map π)) z = run P m g (π z)) ∧ ∀ x y, R x y → run P m g x = run P m g y
  | 0, _, _ => ⟨fun _ => rfl, fun _ _ _ => rfl⟩
  | m + 1, g, hg => by
    have hl : ∀ l : List Ω, List.Forall₂ R l l := fun l => by
      induction l with
      | nil => exact List.Forall₂.nil
      | cons a l ih => exact List.Forall₂.cons (hR a) ih
    have ih := fun y => run_project π hR hQ hP m (fun l => g (y :: l)) fun l l' h => hg _ _ (List.Forall₂.cons (hR y) h)
    have hinv : ∀ x y, R x y → run P m (fun l => g (x :: l)) x = run P m (fun l => g (y :: l)) y := by
      intro x y hxy
      rw [show (fun l => g (x :: l)) = fun l => g (y :: l) from funext fun l => hg _ _ (List.Forall₂.cons hxy (hl l))]
      exact (ih y).2 x y hxy
    constructor
    · intro z
      simp only [run, List.map_cons]
      rw [← hQ (fun y => run P m (fun l => g (y :: l)) y) hinv z]
      congr 1
      funext z
      exact (ih (π z)).1 z
    · intro x y hxy
      simp only [run]
      exact hP _ hinv x y hxy

/-- A fair coin: the average of `m` throws is wrong by `δ` or more with probability at most `3 / (m δ²)`. -/
example {m : ℕ} (hm : 0 < m) {δ : ℝ} (hδ : 0 < δ) (b : Bool) :
    run (next fun _ _ : Bool => 1 / 2) m (wrong (fun b => if b then 1 else 0) (1 / 2) δ) b ≤ 3 / (m * δ ^ 2) := by
  have hP : Expect (next fun _ _ : Bool => (1 / 2 : ℝ)) := Expect.next (by norm_num) (by norm_num)
  have := (average_error hP (c := 0) le_rfl one_pos (N := 1) one_pos (f := fun b => if b then 1 else 0)
    (fun b => by split_ifs <;> norm_num) (fun b => by split_ifs <;> norm_num) (y := 1 / 2) (by norm_num) (fun k b => by
      cases k with
      | zero => cases b <;> norm_num
      | succ k =>
        have e : (next fun _ _ : Bool => (1 / 2 : ℝ)) (fun b => if b then 1 else 0) = fun _ => 1 / 2 := by
          funext b
          simp [next]
        rw [Function.iterate_succ_apply, e, (hP.iterate k).const]
        simp) (s := 1) one_pos 0 hm b).2 δ hδ
  norm_num at this ⊢
  exact this

end MH
