import Verif.Basic.HeatBath

/-!
# How fast samplers forget the start

A sampler is described by what it does to mean values: from a function `f` of the states it makes the function that
gives, for every state, the mean of `f` after the step. Nothing here refers to a program.
-/

namespace MH

open Finset

/-! ## Contraction -/

section contraction

variable {Ω : Type*} [Fintype Ω] [Nonempty Ω]

/-- A step that gives every state a probability of at least `e` brings all means together. `μ` is a mean value that the
step does not change. -/
theorem contract {Q : (Ω → ℝ) → Ω → ℝ} {μ : (Ω → ℝ) → ℝ} {e : ℝ} (h1 : e ≤ 1)
    (hlow : ∀ f m, (∀ x, m ≤ f x) → ∀ x y, m + e * (f y - m) ≤ Q f x) (hup : ∀ f M, (∀ x, f x ≤ M) → ∀ x, Q f x ≤ M)
    (hμ : ∀ f, μ (Q f) = μ f) (hm : ∀ f m M, (∀ x, m ≤ f x) → (∀ x, f x ≤ M) → m ≤ μ f ∧ μ f ≤ M) :
    ∀ (k : ℕ) (f : Ω → ℝ) (m M : ℝ), (∀ x, m ≤ f x) → (∀ x, f x ≤ M) → ∀ x, |(Q^[k] f) x - μ f| ≤ (1 - e) ^ k * (M - m)
  | 0, f, m, M, a, b, x => by
    obtain ⟨c, d⟩ := hm f m M a b
    rw [Function.iterate_zero_apply, pow_zero, one_mul, abs_le]
    constructor <;> linarith [a x, b x]
  | k + 1, f, m, M, a, b, x => by
    obtain ⟨lo, hlo⟩ := Finite.exists_min f
    obtain ⟨hi, hhi⟩ := Finite.exists_max f
    have := contract h1 hlow hup hμ hm k (Q f) (f lo + e * (f hi - f lo)) (f hi) (fun x => hlow f _ hlo x hi)
      (fun x => hup f _ hhi x) x
    rw [hμ] at this
    rw [Function.iterate_succ_apply]
    refine this.trans ?_
    have h2 : f hi - (f lo + e * (f hi - f lo)) = (1 - e) * (f hi - f lo) := by ring
    rw [h2, pow_succ, mul_assoc]
    refine mul_le_mul_of_nonneg_left ?_ (pow_nonneg (by linarith) k)
    exact mul_le_mul_of_nonneg_left (by linarith [a lo, b hi]) (by linarith)

/-- The same if only `N` steps together give every state its probability. -/
theorem contract_pow {P : (Ω → ℝ) → Ω → ℝ} {μ : (Ω → ℝ) → ℝ} {e : ℝ} (h1 : e ≤ 1) {N : ℕ}
    (hlow : ∀ f m, (∀ x, m ≤ f x) → ∀ x y, m + e * (f y - m) ≤ (P^[N] f) x)
    (hdn : ∀ f m, (∀ x, m ≤ f x) → ∀ x, m ≤ P f x) (hup : ∀ f M, (∀ x, f x ≤ M) → ∀ x, P f x ≤ M)
    (hμ : ∀ f, μ (P f) = μ f) (hm : ∀ f m M, (∀ x, m ≤ f x) → (∀ x, f x ≤ M) → m ≤ μ f ∧ μ f ≤ M)
    (k : ℕ) (f : Ω → ℝ) (m M : ℝ) (a : ∀ x, m ≤ f x) (b : ∀ x, f x ≤ M) (x : Ω) :
    |(P^[k] f) x - μ f| ≤ (1 - e) ^ (k / N) * (M - m) := by
  have it : ∀ (j : ℕ) (f : Ω → ℝ), μ (P^[j] f) = μ f ∧ (∀ m, (∀ x, m ≤ f x) → ∀ x, m ≤ (P^[j] f) x) ∧
      ∀ M, (∀ x, f x ≤ M) → ∀ x, (P^[j] f) x ≤ M := by
    intro j
    induction j with
    | zero => exact fun f => ⟨rfl, fun m h => h, fun M h => h⟩
    | succ j ih =>
      intro f
      obtain ⟨i1, i2, i3⟩ := ih (P f)
      rw [Function.iterate_succ_apply]
      exact ⟨i1.trans (hμ f), fun m h => i2 m (hdn f m h), fun M h => i3 M (hup f M h)⟩
  obtain ⟨i1, i2, i3⟩ := it (k % N) f
  have := contract (Q := P^[N]) (μ := μ) h1 hlow (fun f M h => (it N f).2.2 M h) (fun f => (it N f).1) hm (k / N)
    (P^[k % N] f) m M (i2 m a) (i3 M b) x
  rw [i1, ← Function.iterate_mul, ← Function.iterate_add_apply, Nat.div_add_mod] at this
  exact this

end contraction

/-! ## The Boltzmann mean -/

/-- Mean of `f` when states have weights `exp (-E)`. -/
noncomputable def mean {Ω : Type*} [Fintype Ω] (E f : Ω → ℝ) : ℝ := (∑ x, Real.exp (-E x) * f x) / ∑ x, Real.exp (-E x)

theorem mean_bounds {Ω : Type*} [Fintype Ω] [Nonempty Ω] (E f : Ω → ℝ) (m M : ℝ) (a : ∀ x, m ≤ f x) (b : ∀ x, f x ≤ M) :
    m ≤ mean E f ∧ mean E f ≤ M := by
  have hp : 0 < ∑ x, Real.exp (-E x) := sum_pos (fun _ _ => Real.exp_pos _) univ_nonempty
  unfold mean
  rw [le_div_iff₀ hp, div_le_iff₀ hp, mul_sum, mul_sum]
  exact ⟨sum_le_sum fun x _ => by rw [mul_comm]; exact mul_le_mul_of_nonneg_left (a x) (Real.exp_pos _).le,
    sum_le_sum fun x _ => by rw [mul_comm M]; exact mul_le_mul_of_nonneg_left (b x) (Real.exp_pos _).le⟩

/-! ## Heat bath, for any number of places each with its own values -/

section places

variable {ι : Type*} [DecidableEq ι] {α : ι → Type*} [∀ i, Fintype (α i)] [∀ i, Nonempty (α i)]

/-- Mean of `f` after a heat-bath step at place `i`: the place gets each of its values with probability proportional to
`exp (-E)` of the state that results. -/
noncomputable def avg (E : (∀ i, α i) → ℝ) (i : ι) (f : (∀ i, α i) → ℝ) (x : ∀ i, α i) : ℝ :=
  (∑ a, Real.exp (-E (Function.update x i a)) * f (Function.update x i a)) / ∑ a, Real.exp (-E (Function.update x i a))

/-- Mean of `f` after steps at these places, the first one first. -/
noncomputable def sweep (E : (∀ i, α i) → ℝ) : List ι → ((∀ i, α i) → ℝ) → (∀ i, α i) → ℝ
  | [], f => f
  | i :: is, f => avg E i (sweep E is f)

variable {E : (∀ i, α i) → ℝ}

theorem avg_pos (E : (∀ i, α i) → ℝ) (i : ι) (x : ∀ i, α i) : 0 < ∑ a, Real.exp (-E (Function.update x i a)) :=
  sum_pos (fun _ _ => Real.exp_pos _) univ_nonempty

theorem avg_le {i : ι} {f : (∀ i, α i) → ℝ} {M : ℝ} (h : ∀ x, f x ≤ M) (x : ∀ i, α i) : avg E i f x ≤ M := by
  unfold avg
  rw [div_le_iff₀ (avg_pos E i x), mul_sum]
  exact sum_le_sum fun a _ => by rw [mul_comm M]; exact mul_le_mul_of_nonneg_left (h _) (Real.exp_pos _).le

/-- A value that has probability `p` or more lifts the mean. -/
theorem avg_ge {i : ι} {f : (∀ i, α i) → ℝ} {m : ℝ} (h : ∀ x, m ≤ f x) (x : ∀ i, α i) (a : α i) {p : ℝ}
    (hp : p * ∑ a, Real.exp (-E (Function.update x i a)) ≤ Real.exp (-E (Function.update x i a))) :
    m + p * (f (Function.update x i a) - m) ≤ avg E i f x := by
  have hZ := avg_pos E i x
  unfold avg
  rw [le_div_iff₀ hZ]
  have h1 : ∑ c, Real.exp (-E (Function.update x i c)) * f (Function.update x i c) =
      m * ∑ c, Real.exp (-E (Function.update x i c)) +
        ∑ c, Real.exp (-E (Function.update x i c)) * (f (Function.update x i c) - m) := by
    rw [mul_sum, ← sum_add_distrib]
    exact sum_congr rfl fun c _ => by ring
  have h2 : Real.exp (-E (Function.update x i a)) * (f (Function.update x i a) - m) ≤
      ∑ c, Real.exp (-E (Function.update x i c)) * (f (Function.update x i c) - m) :=
    single_le_sum (f := fun c => Real.exp (-E (Function.update x i c)) * (f (Function.update x i c) - m))
      (fun c _ => mul_nonneg (Real.exp_pos _).le (by linarith [h (Function.update x i c)])) (mem_univ a)
  rw [h1, add_mul]
  have h3 := mul_le_mul_of_nonneg_right hp (show 0 ≤ f (Function.update x i a) - m by linarith [h (Function.update x i a)])
  nlinarith

theorem avg_low {i : ι} {f : (∀ i, α i) → ℝ} {m : ℝ} (h : ∀ x, m ≤ f x) (x : ∀ i, α i) : m ≤ avg E i f x := by
  obtain ⟨a⟩ := (inferInstance : Nonempty (α i))
  have := avg_ge (E := E) h x a (p := 0) (by rw [zero_mul]; exact (Real.exp_pos _).le)
  linarith

theorem sweep_le {f : (∀ i, α i) → ℝ} {M : ℝ} (h : ∀ x, f x ≤ M) : ∀ (is : List ι) (x : ∀ i, α i), sweep E is f x ≤ M
  | [], x => h x
  | _ :: is, x => avg_le (sweep_le h is) x

theorem sweep_low {f : (∀ i, α i) → ℝ} {m : ℝ} (h : ∀ x, m ≤ f x) : ∀ (is : List ι) (x : ∀ i, α i), m ≤ sweep E is f x
  | [], x => h x
  | _ :: is, x => avg_low (sweep_low h is) x

/-- If the energies differ by at most `D`, each of at most `N` values has probability `exp (-D) / N` or more. -/
theorem value_prob {D : ℝ} (hD : ∀ x y, E x - E y ≤ D) {N : ℕ} {i : ι} (hN : Fintype.card (α i) ≤ N) (x : ∀ i, α i) (a : α i) :
    Real.exp (-D) / N * ∑ a, Real.exp (-E (Function.update x i a)) ≤ Real.exp (-E (Function.update x i a)) := by
  have h0 : 0 < Fintype.card (α i) := Fintype.card_pos
  have hN0 : (0 : ℝ) < N := by exact_mod_cast lt_of_lt_of_le h0 hN
  rw [div_mul_eq_mul_div, div_le_iff₀ hN0, mul_sum]
  have : ∑ c, Real.exp (-D) * Real.exp (-E (Function.update x i c)) ≤ ∑ _c : α i, Real.exp (-E (Function.update x i a)) := by
    refine sum_le_sum fun c _ => ?_
    rw [← Real.exp_add]
    exact Real.exp_le_exp.2 (by linarith [hD (Function.update x i a) (Function.update x i c)])
  refine this.trans ?_
  rw [sum_const, nsmul_eq_mul, mul_comm, card_univ]
  exact mul_le_mul_of_nonneg_left (by exact_mod_cast hN) (Real.exp_pos _).le

/-- Steps at all places where two states differ give the second one its probability. -/
theorem sweep_ge {D : ℝ} (hD : ∀ x y, E x - E y ≤ D) {N : ℕ} (hN : ∀ i, Fintype.card (α i) ≤ N) {f : (∀ i, α i) → ℝ} {m : ℝ}
    (h : ∀ x, m ≤ f x) (y : ∀ i, α i) : ∀ (is : List ι) (x : ∀ i, α i), (∀ i, i ∉ is → x i = y i) →
      m + (Real.exp (-D) / N) ^ is.length * (f y - m) ≤ sweep E is f x
  | [], x, hx => by
    rw [show x = y from funext fun i => hx i (by simp)]
    simp [sweep]
  | i :: is, x, hx => by
    have ih := sweep_ge hD hN h y is (Function.update x i (y i)) (by
      intro j hj
      by_cases e : j = i
      · subst e; simp
      · rw [Function.update_of_ne e]
        exact hx j (by simp [e, hj]))
    have := avg_ge (E := E) (i := i) (f := sweep E is f) (sweep_low h is) x (y i) (value_prob hD (hN i) x (y i))
    have hp : 0 ≤ Real.exp (-D) / N := div_nonneg (Real.exp_pos _).le (Nat.cast_nonneg _)
    refine le_trans ?_ this
    rw [List.length_cons, pow_succ']
    have := mul_le_mul_of_nonneg_left ih hp
    nlinarith

variable [Fintype ι]

/-- A heat-bath step keeps the Boltzmann mean. -/
theorem mean_avg (E : (∀ i, α i) → ℝ) (i : ι) (f : (∀ i, α i) → ℝ) : mean E (avg E i f) = mean E f := by
  classical
  unfold mean
  congr 1
  -- Sums over all states are sums over the states of the other places and over the values at `i`.
  have key : ∀ q : (∀ i, α i) → ℝ, ∑ x, q x * (Fintype.card (α i) : ℝ) = ∑ x, ∑ a, q (Function.update x i a) := by
    intro q
    have hfib : ∀ a b : α i, ∑ x ∈ univ.filter (fun x : ∀ i, α i => x i = b), q (Function.update x i a) =
        ∑ x ∈ univ.filter (fun x : ∀ i, α i => x i = a), q x := by
      intro a b
      refine sum_bij' (fun x _ => Function.update x i a) (fun x _ => Function.update x i b) ?_ ?_ ?_ ?_ ?_
      · intro x _; simp
      · intro x _; simp
      · intro x hx
        rw [Function.update_idem, ← (mem_filter.1 hx).2, Function.update_eq_self]
      · intro x hx
        rw [Function.update_idem, ← (mem_filter.1 hx).2, Function.update_eq_self]
      · intro x _; rfl
    have hs : ∀ r : (∀ i, α i) → ℝ, ∑ x, r x = ∑ b, ∑ x ∈ univ.filter (fun x : ∀ i, α i => x i = b), r x := by
      intro r
      exact (sum_fiberwise univ (fun x : ∀ i, α i => x i) r).symm
    rw [← sum_mul, hs q, sum_comm]
    have : ∀ a, ∑ x, q (Function.update x i a) = (Fintype.card (α i) : ℝ) * ∑ x ∈ univ.filter (fun x : ∀ i, α i => x i = a), q x := by
      intro a
      rw [hs fun x => q (Function.update x i a), sum_congr rfl fun b _ => hfib a b, sum_const, nsmul_eq_mul, card_univ]
    rw [sum_congr rfl fun a _ => this a, ← mul_sum, mul_comm]
  have hc : (Fintype.card (α i) : ℝ) ≠ 0 := by exact_mod_cast Fintype.card_ne_zero
  have h1 := key fun x => Real.exp (-E x) * avg E i f x
  have h2 := key fun x => Real.exp (-E x) * f x
  rw [← sum_mul] at h1 h2
  apply mul_right_cancel₀ hc
  rw [h1, h2]
  refine sum_congr rfl fun x _ => ?_
  have hav : ∀ a, avg E i f (Function.update x i a) = avg E i f x := by
    intro a
    unfold avg
    simp only [Function.update_idem]
  simp only [hav]
  rw [← sum_mul]
  unfold avg
  rw [mul_div_cancel₀ _ (avg_pos E i x).ne']

theorem mean_sweep (E : (∀ i, α i) → ℝ) (f : (∀ i, α i) → ℝ) : ∀ is : List ι, mean E (sweep E is f) = mean E f
  | [] => rfl
  | i :: is => (mean_avg E i _).trans (mean_sweep E f is)

/-- Sweeps of heat-bath steps that visit every place bring the mean of every `f` to its Boltzmann mean, from every
start. -/
theorem sweep_converges {D : ℝ} (hD : ∀ x y, E x - E y ≤ D) {N : ℕ} (hN : ∀ i, Fintype.card (α i) ≤ N) {is : List ι}
    (his : ∀ i, i ∈ is) (k : ℕ) (f : (∀ i, α i) → ℝ) (m M : ℝ) (a : ∀ x, m ≤ f x) (b : ∀ x, f x ≤ M) (x : ∀ i, α i) :
    |((sweep E is)^[k] f) x - mean E f| ≤ (1 - (Real.exp (-D) / N) ^ is.length) ^ k * (M - m) := by
  refine contract ?_ (fun f m h x y => sweep_ge hD hN h y is x fun i hi => absurd (his i) hi)
    (fun f M h x => sweep_le h is x) (fun f => mean_sweep E f is) (mean_bounds E) k f m M a b x
  have hD0 : 0 ≤ D := by have := hD x x; linarith
  rcases is with _ | ⟨i, is⟩
  · simp
  · have hN1 : (1 : ℝ) ≤ N := by exact_mod_cast le_trans (Fintype.card_pos (α := α i)) (hN i)
    refine pow_le_one₀ (div_nonneg (Real.exp_pos _).le (by linarith)) ?_
    rw [div_le_one (by linarith)]
    exact (Real.exp_le_one_iff.2 (by linarith)).trans hN1

end places

/-! ## Steps given by a table of probabilities -/

section table

variable {Ω : Type*} [Fintype Ω]

/-- Mean of `f` after a step that goes from `x` to `y` with probability `k x y`. -/
def next (k : Ω → Ω → ℝ) (f : Ω → ℝ) (x : Ω) : ℝ := ∑ y, k x y * f y

/-- `y` can be reached from `x` in `j` steps each of probability `p` or more. -/
def Steps (k : Ω → Ω → ℝ) (p : ℝ) : ℕ → Ω → Ω → Prop
  | 0, x, y => x = y
  | j + 1, x, y => ∃ z, p ≤ k x z ∧ Steps k p j z y

variable {k : Ω → Ω → ℝ} {p : ℝ}

omit [Fintype Ω] in
theorem Steps.trans : ∀ {i j : ℕ} {x y z : Ω}, Steps k p i x y → Steps k p j y z → Steps k p (i + j) x z
  | 0, j, x, y, z, h, h' => by
    rw [Nat.zero_add]
    rw [show x = y from h]
    exact h'
  | i + 1, j, x, y, z, ⟨w, hw, h⟩, h' => by
    rw [Nat.add_right_comm]
    exact ⟨w, hw, h.trans h'⟩

omit [Fintype Ω] in
theorem Steps.map {Ω' : Type*} {k' : Ω' → Ω' → ℝ} {p' : ℝ} (g : Ω → Ω') (h : ∀ x y, p ≤ k x y → p' ≤ k' (g x) (g y)) :
    ∀ {j : ℕ} {x y : Ω}, Steps k p j x y → Steps k' p' j (g x) (g y)
  | 0, _, _, e => congrArg g e
  | _ + 1, x, _, ⟨z, hz, s⟩ => ⟨g z, h x z hz, s.map g h⟩

theorem next_le (h0 : ∀ x y, 0 ≤ k x y) (h1 : ∀ x, ∑ y, k x y = 1) {f : Ω → ℝ} {M : ℝ} (h : ∀ x, f x ≤ M) (x : Ω) :
    next k f x ≤ M := by
  unfold next
  calc ∑ y, k x y * f y ≤ ∑ y, k x y * M := sum_le_sum fun y _ => mul_le_mul_of_nonneg_left (h y) (h0 x y)
    _ = M := by rw [← sum_mul, h1, one_mul]

theorem next_ge (h0 : ∀ x y, 0 ≤ k x y) (h1 : ∀ x, ∑ y, k x y = 1) {f : Ω → ℝ} {m : ℝ} (h : ∀ x, m ≤ f x) (x y : Ω) :
    m + k x y * (f y - m) ≤ next k f x := by
  unfold next
  have e : ∑ z, k x z * f z = m + ∑ z, k x z * (f z - m) := by
    simp only [mul_sub]
    rw [sum_sub_distrib, ← sum_mul, h1, one_mul]
    ring
  rw [e]
  have := single_le_sum (f := fun z => k x z * (f z - m)) (fun z _ => mul_nonneg (h0 x z) (by linarith [h z])) (mem_univ y)
  linarith

theorem next_low (h0 : ∀ x y, 0 ≤ k x y) (h1 : ∀ x, ∑ y, k x y = 1) {f : Ω → ℝ} {m : ℝ} (h : ∀ x, m ≤ f x) (x : Ω) :
    m ≤ next k f x := by
  have := next_ge h0 h1 h x x
  have := mul_nonneg (h0 x x) (show 0 ≤ f x - m by linarith [h x])
  linarith

theorem iter_low (h0 : ∀ x y, 0 ≤ k x y) (h1 : ∀ x, ∑ y, k x y = 1) {f : Ω → ℝ} {m : ℝ} (h : ∀ x, m ≤ f x) :
    ∀ (j : ℕ) (x : Ω), m ≤ ((next k)^[j] f) x
  | 0, x => h x
  | j + 1, x => by
    rw [Function.iterate_succ_apply']
    exact next_low h0 h1 (iter_low h0 h1 h j) x

theorem iter_ge (h0 : ∀ x y, 0 ≤ k x y) (h1 : ∀ x, ∑ y, k x y = 1) (hp : 0 ≤ p) {f : Ω → ℝ} {m : ℝ} (h : ∀ x, m ≤ f x) {y : Ω} :
    ∀ (j : ℕ) (x : Ω), Steps k p j x y → m + p ^ j * (f y - m) ≤ ((next k)^[j] f) x
  | 0, x, e => by
    rw [show x = y from e]
    simp
  | j + 1, x, ⟨z, hz, s⟩ => by
    rw [Function.iterate_succ_apply']
    have a := next_ge h0 h1 (iter_low h0 h1 h j) x z
    have b := iter_ge h0 h1 hp h j z s
    have c := iter_low h0 h1 h j z
    refine le_trans ?_ a
    have d : p * (p ^ j * (f y - m)) ≤ k x z * (((next k)^[j] f) z - m) :=
      mul_le_mul hz (by linarith) (mul_nonneg (pow_nonneg hp j) (by linarith [h y])) (h0 x z)
    rw [pow_succ', mul_assoc]
    linarith

theorem mean_next {E : Ω → ℝ} (hst : ∀ y, ∑ x, Real.exp (-E x) * k x y = Real.exp (-E y)) (f : Ω → ℝ) :
    mean E (next k f) = mean E f := by
  unfold mean next
  congr 1
  simp only [mul_sum]
  rw [sum_comm]
  refine sum_congr rfl fun y _ => ?_
  rw [← hst y, sum_mul]
  exact sum_congr rfl fun x _ => by ring

/-- If in `N` steps of probability `p` or more every state can be reached from every state, all means approach the
Boltzmann mean, provided the step keeps the Boltzmann weights. -/
theorem next_converges [Nonempty Ω] {E : Ω → ℝ} (h0 : ∀ x y, 0 ≤ k x y) (h1 : ∀ x, ∑ y, k x y = 1)
    (hst : ∀ y, ∑ x, Real.exp (-E x) * k x y = Real.exp (-E y)) (hp : 0 ≤ p) (hp1 : p ≤ 1) {N : ℕ}
    (hN : ∀ x y, Steps k p N x y) (j : ℕ) (f : Ω → ℝ) (m M : ℝ) (a : ∀ x, m ≤ f x) (b : ∀ x, f x ≤ M) (x : Ω) :
    |((next k)^[j] f) x - mean E f| ≤ (1 - p ^ N) ^ (j / N) * (M - m) :=
  contract_pow (pow_le_one₀ hp hp1) (fun _ _ h x y => iter_ge h0 h1 hp h N x (hN x y)) (fun _ _ h => next_low h0 h1 h)
    (fun _ _ h => next_le h0 h1 h) (mean_next hst) (mean_bounds E) j f m M a b x

end table

/-! ## Metropolis steps -/

section metropolis

variable {n : ℕ}

/-- If the energies differ by at most `D`, every change of one node has this probability or more. -/
theorem kernel_ge (hn : 2 ≤ n) {E : (Fin n → Fin n) → ℝ} {D : ℝ} (hD : ∀ x y, E x - E y ≤ D) (F : Fin n → Fin n)
    {v g : Fin n} (hg : g ≠ F v) : Real.exp (-D) / (n * ((n : ℝ) - 1)) ≤ kernel E F (Function.update F v g) := by
  have hn1 : (0 : ℝ) < (n : ℝ) - 1 := by
    have : (2 : ℝ) ≤ n := by exact_mod_cast hn
    linarith
  have hn0 : (0 : ℝ) < n := by linarith
  have hne : Function.update F v g ≠ F := fun e => hg (by rw [← congrFun e v, Function.update_self])
  unfold kernel
  rw [if_neg hne]
  unfold moveProb
  have hmin : Real.exp (-D) ≤ min 1 (Real.exp (E F - E (Function.update F v g))) := by
    refine le_min (Real.exp_le_one_iff.2 ?_) (Real.exp_le_exp.2 ?_)
    · have := hD F F
      linarith
    · have := hD (Function.update F v g) F
      linarith
  have hc : Real.exp (-D) / (n * ((n : ℝ) - 1)) ≤
      1 / (n : ℝ) * (1 / ((n : ℝ) - 1)) * min 1 (Real.exp (E F - E (Function.update F v g))) := by
    rw [div_eq_mul_one_div, one_div_mul_one_div, mul_comm]
    exact mul_le_mul_of_nonneg_left hmin (by positivity)
  refine hc.trans ?_
  have hpos : 0 ≤ 1 / (n : ℝ) * (1 / ((n : ℝ) - 1)) * min 1 (Real.exp (E F - E (Function.update F v g))) :=
    le_trans (div_nonneg (Real.exp_pos _).le (by positivity)) hc
  have hnn : ∀ v' g', 0 ≤ if g' ≠ F v' ∧ Function.update F v' g' = Function.update F v g then
      1 / (n : ℝ) * (1 / ((n : ℝ) - 1)) * min 1 (Real.exp (E F - E (Function.update F v g))) else 0 := by
    intro v' g'
    split_ifs
    · exact hpos
    · exact le_refl 0
  refine le_trans ?_ (single_le_sum (f := fun v' => ∑ g', if g' ≠ F v' ∧ Function.update F v' g' = Function.update F v g
    then 1 / (n : ℝ) * (1 / ((n : ℝ) - 1)) * min 1 (Real.exp (E F - E (Function.update F v g))) else 0)
    (fun v' _ => sum_nonneg fun g' _ => hnn v' g') (mem_univ v))
  refine le_trans ?_ (single_le_sum (f := fun g' => if g' ≠ F v ∧ Function.update F v g' = Function.update F v g
    then 1 / (n : ℝ) * (1 / ((n : ℝ) - 1)) * min 1 (Real.exp (E F - E (Function.update F v g))) else 0)
    (fun g' _ => hnn v g') (mem_univ g))
  rw [if_pos ⟨hg, rfl⟩]

/-- With three labels or more, two steps per node lead from any division to any other, exactly. -/
theorem kernel_steps (hn : 3 ≤ n) {E : (Fin n → Fin n) → ℝ} {D : ℝ} (hD : ∀ x y, E x - E y ≤ D) (F' : Fin n → Fin n) :
    ∀ (vs : List (Fin n)) (F : Fin n → Fin n), (∀ v, v ∉ vs → F v = F' v) →
      Steps (kernel E) (Real.exp (-D) / (n * ((n : ℝ) - 1))) (2 * vs.length) F F'
  | [], F, h => funext fun v => h v (by simp)
  | v :: vs, F, h => by
    obtain ⟨c, hc⟩ : ∃ c, c ∉ ({F v, F' v} : Finset (Fin n)) := by
      by_contra hcon
      push Not at hcon
      have h1 : (univ : Finset (Fin n)).card ≤ ({F v, F' v} : Finset (Fin n)).card := card_le_card fun c _ => hcon c
      rw [card_univ, Fintype.card_fin] at h1
      have := card_le_two (a := F v) (b := F' v)
      omega
    rw [mem_insert, mem_singleton, not_or] at hc
    rw [List.length_cons, show 2 * (vs.length + 1) = 2 * vs.length + 1 + 1 by ring]
    refine ⟨Function.update F v c, kernel_ge (by omega) hD F hc.1, Function.update F v (F' v), ?_, ?_⟩
    · have := kernel_ge (by omega) hD (Function.update F v c) (v := v) (g := F' v) (by
        rw [Function.update_self]; exact fun e => hc.2 e.symm)
      rwa [Function.update_idem] at this
    · refine kernel_steps hn hD F' vs _ fun w hw => ?_
      by_cases e : w = v
      · subst e; simp
      · rw [Function.update_of_ne e]
        exact h w (by simp [e, hw])

/-- With three nodes or more, Metropolis steps bring all means to the Boltzmann mean, from every start. -/
theorem metropolis_converges (hn : 3 ≤ n) {E : (Fin n → Fin n) → ℝ} {D : ℝ} (hD : ∀ x y, E x - E y ≤ D) (j : ℕ)
    (f : (Fin n → Fin n) → ℝ) (m M : ℝ) (a : ∀ x, m ≤ f x) (b : ∀ x, f x ≤ M) (F : Fin n → Fin n) :
    |((next (kernel E))^[j] f) F - mean E f| ≤
      (1 - (Real.exp (-D) / (n * ((n : ℝ) - 1))) ^ (2 * n)) ^ (j / (2 * n)) * (M - m) := by
  have h3 : (3 : ℝ) ≤ n := by exact_mod_cast hn
  have : Nonempty (Fin n → Fin n) := ⟨F⟩
  have hD0 : 0 ≤ D := by have := hD F F; linarith
  have hden : (1 : ℝ) ≤ n * ((n : ℝ) - 1) := by nlinarith
  refine next_converges (kernel_nonneg (by omega) E) (kernel_sum E) (stationary E) ?_ ?_ ?_ j f m M a b F
  · exact div_nonneg (Real.exp_pos _).le (by linarith)
  · rw [div_le_one (by linarith)]
    exact (Real.exp_le_one_iff.2 (by linarith)).trans hden
  · intro x y
    have := kernel_steps hn hD y (List.finRange n) x (fun v hv => absurd (List.mem_finRange v) hv)
    rwa [List.length_finRange] at this

end metropolis

/-! ## Heat bath on divisions -/

section divisions

variable {n : ℕ} {E : (Fin n → Fin n) → ℝ} {v : Fin n}

/-- For a function of the groups without labels, the step that gives the weights of all empty groups to one of them has
the mean of the heat bath. -/
theorem listed_avg {S : Finset (Fin n)} {e : Fin n} {F : Fin n → Fin n} (hS : ∀ u, F u ∈ S) (he : Sᶜ.Nonempty → ∀ u, F u ≠ e)
    {f : (Fin n → Fin n) → ℝ} (hf : ∀ A B, SameBlocks A B → f A = f B) : next (listed E v S e) f F = avg E v f F := by
  unfold next avg listed
  simp only [div_mul_eq_mul_div]
  rw [← sum_div]
  congr 1
  simp only [add_mul, sum_mul, ite_mul, zero_mul]
  rw [sum_add_distrib, sum_comm]
  simp only [sum_ite_eq, mem_univ, if_true]
  rw [← sum_add_sum_compl S]
  congr 1
  refine sum_congr rfl fun g hg => ?_
  have hg' : ∀ u, F u ≠ g := fun u e' => (mem_compl.1 hg) (e' ▸ hS u)
  rw [hf _ _ (update_empty hg' (he ⟨g, hg⟩) v)]

/-- The mean of a function of the groups is a function of the groups. -/
theorem avg_blocks (hE : ∀ A B, SameBlocks A B → E A = E B) {f : (Fin n → Fin n) → ℝ} (hf : ∀ A B, SameBlocks A B → f A = f B)
    (F G : Fin n → Fin n) (h : SameBlocks F G) : avg E v f F = avg E v f G := by
  obtain ⟨σ, hσ⟩ := h.perm
  have hs : ∀ g, SameBlocks (Function.update F v g) (Function.update G v (σ g)) := by
    intro g u w
    have : ∀ x, Function.update G v (σ g) x = σ (Function.update F v g x) := by
      intro x
      by_cases hx : x = v
      · subst hx; simp
      · rw [Function.update_of_ne hx, Function.update_of_ne hx, hσ]
    rw [this, this, σ.injective.eq_iff]
  unfold avg
  congr 1
  · refine Eq.trans ?_ (Equiv.sum_comp σ _)
    exact sum_congr rfl fun g _ => by rw [hE _ _ (hs g), hf _ _ (hs g)]
  · refine Eq.trans ?_ (Equiv.sum_comp σ _)
    exact sum_congr rfl fun g _ => by rw [hE _ _ (hs g)]

theorem sweep_blocks (hE : ∀ A B, SameBlocks A B → E A = E B) {f : (Fin n → Fin n) → ℝ} (hf : ∀ A B, SameBlocks A B → f A = f B) :
    ∀ (vs : List (Fin n)) (F G : Fin n → Fin n), SameBlocks F G → sweep E vs f F = sweep E vs f G
  | [], F, G, h => hf F G h
  | _ :: vs, F, G, h => avg_blocks hE (sweep_blocks hE hf vs) F G h

theorem avg_heat (E : (Fin n → Fin n) → ℝ) (v : Fin n) (f : (Fin n → Fin n) → ℝ) (F : Fin n → Fin n) :
    avg E v f F = next (heat E v) f F := by
  unfold next avg heat
  simp only [div_mul_eq_mul_div]
  rw [← sum_div]
  congr 1
  simp only [sum_mul, ite_mul, zero_mul]
  rw [sum_comm]
  simp only [sum_ite_eq, mem_univ, if_true]

/-- Energies of divisions have bounded differences. -/
theorem bounded {Ω : Type*} [Fintype Ω] [Nonempty Ω] (E : Ω → ℝ) : ∃ D, ∀ x y, E x - E y ≤ D := by
  obtain ⟨lo, hlo⟩ := Finite.exists_min E
  obtain ⟨hi, hhi⟩ := Finite.exists_max E
  exact ⟨E hi - E lo, fun x y => by linarith [hlo y, hhi x]⟩

end divisions

/-! ## Two nodes -/

/-- Mean after a Metropolis step. -/
theorem next_kernel {n : ℕ} (E f : (Fin n → Fin n) → ℝ) (F : Fin n → Fin n) : next (kernel E) f F = f F +
    ∑ v, ∑ g ∈ univ.filter (· ≠ F v), 1 / (n : ℝ) * (1 / ((n : ℝ) - 1)) * min 1 (Real.exp (E F - E (Function.update F v g))) *
      (f (Function.update F v g) - f F) := by
  have h1 : next (kernel E) f F = f F + ∑ G, moveProb E F G * (f G - f F) := by
    unfold next
    rw [← add_sum_erase univ _ (mem_univ F), ← add_sum_erase univ (fun G => moveProb E F G * (f G - f F)) (mem_univ F)]
    have : ∀ G ∈ univ.erase F, kernel E F G * f G = moveProb E F G * f G := fun G hG => by
      unfold kernel
      rw [if_neg (ne_of_mem_erase hG)]
    rw [sum_congr rfl this]
    simp only [mul_sub, sum_sub_distrib, ← sum_mul]
    unfold kernel
    rw [if_pos rfl]
    ring
  rw [h1]
  congr 1
  unfold moveProb
  simp only [sum_mul, ite_mul, zero_mul]
  rw [sum_comm]
  refine sum_congr rfl fun v _ => ?_
  rw [sum_comm, sum_filter]
  refine sum_congr rfl fun g _ => ?_
  by_cases hg : g = F v
  · rw [if_neg (by simp [hg])]
    exact sum_eq_zero fun G _ => if_neg (by simp [hg])
  · rw [if_pos hg, sum_eq_single (Function.update F v g)]
    · rw [if_pos ⟨hg, rfl⟩]
    · intro G _ hG
      rw [if_neg]
      rintro ⟨-, e⟩
      exact hG e.symm
    · simp

/-- 1 for two nodes in the same group, -1 for two nodes in two groups. -/
def together (F : Fin 2 → Fin 2) : ℝ := if F 0 = F 1 then 1 else -1

/-- With two nodes and no difference in energy the steps never settle: every step takes the nodes apart or together. -/
theorem alternates {E : (Fin 2 → Fin 2) → ℝ} (hE : ∀ A B, E A = E B) :
    ∀ (j : ℕ) (F : Fin 2 → Fin 2), ((next (kernel E))^[j] together) F = (-1) ^ j * together F
  | 0, F => by simp
  | j + 1, F => by
    have hflip : ∀ v g, g ≠ F v → together (Function.update F v g) = -together F := by
      intro v g hg
      have : ∀ (a b v g : Fin 2), g ≠ (![a, b] : Fin 2 → Fin 2) v →
          ((Function.update ![a, b] v g : Fin 2 → Fin 2) 0 = (Function.update ![a, b] v g : Fin 2 → Fin 2) 1 ↔ ¬ a = b) := by
        decide
      have hF : F = ![F 0, F 1] := by
        funext i
        fin_cases i <;> rfl
      have h2 := this (F 0) (F 1) v g (by rw [← hF]; exact hg)
      rw [← hF] at h2
      unfold together
      by_cases e : F 0 = F 1
      · rw [if_pos e, if_neg (fun hh => (h2.1 hh) e)]
      · rw [if_neg e, if_pos (h2.2 e)]
        norm_num
    have hone : ∀ f : (Fin 2 → Fin 2) → ℝ, (∀ v g, g ≠ F v → f (Function.update F v g) = -f F) → next (kernel E) f F = -f F := by
      intro f hf
      rw [next_kernel]
      have : ∀ v, ∑ g ∈ univ.filter (· ≠ F v), 1 / ((2 : ℕ) : ℝ) * (1 / (((2 : ℕ) : ℝ) - 1)) *
          min 1 (Real.exp (E F - E (Function.update F v g))) * (f (Function.update F v g) - f F) = -f F := by
        intro v
        have hc : (univ.filter (· ≠ F v)).card = 1 := by
          rw [filter_ne', card_erase_of_mem (mem_univ _)]
          simp
        rw [sum_congr rfl (g := fun _ => -f F), sum_const, hc, one_smul]
        intro g hg
        rw [hf v g (mem_filter.1 hg).2, hE F (Function.update F v g), sub_self, Real.exp_zero, min_self]
        push_cast
        ring
      rw [sum_congr rfl fun v _ => this v, sum_const]
      simp
      ring
    rw [Function.iterate_succ_apply']
    rw [hone _ fun v g hg => by rw [alternates hE j, alternates hE j, hflip v g hg]; ring, alternates hE j]
    ring

end MH
