import Verif.Rounded

/-!
# C186 for the heat bath

A heat-bath step gives every label an interval of random numbers whose length is its probability (C176 to C178). With
values `k / M` the number of values in it is `M` times the length to within one. The theorems hold for all weights that
are right to within `4 / M`, thus for every order of the intervals. Simplified: the values drawn are independent, equally
likely and not 0, for which the program has no defined behaviour (C33).
-/

open Finset

namespace MH

/-- **C186**: of the values `k / M` with `0 < k < M`, an interval open below and closed above holds `M` times its length to
within one. -/
theorem C186_interval {M : ℕ} (hM : 0 < M) {x y : ℝ} (h0 : 0 ≤ x) (hxy : x ≤ y) (h1 : y ≤ 1) :
    ((Ico 1 M).filter fun k : ℕ => x < (k : ℝ) / M ∧ (k : ℝ) / M ≤ y).card = min ⌊y * M⌋₊ (M - 1) - min ⌊x * M⌋₊ (M - 1) ∧
    |(((Ico 1 M).filter fun k : ℕ => x < (k : ℝ) / M ∧ (k : ℝ) / M ≤ y).card : ℝ) - (y - x) * M| ≤ 1 := by
  have hMr : (0 : ℝ) < M := by exact_mod_cast hM
  have x0 : 0 ≤ x * M := by positivity
  have y0 : 0 ≤ y * M := mul_nonneg (h0.trans hxy) hMr.le
  have hle : ⌊x * M⌋₊ ≤ ⌊y * M⌋₊ := Nat.floor_mono (mul_le_mul_of_nonneg_right hxy hMr.le)
  have e : ((Ico 1 M).filter fun k : ℕ => x < (k : ℝ) / M ∧ (k : ℝ) / M ≤ y) = Ioc (min ⌊x * M⌋₊ (M - 1)) (min ⌊y * M⌋₊ (M - 1)) := by
    ext k
    rw [mem_filter, mem_Ico, mem_Ioc, lt_div_iff₀ hMr, div_le_iff₀ hMr, ← Nat.floor_lt x0, ← Nat.le_floor_iff y0]
    omega
  rw [e, Nat.card_Ioc]
  refine ⟨rfl, ?_⟩
  have hym : ⌊y * M⌋₊ ≤ M := by
    have : (⌊y * M⌋₊ : ℝ) ≤ M := (Nat.floor_le y0).trans (by nlinarith)
    exact_mod_cast this
  have a1 := Nat.floor_le x0
  have a2 := Nat.lt_floor_add_one (x * M)
  have b1 := Nat.floor_le y0
  have b2 := Nat.lt_floor_add_one (y * M)
  have hxyM : x * M ≤ y * M := mul_le_mul_of_nonneg_right hxy hMr.le
  have hyM : y * M ≤ M := by nlinarith
  rw [abs_le, sub_mul]
  rcases Nat.lt_or_ge ⌊y * M⌋₊ M with h | h
  · rw [min_eq_left (by omega), min_eq_left (by omega), Nat.cast_sub hle]
    constructor <;> linarith
  · have hy : ⌊y * M⌋₊ = M := le_antisymm hym h
    rw [hy] at b1
    rcases Nat.lt_or_ge ⌊x * M⌋₊ M with h' | h'
    · rw [min_eq_right (by omega), min_eq_left (by omega), Nat.cast_sub (by omega), Nat.cast_sub (by omega), Nat.cast_one]
      constructor <;> linarith
    · have hx : ⌊x * M⌋₊ = M := le_antisymm (hle.trans hym) h'
      rw [hx] at a1
      rw [min_eq_right (by omega), min_eq_right (by omega), Nat.sub_self, Nat.cast_zero]
      constructor <;> linarith

/-- Means that stay near others which settle are near their limits. -/
theorem perturb {Ω : Type*} {P Q : (Ω → ℝ) → Ω → ℝ} (hQ : Expect Q) {η : ℝ} (hη : 0 ≤ η)
    (h : ∀ (f : Ω → ℝ) (m w : ℝ), (∀ x, m ≤ f x) → (∀ x, f x ≤ m + w) → ∀ x, |Q f x - P f x| ≤ η * w)
    {f : Ω → ℝ} {μ c : ℝ} (c0 : 0 ≤ c) (c1 : c < 1) {N : ℕ} (hN : 0 < N) (hconv : ∀ k x, |(P^[k] f) x - μ| ≤ c ^ (k / N)) (k : ℕ) (x : Ω) :
    |(Q^[k] f) x - μ| ≤ c ^ (k / N) + 2 * η * (N / (1 - c)) := by
  have key : ∀ k x, |(Q^[k] f) x - (P^[k] f) x| ≤ 2 * η * ∑ j ∈ range k, c ^ (j / N) := by
    intro k
    induction k with
    | zero => intro x; simp
    | succ k ih =>
      intro x
      rw [Function.iterate_succ_apply', Function.iterate_succ_apply', sum_range_succ, mul_add]
      obtain ⟨B, hB⟩ : ∃ B, B = 2 * η * ∑ j ∈ range k, c ^ (j / N) := ⟨_, rfl⟩
      rw [← hB] at ih ⊢
      have hconst : ∀ a : ℝ, Q (fun _ => a) x = a := fun a => by
        have := hQ.mul a (fun _ => 1) x
        rw [hQ.one x] at this
        simpa using this
      have up := hQ.le (Q^[k] f) (fun x => (P^[k] f) x + B) (fun x => by linarith [(abs_le.1 (ih x)).2]) x
      have lo := hQ.le (P^[k] f) (fun x => (Q^[k] f) x + B) (fun x => by linarith [(abs_le.1 (ih x)).1]) x
      have a1 := hQ.add (P^[k] f) (fun _ => B) x
      have a2 := hQ.add (Q^[k] f) (fun _ => B) x
      rw [hconst] at a1 a2
      have d := h (P^[k] f) (μ - c ^ (k / N)) (2 * c ^ (k / N)) (fun y => by linarith [(abs_le.1 (hconv k y)).1])
        (fun y => by linarith [(abs_le.1 (hconv k y)).2]) x
      have e : η * (2 * c ^ (k / N)) = 2 * η * c ^ (k / N) := by ring
      rw [e] at d
      have d' := abs_le.1 d
      rw [abs_le]
      constructor <;> linarith [d'.1, d'.2]
  have hs := mul_le_mul_of_nonneg_left (sum_geometric c0 c1 hN k) (show 0 ≤ 2 * η by positivity)
  have h1 := abs_le.1 (key k x)
  have h2 := abs_le.1 (hconv k x)
  rw [abs_le]
  constructor <;> linarith [h1.1, h1.2, h2.1, h2.2]

variable {ι : Type*} [DecidableEq ι] {n : ℕ}

/-- Mean of `f` after steps at these places, with weights `q i x a` for the value `a` at `i` (missing.c:2266-2287,
multiblock.c:1587, 2223, only_deg.c:950, sparse_missing.c:291). -/
def weighted (q : ι → (ι → Fin n) → Fin n → ℝ) : List ι → ((ι → Fin n) → ℝ) → (ι → Fin n) → ℝ
  | [], f => f
  | i :: is, f => fun x => ∑ a, q i x a * weighted q is f (Function.update x i a)

/-- Weights of a heat bath with a generator of `M` values: each is right to within `4 / M`. -/
def Near (M : ℕ) (E : (ι → Fin n) → ℝ) (q : ι → (ι → Fin n) → Fin n → ℝ) : Prop :=
  ∀ i x, (∀ a, 0 ≤ q i x a) ∧ ∑ a, q i x a = 1 ∧
    ∀ a, |q i x a - Real.exp (-E (Function.update x i a)) / ∑ b, Real.exp (-E (Function.update x i b))| ≤ 4 / M

/-- Sum of the first `t` probabilities. -/
noncomputable def upTo (p : Fin n → ℝ) (t : ℕ) : ℝ := ∑ b : Fin n, if (b : ℕ) < t then p b else 0

/-- Part of the values `k / M` other than 0 that are above the sum of the probabilities before `a` and not above the sum up
to `a` (missing.c:2269-2287; 0 leads to undefined behaviour there, C33). -/
noncomputable def hits (M : ℕ) (p : Fin n → ℝ) (a : Fin n) : ℝ :=
  (((Ico 1 M).filter fun k : ℕ => upTo p a < (k : ℝ) / M ∧ (k : ℝ) / M ≤ upTo p (a + 1)).card : ℝ) / ((M - 1 : ℕ) : ℝ)

theorem upTo_succ (p : Fin n → ℝ) (a : Fin n) : upTo p (a + 1) = upTo p a + p a := by
  have : ∀ b : Fin n, (if (b : ℕ) < a + 1 then p b else 0) = (if (b : ℕ) < a then p b else 0) + if b = a then p b else 0 := by
    intro b
    rcases lt_trichotomy (b : ℕ) a with h | h | h
    · rw [if_pos (by omega), if_pos h, if_neg (fun e => by rw [e] at h; omega), add_zero]
    · rw [if_pos (by omega), if_neg (by omega), if_pos (Fin.ext h), zero_add]
    · rw [if_neg (by omega), if_neg (by omega), if_neg (fun e => by rw [e] at h; omega), add_zero]
  unfold upTo
  rw [sum_congr rfl fun b _ => this b, sum_add_distrib, sum_ite_eq' univ a, if_pos (mem_univ a)]

/-- **C186**: choosing by sums of probabilities gives each label its probability to within `4 / M`, and no value is
left out. -/
theorem C186_hits {M : ℕ} (hM : 2 ≤ M) {p : Fin n → ℝ} (h0 : ∀ a, 0 ≤ p a) (h1 : ∑ a, p a = 1) :
    (∀ a, 0 ≤ hits M p a) ∧ ∑ a, hits M p a = 1 ∧ ∀ a, |hits M p a - p a| ≤ 4 / M := by
  have h2 : (2 : ℝ) ≤ M := by exact_mod_cast hM
  have hMr : (0 : ℝ) < M := by linarith
  have hM1 : ((M - 1 : ℕ) : ℝ) = M - 1 := by rw [Nat.cast_sub (by omega), Nat.cast_one]
  have hM2 : (0 : ℝ) < M - 1 := by linarith
  have u0 : ∀ t, 0 ≤ upTo p t := fun t => sum_nonneg fun b _ => by split_ifs; exacts [h0 b, le_rfl]
  have u1 : ∀ t, upTo p t ≤ 1 := fun t => h1 ▸ sum_le_sum fun b _ => by split_ifs; exacts [le_rfl, h0 b]
  have um : ∀ a : Fin n, upTo p a ≤ upTo p (a + 1) := fun a => by rw [upTo_succ]; linarith [h0 a]
  refine ⟨fun a => by unfold hits; positivity, ?_, fun a => ?_⟩
  · have e : ∀ a : Fin n, hits M p a = ((min ⌊upTo p ((a : ℕ) + 1) * M⌋₊ (M - 1) : ℕ) : ℝ) / ((M - 1 : ℕ) : ℝ) -
        ((min ⌊upTo p (a : ℕ) * M⌋₊ (M - 1) : ℕ) : ℝ) / ((M - 1 : ℕ) : ℝ) := fun a => by
      unfold hits
      rw [(C186_interval (by omega) (u0 a) (um a) (u1 _)).1, Nat.cast_sub, sub_div]
      exact min_le_min_right _ (Nat.floor_mono (mul_le_mul_of_nonneg_right (um a) hMr.le))
    rw [sum_congr rfl fun a _ => e a,
      Fin.sum_univ_eq_sum_range (fun t => ((min ⌊upTo p (t + 1) * M⌋₊ (M - 1) : ℕ) : ℝ) / ((M - 1 : ℕ) : ℝ) -
        ((min ⌊upTo p t * M⌋₊ (M - 1) : ℕ) : ℝ) / ((M - 1 : ℕ) : ℝ)) n,
      sum_range_sub (fun t => ((min ⌊upTo p t * M⌋₊ (M - 1) : ℕ) : ℝ) / ((M - 1 : ℕ) : ℝ))]
    have a0 : upTo p 0 = 0 := by simp [upTo]
    have a1 : upTo p n = 1 := by rw [← h1]; simp [upTo]
    rw [a0, a1, zero_mul, one_mul, Nat.floor_natCast, Nat.floor_zero, min_eq_right (by omega), min_eq_left (by omega), Nat.cast_zero,
      zero_div, sub_zero, hM1]
    exact div_self hM2.ne'
  · have h3 := (C186_interval (by omega : 0 < M) (u0 a) (um a) (u1 _)).2
    have hd : upTo p (a + 1) - upTo p a = p a := by rw [upTo_succ]; ring
    have hp1 : p a ≤ 1 := h1 ▸ single_le_sum (f := p) (fun b _ => h0 b) (mem_univ a)
    unfold hits
    obtain ⟨N, hN⟩ : ∃ N : ℝ, N = (((Ico 1 M).filter fun k : ℕ => upTo p a < (k : ℝ) / M ∧ (k : ℝ) / M ≤ upTo p (a + 1)).card : ℝ) :=
      ⟨_, rfl⟩
    rw [← hN, hd] at h3
    rw [← hN, hM1]
    have e : N / ((M : ℝ) - 1) - p a = (N - p a * M + p a) / ((M : ℝ) - 1) := by
      field_simp
      ring
    have hnum : |N - p a * M + p a| ≤ 2 := by
      have := abs_le.1 h3
      rw [abs_le]
      constructor <;> linarith [this.1, this.2, h0 a]
    rw [e, abs_div, abs_of_pos hM2, div_le_div_iff₀ hM2 hMr]
    nlinarith

variable {q : ι → (ι → Fin n) → Fin n → ℝ} {M : ℕ} {E : (ι → Fin n) → ℝ}

/-- **C186**: such weights exist: those of the sums of probabilities. -/
theorem C186_near [Nonempty (Fin n)] (hM : 2 ≤ M) (E : (ι → Fin n) → ℝ) : Near M E fun i x =>
    hits M fun a => Real.exp (-E (Function.update x i a)) / ∑ b, Real.exp (-E (Function.update x i b)) := fun i x =>
  C186_hits hM (fun a => div_nonneg (Real.exp_pos _).le (sum_nonneg fun _ _ => (Real.exp_pos _).le))
    (by rw [← sum_div]; exact div_self (avg_pos E i x).ne')

theorem weighted_expect (hq : Near M E q) : ∀ is : List ι, Expect (weighted q is)
  | [] => ⟨fun _ _ _ => rfl, fun _ _ _ => rfl, fun _ _ h => h, fun _ => rfl⟩
  | i :: is => by
    have ih := weighted_expect hq is
    refine ⟨fun f g x => ?_, fun a f x => ?_, fun f g h x => ?_, fun x => ?_⟩
    · simp only [weighted, ih.add, mul_add, sum_add_distrib]
    · simp only [weighted, ih.mul, mul_sum]
      exact sum_congr rfl fun b _ => by ring
    · exact sum_le_sum fun a _ => mul_le_mul_of_nonneg_left (ih.le f g h _) ((hq i x).1 a)
    · simp only [weighted, ih.one, mul_one]
      exact (hq i x).2.1

variable [Nonempty (Fin n)]

/-- **C186**: a sweep over `l` nodes changes every mean by at most `4 l n / M` times the spread. -/
theorem C186_sweep (hq : Near M E q) {f : (ι → Fin n) → ℝ} {m w : ℝ} (f0 : ∀ x, m ≤ f x) (f1 : ∀ x, f x ≤ m + w) :
    ∀ (is : List ι) (x : ι → Fin n), |weighted q is f x - sweep E is f x| ≤ is.length * (4 * n / M) * w
  | [], x => by simp [weighted, sweep]
  | i :: is, x => by
    have ih := C186_sweep hq f0 f1 is
    obtain ⟨g, hg⟩ : ∃ g, g = sweep E is f := ⟨_, rfl⟩
    obtain ⟨g', hg'⟩ : ∃ g', g' = weighted q is f := ⟨_, rfl⟩
    have g0 : ∀ x, m ≤ g x := fun x => hg ▸ sweep_low f0 is x
    have g1 : ∀ x, g x ≤ m + w := fun x => hg ▸ sweep_le f1 is x
    obtain ⟨p, hp⟩ : ∃ p : Fin n → ℝ, p = fun a => Real.exp (-E (Function.update x i a)) / ∑ b, Real.exp (-E (Function.update x i b)) :=
      ⟨_, rfl⟩
    have hp1 : ∑ a, p a = 1 := by
      rw [hp, ← sum_div]
      exact div_self (avg_pos E i x).ne'
    have e1 : sweep E (i :: is) f x = ∑ a, p a * g (Function.update x i a) := by
      rw [hp, hg]
      show avg E i (sweep E is f) x = _
      unfold avg
      rw [sum_div]
      exact sum_congr rfl fun a _ => by ring
    have e2 : weighted q (i :: is) f x = ∑ a, q i x a * g' (Function.update x i a) := by rw [hg']; rfl
    have e : weighted q (i :: is) f x - sweep E (i :: is) f x =
        ∑ a, q i x a * (g' (Function.update x i a) - g (Function.update x i a)) +
          ∑ a, (q i x a - p a) * (g (Function.update x i a) - m) := by
      rw [e1, e2]
      simp only [mul_sub, sub_mul, sum_sub_distrib, ← sum_mul, hp1, (hq i x).2.1]
      ring
    rw [e]
    refine (abs_add_le _ _).trans ?_
    have s1 : |∑ a, q i x a * (g' (Function.update x i a) - g (Function.update x i a))| ≤ is.length * (4 * n / M) * w := by
      refine (abs_sum_le_sum_abs _ _).trans ?_
      calc _ ≤ ∑ a, q i x a * (is.length * (4 * n / M) * w) := sum_le_sum fun a _ => by
            rw [abs_mul, abs_of_nonneg ((hq i x).1 a), hg, hg']
            exact mul_le_mul_of_nonneg_left (ih _) ((hq i x).1 a)
        _ = _ := by rw [← sum_mul, (hq i x).2.1, one_mul]
    have s2 : |∑ a, (q i x a - p a) * (g (Function.update x i a) - m)| ≤ 4 * n / M * w := by
      refine (abs_sum_le_sum_abs _ _).trans ?_
      calc _ ≤ ∑ _a : Fin n, 4 / (M : ℝ) * w := sum_le_sum fun a _ => by
            rw [abs_mul, hp]
            refine mul_le_mul ((hq i x).2.2 a) ?_ (abs_nonneg _) (by positivity)
            rw [abs_of_nonneg (by linarith [g0 (Function.update x i a)])]
            linarith [g1 (Function.update x i a)]
        _ = _ := by
            rw [sum_const, card_univ, Fintype.card_fin, nsmul_eq_mul]
            ring
    refine (add_le_add s1 s2).trans (le_of_eq ?_)
    rw [List.length_cons]
    push_cast
    ring

/-- **C186**: after many sweeps the mean of `f` is within `C / M` of its Boltzmann mean, whatever the start. -/
theorem C186_sweep_limit {n : ℕ} (hn : 0 < n) (E : (Fin n → Fin n) → ℝ) : ∃ c C : ℝ, 0 ≤ c ∧ c < 1 ∧
    ∀ (M : ℕ) (q : Fin n → (Fin n → Fin n) → Fin n → ℝ), Near M E q → ∀ f : (Fin n → Fin n) → ℝ, (∀ F, 0 ≤ f F) → (∀ F, f F ≤ 1) →
      ∀ k F, |((weighted q (List.finRange n))^[k] f) F - mean E f| ≤ c ^ k + C / M := by
  have : Nonempty (Fin n) := ⟨⟨0, hn⟩⟩
  obtain ⟨D, hD⟩ := bounded E
  have h1 : (1 : ℝ) ≤ n := by exact_mod_cast hn
  have hD0 : 0 ≤ D := by have := hD id id; linarith
  have hp : 0 < Real.exp (-D) / n := div_pos (Real.exp_pos _) (by linarith)
  have hp1 : Real.exp (-D) / n ≤ 1 := by
    rw [div_le_one (by linarith)]
    exact (Real.exp_le_one_iff.2 (by linarith)).trans h1
  have q0 : 0 < (Real.exp (-D) / n) ^ n := pow_pos hp _
  have q1 := pow_le_one₀ (n := n) hp.le hp1
  obtain ⟨c, hc⟩ : ∃ c, c = 1 - (Real.exp (-D) / n) ^ n := ⟨_, rfl⟩
  have c0 : 0 ≤ c := by linarith
  have c1 : c < 1 := by linarith
  refine ⟨c, 8 * n * n / (1 - c), c0, c1, fun M q hq f f0 f1 k F => ?_⟩
  have hpert := perturb (weighted_expect hq (List.finRange n)) (P := sweep E (List.finRange n)) (η := n * (4 * n / M)) (by positivity)
    (fun f m w a b x => by simpa using C186_sweep hq a b (List.finRange n) x) (f := f) (μ := mean E f) c0 c1 one_pos (fun k x => by
      have := sweep_converges hD (fun _ => (Fintype.card_fin n).le) (fun v => List.mem_finRange v) k f 0 1 f0 f1 x
      rw [List.length_finRange, sub_zero, mul_one, ← hc] at this
      rwa [Nat.div_one]) k F
  rw [Nat.div_one] at hpert
  refine hpert.trans (le_of_eq ?_)
  push_cast
  ring

end MH

namespace LS

open GP MH

/-- **C186** for `GibbsLinkScore`. -/
theorem C186_heat_bath {net : Net} (h : net.Simple) (hn : 0 < net.n) (linC : ℝ) : ∃ c C : ℝ, 0 ≤ c ∧ c < 1 ∧
    ∀ (M : ℕ) (q : Fin net.n → (Fin net.n → Fin net.n) → Fin net.n → ℝ), Near M (E net linC) q → ∀ (i j : Fin net.n) (k : ℕ) F,
      |((weighted q (List.finRange net.n))^[k] fun F => (score net (lift F) i j : ℝ)) F - posterior net linC i j| ≤ c ^ k + C / M := by
  obtain ⟨c, C, c0, c1, H⟩ := C186_sweep_limit hn (E net linC)
  refine ⟨c, C, c0, c1, fun M q hq i j k F => ?_⟩
  rw [← C181_posterior h]
  exact H M q hq _ (fun F => (score_between h F i j).1) (fun F => (score_between h F i j).2) k F

example := C186_heat_bath tailed_simple (by decide) 0
example := C186_near (M := 2 ^ 32) (n := 3) (ι := Fin 3) (by norm_num) fun _ => 0

end LS

namespace BK

open GP LS MH

/-- **C186** for the heat-bath samplers of multiblock.c, only_deg.c and sparse_missing.c. -/
theorem C186_heat_bath {net : Net} {L : ℕ → ℕ → ℝ} (h : net.Simple) (hL : Pattern L) (hn : 0 < net.n) (D : ℕ → ℝ) (linC : ℝ) :
    ∃ c C : ℝ, 0 ≤ c ∧ c < 1 ∧
      ∀ (M : ℕ) (q : Fin net.n → (Fin net.n → Fin net.n) → Fin net.n → ℝ), Near M (E (cost L) D net linC) q →
        ∀ (i j : Fin net.n) (k : ℕ) A, |((weighted q (List.finRange net.n))^[k] fun A => score (predict L) net (lift A) i j) A -
          posterior L D net linC i j| ≤ c ^ k + C / M := by
  obtain ⟨c, C, c0, c1, H⟩ := C186_sweep_limit hn (E (cost L) D net linC)
  refine ⟨c, C, c0, c1, fun M q hq i j k A => ?_⟩
  rw [← (C184_posterior h hL D linC i j).1]
  exact H M q hq _ (fun A => by rw [(C184_score h L A i j).1]; exact (expected_between hL A i j).1)
    (fun A => by rw [(C184_score h L A i j).1]; exact (expected_between hL A i j).2) k A

example := C186_heat_bath tailed_simple C184_models.2.2.1 (by decide) logDeg 0

end BK

namespace RC

open BP (Bi)
open MH

variable {b : Bi} {K : ℕ}

/-- Mean of `f` after an attempt with a generator of `M` values: the set by the first number, then the move
(recommend.c:310-435, 1153-1282). -/
noncomputable def rounded (M : ℕ) (T : (ℕ → Int) → ℝ) (b : Bi) (r : ℝ) (f : (Fin b.n1 → Fin b.n1) × (Fin b.n2 → Fin b.n2) → ℝ)
    (x : (Fin b.n1 → Fin b.n1) × (Fin b.n2 → Fin b.n2)) : ℝ :=
  (below M r : ℝ) / M * MH.rounded M (fun A => E T b A x.2) (fun A => f (A, x.2)) x.1 +
    (1 - (below M r : ℝ) / M) * MH.rounded M (fun B => E T b x.1 B) (fun B => f (x.1, B)) x.2

theorem next_table (T : (ℕ → Int) → ℝ) (b : Bi) (r : ℝ) (f : (Fin b.n1 → Fin b.n1) × (Fin b.n2 → Fin b.n2) → ℝ)
    (x : (Fin b.n1 → Fin b.n1) × (Fin b.n2 → Fin b.n2)) : next (table T b r) f x =
      r * next (kernel fun A => E T b A x.2) (fun A => f (A, x.2)) x.1 + (1 - r) * next (kernel fun B => E T b x.1 B) (fun B => f (x.1, B)) x.2 := by
  unfold next table mixed
  rw [Fintype.sum_prod_type]
  simp only [add_mul, sum_add_distrib, ite_mul, zero_mul, mul_sum]
  congr 1
  · refine sum_congr rfl fun A _ => ?_
    rw [sum_ite_eq' univ x.2, if_pos (mem_univ _)]
    ring
  · rw [sum_comm]
    refine sum_congr rfl fun B _ => ?_
    rw [sum_ite_eq' univ x.1, if_pos (mem_univ _)]
    ring

theorem attempt_expect {n M : ℕ} (hM : 4 ≤ M) (hn : 2 ≤ n) (E : (Fin n → Fin n) → ℝ) : Expect (MH.rounded M E) := by
  refine ⟨fun f g F => ?_, fun a f F => ?_, fun f g h F => ?_, fun F => ?_⟩
  · have := rounded_sub (M := M) E (fun F => f F + g F) g F
    simp only [add_sub_cancel_right] at this
    linarith
  · unfold MH.rounded
    rw [mul_add, mul_sum]
    congr 1
    refine sum_congr rfl fun v _ => ?_
    rw [mul_sum]
    exact sum_congr rfl fun g _ => by ring
  · -- The difference `g - f` is between 0 and some `2 b`, thus within `b` of `b`.
    obtain ⟨b, hb⟩ : ∃ b : ℝ, ∀ G, g G - f G ≤ 2 * b := by
      obtain ⟨D, hD⟩ := (Set.finite_range fun G => g G - f G).bddAbove
      exact ⟨D / 2, fun G => by linarith [hD ⟨G, rfl⟩]⟩
    have h1 := rounded_between (M := M) hM hn E (f := fun G => (g G - f G) - b) (b := b) (fun G => by
      rw [abs_le]
      constructor <;> linarith [hb G, h G]) F
    have h2 := rounded_sub (M := M) E (fun G => g G - f G) (fun _ => b) F
    have h3 := rounded_sub (M := M) E g f F
    have h4 : MH.rounded M E (fun _ => b) F = b := by simp [MH.rounded]
    have := (abs_le.1 h1).1
    linarith
  · simp [MH.rounded]

/-- **C186** for `MultiLinkScoreKState` and `MultiLinkScore2State` (`C182_two`). -/
theorem C186_metropolis (hK : 0 < K) (n1 : 3 ≤ b.n1) (n2 : 3 ≤ b.n2) : ∃ c C : ℝ, 0 ≤ c ∧ c < 1 ∧
    ∀ M, 4 ≤ M → ∀ (k : Fin K) (i : Fin b.n1) (j : Fin b.n2) (l : ℕ) x,
      |((rounded M (TKb K) b (setRatio b))^[l] (guess b K k i j)) x - posterior b K k i j| ≤ c ^ (l / (2 * b.n1 + 2 * b.n2)) + C / M := by
  obtain ⟨r0, r1, -⟩ := C175_unique (TKb K) b (by omega) (by omega)
  have r0' : (0 : ℝ) ≤ setRatio b := by exact_mod_cast r0.le
  have r1' : (setRatio b : ℝ) ≤ 1 := by exact_mod_cast r1.le
  obtain ⟨p, hp0, hp1, hc⟩ := C180_converges_partial (TKb K) b n1 n2
  have q0 : 0 < p ^ (2 * b.n1 + 2 * b.n2) := pow_pos hp0 _
  have q1 := pow_le_one₀ (n := 2 * b.n1 + 2 * b.n2) hp0.le hp1.le
  refine ⟨1 - p ^ (2 * b.n1 + 2 * b.n2), 2 * (6 * (b.n1 + b.n2) + 1) * (((2 * b.n1 + 2 * b.n2 : ℕ) : ℝ) / (1 - (1 - p ^ (2 * b.n1 + 2 * b.n2)))),
    by linarith, by linarith, fun M hM k i j l x => ?_⟩
  have h4 : (4 : ℝ) ≤ M := by exact_mod_cast hM
  have hM0 : (0 : ℝ) < M := by linarith
  obtain ⟨p1, p2, p3⟩ := C186_accept (M := M) (by omega) r0' r1'
  obtain ⟨t, ht⟩ : ∃ t : ℝ, t = (below M (setRatio b : ℝ) : ℝ) / M := ⟨_, rfl⟩
  have t0 : 0 ≤ t := by rw [ht]; positivity
  have t1 : t ≤ 1 := by rw [ht, div_le_one hM0]; exact_mod_cast p3
  have hd : |t - setRatio b| ≤ 1 / M := by
    have e : t - setRatio b = (below M (setRatio b : ℝ) - M * setRatio b) / M := by rw [ht]; field_simp
    rw [e, abs_div, abs_of_pos hM0]
    refine div_le_div_of_nonneg_right ?_ hM0.le
    rw [abs_le]
    constructor <;> linarith
  have hexp : Expect (rounded M (TKb K) b (setRatio b)) := by
    have e1 := fun E => attempt_expect (M := M) hM (show 2 ≤ b.n1 by omega) E
    have e2 := fun E => attempt_expect (M := M) hM (show 2 ≤ b.n2 by omega) E
    refine ⟨fun f g x => ?_, fun a f x => ?_, fun f g h x => ?_, fun x => ?_⟩
    · unfold rounded
      rw [(e1 _).add (fun A => f (A, x.2)) (fun A => g (A, x.2)), (e2 _).add (fun B => f (x.1, B)) (fun B => g (x.1, B))]
      ring
    · unfold rounded
      rw [(e1 _).mul a (fun A => f (A, x.2)), (e2 _).mul a (fun B => f (x.1, B))]
      ring
    · unfold rounded
      rw [← ht]
      exact add_le_add (mul_le_mul_of_nonneg_left ((e1 _).le _ _ (fun A => h (A, x.2)) _) t0)
        (mul_le_mul_of_nonneg_left ((e2 _).le _ _ (fun B => h (x.1, B)) _) (by linarith))
    · unfold rounded
      rw [(e1 _).one, (e2 _).one]
      ring
  rw [← C182_posterior hK]
  have key := perturb hexp (P := next (table (TKb K) b (setRatio b))) (η := (6 * (b.n1 + b.n2) + 1) / M) (by positivity) (fun f m w a c x => ?_)
    (f := guess b K k i j) (c := 1 - p ^ (2 * b.n1 + 2 * b.n2)) (by linarith) (by linarith) (N := 2 * b.n1 + 2 * b.n2) (by omega)
    (fun l x => by
      have := hc l (guess b K k i j) 0 1 (fun x => (guess_between hK k i j x).1) (fun x => (guess_between hK k i j x).2) x
      rwa [sub_zero, mul_one] at this) l x
  · refine key.trans (le_of_eq ?_)
    ring
  · have w0 : 0 ≤ w := by linarith [a x, c x]
    have osc : ∀ y z, |f z - f y| ≤ w := fun y z => by
      rw [abs_le]
      constructor <;> linarith [a y, c y, a z, c z]
    have d1 := C186_attempt hM (show 2 ≤ b.n1 by omega) (fun A => E (TKb K) b A x.2) (f := fun A => f (A, x.2)) (fun A A' => osc (A, x.2) (A', x.2)) x.1
    have d2 := C186_attempt hM (show 2 ≤ b.n2 by omega) (fun B => E (TKb K) b x.1 B) (f := fun B => f (x.1, B)) (fun B B' => osc (x.1, B) (x.1, B')) x.2
    have k1 := kernel_nonneg (show 2 ≤ b.n1 by omega) (fun A => E (TKb K) b A x.2)
    have k2 := kernel_nonneg (show 2 ≤ b.n2 by omega) (fun B => E (TKb K) b x.1 B)
    have s1 := kernel_sum (fun A => E (TKb K) b A x.2)
    have s2 := kernel_sum (fun B => E (TKb K) b x.1 B)
    have l1 := next_low k1 s1 (f := fun A => f (A, x.2)) (fun A => a (A, x.2)) x.1
    have u1 := next_le k1 s1 (f := fun A => f (A, x.2)) (fun A => c (A, x.2)) x.1
    have l2 := next_low k2 s2 (f := fun B => f (x.1, B)) (fun B => a (x.1, B)) x.2
    have u2 := next_le k2 s2 (f := fun B => f (x.1, B)) (fun B => c (x.1, B)) x.2
    rw [next_table]
    unfold rounded
    rw [← ht]
    generalize MH.rounded M (fun A => E (TKb K) b A x.2) (fun A => f (A, x.2)) x.1 = R1 at *
    generalize MH.rounded M (fun B => E (TKb K) b x.1 B) (fun B => f (x.1, B)) x.2 = R2 at *
    generalize next (kernel fun A => E (TKb K) b A x.2) (fun A => f (A, x.2)) x.1 = N1 at *
    generalize next (kernel fun B => E (TKb K) b x.1 B) (fun B => f (x.1, B)) x.2 = N2 at *
    have e : t * R1 + (1 - t) * R2 - (setRatio b * N1 + (1 - setRatio b) * N2) =
        t * (R1 - N1) + (1 - t) * (R2 - N2) + (t - setRatio b) * (N1 - N2) := by ring
    rw [e]
    have h12 : |N1 - N2| ≤ w := by
      rw [abs_le]
      constructor <;> linarith
    have m1 : |t * (R1 - N1)| ≤ 6 * b.n1 / M * w := by
      rw [abs_mul, abs_of_nonneg t0]
      exact (mul_le_of_le_one_left (abs_nonneg _) t1).trans d1
    have m2 : |(1 - t) * (R2 - N2)| ≤ 6 * b.n2 / M * w := by
      rw [abs_mul, abs_of_nonneg (by linarith : 0 ≤ 1 - t)]
      exact (mul_le_of_le_one_left (abs_nonneg _) (by linarith)).trans d2
    have m3 : |(t - setRatio b) * (N1 - N2)| ≤ 1 / M * w := by
      rw [abs_mul]
      exact mul_le_mul hd h12 (abs_nonneg _) (by positivity)
    refine ((abs_add_le _ _).trans (add_le_add ((abs_add_le _ _).trans (add_le_add m1 m2)) m3)).trans (le_of_eq ?_)
    ring

example := C186_metropolis (b := { movies with n1 := 3, n2 := 3 }) (K := 2) (by norm_num) le_rfl le_rfl

/-- Mean of `f` after a step of the heat bath with weights `q1 B` for the first set and `q2 A` for the second
(recommend.c:2104-2125; as `RC.round`). -/
noncomputable def weightedRound (b : Bi) (q1 : (Fin b.n2 → Fin b.n2) → Fin b.n1 → (Fin b.n1 → Fin b.n1) → Fin b.n1 → ℝ)
    (q2 : (Fin b.n1 → Fin b.n1) → Fin b.n2 → (Fin b.n2 → Fin b.n2) → Fin b.n2 → ℝ)
    (f : (Fin b.n1 → Fin b.n1) × (Fin b.n2 → Fin b.n2) → ℝ) (x : (Fin b.n1 → Fin b.n1) × (Fin b.n2 → Fin b.n2)) : ℝ :=
  weighted (q1 x.2) (List.finRange b.n1) (fun A => weighted (q2 A) (List.finRange b.n2) (fun B => f (A, B)) x.2) x.1

/-- **C186** for `GibbsMultiLinkScoreKState`. -/
theorem C186_heat_bath (hK : 0 < K) (n1 : 0 < b.n1) (n2 : 0 < b.n2) : ∃ c C : ℝ, 0 ≤ c ∧ c < 1 ∧
    ∀ M q1 q2, (∀ B, Near M (fun A => E (TKb K) b A B) (q1 B)) → (∀ A, Near M (fun B => E (TKb K) b A B) (q2 A)) →
      ∀ (k : Fin K) (i : Fin b.n1) (j : Fin b.n2) (l : ℕ) x,
        |((weightedRound b q1 q2)^[l] (guess b K k i j)) x - posterior b K k i j| ≤ c ^ l + C / M := by
  obtain ⟨D, hD, hc⟩ := (C179_converges (TKb K) b n1 n2).2
  have i1 : Nonempty (Fin b.n1) := ⟨⟨0, n1⟩⟩
  have i2 : Nonempty (Fin b.n2) := ⟨⟨0, n2⟩⟩
  have hD0 : 0 ≤ D := by have := hD id id id id; linarith
  have hle : ∀ n : ℕ, 0 < n → Real.exp (-D) / n ≤ 1 := by
    intro n hn
    have hn1 : (1 : ℝ) ≤ n := by exact_mod_cast hn
    rw [div_le_one (by linarith)]
    exact (Real.exp_le_one_iff.2 (by linarith)).trans hn1
  have hpos : ∀ n : ℕ, 0 < n → 0 < Real.exp (-D) / n := fun n hn => div_pos (Real.exp_pos _) (by exact_mod_cast hn)
  have q0 : 0 < (Real.exp (-D) / b.n1) ^ b.n1 * (Real.exp (-D) / b.n2) ^ b.n2 := mul_pos (pow_pos (hpos _ n1) _) (pow_pos (hpos _ n2) _)
  have q1 := mul_le_one₀ (pow_le_one₀ (n := b.n1) (hpos _ n1).le (hle _ n1)) (pow_pos (hpos _ n2) b.n2).le
    (pow_le_one₀ (n := b.n2) (hpos _ n2).le (hle _ n2))
  obtain ⟨c, hcd⟩ : ∃ c, c = 1 - (Real.exp (-D) / b.n1) ^ b.n1 * (Real.exp (-D) / b.n2) ^ b.n2 := ⟨_, rfl⟩
  have c0 : 0 ≤ c := by linarith
  have c1 : c < 1 := by linarith
  refine ⟨c, 8 * (b.n1 * b.n1 + b.n2 * b.n2) / (1 - c), c0, c1, fun M w1 w2 h1 h2 k i j l x => ?_⟩
  have e1 := fun B => weighted_expect (h1 B) (List.finRange b.n1)
  have e2 := fun A => weighted_expect (h2 A) (List.finRange b.n2)
  have hexp : Expect (weightedRound b w1 w2) := by
    refine ⟨fun f g x => ?_, fun a f x => ?_, fun f g h x => ?_, fun x => ?_⟩
    · unfold weightedRound
      simp only [(e2 _).add, (e1 _).add]
    · unfold weightedRound
      simp only [(e2 _).mul, (e1 _).mul]
    · exact (e1 _).le _ _ (fun A => (e2 A).le _ _ (fun B => h (A, B)) x.2) x.1
    · unfold weightedRound
      simp only [(e2 _).one, (e1 _).one]
  rw [← C182_posterior hK]
  have key := perturb hexp (P := round (TKb K) b) (η := b.n1 * (4 * b.n1 / M) + b.n2 * (4 * b.n2 / M)) (by positivity) (fun f m w a d x => ?_)
    (f := guess b K k i j) c0 c1 (N := 1) one_pos (fun l x => by
      have := hc l (guess b K k i j) 0 1 (fun x => (guess_between hK k i j x).1) (fun x => (guess_between hK k i j x).2) x
      rw [sub_zero, mul_one, ← hcd] at this
      rwa [Nat.div_one]) l x
  · rw [Nat.div_one] at key
    refine key.trans (le_of_eq ?_)
    push_cast
    ring
  · -- The second set first, then the first set.
    have w0 : 0 ≤ w := by linarith [a x, d x]
    obtain ⟨G, hG⟩ : ∃ G : (Fin b.n1 → Fin b.n1) → ℝ,
        G = fun A => sweep (fun B => E (TKb K) b A B) (List.finRange b.n2) (fun B => f (A, B)) x.2 := ⟨_, rfl⟩
    obtain ⟨H, hH⟩ : ∃ H : (Fin b.n1 → Fin b.n1) → ℝ,
        H = fun A => weighted (w2 A) (List.finRange b.n2) (fun B => f (A, B)) x.2 := ⟨_, rfl⟩
    have hGH : ∀ A, |H A - G A| ≤ b.n2 * (4 * b.n2 / M) * w := fun A => by
      have := C186_sweep (h2 A) (f := fun B => f (A, B)) (fun B => a (A, B)) (fun B => d (A, B)) (List.finRange b.n2) x.2
      rw [List.length_finRange] at this
      rw [hG, hH]
      exact this
    have g0 : ∀ A, m ≤ G A := fun A => by rw [hG]; exact sweep_low (f := fun B => f (A, B)) (fun B => a (A, B)) _ _
    have g1 : ∀ A, G A ≤ m + w := fun A => by rw [hG]; exact sweep_le (f := fun B => f (A, B)) (fun B => d (A, B)) _ _
    have s1 := C186_sweep (h1 x.2) g0 g1 (List.finRange b.n1) x.1
    rw [List.length_finRange] at s1
    have hconst : ∀ r : ℝ, weighted (w1 x.2) (List.finRange b.n1) (fun _ => r) x.1 = r := fun r => by
      have := (e1 x.2).mul r (fun _ => 1) x.1
      rw [(e1 x.2).one] at this
      simpa using this
    have up := (e1 x.2).le H (fun A => G A + b.n2 * (4 * b.n2 / M) * w) (fun A => by linarith [(abs_le.1 (hGH A)).2]) x.1
    have lo := (e1 x.2).le G (fun A => H A + b.n2 * (4 * b.n2 / M) * w) (fun A => by linarith [(abs_le.1 (hGH A)).1]) x.1
    rw [(e1 x.2).add G fun _ => b.n2 * (4 * b.n2 / M) * w, hconst] at up
    rw [(e1 x.2).add H fun _ => b.n2 * (4 * b.n2 / M) * w, hconst] at lo
    have t1 : weightedRound b w1 w2 f x = weighted (w1 x.2) (List.finRange b.n1) H x.1 := by rw [hH]; rfl
    have t2 : round (TKb K) b f x = sweep (fun A => E (TKb K) b A x.2) (List.finRange b.n1) G x.1 := by rw [hG]; rfl
    rw [t1, t2, add_mul]
    have := abs_le.1 s1
    rw [abs_le]
    constructor <;> linarith [this.1, this.2]

example := C186_heat_bath (b := movies) (K := 2) (by norm_num) (by decide) (by decide)

end RC
