import Verif.Tools.Spec
import Mathlib.Data.Nat.Choose.Cast
import Mathlib.Algebra.Order.BigOperators.Group.List
import Mathlib.Algebra.BigOperators.Field
import Mathlib.Tactic.FieldSimp
import Mathlib.Tactic.Ring
import Mathlib.Tactic.NormNum
import Mathlib.Tactic.Positivity

set_option linter.unusedSimpArgs false

/-! # C39 binomials and memo tables, C41 sample statistics, C42 factorial, C43 line count -/

namespace Tools
open RG

/-! ## C39 -/

theorem chooseLoop_eq (m : ℕ) : ∀ (steps i : ℕ) (n k : Int), n - k = m →
    chooseLoop n k steps (i + 1 : ℕ) (Nat.choose (m + i) i) = Nat.choose (m + i + steps) (i + steps) := by
  intro steps
  induction steps with
  | zero => intro i n k _; rfl
  | succ s ih =>
    intro i n k h
    unfold chooseLoop
    have e : ((Nat.choose (m + i) i : ℕ) : ℚ) * (((n - k + ((i + 1 : ℕ) : Int) : Int) : ℚ) / (((i + 1 : ℕ) : Int) : ℚ))
        = ((Nat.choose (m + (i + 1)) (i + 1) : ℕ) : ℚ) := by
      rw [h]
      have h1 := Nat.add_one_mul_choose_eq (m + i) i
      have h2 : ((m + i + 1 : ℕ) : ℚ) * ((m + i).choose i : ℕ) = ((m + i + 1).choose (i + 1) : ℕ) * ((i + 1 : ℕ) : ℚ) := by
        exact_mod_cast h1
      have h3 : ((i + 1 : ℕ) : ℚ) ≠ 0 := by positivity
      push_cast at h2 h3 ⊢
      rw [mul_div_assoc', div_eq_iff h3]
      rw [show m + (i + 1) = m + i + 1 by ring, ← h2]
      ring
    rw [e]
    have := ih (i + 1) n k h
    rw [show ((i + 1 : ℕ) : Int) + 1 = ((i + 1 + 1 : ℕ) : Int) by push_cast; ring, this]
    congr 2 <;> ring

/-- C39. In exact arithmetic `Choose(n,k)` is the binomial coefficient, for all `0 ≤ k` and
`0 ≤ n` (`0` when `k > n`). -/
theorem C39_choose (n k : ℕ) : Choose n k = Nat.choose n k := by
  unfold Choose
  by_cases h : (k : Int) > n
  · have : n < k := by exact_mod_cast h
    rw [if_pos h]
    simp [Nat.choose_eq_zero_of_lt this]
  · rw [if_neg h]
    have hkn : k ≤ n := by push Not at h; exact_mod_cast h
    have key : ∀ j : ℕ, j ≤ n →
        ⌊chooseLoop n j (j : Int).toNat 1 1 + 1 / 2⌋ = (Nat.choose n j : Int) := by
      intro j hj
      have := chooseLoop_eq (n - j) j 0 n j (by omega)
      simp only [Nat.add_zero, Nat.choose_zero_right, Nat.cast_one, Nat.zero_add] at this
      rw [Int.toNat_natCast]
      rw [this, Nat.sub_add_cancel hj, Int.floor_eq_iff]
      constructor <;> push_cast <;> linarith
    simp only
    have ht : (n : Int).tdiv 2 = ((n / 2 : ℕ) : Int) := by
      rw [Int.tdiv_eq_ediv_of_nonneg (by omega)]; simp
    rw [ht]
    by_cases h2 : (k : Int) > ((n / 2 : ℕ) : Int)
    · simp only [h2, if_true]
      have := key (n - k) (by omega)
      rw [Nat.choose_symm hkn] at this
      rw [← this, Nat.cast_sub hkn]
    · simp only [h2, if_false]
      exact key k hkn

/-- Outside its domain: for a negative second argument `Choose` answers 1 (not 0). -/
theorem C39_choose_negative (n : ℕ) (k : Int) (hk : k < 0) : Choose n k = 1 := by
  unfold Choose
  have ht : (n : Int).tdiv 2 = ((n / 2 : ℕ) : Int) := by
    rw [Int.tdiv_eq_ediv_of_nonneg (by omega)]; simp
  rw [if_neg (by omega), ht]
  simp only
  rw [if_neg (by omega), Int.toNat_of_nonpos (by omega)]
  simp only [chooseLoop]
  rw [Int.floor_eq_iff]; norm_num

/-- Entries of a table are either unset or right. -/
def TableOK (t : Table) : Prop :=
  ∀ a b, a < t.size → b ≤ a → t.at' a b < 0 ∨ t.at' a b = Real.log (a.choose b)

theorem fastLogChoose_spec {t : Table} (ht : TableOK t) {r l : ℕ} (h : l ≤ r) :
    ∃ t', FastLogChoose r l t = some (Real.log (r.choose l), t') ∧ TableOK t' ∧ t'.size = t.size := by
  unfold FastLogChoose LogChoose
  by_cases hr : r < t.size
  · have hl : l < t.size := by omega
    by_cases hn : t.at' r l < 0
    · simp only [hr, hl, hn, if_true, h]
      refine ⟨_, rfl, ?_, rfl⟩
      intro a b ha hb
      simp only
      split_ifs with e
      · right; rw [e.1, e.2]
      · exact ht a b ha hb
    · simp only [hr, hl, hn, if_true, if_false]
      refine ⟨t, ?_, ht, rfl⟩
      rcases ht r l hr h with h' | h'
      · exact (hn h').elim
      · rw [h']
  · simp only [hr, if_false, h, if_true]
    exact ⟨t, rfl, ht, rfl⟩

/-- C39. The memo table is transparent: for every table size and every history of queries inside
the domain, every answer is the logarithm of the binomial coefficient (hence never depends on what
was asked before), and no access is out of bounds. -/
theorem C39_memo_transparent (size : ℕ) (qs : List (ℕ × ℕ)) (hq : ∀ q ∈ qs, q.2 ≤ q.1) :
    ∃ t, queries (InitializeFastLogChoose size) qs =
      some (qs.map fun q => Real.log ((q.1.choose q.2 : ℕ) : ℝ), t) := by
  have gen : ∀ (qs : List (ℕ × ℕ)) (t : Table), (∀ q ∈ qs, q.2 ≤ q.1) → TableOK t →
      ∃ t', queries t qs = some (qs.map fun q => Real.log ((q.1.choose q.2 : ℕ) : ℝ), t') := by
    intro qs
    induction qs with
    | nil => intro t _ _; exact ⟨t, rfl⟩
    | cons q qs ih =>
      intro t hq ht
      obtain ⟨r, l⟩ := q
      obtain ⟨t1, e1, h1, _⟩ := fastLogChoose_spec ht (hq (r, l) (by simp))
      obtain ⟨t2, e2⟩ := ih t1 (fun q hq' => hq q (by simp [hq'])) h1
      refine ⟨t2, ?_⟩
      simp only [queries, e1, Option.bind_eq_bind, Option.bind_some, e2]
      rfl
  exact gen qs _ hq fun a b _ _ => Or.inl (by simp [InitializeFastLogChoose])

/-- C39. `LogChoose` and `Choose` agree: the logarithm of the value `Choose` returns. -/
theorem C39_log_of_choose (n k : ℕ) (h : k ≤ n) : LogChoose n k = some (Real.log (Choose n k : ℝ)) := by
  rw [C39_choose]; simp [LogChoose, h]

/-- Outside the domain a small table is read out of bounds: the query is undefined. -/
theorem C39_memo_out_of_domain (size : ℕ) (r l : ℕ) (h : r < size) (hl : size ≤ l) :
    FastLogChoose r l (InitializeFastLogChoose size) = none := by
  simp [FastLogChoose, InitializeFastLogChoose, h, Nat.not_lt.2 hl]

example : ∃ t, queries (InitializeFastLogChoose 3) [(2, 1), (5, 2), (2, 1), (2, 2)] =
    some ([Real.log (2 : ℕ), Real.log (10 : ℕ), Real.log (2 : ℕ), Real.log (1 : ℕ)], t) :=
  C39_memo_transparent 3 [(2, 1), (5, 2), (2, 1), (2, 2)] (by decide)

/-- C39. The precomputed vectors are transparent too: table or no table, the answer is `log r!`,
respectively `log r` for `r ≥ 1`. -/
theorem C39_fast_log (size r : ℕ) :
    FastLogFact r (InitializeFastLogFact size) size = some (Real.log (r.factorial : ℝ)) ∧
    FastLog r (InitializeFastLog size) size = if r = 0 then none else some (Real.log (r : ℝ)) := by
  constructor
  · unfold FastLogFact InitializeFastLogFact
    split_ifs with h
    · simp [h]
    · rfl
  · unfold FastLog InitializeFastLog
    split_ifs with h h0 h0
    · subst h0; simp [List.getElem?_map, List.getElem?_range h]
    · simp [h, h0]
    · rfl
    · rfl

/-- C39. `InitializeHarmonicList` holds the harmonic numbers. -/
theorem C39_harmonic (size : ℕ) (hs : 0 < size) :
    ∃ l, InitializeHarmonicList size = some l ∧ l.length = size ∧
      ∀ i, i < size → l[i]? = some (∑ j ∈ Finset.range i, 1 / ((j : ℚ) + 1)) := by
  have loop : ∀ (steps i : ℕ) (prev : ℚ), prev = ∑ j ∈ Finset.range i, 1 / ((j : ℚ) + 1) →
      (harmonicLoop steps (i + 1) prev).length = steps ∧ ∀ k, k < steps →
        (harmonicLoop steps (i + 1) prev)[k]? = some (∑ j ∈ Finset.range (i + 1 + k), 1 / ((j : ℚ) + 1)) := by
    intro steps
    induction steps with
    | zero => intro i prev _; simp [harmonicLoop]
    | succ s ih =>
      intro i prev hp
      have hv : prev + 1 / ((i + 1 : ℕ) : ℚ) = ∑ j ∈ Finset.range (i + 1), 1 / ((j : ℚ) + 1) := by
        rw [Finset.sum_range_succ, hp]; push_cast; rfl
      obtain ⟨h1, h2⟩ := ih (i + 1) _ hv
      simp only [harmonicLoop]
      refine ⟨by rw [List.length_cons, h1], ?_⟩
      intro k hk
      cases k with
      | zero => simp only [List.getElem?_cons_zero, Nat.add_zero]; rw [hv]
      | succ k =>
        rw [List.getElem?_cons_succ, h2 k (by omega)]
        congr 2; congr 1; omega
  obtain ⟨n, rfl⟩ : ∃ n, size = n + 1 := ⟨size - 1, by omega⟩
  obtain ⟨h1, h2⟩ := loop n 0 0 (by simp)
  refine ⟨_, by simp [InitializeHarmonicList]; rfl, by simpa using h1, ?_⟩
  intro i hi
  cases i with
  | zero => simp
  | succ i =>
    rw [List.getElem?_cons_succ]
    have := h2 i (by omega)
    simp only [Nat.zero_add] at this
    rw [this]
    congr 2; congr 1; omega

example : InitializeHarmonicList 4 = some [0, 1, 3/2, 11/6] := by decide +kernel

/-! ## C41 sample statistics -/

theorem accumulate_eq (f : ℝ → ℝ) (l : List ℝ) : accumulate f l = (l.map f).sum := by
  have gen : ∀ (l : List ℝ) (a : ℝ), l.foldl (fun m x => m + f x) a = a + (l.map f).sum := by
    intro l
    induction l with
    | nil => simp
    | cons x l ih => intro a; simp [ih, add_assoc]
  simp [accumulate, gen]

theorem sum_le_card (l : List ℝ) (b : ℝ) (h : ∀ x ∈ l, x ≤ b) : l.sum ≤ l.length * b := by
  induction l with
  | nil => simp
  | cons x l ih =>
    have h1 := ih fun y hy => h y (by simp [hy])
    have h2 := h x (by simp)
    simp only [List.sum_cons, List.length_cons]; push_cast; linarith

theorem card_le_sum (l : List ℝ) (b : ℝ) (h : ∀ x ∈ l, b ≤ x) : l.length * b ≤ l.sum := by
  induction l with
  | nil => simp
  | cons x l ih =>
    have h1 := ih fun y hy => h y (by simp [hy])
    have h2 := h x (by simp)
    simp only [List.sum_cons, List.length_cons]; push_cast; linarith

/-- C41. The mean of a non-empty array is its arithmetic mean and lies between any bounds of the
data. -/
theorem C41_mean (data : List ℝ) (hd : data ≠ []) :
    ∃ m, mean data = some m ∧ m * data.length = data.sum ∧
      ∀ a b, (∀ x ∈ data, a ≤ x ∧ x ≤ b) → a ≤ m ∧ m ≤ b := by
  have hn : data.length ≠ 0 := by simpa using hd
  have hp : (0 : ℝ) < data.length := by exact_mod_cast Nat.pos_of_ne_zero hn
  refine ⟨data.sum / data.length, by simp [mean, hn, accumulate_eq], by field_simp, ?_⟩
  intro a b h
  constructor
  · rw [le_div_iff₀ hp]
    have := card_le_sum data a fun x hx => (h x hx).1
    linarith
  · rw [div_le_iff₀ hp]
    have := sum_le_card data b fun x hx => (h x hx).2
    linarith

theorem sum_dev (l : List ℝ) (m : ℝ) :
    (l.map fun x => (x - m) ^ 2).sum = (l.map fun x => x * x).sum - 2 * m * l.sum + l.length * m ^ 2 := by
  induction l with
  | nil => simp
  | cons x l ih =>
    simp only [List.map_cons, List.sum_cons, List.length_cons, ih]
    push_cast; ring

/-- C41. `stddev` is the population standard deviation: its square is the mean squared deviation
from the mean, for every non-empty array (so the `else 0` branch, in exact arithmetic, is only
taken when all values are equal). -/
theorem C41_stddev (data : List ℝ) (hd : data ≠ []) :
    ∃ m s, mean data = some m ∧ stddev data = some s ∧ 0 ≤ s ∧
      s ^ 2 * data.length = (data.map fun x => (x - m) ^ 2).sum ∧
      (s = 0 ↔ ∀ x ∈ data, x = m) := by
  have hn : data.length ≠ 0 := by simpa using hd
  have hp : (0 : ℝ) < data.length := by exact_mod_cast Nat.pos_of_ne_zero hn
  set m := data.sum / data.length with hm
  set m2 := (data.map fun x => x * x).sum / data.length with hm2
  have hdev : (m2 - m * m) * data.length = (data.map fun x => (x - m) ^ 2).sum := by
    rw [sum_dev, hm2, hm]; field_simp; ring
  have hnn : 0 ≤ (data.map fun x => (x - m) ^ 2).sum := by
    apply List.sum_nonneg
    intro y hy
    obtain ⟨x, _, rfl⟩ := List.mem_map.1 hy
    positivity
  have hv : 0 ≤ m2 - m * m := by
    by_contra hc
    push Not at hc
    have : (m2 - m * m) * data.length < 0 := mul_neg_of_neg_of_pos hc hp
    linarith
  have hs : (if m2 - m * m > 0 then Real.sqrt (m2 - m * m) else 0) = Real.sqrt (m2 - m * m) := by
    split_ifs with h
    · rfl
    · rw [show m2 - m * m = 0 by linarith]; simp
  refine ⟨m, Real.sqrt (m2 - m * m), by simp [mean, hn, accumulate_eq, hm], ?_, Real.sqrt_nonneg _,
    ?_, ?_⟩
  · simp only [stddev, hn, if_false, accumulate_eq, List.map_id', ← hm, ← hm2, hs]
  · rw [Real.sq_sqrt hv, hdev]
  · rw [Real.sqrt_eq_zero hv]
    constructor
    · intro h x hx
      rw [h, zero_mul] at hdev
      have hall : ∀ y ∈ data.map (fun x => (x - m) ^ 2), y = 0 := by
        have hz : ∀ (l : List ℝ), (∀ y ∈ l, 0 ≤ y) → l.sum = 0 → ∀ y ∈ l, y = 0 := by
          intro l
          induction l with
          | nil => simp
          | cons z l ih =>
            intro h0 hs0 y hy
            have h1 := h0 z (by simp)
            have h2 : 0 ≤ l.sum := List.sum_nonneg fun y hy => h0 y (by simp [hy])
            simp only [List.sum_cons] at hs0
            rcases List.mem_cons.1 hy with rfl | hy
            · linarith
            · exact ih (fun y hy => h0 y (by simp [hy])) (by linarith) y hy
        refine hz _ ?_ hdev.symm
        intro y hy
        obtain ⟨x, _, rfl⟩ := List.mem_map.1 hy
        positivity
      have := hall ((x - m) ^ 2) (List.mem_map.2 ⟨x, hx, rfl⟩)
      have := pow_eq_zero_iff (n := 2) (by norm_num) |>.1 this
      linarith
    · intro h
      have : (data.map fun x => (x - m) ^ 2).sum = 0 := by
        apply List.sum_eq_zero
        intro y hy
        obtain ⟨x, hx, rfl⟩ := List.mem_map.1 hy
        rw [h x hx]; ring
      rw [this] at hdev
      rcases mul_eq_zero.1 hdev with h | h
      · exact h
      · exact (hp.ne' h).elim

example : ∃ m s, mean [1, 3] = some m ∧ stddev [1, 3] = some s ∧ m = 2 ∧ s ^ 2 = 1 := by
  obtain ⟨m, s, h1, h2, _, h3, _⟩ := C41_stddev [1, 3] (by simp)
  refine ⟨m, s, h1, h2, ?_, ?_⟩ <;>
  · have : m = 2 := by
      have h1' := h1
      simp only [mean, accumulate_eq] at h1'
      norm_num at h1'
      linarith
    subst this
    first
    | rfl
    | (norm_num at h3 ⊢; exact h3)

/-- C41. `max` returns an element of the array that is at least every element; `min` one that is
at most every element; both are defined exactly on non-empty arrays. -/
theorem C41_max_min (data : List ℚ) (hd : data ≠ []) :
    (∃ m ∈ data, cmax data = some m ∧ ∀ x ∈ data, x ≤ m) ∧
    (∃ m ∈ data, cmin data = some m ∧ ∀ x ∈ data, m ≤ x) := by
  cases data with
  | nil => exact (hd rfl).elim
  | cons x xs =>
    constructor
    · have gen : ∀ (l : List ℚ) (a : ℚ),
          let m := l.foldl (fun m y => if y > m then y else m) a
          (m = a ∨ m ∈ l) ∧ a ≤ m ∧ ∀ y ∈ l, y ≤ m := by
        intro l
        induction l with
        | nil => intro a; simp
        | cons y l ih =>
          intro a
          simp only [List.foldl_cons]
          obtain ⟨h1, h2, h3⟩ := ih (if y > a then y else a)
          refine ⟨?_, ?_, ?_⟩
          · rcases h1 with h1 | h1
            · split_ifs at h1 ⊢ <;> simp [h1]
            · right; simp [h1]
          · refine le_trans ?_ h2; split_ifs with h <;> linarith
          · intro z hz
            rcases List.mem_cons.1 hz with rfl | hz
            · refine le_trans ?_ h2; split_ifs with h <;> linarith
            · exact h3 z hz
      obtain ⟨h1, h2, h3⟩ := gen xs x
      refine ⟨_, ?_, rfl, ?_⟩
      · rcases h1 with h1 | h1
        · rw [h1]; simp
        · exact List.mem_cons_of_mem _ h1
      · intro y hy
        rcases List.mem_cons.1 hy with rfl | hy
        · exact h2
        · exact h3 y hy
    · have gen : ∀ (l : List ℚ) (a : ℚ),
          let m := l.foldl (fun m y => if y < m then y else m) a
          (m = a ∨ m ∈ l) ∧ m ≤ a ∧ ∀ y ∈ l, m ≤ y := by
        intro l
        induction l with
        | nil => intro a; simp
        | cons y l ih =>
          intro a
          simp only [List.foldl_cons]
          obtain ⟨h1, h2, h3⟩ := ih (if y < a then y else a)
          refine ⟨?_, ?_, ?_⟩
          · rcases h1 with h1 | h1
            · split_ifs at h1 ⊢ <;> simp [h1]
            · right; simp [h1]
          · refine le_trans h2 ?_; split_ifs with h <;> linarith
          · intro z hz
            rcases List.mem_cons.1 hz with rfl | hz
            · refine le_trans h2 ?_; split_ifs with h <;> linarith
            · exact h3 z hz
      obtain ⟨h1, h2, h3⟩ := gen xs x
      refine ⟨_, ?_, rfl, ?_⟩
      · rcases h1 with h1 | h1
        · rw [h1]; simp
        · exact List.mem_cons_of_mem _ h1
      · intro y hy
        rcases List.mem_cons.1 hy with rfl | hy
        · exact h2
        · exact h3 y hy

example : cmax [3, -1, 7, 2] = some 7 ∧ cmin [3, -1, 7, 2] = some (-1) := by decide +kernel

/-! ## C42 factorial -/

theorem fact20 : Nat.factorial 20 = 2432902008176640000 := by norm_num [Nat.factorial]
theorem fact21 : Nat.factorial 21 = 51090942171709440000 := by norm_num [Nat.factorial]

/-- C42. `fact a` returns `a!` for `0 ≤ a ≤ 20` and only then: from 21 on the 64-bit product
overflows (undefined), and for negative arguments the recursion never ends. -/
theorem C42_fact (a : Int) :
    (0 ≤ a → a ≤ 20 → ∀ fuel : ℕ, a < fuel → fact fuel a = .ok (a.toNat.factorial : Int)) ∧
    (20 < a → ∀ fuel : ℕ, a < fuel → fact fuel a = .ub) ∧
    (a < 0 → ∀ fuel : ℕ, fact fuel a = .starved) := by
  have pos : ∀ (n fuel : ℕ), n < fuel →
      fact fuel n = if n ≤ 20 then .ok (n.factorial : Int) else .ub := by
    intro n
    induction n with
    | zero =>
      intro fuel h
      obtain ⟨f, rfl⟩ : ∃ f, fuel = f + 1 := ⟨fuel - 1, by omega⟩
      simp [fact]
    | succ n ih =>
      intro fuel h
      obtain ⟨f, rfl⟩ : ∃ f, fuel = f + 1 := ⟨fuel - 1, by omega⟩
      have hz : ((n + 1 : ℕ) : Int) ≠ 0 := by omega
      unfold fact
      rw [if_neg hz, show ((n + 1 : ℕ) : Int) - 1 = (n : Int) by push_cast; ring, ih f (by omega)]
      have he : ((n + 1 : ℕ) : Int) * (n.factorial : Int) = ((n + 1).factorial : Int) := by
        rw [Nat.factorial_succ]; push_cast; ring
      by_cases h20 : n ≤ 20
      · simp only [h20, if_true, Res.bind_ok, mul64, he]
        by_cases h20' : n + 1 ≤ 20
        · have hle : (n + 1).factorial ≤ Nat.factorial 20 := Nat.factorial_le h20'
          rw [fact20] at hle
          simp only [h20', if_true]
          rw [if_pos]
          have h0 : (0 : Int) ≤ ((n + 1).factorial : Int) := by positivity
          have h1 : ((n + 1).factorial : Int) ≤ 2432902008176640000 := by exact_mod_cast hle
          constructor
          · exact le_trans (by norm_num) h0
          · exact le_trans h1 (by norm_num)
        · have hge : Nat.factorial 21 ≤ (n + 1).factorial := Nat.factorial_le (by omega)
          rw [fact21] at hge
          have hge' : (51090942171709440000 : Int) ≤ ((n + 1).factorial : Int) := by exact_mod_cast hge
          rw [if_neg h20', if_neg]
          rintro ⟨_, h⟩
          exact absurd (hge'.trans h) (by norm_num)
      · have h20' : ¬ (n + 1 ≤ 20) := by omega
        simp [h20, h20']
  refine ⟨?_, ?_, ?_⟩
  · intro h0 h20 fuel hf
    obtain ⟨n, rfl⟩ := Int.eq_ofNat_of_zero_le h0
    rw [pos n fuel (by exact_mod_cast hf), if_pos (by omega)]
    simp
  · intro h20 fuel hf
    obtain ⟨n, rfl⟩ := Int.eq_ofNat_of_zero_le (show 0 ≤ a by omega)
    rw [pos n fuel (by exact_mod_cast hf), if_neg (by omega)]
  · intro h fuel
    induction fuel generalizing a with
    | zero => rfl
    | succ f ih =>
      unfold fact
      rw [if_neg (by omega), ih (a - 1) (by omega)]
      rfl

/-- C42. The product is defined exactly when it fits in 64 bits. -/
theorem C42_overflow (x y : Int) :
    (-2 ^ 63 ≤ x * y ∧ x * y < 2 ^ 63 → mul64 x y = .ok (x * y)) ∧
    (¬ (-2 ^ 63 ≤ x * y ∧ x * y < 2 ^ 63) → mul64 x y = .ub) := by
  unfold mul64
  norm_num only
  generalize x * y = z
  constructor
  · intro h
    rw [if_pos (by omega)]
  · intro h
    rw [if_neg (by omega)]

example : fact 30 5 = .ok 120 ∧ fact 30 21 = .ub ∧ fact 30 (-3) = .starved := by
  refine ⟨?_, ?_, ?_⟩ <;> rfl

/-! ## C43 number of lines of a file -/

theorem fgetsRest_nl : ∀ (room : ℕ) (s : List Char), s ≠ [] → 0 < room →
    (∀ b c, s = b ++ c → '\n' ∉ b → b.length < room) →
    (∃ b, '\n' ∉ b ∧ s = b ++ '\n' :: fgetsRest room s) ∨ ('\n' ∉ s ∧ fgetsRest room s = []) := by
  intro room
  induction room with
  | zero => intro s _ h0; omega
  | succ r ih =>
    intro s hs _ h
    cases s with
    | nil => exact (hs rfl).elim
    | cons c s =>
      simp only [fgetsRest]
      split_ifs with hc
      · left; exact ⟨[], by simp, by simp [hc]⟩
      · cases s with
        | nil => right; refine ⟨by simpa using fun e => hc e.symm, by cases r <;> rfl⟩
        | cons d s =>
          have hr : 0 < r := by
            have := h [c] (d :: s) rfl (by simpa using fun e => hc e.symm)
            simpa using this
          rcases ih (d :: s) (by simp) hr (fun b t e hb => by
            have := h (c :: b) t (by simp [e]) (by simp only [List.mem_cons, not_or]; exact ⟨fun e => hc e.symm, hb⟩)
            simpa using this) with ⟨b, hb, e⟩ | ⟨h1, h2⟩
          · left
            refine ⟨c :: b, by simp only [List.mem_cons, not_or]; exact ⟨fun e => hc e.symm, hb⟩, ?_⟩
            rw [List.cons_append, ← e]
          · right
            refine ⟨?_, h2⟩
            rw [List.mem_cons, not_or]; exact ⟨fun e => hc e.symm, h1⟩

/-- C43. When no line has 999 or more characters (newline not counted) `CountLinesInFile` returns
the number of lines, an unterminated last line included. -/
theorem C43_count_lines_partial (s : List Char) (hs : ShortLines 999 s) :
    CountLinesInFile s = lineCount s := by
  induction hn : s.length using Nat.strong_induction_on generalizing s with
  | _ n ih =>
    cases s with
    | nil => simp [CountLinesInFile, lineCount]
    | cons c s =>
      rw [CountLinesInFile]
      rcases fgetsRest_nl 999 (c :: s) (by simp) (by omega)
        (fun b t e hb => hs [] b t (by simpa using e) hb) with ⟨b, hb, e⟩ | ⟨h1, h2⟩
      · set rest := fgetsRest 999 (c :: s) with hrest
        have hlen : rest.length < n := by
          rw [← hn, e]; simp; omega
        rw [ih rest.length hlen rest ?_ rfl]
        · rw [e]
          unfold lineCount
          have hbc : b.count '\n' = 0 := List.count_eq_zero.2 hb
          simp only [List.count_append, hbc, List.count_cons_self, Nat.zero_add]
          by_cases hr : rest = []
          · simp [hr]
          · have : (b ++ '\n' :: rest).getLast? = rest.getLast? := by
              rw [List.getLast?_append]
              cases hrr : rest with
              | nil => exact (hr hrr).elim
              | cons x xs => 
                rw [List.getLast?_cons_cons]
                cases h : (x :: xs).getLast? with
                | none => simp at h
                | some z => rfl
            rw [this]
            have hne : b ++ '\n' :: rest ≠ [] := by simp
            simp only [hr, hne, ne_eq, not_false_eq_true, true_and]
            omega
        · intro a b' c' e'
          exact hs (b ++ '\n' :: a) b' c' (by rw [e, e']; simp)
      · rw [h2]
        unfold lineCount
        have hbc : (c :: s).count '\n' = 0 := List.count_eq_zero.2 h1
        have hl : (c :: s).getLast? ≠ some '\n' := fun h => h1 (List.mem_of_getLast? h)
        rw [hbc, if_pos ⟨by simp, hl⟩]
        simp [CountLinesInFile]

/-- C43 fails for long lines: a file with a single line of 999 characters and its newline is
counted as two lines. -/
theorem C43_long_line_counted_twice :
    let s := List.replicate 999 'a' ++ ['\n']
    lineCount s = 1 ∧ CountLinesInFile s = 2 := by
  have drop : ∀ n (t : List Char), fgetsRest n (List.replicate n 'a' ++ t) = t := by
    intro n
    induction n with
    | zero => intro t; simp [fgetsRest]
    | succ n ih => intro t; simp only [List.replicate_succ, List.cons_append, fgetsRest]; rw [if_neg (by decide), ih]
  refine ⟨?_, ?_⟩
  · have hc : List.count '\n' (List.replicate 999 'a') = 0 := by
      rw [List.count_replicate]; rfl
    unfold lineCount
    rw [List.count_append, hc, List.getLast?_append, if_neg]
    · rfl
    · rintro ⟨_, h⟩; exact h rfl
  · have e : List.replicate 999 'a' ++ ['\n'] = 'a' :: (List.replicate 998 'a' ++ ['\n']) := by
      rw [← List.cons_append, ← List.replicate_succ]
    have h1 := drop 999 ['\n']
    show CountLinesInFile (List.replicate 999 'a' ++ ['\n']) = 2
    rw [e] at h1 ⊢
    rw [CountLinesInFile, h1]
    simp [CountLinesInFile, fgetsRest]

example : ShortLines 999 "ab\n\nc".toList := by
  intro a b c e _
  have := congrArg List.length e
  simp at this
  omega

end Tools
