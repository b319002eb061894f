import Verif.RoundedLists

/-!
# C187: the scores printed are accurate with random numbers of finite resolution

C185 with a generator of `M` values instead of real numbers: there is a constant `C`, the same for all `M`, pairs, starts and
numbers of steps, such that the average over `m` samples is wrong by `δ` or more with probability at most
`C (1 / m + 1 / M) / δ²`. The attempts and sweeps are those of C186.
-/

open Finset

namespace MH

section
variable {Ω : Type*} {P : (Ω → ℝ) → Ω → ℝ} (hP : Expect P)
include hP

/-- Mean square of the sum of samples of a function whose means are later on within `β` of 0. -/
theorem run_square_bias {h : Ω → ℝ} (h1 : ∀ x, |h x| ≤ 1) {B β : ℝ} (hβ : 0 ≤ β)
    (hB : ∀ m x, |∑ k ∈ range m, (P^[k + 1] h) x| ≤ B + m * β) :
    ∀ (m : ℕ) (x : Ω), run P m (fun l => (l.map h).sum ^ 2) x ≤ m * (1 + 2 * (B + m * β))
  | 0, _ => by simp [run]
  | m + 1, x => by
    simp only [run, List.map_cons, List.sum_cons]
    have hle : ∀ y, run P m (fun l => (h y + (l.map h).sum) ^ 2) y ≤ ((m + 1 : ℕ) : ℝ) * (1 + 2 * (B + (m + 1 : ℕ) * β)) := by
      intro y
      have e : (fun l : List Ω => (h y + (l.map h).sum) ^ 2) =
          fun l => h y ^ 2 + (2 * h y * (l.map h).sum + (l.map h).sum ^ 2) := by
        funext l
        ring
      rw [e, run_add hP m (fun _ => h y ^ 2), run_const hP, run_add hP m (fun l => 2 * h y * (l.map h).sum), run_mul hP, run_sum hP]
      have a1 := run_square_bias h1 hβ hB m y
      have a2 : h y ^ 2 ≤ 1 := by
        rw [← sq_abs]
        exact pow_le_one₀ (abs_nonneg _) (h1 y)
      have a3 : h y * ∑ k ∈ range m, (P^[k + 1] h) y ≤ B + m * β := by
        refine (le_abs_self _).trans ?_
        rw [abs_mul]
        exact (mul_le_of_le_one_left (abs_nonneg _) (h1 y)).trans (hB m y)
      have a4 : (0 : ℝ) ≤ (m + 1) * β := by positivity
      push_cast
      nlinarith
    exact (hP.le _ _ hle x).trans_eq (hP.const _ x)

/-- As `average_error`, for means that come within `β` of `y` only. -/
theorem average_bias {c : ℝ} (h0 : 0 ≤ c) (h1 : c < 1) {N : ℕ} (hN : 0 < N) {β : ℝ} (hβ : 0 ≤ β)
    {f : Ω → ℝ} (f0 : ∀ x, 0 ≤ f x) (f1 : ∀ x, f x ≤ 1) {y : ℝ} (hy : 0 ≤ y ∧ y ≤ 1) (hf : ∀ k x, |(P^[k] f) x - y| ≤ c ^ (k / N) + β)
    {s : ℕ} (hs : 0 < s) (w : ℕ) {m : ℕ} (hm : 0 < m) (x : Ω) {δ : ℝ} (hδ : 0 < δ) :
    (P^[w] (run (P^[s]) m (wrong f y δ))) x ≤ ((1 + 2 * (N / (1 - c))) / m + 2 * β) / δ ^ 2 := by
  have hQ := hP.iterate s
  have hW := hP.iterate w
  have hm' : (0 : ℝ) < m := by exact_mod_cast hm
  have hit : ∀ k x, ((P^[s])^[k] fun x => f x - y) x = (P^[s * k] f) x - y := by
    intro k x
    rw [← Function.iterate_mul]
    exact (hP.iterate (s * k)).sub f y x
  have hB : ∀ m x, |∑ k ∈ range m, ((P^[s])^[k + 1] fun x => f x - y) x| ≤ N / (1 - c) + m * β := by
    intro m x
    have hsum : ∑ k ∈ range m, (c ^ (k / N) + β) ≤ N / (1 - c) + m * β := by
      rw [sum_add_distrib, sum_const, card_range, nsmul_eq_mul]
      linarith [sum_geometric h0 h1 hN m]
    refine (abs_sum_le_sum_abs _ _).trans (le_trans (sum_le_sum fun k _ => ?_) hsum)
    rw [hit]
    have hk : c ^ (s * (k + 1) / N) ≤ c ^ (k / N) := pow_le_pow_of_le_one h0 h1.le (Nat.div_le_div_right (by nlinarith))
    linarith [hf (s * (k + 1)) x]
  have hsq := run_square_bias hQ (h := fun x => f x - y) (fun x => by
    rw [abs_le]
    exact ⟨by linarith [f0 x, hy.2], by linarith [f1 x, hy.1]⟩) hβ hB m
  have hsum : ∀ l : List Ω, (l.map fun x => f x - y).sum = (l.map f).sum - l.length * y := by
    intro l
    induction l with
    | nil => simp
    | cons a l ih =>
      simp only [List.map_cons, List.sum_cons, List.length_cons, ih]
      push_cast
      ring
  have hch : ∀ x, run (P^[s]) m (wrong f y δ) x ≤ ((1 + 2 * (N / (1 - c))) / m + 2 * β) / δ ^ 2 := by
    intro x
    have e : run (P^[s]) m (wrong f y δ) x ≤
        run (P^[s]) m (fun l => (1 / (δ ^ 2 * (m : ℝ) ^ 2)) * (l.map fun x => f x - y).sum ^ 2) x := by
      refine run_le hQ m _ _ (fun l hl => ?_) x
      have ha : (l.map fun x => f x - y).sum = m * (average f l - y) := by
        rw [hsum, hl]
        unfold average
        rw [hl]
        field_simp
      rw [ha]
      unfold wrong
      split_ifs with hd
      · have e2 : 1 / (δ ^ 2 * (m : ℝ) ^ 2) * (m * (average f l - y)) ^ 2 = (average f l - y) ^ 2 / δ ^ 2 := by field_simp
        rw [e2, le_div_iff₀ (by positivity), one_mul, ← sq_abs (average f l - y)]
        exact pow_le_pow_left₀ hδ.le hd 2
      · positivity
    refine e.trans ?_
    rw [run_mul hQ]
    refine (mul_le_mul_of_nonneg_left (hsq x) (by positivity)).trans_eq ?_
    field_simp
    ring
  exact (hW.le _ _ hch x).trans_eq (hW.const _ x)

/-- The same with one constant. -/
theorem average_values {c : ℝ} (h0 : 0 ≤ c) (h1 : c < 1) {N : ℕ} (hN : 0 < N) {C : ℝ} {M : ℕ}
    {f : Ω → ℝ} (f0 : ∀ x, 0 ≤ f x) (f1 : ∀ x, f x ≤ 1) {y : ℝ} (hy : 0 ≤ y ∧ y ≤ 1) (hf : ∀ k x, |(P^[k] f) x - y| ≤ c ^ (k / N) + C / M)
    {s : ℕ} (hs : 0 < s) (w : ℕ) {m : ℕ} (hm : 0 < m) (x : Ω) {δ : ℝ} (hδ : 0 < δ) :
    (P^[w] (run (P^[s]) m (wrong f y δ))) x ≤ (1 + 2 * (N / (1 - c)) + 2 * |C|) * (1 / m + 1 / M) / δ ^ 2 := by
  have hc : 0 < 1 - c := by linarith
  refine (average_bias hP h0 h1 hN (β := |C| / M) (by positivity) f0 f1 hy (fun k x => (hf k x).trans ?_) hs w hm x hδ).trans ?_
  · exact add_le_add le_rfl (div_le_div_of_nonneg_right (le_abs_self C) (Nat.cast_nonneg M))
  · refine div_le_div_of_nonneg_right ?_ (by positivity)
    have e : (1 + 2 * ((N : ℝ) / (1 - c)) + 2 * |C|) * (1 / m + 1 / M) =
        (1 + 2 * (N / (1 - c))) / m + 2 * (|C| / M) + (2 * |C| / m + (1 + 2 * (N / (1 - c))) / M) := by ring
    rw [e]
    have : 0 ≤ 2 * |C| / (m : ℝ) + (1 + 2 * ((N : ℝ) / (1 - c))) / M := by positivity
    linarith

end

end MH

open MH

namespace LS

open GP

variable {net : Net}

theorem posterior_between (h : net.Simple) (hn : 0 < net.n) (linC : ℝ) (i j : Fin net.n) :
    0 ≤ posterior net linC i j ∧ posterior net linC i j ≤ 1 := by
  have : Nonempty (Fin net.n) := ⟨⟨0, hn⟩⟩
  rw [← C181_posterior h]
  exact mean_bounds _ _ 0 1 (fun F => (score_between h F i j).1) (fun F => (score_between h F i j).2)

/-- **C187** for `LinkScore`. -/
theorem C187_metropolis (h : net.Simple) (hn : 3 ≤ net.n) (linC : ℝ) :
    ∃ C : ℝ, ∀ M, 4 ≤ M → ∀ (i j : Fin net.n) (s : ℕ), 0 < s → ∀ w m, 0 < m → ∀ F δ, 0 < δ →
      ((rounded M (E net linC))^[w] (run ((rounded M (E net linC))^[s]) m
        (wrong (fun F => (score net (lift F) i j : ℝ)) (posterior net linC i j) δ))) F ≤ C * (1 / m + 1 / M) / δ ^ 2 := by
  obtain ⟨c, C, c0, c1, H⟩ := C186_score h hn linC
  exact ⟨_, fun M hM i j s hs w m hm F δ hδ => average_values (RC.attempt_expect hM (by omega) _) c0 c1 (N := 2 * net.n) (by omega)
    (fun F => (score_between h F i j).1) (fun F => (score_between h F i j).2) (posterior_between h (by omega) linC i j)
    (fun k F => H M hM i j k F) hs w hm F hδ⟩

/-- **C187** for `GibbsLinkScore`, steps being sweeps. -/
theorem C187_heat_bath (h : net.Simple) (hn : 0 < net.n) (linC : ℝ) :
    ∃ C : ℝ, ∀ (M : ℕ) q, Near M (E net linC) q → ∀ (i j : Fin net.n) (s : ℕ), 0 < s → ∀ w m, 0 < m → ∀ F δ, 0 < δ →
      ((weighted q (List.finRange net.n))^[w] (run ((weighted q (List.finRange net.n))^[s]) m
        (wrong (fun F => (score net (lift F) i j : ℝ)) (posterior net linC i j) δ))) F ≤ C * (1 / m + 1 / M) / δ ^ 2 := by
  obtain ⟨c, C, c0, c1, H⟩ := C186_heat_bath h hn linC
  exact ⟨_, fun M q hq i j s hs w m hm F δ hδ => average_values (weighted_expect hq _) c0 c1 (N := 1) one_pos
    (fun F => (score_between h F i j).1) (fun F => (score_between h F i j).2) (posterior_between h hn linC i j)
    (fun k F => by rw [Nat.div_one]; exact H M q hq i j k F) hs w hm F hδ⟩

example := C187_metropolis tailed_simple (by decide) 0
example := C187_heat_bath tailed_simple (by decide) 0

end LS

namespace KS

open GP

/-- **C187** for `LSMultiLinkScoreKState`. -/
theorem C187_metropolis {net : Net} {K : ℕ} (h : net.Simple) (hK : 0 < K) (hn : 3 ≤ net.n) :
    ∃ C : ℝ, ∀ M, 4 ≤ M → ∀ (k : Fin K) (i j : Fin net.n) (s : ℕ), 0 < s → ∀ w m, 0 < m → ∀ F δ, 0 < δ →
      ((rounded M (E net K))^[w] (run ((rounded M (E net K))^[s]) m
        (wrong (guess net K k i j) (posterior net K k i j) δ))) F ≤ C * (1 / m + 1 / M) / δ ^ 2 := by
  have : Nonempty (Fin net.n) := ⟨⟨0, by omega⟩⟩
  obtain ⟨c, C, c0, c1, H⟩ := C186_score h hK hn
  refine ⟨_, fun M hM k i j s hs w m hm F δ hδ => average_values (RC.attempt_expect hM (by omega) _) c0 c1 (N := 2 * net.n) (by omega)
    (fun F => (guess_between h hK k i j F).1) (fun F => (guess_between h hK k i j F).2) ?_
    (fun l F => H M hM k i j l F) hs w hm F hδ⟩
  rw [← C183_posterior h hK]
  exact mean_bounds _ _ 0 1 (fun F => (guess_between h hK k i j F).1) (fun F => (guess_between h hK k i j F).2)

example := C187_metropolis tailed_simple (K := 3) (by norm_num) (by decide)

end KS

namespace BK

open GP LS

variable {net : Net} {L : ℕ → ℕ → ℝ}

theorem score_within (h : net.Simple) (hL : Pattern L) (A : Fin net.n → Fin net.n) (i j : Fin net.n) :
    0 ≤ score (predict L) net (lift A) i j ∧ score (predict L) net (lift A) i j ≤ 1 := by
  rw [(C184_score h L A i j).1]
  exact expected_between hL A i j

theorem posterior_within (h : net.Simple) (hL : Pattern L) (hn : 0 < net.n) (D : ℕ → ℝ) (linC : ℝ) (i j : Fin net.n) :
    0 ≤ posterior L D net linC i j ∧ posterior L D net linC i j ≤ 1 := by
  have : Nonempty (Fin net.n) := ⟨⟨0, hn⟩⟩
  rw [← (C184_posterior h hL D linC i j).1]
  exact mean_bounds _ _ 0 1 (fun A => (score_within h hL A i j).1) (fun A => (score_within h hL A i j).2)

/-- **C187** for the Metropolis samplers of multiblock.c and only_deg.c. -/
theorem C187_metropolis (h : net.Simple) (hL : Pattern L) (hn : 3 ≤ net.n) (D : ℕ → ℝ) (linC : ℝ) :
    ∃ C : ℝ, ∀ M, 4 ≤ M → ∀ (i j : Fin net.n) (s : ℕ), 0 < s → ∀ w m, 0 < m → ∀ A δ, 0 < δ →
      ((rounded M (E (cost L) D net linC))^[w] (run ((rounded M (E (cost L) D net linC))^[s]) m
        (wrong (fun A => score (predict L) net (lift A) i j) (posterior L D net linC i j) δ))) A ≤ C * (1 / m + 1 / M) / δ ^ 2 := by
  obtain ⟨c, C, c0, c1, H⟩ := C186_score h hL hn D linC
  exact ⟨_, fun M hM i j s hs w m hm A δ hδ => average_values (RC.attempt_expect hM (by omega) _) c0 c1 (N := 2 * net.n) (by omega)
    (fun A => (score_within h hL A i j).1) (fun A => (score_within h hL A i j).2) (posterior_within h hL (by omega) D linC i j)
    (fun k A => H M hM i j k A) hs w hm A hδ⟩

/-- **C187** for the heat-bath samplers of multiblock.c, only_deg.c and sparse_missing.c, steps being sweeps. -/
theorem C187_heat_bath (h : net.Simple) (hL : Pattern L) (hn : 0 < net.n) (D : ℕ → ℝ) (linC : ℝ) :
    ∃ C : ℝ, ∀ (M : ℕ) q, Near M (E (cost L) D net linC) q → ∀ (i j : Fin net.n) (s : ℕ), 0 < s → ∀ w m, 0 < m → ∀ A δ, 0 < δ →
      ((weighted q (List.finRange net.n))^[w] (run ((weighted q (List.finRange net.n))^[s]) m
        (wrong (fun A => score (predict L) net (lift A) i j) (posterior L D net linC i j) δ))) A ≤ C * (1 / m + 1 / M) / δ ^ 2 := by
  obtain ⟨c, C, c0, c1, H⟩ := C186_heat_bath h hL hn D linC
  exact ⟨_, fun M q hq i j s hs w m hm A δ hδ => average_values (weighted_expect hq _) c0 c1 (N := 1) one_pos
    (fun A => (score_within h hL A i j).1) (fun A => (score_within h hL A i j).2) (posterior_within h hL hn D linC i j)
    (fun k A => by rw [Nat.div_one]; exact H M q hq i j k A) hs w hm A hδ⟩

example := C187_metropolis tailed_simple C184_models.2.1 (by decide) logDeg 0
example := C187_heat_bath tailed_simple C184_models.2.2.1 (by decide) logDeg 0

end BK

namespace RC

open BP (Bi)

variable {b : Bi} {K M : ℕ}

theorem rounded_expect (hM : 4 ≤ M) (n1 : 3 ≤ b.n1) (n2 : 3 ≤ b.n2) : Expect (rounded M (TKb K) b (setRatio b)) := by
  obtain ⟨r0, r1, -⟩ := C175_unique (TKb K) b (by omega) (by omega)
  have hM0 : (0 : ℝ) < M := by exact_mod_cast (by omega : 0 < M)
  obtain ⟨-, -, p3⟩ := C186_accept (M := M) (by omega) (a := (setRatio b : ℝ)) (by exact_mod_cast r0.le) (by exact_mod_cast r1.le)
  have t1 : (below M (setRatio b : ℝ) : ℝ) / M ≤ 1 := by rw [div_le_one hM0]; exact_mod_cast p3
  have e1 := fun E => attempt_expect (M := M) hM (show 2 ≤ b.n1 by omega) E
  have e2 := fun E => attempt_expect (M := M) hM (show 2 ≤ b.n2 by omega) E
  refine ⟨fun f g x => ?_, fun a f x => ?_, fun f g h x => ?_, fun x => ?_⟩
  · unfold rounded
    rw [(e1 _).add (fun A => f (A, x.2)) (fun A => g (A, x.2)), (e2 _).add (fun B => f (x.1, B)) (fun B => g (x.1, B))]
    ring
  · unfold rounded
    rw [(e1 _).mul a (fun A => f (A, x.2)), (e2 _).mul a (fun B => f (x.1, B))]
    ring
  · unfold rounded
    exact add_le_add (mul_le_mul_of_nonneg_left ((e1 _).le _ _ (fun A => h (A, x.2)) _) (by positivity))
      (mul_le_mul_of_nonneg_left ((e2 _).le _ _ (fun B => h (x.1, B)) _) (by linarith))
  · unfold rounded
    rw [(e1 _).one, (e2 _).one]
    ring

theorem weightedRound_expect {q1 q2} (h1 : ∀ B, Near M (fun A => E (TKb K) b A B) (q1 B))
    (h2 : ∀ A, Near M (fun B => E (TKb K) b A B) (q2 A)) : Expect (weightedRound b q1 q2) := by
  have e1 := fun B => weighted_expect (h1 B) (List.finRange b.n1)
  have e2 := fun A => weighted_expect (h2 A) (List.finRange b.n2)
  refine ⟨fun f g x => ?_, fun a f x => ?_, fun f g h x => ?_, fun x => ?_⟩
  · unfold weightedRound
    simp only [(e2 _).add, (e1 _).add]
  · unfold weightedRound
    simp only [(e2 _).mul, (e1 _).mul]
  · exact (e1 _).le _ _ (fun A => (e2 A).le _ _ (fun B => h (A, B)) x.2) x.1
  · unfold weightedRound
    simp only [(e2 _).one, (e1 _).one]

theorem posterior_between (hK : 0 < K) (n1 : 0 < b.n1) (n2 : 0 < b.n2) (k : Fin K) (i : Fin b.n1) (j : Fin b.n2) :
    0 ≤ posterior b K k i j ∧ posterior b K k i j ≤ 1 := by
  have i1 : Nonempty (Fin b.n1) := ⟨⟨0, n1⟩⟩
  have i2 : Nonempty (Fin b.n2) := ⟨⟨0, n2⟩⟩
  rw [← C182_posterior hK]
  exact mean_bounds _ _ 0 1 (fun x => (guess_between hK k i j x).1) (fun x => (guess_between hK k i j x).2)

/-- **C187** for `MultiLinkScoreKState` and `MultiLinkScore2State` (`C182_two`). -/
theorem C187_metropolis (hK : 0 < K) (n1 : 3 ≤ b.n1) (n2 : 3 ≤ b.n2) :
    ∃ C : ℝ, ∀ M, 4 ≤ M → ∀ (k : Fin K) (i : Fin b.n1) (j : Fin b.n2) (s : ℕ), 0 < s → ∀ w m, 0 < m → ∀ x δ, 0 < δ →
      ((rounded M (TKb K) b (setRatio b))^[w] (run ((rounded M (TKb K) b (setRatio b))^[s]) m
        (wrong (guess b K k i j) (posterior b K k i j) δ))) x ≤ C * (1 / m + 1 / M) / δ ^ 2 := by
  obtain ⟨c, C, c0, c1, H⟩ := C186_metropolis hK n1 n2
  exact ⟨_, fun M hM k i j s hs w m hm x δ hδ => average_values (rounded_expect hM n1 n2) c0 c1 (N := 2 * b.n1 + 2 * b.n2) (by omega)
    (fun x => (guess_between hK k i j x).1) (fun x => (guess_between hK k i j x).2) (posterior_between hK (by omega) (by omega) k i j)
    (fun l x => H M hM k i j l x) hs w hm x hδ⟩

/-- **C187** for `GibbsMultiLinkScoreKState`. -/
theorem C187_heat_bath (hK : 0 < K) (n1 : 0 < b.n1) (n2 : 0 < b.n2) :
    ∃ C : ℝ, ∀ M q1 q2, (∀ B, Near M (fun A => E (TKb K) b A B) (q1 B)) → (∀ A, Near M (fun B => E (TKb K) b A B) (q2 A)) →
      ∀ (k : Fin K) (i : Fin b.n1) (j : Fin b.n2) (s : ℕ), 0 < s → ∀ w m, 0 < m → ∀ x δ, 0 < δ →
        ((weightedRound b q1 q2)^[w] (run ((weightedRound b q1 q2)^[s]) m
          (wrong (guess b K k i j) (posterior b K k i j) δ))) x ≤ C * (1 / m + 1 / M) / δ ^ 2 := by
  obtain ⟨c, C, c0, c1, H⟩ := C186_heat_bath hK n1 n2
  exact ⟨_, fun M q1 q2 h1 h2 k i j s hs w m hm x δ hδ => average_values (weightedRound_expect h1 h2) c0 c1 (N := 1) one_pos
    (fun x => (guess_between hK k i j x).1) (fun x => (guess_between hK k i j x).2) (posterior_between hK n1 n2 k i j)
    (fun l x => by rw [Nat.div_one]; exact H M q1 q2 h1 h2 k i j l x) hs w hm x hδ⟩

example := C187_metropolis (b := { movies with n1 := 3, n2 := 3 }) (K := 2) (by norm_num) le_rfl le_rfl
example := C187_heat_bath (b := movies) (K := 2) (by norm_num) (by decide) (by decide)

end RC

/-! ## Lists of groups -/

/-- **C187** for `GibbsLinkScore` with lists of groups; `η` as in `C186_lists`. -/
theorem LS.C187_lists {net : GP.Net} (h : net.Simple) (hn : 0 < net.n) (linC : ℝ) :
    ∃ C : ℝ, ∀ (Ω : Type) (π : Ω → Fin net.n → Fin net.n) (Q : Fin net.n → (Ω → ℝ) → Ω → ℝ) (η : ℝ), 0 ≤ η → (∀ v, Expect (Q v)) →
      (∀ v, Tracks π (Q v) (avg (LS.E net linC) v) η) → ∀ (i j : Fin net.n) (s : ℕ), 0 < s → ∀ w m, 0 < m → ∀ z δ, 0 < δ →
        ((inTurn Q (List.finRange net.n))^[w] (run ((inTurn Q (List.finRange net.n))^[s]) m
          (wrong (fun z => (LS.score net (lift (π z)) i j : ℝ)) (LS.posterior net linC i j) δ))) z ≤ C * (1 / m + η) / δ ^ 2 := by
  obtain ⟨c, C, c0, c1, H⟩ := LS.C186_lists h hn linC
  refine ⟨1 + 2 * (((1 : ℕ) : ℝ) / (1 - c)) + 2 * |C|, fun Ω π Q η hη hQ hT i j s hs w m hm z δ hδ => ?_⟩
  have hc : 0 < 1 - c := by linarith
  refine (average_bias (inTurn_expect hQ _) c0 c1 (N := 1) one_pos (β := |C| * η) (by positivity)
    (fun z => (LS.score_between h (π z) i j).1) (fun z => (LS.score_between h (π z) i j).2) (LS.posterior_between h hn linC i j)
    (fun k z => ?_) hs w hm z hδ).trans ?_
  · rw [Nat.div_one]
    exact (H Ω π Q η hη hQ hT i j k z).trans (add_le_add le_rfl (mul_le_mul_of_nonneg_right (le_abs_self C) hη))
  · refine div_le_div_of_nonneg_right ?_ (by positivity)
    have e : (1 + 2 * (((1 : ℕ) : ℝ) / (1 - c)) + 2 * |C|) * (1 / m + η) =
        (1 + 2 * (((1 : ℕ) : ℝ) / (1 - c))) / m + 2 * (|C| * η) + (2 * |C| / m + (1 + 2 * (((1 : ℕ) : ℝ) / (1 - c))) * η) := by ring
    rw [e]
    have : 0 ≤ 2 * |C| / (m : ℝ) + (1 + 2 * (((1 : ℕ) : ℝ) / (1 - c))) * η := by positivity
    linarith

/-- **C187** for the heat-bath samplers of multiblock.c, only_deg.c and sparse_missing.c with lists of groups. -/
theorem BK.C187_lists {net : GP.Net} {L : ℕ → ℕ → ℝ} (h : net.Simple) (hL : BK.Pattern L) (hn : 0 < net.n) (D : ℕ → ℝ) (linC : ℝ) :
    ∃ C : ℝ, ∀ (Ω : Type) (π : Ω → Fin net.n → Fin net.n) (Q : Fin net.n → (Ω → ℝ) → Ω → ℝ) (η : ℝ), 0 ≤ η → (∀ v, Expect (Q v)) →
      (∀ v, Tracks π (Q v) (avg (BK.E (BK.cost L) D net linC) v) η) → ∀ (i j : Fin net.n) (s : ℕ), 0 < s → ∀ w m, 0 < m → ∀ z δ, 0 < δ →
        ((inTurn Q (List.finRange net.n))^[w] (run ((inTurn Q (List.finRange net.n))^[s]) m
          (wrong (fun z => BK.score (BK.predict L) net (lift (π z)) i j) (BK.posterior L D net linC i j) δ))) z ≤
            C * (1 / m + η) / δ ^ 2 := by
  obtain ⟨c, C, c0, c1, H⟩ := BK.C186_lists h hL hn D linC
  refine ⟨1 + 2 * (((1 : ℕ) : ℝ) / (1 - c)) + 2 * |C|, fun Ω π Q η hη hQ hT i j s hs w m hm z δ hδ => ?_⟩
  have hc : 0 < 1 - c := by linarith
  refine (average_bias (inTurn_expect hQ _) c0 c1 (N := 1) one_pos (β := |C| * η) (by positivity)
    (fun z => (BK.score_within h hL (π z) i j).1) (fun z => (BK.score_within h hL (π z) i j).2)
    (BK.posterior_within h hL hn D linC i j) (fun k z => ?_) hs w hm z hδ).trans ?_
  · rw [Nat.div_one]
    exact (H Ω π Q η hη hQ hT i j k z).trans (add_le_add le_rfl (mul_le_mul_of_nonneg_right (le_abs_self C) hη))
  · refine div_le_div_of_nonneg_right ?_ (by positivity)
    have e : (1 + 2 * (((1 : ℕ) : ℝ) / (1 - c)) + 2 * |C|) * (1 / m + η) =
        (1 + 2 * (((1 : ℕ) : ℝ) / (1 - c))) / m + 2 * (|C| * η) + (2 * |C| / m + (1 + 2 * (((1 : ℕ) : ℝ) / (1 - c))) * η) := by ring
    rw [e]
    have : 0 ≤ 2 * |C| / (m : ℝ) + (1 + 2 * (((1 : ℕ) : ℝ) / (1 - c))) * η := by positivity
    linarith

example := LS.C187_lists GP.tailed_simple (by decide) 0
example := BK.C187_lists GP.tailed_simple BK.C184_models.2.2.1 (by decide) BK.logDeg 0
