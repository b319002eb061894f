import Verif.Layout.Trace

/-!
# Two linked nodes near their equilibrium: a run that stops by itself
-/

namespace LY

/-- Two linked nodes at distance 4/5: after one step of length 1/20 with drag 1/20 they hardly move and the run ends. -/
theorem rest (N : GP.Net) (hs : N.Simple) (hn : N.n = 2) (hl : N.link 0 1 = some 1) (s : MD) (hf : Filed N.n 1 s.boxes s.oldbox)
    (hx : s.px = s.x) (hy : s.py = s.y) (x0 : s.x 0 = 0) (y0 : s.y 0 = 0) (x1 : s.x 1 = 12 / 25) (y1 : s.y 1 = 16 / 25) (k : ℕ) :
    ∃ s', mdLoop N (1 / 20) (1 / 20) 1 (k + 1) s = some s' ∧ 0 ≤ s'.x 0 ∧ s'.x 0 < s'.x 1 ∧ s'.x 1 ≤ 1 ∧
      0 ≤ s'.y 0 ∧ s'.y 0 < s'.y 1 ∧ s'.y 1 ≤ 1 := by
  have hb : ∀ i, i < N.n → s.oldbox i = 0 := fun i hi => by have := hf.range i hi; omega
  have d01 : dis s.x s.y 0 1 = 4 / 5 := by
    unfold dis
    rw [x0, y0, x1, y1, show ((12 : ℝ) / 25 - 0) * (12 / 25 - 0) + (16 / 25 - 0) * (16 / 25 - 0) = (4 / 5) ^ 2 by norm_num]
    exact Real.sqrt_sq (by norm_num)
  have d10 : dis s.x s.y 1 0 = 4 / 5 := by
    unfold dis
    rw [x0, y0, x1, y1, show ((0 : ℝ) - 12 / 25) * (0 - 12 / 25) + (0 - 16 / 25) * (0 - 16 / 25) = (4 / 5) ^ 2 by norm_num]
    exact Real.sqrt_sq (by norm_num)
  have w01 : N.w 0 1 = 1 := by simp [GP.Net.w, hl]
  have w10 : N.w 1 0 = 1 := by simp [GP.Net.w, hs.sym 1 0, hl]
  have w00 : N.w 0 0 = 0 := by simp [GP.Net.w, hs.irrefl]
  have w11 : N.w 1 1 = 0 := by simp [GP.Net.w, hs.irrefl]
  have b0 := hb 0 (by omega)
  have b1 := hb 1 (by omega)
  have i01 : Interact N.n 1 s.x s.y s.oldbox 0 1 := ⟨by norm_num, by rw [b0, b1]; decide, Or.inr (by norm_num)⟩
  have i10 : Interact N.n 1 s.x s.y s.oldbox 1 0 := ⟨by norm_num, by rw [b0, b1]; decide, Or.inr (by norm_num)⟩
  have i00 : ¬ Interact N.n 1 s.x s.y s.oldbox 0 0 := fun h => h.1 rfl
  have i11 : ¬ Interact N.n 1 s.x s.y s.oldbox 1 1 := fun h => h.1 rfl
  obtain ⟨q0, q1⟩ : 0 ≤ Real.sqrt (N.n : ℝ) ∧ Real.sqrt (N.n : ℝ) ≤ 2 := by
    refine ⟨Real.sqrt_nonneg _, ?_⟩
    rw [hn]
    exact Real.sqrt_le_sqrt (by norm_num : ((2 : ℕ) : ℝ) ≤ 4) |>.trans (by
      rw [show (4 : ℝ) = 2 ^ 2 by norm_num, Real.sqrt_sq (by norm_num)])
  set c : ℝ := 1 / 2 / ((4 / 5) ^ 2 + Real.sqrt (N.n : ℝ) / 10000) with hc
  have hden : (0 : ℝ) < (4 / 5) ^ 2 + Real.sqrt (N.n : ℝ) / 10000 := by positivity
  have c0 : 78 / 100 ≤ c := by rw [hc, le_div_iff₀ hden]; linarith
  have c1 : c ≤ 79 / 100 := by rw [hc, div_le_iff₀ hden]; linarith
  have hcn : -(1 / (N.n : ℝ)) / ((4 / 5) ^ 2 + Real.sqrt (N.n : ℝ) / 10000) = -c := by
    rw [hc]; conv_lhs => rw [show ((N.n : ℝ)) = (2 : ℕ) by rw [hn]]
    rw [hn]; push_cast; ring
  have fsum : ∀ u : ℕ → ℝ, force N 1 s.x s.y s.oldbox u 0 = (u 1 - u 0) * (1 - c * (5 / 4)) ∧
      force N 1 s.x s.y s.oldbox u 1 = (u 0 - u 1) * (1 - c * (5 / 4)) := by
    intro u
    have hr : Finset.range N.n = {0, 1} := by rw [hn]; rfl
    unfold force
    rw [hr, Finset.sum_pair (by norm_num), Finset.sum_pair (by norm_num), Finset.sum_pair (by norm_num), Finset.sum_pair (by norm_num),
      if_neg i00, if_pos i01, if_pos i10, if_neg i11, d01, d10, hcn, w00, w01, w10, w11]
    push_cast
    constructor <;> ring
  set e : ℝ := 1 - c * (5 / 4) with he
  have e0 : 1 / 100 ≤ e := by rw [he]; linarith
  have e1 : e ≤ 3 / 100 := by rw [he]; linarith
  clear_value e
  have mv : ∀ u : ℕ → ℝ, u 0 = 0 → moved (1 / 20) (1 / 20) u u (force N 1 s.x s.y s.oldbox u) 0 = u 1 * e * (1 / 400) / (801 / 800) ∧
      moved (1 / 20) (1 / 20) u u (force N 1 s.x s.y s.oldbox u) 1 = u 1 - u 1 * e * (1 / 400) / (801 / 800) := by
    intro u hu
    unfold moved
    rw [(fsum u).1, (fsum u).2, hu]
    constructor <;> ring
  obtain ⟨mx0, mx1⟩ := mv s.x x0
  obtain ⟨my0, my1⟩ := mv s.y y0
  rw [x1] at mx0 mx1
  rw [y1] at my0 my1
  obtain ⟨s', T, h, hf', hm, -⟩ := C100_step N hs (1 / 20) (1 / 20) 1 (by norm_num) s hf (by norm_num) (by norm_num)
    (by
      rintro ⟨i, j, hi, hj, h, ex, -⟩
      have hi' : i = 0 ∨ i = 1 := by omega
      have hj' : j = 0 ∨ j = 1 := by omega
      rcases hi' with rfl | rfl <;> rcases hj' with rfl | rfl
      · rcases h with h | h
        · rw [hs.irrefl] at h; simp at h
        · exact i00 h
      · rw [x0, x1] at ex; norm_num at ex
      · rw [x0, x1] at ex; norm_num at ex
      · rcases h with h | h
        · rw [hs.irrefl] at h; simp at h
        · exact i11 h)
    ⟨0, 1, by omega, by omega, by rw [hx, mx0, mx1]; intro h; linarith⟩
    ⟨0, 1, by omega, by omega, by rw [hy, my0, my1]; intro h; linarith⟩
  have hE := (step_T hf h).2
  obtain ⟨a0, c0'⟩ := hm 0 (by omega)
  obtain ⟨a1, c1'⟩ := hm 1 (by omega)
  rw [hx, mx0] at a0
  rw [hx, mx1] at a1
  rw [hy, my0] at c0'
  rw [hy, my1] at c1'
  have hr : Finset.range N.n = {0, 1} := by rw [hn]; rfl
  simp only at hE
  rw [hr, Finset.sum_pair (by norm_num), hx, hy, x0, y0, x1, y1, a0, a1, c0', c1'] at hE
  have hT : T / N.n < 1 / 100000 := by
    have hT : T = e ^ 2 * (4 / 5 * (1 / 400) / (801 / 800) / (1 / 10)) ^ 2 := by rw [hE]; ring
    have he2 : e ^ 2 ≤ 9 / 10000 := by nlinarith
    rw [hT, hn]
    norm_num
    linarith
  refine ⟨s', ?_, ?_, ?_, ?_, ?_, ?_, ?_⟩
  · rw [mdLoop, h]
    simp only [Option.bind_eq_bind, Option.bind_some]
    rw [if_pos hT]
  all_goals first | rw [a0] | rw [a1] | rw [c0'] | rw [c1']
  · linarith
  · rw [a1]; linarith
  · linarith
  · linarith
  · rw [c1']; linarith
  · linarith

end LY
