import Verif.Warm.Thermal
import Mathlib.Algebra.Ring.GeomSum
import Mathlib.Algebra.BigOperators.Intervals

/-! # C133: the decorrelation step -/

namespace WU

open RG Tools

variable {σ : Type} {step : ℕ → σ → Res σ}

/-! ## One estimate -/

theorem decayLoop_spec (it : ℕ → Option (ℝ × ℝ)) (x1 y1 x2 y2 : ℝ) : ∀ k i,
    decayLoop it x1 y1 x2 y2 k i = -1 ∨
      ∃ j a b, i ≤ j ∧ j < i + k ∧ it j = some (a, b) ∧ b ≠ 0 ∧ residual x1 y1 x2 y2 a b < 1 / 10 ^ 7 ∧
        decayLoop it x1 y1 x2 y2 k i = b
  | 0, _ => Or.inl rfl
  | k + 1, i => by
    rw [decayLoop]
    cases h : it i with
    | none => exact Or.inl rfl
    | some p =>
      obtain ⟨a, b⟩ := p
      dsimp only
      split_ifs with hb
      · exact Or.inr ⟨i, a, b, le_rfl, by omega, h, hb.1, hb.2, rfl⟩
      · rcases decayLoop_spec it x1 y1 x2 y2 k (i + 1) with e | ⟨j, a', b', h1, h2, h3⟩
        · exact Or.inl e
        · exact Or.inr ⟨j, a', b', by omega, by omega, h3⟩

/-- **C133** (`CalculateDecay`).  The result is -1, or a value `b ≠ 0`, reached by the solver in at most 1000 iterations, for which some
curve `a + (1 - a) exp (-x/b)` misses the two points by less than `10^-7` in total. -/
theorem C133_decay (solver : Solver) (nnod : ℕ) (x1 y1 x2 y2 : ℝ) :
    CalculateDecay solver nnod x1 y1 x2 y2 = -1 ∨
      ∃ j < 1000, ∃ a b, solver nnod x1 y1 x2 y2 j = some (a, b) ∧ b ≠ 0 ∧
        |y1 - (a + (1 - a) * Real.exp (-x1 / b))| + |y2 - (a + (1 - a) * Real.exp (-x2 / b))| < 1 / 10 ^ 7 ∧
        CalculateDecay solver nnod x1 y1 x2 y2 = b := by
  rcases decayLoop_spec (solver nnod x1 y1 x2 y2) x1 y1 x2 y2 1000 0 with h | ⟨j, a, b, _, h2, h3, h4, h5, h6⟩
  · exact Or.inl h
  · refine Or.inr ⟨j, by omega, a, b, h3, h4, ?_, h6⟩
    unfold residual at h5
    rwa [← sub_sub, ← sub_sub]

/-- Sums of powers: `1 + … + u^(p-1)` against the rest of `1 + … + u^(q-1)`. -/
theorem cross_lt {u v : ℝ} (hu : 0 < u) (huv : u < v) {p q : ℕ} (hp : 0 < p) (hpq : p < q) :
    (∑ i ∈ Finset.range p, v ^ i) * (∑ i ∈ Finset.range q, u ^ i) <
      (∑ i ∈ Finset.range p, u ^ i) * (∑ i ∈ Finset.range q, v ^ i) := by
  have hsplit : ∀ x : ℝ, ∑ i ∈ Finset.range q, x ^ i = ∑ i ∈ Finset.range p, x ^ i + ∑ j ∈ Finset.Ico p q, x ^ j := by
    intro x
    rw [Finset.range_eq_Ico, Finset.range_eq_Ico, Finset.sum_Ico_consecutive _ (Nat.zero_le _) hpq.le]
  rw [hsplit u, hsplit v, mul_add, mul_add, mul_comm (∑ i ∈ Finset.range p, v ^ i) (∑ i ∈ Finset.range p, u ^ i)]
  refine add_lt_add_of_le_of_lt le_rfl ?_
  rw [Finset.sum_mul_sum, Finset.sum_mul_sum]
  refine Finset.sum_lt_sum_of_nonempty (by simpa using hp.ne') fun i hi => ?_
  refine Finset.sum_lt_sum_of_nonempty (by simpa using hpq) fun j hj => ?_
  have hij : i < j := lt_of_lt_of_le (Finset.mem_range.1 hi) (Finset.mem_Ico.1 hj).1
  obtain ⟨k, rfl⟩ := Nat.exists_eq_add_of_lt hij
  have hv : 0 < v := hu.trans huv
  have hk : u ^ (k + 1) < v ^ (k + 1) := pow_lt_pow_left₀ huv hu.le (Nat.succ_ne_zero k)
  have : 0 < u ^ i * v ^ i := by positivity
  calc v ^ i * u ^ (i + k + 1) = (u ^ i * v ^ i) * u ^ (k + 1) := by rw [Nat.add_assoc, pow_add u i]; ring
    _ < (u ^ i * v ^ i) * v ^ (k + 1) := mul_lt_mul_of_pos_left hk this
    _ = u ^ i * v ^ (i + k + 1) := by rw [Nat.add_assoc, pow_add v i]; ring

/-- **C133**.  The decay time is well defined: through two points at times `0 < x1 < x2` the first of which is not 1 there is at most one
curve `a + (1 - a) exp (-x/b)` with `b > 0`. -/
theorem C133_fit_unique {x1 x2 : ℕ} (h1 : 0 < x1) (h12 : x1 < x2) {y1 y2 a b a' b' : ℝ} (hb : 0 < b) (hb' : 0 < b') (hy : y1 ≠ 1)
    (e : residual x1 y1 x2 y2 a b = 0) (e' : residual x1 y1 x2 y2 a' b' = 0) : b = b' ∧ a = a' := by
  have key : ∀ {a b : ℝ}, 0 < b → residual x1 y1 x2 y2 a b = 0 → ∃ u, u = Real.exp (-1 / b) ∧ 0 < u ∧ u < 1 ∧
      1 - y1 = (1 - a) * (1 - u ^ x1) ∧ 1 - y2 = (1 - a) * (1 - u ^ x2) := by
    intro a b hb e
    unfold residual at e
    have e1 : |y1 - a - (1 - a) * Real.exp (-(x1 : ℝ) / b)| = 0 :=
      le_antisymm (by linarith [abs_nonneg (y2 - a - (1 - a) * Real.exp (-(x2 : ℝ) / b))]) (abs_nonneg _)
    have e2 : |y2 - a - (1 - a) * Real.exp (-(x2 : ℝ) / b)| = 0 := by linarith
    rw [abs_eq_zero] at e1 e2
    have hpow : ∀ x : ℕ, Real.exp (-(x : ℝ) / b) = Real.exp (-1 / b) ^ x := by
      intro x
      rw [← Real.exp_nat_mul]
      congr 1
      ring
    rw [hpow] at e1 e2
    refine ⟨_, rfl, Real.exp_pos _, ?_, by linarith, by linarith⟩
    rw [Real.exp_lt_one_iff]
    exact div_neg_of_neg_of_pos (by norm_num) hb
  obtain ⟨u, hu, hu0, hu1, f1, f2⟩ := key hb e
  obtain ⟨v, hv, hv0, hv1, g1, g2⟩ := key hb' e'
  have ha : 1 - a ≠ 0 := by
    intro h
    rw [h, zero_mul] at f1
    exact hy (by linarith)
  have ha' : 1 - a' ≠ 0 := by
    intro h
    rw [h, zero_mul] at g1
    exact hy (by linarith)
  have hcross : (1 - u ^ x1) * (1 - v ^ x2) = (1 - v ^ x1) * (1 - u ^ x2) := by
    have : (1 - a) * (1 - a') * ((1 - u ^ x1) * (1 - v ^ x2)) = (1 - a) * (1 - a') * ((1 - v ^ x1) * (1 - u ^ x2)) := by
      calc (1 - a) * (1 - a') * ((1 - u ^ x1) * (1 - v ^ x2)) = ((1 - a) * (1 - u ^ x1)) * ((1 - a') * (1 - v ^ x2)) := by ring
        _ = ((1 - a') * (1 - v ^ x1)) * ((1 - a) * (1 - u ^ x2)) := by rw [← f1, ← g2, ← g1, ← f2]
        _ = _ := by ring
    exact mul_left_cancel₀ (mul_ne_zero ha ha') this
  have hgeo : ∀ (x : ℝ) (n : ℕ), 1 - x ^ n = (1 - x) * ∑ i ∈ Finset.range n, x ^ i := by
    intro x n
    rw [mul_comm, geom_sum_mul_neg]
  have huv : u = v := by
    rw [hgeo u x1, hgeo v x2, hgeo v x1, hgeo u x2] at hcross
    have hne : (1 - u) * (1 - v) ≠ 0 := mul_ne_zero (by linarith) (by linarith)
    have h2 : (∑ i ∈ Finset.range x1, u ^ i) * (∑ i ∈ Finset.range x2, v ^ i) =
        (∑ i ∈ Finset.range x1, v ^ i) * (∑ i ∈ Finset.range x2, u ^ i) := by
      apply mul_left_cancel₀ hne
      linear_combination hcross
    rcases lt_trichotomy u v with h | h | h
    · exact absurd h2 (cross_lt hu0 h h1 h12).ne'
    · exact h
    · have := cross_lt hv0 h h1 h12
      rw [h2] at this
      exact absurd this (lt_irrefl _)
  have hbb : b = b' := by
    rw [hu, hv] at huv
    have := Real.exp_injective huv
    field_simp at this
    linarith
  refine ⟨hbb, ?_⟩
  subst huv
  have hnz : 1 - u ^ x1 ≠ 0 := by
    have := pow_lt_one₀ hu0.le hu1 h1.ne'
    linarith
  have := mul_right_cancel₀ hnz (f1.symm.trans g1)
  linarith

theorem watch_spec (mi : σ → ℝ) (x1 : ℕ) : ∀ (k i : ℕ) (y : Option ℝ) (s : σ) (r : Option ℝ × σ),
    watch step mi x1 k i y s = .ok r → calls step (List.replicate k 1) s = .ok r.2 ∧
      ((x1 < i ∨ i + k ≤ x1) → r.1 = y) ∧
      (i ≤ x1 → x1 < i + k → ∃ s1, calls step (List.replicate (x1 + 1 - i) 1) s = .ok s1 ∧ r.1 = some (mi s1) ∧
        calls step (List.replicate (i + k - (x1 + 1)) 1) s1 = .ok r.2)
  | 0, i, y, s, r, h => by
    cases h
    exact ⟨rfl, fun _ => rfl, fun h1 h2 => by omega⟩
  | k + 1, i, y, s, r, h => by
    rw [watch] at h
    cases e : step 1 s with
    | starved => rw [e] at h; cases h
    | ub => rw [e] at h; cases h
    | ok s1 =>
      rw [e] at h
      simp only [Res.bind_ok] at h
      obtain ⟨h1, h2, h3⟩ := watch_spec mi x1 k (i + 1) _ s1 r h
      refine ⟨?_, ?_, ?_⟩
      · rw [List.replicate_succ]; simp only [calls, e, Res.bind_ok]; exact h1
      · intro hc
        rw [h2 (by omega), if_neg (by omega)]
      · intro hi hk
        rcases Nat.eq_or_lt_of_le hi with rfl | hlt
        · refine ⟨s1, ?_, ?_, ?_⟩
          · have : i + 1 - i = 1 := by omega
            rw [this]
            simp only [List.replicate, calls, e, Res.bind_ok]
          · rw [h2 (by omega), if_pos rfl]
          · have : i + (k + 1) - (i + 1) = k := by omega
            rw [this]; exact h1
        · obtain ⟨s2, a, b, c⟩ := h3 (by omega) (by omega)
          refine ⟨s2, ?_, b, ?_⟩
          · have : x1 + 1 - i = (x1 + 1 - (i + 1)) + 1 := by omega
            rw [this, List.replicate_succ]
            simp only [calls, e, Res.bind_ok]
            exact a
          · have : i + (k + 1) - (x1 + 1) = i + 1 + k - (x1 + 1) := by omega
            rw [this]; exact c

/-- What one estimate is. -/
theorem estimate_spec {mi : σ → σ → ℝ} {solver : Solver} {nnod x1 x2 : ℕ} (hx : x1 ≤ x2) {s s' : σ} {d : ℝ}
    (h : estimate step mi solver nnod x1 x2 s = .ok (d, s')) :
    ∃ s1, calls step (List.replicate (x1 + 1) 1) s = .ok s1 ∧ calls step (List.replicate (x2 - x1) 1) s1 = .ok s' ∧
      d = 2 * CalculateDecay solver nnod x1 (mi s s1) x2 (mi s s') := by
  unfold estimate at h
  cases e : watch step (mi s) x1 (x2 + 1) 0 none s with
  | starved => rw [e] at h; cases h
  | ub => rw [e] at h; cases h
  | ok r =>
    obtain ⟨y, t⟩ := r
    rw [e] at h
    obtain ⟨_, _, h3⟩ := watch_spec (mi s) x1 (x2 + 1) 0 none s _ e
    obtain ⟨s1, a, b, c⟩ := h3 (Nat.zero_le _) (by omega)
    dsimp only at b c
    subst b
    simp only [Res.bind_ok, Res.ofOption_some] at h
    cases h
    refine ⟨s1, a, ?_, rfl⟩
    have : x2 - x1 = 0 + (x2 + 1) - (x1 + 1) := by omega
    rw [this]; exact c

/-- **C133, refutation** (small networks).  In the versions without a shortest time (src/missing.c, src/multiblock.c, src/only_deg.c), with
fewer than 20 nodes the first point is at time 0, where every curve has the value 1: whatever the solver does, an estimate is kept only if
the first call left the mutual information at 1 (up to `10^-7`), so the time kept is never that of a partition that changed. -/
theorem C133_small_networks {mi : σ → σ → ℝ} {solver : Solver} {nnod : ℕ} (hn : nnod < 20) {s s' : σ} {d : ℝ}
    (h : estimate step mi solver nnod (times nnod 0).1 (times nnod 0).2 s = .ok (d, s')) (hd : 0 ≤ d) :
    ∃ s1, step 1 s = .ok s1 ∧ |mi s s1 - 1| < 1 / 10 ^ 7 := by
  have ht : (times nnod 0).1 = 0 := by
    unfold times
    rw [if_neg (by omega)]
    dsimp only
    omega
  rw [ht] at h
  obtain ⟨s1, h1, _, h3⟩ := estimate_spec (Nat.zero_le _) h
  refine ⟨s1, ?_, ?_⟩
  · cases e : step 1 s with
    | starved => simp [List.replicate, calls, e] at h1
    | ub => simp [List.replicate, calls, e] at h1
    | ok s2 =>
      simp only [List.replicate, calls, e, Res.bind_ok] at h1
      exact h1
  · rcases C133_decay solver nnod ((0 : ℕ) : ℝ) (mi s s1) ((times nnod 0).2 : ℝ) (mi s s') with e | ⟨_, _, a, b, _, _, hr, _⟩
    · rw [h3, e] at hd
      norm_num at hd
    · have : -((0 : ℕ) : ℝ) / b = 0 := by simp
      rw [this, Real.exp_zero] at hr
      have h0 := abs_nonneg (mi s s' - (a + (1 - a) * Real.exp (-((times nnod 0).2 : ℝ) / b)))
      have : mi s s1 - (a + (1 - a) * 1) = mi s s1 - 1 := by ring
      rw [this] at hr
      linarith

/-- With the shortest time of 10 the two points are at times `2 ≤ x1 < x2`, as `C133_fit_unique` asks. -/
theorem C133_times (nnod : ℕ) : 2 ≤ (times nnod 10).1 ∧ (times nnod 10).1 < (times nnod 10).2 := by
  unfold times
  split_ifs <;> dsimp only <;> omega

/-! ## The list of estimates -/

theorem estimates_spec {one : σ → Res (ℝ × σ)} : ∀ (fuel left : ℕ) (s : σ) (r : List ℝ × σ), estimates one fuel left s = .ok r →
    r.1.length = left ∧ ∀ d ∈ r.1, 0 ≤ d ∧ ∃ s s', one s = .ok (d, s')
  | fuel, 0, s, r, h => by
    have : r = ([], s) := by cases fuel <;> (simp [estimates] at h; exact h.symm)
    subst this
    exact ⟨rfl, by simp⟩
  | 0, left + 1, s, r, h => by simp [estimates] at h
  | fuel + 1, left + 1, s, r, h => by
    rw [estimates] at h
    cases e : one s with
    | starved => rw [e] at h; cases h
    | ub => rw [e] at h; cases h
    | ok p =>
      obtain ⟨d, s1⟩ := p
      rw [e] at h
      simp only [Res.bind_ok] at h
      split_ifs at h with hd
      · exact estimates_spec fuel (left + 1) s1 r h
      · cases e2 : estimates one fuel left s1 with
        | starved => rw [e2] at h; cases h
        | ub => rw [e2] at h; cases h
        | ok q =>
          obtain ⟨ds, s2⟩ := q
          rw [e2] at h
          simp only [Res.bind_ok, Res.pure_eq, Res.ok.injEq] at h
          subst h
          obtain ⟨h1, h2⟩ := estimates_spec fuel left s1 _ e2
          refine ⟨by simpa using h1, ?_⟩
          intro x hx
          rcases List.mem_cons.1 hx with rfl | hx
          · exact ⟨not_lt.1 hd, s, s1, e⟩
          · exact h2 x hx

open Classical in
theorem discard_fold (m sigma : ℝ) : ∀ (ds : List ℝ) (r : ℝ × ℕ), ds.foldl (discard m sigma) r =
    (r.1 - (ds.filter fun d => |d - m| / sigma > 2).sum, r.2 + (ds.filter fun d => ¬ |d - m| / sigma > 2).length)
  | [], r => by simp
  | d :: ds, r => by
    rw [List.foldl_cons, discard_fold m sigma ds]
    unfold discard
    by_cases h : |d - m| / sigma > 2
    · simp [h, sub_sub]
    · rw [if_neg h, List.filter_cons_of_neg (by simpa using h), List.filter_cons_of_pos (by simpa using h), List.length_cons]
      refine Prod.ext rfl ?_
      show r.2 + 1 + _ = r.2 + (_ + 1)
      omega

open Classical in
theorem filter_sums (ds : List ℝ) (p : ℝ → Prop) (g : ℝ → ℝ) :
    (ds.map g).sum = ((ds.filter fun d => p d).map g).sum + ((ds.filter fun d => ¬ p d).map g).sum := by
  induction ds with
  | nil => simp
  | cons d ds ih =>
    by_cases h : p d
    · simp [h] at ih ⊢; linarith
    · simp [h] at ih ⊢; linarith

open Classical in
/-- **C133** (bad estimates).  Of `n` estimates fewer than a quarter are discarded, those farther than two standard deviations from the
mean; the result is the mean of the others, hence between any bounds of the estimates. Of ten estimates at least eight are kept. -/
theorem C133_chauvenet {ds : List ℝ} (hne : ds ≠ []) :
    ∃ m sigma v, mean ds = some m ∧ stddev ds = some sigma ∧ chauvenet ds = some v ∧
      (let kept := ds.filter fun d => |d - m| ≤ 2 * sigma
       4 * (ds.length - kept.length) < ds.length ∧ v * kept.length = kept.sum) ∧
      ∀ a b, (∀ d ∈ ds, a ≤ d ∧ d ≤ b) → a ≤ v ∧ v ≤ b := by
  obtain ⟨m, sigma, hm, hs, h0, hsq, hz⟩ := C41_stddev ds hne
  obtain ⟨m', hm', hsum, _⟩ := C41_mean ds hne
  rw [hm] at hm'
  cases hm'
  have hlen : 0 < ds.length := List.length_pos_iff.2 hne
  have hpred : ∀ d ∈ ds, ((¬ |d - m| / sigma > 2) ↔ |d - m| ≤ 2 * sigma) := by
    intro d hd
    rcases h0.eq_or_lt with h | h
    · rw [← h, (hz.1 h.symm) d hd]
      simp
    · rw [not_lt, div_le_iff₀ h]
  have hk : (ds.filter fun d => ¬ |d - m| / sigma > 2) = ds.filter fun d => |d - m| ≤ 2 * sigma := by
    apply List.filter_congr
    intro d hd
    simp only [hpred d hd]
  have hsplitlen : (ds.filter fun d => |d - m| / sigma > 2).length + (ds.filter fun d => |d - m| ≤ 2 * sigma).length = ds.length := by
    rw [← hk]
    have := filter_sums ds (fun d => |d - m| / sigma > 2) (fun _ => 1)
    simp only [List.map_const', List.sum_replicate, mul_one, nsmul_eq_mul] at this
    exact_mod_cast this.symm
  have hdrop : 4 * (ds.filter fun d => |d - m| / sigma > 2).length < ds.length := by
    rcases h0.eq_or_lt with h | h
    · have : (ds.filter fun d => |d - m| / sigma > 2) = [] := by
        rw [List.filter_eq_nil_iff]
        intro d _
        rw [← h]
        simp
      rw [this]
      simpa using hlen
    · have hs2 := filter_sums ds (fun d => |d - m| / sigma > 2) (fun x => (x - m) ^ 2)
      rw [← hsq] at hs2
      have hge : (0 : ℝ) ≤ ((ds.filter fun d => ¬ |d - m| / sigma > 2).map fun x => (x - m) ^ 2).sum :=
        List.sum_nonneg (by
          intro x hx
          obtain ⟨y, _, rfl⟩ := List.mem_map.1 hx
          positivity)
      have hbig : ∀ l : List ℝ, (∀ d ∈ l, |d - m| / sigma > 2) → l ≠ [] →
          4 * sigma ^ 2 * (l.length : ℝ) < (l.map fun x => (x - m) ^ 2).sum := by
        intro l
        induction l with
        | nil => intro _ h; exact absurd rfl h
        | cons d l ih =>
          intro hall _
          have hd : 4 * sigma ^ 2 < (d - m) ^ 2 := by
            have h1 := hall d (by simp)
            rw [gt_iff_lt, lt_div_iff₀ h] at h1
            have h2 : (2 * sigma) ^ 2 < |d - m| ^ 2 := pow_lt_pow_left₀ h1 (by positivity) (by norm_num)
            rw [sq_abs] at h2
            linarith
          by_cases hl : l = []
          · subst hl
            simp
            linarith
          · have := ih (fun x hx => hall x (by simp [hx])) hl
            simp only [List.map_cons, List.sum_cons, List.length_cons]
            push_cast
            linarith
      by_cases hnil : (ds.filter fun d => |d - m| / sigma > 2) = []
      · rw [hnil]
        simpa using hlen
      · have hb := hbig _ (fun d hd => by simpa using (List.mem_filter.1 hd).2) hnil
        have hlt : 4 * sigma ^ 2 * ((ds.filter fun d => |d - m| / sigma > 2).length : ℝ) < sigma ^ 2 * ds.length := by linarith
        have hp : (0 : ℝ) < sigma ^ 2 := by positivity
        have : (4 : ℝ) * ((ds.filter fun d => |d - m| / sigma > 2).length : ℝ) < ds.length := by
          by_contra hcon
          push Not at hcon
          nlinarith
        exact_mod_cast this
  have hkpos : 0 < (ds.filter fun d => |d - m| ≤ 2 * sigma).length := by omega
  have hkR : (0 : ℝ) < ((ds.filter fun d => |d - m| ≤ 2 * sigma).length : ℝ) := by exact_mod_cast hkpos
  have hres : m * ds.length - (ds.filter fun d => |d - m| / sigma > 2).sum = (ds.filter fun d => |d - m| ≤ 2 * sigma).sum := by
    have := filter_sums ds (fun d => |d - m| / sigma > 2) id
    simp only [List.map_id] at this
    rw [hsum, this, ← hk]
    ring
  refine ⟨m, sigma, (ds.filter fun d => |d - m| ≤ 2 * sigma).sum / (ds.filter fun d => |d - m| ≤ 2 * sigma).length, hm, hs, ?_, ⟨?_, ?_⟩, ?_⟩
  · unfold chauvenet
    rw [hm, hs]
    simp only [Option.bind_eq_bind, Option.bind_some]
    rw [discard_fold]
    simp only [Nat.zero_add]
    rw [hk, hres, if_neg hkpos.ne']
  · omega
  · field_simp
  · intro a b hab
    have hin : ∀ d ∈ ds.filter (fun d => |d - m| ≤ 2 * sigma), a ≤ d ∧ d ≤ b := fun d hd => hab d (List.mem_filter.1 hd).1
    have h1 := List.card_nsmul_le_sum _ a fun d hd => (hin d hd).1
    have h2 := List.sum_le_card_nsmul _ b fun d hd => (hin d hd).2
    rw [nsmul_eq_mul] at h1 h2
    constructor
    · rw [le_div_iff₀ hkR]; linarith
    · rw [div_le_iff₀ hkR]; linarith

/-- **C133**.  A decorrelation step that is returned is the integer part of (resp. the integer nearest to) the mean of at least eight
of ten estimates, none of which is negative, and lies between their integer parts. In particular it is 0 when all estimates are below 1 (resp. 1/2). -/
theorem C133_step {mi : σ → σ → ℝ} {solver : Solver} {nnod least : ℕ} {rounding : Bool} {fuel : ℕ} {s s' : σ} {d : ℕ}
    (h : GetDecorrelationStep step mi solver nnod least rounding fuel s = .ok (d, s')) :
    ∃ ds v, ds.length = 10 ∧ (∀ x ∈ ds, 0 ≤ x ∧ ∃ s s', estimate step mi solver nnod (times nnod least).1 (times nnod least).2 s = .ok (x, s')) ∧
      chauvenet ds = some v ∧ d = (if rounding then ⌊v + 1 / 2⌋₊ else ⌊v⌋₊) ∧
      ∀ a b, (∀ x ∈ ds, a ≤ x ∧ x ≤ b) → a ≤ v ∧ v ≤ b := by
  unfold GetDecorrelationStep at h
  cases e : estimates (estimate step mi solver nnod (times nnod least).1 (times nnod least).2) fuel 10 s with
  | starved => rw [e] at h; cases h
  | ub => rw [e] at h; cases h
  | ok r =>
    obtain ⟨ds, s1⟩ := r
    rw [e] at h
    obtain ⟨hl, hall⟩ := estimates_spec fuel 10 s _ e
    dsimp only at hl hall
    have hne : ds ≠ [] := by rintro rfl; simp at hl
    obtain ⟨m, sigma, v, _, _, hv, _, hb⟩ := C133_chauvenet hne
    simp only [Res.bind_ok, hv, Res.ofOption_some] at h
    refine ⟨ds, v, hl, hall, hv, ?_, hb⟩
    unfold toInt at h
    cases rounding with
    | true =>
      simp only [if_true] at h ⊢
      split_ifs at h
      · simp only [Res.ofOption_some, Res.bind_ok, Res.pure_eq, Res.ok.injEq, Prod.mk.injEq] at h; exact h.1.symm
      · simp at h
    | false =>
      simp only [Bool.false_eq_true, if_false] at h ⊢
      split_ifs at h
      · simp at h; exact h.1.symm
      · simp at h

/-- Nine estimates of 1 and one of 101: the last one is discarded, and the result is 1, not the mean 11. -/
example : chauvenet [1, 1, 1, 1, 1, 1, 1, 1, 1, 101] = some 1 := by
  obtain ⟨m, sigma, v, hm, hs, hv, ⟨h1, h2⟩, _⟩ := C133_chauvenet (ds := [1, 1, 1, 1, 1, 1, 1, 1, 1, 101]) (by simp)
  have em : m = 11 := by
    obtain ⟨m', e, hsum, _⟩ := C41_mean ([1, 1, 1, 1, 1, 1, 1, 1, 1, 101] : List ℝ) (by simp)
    rw [hm] at e
    cases e
    norm_num at hsum
    linarith
  have es : sigma = 30 := by
    obtain ⟨m', s', e1, e2, h0, hsq, _⟩ := C41_stddev ([1, 1, 1, 1, 1, 1, 1, 1, 1, 101] : List ℝ) (by simp)
    rw [hm] at e1
    rw [hs] at e2
    cases e1
    cases e2
    rw [em] at hsq
    norm_num at hsq
    nlinarith
  subst em
  subst es
  have hk : ([1, 1, 1, 1, 1, 1, 1, 1, 1, 101] : List ℝ).filter (fun d => decide (|d - 11| ≤ 2 * 30)) = [1, 1, 1, 1, 1, 1, 1, 1, 1] := by
    norm_num [abs_le, List.filter_cons]
  rw [hk] at h2
  norm_num at h2
  rw [hv, h2]

end WU
