import Verif.Warm.Model
import Verif.Tools.Props
import Verif.Missing.Props
import Verif.Missing.Gibbs
import Verif.Recommend.Model
import Mathlib.Algebra.Order.Floor.Semiring
import Mathlib.Tactic.Linarith
import Mathlib.Tactic.Positivity
import Mathlib.Tactic.NormNum

/-! # C132: thermalisation -/

namespace WU

open RG Tools

variable {σ : Type} {step : ℕ → σ → Res σ} {H : σ → ℝ} {f : ℕ}

theorem calls_append (step : ℕ → σ → Res σ) : ∀ (fs gs : List ℕ) (s : σ),
    calls step (fs ++ gs) s = (calls step fs s >>= calls step gs)
  | [], _, _ => rfl
  | f :: fs, gs, s => by
    simp only [List.cons_append, calls]
    cases step f s with
    | ok s' => exact calls_append step fs gs s'
    | starved => rfl
    | ub => rfl

theorem root_pos : 0 < root := Real.sqrt_pos.2 (by norm_num)

/-! ## One batch -/

theorem batch_cases {P : σ → Prop} {B : ℝ} (hP : ∀ s, P s → (step f s).Holds fun s' => P s' ∧ B ≤ H s') : ∀ k s, P s →
    (∃ hs s', batch step H f k s = .ok (hs, s') ∧ calls step (List.replicate k f) s = .ok s' ∧ P s' ∧ hs.length = k ∧
      ∀ h ∈ hs, B ≤ h) ∨
    (batch step H f k s = .starved ∧ calls step (List.replicate k f) s = .starved)
  | 0, s, hs => Or.inl ⟨[], s, rfl, rfl, hs, rfl, by simp⟩
  | k + 1, s, hs => by
    have h := hP s hs
    rw [List.replicate_succ]
    simp only [batch, calls]
    cases e : step f s with
    | ub => rw [e] at h; exact h.elim
    | starved => exact Or.inr ⟨rfl, rfl⟩
    | ok s1 =>
      rw [e] at h
      simp only [Res.bind_ok]
      rcases batch_cases hP k s1 h.1 with ⟨hs, s', h1, h2, h3, h4, h5⟩ | ⟨h1, h2⟩
      · refine Or.inl ⟨H s1 :: hs, s', by rw [h1]; rfl, h2, h3, by simp [h4], ?_⟩
        intro x hx
        rcases List.mem_cons.1 hx with rfl | hx
        · exact h.2
        · exact h5 x hx
      · exact Or.inr ⟨by rw [h1]; rfl, h2⟩

theorem stats {hs : List ℝ} (hl : hs.length = 20) {B : ℝ} (hB : ∀ h ∈ hs, B ≤ h) :
    ∃ m d, mean hs = some m ∧ stddev hs = some d ∧ B ≤ m ∧ 0 ≤ d ∧ (d = 0 ↔ ∀ x ∈ hs, x = m) := by
  have hne : hs ≠ [] := by rintro rfl; simp at hl
  obtain ⟨m, d, hm, hd, h0, _, hz⟩ := C41_stddev hs hne
  obtain ⟨m', hm', hsum, hb⟩ := C41_mean hs hne
  rw [hm] at hm'
  cases hm'
  refine ⟨m, d, hm, hd, ?_, h0, hz⟩
  have hp : (0 : ℝ) < hs.length := by rw [hl]; norm_num
  by_contra hlt
  push Not at hlt
  have : (hs.length : ℝ) * B ≤ hs.sum := by
    have := List.card_nsmul_le_sum hs B hB
    rwa [nsmul_eq_mul] at this
  rw [← hsum] at this
  nlinarith

/-! ## The loop ends -/

/-- Failures still possible. -/
noncomputable def left (B m0 s0 : ℝ) : ℕ := ⌈(m0 - s0 / root - B) * 10 ^ 6⌉₊

theorem left_fail {B m0 s0 m1 s1 : ℝ} (hB : B ≤ m1) (h0 : 0 ≤ s1) (hf : ¬ Test.epsilon.Passes m0 s0 m1 s1) :
    left B m1 s1 + 1 ≤ left B m0 s0 := by
  unfold Test.Passes at hf
  push Not at hf
  have hr := root_pos
  have hd : 0 ≤ s1 / root := div_nonneg h0 hr.le
  unfold left
  rw [Nat.succ_le_iff, Nat.lt_ceil]
  have h1 : (m1 - s1 / root - B) * 10 ^ 6 + 1 ≤ (m0 - s0 / root - B) * 10 ^ 6 := by linarith
  by_cases hn : 0 ≤ (m1 - s1 / root - B) * 10 ^ 6
  · have := Nat.ceil_lt_add_one hn
    linarith
  · push Not at hn
    rw [Nat.ceil_eq_zero.2 hn.le]
    push_cast
    linarith

theorem therm_ends {P : σ → Prop} {B : ℝ} (hP : ∀ s, P s → (step f s).Holds fun s' => P s' ∧ B ≤ H s') :
    ∀ (fuel : ℕ) (m0 s0 : ℝ) (eq : ℕ) (s : σ), P s → eq ≤ 4 → (5 - eq) + 5 * left B m0 s0 ≤ fuel →
    (∃ k s', k ≤ fuel ∧ thermLoop .epsilon step H f fuel m0 s0 eq s = .ok s' ∧ P s' ∧
      calls step (List.replicate (20 * k) f) s = .ok s') ∨
    (∃ k ≤ fuel, thermLoop .epsilon step H f fuel m0 s0 eq s = .starved ∧
      calls step (List.replicate (20 * k) f) s = .starved)
  | 0, m0, s0, eq, s, _, he, hf => by omega
  | fuel + 1, m0, s0, eq, s, hs, he, hf => by
    rw [thermLoop]
    rcases batch_cases (H := H) hP 20 s hs with ⟨hs', s1, h1, h2, h3, h4, h5⟩ | ⟨h1, h2⟩
    swap
    · right
      exact ⟨1, by omega, by rw [h1]; rfl, h2⟩
    obtain ⟨m1, d1, e1, e2, hm, hd, _⟩ := stats h4 h5
    rw [h1]
    simp only [Res.bind_ok, e1, e2, Res.ofOption_some]
    have glue : ∀ k, calls step (List.replicate (20 * (k + 1)) f) s = calls step (List.replicate (20 * k) f) s1 := by
      intro k
      rw [Nat.mul_succ, Nat.add_comm, List.replicate_add, calls_append, h2]
      rfl
    by_cases hpass : Test.epsilon.Passes m0 s0 m1 d1
    · rw [if_pos hpass]
      by_cases h4' : eq + 1 < 5
      · rw [if_pos h4']
        rcases therm_ends hP fuel m0 s0 (eq + 1) s1 h3 (by omega) (by omega) with ⟨k, s', a, b, c, d⟩ | ⟨k, a, b, c⟩
        · exact Or.inl ⟨k + 1, s', by omega, b, c, by rw [glue, d]⟩
        · exact Or.inr ⟨k + 1, by omega, b, by rw [glue, c]⟩
      · rw [if_neg h4']
        exact Or.inl ⟨1, s1, by omega, rfl, h3, h2⟩
    · rw [if_neg hpass]
      have hl := left_fail hm hd hpass
      rcases therm_ends hP fuel m1 d1 0 s1 h3 (by omega) (by omega) with ⟨k, s', a, b, c, d⟩ | ⟨k, a, b, c⟩
      · exact Or.inl ⟨k + 1, s', by omega, b, c, by rw [glue, d]⟩
      · exact Or.inr ⟨k + 1, by omega, b, by rw [glue, c]⟩

/-- Number of batches that always suffices. -/
noncomputable def enough (B : ℝ) : ℕ := 5 + 5 * ⌈(10 ^ 10 - B) * 10 ^ 6⌉₊

/-- **C132**.  With the test with `EPSILON`, thermalisation ends if the energy is bounded below: from any number of turns that is at least
`enough B` on, it returns a state reached by at most that many batches of 20 calls (unless a call itself does not return: then
the given stream of random numbers is too short for that many calls). -/
theorem C132_ends {P : σ → Prop} {B : ℝ} (hP : ∀ s, P s → (step f s).Holds fun s' => P s' ∧ B ≤ H s') {s : σ} (hs : P s)
    {fuel : ℕ} (hf : enough B ≤ fuel) :
    (∃ k s', k ≤ fuel ∧ Thermalize .epsilon step H f fuel s = .ok s' ∧ P s' ∧
      calls step (List.replicate (20 * k) f) s = .ok s') ∨
    (∃ k ≤ fuel, Thermalize .epsilon step H f fuel s = .starved ∧ calls step (List.replicate (20 * k) f) s = .starved) := by
  refine therm_ends hP fuel _ _ 0 s hs (by omega) ?_
  refine le_trans ?_ hf
  unfold enough left
  have : ⌈((10 : ℝ) ^ 10 - 1 / 10 ^ 10 / root - B) * 10 ^ 6⌉₊ ≤ ⌈((10 : ℝ) ^ 10 - B) * 10 ^ 6⌉₊ := by
    apply Nat.ceil_mono
    have : (0 : ℝ) ≤ 1 / 10 ^ 10 / root := div_nonneg (by norm_num) root_pos.le
    nlinarith
  omega

/-! ## What the end means -/

/-- Batches of 20 calls from `s` to `s'`, with their energies. -/
inductive Batches (step : ℕ → σ → Res σ) (H : σ → ℝ) (f : ℕ) : σ → List (List ℝ) → σ → Prop
  | nil (s : σ) : Batches step H f s [] s
  | cons {s s1 s' : σ} {b : List ℝ} {bs : List (List ℝ)} : batch step H f 20 s = .ok (b, s1) → Batches step H f s1 bs s' →
      Batches step H f s (b :: bs) s'

/-- A batch passes the test against mean `m0` and standard deviation `d0`. -/
def BatchPasses (test : Test) (m0 d0 : ℝ) (b : List ℝ) : Prop :=
  ∃ m d, mean b = some m ∧ stddev b = some d ∧ test.Passes m0 d0 m d

theorem therm_meaning (test : Test) : ∀ (fuel : ℕ) (m0 d0 : ℝ) (eq : ℕ) (s s' : σ), eq ≤ 4 →
    thermLoop test step H f fuel m0 d0 eq s = .ok s' →
    ∃ bs, Batches step H f s bs s' ∧ ((bs.length = 5 - eq ∧ ∀ b ∈ bs, BatchPasses test m0 d0 b) ∨
      ∃ pre b last m d, bs = pre ++ b :: last ∧ last.length = 5 ∧ mean b = some m ∧ stddev b = some d ∧
        ∀ c ∈ last, BatchPasses test m d c)
  | 0, _, _, _, _, _, _, h => by simp [thermLoop] at h
  | fuel + 1, m0, d0, eq, s, s', he, h => by
    rw [thermLoop] at h
    cases hb : batch step H f 20 s with
    | starved => rw [hb] at h; simp at h
    | ub => rw [hb] at h; simp at h
    | ok r =>
      obtain ⟨b, s1⟩ := r
      rw [hb] at h
      simp only [Res.bind_ok] at h
      cases hm : mean b with
      | none => rw [hm] at h; simp at h
      | some m =>
        cases hd : stddev b with
        | none => rw [hm, hd] at h; simp at h
        | some d =>
          rw [hm, hd] at h
          simp only [Res.ofOption_some, Res.bind_ok] at h
          split_ifs at h with hp h5
          · obtain ⟨bs, hB, hcase⟩ := therm_meaning test fuel m0 d0 (eq + 1) s1 s' (by omega) h
            refine ⟨b :: bs, .cons hb hB, ?_⟩
            rcases hcase with ⟨hl, hall⟩ | ⟨pre, c, last, m', d', rfl, hrest⟩
            · left
              refine ⟨by simp [hl]; omega, ?_⟩
              intro c hc
              rcases List.mem_cons.1 hc with rfl | hc
              · exact ⟨m, d, hm, hd, hp⟩
              · exact hall c hc
            · exact Or.inr ⟨b :: pre, c, last, m', d', rfl, hrest⟩
          · cases h
            refine ⟨[b], .cons hb (.nil _), Or.inl ⟨by simp; omega, ?_⟩⟩
            intro c hc
            rw [List.mem_singleton.1 hc]
            exact ⟨m, d, hm, hd, hp⟩
          · obtain ⟨bs, hB, hcase⟩ := therm_meaning test fuel m d 0 s1 s' (by omega) h
            refine ⟨b :: bs, .cons hb hB, Or.inr ?_⟩
            rcases hcase with ⟨hl, hall⟩ | ⟨pre, c, last, m', d', rfl, hrest⟩
            · exact ⟨[], b, bs, m, d, rfl, by omega, hm, hd, hall⟩
            · exact ⟨b :: pre, c, last, m', d', rfl, hrest⟩

/-- **C132**.  When thermalisation returns, the mean energies of the last five batches of 20 calls are not lower than that of the batch
before them (or, if there are no more than five, than `10^10`), beyond the errors of the means. -/
theorem C132_meaning (test : Test) {fuel : ℕ} {s s' : σ} (h : Thermalize test step H f fuel s = .ok s') :
    ∃ bs, Batches step H f s bs s' ∧ ((bs.length = 5 ∧ ∀ b ∈ bs, BatchPasses test (10 ^ 10) (1 / 10 ^ 10) b) ∨
      ∃ pre b last m d, bs = pre ++ b :: last ∧ last.length = 5 ∧ mean b = some m ∧ stddev b = some d ∧
        ∀ c ∈ last, BatchPasses test m d c) :=
  therm_meaning test fuel _ _ 0 s s' (by omega) h

/-! ## The test without `EPSILON` -/

theorem strict_loop {P : σ → Prop} {c : ℝ} (hP : ∀ s, P s → (step f s).Holds fun s' => P s' ∧ H s' = c) :
    ∀ (fuel : ℕ) (m0 s0 : ℝ) (s : σ), P s → c ≤ m0 - s0 / root →
    thermLoop .strict step H f fuel m0 s0 0 s = .starved
  | 0, _, _, _, _, _ => rfl
  | fuel + 1, m0, s0, s, hs, h0 => by
    have hconst : ∀ k s, P s → (∃ s', batch step H f k s = .ok (List.replicate k c, s') ∧ P s') ∨ batch step H f k s = .starved := by
      intro k
      induction k with
      | zero => intro s hs; exact Or.inl ⟨s, rfl, hs⟩
      | succ k ih =>
        intro s hs
        have h := hP s hs
        simp only [batch]
        cases e : step f s with
        | ub => rw [e] at h; exact h.elim
        | starved => exact Or.inr rfl
        | ok s1 =>
          rw [e] at h
          simp only [Res.bind_ok]
          rcases ih s1 h.1 with ⟨s', h1, h2⟩ | h1
          · exact Or.inl ⟨s', by rw [h1, h.2]; rfl, h2⟩
          · exact Or.inr (by rw [h1]; rfl)
    rw [thermLoop]
    rcases hconst 20 s hs with ⟨s1, h1, h2⟩ | h1
    swap
    · rw [h1]; rfl
    obtain ⟨m1, d1, e1, e2, _, _, hz⟩ := stats (hs := List.replicate 20 c) (by rw [List.length_replicate])
      (B := c) (fun h hh => (List.eq_of_mem_replicate hh).ge)
    have hm : m1 = c := by
      obtain ⟨m', e', _, hb⟩ := C41_mean (List.replicate 20 c) (by intro h; cases h)
      rw [e1] at e'
      cases e'
      have := hb c c (fun x hx => by rw [List.eq_of_mem_replicate hx]; exact ⟨le_rfl, le_rfl⟩)
      linarith
    have hd : d1 = 0 := hz.2 fun x hx => by rw [hm]; exact List.eq_of_mem_replicate hx
    rw [h1]
    simp only [Res.bind_ok, e1, e2, Res.ofOption_some]
    subst hm
    subst hd
    have hfail : ¬ Test.strict.Passes m0 s0 m1 0 := by
      show ¬ (m0 - s0 / root < m1 + 0 / root)
      rw [zero_div, add_zero]
      exact not_lt.2 h0
    rw [if_neg hfail]
    exact strict_loop hP fuel m1 0 s1 h2 (by rw [zero_div, sub_zero])

/-- **C132, refutation**: with the test without `EPSILON` (all samplers of src/recommend.c, and `LSThermalizeMCKState`), thermalisation
never returns if the energy stays the same: a mean is not strictly lower than itself. -/
theorem C132_strict_never_ends {P : σ → Prop} {c : ℝ} (hc : c ≤ 10 ^ 10 - 1)
    (hP : ∀ s, P s → (step f s).Holds fun s' => P s' ∧ H s' = c) {s : σ} (hs : P s) (fuel : ℕ) :
    Thermalize .strict step H f fuel s = .starved := by
  refine strict_loop hP fuel _ _ s hs ?_
  have h1 : (1 : ℝ) ≤ root := by
    unfold root
    rw [Real.le_sqrt' (by norm_num : (0 : ℝ) < 1)]
    norm_num
  have : (1 : ℝ) / 10 ^ 10 / root ≤ 1 := by
    rw [div_le_one root_pos]
    have : (1 : ℝ) / 10 ^ 10 ≤ 1 := by norm_num
    linarith
  linarith

/-- **C132, refutation** (recommender).  A decorrelation step of 0 makes `ThermalizeMC2State` and `ThermalizeMCKState` run for ever,
whatever the ratings, the partitions and the random numbers. -/
theorem C132_recommender_hangs (acc : ℝ → ℚ → Bool) (b : BP.Bi) (K : ℕ) (s : RC.View) (hs : s.H ≤ 10 ^ 10 - 1) (fuel : ℕ) :
    Thermalize .strict (RC.MCStep2State acc b) (fun s => s.H) 0 fuel s = .starved ∧
    Thermalize .strict (RC.MCStepKState acc b K) (fun s => s.H) 0 fuel s = .starved := by
  constructor
  · refine C132_strict_never_ends (P := fun s' => s' = s) hs ?_ rfl fuel
    rintro _ rfl
    show (RC.MCStep2State acc b 0 _).Holds _
    unfold RC.MCStep2State
    exact ⟨rfl, rfl⟩
  · refine C132_strict_never_ends (P := fun s' => s' = s) hs ?_ rfl fuel
    rintro _ rfl
    show (RC.MCStepKState acc b K 0 _).Holds _
    unfold RC.MCStepKState
    exact ⟨rfl, rfl⟩

/-! ## `src/missing.c` -/

theorem pairs_nonneg (net : GP.Net) (p : ℕ → Option ℕ) (g g' : ℕ) : 0 ≤ LS.pairs net p g g' := by
  unfold LS.pairs
  split_ifs
  · apply Int.ediv_nonneg _ (by norm_num)
    rcases Nat.eq_zero_or_pos (LS.block net p g).card with h | h
    · rw [h]; simp
    · have : (1 : Int) ≤ (LS.block net p g).card := by exact_mod_cast h
      exact mul_nonneg (by omega) (by omega)
  · positivity

theorem T_nonneg (net : GP.Net) (p : ℕ → Option ℕ) (g g' : ℕ) : 0 ≤ LS.T net p g g' := by
  unfold LS.T
  apply add_nonneg
  · apply Real.log_nonneg
    have : (0 : ℝ) ≤ ((LS.pairs net p g g' : ℤ) : ℝ) := by exact_mod_cast pairs_nonneg net p g g'
    linarith
  · exact Real.log_natCast_nonneg _

/-- Lower bound of the energies of all divisions. -/
noncomputable def floorE (net : GP.Net) (linC : ℝ) : ℝ := -|linC| * net.n - Real.log ((net.n.factorial : ℕ) : ℝ)

theorem energy_bound (net : GP.Net) (linC : ℝ) (p : ℕ → Option ℕ) : floorE net linC ≤ LS.energy net linC p := by
  unfold floorE LS.energy
  have h1 : 0 ≤ ∑ g ∈ Finset.range net.n, LS.T net p g g := Finset.sum_nonneg fun g _ => T_nonneg _ _ _ _
  have h2 : 0 ≤ ∑ g ∈ Finset.range net.n, ∑ g' ∈ (Finset.range net.n).filter (g < ·), LS.T net p g g' :=
    Finset.sum_nonneg fun g _ => Finset.sum_nonneg fun g' _ => T_nonneg _ _ _ _
  have hcard : ((LS.used net p).card : ℝ) ≤ net.n := by
    have : (LS.used net p).card ≤ net.n := (Finset.card_filter_le _ _).trans (by simp)
    exact_mod_cast this
  have h3 : -|linC| * net.n ≤ linC * (LS.used net p).card := by
    have ha := neg_abs_le linC
    have hb := abs_nonneg linC
    have hc : (0 : ℝ) ≤ ((LS.used net p).card : ℝ) := by positivity
    nlinarith
  have h4 : Real.log (((net.n - (LS.used net p).card).factorial : ℕ) : ℝ) ≤ Real.log ((net.n.factorial : ℕ) : ℝ) := by
    apply Real.log_le_log
    · exact_mod_cast Nat.factorial_pos _
    · exact_mod_cast Nat.factorial_le (Nat.sub_le _ _)
  linarith

/-- **C132** (src/missing.c).  `ThermalizeLinkScoreMC` ends for all simple networks, biases, decorrelation steps and random numbers, with
the state of the sampler right. -/
theorem C132_missing_ends {net : GP.Net} (h : net.Simple) (acc : ℝ → ℚ → Bool) (linC : ℝ) (decorStep : ℕ) {s : LS.St}
    (hs : LS.Good net linC s) {fuel : ℕ} (hf : enough (floorE net linC) ≤ fuel) :
    (∃ s', Thermalize .epsilon (LS.LinkScoreMCStep acc net linC) (fun s => s.H) decorStep fuel s = .ok s' ∧ LS.Good net linC s') ∨
    ∃ k ≤ fuel, calls (LS.LinkScoreMCStep acc net linC) (List.replicate (20 * k) decorStep) s = .starved := by
  rcases C132_ends (step := LS.LinkScoreMCStep acc net linC) (H := fun s => s.H) (f := decorStep) (P := LS.Good net linC)
    (B := floorE net linC)
    (fun s hs => (LS.C29_step_partial h acc linC decorStep s hs).mono fun s' h' =>
      ⟨h', by rw [LS.C29_energy h h']; exact energy_bound _ _ _⟩) hs hf with ⟨k, s', _, h1, h2, _⟩ | ⟨k, h1, _, h2⟩
  · exact Or.inl ⟨s', h1, h2⟩
  · exact Or.inr ⟨k, h1, h2⟩

/-- A sampler whose energy falls by 1 at every call down to 0: thermalisation returns with energy 0. -/
example (fuel : ℕ) (hf : enough 0 ≤ fuel) : ∃ s' : ℕ,
    Thermalize .epsilon (fun _ (s : ℕ) => Res.ok (s - 1)) (fun s => (s : ℝ)) 1 fuel 100 = .ok s' := by
  rcases C132_ends (step := fun _ (s : ℕ) => Res.ok (s - 1)) (H := fun s => (s : ℝ)) (f := 1) (P := fun _ => True) (B := 0)
    (fun s _ => ⟨trivial, by positivity⟩) (s := 100) trivial hf with ⟨_, s', _, h, _⟩ | ⟨k, _, _, h⟩
  · exact ⟨s', h⟩
  · have : ∀ (fs : List ℕ) (s : ℕ), ∃ s', calls (fun _ (s : ℕ) => Res.ok (s - 1)) fs s = .ok s' := by
      intro fs
      induction fs with
      | nil => intro s; exact ⟨s, rfl⟩
      | cons g fs ih => intro s; exact ih (s - 1)
    obtain ⟨s', e⟩ := this (List.replicate (20 * k) 1) 100
    rw [e] at h
    cases h

end WU
