import Verif.Layout.SpaceRun

/-!
Whole runs of the three layouts, when there are at most two boxes per row: all nodes repel one another.
-/

set_option linter.unusedSimpArgs false
set_option linter.unusedSectionVars false

namespace LY
open scoped BigOperators

/-- The force on a node when all charges act on one another. -/
noncomputable def full (net : GP.Net) (r : Pos) (d : Fin 3) (i : ℕ) : ℝ :=
  (∑ j ∈ Finset.range net.n, (net.w i j : ℝ) * (r d j - r d i)) +
  ∑ j ∈ Finset.range net.n, if i ≠ j then
    -(1 / (net.n : ℝ)) / (apart r i j ^ 2 + Real.sqrt net.n / 10000) * ((r d j - r d i) / apart r i j) else 0

/-- Kinetic energy per node in step `k`. -/
noncomputable def heat (n : ℕ) (dt : ℝ) (R : ℕ → Pos) (k : ℕ) : ℝ :=
  (∑ i ∈ Finset.range n, ∑ d : Fin 3, ((R (k + 2) d i - R k d i) / (2 * dt)) ^ 2 / 2) / n

/-- A run of `m` steps: `R 1` the start, `R (k + 1)` the places after `k` steps. -/
structure Trace (net : GP.Net) (drag dt : ℝ) (nsteps : ℕ) (r0 : Pos) (m : ℕ) (R : ℕ → Pos) (κ : ℕ → ℝ) : Prop where
  start : R 0 = r0 ∧ R 1 = r0
  distinct : ∀ k < m, ∀ i < net.n, ∀ j < net.n, i ≠ j → ∃ d, R (k + 1) d i ≠ R (k + 1) d j
  proper : 0 < m → 1 + drag * dt / 2 ≠ 0 ∧ dt ≠ 0
  move : ∀ k < m, ∀ d, ∀ i < net.n, R (k + 2) d i =
    moved drag dt (R (k + 1) d) (R k d) (fun i => full net (R (k + 1)) d i + pull (κ k) (R (k + 1)) d i) i
  le : m ≤ nsteps
  warm : ∀ k, k + 1 < m → 1 / 100000 ≤ heat net.n dt R k
  stop : m < nsteps → 0 < m ∧ heat net.n dt R (m - 1) < 1 / 100000

/-! ### Loops -/

theorem loop_history {S : Type*} (step : S → Option (S × ℝ)) (n : ℝ) (loop : ℕ → S → Option S) (h0 : ∀ s, loop 0 s = some s)
    (h1 : ∀ k s, loop (k + 1) s = (step s).bind fun r => open Classical in if r.2 / n < 1 / 100000 then some r.1 else loop k r.1) (k : ℕ) :
    ∀ s s', loop k s = some s' → ∃ m ≤ k, ∃ (σ : ℕ → S) (T : ℕ → ℝ), σ 0 = s ∧ σ m = s' ∧
      (∀ i, i < m → step (σ i) = some (σ (i + 1), T i)) ∧ (∀ i, i + 1 < m → 1 / 100000 ≤ T i / n) ∧
      (m < k → 0 < m ∧ T (m - 1) / n < 1 / 100000) := by
  induction k with
  | zero =>
    intro s s' h
    rw [h0] at h
    obtain rfl := Option.some.inj h
    exact ⟨0, le_refl _, fun _ => s, fun _ => 0, rfl, rfl, by simp, by simp, by simp⟩
  | succ k ih =>
    intro s s' h
    rw [h1] at h
    cases hr : step s with
    | none => rw [hr] at h; simp at h
    | some r =>
      simp only [hr, Option.bind_some] at h
      by_cases hT : r.2 / n < 1 / 100000
      · rw [if_pos hT] at h
        obtain rfl := Option.some.inj h
        refine ⟨1, by omega, fun i => if i = 0 then s else r.1, fun _ => r.2, rfl, rfl, ?_, by omega, fun _ => ⟨by omega, hT⟩⟩
        intro i hi
        obtain rfl : i = 0 := by omega
        simpa using hr
      · rw [if_neg hT] at h
        obtain ⟨m, hm, σ, T, h0, hmm, hist, hwarm, hstop⟩ := ih _ _ h
        refine ⟨m + 1, by omega, fun i => match i with | 0 => s | i + 1 => σ i, fun i => match i with | 0 => r.2 | i + 1 => T i,
          rfl, hmm, ?_, ?_, ?_⟩
        · rintro (_ | i) hi
          · simp only [h0]; exact hr
          · exact hist i (by omega)
        · rintro (_ | i) hi
          · exact not_lt.1 hT
          · exact hwarm i (by omega)
        · intro hlt
          obtain ⟨h1, h2⟩ := hstop (by omega)
          refine ⟨by omega, ?_⟩
          obtain ⟨m', rfl⟩ : ∃ m', m = m' + 1 := ⟨m - 1, by omega⟩
          exact h2

/-! ### Three dimensions -/

theorem adjacent3_all {b p q : ℕ} (hb : 0 < b) (hb2 : b ≤ 2) (hp : p < b * b * b) (hq : q < b * b * b) : Adjacent3 b p q := by
  have : b = 1 ∨ b = 2 := by omega
  rcases this with rfl | rfl <;> unfold Adjacent3 <;> omega

theorem interact3_all {n b : ℕ} {r : Pos} {home : ℕ → ℕ} {boxes : ℕ → List ℕ} (hb : 0 < b) (hb2 : b ≤ 2) (hf : Filed3 n b boxes home) {i j : ℕ}
    (hi : i < n) (hj : j < n) : Interact3 n b r home i j ↔ i ≠ j :=
  ⟨fun h => h.1, fun h => ⟨h, adjacent3_all hb hb2 (hf.range i hi) (hf.range j hj), Or.inr hb2⟩⟩

theorem force3_full {net : GP.Net} {b : ℕ} {r : Pos} {home : ℕ → ℕ} {boxes : ℕ → List ℕ} (hb : 0 < b) (hb2 : b ≤ 2)
    (hf : Filed3 net.n b boxes home) (d : Fin 3) {i : ℕ} (hi : i < net.n) : force3 net b r home d i = full net r d i := by
  unfold force3 full
  congr 1
  apply Finset.sum_congr rfl
  intro j hj
  rw [Finset.mem_range] at hj
  by_cases h : i = j
  · rw [if_neg (fun h' => h'.1 h), if_neg (not_not.2 h)]
  · rw [if_pos ((interact3_all hb hb2 hf hi hj).2 h), if_pos h]

theorem step3_full {net : GP.Net} (hs : net.Simple) {drag dt : ℝ} {b : ℕ} (hb : 0 < b) (hb2 : b ≤ 2) {kz : ℝ} {s : MD3} {r : MD3 × ℝ}
    (hf : Filed3 net.n b s.boxes s.oldbox) (h : mdStep3 net drag dt b kz s = some r) :
    (1 + drag * dt / 2 ≠ 0 ∧ dt ≠ 0) ∧ Filed3 net.n b r.1.boxes r.1.oldbox ∧ r.1.pr = s.r ∧
      (∀ i < net.n, ∀ j < net.n, i ≠ j → ∃ d, s.r d i ≠ s.r d j) ∧
      (∀ d, ∀ i < net.n, r.1.r d i = moved drag dt (s.r d) (s.pr d) (fun i => full net s.r d i + pull kz s.r d i) i) ∧
      r.2 = ∑ i ∈ Finset.range net.n, ∑ d : Fin 3, ((r.1.r d i - s.pr d i) / (2 * dt)) ^ 2 / 2 := by
  obtain ⟨h1, h2, F, hF, h3, h4, h5, -, h6⟩ := step3_some hf h
  by_cases hc : Collision3 net b s.r s.oldbox
  · rw [(C161_forces_3d net hs s.r b s.boxes s.oldbox hf).1 hc] at hF; simp at hF
  obtain ⟨G, hG, hfor⟩ := (C161_forces_3d net hs s.r b s.boxes s.oldbox hf).2 hc
  rw [hG] at hF
  obtain rfl := Option.some.inj hF
  refine ⟨⟨h1, h2⟩, h3, h5, ?_, ?_, h6⟩
  · intro i hi j hj hij
    by_contra hcon
    push Not at hcon
    exact hc ⟨i, j, hi, hj, Or.inr ((interact3_all hb hb2 hf hi hj).2 hij), hcon⟩
  · intro d i hi
    rw [h4 d i hi]
    unfold moved
    simp only [hfor d i hi, force3_full hb hb2 hf d hi]

/-- The places before the first step, then those after each step. -/
def before (r0 : Pos) (ρ : ℕ → Pos) : ℕ → Pos
  | 0 => r0
  | k + 1 => ρ k

theorem trace3 {net : GP.Net} (hs : net.Simple) {drag dt : ℝ} {b : ℕ} (hb : 0 < b) (hb2 : b ≤ 2) {nsteps : ℕ} {r0 : Pos} {m : ℕ} {σ : ℕ → MD3}
    {T κ : ℕ → ℝ} (hf : Filed3 net.n b (σ 0).boxes (σ 0).oldbox) (h0 : (σ 0).r = r0) (h0' : (σ 0).pr = r0) (hm : m ≤ nsteps)
    (hstep : ∀ i, i < m → mdStep3 net drag dt b (κ i) (σ i) = some (σ (i + 1), T i)) (hwarm : ∀ i, i + 1 < m → 1 / 100000 ≤ T i / net.n)
    (hstop : m < nsteps → 0 < m ∧ T (m - 1) / net.n < 1 / 100000) :
    Trace net drag dt nsteps r0 m (before r0 fun k => (σ k).r) κ ∧
      ∀ k < m, T k / net.n = heat net.n dt (before r0 fun k => (σ k).r) k := by
  have hfil : ∀ k ≤ m, Filed3 net.n b (σ k).boxes (σ k).oldbox := by
    intro k
    induction k with
    | zero => intro _; exact hf
    | succ k ih => intro hk; exact (step3_full hs hb hb2 (ih (by omega)) (hstep k (by omega))).2.1
  have hpr : ∀ k ≤ m, (σ k).pr = before r0 (fun k => (σ k).r) k := by
    intro k hk
    cases k with
    | zero => exact h0'
    | succ k => exact (step3_full hs hb hb2 (hfil k (by omega)) (hstep k (by omega))).2.2.1
  have hT : ∀ k < m, T k / net.n = heat net.n dt (before r0 fun k => (σ k).r) k := by
    intro k hk
    have := (step3_full hs hb hb2 (hfil k hk.le) (hstep k hk)).2.2.2.2.2
    simp only at this
    rw [this, hpr k hk.le]
    rfl
  refine ⟨⟨⟨rfl, h0⟩, ?_, ?_, ?_, hm, ?_, ?_⟩, hT⟩
  · intro k hk
    exact (step3_full hs hb hb2 (hfil k hk.le) (hstep k hk)).2.2.2.1
  · intro h; exact (step3_full hs hb hb2 hf (hstep 0 h)).1
  · intro k hk d i hi
    have := (step3_full hs hb hb2 (hfil k hk.le) (hstep k hk)).2.2.2.2.1 d i hi
    rw [hpr k hk.le] at this
    exact this
  · intro k hk; rw [← hT k (by omega)]; exact hwarm k hk
  · intro h
    obtain ⟨h1, h2⟩ := hstop h
    exact ⟨h1, by rw [← hT _ (by omega)]; exact h2⟩

/-! ### Two dimensions -/

/-- A drawing in the plane. -/
def flat (x y : ℕ → ℝ) : Pos := ![x, y, fun _ => 0]

theorem apart_flat (x y : ℕ → ℝ) (i j : ℕ) : apart (flat x y) i j = dis x y i j := by
  unfold apart dis flat
  congr 1
  simp
  ring

theorem adjacent_all {b p q : ℕ} (hb : 0 < b) (hb2 : b ≤ 2) (hp : p < b * b) (hq : q < b * b) : Adjacent b p q := by
  have : b = 1 ∨ b = 2 := by omega
  rcases this with rfl | rfl <;> unfold Adjacent <;> omega

theorem interact_all {n b : ℕ} {x y : ℕ → ℝ} {home : ℕ → ℕ} {boxes : ℕ → List ℕ} (hb : 0 < b) (hb2 : b ≤ 2) (hf : Filed n b boxes home) {i j : ℕ}
    (hi : i < n) (hj : j < n) : Interact n b x y home i j ↔ i ≠ j :=
  ⟨fun h => h.1, fun h => ⟨h, adjacent_all hb hb2 (hf.range i hi) (hf.range j hj), Or.inr hb2⟩⟩

theorem force_full {net : GP.Net} {b : ℕ} {x y : ℕ → ℝ} {home : ℕ → ℕ} {boxes : ℕ → List ℕ} (hb : 0 < b) (hb2 : b ≤ 2)
    (hf : Filed net.n b boxes home) (d : Fin 3) {i : ℕ} (hi : i < net.n) : force net b x y home (flat x y d) i = full net (flat x y) d i := by
  unfold force full
  congr 1
  apply Finset.sum_congr rfl
  intro j hj
  rw [Finset.mem_range] at hj
  by_cases h : i = j
  · rw [if_neg (fun h' => h'.1 h), if_neg (not_not.2 h)]
  · rw [if_pos ((interact_all hb hb2 hf hi hj).2 h), if_pos h, apart_flat]

theorem full_flat2 (net : GP.Net) (x y : ℕ → ℝ) (i : ℕ) : full net (flat x y) 2 i = 0 := by
  unfold full flat; simp

theorem step_T {net : GP.Net} {drag dt : ℝ} {b : ℕ} {s : MD} {r : MD × ℝ}
    (hf : Filed net.n b s.boxes s.oldbox) (h : mdStep net drag dt b s = some r) : dt ≠ 0 ∧
    r.2 = ∑ i ∈ Finset.range net.n, (((r.1.x i - s.px i) / (2 * dt)) ^ 2 / 2 + ((r.1.y i - s.py i) / (2 * dt)) ^ 2 / 2) := by
  unfold mdStep at h
  cases hF : CalculateNodeForces net s.x s.y s.boxes b with
  | none => simp [hF] at h
  | some F =>
    simp only [hF, Option.bind_eq_bind, Option.bind_some] at h
    by_cases hd : 1 + drag * dt * (1 / 2) = 0 ∨ 2 * dt = 0
    · rw [if_pos hd] at h; simp at h
    rw [if_neg hd, Option.bind_eq_some_iff] at h
    obtain ⟨s', hs', h⟩ := h
    obtain rfl := Option.some.inj h
    obtain ⟨f1, hx, hy, -, -, -, -⟩ := rebox_fold_some (List.range net.n)
      { s with x := _, y := _, px := s.x, py := s.y } s' hf (fun i hi => List.mem_range.1 hi) hs'
    refine ⟨fun hz => hd (Or.inr (by rw [hz, mul_zero])), ?_⟩
    rw [foldl_add_range]
    simp only [hx, hy]
    apply Finset.sum_congr rfl
    intro i _
    ring

theorem step_full {net : GP.Net} (hs : net.Simple) {drag dt : ℝ} {b : ℕ} (hb : 0 < b) (hb2 : b ≤ 2) {s : MD} {r : MD × ℝ}
    (hf : Filed net.n b s.boxes s.oldbox) (h : mdStep net drag dt b s = some r) :
    (1 + drag * dt / 2 ≠ 0 ∧ dt ≠ 0) ∧ Filed net.n b r.1.boxes r.1.oldbox ∧ flat r.1.px r.1.py = flat s.x s.y ∧
      (∀ i < net.n, ∀ j < net.n, i ≠ j → ∃ d, flat s.x s.y d i ≠ flat s.x s.y d j) ∧
      (∀ d, ∀ i < net.n, flat r.1.x r.1.y d i =
        moved drag dt (flat s.x s.y d) (flat s.px s.py d) (fun i => full net (flat s.x s.y) d i + pull 0 (flat s.x s.y) d i) i) ∧
      r.2 = ∑ i ∈ Finset.range net.n, ∑ d : Fin 3, ((flat r.1.x r.1.y d i - flat s.px s.py d i) / (2 * dt)) ^ 2 / 2 := by
  obtain ⟨h1, F, hF, h3, h4, h4', h5, h5', -⟩ := step_some hf h
  obtain ⟨h2, hT⟩ := step_T hf h
  by_cases hc : Collision net b s.x s.y s.oldbox
  · rw [(C97_forces net hs s.x s.y b s.boxes s.oldbox hf).1 hc] at hF; simp at hF
  obtain ⟨G, hG, hfor⟩ := (C97_forces net hs s.x s.y b s.boxes s.oldbox hf).2 hc
  rw [hG] at hF
  obtain rfl := Option.some.inj hF
  refine ⟨⟨h1, h2⟩, h3, by rw [h5, h5'], ?_, ?_, ?_⟩
  · intro i hi j hj hij
    by_contra hcon
    push Not at hcon
    exact hc ⟨i, j, hi, hj, Or.inr ((interact_all hb hb2 hf hi hj).2 hij), hcon 0, hcon 1⟩
  · intro d i hi
    have p0 : ∀ d i, pull 0 (flat s.x s.y) d i = 0 := by intro d i; unfold pull; simp
    unfold moved
    simp only [p0, add_zero]
    fin_cases d
    · show r.1.x i = _
      rw [h4 i hi]
      unfold moved
      rw [(hfor i hi).1, show force net b s.x s.y s.oldbox s.x i = full net (flat s.x s.y) 0 i from force_full hb hb2 hf 0 hi]
      rfl
    · show r.1.y i = _
      rw [h4' i hi]
      unfold moved
      rw [(hfor i hi).2, show force net b s.x s.y s.oldbox s.y i = full net (flat s.x s.y) 1 i from force_full hb hb2 hf 1 hi]
      rfl
    · show (0 : ℝ) = _
      simp only [Fin.reduceFinMk, full_flat2]
      simp [flat]
  · rw [hT]
    apply Finset.sum_congr rfl
    intro i _
    simp [Fin.sum_univ_three, flat]

theorem trace2 {net : GP.Net} (hs : net.Simple) {drag dt : ℝ} {b : ℕ} (hb : 0 < b) (hb2 : b ≤ 2) {nsteps : ℕ} {x0 y0 : ℕ → ℝ} {m : ℕ} {σ : ℕ → MD}
    {T : ℕ → ℝ} (hf : Filed net.n b (σ 0).boxes (σ 0).oldbox) (h0 : flat (σ 0).x (σ 0).y = flat x0 y0) (h0' : flat (σ 0).px (σ 0).py = flat x0 y0)
    (hm : m ≤ nsteps)
    (hstep : ∀ i, i < m → mdStep net drag dt b (σ i) = some (σ (i + 1), T i)) (hwarm : ∀ i, i + 1 < m → 1 / 100000 ≤ T i / net.n)
    (hstop : m < nsteps → 0 < m ∧ T (m - 1) / net.n < 1 / 100000) :
    Trace net drag dt nsteps (flat x0 y0) m (before (flat x0 y0) fun k => flat (σ k).x (σ k).y) (fun _ => 0) := by
  have hfil : ∀ k ≤ m, Filed net.n b (σ k).boxes (σ k).oldbox := by
    intro k
    induction k with
    | zero => intro _; exact hf
    | succ k ih => intro hk; exact (step_full hs hb hb2 (ih (by omega)) (hstep k (by omega))).2.1
  have hpr : ∀ k ≤ m, flat (σ k).px (σ k).py = before (flat x0 y0) (fun k => flat (σ k).x (σ k).y) k := by
    intro k hk
    cases k with
    | zero => exact h0'
    | succ k => exact (step_full hs hb hb2 (hfil k (by omega)) (hstep k (by omega))).2.2.1
  have hT : ∀ k < m, T k / net.n = heat net.n dt (before (flat x0 y0) fun k => flat (σ k).x (σ k).y) k := by
    intro k hk
    have := (step_full hs hb hb2 (hfil k hk.le) (hstep k hk)).2.2.2.2.2
    simp only at this
    rw [this, hpr k hk.le]
    rfl
  refine ⟨⟨rfl, h0⟩, ?_, ?_, ?_, hm, ?_, ?_⟩
  · intro k hk
    exact (step_full hs hb hb2 (hfil k hk.le) (hstep k hk)).2.2.2.1
  · intro h; exact (step_full hs hb hb2 hf (hstep 0 h)).1
  · intro k hk d i hi
    have := (step_full hs hb hb2 (hfil k hk.le) (hstep k hk)).2.2.2.2.1 d i hi
    rw [hpr k hk.le] at this
    exact this
  · intro k hk; rw [← hT k (by omega)]; exact hwarm k hk
  · intro h
    obtain ⟨h1, h2⟩ := hstop h
    exact ⟨h1, by rw [← hT _ (by omega)]; exact h2⟩

/-! ### Runs from the start -/

variable {net : GP.Net} (hs : net.Simple) {drag dt : ℝ} {b : ℕ} (hb : 0 < b) (hb2 : b ≤ 2) {nsteps : ℕ}
include hs hb hb2

theorem run2 {x0 y0 : ℕ → ℝ} (hx : ∀ i, i < net.n → 0 ≤ x0 i ∧ x0 i ≤ 1) (hy : ∀ i, i < net.n → 0 ≤ y0 i ∧ y0 i ≤ 1) {s0 s : MD}
    (h0 : place b x0 y0 net.n = some s0) (h : mdLoop net drag dt b nsteps s0 = some s) :
    ∃ m R, Trace net drag dt nsteps (flat x0 y0) m R (fun _ => 0) ∧ flat s.x s.y = R (m + 1) := by
  obtain ⟨s0', e, hf, h1, h2, h3, h4⟩ := place_ok b hb x0 y0 net.n hx hy
  rw [h0] at e
  obtain rfl := Option.some.inj e
  obtain ⟨m, hm, σ, T, e0, em, hstep, hwarm, hstop⟩ := loop_history (mdStep net drag dt b) net.n (mdLoop net drag dt b) (fun _ => rfl)
    (fun _ _ => rfl) nsteps s0 s h
  refine ⟨m, _, trace2 hs hb hb2 (x0 := x0) (y0 := y0) (by rw [e0]; exact hf) (by rw [e0, h1, h2]) (by rw [e0, h3, h4]) hm hstep hwarm hstop, ?_⟩
  rw [← em]; rfl

theorem run3 {r0 : Pos} (hr : ∀ d i, i < net.n → 0 ≤ r0 d i ∧ r0 d i ≤ 1) {s0 s : MD3}
    (h0 : place3 b r0 net.n = some s0) (h : mdLoop3 net drag dt b nsteps s0 = some s) :
    ∃ m R, Trace net drag dt nsteps r0 m R (fun _ => 0) ∧ s.r = R (m + 1) := by
  obtain ⟨s0', e, hf, h1, h2⟩ := place3_ok b hb r0 net.n hr
  rw [h0] at e
  obtain rfl := Option.some.inj e
  obtain ⟨m, hm, σ, T, e0, em, hstep, hwarm, hstop⟩ := loop_history (mdStep3 net drag dt b 0) net.n (mdLoop3 net drag dt b) (fun _ => rfl)
    (fun _ _ => rfl) nsteps s0 s h
  refine ⟨m, _, (trace3 (κ := fun _ => 0) hs hb hb2 (by rw [e0]; exact hf) (by rw [e0, h1]) (by rw [e0, h2]) hm hstep hwarm hstop).1, ?_⟩
  rw [← em]; rfl

open Classical in
theorem run2p {r0 : Pos} (hr : ∀ d i, i < net.n → 0 ≤ r0 d i ∧ r0 d i ≤ 1) {s0 s : MD3}
    (h0 : place3 b r0 net.n = some s0) (h : mdLoop2Dp net drag dt b nsteps 0 false s0 = some s) :
    ∃ m R κ, Trace net drag dt nsteps r0 m R κ ∧ s.r = R (m + 1) ∧
      ∀ k < m, κ k = dt * ((Finset.range k).filter fun j => ∃ h, h < j ∧ heat net.n dt R h < 1 / 1000).card := by
  obtain ⟨s0', e, hf, h1, h2⟩ := place3_ok b hb r0 net.n hr
  rw [h0] at e
  obtain rfl := Option.some.inj e
  obtain ⟨m, hm, σ, T, κ, e0, em, hstep, hκ, hwarm, hstop⟩ := C163_pull net drag dt b nsteps s0 s h
  obtain ⟨ht, hT⟩ := trace3 hs hb hb2 (by rw [e0]; exact hf) (by rw [e0, h1]) (by rw [e0, h2]) hm hstep hwarm hstop
  refine ⟨m, _, κ, ht, by rw [← em]; rfl, fun k hk => ?_⟩
  rw [hκ k hk]
  congr 2
  apply congrArg
  apply Finset.filter_congr
  intro j hj
  rw [Finset.mem_range] at hj
  constructor
  · rintro ⟨h, hh, hlt⟩; exact ⟨h, hh, by rw [← hT h (by omega)]; exact hlt⟩
  · rintro ⟨h, hh, hlt⟩; exact ⟨h, hh, by rw [hT h (by omega)]; exact hlt⟩

end LY
