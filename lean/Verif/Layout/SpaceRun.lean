import Verif.Layout.Space

/-!
The layouts in three dimensions: integration (C162) and the layout that is pulled into a plane (C163).
-/

set_option linter.unusedSimpArgs false
set_option linter.unusedSectionVars false

namespace LY
open scoped BigOperators

/-! ### Boxes -/

theorem Filed3.move {n b : ℕ} {boxes : ℕ → List ℕ} {home : ℕ → ℕ} (hf : Filed3 n b boxes home) {i k : ℕ}
    (hi : i < n) (hk : k < b * b * b) :
    let boxes' := Function.update boxes (home i) ((boxes (home i)).erase i)
    Filed3 n b (Function.update boxes' k (i :: boxes' k)) (Function.update home i k) := by
  intro boxes'
  have hb' : ∀ m, boxes' m = if m = home i then (boxes (home i)).erase i else boxes m := fun m => by
    simp only [boxes', Function.update_apply]
  have hmem : ∀ m j, j ∈ boxes' m ↔ j < n ∧ home j = m ∧ j ≠ i := by
    intro m j
    rw [hb']
    by_cases hm : m = home i
    · rw [if_pos hm, (hf.nodup _).mem_erase_iff, hf.mem]
      constructor
      · rintro ⟨h1, h2, h3⟩; exact ⟨h2, by rw [hm, h3], h1⟩
      · rintro ⟨h1, h2, h3⟩; exact ⟨h3, h1, by rw [← hm, h2]⟩
    · rw [if_neg hm, hf.mem]
      constructor
      · rintro ⟨h1, h2⟩; exact ⟨h1, h2, fun e => hm (by rw [← h2, e])⟩
      · rintro ⟨h1, h2, -⟩; exact ⟨h1, h2⟩
  have hnd : ∀ m, (boxes' m).Nodup := by
    intro m; rw [hb']; split_ifs
    · exact (hf.nodup _).erase _
    · exact hf.nodup _
  refine ⟨fun m => ?_, fun m j => ?_, fun j hj => ?_⟩
  · rw [Function.update_apply]
    split_ifs with h
    · rw [List.nodup_cons]
      exact ⟨fun hh => ((hmem k i).1 hh).2.2 rfl, hnd k⟩
    · exact hnd m
  · rw [Function.update_apply, Function.update_apply]
    by_cases hm : m = k
    · rw [if_pos hm, List.mem_cons, hmem]
      by_cases hj : j = i
      · simp [hj, hi, hm]
      · simp [hj, hm]
    · rw [if_neg hm, hmem]
      by_cases hj : j = i
      · simp [hj, Ne.symm hm]
      · simp [hj]
  · rw [Function.update_apply]
    split_ifs
    · exact hk
    · exact hf.range j hj

theorem rebox3_ok {n b : ℕ} {s : MD3} (hf : Filed3 n b s.boxes s.oldbox) {i : ℕ}
    (hi : i < n) {k : ℕ} (hk : boxOf n b s.r i = some (k : ℤ)) (hkb : k < b * b * b) :
    ∃ s', rebox3 n b s i = some s' ∧ Filed3 n b s'.boxes s'.oldbox ∧
      s'.oldbox = Function.update s.oldbox i k ∧ s'.r = s.r ∧ s'.pr = s.pr := by
  unfold rebox3
  simp only [hk, Option.bind_eq_bind, Option.bind_some]
  by_cases hne : (k : ℤ) ≠ s.oldbox i
  · have hmem : i ∈ s.boxes (s.oldbox i) := (hf.mem _ _).2 ⟨hi, rfl⟩
    have hkk : (0 : ℤ) ≤ k ∧ (k : ℤ) < b * b * b := ⟨by omega, by exact_mod_cast hkb⟩
    simp only [if_pos hne, RemoveNodeFromBox, if_pos hmem, Option.bind_some, if_pos hkk]
    exact ⟨_, rfl, hf.move hi hkb, rfl, rfl, rfl⟩
  · rw [if_neg hne]
    have he : s.oldbox i = k := by
      have : (k : ℤ) = s.oldbox i := not_not.1 hne
      exact_mod_cast this.symm
    refine ⟨s, rfl, hf, ?_, rfl, rfl⟩
    rw [← he, Function.update_eq_self]

theorem rebox3_fold {n b : ℕ} (k : ℕ → ℕ) (L : List ℕ) : ∀ (s : MD3),
    Filed3 n b s.boxes s.oldbox → (∀ i ∈ L, i < n ∧ k i < b * b * b ∧ boxOf n b s.r i = some (k i : ℤ)) →
    ∃ s', L.foldlM (rebox3 n b) s = some s' ∧ Filed3 n b s'.boxes s'.oldbox ∧
      (∀ i, s'.oldbox i = if i ∈ L then k i else s.oldbox i) ∧ s'.r = s.r ∧ s'.pr = s.pr := by
  induction L with
  | nil => intro s hf _; exact ⟨s, rfl, hf, by simp, rfl, rfl⟩
  | cons i L ih =>
    intro s hf h
    obtain ⟨hi, hkb, hk⟩ := h i (List.mem_cons_self ..)
    obtain ⟨s1, e1, f1, o1, x1, px1⟩ := rebox3_ok hf hi hk hkb
    obtain ⟨s2, e2, f2, o2, x2, px2⟩ := ih s1 f1 (fun j hj => by
      rw [x1]; exact h j (List.mem_cons_of_mem _ hj))
    refine ⟨s2, ?_, f2, fun j => ?_, x2.trans x1, px2.trans px1⟩
    · rw [List.foldlM_cons, e1]; exact e2
    · rw [o2, o1, Function.update_apply]
      by_cases hj : j ∈ L
      · simp [hj]
      · by_cases hji : j = i
        · simp [hji, hj]
        · simp [hj, hji]

theorem rebox3_some {n b : ℕ} {s s' : MD3} (hf : Filed3 n b s.boxes s.oldbox)
    {i : ℕ} (hi : i < n) (h : rebox3 n b s i = some s') :
    Filed3 n b s'.boxes s'.oldbox ∧ s'.r = s.r ∧ s'.pr = s.pr ∧
      boxOf n b s.r i = some (s'.oldbox i : ℤ) ∧ ∀ j, j ≠ i → s'.oldbox j = s.oldbox j := by
  cases hk : boxOf n b s.r i with
  | none => unfold rebox3 at h; simp [hk] at h
  | some k =>
    by_cases hrange : 0 ≤ k ∧ k < b * b * b
    · obtain ⟨m, rfl⟩ := Int.eq_ofNat_of_zero_le hrange.1
      obtain ⟨s1, e1, f1, o1, x1, px1⟩ := rebox3_ok hf hi hk (by exact_mod_cast hrange.2)
      rw [e1] at h
      obtain rfl := Option.some.inj h
      refine ⟨f1, x1, px1, by rw [o1, Function.update_self], fun j hj => by
        rw [o1, Function.update_of_ne hj]⟩
    · exfalso
      unfold rebox3 at h
      simp only [hk, Option.bind_eq_bind, Option.bind_some] at h
      by_cases hne : k ≠ s.oldbox i
      · rw [if_pos hne] at h
        cases hr : RemoveNodeFromBox i (s.boxes (s.oldbox i)) with
        | none => simp [hr] at h
        | some l => simp [hr, hrange] at h
      · have := hf.range i hi
        rw [not_not] at hne
        apply hrange
        rw [hne]
        exact ⟨by omega, by exact_mod_cast this⟩

theorem rebox3_fold_some {n b : ℕ} (L : List ℕ) : ∀ (s s' : MD3),
    Filed3 n b s.boxes s.oldbox → (∀ i ∈ L, i < n) → L.foldlM (rebox3 n b) s = some s' →
    Filed3 n b s'.boxes s'.oldbox ∧ s'.r = s.r ∧ s'.pr = s.pr ∧
      (∀ i ∈ L, boxOf n b s.r i = some (s'.oldbox i : ℤ)) ∧ ∀ j, j ∉ L → s'.oldbox j = s.oldbox j := by
  induction L with
  | nil =>
    intro s s' hf _ h
    obtain rfl := Option.some.inj h
    exact ⟨hf, rfl, rfl, by simp, fun _ _ => rfl⟩
  | cons i L ih =>
    intro s s' hf hL h
    rw [List.foldlM_cons] at h
    cases h1 : rebox3 n b s i with
    | none => rw [h1] at h; simp at h
    | some s1 =>
      rw [h1] at h
      obtain ⟨f1, x1, px1, a1, o1⟩ := rebox3_some hf (hL i (List.mem_cons_self ..)) h1
      obtain ⟨f2, x2, px2, a2, o2⟩ := ih s1 s' f1 (fun j hj => hL j (List.mem_cons_of_mem _ hj)) h
      refine ⟨f2, x2.trans x1, px2.trans px1, fun j hj => ?_, fun j hj => ?_⟩
      · by_cases hjL : j ∈ L
        · rw [← x1]; exact a2 j hjL
        · have : j = i := by
            rcases List.mem_cons.1 hj with h | h
            · exact h
            · exact absurd h hjL
          subst this
          rw [o2 j hjL]; exact a1
      · rw [List.mem_cons, not_or] at hj
        rw [o2 j hj.2, o1 j hj.1]

theorem place3_ok (b : ℕ) (hb : 0 < b) (r0 : Pos) (n : ℕ) (hr : ∀ d i, i < n → 0 ≤ r0 d i ∧ r0 d i ≤ 1) :
    ∃ s, place3 b r0 n = some s ∧ Filed3 n b s.boxes s.oldbox ∧ s.r = r0 ∧ s.pr = r0 := by
  induction n with
  | zero => exact ⟨_, rfl, ⟨by simp, by simp, by simp⟩, rfl, rfl⟩
  | succ n ih =>
    obtain ⟨s, e, hf, h1, h2⟩ := ih (fun d i hi => hr d i (by omega))
    obtain ⟨k, hk, hkb, -⟩ := C95_box_3d b hb (r0 0 n) (r0 1 n) (r0 2 n) 0 1 0 1 0 1 (by norm_num) (by norm_num) (by norm_num)
      (hr 0 n (by omega)).1 (hr 0 n (by omega)).2 (hr 1 n (by omega)).1 (hr 1 n (by omega)).2 (hr 2 n (by omega)).1 (hr 2 n (by omega)).2
    have hkk : (0 : ℤ) ≤ k ∧ (k : ℤ) < b * b * b := ⟨by omega, by exact_mod_cast hkb⟩
    simp only [place3, e, hk, Option.bind_eq_bind, Option.bind_some, if_pos hkk]
    refine ⟨_, rfl, ⟨fun m => ?_, fun m j => ?_, fun j hj => ?_⟩, h1, h2⟩
    · simp only [Function.update_apply, Int.toNat_natCast, AddNodeToBox]
      split_ifs with hm
      · rw [List.nodup_cons]
        exact ⟨fun hh => by have := ((hf.mem _ _).1 hh).1; omega, hf.nodup _⟩
      · exact hf.nodup _
    · simp only [Function.update_apply, Int.toNat_natCast, AddNodeToBox]
      by_cases hm : m = k
      · rw [if_pos hm, List.mem_cons, hf.mem]
        by_cases hj : j = n
        · simp [hj, hm]
        · simp only [hj, if_false, false_or, hm]
          constructor
          · rintro ⟨a, c⟩; exact ⟨by omega, c⟩
          · rintro ⟨a, c⟩; exact ⟨by omega, c⟩
      · rw [if_neg hm, hf.mem]
        by_cases hj : j = n
        · simp [hj, Ne.symm hm]
        · simp only [hj, if_false]
          constructor
          · rintro ⟨a, c⟩; exact ⟨by omega, c⟩
          · rintro ⟨a, c⟩; exact ⟨by omega, c⟩
    · simp only [Function.update_apply, Int.toNat_natCast]
      split_ifs with h
      · exact hkb
      · exact hf.range j (by omega)

/-! ### Steps -/

/-- The spring of strength `kz` towards the plane z = 1/2: no force in the directions x and y. -/
noncomputable def pull (kz : ℝ) (r : Pos) (d : Fin 3) (i : ℕ) : ℝ := if d = 2 then -kz * (r 2 i - 1 / 2) else 0

theorem pulled (kz : ℝ) (r F : Pos) (d : Fin 3) (i : ℕ) :
    (if d = 2 then F d i - kz * (r 2 i - 1 / 2) else F d i) = F d i + pull kz r d i := by
  unfold pull; split_ifs <;> ring

theorem foldl_add_range (f : ℕ → ℝ) (n : ℕ) : (List.range n).foldl (fun T i => T + f i) 0 = ∑ i ∈ Finset.range n, f i := by
  induction n with
  | zero => rfl
  | succ n ih => rw [List.range_succ, List.foldl_append, ih, Finset.sum_range_succ]; rfl

/-- Facts about every step that succeeds. -/
theorem step3_some {net : GP.Net} {drag dt : ℝ} {b : ℕ} {kz : ℝ} {s : MD3} {r : MD3 × ℝ}
    (hf : Filed3 net.n b s.boxes s.oldbox) (h : mdStep3 net drag dt b kz s = some r) :
    1 + drag * dt / 2 ≠ 0 ∧ dt ≠ 0 ∧ ∃ F, CalculateNodeForces3D net s.r s.boxes b = some F ∧
      Filed3 net.n b r.1.boxes r.1.oldbox ∧
      (∀ d i, i < net.n → r.1.r d i = moved drag dt (s.r d) (s.pr d) (fun i => F d i + pull kz s.r d i) i) ∧
      r.1.pr = s.r ∧ (∀ i, i < net.n → boxOf net.n b r.1.r i = some (r.1.oldbox i : ℤ)) ∧
      r.2 = ∑ i ∈ Finset.range net.n, ∑ d : Fin 3, ((r.1.r d i - s.pr d i) / (2 * dt)) ^ 2 / 2 := by
  unfold mdStep3 at h
  cases hF : CalculateNodeForces3D net s.r s.boxes b with
  | none => simp [hF] at h
  | some F =>
    simp only [hF, Option.bind_eq_bind, Option.bind_some] at h
    by_cases hd : 1 + drag * dt * (1 / 2) = 0 ∨ 2 * dt = 0
    · rw [if_pos hd] at h; simp at h
    rw [if_neg hd, Option.bind_eq_some_iff] at h
    obtain ⟨s', hs', h⟩ := h
    obtain rfl := Option.some.inj h
    obtain ⟨f1, hx, hpx, ha, -⟩ := rebox3_fold_some (List.range net.n)
      { s with r := _, pr := s.r } s' hf (fun i hi => List.mem_range.1 hi) hs'
    simp only at hx hpx ha
    refine ⟨fun hz => hd (Or.inl (by rw [← hz]; ring)), fun hz => hd (Or.inr (by rw [hz, mul_zero])), F, rfl, f1, fun d i hi => ?_,
      hpx, fun i hi => ?_, ?_⟩
    · simp only [hx, hi, if_true, verlet_eq, moved, pulled]
    · have := ha i (List.mem_range.2 hi)
      simp only [hx]
      exact this
    · rw [foldl_add_range]
      simp only [hx, Fin.sum_univ_three]
      apply Finset.sum_congr rfl
      intro i _
      ring

theorem sum_pull (n : ℕ) (kz : ℝ) (r : Pos) (d : Fin 3) : ∑ i ∈ Finset.range n, pull kz r d i =
    if d = 2 then -kz * (∑ i ∈ Finset.range n, r 2 i - n / 2) else 0 := by
  unfold pull
  split_ifs
  · rw [← Finset.mul_sum, Finset.sum_sub_distrib]; simp; left; ring
  · simp

/-- The sum of a coordinate after a step. -/
theorem step3_sum {net : GP.Net} (hs : net.Simple) {drag dt : ℝ} {b : ℕ} {kz : ℝ} {s : MD3} {r : MD3 × ℝ}
    (hf : Filed3 net.n b s.boxes s.oldbox) (h : mdStep3 net drag dt b kz s = some r) (d : Fin 3) :
    ∑ i ∈ Finset.range net.n, r.1.r d i = (2 * ∑ i ∈ Finset.range net.n, s.r d i -
      (1 - drag * dt / 2) * ∑ i ∈ Finset.range net.n, s.pr d i +
      dt ^ 2 * ∑ i ∈ Finset.range net.n, pull kz s.r d i) / (1 + drag * dt / 2) := by
  obtain ⟨-, -, F, hF, -, hx, -⟩ := step3_some hf h
  rw [Finset.sum_congr rfl fun i hi => hx d i (Finset.mem_range.1 hi)]
  unfold moved
  rw [← Finset.sum_div, Finset.sum_add_distrib, Finset.sum_sub_distrib, ← Finset.mul_sum,
    ← Finset.mul_sum, ← Finset.mul_sum, Finset.sum_add_distrib, C161_balance net hs s.r b s.boxes s.oldbox hf F hF d, zero_add]

/-- What holds between two steps; `S` is the set of the directions without outer force. -/
structure Inv3 (net : GP.Net) (b : ℕ) (S : Fin 3 → Prop) (r0 : Pos) (s : MD3) : Prop where
  filed : Filed3 net.n b s.boxes s.oldbox
  c : ∀ d, S d → ∑ i ∈ Finset.range net.n, s.r d i = ∑ i ∈ Finset.range net.n, r0 d i
  cp : ∀ d, S d → ∑ i ∈ Finset.range net.n, s.pr d i = ∑ i ∈ Finset.range net.n, r0 d i

theorem Inv3.step {net : GP.Net} (hs : net.Simple) {drag dt : ℝ} {b : ℕ} {kz : ℝ} {S : Fin 3 → Prop} {r0 : Pos} {s : MD3}
    {r : MD3 × ℝ} (hS : kz = 0 ∨ ¬ S 2) (hi : Inv3 net b S r0 s) (h : mdStep3 net drag dt b kz s = some r) : Inv3 net b S r0 r.1 := by
  obtain ⟨hd, -, F, hF, f1, hx, hpx, -⟩ := step3_some hi.filed h
  refine ⟨f1, fun d hd' => ?_, fun d hd' => by rw [hpx]; exact hi.c d hd'⟩
  rw [step3_sum hs hi.filed h d, hi.c d hd', hi.cp d hd', sum_pull]
  have hz : (if d = 2 then -kz * (∑ i ∈ Finset.range net.n, s.r 2 i - net.n / 2) else 0) = 0 := by
    split_ifs with h2
    · subst h2
      rcases hS with rfl | hS
      · ring
      · exact absurd hd' hS
    · rfl
  rw [hz, div_eq_iff hd]; ring

theorem Inv3.loop {net : GP.Net} (hs : net.Simple) {drag dt : ℝ} {b : ℕ} {S : Fin 3 → Prop} {r0 : Pos} (k : ℕ) :
    ∀ {s s' : MD3}, Inv3 net b S r0 s → mdLoop3 net drag dt b k s = some s' → Inv3 net b S r0 s' := by
  induction k with
  | zero => intro s s' hi h; obtain rfl := Option.some.inj h; exact hi
  | succ k ih =>
    intro s s' hi h
    unfold mdLoop3 at h
    cases hr : mdStep3 net drag dt b 0 s with
    | none => rw [hr] at h; simp at h
    | some r =>
      simp only [hr, Option.bind_eq_bind, Option.bind_some] at h
      split_ifs at h
      · obtain rfl := Option.some.inj h; exact hi.step hs (Or.inl rfl) hr
      · exact ih (hi.step hs (Or.inl rfl) hr) h

theorem Inv3.loop2 {net : GP.Net} (hs : net.Simple) {drag dt : ℝ} {b : ℕ} {S : Fin 3 → Prop} (hS : ¬ S 2) {r0 : Pos} (k : ℕ) :
    ∀ {kz : ℝ} {sw : Bool} {s s' : MD3}, Inv3 net b S r0 s → mdLoop2Dp net drag dt b k kz sw s = some s' → Inv3 net b S r0 s' := by
  induction k with
  | zero => intro kz sw s s' hi h; obtain rfl := Option.some.inj h; exact hi
  | succ k ih =>
    intro kz sw s s' hi h
    unfold mdLoop2Dp at h
    cases hr : mdStep3 net drag dt b kz s with
    | none => rw [hr] at h; simp at h
    | some r =>
      simp only [hr, Option.bind_eq_bind, Option.bind_some] at h
      split_ifs at h
      · obtain rfl := Option.some.inj h; exact hi.step hs (Or.inr hS) hr
      all_goals exact ih (hi.step hs (Or.inr hS) hr) h

/-- The coordinate `u i` lies in the strip number `k` of the `b` strips of equal width between the least and the greatest coordinate. -/
def Within (b : ℕ) (u : ℕ → ℝ) (n k i : ℕ) : Prop :=
  ∃ lo hi, (∀ j, j < n → lo ≤ u j) ∧ (∀ j, j < n → u j ≤ hi) ∧ (lo = 10 ^ 50 ∨ ∃ j, j < n ∧ u j = lo) ∧ (hi = -(10 ^ 50) ∨ ∃ j, j < n ∧ u j = hi) ∧
    InStrip b lo hi k (u i)

theorem within_of {b n k i : ℕ} {u : ℕ → ℝ} (h : InStrip b (least (10 ^ 50) u n) (most (-(10 ^ 50)) u n) k (u i)) : Within b u n k i :=
  ⟨_, _, (least_spec _ u n).2.1, (most_spec _ u n).2.1, (least_spec _ u n).2.2.imp id fun ⟨j, h1, h2⟩ => ⟨j, h1, h2.symm⟩,
    (most_spec _ u n).2.2.imp id fun ⟨j, h1, h2⟩ => ⟨j, h1, h2.symm⟩, h⟩

/-- C162.  As long as every node is filed in its box, no two nodes that act on one another are in one place and the new drawing does
not lie in a plane perpendicular to an axis, a step of the integration succeeds: no access leaves the list of boxes and every node is
found in its old box.  Afterwards every node is filed in the box in which it lies, and `T` is the kinetic energy. -/
theorem C162_step (net : GP.Net) (hs : net.Simple) (drag dt : ℝ) (b : ℕ) (hb : 0 < b) (kz : ℝ) (s : MD3)
    (hf : Filed3 net.n b s.boxes s.oldbox) (hd : 1 + drag * dt / 2 ≠ 0) (hdt : dt ≠ 0)
    (hc : ¬ Collision3 net b s.r s.oldbox)
    (hx : ∀ d, ∃ i j, i < net.n ∧ j < net.n ∧
      moved drag dt (s.r d) (s.pr d) (fun i => force3 net b s.r s.oldbox d i + pull kz s.r d i) i ≠
      moved drag dt (s.r d) (s.pr d) (fun i => force3 net b s.r s.oldbox d i + pull kz s.r d i) j) :
    ∃ s' T, mdStep3 net drag dt b kz s = some (s', T) ∧ Filed3 net.n b s'.boxes s'.oldbox ∧
      (∀ d i, i < net.n →
        s'.r d i = moved drag dt (s.r d) (s.pr d) (fun i => force3 net b s.r s.oldbox d i + pull kz s.r d i) i) ∧
      s'.pr = s.r ∧ (∀ i, i < net.n →
        Within b (s'.r 0) net.n (s'.oldbox i % b) i ∧ Within b (s'.r 1) net.n (s'.oldbox i / b % b) i ∧
        Within b (s'.r 2) net.n (s'.oldbox i / b / b) i) ∧
      T = ∑ i ∈ Finset.range net.n, ∑ d : Fin 3, ((s'.r d i - s.pr d i) / (2 * dt)) ^ 2 / 2 := by
  obtain ⟨F, hF, hforce⟩ := (C161_forces_3d net hs s.r b s.boxes s.oldbox hf).2 hc
  set r' : Pos := fun d i => if i < net.n then
    verlet drag dt (s.r d i) (s.pr d i) (if d = 2 then F d i - kz * (s.r 2 i - 1 / 2) else F d i) else s.r d i with hr'
  have ex : ∀ d i, i < net.n → r' d i =
      moved drag dt (s.r d) (s.pr d) (fun i => force3 net b s.r s.oldbox d i + pull kz s.r d i) i := by
    intro d i hi; simp only [hr', hi, if_true, verlet_eq, moved, pulled, hforce d i hi]
  have lim : ∀ d, least (10 ^ 50) (r' d) net.n < most (-(10 ^ 50)) (r' d) net.n := by
    intro d
    obtain ⟨i, j, hi, hj, hne⟩ := hx d
    rw [← ex d i hi, ← ex d j hj] at hne
    have l := (least_spec (10 ^ 50) (r' d) net.n).2.1
    have m := (most_spec (-(10 ^ 50)) (r' d) net.n).2.1
    rcases lt_or_gt_of_ne hne with h | h
    · exact lt_of_le_of_lt (l i hi) (lt_of_lt_of_le h (m j hj))
    · exact lt_of_le_of_lt (l j hj) (lt_of_lt_of_le h (m i hi))
  have hbox : ∀ i, ∃ k : ℕ, i < net.n → k < b * b * b ∧ boxOf net.n b r' i = some (k : ℤ) ∧
      Within b (r' 0) net.n (k % b) i ∧ Within b (r' 1) net.n (k / b % b) i ∧ Within b (r' 2) net.n (k / b / b) i := by
    intro i
    by_cases hi : i < net.n
    · have lm := fun d => And.intro ((least_spec (10 ^ 50) (r' d) net.n).2.1 i hi) ((most_spec (-(10 ^ 50)) (r' d) net.n).2.1 i hi)
      obtain ⟨k, h1, h2, h3, h4, h5⟩ := C95_box_3d b hb (r' 0 i) (r' 1 i) (r' 2 i) _ _ _ _ _ _ (lim 0) (lim 1) (lim 2)
        (lm 0).1 (lm 0).2 (lm 1).1 (lm 1).2 (lm 2).1 (lm 2).2
      exact ⟨k, fun _ => ⟨h2, h1, within_of h3, within_of h4, within_of h5⟩⟩
    · exact ⟨0, fun h => absurd h hi⟩
  choose k hk using hbox
  obtain ⟨s', e, f', o1, x1, px1⟩ := rebox3_fold (n := net.n) (b := b) k (List.range net.n)
    { s with r := r', pr := s.r } hf (fun i hi => by
      have hi' := List.mem_range.1 hi
      exact ⟨hi', (hk i hi').1, (hk i hi').2.1⟩)
  have hd' : ¬ (1 + drag * dt * (1 / 2) = 0 ∨ 2 * dt = 0) := by
    rintro (h | h)
    · apply hd; rw [← h]; ring
    · apply hdt; linarith
  have hstep : ∃ T, mdStep3 net drag dt b kz s = some (s', T) := by
    unfold mdStep3
    simp only [hF, Option.bind_eq_bind, Option.bind_some]
    rw [if_neg hd', e]
    exact ⟨_, rfl⟩
  obtain ⟨T, hT⟩ := hstep
  obtain ⟨-, -, -, -, -, -, -, -, h8⟩ := step3_some hf hT
  refine ⟨s', T, hT, f', fun d i hi => ?_, px1, fun i hi => ?_, h8⟩
  · rw [x1]; exact ex d i hi
  · rw [x1, o1 i, if_pos (List.mem_range.2 hi)]
    exact (hk i hi).2.2

/-- C162, whole runs: whenever the integration stops, every node is filed in one box of the grid, and the centre of the drawing
is where it was. -/
theorem C162_run (net : GP.Net) (hs : net.Simple) (drag dt : ℝ) (b nsteps : ℕ) (hb : 0 < b)
    (r0 : Pos) (hr : ∀ d i, i < net.n → 0 ≤ r0 d i ∧ r0 d i ≤ 1) :
    ∃ s0, place3 b r0 net.n = some s0 ∧ s0.r = r0 ∧ s0.pr = r0 ∧ ∀ s, mdLoop3 net drag dt b nsteps s0 = some s →
      Filed3 net.n b s.boxes s.oldbox ∧
      ∀ d, (∑ i ∈ Finset.range net.n, s.r d i) / net.n = (∑ i ∈ Finset.range net.n, r0 d i) / net.n := by
  obtain ⟨s0, e, hf, h1, h2⟩ := place3_ok b hb r0 net.n hr
  refine ⟨s0, e, h1, h2, fun s h => ?_⟩
  have := Inv3.loop hs nsteps (s := s0) (S := fun _ => True) (r0 := r0)
    ⟨hf, fun d _ => by rw [h1], fun d _ => by rw [h2]⟩ h
  exact ⟨this.filed, fun d => by rw [this.c d trivial]⟩

/-! ### The result in three dimensions -/

/-- C162, the full statement: a network gets coordinates in the unit cube that touch all six sides. -/
def C162_claim : Prop := ∀ (net : GP.Net) (drag dt : ℝ) (nsteps b : ℕ) (r0 : Pos), net.Simple →
  0 < net.n → 0 < b → 0 ≤ drag → 0 < dt → (∀ d i, i < net.n → 0 ≤ r0 d i ∧ r0 d i < 1) →
  ∃ x y z, MDGraphLayout3D net drag dt nsteps b r0 = some (x, y, z) ∧
    Unit01 net.n x x ∧ Unit01 net.n y y ∧ Unit01 net.n z z

/-- `NormalizeCoordinate` of numbers between the limits. -/
theorem normalize_touch {n : ℕ} {u v : ℕ → ℝ} (hn : 0 < n) (hb : ∀ i, i < n → -(10 ^ 100) ≤ u i ∧ u i ≤ 10 ^ 100)
    (h : NormalizeCoordinate u n = some v) : Unit01 n u v := by
  have hne : ∃ i j, i < n ∧ j < n ∧ u i ≠ u j := by
    by_contra hcon
    push Not at hcon
    have := normalize_flat hn (hb 0 hn) (fun i hi => hcon i 0 hi hn)
    rw [this] at h; simp at h
  obtain ⟨w', hw', hu⟩ := normalize_ok hb hne
  rw [h] at hw'
  obtain rfl := Option.some.inj hw'
  exact hu

theorem Unit01.self {n : ℕ} {u v : ℕ → ℝ} (h : Unit01 n u v) : Unit01 n v v :=
  ⟨⟨1, 0, by norm_num, fun i _ => by ring⟩, h.range, h.zero, h.one⟩

theorem unit_bounds {n : ℕ} {u : ℕ → ℝ} (h : ∀ i, i < n → 0 ≤ u i ∧ u i ≤ 1) : ∀ i, i < n → -(10 ^ 100) ≤ u i ∧ u i ≤ 10 ^ 100 := by
  intro i hi
  have := h i hi
  have h1 : (1 : ℝ) ≤ 10 ^ 100 := one_le_pow₀ (by norm_num)
  constructor <;> linarith

/-- C162, the part that holds: if no NaN appears, the coordinates are those of the last state of the integration after a shift
and a change of unit for each axis, so that they are between 0 and 1; and they touch all six sides of the unit cube when they had
not grown beyond 10^100. -/
theorem C162_cube_partial (net : GP.Net) (drag dt : ℝ) (nsteps b : ℕ) (r0 : Pos) (x y z : ℕ → ℝ)
    (hn : 0 < net.n) (h : MDGraphLayout3D net drag dt nsteps b r0 = some (x, y, z)) :
    ∃ s0 s, place3 b r0 net.n = some s0 ∧ mdLoop3 net drag dt b nsteps s0 = some s ∧
      ∀ d, (∃ a c : ℝ, 0 < a ∧ ∀ i, i < net.n → ![x, y, z] d i = a * s.r d i + c) ∧
        (∀ i, i < net.n → 0 ≤ ![x, y, z] d i ∧ ![x, y, z] d i ≤ 1) ∧
        ((∀ i, i < net.n → |s.r d i| ≤ 10 ^ 100) → Unit01 net.n (s.r d) (![x, y, z] d)) := by
  unfold MDGraphLayout3D at h
  simp only [Option.bind_eq_bind, Option.bind_eq_some_iff] at h
  obtain ⟨s0, e0, s, e1, x1, hx, y1, hy, z1, hz, h⟩ := h
  simp only [Option.some.injEq, Prod.mk.injEq] at h
  obtain ⟨rfl, rfl, rfl⟩ := h
  refine ⟨s0, s, e0, e1, ?_⟩
  have key : ∀ u v : ℕ → ℝ, NormalizeCoordinate u net.n = some v →
      (∃ a c : ℝ, 0 < a ∧ ∀ i, i < net.n → v i = a * u i + c) ∧ (∀ i, i < net.n → 0 ≤ v i ∧ v i ≤ 1) ∧
        ((∀ i, i < net.n → |u i| ≤ 10 ^ 100) → Unit01 net.n u v) := by
    intro u v h
    obtain ⟨h1, h2⟩ := normalize_some hn h
    exact ⟨h2, h1, fun hb => normalize_touch hn (fun i hi => abs_le.1 (hb i hi)) h⟩
  intro d
  fin_cases d
  · exact key _ _ hx
  · exact key _ _ hy
  · exact key _ _ hz

/-- A network of one node gets no coordinates. -/
theorem C162_one_node (net : GP.Net) (hs : net.Simple) (drag dt : ℝ) (nsteps b : ℕ) (hb : 0 < b)
    (r0 : Pos) (hn : net.n = 1) (hr : ∀ d, 0 ≤ r0 d 0 ∧ r0 d 0 < 1) :
    MDGraphLayout3D net drag dt nsteps b r0 = none := by
  have h1 : (1 : ℝ) ≤ 10 ^ 100 := one_le_pow₀ (by norm_num)
  have z : ∀ i, i < net.n → i = 0 := fun i hi => by omega
  obtain ⟨s0, e, -, -, hc⟩ := C162_run net hs drag dt b nsteps hb r0
    (fun d i hi => by rw [z i hi]; exact ⟨(hr d).1, (hr d).2.le⟩)
  unfold MDGraphLayout3D
  rw [e]
  simp only [Option.bind_eq_bind, Option.bind_some]
  cases hl : mdLoop3 net drag dt b nsteps s0 with
  | none => rfl
  | some s =>
    have := (hc s hl).2 0
    rw [hn] at this
    simp at this
    rw [Option.bind_some, normalize_flat (c := r0 0 0) (by omega)
      ⟨by linarith [(hr 0).1], by linarith [(hr 0).2]⟩ (fun i hi => by rw [z i hi, this])]
    rfl

theorem C162_refuted : ¬ C162_claim := by
  intro h
  have hs : (⟨1, fun _ => []⟩ : GP.Net).Simple :=
    ⟨by simp, by simp, by simp [GP.Net.link], by simp [GP.Net.link]⟩
  obtain ⟨x, y, z, e, -⟩ := h ⟨1, fun _ => []⟩ 0 1 1 1 (fun _ _ => 0) hs (by simp) (by simp)
    (by simp) (by simp) (by simp)
  rw [C162_one_node _ hs _ _ _ _ (by simp) _ rfl (by simp)] at e
  simp at e

/-! ### The layout that is pulled into a plane -/

/-- The history of a run: `σ` the states, `T` the kinetic energies, `κ` the strengths of the spring in the z direction, for `m` steps. -/
structure History (net : GP.Net) (drag dt : ℝ) (b : ℕ) (m : ℕ) (σ : ℕ → MD3) (T κ : ℕ → ℝ) : Prop where
  step : ∀ i, i < m → mdStep3 net drag dt b (κ i) (σ i) = some (σ (i + 1), T i)
  warm : ∀ i, i + 1 < m → 1 / 100000 ≤ T i / net.n

theorem loop2_history (net : GP.Net) (drag dt : ℝ) (b k : ℕ) : ∀ (kz : ℝ) (sw : Bool) (s s' : MD3),
    mdLoop2Dp net drag dt b k kz sw s = some s' → ∃ m ≤ k, ∃ (σ : ℕ → MD3) (T κ : ℕ → ℝ), σ 0 = s ∧ σ m = s' ∧ History net drag dt b m σ T κ ∧
      (m < k → 0 < m ∧ T (m - 1) / net.n < 1 / 100000) ∧
      κ 0 = kz ∧ ∀ i, i + 1 < m → ((sw = true ∨ ∃ h, h < i ∧ T h / net.n < 1 / 1000) → κ (i + 1) = κ i + dt) ∧
        (¬ (sw = true ∨ ∃ h, h < i ∧ T h / net.n < 1 / 1000) → κ (i + 1) = κ i) := by
  induction k with
  | zero =>
    intro kz sw s s' h
    obtain rfl := Option.some.inj h
    exact ⟨0, le_refl _, fun _ => s, fun _ => 0, fun _ => kz, rfl, rfl, ⟨by simp, by simp⟩, by simp, rfl, by simp⟩
  | succ k ih =>
    intro kz sw s s' h
    unfold mdLoop2Dp at h
    cases hr : mdStep3 net drag dt b kz s with
    | none => rw [hr] at h; simp at h
    | some r =>
      simp only [hr, Option.bind_eq_bind, Option.bind_some] at h
      by_cases hT : r.2 / net.n < 1 / 100000
      · rw [if_pos hT] at h
        obtain rfl := Option.some.inj h
        refine ⟨1, by omega, fun i => if i = 0 then s else r.1, fun _ => r.2, fun _ => kz, rfl, rfl, ⟨?_, by omega⟩, fun _ => ⟨by omega, hT⟩, rfl,
          by omega⟩
        intro i hi
        obtain rfl : i = 0 := by omega
        simpa using hr
      · rw [if_neg hT] at h
        obtain ⟨m, hm, σ, T, κ, h0, hmm, hist, hstop, hk0, hκ⟩ := ih _ _ _ _ h
        refine ⟨m + 1, by omega, fun i => match i with | 0 => s | i + 1 => σ i, fun i => match i with | 0 => r.2 | i + 1 => T i,
          fun i => match i with | 0 => kz | i + 1 => κ i, rfl, hmm, ⟨?_, ?_⟩, ?_, rfl, ?_⟩
        · rintro (_ | i) hi
          · simp only [h0]; exact hr
          · exact hist.step i (by omega)
        · rintro (_ | i) hi
          · exact not_lt.1 hT
          · exact hist.warm i (by omega)
        · intro hlt
          obtain ⟨h1, h2⟩ := hstop (by omega)
          refine ⟨by omega, ?_⟩
          obtain ⟨m', rfl⟩ : ∃ m', m = m' + 1 := ⟨m - 1, by omega⟩
          exact h2
        · rintro (_ | i) hi
          · simp only [hk0]
            refine ⟨fun hh => ?_, fun hh => ?_⟩
            · rcases hh with hh | ⟨h, hh, -⟩
              · simp [hh]
              · omega
            · simp only [not_or, Bool.not_eq_true] at hh
              simp [hh.1]
          · have := hκ i (by omega)
            have hiff : ((sw || decide (r.2 / net.n < 1 / 1000)) = true ∨ ∃ h, h < i ∧ T h / net.n < 1 / 1000) ↔
                (sw = true ∨ ∃ h, h < i + 1 ∧ ((match h with | 0 => r.2 | h + 1 => T h : ℝ)) / net.n < 1 / 1000) := by
              rw [Bool.or_eq_true, decide_eq_true_iff, or_assoc]
              refine or_congr_right ⟨?_, ?_⟩
              · rintro (hh | ⟨h, hh, hT⟩)
                · exact ⟨0, by omega, hh⟩
                · exact ⟨h + 1, by omega, hT⟩
              · rintro ⟨_ | h, hh, hT⟩
                · exact Or.inl hT
                · exact Or.inr ⟨h, by omega, hT⟩
            rw [hiff] at this
            exact this

open Classical in
/-- C163.  In `MDGraphLayout2Dp` the nodes are pulled towards the plane z = 1/2 by a spring whose strength, in every step, is `dt` times the
number of earlier steps that came after a step with kinetic energy per node below 10^-3.  The run ends after `nsteps` steps, or with the first
step with kinetic energy per node below 10^-5. -/
theorem C163_pull (net : GP.Net) (drag dt : ℝ) (b nsteps : ℕ) (s s' : MD3)
    (h : mdLoop2Dp net drag dt b nsteps 0 false s = some s') : ∃ m ≤ nsteps, ∃ (σ : ℕ → MD3) (T κ : ℕ → ℝ), σ 0 = s ∧ σ m = s' ∧
      (∀ i, i < m → mdStep3 net drag dt b (κ i) (σ i) = some (σ (i + 1), T i)) ∧
      (∀ i, i < m → κ i = dt * ((Finset.range i).filter fun j => ∃ h, h < j ∧ T h / net.n < 1 / 1000).card) ∧
      (∀ i, i + 1 < m → 1 / 100000 ≤ T i / net.n) ∧ (m < nsteps → 0 < m ∧ T (m - 1) / net.n < 1 / 100000) := by
  obtain ⟨m, hm, σ, T, κ, h0, hmm, hist, hstop, hk0, hκ⟩ := loop2_history net drag dt b nsteps 0 false s s' h
  refine ⟨m, hm, σ, T, κ, h0, hmm, hist.step, ?_, hist.warm, hstop⟩
  intro i
  induction i with
  | zero => intro _; simp [hk0]
  | succ i ih =>
    intro hi
    have := ih (by omega)
    rw [Finset.range_add_one, Finset.filter_insert]
    by_cases hc : ∃ h, h < i ∧ T h / net.n < 1 / 1000
    · rw [if_pos hc, Finset.card_insert_of_notMem (by simp), (hκ i hi).1 (Or.inr hc), this]
      push_cast; ring
    · rw [if_neg hc, (hκ i hi).2 (by simpa using hc), this]

/-- C163: the nodes stay filed; the centre of the drawing moves neither in the x nor in the y direction. -/
theorem C163_run (net : GP.Net) (hs : net.Simple) (drag dt : ℝ) (b nsteps : ℕ) (hb : 0 < b)
    (r0 : Pos) (hr : ∀ d i, i < net.n → 0 ≤ r0 d i ∧ r0 d i ≤ 1) :
    ∃ s0, place3 b r0 net.n = some s0 ∧ s0.r = r0 ∧ s0.pr = r0 ∧ ∀ s, mdLoop2Dp net drag dt b nsteps 0 false s0 = some s →
      Filed3 net.n b s.boxes s.oldbox ∧
      ∀ d, d ≠ 2 → (∑ i ∈ Finset.range net.n, s.r d i) / net.n = (∑ i ∈ Finset.range net.n, r0 d i) / net.n := by
  obtain ⟨s0, e, hf, h1, h2⟩ := place3_ok b hb r0 net.n hr
  refine ⟨s0, e, h1, h2, fun s h => ?_⟩
  have := Inv3.loop2 hs (S := fun d => d ≠ 2) (by simp) nsteps (s := s0) (r0 := r0)
    ⟨hf, fun d _ => by rw [h1], fun d _ => by rw [h2]⟩ h
  exact ⟨this.filed, fun d hd => by rw [this.c d hd]⟩

/-- C163: the centre of the drawing moves in the z direction as one body held by the spring. -/
theorem C163_centre_z (net : GP.Net) (hs : net.Simple) (hn : 0 < net.n) (drag dt : ℝ) (b : ℕ) (kz : ℝ) (s s' : MD3) (T : ℝ)
    (hf : Filed3 net.n b s.boxes s.oldbox) (h : mdStep3 net drag dt b kz s = some (s', T)) :
    (∑ i ∈ Finset.range net.n, s'.r 2 i) / net.n =
      (2 * ((∑ i ∈ Finset.range net.n, s.r 2 i) / net.n) - (1 - drag * dt / 2) * ((∑ i ∈ Finset.range net.n, s.pr 2 i) / net.n) -
        dt ^ 2 * kz * ((∑ i ∈ Finset.range net.n, s.r 2 i) / net.n - 1 / 2)) / (1 + drag * dt / 2) := by
  have h1 := (step3_some hf h).1
  have h2 : (net.n : ℝ) ≠ 0 := by exact_mod_cast hn.ne'
  rw [step3_sum hs hf h 2, sum_pull, if_pos rfl]
  field_simp
  ring

/-- C163, the full statement: a connected network gets coordinates in the unit square that touch all four sides. -/
def C163_claim : Prop := ∀ (net : GP.Net) (drag dt : ℝ) (nsteps b : ℕ) (r0 : Pos), net.Simple →
  0 < net.n → 0 < b → 0 ≤ drag → 0 < dt → (∀ d i, i < net.n → 0 ≤ r0 d i ∧ r0 d i < 1) →
  ∃ x y, MDGraphLayout2Dp net drag dt nsteps b r0 = some (x, y) ∧ Unit01 net.n x x ∧ Unit01 net.n y y

/-- C163, the part that holds: if no NaN appears, the coordinates are in the unit square and touch all four sides. -/
theorem C163_square_partial (net : GP.Net) (drag dt : ℝ) (nsteps b : ℕ) (r0 : Pos) (x y : ℕ → ℝ)
    (hn : 0 < net.n) (h : MDGraphLayout2Dp net drag dt nsteps b r0 = some (x, y)) : Unit01 net.n x x ∧ Unit01 net.n y y := by
  unfold MDGraphLayout2Dp flatten2Dp at h
  simp only [Option.bind_eq_bind, Option.bind_eq_some_iff] at h
  obtain ⟨p, ⟨s0, -, s, -, hp⟩, h⟩ := h
  unfold NormalizeCoordinates at hp h
  simp only [Option.bind_eq_bind, Option.bind_eq_some_iff] at hp h
  obtain ⟨x1, hx1, y1, hy1, hp⟩ := hp
  obtain ⟨x2, hx2, y2, hy2, h⟩ := h
  obtain rfl := Option.some.inj hp
  obtain ⟨rfl, rfl⟩ := Prod.mk.inj (Option.some.inj h)
  exact ⟨(normalize_touch hn (unit_bounds (normalize_some hn hx1).1) hx2).self,
    (normalize_touch hn (unit_bounds (normalize_some hn hy1).1) hy2).self⟩

/-- A network of one node gets no coordinates. -/
theorem C163_one_node (net : GP.Net) (hs : net.Simple) (drag dt : ℝ) (nsteps b : ℕ) (hb : 0 < b)
    (r0 : Pos) (hn : net.n = 1) (hr : ∀ d, 0 ≤ r0 d 0 ∧ r0 d 0 < 1) :
    MDGraphLayout2Dp net drag dt nsteps b r0 = none := by
  have h1 : (1 : ℝ) ≤ 10 ^ 100 := one_le_pow₀ (by norm_num)
  have z : ∀ i, i < net.n → i = 0 := fun i hi => by omega
  obtain ⟨s0, e, -, -, hc⟩ := C163_run net hs drag dt b nsteps hb r0
    (fun d i hi => by rw [z i hi]; exact ⟨(hr d).1, (hr d).2.le⟩)
  unfold MDGraphLayout2Dp flatten2Dp
  rw [e]
  simp only [Option.bind_eq_bind, Option.bind_some]
  cases hl : mdLoop2Dp net drag dt b nsteps 0 false s0 with
  | none => rfl
  | some s =>
    have := (hc s hl).2 0 (by simp)
    rw [hn] at this
    simp at this
    rw [Option.bind_some, C99_flat net.n (by omega) (s.r 0) (s.r 1) (r0 0 0)
      ⟨by linarith [(hr 0).1], by linarith [(hr 0).2]⟩ (Or.inl fun i hi => by rw [z i hi, this])]
    rfl

theorem C163_refuted : ¬ C163_claim := by
  intro h
  have hs : (⟨1, fun _ => []⟩ : GP.Net).Simple :=
    ⟨by simp, by simp, by simp [GP.Net.link], by simp [GP.Net.link]⟩
  obtain ⟨x, y, e, -⟩ := h ⟨1, fun _ => []⟩ 0 1 1 1 (fun _ _ => 0) hs (by simp) (by simp)
    (by simp) (by simp) (by simp)
  rw [C163_one_node _ hs _ _ _ _ (by simp) _ rfl (by simp)] at e
  simp at e

/-! ### The hypotheses can be met -/

/-- Two linked nodes on a diagonal of the cube. -/
def diagonal : Pos := fun _ i => i

theorem diagonal_filed : Filed3 pairNet.n 1 (fun k => if k = 0 then [1, 0] else []) (fun _ => 0) :=
  ⟨fun k => by by_cases hk : k = 0 <;> simp [hk], fun k i => by
      by_cases hk : k = 0
      · subst hk; simp [pairNet]; omega
      · simp [hk, Ne.symm hk], fun i _ => by simp⟩

theorem diagonal_apart : ¬ Collision3 pairNet 1 diagonal (fun _ => 0) := by
  rintro ⟨i, j, hi, hj, h, hx⟩
  have hx' : (i : ℝ) = j := hx 0
  have hij : i = j := by exact_mod_cast hx'
  subst hij
  rcases h with h | h
  · rw [pairNet_simple.irrefl] at h; simp at h
  · exact h.1 rfl

example : ∃ F, CalculateNodeForces3D pairNet diagonal (fun k => if k = 0 then [1, 0] else []) 1 = some F :=
  let ⟨F, h, _⟩ := (C161_forces_3d pairNet pairNet_simple diagonal 1 _ _ diagonal_filed).2 diagonal_apart
  ⟨F, h⟩

/-- The hypotheses of `C162_step` hold for the two nodes, with and without the spring in the z direction. -/
theorem pair_step3 (kz : ℝ) (h0 : 0 ≤ kz) (h1 : kz ≤ 1) : ∃ s' T, mdStep3 pairNet 0 (1 / 2) 1 kz
    ⟨diagonal, diagonal, fun k => if k = 0 then [1, 0] else [], fun _ => 0⟩ = some (s', T) := by
  have hw : pairNet.w 0 1 = 1 ∧ pairNet.w 1 0 = 1 ∧ pairNet.w 0 0 = 0 ∧ pairNet.w 1 1 = 0 := by
    decide +kernel
  have hf0 : ∀ d, force3 pairNet 1 diagonal (fun _ => 0) d 0 ≤ 1 := by
    intro d
    unfold force3
    rw [show pairNet.n = 2 from rfl, Finset.sum_range_succ, Finset.sum_range_one,
      Finset.sum_range_succ, Finset.sum_range_one, if_neg (fun h => h.1 rfl), hw.1, hw.2.2.1]
    have h0 : 0 ≤ Real.sqrt ((2 : ℕ) : ℝ) := Real.sqrt_nonneg _
    have h1 : 0 ≤ apart diagonal 0 1 := Real.sqrt_nonneg _
    have : (0 : ℝ) ≤ 1 / ((2 : ℕ) : ℝ) / (apart diagonal 0 1 ^ 2 + Real.sqrt (2 : ℕ) / 10000) *
      ((diagonal d 1 - diagonal d 0) / apart diagonal 0 1) := by
      have : diagonal d 1 - diagonal d 0 = 1 := by simp [diagonal]
      rw [this]; positivity
    split_ifs
    · rw [neg_div, neg_mul]
      simp only [diagonal] at this ⊢
      push_cast at this ⊢
      linarith
    · simp [diagonal]
  have hne : ∀ d, moved 0 (1 / 2) (diagonal d) (diagonal d) (fun i => force3 pairNet 1 diagonal (fun _ => 0) d i + pull kz diagonal d i) 0 ≠
      moved 0 (1 / 2) (diagonal d) (diagonal d) (fun i => force3 pairNet 1 diagonal (fun _ => 0) d i + pull kz diagonal d i) 1 := by
    intro d
    have hsum := force3_sum pairNet pairNet_simple diagonal 1 (fun _ => 0) d
    rw [show pairNet.n = 2 from rfl, Finset.sum_range_succ, Finset.sum_range_one] at hsum
    have hf := hf0 d
    have hp0 : pull kz diagonal d 0 ≤ 1 / 2 := by
      unfold pull; split_ifs <;> simp [diagonal] <;> linarith
    have hp1 : -(1 / 2) ≤ pull kz diagonal d 1 := by
      unfold pull; split_ifs <;> simp [diagonal] <;> linarith
    unfold moved
    rw [show diagonal d 0 = 0 by simp [diagonal], show diagonal d 1 = 1 by simp [diagonal]]
    intro h
    norm_num at h
    linarith
  obtain ⟨s', T, h, -⟩ := C162_step pairNet pairNet_simple 0 (1 / 2) 1 (by norm_num) kz
    ⟨diagonal, diagonal, fun k => if k = 0 then [1, 0] else [], fun _ => 0⟩ diagonal_filed (by norm_num) (by norm_num)
    diagonal_apart (fun d => ⟨0, 1, by decide, by decide, hne d⟩)
  exact ⟨s', T, h⟩

/-- Runs of no steps on two nodes give coordinates. -/
example : (∃ r, MDGraphLayout3D pairNet 0 1 0 1 (fun _ i => i / 2) = some r) ∧
    ∃ r, MDGraphLayout2Dp pairNet 0 1 0 1 (fun _ i => i / 2) = some r := by
  have hb : ∀ i : ℕ, i < 2 → (0 : ℝ) ≤ (i : ℝ) / 2 ∧ (i : ℝ) / 2 ≤ 1 := by
    intro i hi
    have : (i : ℝ) ≤ 2 := by exact_mod_cast hi.le
    constructor <;> [positivity; linarith]
  obtain ⟨s, e, -, hr, -⟩ := place3_ok 1 (by norm_num) (fun _ i => (i : ℝ) / 2) 2 (fun _ => hb)
  obtain ⟨v, e1, hu⟩ := normalize_ok (unit_bounds hb) ⟨0, 1, by norm_num, by norm_num, by norm_num⟩
  obtain ⟨v', e2, -⟩ := normalize_ok (unit_bounds hu.range) (by
    obtain ⟨i, hi, h0⟩ := hu.zero
    obtain ⟨j, hj, h1⟩ := hu.one
    exact ⟨i, j, hi, hj, by rw [h0, h1]; norm_num⟩)
  constructor
  · refine ⟨(v, v, v), ?_⟩
    unfold MDGraphLayout3D
    rw [show pairNet.n = 2 from rfl, e]
    simp only [Option.bind_eq_bind, Option.bind_some, mdLoop3, hr, e1]
  · refine ⟨(v', v'), ?_⟩
    unfold MDGraphLayout2Dp flatten2Dp
    rw [show pairNet.n = 2 from rfl, e]
    simp only [Option.bind_eq_bind, Option.bind_some, mdLoop2Dp, hr, NormalizeCoordinates, e1, e2]

end LY
