import Verif.Layout.Forces

/-!
Normalised coordinates (C99) and the integration of the equations of motion (C100, C101, C102).
-/

set_option linter.unusedSimpArgs false
set_option linter.unusedSectionVars false

namespace LY
open scoped BigOperators

section Field
variable {K : Type*} [Field K] [LinearOrder K] [IsStrictOrderedRing K]

/-! ### Minimum and maximum -/

theorem least_succ (s : K) (f : ℕ → K) (n : ℕ) :
    least s f (n + 1) = if f n < least s f n then f n else least s f n := by
  unfold least; rw [List.range_succ, List.foldl_append]; rfl

theorem most_succ (s : K) (f : ℕ → K) (n : ℕ) :
    most s f (n + 1) = if f n > most s f n then f n else most s f n := by
  unfold most; rw [List.range_succ, List.foldl_append]; rfl

theorem least_spec (s : K) (f : ℕ → K) (n : ℕ) : least s f n ≤ s ∧ (∀ i, i < n → least s f n ≤ f i) ∧
    (least s f n = s ∨ ∃ i, i < n ∧ least s f n = f i) := by
  induction n with
  | zero => simp [least]
  | succ n ih =>
    obtain ⟨h1, h2, h3⟩ := ih
    rw [least_succ]
    by_cases h : f n < least s f n
    · rw [if_pos h]
      refine ⟨h.le.trans h1, fun i hi => ?_, Or.inr ⟨n, by omega, rfl⟩⟩
      rcases Nat.lt_succ_iff_lt_or_eq.1 hi with hi | rfl
      · exact h.le.trans (h2 i hi)
      · exact le_refl _
    · rw [if_neg h]
      refine ⟨h1, fun i hi => ?_, h3.imp id fun ⟨i, hi, e⟩ => ⟨i, by omega, e⟩⟩
      rcases Nat.lt_succ_iff_lt_or_eq.1 hi with hi | rfl
      · exact h2 i hi
      · exact not_lt.1 h

theorem most_spec (s : K) (f : ℕ → K) (n : ℕ) : s ≤ most s f n ∧ (∀ i, i < n → f i ≤ most s f n) ∧
    (most s f n = s ∨ ∃ i, i < n ∧ most s f n = f i) := by
  induction n with
  | zero => simp [most]
  | succ n ih =>
    obtain ⟨h1, h2, h3⟩ := ih
    rw [most_succ]
    by_cases h : f n > most s f n
    · rw [if_pos h]
      refine ⟨h1.trans h.le, fun i hi => ?_, Or.inr ⟨n, by omega, rfl⟩⟩
      rcases Nat.lt_succ_iff_lt_or_eq.1 hi with hi | rfl
      · exact (h2 i hi).trans h.le
      · exact le_refl _
    · rw [if_neg h]
      refine ⟨h1, fun i hi => ?_, h3.imp id fun ⟨i, hi, e⟩ => ⟨i, by omega, e⟩⟩
      rcases Nat.lt_succ_iff_lt_or_eq.1 hi with hi | rfl
      · exact h2 i hi
      · exact not_lt.1 h

theorem least_attained {s : K} {f : ℕ → K} {n : ℕ} (h : ∃ i, i < n ∧ f i ≤ s) :
    ∃ i, i < n ∧ least s f n = f i := by
  obtain ⟨_, h2, h3⟩ := least_spec s f n
  rcases h3 with h3 | h3
  · obtain ⟨i, hi, hs⟩ := h
    exact ⟨i, hi, le_antisymm (h2 i hi) (by rw [h3]; exact hs)⟩
  · exact h3

theorem most_attained {s : K} {f : ℕ → K} {n : ℕ} (h : ∃ i, i < n ∧ s ≤ f i) :
    ∃ i, i < n ∧ most s f n = f i := by
  obtain ⟨_, h2, h3⟩ := most_spec s f n
  rcases h3 with h3 | h3
  · obtain ⟨i, hi, hs⟩ := h
    exact ⟨i, hi, le_antisymm (by rw [h3]; exact hs) (h2 i hi)⟩
  · exact h3

/-! ### Normalised coordinates -/

/-- `g` is `f` after a change of origin and of unit, and fills the interval from 0 to 1. -/
structure Unit01 (n : ℕ) (f g : ℕ → K) : Prop where
  affine : ∃ a c : K, 0 < a ∧ ∀ i, i < n → g i = a * f i + c
  range : ∀ i, i < n → 0 ≤ g i ∧ g i ≤ 1
  zero : ∃ i, i < n ∧ g i = 0
  one : ∃ i, i < n ∧ g i = 1

theorem normalize_some {f g : ℕ → K} {n : ℕ} (hn : 0 < n) (h : NormalizeCoordinate f n = some g) :
    (∀ i, i < n → 0 ≤ g i ∧ g i ≤ 1) ∧ ∃ a c : K, 0 < a ∧ ∀ i, i < n → g i = a * f i + c := by
  unfold NormalizeCoordinate at h
  simp only at h
  set lo := least (10 ^ 100) f n
  set hi := most (-(10 ^ 100)) f n
  by_cases h0 : hi - lo = 0
  · rw [if_pos ⟨hn, h0⟩] at h; simp at h
  rw [if_neg (fun hh => h0 hh.2)] at h
  obtain rfl := Option.some.inj h
  have hlo := (least_spec (10 ^ 100) f n).2.1
  have hhi := (most_spec (-(10 ^ 100)) f n).2.1
  have hpos : 0 < hi - lo := by
    rcases lt_or_gt_of_ne h0 with hh | hh
    · exfalso
      have := hlo 0 hn
      have := hhi 0 hn
      linarith
    · exact hh
  refine ⟨fun i hi' => ?_, 1 / (hi - lo), -lo / (hi - lo), by positivity, fun i hi' => ?_⟩
  · simp only [hi', if_true]
    have a1 := hlo i hi'
    have a2 := hhi i hi'
    exact ⟨div_nonneg (by linarith) hpos.le, (div_le_one hpos).2 (by linarith)⟩
  · simp only [hi', if_true]
    field_simp
    ring

theorem normalize_ok {f : ℕ → K} {n : ℕ} (hb : ∀ i, i < n → -(10 ^ 100) ≤ f i ∧ f i ≤ 10 ^ 100)
    (hne : ∃ i j, i < n ∧ j < n ∧ f i ≠ f j) :
    ∃ g, NormalizeCoordinate f n = some g ∧ Unit01 n f g := by
  obtain ⟨i0, j0, hi0, hj0, hne⟩ := hne
  have hn : 0 < n := by omega
  obtain ⟨p, hp, ep⟩ := least_attained (s := (10 : K) ^ 100) (f := f) ⟨i0, hi0, (hb i0 hi0).2⟩
  obtain ⟨q, hq, eq⟩ := most_attained (s := -(10 : K) ^ 100) (f := f) ⟨i0, hi0, (hb i0 hi0).1⟩
  have hlo := (least_spec (10 ^ 100) f n).2.1
  have hhi := (most_spec (-(10 ^ 100)) f n).2.1
  have h0 : most (-(10 ^ 100)) f n - least (10 ^ 100) f n ≠ 0 := by
    intro h
    apply hne
    have a1 := hlo i0 hi0
    have a2 := hhi i0 hi0
    have a3 := hlo j0 hj0
    have a4 := hhi j0 hj0
    linarith
  have hsome : ∃ g, NormalizeCoordinate f n = some g := by
    unfold NormalizeCoordinate
    simp only
    rw [if_neg (fun hh => h0 hh.2)]
    exact ⟨_, rfl⟩
  obtain ⟨g, hg⟩ := hsome
  obtain ⟨hr, ha⟩ := normalize_some hn hg
  refine ⟨g, hg, ha, hr, ⟨p, hp, ?_⟩, ⟨q, hq, ?_⟩⟩
  · unfold NormalizeCoordinate at hg
    simp only at hg
    rw [if_neg (fun hh => h0 hh.2)] at hg
    obtain rfl := Option.some.inj hg
    simp [hp, ep]
  · unfold NormalizeCoordinate at hg
    simp only at hg
    rw [if_neg (fun hh => h0 hh.2)] at hg
    obtain rfl := Option.some.inj hg
    simp only [hq, if_true]
    rw [eq] at h0 ⊢
    exact div_self h0

theorem normalize_unit {f : ℕ → K} {n : ℕ} (h : Unit01 n f f) :
    ∃ g, NormalizeCoordinate f n = some g ∧ ∀ i, i < n → g i = f i := by
  have hb : ∀ i, i < n → -(10 ^ 100) ≤ f i ∧ f i ≤ 10 ^ 100 := by
    intro i hi
    have := h.range i hi
    have h1 : (1 : K) ≤ 10 ^ 100 := one_le_pow₀ (by norm_num)
    constructor <;> linarith
  obtain ⟨p, hp, fp⟩ := h.zero
  obtain ⟨q, hq, fq⟩ := h.one
  obtain ⟨g, hg, hu⟩ := normalize_ok hb ⟨p, q, hp, hq, by rw [fp, fq]; exact zero_ne_one⟩
  refine ⟨g, hg, ?_⟩
  obtain ⟨a, c, ha, hac⟩ := hu.affine
  obtain ⟨p', hp', gp⟩ := hu.zero
  obtain ⟨q', hq', gq⟩ := hu.one
  have e1 := hac p hp
  have e2 := hac q hq
  rw [fp] at e1
  rw [fq] at e2
  have e3 := hac p' hp'
  have e4 := hac q' hq'
  have r1 := h.range p' hp'
  have r2 := h.range q' hq'
  have s1 := hu.range p hp
  have s2 := hu.range q hq
  rw [gp] at e3
  rw [gq] at e4
  have hc : c = 0 := by
    have : 0 ≤ c := by linarith
    have : 0 ≤ a * f p' := mul_nonneg ha.le r1.1
    linarith
  have ha1 : a = 1 := by
    have : a ≤ 1 := by linarith
    have : a * f q' ≤ a * 1 := mul_le_mul_of_nonneg_left r2.2 ha.le
    linarith
  intro i hi
  rw [hac i hi, hc, ha1]; ring

/-- C99.  If neither all abscissas nor all ordinates are equal, `NormalizeCoordinates` shifts and
scales each coordinate so that it fills the interval from 0 to 1; doing it again changes nothing. -/
theorem C99_normalize (n : ℕ) (x y : ℕ → K)
    (hbx : ∀ i, i < n → -(10 ^ 100) ≤ x i ∧ x i ≤ 10 ^ 100)
    (hby : ∀ i, i < n → -(10 ^ 100) ≤ y i ∧ y i ≤ 10 ^ 100)
    (hx : ∃ i j, i < n ∧ j < n ∧ x i ≠ x j) (hy : ∃ i j, i < n ∧ j < n ∧ y i ≠ y j) :
    ∃ x' y', NormalizeCoordinates x y n = some (x', y') ∧ Unit01 n x x' ∧ Unit01 n y y' ∧
      ∃ x'' y'', NormalizeCoordinates x' y' n = some (x'', y'') ∧
        ∀ i, i < n → x'' i = x' i ∧ y'' i = y' i := by
  obtain ⟨x', ex, ux⟩ := normalize_ok hbx hx
  obtain ⟨y', ey, uy⟩ := normalize_ok hby hy
  obtain ⟨x'', ex', hx''⟩ := normalize_unit (f := x')
    ⟨⟨1, 0, by norm_num, fun i _ => by ring⟩, ux.range, ux.zero, ux.one⟩
  obtain ⟨y'', ey', hy''⟩ := normalize_unit (f := y')
    ⟨⟨1, 0, by norm_num, fun i _ => by ring⟩, uy.range, uy.zero, uy.one⟩
  refine ⟨x', y', ?_, ux, uy, x'', y'', ?_, fun i hi => ⟨hx'' i hi, hy'' i hi⟩⟩
  · simp [NormalizeCoordinates, ex, ey]
  · simp [NormalizeCoordinates, ex', ey']

theorem normalize_flat {f : ℕ → K} {n : ℕ} {c : K} (hn : 0 < n) (hc : -(10 ^ 100) ≤ c ∧ c ≤ 10 ^ 100)
    (h : ∀ i, i < n → f i = c) : NormalizeCoordinate f n = none := by
  obtain ⟨p, hp, ep⟩ := least_attained (s := (10 : K) ^ 100) (f := f) (n := n) ⟨0, hn, by rw [h 0 hn]; exact hc.2⟩
  obtain ⟨q, hq, eq⟩ := most_attained (s := -(10 : K) ^ 100) (f := f) (n := n) ⟨0, hn, by rw [h 0 hn]; exact hc.1⟩
  unfold NormalizeCoordinate
  simp only
  rw [if_pos ⟨hn, by rw [ep, eq, h p hp, h q hq, sub_self]⟩]

/-- If all nodes have the same abscissa, or all have the same ordinate, the coordinates become NaN.
So it is for every network of one node. -/
theorem C99_flat (n : ℕ) (hn : 0 < n) (x y : ℕ → K) (c : K) (hc : -(10 ^ 100) ≤ c ∧ c ≤ 10 ^ 100)
    (h : (∀ i, i < n → x i = c) ∨ ∀ i, i < n → y i = c) : NormalizeCoordinates x y n = none := by
  unfold NormalizeCoordinates
  rcases h with h | h
  · rw [normalize_flat hn hc h]; rfl
  · rw [normalize_flat hn hc h]
    cases NormalizeCoordinate x n <;> rfl

end Field

example : (NormalizeCoordinate (fun i => [(2 : ℚ), 6, 4].getD i 0) 3).map (fun g => [g 0, g 1, g 2]) =
    some [0, 1, 1 / 2] := by decide +kernel

/-! ### Boxes during the integration -/

theorem Filed.move {n b : ℕ} {boxes : ℕ → List ℕ} {home : ℕ → ℕ} (hf : Filed n b boxes home) {i k : ℕ}
    (hi : i < n) (hk : k < b * b) :
    let boxes' := Function.update boxes (home i) ((boxes (home i)).erase i)
    Filed n b (Function.update boxes' k (i :: boxes' k)) (Function.update home i k) := by
  intro boxes'
  have hb' : ∀ m, boxes' m = if m = home i then (boxes (home i)).erase i else boxes m := fun m => by
    simp only [boxes', Function.update_apply]
  have hmem : ∀ m j, j ∈ boxes' m ↔ j < n ∧ home j = m ∧ j ≠ i := by
    intro m j
    rw [hb']
    by_cases hm : m = home i
    · rw [if_pos hm, (hf.nodup _).mem_erase_iff, hf.mem]
      constructor
      · rintro ⟨h1, h2, h3⟩; exact ⟨h2, by rw [hm, h3], h1⟩
      · rintro ⟨h1, h2, h3⟩; exact ⟨h3, h1, by rw [← hm, h2]⟩
    · rw [if_neg hm, hf.mem]
      constructor
      · rintro ⟨h1, h2⟩; exact ⟨h1, h2, fun e => hm (by rw [← h2, e])⟩
      · rintro ⟨h1, h2, -⟩; exact ⟨h1, h2⟩
  have hnd : ∀ m, (boxes' m).Nodup := by
    intro m; rw [hb']; split_ifs
    · exact (hf.nodup _).erase _
    · exact hf.nodup _
  refine ⟨fun m => ?_, fun m j => ?_, fun j hj => ?_⟩
  · rw [Function.update_apply]
    split_ifs with h
    · rw [List.nodup_cons]
      exact ⟨fun hh => ((hmem k i).1 hh).2.2 rfl, hnd k⟩
    · exact hnd m
  · rw [Function.update_apply, Function.update_apply]
    by_cases hm : m = k
    · rw [if_pos hm, List.mem_cons, hmem]
      by_cases hj : j = i
      · simp [hj, hi, hm]
      · simp [hj, hm]
    · rw [if_neg hm, hmem]
      by_cases hj : j = i
      · simp [hj, Ne.symm hm]
      · simp [hj]
  · rw [Function.update_apply]
    split_ifs
    · exact hk
    · exact hf.range j hj

/-- A node moves to the box that `AssignBox` names. -/
theorem rebox_ok {n b : ℕ} {xmin xmax ymin ymax : ℝ} {s : MD} (hf : Filed n b s.boxes s.oldbox) {i : ℕ}
    (hi : i < n) {k : ℕ} (hk : AssignBox b (s.x i) (s.y i) xmin xmax ymin ymax = some (k : ℤ))
    (hkb : k < b * b) :
    ∃ s', rebox b xmin xmax ymin ymax s i = some s' ∧ Filed n b s'.boxes s'.oldbox ∧
      s'.oldbox = Function.update s.oldbox i k ∧ s'.x = s.x ∧ s'.y = s.y ∧ s'.px = s.px ∧
      s'.py = s.py := by
  unfold rebox
  simp only [hk, Option.bind_eq_bind, Option.bind_some]
  by_cases hne : (k : ℤ) ≠ s.oldbox i
  · have hmem : i ∈ s.boxes (s.oldbox i) := (hf.mem _ _).2 ⟨hi, rfl⟩
    have hkk : (0 : ℤ) ≤ k ∧ (k : ℤ) < b * b := ⟨by omega, by exact_mod_cast hkb⟩
    simp only [if_pos hne, RemoveNodeFromBox, if_pos hmem, Option.bind_some, if_pos hkk]
    exact ⟨_, rfl, hf.move hi hkb, rfl, rfl, rfl, rfl, rfl⟩
  · rw [if_neg hne]
    have he : s.oldbox i = k := by
      have : (k : ℤ) = s.oldbox i := not_not.1 hne
      exact_mod_cast this.symm
    refine ⟨s, rfl, hf, ?_, rfl, rfl, rfl, rfl⟩
    rw [← he, Function.update_eq_self]

theorem rebox_fold {n b : ℕ} {xmin xmax ymin ymax : ℝ} (k : ℕ → ℕ) (L : List ℕ) : ∀ (s : MD),
    Filed n b s.boxes s.oldbox → (∀ i ∈ L, i < n ∧ k i < b * b ∧
      AssignBox b (s.x i) (s.y i) xmin xmax ymin ymax = some (k i : ℤ)) →
    ∃ s', L.foldlM (rebox b xmin xmax ymin ymax) s = some s' ∧ Filed n b s'.boxes s'.oldbox ∧
      (∀ i, s'.oldbox i = if i ∈ L then k i else s.oldbox i) ∧ s'.x = s.x ∧ s'.y = s.y ∧
      s'.px = s.px ∧ s'.py = s.py := by
  induction L with
  | nil => intro s hf _; exact ⟨s, rfl, hf, by simp, rfl, rfl, rfl, rfl⟩
  | cons i L ih =>
    intro s hf h
    obtain ⟨hi, hkb, hk⟩ := h i (List.mem_cons_self ..)
    obtain ⟨s1, e1, f1, o1, x1, y1, px1, py1⟩ := rebox_ok hf hi hk hkb
    obtain ⟨s2, e2, f2, o2, x2, y2, px2, py2⟩ := ih s1 f1 (fun j hj => by
      rw [x1, y1]; exact h j (List.mem_cons_of_mem _ hj))
    refine ⟨s2, ?_, f2, fun j => ?_, x2.trans x1, y2.trans y1, px2.trans px1, py2.trans py1⟩
    · rw [List.foldlM_cons, e1]; exact e2
    · rw [o2, o1, Function.update_apply]
      by_cases hj : j ∈ L
      · simp [hj]
      · by_cases hji : j = i
        · simp [hji, hj]
        · simp [hj, hji]

/-- Whatever `rebox` does, it leaves the coordinates and the filing. -/
theorem rebox_some {n b : ℕ} {xmin xmax ymin ymax : ℝ} {s s' : MD} (hf : Filed n b s.boxes s.oldbox)
    {i : ℕ} (hi : i < n) (h : rebox b xmin xmax ymin ymax s i = some s') :
    Filed n b s'.boxes s'.oldbox ∧ s'.x = s.x ∧ s'.y = s.y ∧ s'.px = s.px ∧ s'.py = s.py ∧
      AssignBox b (s.x i) (s.y i) xmin xmax ymin ymax = some (s'.oldbox i : ℤ) ∧
      ∀ j, j ≠ i → s'.oldbox j = s.oldbox j := by
  cases hk : AssignBox b (s.x i) (s.y i) xmin xmax ymin ymax with
  | none => unfold rebox at h; simp [hk] at h
  | some k =>
    by_cases hrange : 0 ≤ k ∧ k < b * b
    · obtain ⟨m, rfl⟩ := Int.eq_ofNat_of_zero_le hrange.1
      obtain ⟨s1, e1, f1, o1, x1, y1, px1, py1⟩ := rebox_ok hf hi hk (by exact_mod_cast hrange.2)
      rw [e1] at h
      obtain rfl := Option.some.inj h
      refine ⟨f1, x1, y1, px1, py1, by rw [o1, Function.update_self], fun j hj => by
        rw [o1, Function.update_of_ne hj]⟩
    · exfalso
      unfold rebox at h
      simp only [hk, Option.bind_eq_bind, Option.bind_some] at h
      by_cases hne : k ≠ s.oldbox i
      · rw [if_pos hne] at h
        cases hr : RemoveNodeFromBox i (s.boxes (s.oldbox i)) with
        | none => simp [hr] at h
        | some l => simp [hr, hrange] at h
      · have := hf.range i hi
        rw [not_not] at hne
        apply hrange
        rw [hne]
        exact ⟨by omega, by exact_mod_cast this⟩

theorem rebox_fold_some {n b : ℕ} {xmin xmax ymin ymax : ℝ} (L : List ℕ) : ∀ (s s' : MD),
    Filed n b s.boxes s.oldbox → (∀ i ∈ L, i < n) →
    L.foldlM (rebox b xmin xmax ymin ymax) s = some s' →
    Filed n b s'.boxes s'.oldbox ∧ s'.x = s.x ∧ s'.y = s.y ∧ s'.px = s.px ∧ s'.py = s.py ∧
      (∀ i ∈ L, AssignBox b (s.x i) (s.y i) xmin xmax ymin ymax = some (s'.oldbox i : ℤ)) ∧
      ∀ j, j ∉ L → s'.oldbox j = s.oldbox j := by
  induction L with
  | nil =>
    intro s s' hf _ h
    obtain rfl := Option.some.inj h
    exact ⟨hf, rfl, rfl, rfl, rfl, by simp, fun _ _ => rfl⟩
  | cons i L ih =>
    intro s s' hf hL h
    rw [List.foldlM_cons] at h
    cases h1 : rebox b xmin xmax ymin ymax s i with
    | none => rw [h1] at h; simp at h
    | some s1 =>
      rw [h1] at h
      obtain ⟨f1, x1, y1, px1, py1, a1, o1⟩ := rebox_some hf (hL i (List.mem_cons_self ..)) h1
      obtain ⟨f2, x2, y2, px2, py2, a2, o2⟩ := ih s1 s' f1
        (fun j hj => hL j (List.mem_cons_of_mem _ hj)) h
      refine ⟨f2, x2.trans x1, y2.trans y1, px2.trans px1, py2.trans py1, fun j hj => ?_, fun j hj => ?_⟩
      · by_cases hjL : j ∈ L
        · rw [← x1, ← y1]; exact a2 j hjL
        · have : j = i := by
            rcases List.mem_cons.1 hj with h | h
            · exact h
            · exact absurd h hjL
          subst this
          rw [o2 j hjL]; exact a1
      · rw [List.mem_cons, not_or] at hj
        rw [o2 j hj.2, o1 j hj.1]

/-- The first boxes. -/
theorem place_ok (b : ℕ) (hb : 0 < b) (x0 y0 : ℕ → ℝ) (n : ℕ)
    (hx : ∀ i, i < n → 0 ≤ x0 i ∧ x0 i ≤ 1) (hy : ∀ i, i < n → 0 ≤ y0 i ∧ y0 i ≤ 1) :
    ∃ s, place b x0 y0 n = some s ∧ Filed n b s.boxes s.oldbox ∧ s.x = x0 ∧ s.y = y0 ∧ s.px = x0 ∧
      s.py = y0 := by
  induction n with
  | zero =>
    exact ⟨_, rfl, ⟨by simp, by simp, by simp⟩, rfl, rfl, rfl, rfl⟩
  | succ n ih =>
    obtain ⟨s, e, hf, h1, h2, h3, h4⟩ := ih (fun i hi => hx i (by omega)) (fun i hi => hy i (by omega))
    obtain ⟨k, hk, hkb, -⟩ := C95_box b hb (x0 n) (y0 n) 0 1 0 1 (by norm_num) (by norm_num)
      (hx n (by omega)).1 (hx n (by omega)).2 (hy n (by omega)).1 (hy n (by omega)).2
    have hkk : (0 : ℤ) ≤ k ∧ (k : ℤ) < b * b := ⟨by omega, by exact_mod_cast hkb⟩
    simp only [place, e, hk, Option.bind_eq_bind, Option.bind_some, if_pos hkk]
    refine ⟨_, rfl, ⟨fun m => ?_, fun m j => ?_, fun j hj => ?_⟩, h1, h2, h3, h4⟩
    · simp only [Function.update_apply, Int.toNat_natCast, AddNodeToBox]
      split_ifs with hm
      · rw [List.nodup_cons]
        exact ⟨fun hh => by have := ((hf.mem _ _).1 hh).1; omega, hf.nodup _⟩
      · exact hf.nodup _
    · simp only [Function.update_apply, Int.toNat_natCast, AddNodeToBox]
      by_cases hm : m = k
      · rw [if_pos hm, List.mem_cons, hf.mem]
        by_cases hj : j = n
        · simp [hj, hm]
        · simp only [hj, if_false, false_or, hm]; 
          constructor
          · rintro ⟨a, c⟩; exact ⟨by omega, c⟩
          · rintro ⟨a, c⟩; exact ⟨by omega, c⟩
      · rw [if_neg hm, hf.mem]
        by_cases hj : j = n
        · simp [hj, Ne.symm hm]
        · simp only [hj, if_false]
          constructor
          · rintro ⟨a, c⟩; exact ⟨by omega, c⟩
          · rintro ⟨a, c⟩; exact ⟨by omega, c⟩
    · simp only [Function.update_apply, Int.toNat_natCast]
      split_ifs with h
      · exact hkb
      · exact hf.range j (by omega)

/-! ### Steps -/

/-- A coordinate after one step, for the force `F`. -/
noncomputable def moved (drag dt : ℝ) (u pu F : ℕ → ℝ) (i : ℕ) : ℝ :=
  (2 * u i - (1 - drag * dt / 2) * pu i + dt ^ 2 * F i) / (1 + drag * dt / 2)

theorem verlet_eq (drag dt x px F : ℝ) : verlet drag dt x px F =
    (2 * x - (1 - drag * dt / 2) * px + dt ^ 2 * F) / (1 + drag * dt / 2) := by
  unfold verlet; congr 1 <;> ring

/-- Facts about every step that succeeds. -/
theorem step_some {net : GP.Net} {drag dt : ℝ} {b : ℕ} {s : MD} {r : MD × ℝ}
    (hf : Filed net.n b s.boxes s.oldbox) (h : mdStep net drag dt b s = some r) :
    1 + drag * dt / 2 ≠ 0 ∧ ∃ F, CalculateNodeForces net s.x s.y s.boxes b = some F ∧
      Filed net.n b r.1.boxes r.1.oldbox ∧
      (∀ i, i < net.n → r.1.x i = moved drag dt s.x s.px F.x i) ∧
      (∀ i, i < net.n → r.1.y i = moved drag dt s.y s.py F.y i) ∧ r.1.px = s.x ∧ r.1.py = s.y ∧
      ∀ i, i < net.n → AssignBox b (r.1.x i) (r.1.y i) (least (10 ^ 50) r.1.x net.n)
        (most (-(10 ^ 50)) r.1.x net.n) (least (10 ^ 50) r.1.y net.n)
        (most (-(10 ^ 50)) r.1.y net.n) = some (r.1.oldbox i : ℤ) := by
  unfold mdStep at h
  cases hF : CalculateNodeForces net s.x s.y s.boxes b with
  | none => simp [hF] at h
  | some F =>
    simp only [hF, Option.bind_eq_bind, Option.bind_some] at h
    by_cases hd : 1 + drag * dt * (1 / 2) = 0 ∨ 2 * dt = 0
    · rw [if_pos hd] at h; simp at h
    rw [if_neg hd, Option.bind_eq_some_iff] at h
    obtain ⟨s', hs', h⟩ := h
    obtain rfl := Option.some.inj h
    obtain ⟨f1, hx, hy, hpx, hpy, ha, -⟩ := rebox_fold_some (List.range net.n)
      { s with x := _, y := _, px := s.x, py := s.y } s' hf (fun i hi => List.mem_range.1 hi) hs'
    simp only at hx hy hpx hpy ha
    refine ⟨fun hz => hd (Or.inl (by rw [← hz]; ring)), F, rfl, f1, fun i hi => ?_, fun i hi => ?_,
      hpx, hpy, fun i hi => ?_⟩
    · simp only [hx, hi, if_true, verlet_eq, moved]
    · simp only [hy, hi, if_true, verlet_eq, moved]
    · have := ha i (List.mem_range.2 hi)
      simp only [hx, hy]
      exact this

/-- What holds between two steps. -/
structure Inv (net : GP.Net) (b : ℕ) (x0 y0 : ℕ → ℝ) (s : MD) : Prop where
  filed : Filed net.n b s.boxes s.oldbox
  cx : ∑ i ∈ Finset.range net.n, s.x i = ∑ i ∈ Finset.range net.n, x0 i
  cy : ∑ i ∈ Finset.range net.n, s.y i = ∑ i ∈ Finset.range net.n, y0 i
  cpx : ∑ i ∈ Finset.range net.n, s.px i = ∑ i ∈ Finset.range net.n, x0 i
  cpy : ∑ i ∈ Finset.range net.n, s.py i = ∑ i ∈ Finset.range net.n, y0 i

theorem sum_moved {n : ℕ} {drag dt : ℝ} {u pu F : ℕ → ℝ} {c : ℝ} (hd : 1 + drag * dt / 2 ≠ 0)
    (h1 : ∑ i ∈ Finset.range n, u i = c) (h2 : ∑ i ∈ Finset.range n, pu i = c)
    (h3 : ∑ i ∈ Finset.range n, F i = 0) : ∑ i ∈ Finset.range n, moved drag dt u pu F i = c := by
  unfold moved
  rw [← Finset.sum_div, Finset.sum_add_distrib, Finset.sum_sub_distrib, ← Finset.mul_sum,
    ← Finset.mul_sum, ← Finset.mul_sum, h1, h2, h3, div_eq_iff hd]
  ring

theorem Inv.step {net : GP.Net} (hs : net.Simple) {drag dt : ℝ} {b : ℕ} {x0 y0 : ℕ → ℝ} {s : MD}
    {r : MD × ℝ} (hi : Inv net b x0 y0 s) (h : mdStep net drag dt b s = some r) :
    Inv net b x0 y0 r.1 := by
  obtain ⟨hd, F, hF, f1, hx, hy, hpx, hpy, -⟩ := step_some hi.filed h
  obtain ⟨bx, by_⟩ := C97_balance net hs s.x s.y b s.boxes s.oldbox hi.filed F hF
  refine ⟨f1, ?_, ?_, by rw [hpx]; exact hi.cx, by rw [hpy]; exact hi.cy⟩
  · rw [Finset.sum_congr rfl fun i hi => hx i (Finset.mem_range.1 hi)]
    exact sum_moved hd hi.cx hi.cpx bx
  · rw [Finset.sum_congr rfl fun i hi => hy i (Finset.mem_range.1 hi)]
    exact sum_moved hd hi.cy hi.cpy by_

theorem Inv.loop {net : GP.Net} (hs : net.Simple) {drag dt : ℝ} {b : ℕ} {x0 y0 : ℕ → ℝ} (k : ℕ) :
    ∀ {s s' : MD}, Inv net b x0 y0 s → mdLoop net drag dt b k s = some s' → Inv net b x0 y0 s' := by
  induction k with
  | zero => intro s s' hi h; obtain rfl := Option.some.inj h; exact hi
  | succ k ih =>
    intro s s' hi h
    unfold mdLoop at h
    cases hr : mdStep net drag dt b s with
    | none => rw [hr] at h; simp at h
    | some r =>
      simp only [hr, Option.bind_eq_bind, Option.bind_some] at h
      split_ifs at h
      · obtain rfl := Option.some.inj h; exact hi.step hs hr
      · exact ih (hi.step hs hr) h

/-- C100.  As long as every node is filed in its box, no two nodes that act on one another are in
one place and the new drawing is neither a vertical nor a horizontal line, a step of the integration
succeeds: no access leaves the list of boxes and every node is found in its old box.  Afterwards every
node is filed in the box in which it lies. -/
theorem C100_step (net : GP.Net) (hs : net.Simple) (drag dt : ℝ) (b : ℕ) (hb : 0 < b) (s : MD)
    (hf : Filed net.n b s.boxes s.oldbox) (hd : 1 + drag * dt / 2 ≠ 0) (hdt : dt ≠ 0)
    (hc : ¬ Collision net b s.x s.y s.oldbox)
    (hx : ∃ i j, i < net.n ∧ j < net.n ∧
      moved drag dt s.x s.px (force net b s.x s.y s.oldbox s.x) i ≠
      moved drag dt s.x s.px (force net b s.x s.y s.oldbox s.x) j)
    (hy : ∃ i j, i < net.n ∧ j < net.n ∧
      moved drag dt s.y s.py (force net b s.x s.y s.oldbox s.y) i ≠
      moved drag dt s.y s.py (force net b s.x s.y s.oldbox s.y) j) :
    ∃ s' T, mdStep net drag dt b s = some (s', T) ∧ Filed net.n b s'.boxes s'.oldbox ∧
      (∀ i, i < net.n → s'.x i = moved drag dt s.x s.px (force net b s.x s.y s.oldbox s.x) i ∧
        s'.y i = moved drag dt s.y s.py (force net b s.x s.y s.oldbox s.y) i) ∧
      s'.px = s.x ∧ s'.py = s.y := by
  obtain ⟨F, hF, hforce⟩ := (C97_forces net hs s.x s.y b s.boxes s.oldbox hf).2 hc
  have mx : ∀ i, i < net.n → verlet drag dt (s.x i) (s.px i) (F.x i) =
      moved drag dt s.x s.px (force net b s.x s.y s.oldbox s.x) i := by
    intro i hi; rw [verlet_eq, moved, (hforce i hi).1]
  have my : ∀ i, i < net.n → verlet drag dt (s.y i) (s.py i) (F.y i) =
      moved drag dt s.y s.py (force net b s.x s.y s.oldbox s.y) i := by
    intro i hi; rw [verlet_eq, moved, (hforce i hi).2]
  set x' : ℕ → ℝ := fun i => if i < net.n then verlet drag dt (s.x i) (s.px i) (F.x i) else s.x i
    with hx'
  set y' : ℕ → ℝ := fun i => if i < net.n then verlet drag dt (s.y i) (s.py i) (F.y i) else s.y i
    with hy'
  have ex : ∀ i, i < net.n → x' i = moved drag dt s.x s.px (force net b s.x s.y s.oldbox s.x) i := by
    intro i hi; simp only [hx', hi, if_true, mx i hi]
  have ey : ∀ i, i < net.n → y' i = moved drag dt s.y s.py (force net b s.x s.y s.oldbox s.y) i := by
    intro i hi; simp only [hy', hi, if_true, my i hi]
  -- the limits are proper
  have lim : ∀ (u : ℕ → ℝ), (∃ i j, i < net.n ∧ j < net.n ∧ u i ≠ u j) →
      least (10 ^ 50) u net.n < most (-(10 ^ 50)) u net.n := by
    rintro u ⟨i, j, hi, hj, hne⟩
    have l := (least_spec (10 ^ 50) u net.n).2.1
    have m := (most_spec (-(10 ^ 50)) u net.n).2.1
    rcases lt_or_gt_of_ne hne with h | h
    · exact lt_of_le_of_lt (l i hi) (lt_of_lt_of_le h (m j hj))
    · exact lt_of_le_of_lt (l j hj) (lt_of_lt_of_le h (m i hi))
  have lx := lim x' (by
    obtain ⟨i, j, hi, hj, h⟩ := hx
    exact ⟨i, j, hi, hj, by rw [ex i hi, ex j hj]; exact h⟩)
  have ly := lim y' (by
    obtain ⟨i, j, hi, hj, h⟩ := hy
    exact ⟨i, j, hi, hj, by rw [ey i hi, ey j hj]; exact h⟩)
  have hbox : ∀ i, ∃ k : ℕ, i < net.n → k < b * b ∧
      AssignBox b (x' i) (y' i) (least (10 ^ 50) x' net.n) (most (-(10 ^ 50)) x' net.n)
        (least (10 ^ 50) y' net.n) (most (-(10 ^ 50)) y' net.n) = some (k : ℤ) := by
    intro i
    by_cases hi : i < net.n
    · obtain ⟨k, h1, h2, -⟩ := C95_box b hb (x' i) (y' i) _ _ _ _ lx ly
        ((least_spec (10 ^ 50) x' net.n).2.1 i hi) ((most_spec (-(10 ^ 50)) x' net.n).2.1 i hi)
        ((least_spec (10 ^ 50) y' net.n).2.1 i hi) ((most_spec (-(10 ^ 50)) y' net.n).2.1 i hi)
      exact ⟨k, fun _ => ⟨h2, h1⟩⟩
    · exact ⟨0, fun h => absurd h hi⟩
  choose k hk using hbox
  obtain ⟨s', e, f', -, x1, y1, px1, py1⟩ := rebox_fold (n := net.n) (b := b) k (List.range net.n)
    { s with x := x', y := y', px := s.x, py := s.y } hf (fun i hi => by
      have hi' := List.mem_range.1 hi
      exact ⟨hi', (hk i hi').1, (hk i hi').2⟩)
  have hd' : ¬ (1 + drag * dt * (1 / 2) = 0 ∨ 2 * dt = 0) := by
    rintro (h | h)
    · apply hd; rw [← h]; ring
    · apply hdt; linarith
  have hstep : ∃ T, mdStep net drag dt b s = some (s', T) := by
    unfold mdStep
    simp only [hF, Option.bind_eq_bind, Option.bind_some]
    rw [if_neg hd', e]
    exact ⟨_, rfl⟩
  obtain ⟨T, hT⟩ := hstep
  refine ⟨s', T, hT, f', fun i hi => ⟨?_, ?_⟩, px1, py1⟩
  · rw [x1]; exact ex i hi
  · rw [y1]; exact ey i hi

/-- C100, whole runs: whenever the integration stops, every node is filed in one box of the grid. -/
theorem C100_run (net : GP.Net) (hs : net.Simple) (drag dt : ℝ) (b nsteps : ℕ) (hb : 0 < b)
    (x0 y0 : ℕ → ℝ) (hx : ∀ i, i < net.n → 0 ≤ x0 i ∧ x0 i ≤ 1)
    (hy : ∀ i, i < net.n → 0 ≤ y0 i ∧ y0 i ≤ 1) :
    ∃ s0, place b x0 y0 net.n = some s0 ∧ ∀ s, mdLoop net drag dt b nsteps s0 = some s →
      Filed net.n b s.boxes s.oldbox := by
  obtain ⟨s0, e, hf, h1, h2, h3, h4⟩ := place_ok b hb x0 y0 net.n hx hy
  refine ⟨s0, e, fun s h => ?_⟩
  exact (Inv.loop hs nsteps (s := s0) (x0 := x0) (y0 := y0)
    ⟨hf, by rw [h1], by rw [h2], by rw [h3], by rw [h4]⟩ h).filed

/-- C101.  The centre of the drawing does not move, however many steps are made. -/
theorem C101_centre (net : GP.Net) (hs : net.Simple) (drag dt : ℝ) (b nsteps : ℕ) (hb : 0 < b)
    (x0 y0 : ℕ → ℝ) (hx : ∀ i, i < net.n → 0 ≤ x0 i ∧ x0 i ≤ 1)
    (hy : ∀ i, i < net.n → 0 ≤ y0 i ∧ y0 i ≤ 1) :
    ∃ s0, place b x0 y0 net.n = some s0 ∧ ∀ s, mdLoop net drag dt b nsteps s0 = some s →
      (∑ i ∈ Finset.range net.n, s.x i) / net.n = (∑ i ∈ Finset.range net.n, x0 i) / net.n ∧
      (∑ i ∈ Finset.range net.n, s.y i) / net.n = (∑ i ∈ Finset.range net.n, y0 i) / net.n := by
  obtain ⟨s0, e, hf, h1, h2, h3, h4⟩ := place_ok b hb x0 y0 net.n hx hy
  refine ⟨s0, e, fun s h => ?_⟩
  have := Inv.loop hs nsteps (s := s0) (x0 := x0) (y0 := y0)
    ⟨hf, by rw [h1], by rw [h2], by rw [h3], by rw [h4]⟩ h
  rw [this.cx, this.cy]
  exact ⟨rfl, rfl⟩

/-! ### The result -/

/-- C102, the full statement: a connected network gets coordinates in the unit square that touch all
four sides. -/
def C102_claim : Prop := ∀ (net : GP.Net) (drag dt : ℝ) (nsteps b : ℕ) (x0 y0 : ℕ → ℝ), net.Simple →
  0 < net.n → 0 < b → 0 ≤ drag → 0 < dt → (∀ i, i < net.n → 0 ≤ x0 i ∧ x0 i < 1) →
  (∀ i, i < net.n → 0 ≤ y0 i ∧ y0 i < 1) →
  ∃ x y, MDGraphLayout net drag dt nsteps b x0 y0 = some (x, y) ∧ Unit01 net.n x x ∧ Unit01 net.n y y

/-- C102, the part that holds: if no NaN appears, the coordinates are in the unit square and touch all
four sides. -/
theorem C102_square_partial (net : GP.Net) (drag dt : ℝ) (nsteps b : ℕ) (x0 y0 x y : ℕ → ℝ)
    (hn : 0 < net.n) (h : MDGraphLayout net drag dt nsteps b x0 y0 = some (x, y)) :
    Unit01 net.n x x ∧ Unit01 net.n y y := by
  have final : ∀ u v w : ℕ → ℝ, NormalizeCoordinate u net.n = some v →
      NormalizeCoordinate v net.n = some w → Unit01 net.n w w := by
    intro u v w huv hvw
    obtain ⟨hr, -⟩ := normalize_some hn huv
    have hb : ∀ i, i < net.n → -(10 ^ 100) ≤ v i ∧ v i ≤ 10 ^ 100 := by
      intro i hi
      have := hr i hi
      have h1 : (1 : ℝ) ≤ 10 ^ 100 := one_le_pow₀ (by norm_num)
      constructor <;> linarith
    have hne : ∃ i j, i < net.n ∧ j < net.n ∧ v i ≠ v j := by
      by_contra hcon
      push Not at hcon
      have := normalize_flat hn (hb 0 hn) (fun i hi => hcon i 0 hi hn)
      rw [this] at hvw; simp at hvw
    obtain ⟨w', hw', hu⟩ := normalize_ok hb hne
    rw [hvw] at hw'
    obtain rfl := Option.some.inj hw'
    exact ⟨⟨1, 0, by norm_num, fun i _ => by ring⟩, hu.range, hu.zero, hu.one⟩
  unfold MDGraphLayout at h
  simp only [Option.bind_eq_bind, Option.bind_eq_some_iff] at h
  obtain ⟨s0, -, s, -, p, hp, h⟩ := h
  unfold NormalizeCoordinates at hp h
  simp only [Option.bind_eq_bind, Option.bind_eq_some_iff] at hp h
  obtain ⟨x1, hx1, y1, hy1, hp⟩ := hp
  obtain ⟨x2, hx2, y2, hy2, h⟩ := h
  obtain rfl := Option.some.inj hp
  obtain ⟨rfl, rfl⟩ := Prod.mk.inj (Option.some.inj h)
  exact ⟨final _ _ _ hx1 hx2, final _ _ _ hy1 hy2⟩

/-- A network of one node gets no coordinates, whatever the parameters: the limits of the drawing
coincide. -/
theorem C102_one_node (net : GP.Net) (hs : net.Simple) (drag dt : ℝ) (nsteps b : ℕ) (hb : 0 < b)
    (x0 y0 : ℕ → ℝ) (hn : net.n = 1) (hx : 0 ≤ x0 0 ∧ x0 0 < 1) (hy : 0 ≤ y0 0 ∧ y0 0 < 1) :
    MDGraphLayout net drag dt nsteps b x0 y0 = none := by
  have h1 : (1 : ℝ) ≤ 10 ^ 100 := one_le_pow₀ (by norm_num)
  have z : ∀ i, i < net.n → i = 0 := fun i hi => by omega
  obtain ⟨s0, e, hc⟩ := C101_centre net hs drag dt b nsteps hb x0 y0
    (fun i hi => by rw [z i hi]; exact ⟨hx.1, hx.2.le⟩) (fun i hi => by rw [z i hi]; exact ⟨hy.1, hy.2.le⟩)
  unfold MDGraphLayout
  rw [e]
  simp only [Option.bind_eq_bind, Option.bind_some]
  cases hl : mdLoop net drag dt b nsteps s0 with
  | none => rfl
  | some s =>
    have := (hc s hl).1
    rw [hn] at this
    simp at this
    rw [Option.bind_some, C99_flat net.n (by omega) s.x s.y (x0 0)
      ⟨by linarith [hx.1], by linarith [hx.2]⟩ (Or.inl fun i hi => by rw [z i hi, this])]
    rfl

theorem C102_refuted : ¬ C102_claim := by
  intro h
  have hs : (⟨1, fun _ => []⟩ : GP.Net).Simple :=
    ⟨by simp, by simp, by simp [GP.Net.link], by simp [GP.Net.link]⟩
  obtain ⟨x, y, e, -⟩ := h ⟨1, fun _ => []⟩ 0 1 1 1 (fun _ => 0) (fun _ => 0) hs (by simp) (by simp)
    (by simp) (by simp) (by simp) (by simp)
  rw [C102_one_node _ hs _ _ _ _ (by simp) _ _ rfl (by simp) (by simp)] at e
  simp at e

/-- Two linked nodes on a diagonal, in one box: the hypotheses of `C100_step` hold. -/
theorem pair_step : ∃ s' T, mdStep pairNet 0 (1 / 2) 1
    ⟨fun i => i, fun i => i, fun i => i, fun i => i, fun k => if k = 0 then [1, 0] else [], fun _ => 0⟩
    = some (s', T) := by
  have hw : pairNet.w 0 1 = 1 ∧ pairNet.w 1 0 = 1 ∧ pairNet.w 0 0 = 0 ∧ pairNet.w 1 1 = 0 := by
    decide +kernel
  set u : ℕ → ℝ := fun i => i with hu
  have hf0 : force pairNet 1 u u (fun _ => 0) u 0 ≤ 1 := by
    unfold force
    rw [show pairNet.n = 2 from rfl, Finset.sum_range_succ, Finset.sum_range_one,
      Finset.sum_range_succ, Finset.sum_range_one, if_neg (fun h => h.1 rfl), hw.1, hw.2.2.1]
    have h0 : 0 ≤ Real.sqrt ((2 : ℕ) : ℝ) := Real.sqrt_nonneg _
    have h1 : 0 ≤ dis u u 0 1 := Real.sqrt_nonneg _
    have : (0 : ℝ) ≤ 1 / ((2 : ℕ) : ℝ) / (dis u u 0 1 ^ 2 + Real.sqrt (2 : ℕ) / 10000) *
      ((u 1 - u 0) / dis u u 0 1) := by
      have : u 1 - u 0 = 1 := by simp [hu]
      rw [this]; positivity
    split_ifs
    · rw [neg_div, neg_mul]
      simp only [hu] at this ⊢
      push_cast at this ⊢
      linarith
    · simp [hu]
  have hsum := force_sum pairNet pairNet_simple u u 1 (fun _ => 0) u
  rw [show pairNet.n = 2 from rfl, Finset.sum_range_succ, Finset.sum_range_one] at hsum
  have hne : moved 0 (1 / 2) u u (force pairNet 1 u u (fun _ => 0) u) 0 ≠
      moved 0 (1 / 2) u u (force pairNet 1 u u (fun _ => 0) u) 1 := by
    unfold moved
    rw [show u 0 = 0 by simp [hu], show u 1 = 1 by simp [hu]]
    intro h
    norm_num at h
    linarith
  obtain ⟨s', T, h, -⟩ := C100_step pairNet pairNet_simple 0 (1 / 2) 1 (by norm_num)
    ⟨u, u, u, u, fun k => if k = 0 then [1, 0] else [], fun _ => 0⟩
    ⟨fun k => by by_cases hk : k = 0 <;> simp [hk], fun k i => by
      by_cases hk : k = 0
      · subst hk; simp [pairNet]; omega
      · simp [hk, Ne.symm hk], fun i _ => by simp⟩ (by norm_num) (by norm_num)
    (by
      rintro ⟨i, j, hi, hj, h, hx, -⟩
      have hx' : (i : ℝ) = j := hx
      have hij : i = j := by exact_mod_cast hx'
      subst hij
      rcases h with h | h
      · rw [pairNet_simple.irrefl] at h; simp at h
      · exact h.1 rfl)
    ⟨0, 1, by decide, by decide, hne⟩ ⟨0, 1, by decide, by decide, hne⟩
  exact ⟨s', T, h⟩

/-- A run of no steps on two nodes gives coordinates. -/
example : ∃ x y, MDGraphLayout pairNet 0 1 0 1 (fun i => i / 2) (fun i => i / 2) = some (x, y) := by
  have hb : ∀ i : ℕ, i < 2 → (0 : ℝ) ≤ (i : ℝ) / 2 ∧ (i : ℝ) / 2 ≤ 1 := by
    intro i hi
    have : (i : ℝ) ≤ 2 := by exact_mod_cast hi.le
    constructor <;> [positivity; linarith]
  have h1 : (1 : ℝ) ≤ 10 ^ 100 := one_le_pow₀ (by norm_num)
  have hb' : ∀ i : ℕ, i < 2 → -(10 ^ 100) ≤ (i : ℝ) / 2 ∧ (i : ℝ) / 2 ≤ 10 ^ 100 := fun i hi =>
    ⟨by linarith [(hb i hi).1], by linarith [(hb i hi).2]⟩
  obtain ⟨s, e, -, hx, hy, -⟩ := place_ok 1 (by norm_num) (fun i => (i : ℝ) / 2) (fun i => (i : ℝ) / 2) 2 hb hb
  obtain ⟨x', y', e1, -, -, x'', y'', e2, -⟩ := C99_normalize 2 (fun i => (i : ℝ) / 2)
    (fun i => (i : ℝ) / 2) hb' hb' ⟨0, 1, by norm_num, by norm_num, by norm_num⟩
    ⟨0, 1, by norm_num, by norm_num, by norm_num⟩
  refine ⟨x'', y'', ?_⟩
  unfold MDGraphLayout
  rw [show pairNet.n = 2 from rfl, e]
  simp only [Option.bind_eq_bind, Option.bind_some, mdLoop, hx, hy]
  rw [e1]
  exact e2
end LY
