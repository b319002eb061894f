import Verif.Layout.Model
import Mathlib.Tactic.Linarith
import Mathlib.Tactic.Ring
import Mathlib.Tactic.FieldSimp
import Mathlib.Tactic.Positivity
import Mathlib.Tactic.NormNum

/-!
The grid of boxes of `src/layout.c`: every node inside the limits gets a box of the grid (C95), and
the loops over neighbouring boxes visit every pair of neighbours once (C96).
-/

set_option linter.unusedSimpArgs false

namespace LY

section Field
variable {K : Type*} [Field K] [LinearOrder K] [IsStrictOrderedRing K] [FloorRing K]

/-! ### Specification -/

/-- The width of a strip when the interval from `lo` to `hi`, made larger by a factor of
`1.00001 * 1.00001`, is cut into `b` equal strips. -/
def width (b : ℕ) (lo hi : K) : K := (hi - lo) * (100001 / 100000) ^ 2 / b

/-- `x` lies in strip number `c`, where strip 0 begins slightly below `lo`. -/
def InStrip (b : ℕ) (lo hi : K) (c : ℕ) (x : K) : Prop :=
  lo - (hi - lo) / 100000 + c * width b lo hi ≤ x ∧
    x < lo - (hi - lo) / 100000 + (c + 1) * width b lo hi

theorem width_pos {b : ℕ} {lo hi : K} (hb : 0 < b) (h : lo < hi) : 0 < width b lo hi := by
  have : (0 : K) < b := by exact_mod_cast hb
  have h' : 0 < hi - lo := by linarith
  unfold width; positivity

theorem cell_eq {b : ℕ} {lo hi x : K} (h : lo < hi) :
    cell b x lo hi = some ⌊(x - (lo - (hi - lo) / 100000)) / ((hi - lo) * (100001 / 100000) ^ 2) * b⌋ := by
  have h1 : hi + (hi - (lo - (hi - lo) * (1 / 100000))) * (1 / 100000) -
      (lo - (hi - lo) * (1 / 100000)) = (hi - lo) * (100001 / 100000) ^ 2 := by ring
  have h2 : (hi - lo) * (100001 / 100000 : K) ^ 2 ≠ 0 := by
    have : 0 < hi - lo := by linarith
    positivity
  unfold cell
  simp only [h1]
  rw [if_neg h2]
  congr 4
  ring

theorem cell_ok {b : ℕ} {lo hi x : K} (hb : 0 < b) (h : lo < hi) (h1 : lo ≤ x) (h2 : x ≤ hi) :
    ∃ c : ℕ, cell b x lo hi = some (c : ℤ) ∧ c < b ∧ InStrip b lo hi c x := by
  have hb' : (0 : K) < b := by exact_mod_cast hb
  have hd : 0 < hi - lo := by linarith
  have hW : 0 < (hi - lo) * (100001 / 100000 : K) ^ 2 := by positivity
  set q : K := (x - (lo - (hi - lo) / 100000)) / ((hi - lo) * (100001 / 100000) ^ 2) * b with hq
  have hxe : x - (lo - (hi - lo) / 100000) = q * width b lo hi := by
    rw [hq]; unfold width; field_simp
  have hq0 : 0 ≤ q := by
    rw [hq]
    have : 0 ≤ x - (lo - (hi - lo) / 100000) := by
      have := div_nonneg hd.le (show (0:K) ≤ 100000 by norm_num); linarith
    positivity
  have hqb : q < b := by
    rw [hq]
    have : (x - (lo - (hi - lo) / 100000)) / ((hi - lo) * (100001 / 100000) ^ 2) < 1 := by
      rw [div_lt_one hW]
      have e : (hi - lo) * (100001 / 100000 : K) ^ 2 =
        (hi - lo) + (hi - lo) / 100000 + (hi - lo) * (100001 / 10000000000) := by ring
      have : 0 < (hi - lo) * (100001 / 10000000000 : K) := by positivity
      linarith
    calc _ < 1 * (b : K) := by exact (mul_lt_mul_iff_left₀ hb').2 this
      _ = b := one_mul _
  have hw := width_pos hb h
  obtain ⟨c, hc⟩ := Int.eq_ofNat_of_zero_le (Int.floor_nonneg.2 hq0)
  have hf1 : (c : K) ≤ q := by
    have := Int.floor_le q
    rw [hc] at this
    exact_mod_cast this
  have hf2 : q < c + 1 := by
    have := Int.lt_floor_add_one q
    rw [hc] at this
    exact_mod_cast this
  refine ⟨c, ?_, ?_, ?_, ?_⟩
  · rw [cell_eq h, ← hq, hc]
  · have : (c : K) < b := lt_of_le_of_lt hf1 hqb
    exact_mod_cast this
  · have := mul_le_mul_of_nonneg_right hf1 hw.le
    linarith
  · have := mul_lt_mul_of_pos_right hf2 hw
    linarith

/-- C95.  `AssignBox` gives a node within the limits a box of the grid, and the row and the column of
that box are the strips in which the node lies. -/
theorem C95_box (b : ℕ) (hb : 0 < b) (x y xmin xmax ymin ymax : K)
    (hx : xmin < xmax) (hy : ymin < ymax) (hx1 : xmin ≤ x) (hx2 : x ≤ xmax)
    (hy1 : ymin ≤ y) (hy2 : y ≤ ymax) :
    ∃ k : ℕ, AssignBox b x y xmin xmax ymin ymax = some (k : ℤ) ∧ k < b * b ∧
      InStrip b xmin xmax (k % b) x ∧ InStrip b ymin ymax (k / b) y := by
  obtain ⟨c, hc, hcb, hcs⟩ := cell_ok hb hx hx1 hx2
  obtain ⟨r, hr, hrb, hrs⟩ := cell_ok hb hy hy1 hy2
  have e1 : (r * b + c) % b = c := by
    rw [Nat.mul_comm, Nat.mul_add_mod]; exact Nat.mod_eq_of_lt hcb
  have e2 : (r * b + c) / b = r := by
    rw [Nat.mul_comm, Nat.mul_add_div hb, Nat.div_eq_of_lt hcb, Nat.add_zero]
  refine ⟨r * b + c, ?_, ?_, ?_, ?_⟩
  · simp [AssignBox, hc, hr]
  · calc r * b + c < r * b + b := by omega
      _ = (r + 1) * b := by ring
      _ ≤ b * b := Nat.mul_le_mul_right _ hrb
  · rw [e1]; exact hcs
  · rw [e2]; exact hrs

/-- C95 in three dimensions. -/
theorem C95_box_3d (b : ℕ) (hb : 0 < b) (x y z xmin xmax ymin ymax zmin zmax : K)
    (hx : xmin < xmax) (hy : ymin < ymax) (hz : zmin < zmax) (hx1 : xmin ≤ x) (hx2 : x ≤ xmax)
    (hy1 : ymin ≤ y) (hy2 : y ≤ ymax) (hz1 : zmin ≤ z) (hz2 : z ≤ zmax) :
    ∃ k : ℕ, AssignBox3D b x y z xmin xmax ymin ymax zmin zmax = some (k : ℤ) ∧ k < b * b * b ∧
      InStrip b xmin xmax (k % b) x ∧ InStrip b ymin ymax (k / b % b) y ∧
      InStrip b zmin zmax (k / b / b) z := by
  obtain ⟨c, hc, hcb, hcs⟩ := cell_ok hb hx hx1 hx2
  obtain ⟨r, hr, hrb, hrs⟩ := cell_ok hb hy hy1 hy2
  obtain ⟨p, hp, hpb, hps⟩ := cell_ok hb hz hz1 hz2
  have dm : ∀ a d : ℕ, d < b → (a * b + d) % b = d ∧ (a * b + d) / b = a := fun a d hd =>
    ⟨by rw [Nat.mul_comm, Nat.mul_add_mod]; exact Nat.mod_eq_of_lt hd,
     by rw [Nat.mul_comm, Nat.mul_add_div hb, Nat.div_eq_of_lt hd, Nat.add_zero]⟩
  refine ⟨(p * b + r) * b + c, ?_, ?_, ?_, ?_, ?_⟩
  · simp only [AssignBox3D, hc, hr, hp, Option.bind_eq_bind, Option.bind_some]
    push_cast
    congr 1
    ring
  · have h1 : p * b + r < b * b := by
      calc p * b + r < p * b + b := by omega
        _ = (p + 1) * b := by ring
        _ ≤ b * b := Nat.mul_le_mul_right _ hpb
    calc (p * b + r) * b + c < (p * b + r) * b + b := by omega
      _ = (p * b + r + 1) * b := by ring
      _ ≤ b * b * b := Nat.mul_le_mul_right _ h1
  · rw [(dm _ _ hcb).1]; exact hcs
  · rw [(dm _ _ hcb).2, (dm _ _ hrb).1]; exact hrs
  · rw [(dm _ _ hcb).2, (dm _ _ hrb).2]; exact hps

omit [IsStrictOrderedRing K] in
/-- When all nodes have the same abscissa, or the same ordinate, the number of the box is the
conversion of a NaN to `int`. -/
theorem C95_no_extent (b : ℕ) (x y xmin xmax ymin ymax : K) (h : xmin = xmax ∨ ymin = ymax) :
    AssignBox b x y xmin xmax ymin ymax = none := by
  rcases h with rfl | rfl
  · simp [AssignBox, cell]
  · unfold AssignBox
    cases cell b x xmin xmax <;> simp [cell]

end Field

example : AssignBox 4 (1/2 : ℚ) (1/5) 0 1 0 1 = some 1 ∧ AssignBox 4 (1 : ℚ) 1 0 1 0 1 = some 15 ∧
    AssignBox 4 (3/2 : ℚ) 1 0 1 0 1 = some 17 := by
  refine ⟨?_, ?_, ?_⟩ <;> norm_num [AssignBox, cell]

/-- C95: the default number of boxes per row is positive and, unless it is 1, there are at most
`n * n / (10 * links)` boxes; it is undefined for a network without links and for more than 46340
nodes, whose square does not fit in an `int`. -/
theorem C95_per_row (n links : ℕ) :
    (links = 0 ∨ 46340 < n → boxesPerRow n links = none) ∧
    (0 < links → n ≤ 46340 → ∃ b, boxesPerRow n links = some b ∧ 0 < b ∧
      (b = 1 ∨ b * b * (10 * links) ≤ n * n) ∧ n * n < (b + 1) * (b + 1) * (10 * links)) := by
  constructor
  · intro h
    unfold boxesPerRow BFS.i32
    by_cases hn : n * n ≤ 2147483647
    · have hn' : n ≤ 46340 := by by_contra hc; nlinarith [Nat.mul_le_mul (Nat.not_le.1 hc) (Nat.not_le.1 hc)]
      rw [if_pos hn]
      simp [h.resolve_right (by omega)]
    · rw [if_neg hn]; rfl
  · intro hl hn
    unfold boxesPerRow BFS.i32
    have hn' : n * n ≤ 2147483647 := le_trans (Nat.mul_le_mul hn hn) (by norm_num)
    rw [if_pos hn']
    simp only [Option.bind_eq_bind, Option.bind_some]
    rw [if_neg (by omega)]
    refine ⟨_, rfl, by omega, ?_, ?_⟩
    all_goals
      set q : ℝ := ((n * n : ℕ) : ℝ) / (10 * links) with hq
      have hL : (0 : ℝ) < 10 * links := by positivity
      have hq0 : 0 ≤ q := by positivity
      have hs := Real.sqrt_nonneg q
      have hmul : q * (10 * links) = ((n * n : ℕ) : ℝ) := by rw [hq]; field_simp
    · by_cases h1 : ⌊Real.sqrt q⌋₊ ≤ 1
      · exact Or.inl (by omega)
      · right
        rw [max_eq_right (by omega)]
        have hf := Nat.floor_le hs
        have h2 : ((⌊Real.sqrt q⌋₊ : ℝ)) * ⌊Real.sqrt q⌋₊ ≤ q := by
          calc ((⌊Real.sqrt q⌋₊ : ℝ)) * ⌊Real.sqrt q⌋₊ ≤ Real.sqrt q * Real.sqrt q :=
                mul_le_mul hf hf (by positivity) hs
            _ = q := Real.mul_self_sqrt hq0
        have h3 := mul_le_mul_of_nonneg_right h2 hL.le
        rw [hmul] at h3
        exact_mod_cast h3
    · have hf : Real.sqrt q < (max 1 ⌊Real.sqrt q⌋₊ : ℕ) + 1 := by
        refine lt_of_lt_of_le (Nat.lt_floor_add_one (Real.sqrt q)) ?_
        have : ⌊Real.sqrt q⌋₊ ≤ max 1 ⌊Real.sqrt q⌋₊ := le_max_right _ _
        have : ((⌊Real.sqrt q⌋₊ : ℕ) : ℝ) ≤ (max 1 ⌊Real.sqrt q⌋₊ : ℕ) := by exact_mod_cast this
        linarith
      have h2 : q < ((max 1 ⌊Real.sqrt q⌋₊ : ℕ) + 1 : ℝ) * ((max 1 ⌊Real.sqrt q⌋₊ : ℕ) + 1) := by
        calc q = Real.sqrt q * Real.sqrt q := (Real.mul_self_sqrt hq0).symm
          _ < _ := mul_lt_mul'' hf hf hs hs
      have h3 := mul_lt_mul_of_pos_right h2 hL
      rw [hmul] at h3
      exact_mod_cast h3

/-! ### Pairs of boxes -/

/-- The row and the column of two boxes differ by at most one. -/
def Adjacent (b p q : ℕ) : Prop :=
  p / b ≤ q / b + 1 ∧ q / b ≤ p / b + 1 ∧ p % b ≤ q % b + 1 ∧ q % b ≤ p % b + 1

/-- The plane, the row and the column of two boxes differ by at most one. -/
def Adjacent3 (b p q : ℕ) : Prop :=
  p / b / b ≤ q / b / b + 1 ∧ q / b / b ≤ p / b / b + 1 ∧
  p / b % b ≤ q / b % b + 1 ∧ q / b % b ≤ p / b % b + 1 ∧ p % b ≤ q % b + 1 ∧ q % b ≤ p % b + 1

instance (b p q : ℕ) : Decidable (Adjacent b p q) := by unfold Adjacent; infer_instance
instance (b p q : ℕ) : Decidable (Adjacent3 b p q) := by unfold Adjacent3; infer_instance

theorem mem_boxPairs {b : ℕ} {e : ℕ × ℤ} : e ∈ boxPairs b ↔ ∃ row col : ℤ, (row = 0 ∨ row = 1) ∧
    (col = -1 ∨ col = 0 ∨ col = 1) ∧ e.1 < b * b ∧ ¬ skip b e.1 row col ∧
    e.2 = e.1 + row * b + col := by
  obtain ⟨p, q⟩ := e
  simp only [boxPairs, List.mem_flatMap, List.mem_range, List.mem_cons, List.not_mem_nil, or_false]
  constructor
  · rintro ⟨box, hb, row, hr, col, hc, h⟩
    split_ifs at h with hs
    · simp at h
    · simp only [List.mem_singleton, Prod.mk.injEq] at h
      obtain ⟨rfl, rfl⟩ := h
      exact ⟨row, col, hr, hc, hb, hs, rfl⟩
  · rintro ⟨row, col, hr, hc, hb, hs, h⟩
    refine ⟨p, hb, row, hr, col, hc, ?_⟩
    rw [if_neg hs]
    simp only [List.mem_singleton, Prod.mk.injEq]
    exact ⟨trivial, h⟩

theorem divmod (b r c : ℤ) (hc0 : 0 ≤ c) (hcb : c < b) : (r * b + c) / b = r ∧ (r * b + c) % b = c := by
  have hb : b ≠ 0 := by omega
  constructor
  · rw [add_comm, Int.add_mul_ediv_right _ _ hb, Int.ediv_eq_zero_of_lt hc0 hcb, zero_add]
  · rw [add_comm, Int.add_mul_emod_self_right, Int.emod_eq_of_lt hc0 hcb]

/-- The neighbour that is not skipped has the expected row and column. -/
theorem coords_of_not_skip {b p : ℕ} {row col : ℤ} (hp : p < b * b) (hr : row = 0 ∨ row = 1)
    (hc : col = -1 ∨ col = 0 ∨ col = 1) (hs : ¬ skip b p row col) :
    0 ≤ ((p % b : ℕ) : ℤ) + col ∧ ((p % b : ℕ) : ℤ) + col < b ∧ 0 ≤ ((p / b : ℕ) : ℤ) + row ∧
      ((p / b : ℕ) : ℤ) + row < b ∧
      (p : ℤ) + row * b + col = ((p / b : ℕ) + row) * b + ((p % b : ℕ) + col) := by
  have hb : 0 < b := by rcases Nat.eq_zero_or_pos b with rfl | h; · simp at hp
                        · exact h
  have hmod : p % b < b := Nat.mod_lt _ hb
  have hdiv : p / b < b := Nat.div_lt_of_lt_mul hp
  have hpe : (p : ℤ) = ((p / b : ℕ) : ℤ) * b + ((p % b : ℕ) : ℤ) := by
    have := Nat.div_add_mod p b
    rw [Nat.mul_comm] at this
    exact_mod_cast this.symm
  simp only [skip, not_or, not_and, not_lt] at hs
  obtain ⟨h1, h2, h3, h4⟩ := hs
  have e : (p : ℤ) + row * b + col = ((p / b : ℕ) + row) * b + ((p % b : ℕ) + col) := by
    rw [add_mul]; linarith
  have hmod' : ((p % b : ℕ) : ℤ) < b := by exact_mod_cast hmod
  have hdiv' : ((p / b : ℕ) : ℤ) < b := by exact_mod_cast hdiv
  refine ⟨?_, ?_, ?_, ?_, e⟩
  · rcases hc with rfl | rfl | rfl
    · have := h3 rfl; omega
    · omega
    · omega
  · rcases hc with rfl | rfl | rfl
    · omega
    · omega
    · by_contra hcon
      have hce : ((p % b : ℕ) : ℤ) + 1 = b := by omega
      apply h2 rfl
      rw [e, hce]
      have : (((p / b : ℕ) : ℤ) + row) * b + b = b * (((p / b : ℕ) : ℤ) + row + 1) := by ring
      rw [this]
      exact Int.mul_tmod_right _ _
  · have h0 := Int.natCast_nonneg (p / b)
    rcases hr with rfl | rfl
    · rw [add_zero]; exact h0
    · exact Int.add_nonneg h0 (by decide)
  · rcases hr with rfl | rfl
    · omega
    · have := h4 rfl
      push Not at this
      by_contra hcon
      have hce : ((p / b : ℕ) : ℤ) = b - 1 := by omega
      have : (p : ℤ) < (b * b : ℕ) - b := this
      rw [hpe, hce, Nat.cast_mul] at this
      have h0 := Int.natCast_nonneg (p % b)
      nlinarith

/-- C96.  The loops over the boxes and their neighbours visit the pair of `p` and `q` with `p ≤ q`
exactly if both are boxes of the grid and the two are adjacent. -/
theorem C96_pairs (b p : ℕ) (q : ℤ) : (p, q) ∈ boxPairs b ↔
    ∃ k : ℕ, q = k ∧ p ≤ k ∧ k < b * b ∧ Adjacent b p k := by
  rw [mem_boxPairs]
  constructor
  · rintro ⟨row, col, hr, hc, hp, hs, h⟩
    simp only at hr hc hp hs h
    obtain ⟨c0, cb, r0, rb, e⟩ := coords_of_not_skip hp hr hc hs
    have hq0 : (p : ℤ) ≤ q := by
      simp only [skip, not_or, not_lt] at hs; rw [h]; exact hs.1
    obtain ⟨k, rfl⟩ := Int.eq_ofNat_of_zero_le (show 0 ≤ q by omega)
    have hk : (k : ℤ) = ((p / b : ℕ) + row) * b + ((p % b : ℕ) + col) := by rw [← e]; exact h
    obtain ⟨hd, hm⟩ := divmod (b : ℤ) _ _ c0 cb
    rw [← hk] at hd hm
    have hd' : ((k / b : ℕ) : ℤ) = (p / b : ℕ) + row := by rw [← hd]; exact Int.natCast_div _ _
    have hm' : ((k % b : ℕ) : ℤ) = (p % b : ℕ) + col := by rw [← hm]; exact Int.natCast_mod _ _
    refine ⟨k, rfl, by exact_mod_cast hq0, ?_, by omega, by omega, by omega, by omega⟩
    have hkb : k / b < b := by omega
    exact (Nat.div_lt_iff_lt_mul (by omega)).1 hkb
  · rintro ⟨k, rfl, hpk, hkb, a1, a2, a3, a4⟩
    have hb : 0 < b := by
      rcases Nat.eq_zero_or_pos b with rfl | h
      · simp at hkb
      · exact h
    have hle : p / b ≤ k / b := Nat.div_le_div_right hpk
    have hpe : (p : ℤ) = ((p / b : ℕ) : ℤ) * b + ((p % b : ℕ) : ℤ) := by
      have := Nat.div_add_mod p b
      rw [Nat.mul_comm] at this
      exact_mod_cast this.symm
    have hke : (k : ℤ) = ((k / b : ℕ) : ℤ) * b + ((k % b : ℕ) : ℤ) := by
      have := Nat.div_add_mod k b
      rw [Nat.mul_comm] at this
      exact_mod_cast this.symm
    have hkd : k / b < b := Nat.div_lt_of_lt_mul hkb
    have e : (k : ℤ) = p + ((k / b : ℕ) - (p / b : ℕ) : ℤ) * b + ((k % b : ℕ) - (p % b : ℕ) : ℤ) := by
      rw [sub_mul]; linarith
    refine ⟨(k / b : ℕ) - (p / b : ℕ), (k % b : ℕ) - (p % b : ℕ), by omega, by omega, by
      show p < b * b; omega, ?_, e⟩
    simp only [skip, not_or, not_and, not_lt, ← e]
    refine ⟨by exact_mod_cast hpk, ?_, ?_, ?_⟩
    · intro h hmod
      rw [show ((k : ℤ)).tmod b = ((k % b : ℕ) : ℤ) from by
        rw [Int.tmod_eq_emod_of_nonneg (by omega)]; exact (Int.natCast_mod _ _).symm] at hmod
      omega
    · intro h hmod; omega
    · intro h
      have : p / b + 1 < b := by omega
      have h2 : ((p / b : ℕ) : ℤ) + 2 ≤ b := by omega
      have hm : ((p % b : ℕ) : ℤ) < b := by exact_mod_cast Nat.mod_lt p hb
      push Not
      rw [hpe, Nat.cast_mul]
      nlinarith

theorem nodup_boxPairs (b : ℕ) : (boxPairs b).Nodup := by
  unfold boxPairs
  rw [List.nodup_flatMap]
  constructor
  · intro p hp
    rw [List.mem_range] at hp
    rw [List.nodup_flatMap]
    constructor
    · intro row hr
      rw [List.nodup_flatMap]
      constructor
      · intro col _; split_ifs <;> simp
      · simp only [List.pairwise_cons, List.mem_cons, List.not_mem_nil, or_false, false_imp_iff,
          implies_true, List.Pairwise.nil, and_true]
        have key : ∀ c c' : ℤ, c ≠ c' → Function.onFun List.Disjoint
            (fun col => if skip b p row col then [] else [(p, (p : ℤ) + row * b + col)]) c c' := by
          intro c c' hne
          simp only [Function.onFun]
          split_ifs <;> simp [List.Disjoint]
          omega
        refine ⟨?_, ?_⟩
        · rintro c (rfl | rfl) <;> exact key _ _ (by decide)
        · rintro c rfl; exact key _ _ (by decide)
    · simp only [List.pairwise_cons, List.mem_cons, List.not_mem_nil, or_false, false_imp_iff,
          implies_true, List.Pairwise.nil, and_true]
      rintro row rfl
      simp only [Function.onFun, List.Disjoint]
      intro e h1 h2
      simp only [List.mem_flatMap, List.mem_cons, List.not_mem_nil, or_false] at h1 h2
      obtain ⟨c1, hc1, h1⟩ := h1
      obtain ⟨c2, hc2, h2⟩ := h2
      split_ifs at h1 with s1
      · simp at h1
      split_ifs at h2 with s2
      · simp at h2
      simp only [List.mem_singleton] at h1 h2
      obtain ⟨a1, a2, -, -, a5⟩ := coords_of_not_skip hp (Or.inl rfl) hc1 s1
      obtain ⟨b1, b2, -, -, b5⟩ := coords_of_not_skip hp (Or.inr rfl) hc2 s2
      have d1 := (divmod _ (((p / b : ℕ) : ℤ) + 0) _ a1 a2).1
      have d2 := (divmod _ (((p / b : ℕ) : ℤ) + 1) _ b1 b2).1
      rw [← a5] at d1
      rw [← b5] at d2
      have : (p : ℤ) + 0 * b + c1 = p + 1 * b + c2 := by
        have := h1.symm.trans h2
        exact (Prod.mk.inj this).2
      rw [this, d2] at d1
      omega
  · refine List.Pairwise.imp_of_mem (R := fun a c => a ≠ c) ?_ List.nodup_range
    intro p p' _ _ hne
    simp only [Function.onFun, List.Disjoint]
    intro e h1 h2
    have f : ∀ {p : ℕ}, e ∈ ([0, 1].flatMap fun row => [-1, 0, 1].flatMap fun col =>
        if skip b p row col then [] else [(p, (p : ℤ) + row * b + col)]) → e.1 = p := by
      intro p h
      simp only [List.mem_flatMap] at h
      obtain ⟨_, _, _, _, h⟩ := h
      split_ifs at h
      · simp at h
      · simp at h; rw [h]
    exact hne ((f h1).symm.trans (f h2))

/-- C96: no pair of boxes is visited twice. -/
theorem C96_once (b : ℕ) : (boxPairs b).Nodup := nodup_boxPairs b

example : boxPairs 2 = [(0, 0), (0, 1), (0, 2), (0, 3), (1, 1), (1, 2), (1, 3), (2, 2), (2, 3), (3, 3)]
    := by decide +kernel

/-! ### Three dimensions -/

theorem mem_boxPairsOf {nb b : ℕ} {e : ℕ × ℤ} : e ∈ boxPairsOf nb b ↔ ∃ row col pla : ℤ,
    (row = -1 ∨ row = 0 ∨ row = 1) ∧ (col = -1 ∨ col = 0 ∨ col = 1) ∧
    (pla = -1 ∨ pla = 0 ∨ pla = 1) ∧ e.1 < nb ∧ ¬ skip3 nb b e.1 row col pla ∧
    e.2 = e.1 + pla * b * b + row * b + col := by
  obtain ⟨p, q⟩ := e
  simp only [boxPairsOf, List.mem_flatMap, List.mem_range, List.mem_cons, List.not_mem_nil, or_false]
  constructor
  · rintro ⟨box, hb, row, hr, col, hc, pla, hpl, h⟩
    split_ifs at h with hs
    · simp at h
    · simp only [List.mem_singleton, Prod.mk.injEq] at h
      obtain ⟨rfl, rfl⟩ := h
      exact ⟨row, col, pla, hr, hc, hpl, hb, hs, rfl⟩
  · rintro ⟨row, col, pla, hr, hc, hpl, hb, hs, h⟩
    refine ⟨p, hb, row, hr, col, hc, pla, hpl, ?_⟩
    rw [if_neg hs]
    simp only [List.mem_singleton, Prod.mk.injEq]
    exact ⟨trivial, h⟩

/-- The digits of `p` in base `b`. -/
theorem digits (b p : ℕ) : (p : ℤ) =
    (((p / b / b : ℕ) : ℤ) * b + ((p / b % b : ℕ) : ℤ)) * b + ((p % b : ℕ) : ℤ) := by
  have h1 := Nat.div_add_mod p b
  have h2 := Nat.div_add_mod (p / b) b
  have : p = ((p / b / b) * b + p / b % b) * b + p % b := by
    rw [Nat.mul_comm (p / b / b), h2, Nat.mul_comm (p / b), h1]
  exact_mod_cast this

theorem digits_lt (b p : ℕ) (h : p < b * b * b) : p / b / b < b ∧ p / b % b < b ∧ p % b < b := by
  have hb : 0 < b := by rcases Nat.eq_zero_or_pos b with rfl | h'; · simp at h
                        · exact h'
  refine ⟨?_, Nat.mod_lt _ hb, Nat.mod_lt _ hb⟩
  rw [Nat.div_div_eq_div_mul]
  apply Nat.div_lt_of_lt_mul
  exact h

theorem tmod_nat (k m : ℕ) : ((k : ℤ)).tmod m = ((k % m : ℕ) : ℤ) := by
  rw [Int.tmod_eq_emod_of_nonneg (by omega)]; exact (Int.natCast_mod _ _).symm

theorem mod_sq (b k : ℕ) : k % (b * b) = k / b % b * b + k % b := by
  rw [Nat.mod_mul, Nat.add_comm, Nat.mul_comm]

theorem mod_sq_lt (b k : ℕ) (hb : 0 < b) : k % (b * b) < b ↔ k / b % b = 0 := by
  rw [mod_sq]
  have := Nat.mod_lt k hb
  constructor
  · intro h
    by_contra h0
    have : 1 * b ≤ k / b % b * b := Nat.mul_le_mul_right _ (by omega)
    omega
  · intro h; rw [h]; omega

theorem coords3_of_not_skip {b p : ℕ} {row col pla : ℤ} (hp : p < b * b * b)
    (hr : row = -1 ∨ row = 0 ∨ row = 1) (hc : col = -1 ∨ col = 0 ∨ col = 1)
    (hpl : pla = -1 ∨ pla = 0 ∨ pla = 1) (hs : ¬ skip3 (b * b * b) b p row col pla) :
    0 ≤ ((p % b : ℕ) : ℤ) + col ∧ ((p % b : ℕ) : ℤ) + col < b ∧
    0 ≤ ((p / b % b : ℕ) : ℤ) + row ∧ ((p / b % b : ℕ) : ℤ) + row < b ∧
    0 ≤ ((p / b / b : ℕ) : ℤ) + pla ∧ ((p / b / b : ℕ) : ℤ) + pla < b ∧
    (p : ℤ) + pla * b * b + row * b + col =
      (((p / b / b : ℕ) + pla) * b + ((p / b % b : ℕ) + row)) * b + ((p % b : ℕ) + col) := by
  obtain ⟨hd3, hd2, hd1⟩ := digits_lt b p hp
  have hb : 0 < b := by omega
  have hpe := digits b p
  simp only [skip3, not_or, not_and, not_lt] at hs
  obtain ⟨h1, h2, h3, h4, h5, h6, h7⟩ := hs
  have e : (p : ℤ) + pla * b * b + row * b + col =
      (((p / b / b : ℕ) + pla) * b + ((p / b % b : ℕ) + row)) * b + ((p % b : ℕ) + col) := by
    have : (((p / b / b : ℕ) + pla : ℤ) * b + ((p / b % b : ℕ) + row)) * b + ((p % b : ℕ) + col) =
      ((((p / b / b : ℕ) : ℤ) * b + ((p / b % b : ℕ) : ℤ)) * b + ((p % b : ℕ) : ℤ)) +
        pla * b * b + row * b + col := by ring
    rw [this, ← hpe]
  have hd1' : ((p % b : ℕ) : ℤ) < b := by exact_mod_cast hd1
  have hd2' : ((p / b % b : ℕ) : ℤ) < b := by exact_mod_cast hd2
  have hd3' : ((p / b / b : ℕ) : ℤ) < b := by exact_mod_cast hd3
  have c0 : 0 ≤ ((p % b : ℕ) : ℤ) + col := by
    rcases hc with rfl | rfl | rfl
    · have := h3 rfl; omega
    · omega
    · omega
  have cb : ((p % b : ℕ) : ℤ) + col < b := by
    rcases hc with rfl | rfl | rfl
    · omega
    · omega
    · by_contra hcon
      have hce : ((p % b : ℕ) : ℤ) + 1 = b := by omega
      apply h2 rfl
      rw [e, hce]
      have : ((((p / b / b : ℕ) : ℤ) + pla) * b + (((p / b % b : ℕ) : ℤ) + row)) * b + b =
        b * ((((p / b / b : ℕ) : ℤ) + pla) * b + (((p / b % b : ℕ) : ℤ) + row) + 1) := by ring
      rw [this]
      exact Int.mul_tmod_right _ _
  refine ⟨c0, cb, ?_, ?_, ?_, ?_, e⟩
  · rcases hr with rfl | rfl | rfl
    · have := h5 rfl
      have := mt (mod_sq_lt b p hb).2 (by omega)
      have := Nat.pos_of_ne_zero this
      generalize p / b % b = z at *
      omega
    · have := Int.natCast_nonneg (p / b % b); omega
    · have := Int.natCast_nonneg (p / b % b); omega
  · rcases hr with rfl | rfl | rfl
    · omega
    · omega
    · by_contra hcon
      have hce : ((p / b % b : ℕ) : ℤ) + 1 = b := by omega
      have := h4 rfl
      rw [Int.tmod_eq_emod_of_nonneg (by omega), e, hce] at this
      have e2 : ((((p / b / b : ℕ) : ℤ) + pla) * b + b) * b + (((p % b : ℕ) : ℤ) + col) =
        (((p / b / b : ℕ) : ℤ) + pla + 1) * (b * b) + (((p % b : ℕ) : ℤ) + col) := by ring
      have hbb : (b : ℤ) ≤ b * b := by
        have : (1 : ℤ) ≤ b := by omega
        nlinarith
      rw [e2, (divmod _ _ _ c0 (by omega)).2] at this
      omega
  · rcases hpl with rfl | rfl | rfl
    · have h := h7 rfl
      have : p / b / b ≠ 0 := by
        rw [Nat.div_div_eq_div_mul]
        intro h0
        rcases Nat.div_eq_zero_iff.1 h0 with h0 | h0
        · have := Nat.mul_pos hb hb; omega
        · omega
      have := Nat.pos_of_ne_zero this
      generalize p / b / b = z at *
      omega
    · have := Int.natCast_nonneg (p / b / b); omega
    · have := Int.natCast_nonneg (p / b / b); omega
  · rcases hpl with rfl | rfl | rfl
    · omega
    · omega
    · have h := h6 rfl
      push Not at h
      by_contra hcon
      have hce : ((p / b / b : ℕ) : ℤ) = b - 1 := by omega
      rw [hpe, hce, Nat.cast_mul, Nat.cast_mul] at h
      have n1 := Int.natCast_nonneg (p / b % b)
      have n2 := Int.natCast_nonneg (p % b)
      have n3 : (0 : ℤ) ≤ ((p / b % b : ℕ) : ℤ) * b := mul_nonneg n1 (Int.natCast_nonneg b)
      nlinarith

theorem digits_of_eq {b k : ℕ} {s r c : ℤ} (c0 : 0 ≤ c) (cb : c < b) (r0 : 0 ≤ r) (rb : r < b)
    (h : (k : ℤ) = (s * b + r) * b + c) :
    ((k % b : ℕ) : ℤ) = c ∧ ((k / b % b : ℕ) : ℤ) = r ∧ ((k / b / b : ℕ) : ℤ) = s := by
  obtain ⟨hd, hm⟩ := divmod (b : ℤ) (s * b + r) c c0 cb
  rw [← h] at hd hm
  obtain ⟨hd2, hm2⟩ := divmod (b : ℤ) s r r0 rb
  have hd' : ((k / b : ℕ) : ℤ) = s * b + r := by rw [← hd]; exact Int.natCast_div _ _
  refine ⟨?_, ?_, ?_⟩
  · rw [← hm]; exact Int.natCast_mod _ _
  · rw [Int.natCast_mod, hd', hm2]
  · rw [Int.natCast_div, hd', hd2]

theorem digits_le {b p k : ℕ} (h : p ≤ k) : p / b / b ≤ k / b / b :=
  Nat.div_le_div_right (Nat.div_le_div_right h)

/-- C96 for `CalculateNodeForces3D`. -/
theorem C96_pairs_3d (b p : ℕ) (q : ℤ) : (p, q) ∈ boxPairs3D b ↔
    ∃ k : ℕ, q = k ∧ p ≤ k ∧ k < b * b * b ∧ Adjacent3 b p k := by
  unfold boxPairs3D
  rw [mem_boxPairsOf]
  constructor
  · rintro ⟨row, col, pla, hr, hc, hpl, hp, hs, h⟩
    simp only at hr hc hpl hp hs h
    obtain ⟨c0, cb, r0, rb, s0, sb, e⟩ := coords3_of_not_skip hp hr hc hpl hs
    have hq0 : (p : ℤ) ≤ q := by
      simp only [skip3, not_or, not_lt] at hs; rw [h]; exact hs.1
    obtain ⟨k, rfl⟩ := Int.eq_ofNat_of_zero_le (show 0 ≤ q by omega)
    obtain ⟨e1, e2, e3⟩ := digits_of_eq (k := k) c0 cb r0 rb (by rw [← e]; exact h)
    refine ⟨k, rfl, by exact_mod_cast hq0, ?_, ?_⟩
    · have hkb : k / b / b < b := by
        rw [← e3] at sb; exact_mod_cast sb
      rw [Nat.div_div_eq_div_mul] at hkb
      have hb : 0 < b := by omega
      have := (Nat.div_lt_iff_lt_mul (Nat.mul_pos hb hb)).1 hkb
      rwa [← Nat.mul_assoc] at this
    · unfold Adjacent3
      generalize p / b / b = p3 at *
      generalize k / b / b = k3 at *
      generalize p / b % b = p2 at *
      generalize k / b % b = k2 at *
      generalize p % b = p1 at *
      generalize k % b = k1 at *
      omega
  · rintro ⟨k, rfl, hpk, hkb, a1, a2, a3, a4, a5, a6⟩
    obtain ⟨kd3, kd2, kd1⟩ := digits_lt b k hkb
    have hp : p < b * b * b := by omega
    obtain ⟨pd3, pd2, pd1⟩ := digits_lt b p hp
    have hb : 0 < b := by omega
    have hle := digits_le (b := b) hpk
    have e : (k : ℤ) = p + ((k / b / b : ℕ) - (p / b / b : ℕ) : ℤ) * b * b +
        ((k / b % b : ℕ) - (p / b % b : ℕ) : ℤ) * b + ((k % b : ℕ) - (p % b : ℕ) : ℤ) := by
      have h1 := digits b p
      have h2 := digits b k
      linarith [h1, h2, show ((k / b / b : ℕ) - (p / b / b : ℕ) : ℤ) * b * b +
        ((k / b % b : ℕ) - (p / b % b : ℕ) : ℤ) * b + ((k % b : ℕ) - (p % b : ℕ) : ℤ) =
        ((((k / b / b : ℕ) : ℤ) * b + ((k / b % b : ℕ) : ℤ)) * b + ((k % b : ℕ) : ℤ)) -
        ((((p / b / b : ℕ) : ℤ) * b + ((p / b % b : ℕ) : ℤ)) * b + ((p % b : ℕ) : ℤ)) by ring]
    refine ⟨(k / b % b : ℕ) - (p / b % b : ℕ), (k % b : ℕ) - (p % b : ℕ),
      (k / b / b : ℕ) - (p / b / b : ℕ), ?_, ?_, ?_, hp, ?_, e⟩
    · generalize p / b % b = p2 at *
      generalize k / b % b = k2 at *
      omega
    · generalize p % b = p1 at *
      generalize k % b = k1 at *
      omega
    · generalize p / b / b = p3 at *
      generalize k / b / b = k3 at *
      omega
    simp only [skip3, not_or, not_and, not_lt, ← e]
    refine ⟨by exact_mod_cast hpk, ?_, ?_, ?_, ?_, ?_, ?_⟩
    · intro h hmod
      rw [tmod_nat] at hmod
      generalize p % b = p1 at *
      generalize k % b = k1 at *
      omega
    · intro h
      generalize p % b = p1 at *
      generalize k % b = k1 at *
      omega
    · intro h
      rw [← Nat.cast_mul, tmod_nat]
      have := mt (mod_sq_lt b k hb).1 (by
        generalize p / b % b = p2 at *
        generalize k / b % b = k2 at *
        omega)
      omega
    · intro h
      have := mt (mod_sq_lt b p hb).1 (by
        generalize p / b % b = p2 at *
        generalize k / b % b = k2 at *
        omega)
      omega
    · intro h
      push Not
      rw [digits b p, Nat.cast_mul, Nat.cast_mul]
      have h3 : ((p / b / b : ℕ) : ℤ) + 2 ≤ b := by
        generalize p / b / b = p3 at *
        generalize k / b / b = k3 at *
        omega
      have h2 : ((p / b % b : ℕ) : ℤ) + 1 ≤ b := by exact_mod_cast pd2
      have h1 : ((p % b : ℕ) : ℤ) + 1 ≤ b := by exact_mod_cast pd1
      generalize ((p / b / b : ℕ) : ℤ) = p3 at *
      generalize ((p / b % b : ℕ) : ℤ) = p2 at *
      generalize ((p % b : ℕ) : ℤ) = p1 at *
      have hb' : (0 : ℤ) < b := by exact_mod_cast hb
      have m1 : (p3 * b + p2) + 1 ≤ (p3 + 1) * b := by linarith
      have m2 := mul_le_mul_of_nonneg_right m1 hb'.le
      have m3 := mul_le_mul_of_nonneg_right h3 (mul_pos hb' hb').le
      nlinarith
    · intro h
      have hp3 : p / b / b = k / b / b + 1 := by
        generalize p / b / b = p3 at *
        generalize k / b / b = k3 at *
        omega
      omega

/-- C96 for `CalculateNodeForces3D`: no pair of boxes is visited twice. -/
theorem C96_once_3d (b : ℕ) : (boxPairs3D b).Nodup := by
  unfold boxPairs3D boxPairsOf
  -- the box, the row, the column and the plane of a visit are determined by the pair
  have key : ∀ p row col pla row' col' pla', p < b * b * b →
      (row = -1 ∨ row = 0 ∨ row = 1) → (col = -1 ∨ col = 0 ∨ col = 1) →
      (pla = -1 ∨ pla = 0 ∨ pla = (1 : ℤ)) → (row' = -1 ∨ row' = 0 ∨ row' = 1) →
      (col' = -1 ∨ col' = 0 ∨ col' = 1) → (pla' = -1 ∨ pla' = 0 ∨ pla' = (1 : ℤ)) →
      ∀ e, e ∈ (if skip3 (b * b * b) b p row col pla then []
        else [(p, (p : ℤ) + pla * b * b + row * b + col)]) →
      e ∈ (if skip3 (b * b * b) b p row' col' pla' then []
        else [(p, (p : ℤ) + pla' * b * b + row' * b + col')]) →
      row = row' ∧ col = col' ∧ pla = pla' := by
    intro p row col pla row' col' pla' hp hr hc hpl hr' hc' hpl' e h1 h2
    split_ifs at h1 with s1
    · simp at h1
    split_ifs at h2 with s2
    · simp at h2
    simp only [List.mem_singleton] at h1 h2
    obtain ⟨c0, cb, r0, rb, s0, sb, e1⟩ := coords3_of_not_skip hp hr hc hpl s1
    obtain ⟨c0', cb', r0', rb', s0', sb', e2⟩ := coords3_of_not_skip hp hr' hc' hpl' s2
    have hee : (p : ℤ) + pla * b * b + row * b + col = p + pla' * b * b + row' * b + col' :=
      (Prod.mk.inj (h1.symm.trans h2)).2
    have hpos : (0 : ℤ) ≤ p + pla * b * b + row * b + col := by
      have : (p : ℤ) ≤ p + pla * b * b + row * b + col := by
        simp only [skip3, not_or, not_lt] at s1; exact s1.1
      omega
    obtain ⟨k, hk⟩ := Int.eq_ofNat_of_zero_le hpos
    obtain ⟨a1, a2, a3⟩ := digits_of_eq (k := k) c0 cb r0 rb (by rw [← e1]; exact hk.symm)
    obtain ⟨b1, b2, b3⟩ := digits_of_eq (k := k) c0' cb' r0' rb' (by rw [← e2, ← hee]; exact hk.symm)
    refine ⟨?_, ?_, ?_⟩ <;> linarith
  have three : ([-1, 0, 1] : List ℤ).Pairwise (· ≠ ·) := by decide
  rw [List.nodup_flatMap]
  constructor
  · intro p hp
    rw [List.mem_range] at hp
    rw [List.nodup_flatMap]
    constructor
    · intro row hr
      rw [List.nodup_flatMap]
      constructor
      · intro col hc
        rw [List.nodup_flatMap]
        constructor
        · intro pla _; split_ifs <;> simp
        · refine List.Pairwise.imp_of_mem ?_ three
          intro pla pla' h h' hne
          simp only [Function.onFun, List.Disjoint]
          intro e h1 h2
          simp only [List.mem_cons, List.not_mem_nil, or_false] at hr hc h h'
          exact hne (key p row col pla row col pla' hp hr hc h hr hc h' e h1 h2).2.2
      · refine List.Pairwise.imp_of_mem ?_ three
        intro col col' h h' hne
        simp only [Function.onFun, List.Disjoint]
        intro e h1 h2
        simp only [List.mem_flatMap] at h1 h2
        obtain ⟨pla, hpl, h1⟩ := h1
        obtain ⟨pla', hpl', h2⟩ := h2
        simp only [List.mem_cons, List.not_mem_nil, or_false] at hr hpl hpl' h h'
        exact hne (key p row col pla row col' pla' hp hr h hpl hr h' hpl' e h1 h2).2.1
    · refine List.Pairwise.imp_of_mem ?_ three
      intro row row' h h' hne
      simp only [Function.onFun, List.Disjoint]
      intro e h1 h2
      simp only [List.mem_flatMap] at h1 h2
      obtain ⟨col, hc, pla, hpl, h1⟩ := h1
      obtain ⟨col', hc', pla', hpl', h2⟩ := h2
      simp only [List.mem_cons, List.not_mem_nil, or_false] at hc hc' hpl hpl' h h'
      exact hne (key p row col pla row' col' pla' hp h hc hpl h' hc' hpl' e h1 h2).1
  · refine List.Pairwise.imp_of_mem (R := fun a c => a ≠ c) ?_ List.nodup_range
    intro p p' _ _ hne
    simp only [Function.onFun, List.Disjoint]
    intro e h1 h2
    have f : ∀ {p : ℕ}, e ∈ ([-1, 0, 1].flatMap fun row => [-1, 0, 1].flatMap fun col =>
        [-1, 0, 1].flatMap fun pla => if skip3 (b * b * b) b p row col pla then []
          else [(p, (p : ℤ) + pla * b * b + row * b + col)]) → e.1 = p := by
      intro p h
      simp only [List.mem_flatMap] at h
      obtain ⟨_, _, _, _, _, _, h⟩ := h
      split_ifs at h
      · simp at h
      · simp at h; rw [h]
    exact hne ((f h1).symm.trans (f h2))

theorem skip3_plane (nb nb' b p : ℕ) (row col : ℤ) :
    skip3 nb b p row col 0 ↔ skip3 nb' b p row col 0 := by
  simp [skip3]

/-- C104, the full statement: the loops of `PotentialEnergy3D` visit every pair of adjacent boxes. -/
def C104_claim : Prop := ∀ b p k : ℕ, p ≤ k → k < b * b * b → Adjacent3 b p k →
  (p, (k : ℤ)) ∈ boxPairsEnergy3D b

/-- C104, the part that holds: of the pairs of adjacent boxes they visit those within the first
plane of the grid. -/
theorem C104_first_plane_partial (b p : ℕ) (q : ℤ) : (p, q) ∈ boxPairsEnergy3D b ↔
    ∃ k : ℕ, q = k ∧ p ≤ k ∧ k < b * b ∧ Adjacent3 b p k := by
  have lt3 : ∀ k, k < b * b → k < b * b * b := by
    intro k hk
    have hb : 0 < b := by
      rcases Nat.eq_zero_or_pos b with h0 | h0
      · simp [h0] at hk
      · exact h0
    calc k < b * b * 1 := by rw [Nat.mul_one]; exact hk
      _ ≤ b * b * b := Nat.mul_le_mul_left _ hb
  have plane0 : ∀ k, k < b * b → k / b / b = 0 := by
    intro k hk
    rw [Nat.div_div_eq_div_mul]; exact Nat.div_eq_of_lt hk
  constructor
  · intro h
    unfold boxPairsEnergy3D at h
    rw [mem_boxPairsOf] at h
    obtain ⟨row, col, pla, hr, hc, hpl, hp, hs, h⟩ := h
    simp only at hp hs h
    have hpla : pla = 0 := by
      rcases hpl with rfl | rfl | rfl
      · exact absurd (Or.inr (Or.inr (Or.inr (Or.inr (Or.inr (Or.inr ⟨rfl, hp⟩)))))) hs
      · rfl
      · refine absurd (Or.inr (Or.inr (Or.inr (Or.inr (Or.inr (Or.inl ⟨rfl, ?_⟩)))))) hs
        push_cast
        omega
    subst hpla
    have hs' := mt (skip3_plane (b * b) (b * b * b) b p row col).2 hs
    obtain ⟨k, rfl, h1, h2, h3⟩ := (C96_pairs_3d b p q).1 (by
      unfold boxPairs3D
      exact mem_boxPairsOf.2 ⟨row, col, 0, hr, hc, hpl, lt3 p hp, hs', h⟩)
    refine ⟨k, rfl, h1, ?_, h3⟩
    obtain ⟨c0, cb, r0, rb, -, -, e1⟩ := coords3_of_not_skip (lt3 p hp) hr hc hpl hs'
    have := (digits_of_eq (k := k) c0 cb r0 rb (by rw [← e1]; exact h)).2.2
    rw [plane0 p hp, add_zero, Nat.div_div_eq_div_mul] at this
    have h0 : k / (b * b) = 0 := by exact_mod_cast this
    rcases Nat.div_eq_zero_iff.1 h0 with h0 | h0
    · rw [h0] at h2; omega
    · exact h0
  · rintro ⟨k, rfl, h1, h2, h3⟩
    have := (C96_pairs_3d b p k).2 ⟨k, rfl, h1, lt3 k h2, h3⟩
    unfold boxPairs3D at this
    rw [mem_boxPairsOf] at this
    obtain ⟨row, col, pla, hr, hc, hpl, hp, hs, h⟩ := this
    simp only at hp hs h
    obtain ⟨c0, cb, r0, rb, -, -, e1⟩ := coords3_of_not_skip hp hr hc hpl hs
    have := (digits_of_eq (k := k) c0 cb r0 rb (by rw [← e1]; exact h)).2.2
    rw [plane0 p (by omega), plane0 k h2] at this
    have hpla : pla = 0 := by simpa using this.symm
    subst hpla
    exact mem_boxPairsOf.2 ⟨row, col, 0, hr, hc, hpl, by show p < b * b; omega,
      mt (skip3_plane (b * b) (b * b * b) b p row col).1 hs, h⟩

example : boxPairsEnergy3D 2 = boxPairs 2 ∧ (boxPairs3D 2).length = 36 ∧ ((7 : ℕ), (7 : ℤ)) ∈ boxPairs3D 2 := by decide +kernel

theorem C104_refuted : ¬ C104_claim := by
  intro h
  obtain ⟨k, hk, -, h1, -⟩ := (C104_first_plane_partial 2 7 7).1 (h 2 7 7 (by decide) (by decide) (by decide))
  omega

end LY
