import Verif.Block.Score
import Mathlib.Analysis.Complex.ExponentialBounds

/-! # The tables and what the kernels compute -/

set_option linter.unusedSimpArgs false

namespace BK

open GP hiding St
open RG LS Finset

/-! ## Harmonic numbers -/

theorem harm_succ (k : ℕ) : harm (k + 1) = harm k + 1 / ((k : ℚ) + 1) := by
  unfold harm; rw [sum_range_succ]

theorem harm_lt {a b : ℕ} (h : a < b) : harm a < harm b := by
  induction b with
  | zero => omega
  | succ b ih =>
    rw [harm_succ]
    have h1 : (0 : ℚ) < 1 / ((b : ℚ) + 1) := by positivity
    rcases Nat.lt_succ_iff_lt_or_eq.1 h with h2 | h2
    · have := ih h2; linarith
    · subst h2; linarith

theorem init_eq : ∀ k : ℕ, InitializeHarmonicList (k + 1) = (List.range (k + 1)).map harm
  | 0 => by simp [InitializeHarmonicList, harm]
  | k + 1 => by
    have ih := init_eq k
    unfold InitializeHarmonicList at ih ⊢
    rw [show k + 1 + 1 - 1 = (k + 1 - 1) + 1 by omega, List.range'_concat, List.foldl_append, ih, List.foldl_cons,
      List.foldl_nil, List.range_succ (n := k + 1), List.map_append]
    congr 1
    have : ((List.range (k + 1)).map harm).getLastD 0 = harm k := by
      rw [List.range_succ, List.map_append]; simp
    rw [this]
    simp only [List.map_cons, List.map_nil, harm_succ]
    simp [add_comm]

/-- Reading the table of harmonic numbers. -/
theorem read_eq {size : ℕ} (hs : 0 < size) (i : Int) : readTable (InitializeHarmonicList size) i =
    if 0 ≤ i ∧ i < size then some (harm i.toNat) else none := by
  obtain ⟨k, rfl⟩ : ∃ k, size = k + 1 := ⟨size - 1, by omega⟩
  rw [init_eq]
  unfold readTable
  by_cases h : 0 ≤ i
  · rw [if_pos h]
    by_cases h2 : i < (k + 1 : ℕ)
    · rw [if_pos ⟨h, h2⟩, List.getElem?_map, List.getElem?_range (by omega)]; rfl
    · rw [if_neg (by tauto), List.getElem?_eq_none]
      simp; omega
  · rw [if_neg h, if_neg (by tauto)]

theorem read_some {size : ℕ} {i : Int} (h0 : 0 ≤ i) (h : i < size) :
    readTable (InitializeHarmonicList size) i = some (harm i.toNat) := by
  rw [read_eq (by omega), if_pos ⟨h0, h⟩]

/-! ## The terms as functions -/

/-- `log (r + 1) + log (r choose l)`. -/
noncomputable def odF (r l : Int) : ℝ := Real.log ((r : ℝ) + 1) + Real.log ((r.toNat.choose l.toNat : ℕ) : ℝ)

/-- Term of the AND model. -/
noncomputable def andF (r l : Int) : ℝ :=
  odF r l - Real.log ((harm (r + 1).toNat : ℝ) - harm l.toNat)

/-- Term of the OR model. -/
noncomputable def orF (r l : Int) : ℝ :=
  odF r l - Real.log ((harm (r + 1).toNat : ℝ) - harm (r - l).toNat)

/-- Score of the AND model. -/
noncomputable def andS (r l : Int) : ℝ :=
  ((l : ℝ) + 1) * ((harm (r + 2).toNat : ℝ) - harm (l + 1).toNat) /
    (((r : ℝ) + 2) * ((harm (r + 1).toNat : ℝ) - harm l.toNat))

/-- Score of the OR model (probability of no link). -/
noncomputable def orS (r l : Int) : ℝ := andS r (r - l)

/-- `LogDegeneracy` of a number of groups. -/
noncomputable def logDeg (k : ℕ) : ℝ := (LogDegeneracy k).getD 0

theorem odF_zero : odF 0 0 = 0 := by simp [odF]

theorem andF_zero : andF 0 0 = 0 := by
  unfold andF
  rw [odF_zero]
  norm_num [harm]

theorem orF_zero : orF 0 0 = 0 := by
  unfold orF
  rw [odF_zero]
  norm_num [harm]

theorem table_length : LOGDEGENERACY.length = 150 := by decide +kernel

theorem table_mono : ∀ i < 149, LOGDEGENERACY.getD i 0 ≤ LOGDEGENERACY.getD (i + 1) 0 := by decide +kernel

theorem table_last : LOGDEGENERACY.getD 149 0 = 87585084200000000 := by decide +kernel

theorem table_first : LOGDEGENERACY.getD 0 0 = 0 := by decide +kernel

attribute [local irreducible] LOGDEGENERACY

theorem logDeg_defined (k : ℕ) : LogDegeneracy k = some (logDeg k) := by
  unfold logDeg LogDegeneracy
  rw [if_neg (by omega)]
  by_cases h : (k : Int) < 150
  · rw [if_pos h, List.getElem?_eq_getElem (by rw [table_length]; omega)]
    rfl
  · rw [if_neg h]; rfl

theorem lterm_od {r l : Int} (h0 : 0 ≤ l) (h1 : l ≤ r) : lterm r l = some (odF r l) := by
  unfold lterm odF
  rw [if_pos ⟨h0, h1⟩]

/-- The table is long enough for the energies of `n` nodes. -/
def LongE (n size : ℕ) : Prop := n * (n - 1) / 2 + 1 < size

/-- The table is long enough for the scores of `n` nodes. -/
def LongS (n size : ℕ) : Prop := n * (n - 1) / 2 + 2 < size

theorem half_int (n : ℕ) (r : Int) (h : 2 * r ≤ n * ((n : Int) - 1)) : r ≤ (n * (n - 1) / 2 : ℕ) := by
  rcases Nat.eq_zero_or_pos n with h0 | h0
  · subst h0; simp at h ⊢; omega
  · have e : ((n * (n - 1) : ℕ) : Int) = n * ((n : Int) - 1) := by
      push_cast [Nat.cast_sub h0]; ring
    omega

theorem and_deg (tab : List ℚ) : (AND tab).deg = LogDegeneracy := by unfold AND; with_reducible rfl

theorem or_deg (tab : List ℚ) : (OR tab).deg = LogDegeneracy := by unfold OR; with_reducible rfl

theorem od_deg : OD.deg = LogDegeneracy := by unfold OD; with_reducible rfl

theorem and_computes {n size : ℕ} (h : LongE n size) : Computes (AND (InitializeHarmonicList size)) n andF logDeg where
  term := by
    intro r l h0 h1 h2
    have h3 := half_int n r h2
    unfold LongE at h
    change andTerm _ r l = _
    unfold andTerm andF
    rw [lterm_od h0 h1, read_some (by omega) (by omega), read_some h0 (by omega)]
    rfl
  zero := andF_zero
  deg := by rw [and_deg]; exact logDeg_defined

theorem or_computes {n size : ℕ} (h : LongE n size) : Computes (OR (InitializeHarmonicList size)) n orF logDeg where
  term := by
    intro r l h0 h1 h2
    have h3 := half_int n r h2
    unfold LongE at h
    change orTerm _ r l = _
    unfold orTerm orF
    rw [lterm_od h0 h1, read_some (by omega) (by omega), read_some (by omega) (by omega)]
    rfl
  zero := orF_zero
  deg := by rw [or_deg]; exact logDeg_defined

theorem od_computes (n : ℕ) : Computes OD n odF logDeg where
  term := fun _ _ h0 h1 _ => lterm_od h0 h1
  zero := odF_zero
  deg := by rw [od_deg]; exact logDeg_defined

/-! ## Scores -/

theorem harm_shift (l : ℕ) : ∀ k : ℕ, harm (l + k + 2) - harm (l + 1) ≤ harm (l + k + 1) - harm l
  | 0 => by
    rw [harm_succ (l + 1), harm_succ l]
    have : 1 / (((l + 1 : ℕ) : ℚ) + 1) ≤ 1 / ((l : ℚ) + 1) := by
      apply one_div_le_one_div_of_le <;> push_cast <;> linarith [(Nat.cast_nonneg l : (0 : ℚ) ≤ l)]
    linarith
  | k + 1 => by
    have ih := harm_shift l k
    have e1 := harm_succ (l + k + 2)
    have e2 := harm_succ (l + k + 1)
    rw [show l + (k + 1) + 2 = (l + k + 2) + 1 by ring, show l + (k + 1) + 1 = (l + k + 1) + 1 by ring]
    have : 1 / (((l + k + 2 : ℕ) : ℚ) + 1) ≤ 1 / (((l + k + 1 : ℕ) : ℚ) + 1) := by
      apply one_div_le_one_div_of_le
      · positivity
      · push_cast; linarith
    linarith

theorem andS_bounds {r l : Int} (h0 : 0 ≤ l) (h1 : l ≤ r) : 0 < andS r l ∧ andS r l < 1 := by
  obtain ⟨a, rfl⟩ := Int.eq_ofNat_of_zero_le h0
  obtain ⟨k, rfl⟩ : ∃ k : ℕ, r = ((a + k : ℕ) : Int) := ⟨(r - a).toNat, by push_cast; omega⟩
  unfold andS
  have e1 : (((a + k : ℕ) : Int) + 2).toNat = a + k + 2 := by omega
  have e2 : (((a + k : ℕ) : Int) + 1).toNat = a + k + 1 := by omega
  have e3 : ((a : Int) + 1).toNat = a + 1 := by omega
  rw [e1, e2, e3, Int.toNat_natCast]
  have p1 : (0 : ℝ) < (harm (a + k + 2) : ℝ) - harm (a + 1) := by
    have := harm_lt (show a + 1 < a + k + 2 by omega)
    have : (harm (a + 1) : ℝ) < harm (a + k + 2) := by exact_mod_cast this
    linarith
  have p2 : (0 : ℝ) < (harm (a + k + 1) : ℝ) - harm a := by
    have := harm_lt (show a < a + k + 1 by omega)
    have : (harm a : ℝ) < harm (a + k + 1) := by exact_mod_cast this
    linarith
  have p3 : (harm (a + k + 2) : ℝ) - harm (a + 1) ≤ (harm (a + k + 1) : ℝ) - harm a := by
    exact_mod_cast harm_shift a k
  push_cast
  have q1 : (0 : ℝ) < (a : ℝ) + 1 := by positivity
  have q2 : (a : ℝ) + 1 < (a : ℝ) + k + 2 := by linarith [(Nat.cast_nonneg k : (0 : ℝ) ≤ k)]
  refine ⟨by positivity, ?_⟩
  rw [div_lt_one (by positivity)]
  calc ((a : ℝ) + 1) * ((harm (a + k + 2) : ℝ) - harm (a + 1))
      < ((a : ℝ) + k + 2) * ((harm (a + k + 2) : ℝ) - harm (a + 1)) := mul_lt_mul_of_pos_right q2 p1
    _ ≤ ((a : ℝ) + k + 2) * ((harm (a + k + 1) : ℝ) - harm a) := mul_le_mul_of_nonneg_left p3 (by positivity)

theorem and_scores {n size : ℕ} (h : LongS n size) : Scores (AND (InitializeHarmonicList size)) n andS where
  score := by
    intro r l h0 h1 h2
    have h3 := half_int n r h2
    unfold LongS at h
    change andScore _ r l = _
    unfold andScore andS
    rw [read_some (by omega) (by omega), read_some (by omega) (by omega), read_some (by omega) (by omega),
      read_some h0 (by omega)]
    rfl
  bounds := fun _ _ h0 h1 => andS_bounds h0 h1

theorem or_scores {n size : ℕ} (h : LongS n size) : Scores (OR (InitializeHarmonicList size)) n orS where
  score := by
    intro r l h0 h1 h2
    have h3 := half_int n r h2
    unfold LongS at h
    change orScore _ r l = _
    unfold orScore orS andS
    rw [read_some (by omega) (by omega), read_some (by omega) (by omega), read_some (by omega) (by omega),
      read_some (by omega) (by omega)]
    simp
  bounds := fun _ _ h0 h1 => andS_bounds (by omega) (by omega)

/-- Score of src/only_deg.c. -/
noncomputable def odS (r l : Int) : ℝ := ((l : ℝ) + 1) / ((r : ℝ) + 2)

theorem od_scores (n : ℕ) : Scores OD n odS where
  score := fun _ _ _ _ _ => rfl
  bounds := by
    intro r l h0 h1
    unfold odS
    have a : (0 : ℝ) ≤ l := by exact_mod_cast h0
    have b : (l : ℝ) ≤ r := by exact_mod_cast h1
    exact ⟨div_pos (by linarith) (by linarith), (div_lt_one (by linarith)).2 (by linarith)⟩

/-! ## `LogDegeneracy` -/

theorem logDeg_small {k : ℕ} (h : k < 150) : logDeg k = (LOGDEGENERACY.getD k 0 : ℝ) / 10 ^ 14 := by
  unfold logDeg LogDegeneracy
  rw [if_neg (by omega), if_pos (by omega), Int.toNat_natCast, List.getElem?_eq_getElem (by rw [table_length]; exact h),
    List.getD_eq_getElem?_getD, List.getElem?_eq_getElem (by rw [table_length]; exact h)]
  rfl

theorem logDeg_large {k : ℕ} (h : 150 ≤ k) : logDeg k = 14681 / 10000 * k * (Real.log k - 1) := by
  unfold logDeg LogDegeneracy
  rw [if_neg (by omega), if_neg (by omega)]
  rfl

theorem log150 : (5 - 1 / 500 : ℝ) < Real.log 150 := by
  have h2 := Real.log_two_gt_d9
  have e : (150 : ℝ) = 2 ^ 7 * (75 / 64) := by norm_num
  rw [e, Real.log_mul (by norm_num) (by norm_num), Real.log_pow]
  have := Real.one_sub_inv_le_log_of_pos (show (0 : ℝ) < 75 / 64 by norm_num)
  norm_num at this ⊢
  linarith

theorem logDeg_succ (k : ℕ) : logDeg k ≤ logDeg (k + 1) := by
  rcases Nat.lt_trichotomy k 149 with h | h | h
  · rw [logDeg_small (by omega), logDeg_small (by omega)]
    have := table_mono k h
    have : (LOGDEGENERACY.getD k 0 : ℝ) ≤ (LOGDEGENERACY.getD (k + 1) 0 : ℝ) := by exact_mod_cast this
    exact div_le_div_of_nonneg_right this (by positivity)
  · subst h
    rw [logDeg_small (by omega), logDeg_large (by omega)]
    rw [table_last]
    have := log150
    push_cast
    norm_num
    nlinarith
  · rw [logDeg_large (by omega), logDeg_large (by omega)]
    have hk : (150 : ℝ) ≤ k := by exact_mod_cast h
    have h1 : Real.log k ≤ Real.log ((k + 1 : ℕ) : ℝ) := Real.log_le_log (by linarith) (by push_cast; linarith)
    have h2 : Real.log 150 ≤ Real.log k := Real.log_le_log (by norm_num) hk
    have := log150
    push_cast at h1 ⊢
    nlinarith

theorem logDeg_mono : Monotone logDeg := monotone_nat_of_le_succ logDeg_succ

theorem logDeg_nonneg (k : ℕ) : 0 ≤ logDeg k := by
  have h := logDeg_mono (Nat.zero_le k)
  have e : logDeg 0 = 0 := by
    rw [logDeg_small (by omega), table_first]
    simp
  linarith

end BK
