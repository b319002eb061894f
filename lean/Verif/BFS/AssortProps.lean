import Verif.BFS.Assort
import Mathlib.Tactic.Positivity
import Mathlib.Tactic.GCongr
import Mathlib.Tactic.LinearCombination

/-!
# C76, C77: assortativity, degrees of neighbours, common neighbours
-/

set_option linter.unusedSimpArgs false

namespace BFS

variable {adj : ℕ → List ℕ} {n : ℕ}

theorem cov_eq {α : Type} {s : Finset α} (hs : s.card ≠ 0) (f g : α → ℝ) :
    cov s f g = (∑ x ∈ s, f x * g x) / s.card - mean s f * mean s g := by
  have hN : (s.card : ℝ) ≠ 0 := by exact_mod_cast hs
  unfold cov mean
  generalize hF : ∑ x ∈ s, f x = F
  generalize hG : ∑ x ∈ s, g x = G
  have : ∑ x ∈ s, (f x - F / s.card) * (g x - G / s.card) =
      (∑ x ∈ s, f x * g x) - F * G / s.card := by
    have h1 : ∀ x ∈ s, (f x - F / s.card) * (g x - G / s.card) =
        f x * g x - f x * (G / s.card) - (F / s.card) * g x + F / s.card * (G / s.card) := by
      intro x _; ring
    rw [Finset.sum_congr rfl h1, Finset.sum_add_distrib, Finset.sum_sub_distrib,
      Finset.sum_sub_distrib, ← Finset.sum_mul, ← Finset.mul_sum, Finset.sum_const, hF, hG,
      nsmul_eq_mul]
    field_simp
    ring
  rw [this]
  field_simp

theorem cov_self_nonneg {α : Type} (s : Finset α) (f : α → ℝ) : 0 ≤ cov s f f :=
  div_nonneg (Finset.sum_nonneg fun _ _ => mul_self_nonneg _) (Nat.cast_nonneg _)

/-- When both functions have the same mean and variance, the covariance is at most the variance. -/
theorem cov_le {α : Type} (s : Finset α) (f g : α → ℝ) (h : cov s g g = cov s f f) :
    |cov s f g| ≤ cov s f f := by
  have key : ∀ σ : ℝ, σ * σ = 1 → σ * cov s f g ≤ cov s f f := by
    intro σ hσ
    have h1 : 2 * (σ * cov s f g) ≤ cov s f f + cov s g g := by
      unfold cov
      generalize mean s f = a
      generalize mean s g = b
      unfold mean
      rw [← add_div, ← Finset.sum_add_distrib, mul_div_assoc', mul_div_assoc', Finset.mul_sum,
        Finset.mul_sum]
      apply div_le_div_of_nonneg_right _ (Nat.cast_nonneg _)
      apply Finset.sum_le_sum
      intro x _
      have : (g x - b) * (g x - b) = (σ * (g x - b)) * (σ * (g x - b)) := by
        linear_combination (-(g x - b) * (g x - b)) * hσ
      rw [this]
      nlinarith [mul_self_nonneg ((f x - a) - σ * (g x - b))]
    rw [h] at h1
    linarith
  rw [abs_le]
  constructor
  · have := key (-1) (by norm_num); linarith
  · have := key 1 (by norm_num); linarith

theorem cov_self_zero {α : Type} {s : Finset α} {f : α → ℝ} (hs : s.card ≠ 0) :
    cov s f f = 0 ↔ ∀ x ∈ s, f x = mean s f := by
  have hN : (0 : ℝ) < s.card := by exact_mod_cast Nat.pos_of_ne_zero hs
  have e : cov s f f = (∑ x ∈ s, (f x - mean s f) * (f x - mean s f)) / s.card := rfl
  rw [e, div_eq_zero_iff, or_iff_left hN.ne', Finset.sum_eq_zero_iff_of_nonneg fun _ _ => mul_self_nonneg _]
  refine forall₂_congr fun x _ => ?_
  rw [mul_self_eq_zero, sub_eq_zero]

/-- Degree at the two ends. -/
noncomputable def deg (adj : ℕ → List ℕ) (p : ℕ) : ℝ := (adj p).length

theorem mean_swap (h : Undirected adj n) :
    mean (linkPairs adj n) (fun x => deg adj x.2) = mean (linkPairs adj n) fun x => deg adj x.1 := by
  unfold mean
  rw [← swap_sum h]
  rfl

theorem cov_swap (h : Undirected adj n) :
    cov (linkPairs adj n) (fun x => deg adj x.2) (fun x => deg adj x.2) =
      cov (linkPairs adj n) (fun x => deg adj x.1) fun x => deg adj x.1 := by
  unfold cov
  rw [mean_swap h]
  generalize mean (linkPairs adj n) (fun x => deg adj x.1) = m
  unfold mean
  rw [← swap_sum h]
  rfl

theorem j2_eq (h : Undirected adj n) :
    (AS.total adj (listed adj (List.range n))).j2pk2 = 2 * ∑ p ∈ Finset.range n, (adj p).length ^ 3 := by
  unfold AS.total
  simp only
  rw [listed_sum h (fun x => (adj x.1).length * (adj x.1).length + (adj x.2).length * (adj x.2).length),
    Finset.sum_add_distrib, ← swap_sum h fun x => (adj x.2).length * (adj x.2).length]
  simp only [Prod.snd_swap]
  have := first_sum (R := ℕ) h fun p => (adj p).length * (adj p).length
  rw [this, ← two_mul]
  congr 1
  apply Finset.sum_congr rfl
  intro p _
  simp only [Nat.cast_id]
  ring

theorem m_eq (h : Undirected adj n) :
    ((List.range n).map fun p => (adj p).length).sum = (linkPairs adj n).card := by
  have := first_sum (R := ℕ) h fun _ => 1
  simp only [Finset.sum_const, smul_eq_mul, mul_one, Nat.cast_id] at this
  rw [this, ← List.sum_toFinset _ List.nodup_range, List.toFinset_range]

theorem assort_run (h : Undirected adj n) :
    Assortativity adj n =
      if 2 * ∑ p ∈ Finset.range n, (adj p).length ^ 3 ≤ 2147483647 then
        let a := AS.total adj (listed adj (List.range n))
        let M := (linkPairs adj n).card
        let m : ℚ := (a.jpk : ℚ) / (2 * M : ℕ)
        let den : ℚ := (a.j2pk2 : ℚ) / (2 * M : ℕ) - m * m
        some (if M = 0 ∨ den = 0 then none else some (((a.jk : ℚ) / M - m * m) / den))
      else none := by
  unfold Assortativity
  rw [addAll_eq _ _ (by omega), Nat.zero_add, m_eq h,
    assortNodes_eq _ _ (by simp [AS.Fine]) (by simp)]
  have e0 : (AS.plus ⟨0, 0, 0⟩ (AS.total adj (listed adj (List.range n)))) =
      AS.total adj (listed adj (List.range n)) := by simp [AS.plus]
  rw [e0]
  have hM : 2 * (linkPairs adj n).card ≤ 2 * ∑ p ∈ Finset.range n, (adj p).length ^ 3 := by
    have := first_sum (R := ℕ) h fun _ => 1
    simp only [Finset.sum_const, smul_eq_mul, mul_one, Nat.cast_id] at this
    rw [this]
    refine Nat.mul_le_mul_left _ (Finset.sum_le_sum fun p _ => ?_)
    exact Nat.le_self_pow (by norm_num) _
  unfold AS.cap
  rw [j2_eq h]
  by_cases hc : 2 * ∑ p ∈ Finset.range n, (adj p).length ^ 3 ≤ 2147483647
  · rw [if_pos hc, if_pos hc, i32_some (by omega)]
    simp only [Option.bind_eq_bind, Option.bind_some]
    rw [i32_some (by omega)]
    simp only [Option.bind_some, j2_eq h]
    rfl
  · rw [if_neg hc, if_neg hc]
    by_cases hm : (linkPairs adj n).card ≤ 2147483647
    · rw [i32_some hm]; rfl
    · rw [i32_none hm]; rfl

/-- **C76**: for an undirected network whose degrees have `2 Σ k³ ≤ INT_MAX`, `Assortativity` is
Pearson's correlation coefficient between the degrees at the two ends of a link, a number from -1 to 1;
it is 0/0 exactly when the ends of all links have the same degree (or there is no link). -/
theorem C76_pearson (h : Undirected adj n)
    (hc : 2 * ∑ p ∈ Finset.range n, (adj p).length ^ 3 ≤ 2147483647) :
    ∃ r, Assortativity adj n = some r ∧
      (r = none ↔ ∃ c, ∀ x ∈ linkPairs adj n, (adj x.1).length = c) ∧
      ∀ x, r = some x → -1 ≤ x ∧ x ≤ 1 ∧
        (x : ℝ) = pearson (linkPairs adj n) (fun y => ((adj y.1).length : ℝ)) fun y => (adj y.2).length := by
  rw [assort_run h, if_pos hc]
  refine ⟨_, rfl, ?_⟩
  set L := linkPairs adj n with hL
  by_cases hM : L.card = 0
  · have hL0 : L = ∅ := Finset.card_eq_zero.1 hM
    simp only [hM, true_or, if_true]
    refine ⟨⟨fun _ => ⟨0, by simp [hL0]⟩, fun _ => trivial⟩, by simp⟩
  · have hN : (L.card : ℝ) ≠ 0 := by exact_mod_cast hM
    set a := AS.total adj (listed adj (List.range n)) with ha
    set f : ℕ × ℕ → ℝ := fun x => deg adj x.1 with hf
    set g : ℕ × ℕ → ℝ := fun x => deg adj x.2 with hg
    -- the sums
    have h1 : (a.jk : ℝ) = ∑ x ∈ L, f x * g x := by
      have : a.jk = ∑ x ∈ L, (adj x.1).length * (adj x.2).length :=
        listed_sum h fun x => (adj x.1).length * (adj x.2).length
      rw [this]; push_cast; rfl
    have h2 : (a.jpk : ℝ) = 2 * ∑ x ∈ L, f x := by
      have : a.jpk = ∑ x ∈ L, ((adj x.1).length + (adj x.2).length) :=
        listed_sum h fun x => (adj x.1).length + (adj x.2).length
      rw [this, Finset.sum_add_distrib, ← swap_sum h fun x => (adj x.2).length]
      push_cast [Prod.snd_swap]; rw [two_mul]; rfl
    have h3 : (a.j2pk2 : ℝ) = 2 * ∑ x ∈ L, f x * f x := by
      have : a.j2pk2 = ∑ x ∈ L, ((adj x.1).length * (adj x.1).length +
          (adj x.2).length * (adj x.2).length) :=
        listed_sum h fun x => (adj x.1).length * (adj x.1).length + (adj x.2).length * (adj x.2).length
      rw [this, Finset.sum_add_distrib, ← swap_sum h fun x => (adj x.2).length * (adj x.2).length]
      push_cast [Prod.snd_swap]; rw [two_mul]; rfl
    have hm : (a.jpk : ℝ) / (2 * L.card : ℕ) = mean L f := by
      rw [h2]; unfold mean; push_cast; field_simp
    have hmg : mean L g = mean L f := mean_swap h
    have hvg : cov L g g = cov L f f := cov_swap h
    have hden : (a.j2pk2 : ℝ) / (2 * L.card : ℕ) - mean L f * mean L f = cov L f f := by
      rw [cov_eq hM, h3]; push_cast; field_simp
    have hnum : (a.jk : ℝ) / L.card - mean L f * mean L f = cov L f g := by
      rw [cov_eq hM, h1, hmg]
    set den : ℚ := (a.j2pk2 : ℚ) / (2 * L.card : ℕ) -
      (a.jpk : ℚ) / (2 * L.card : ℕ) * ((a.jpk : ℚ) / (2 * L.card : ℕ)) with hd
    have hdenR : (den : ℝ) = cov L f f := by
      rw [← hden, ← hm, hd]; push_cast; rfl
    have hnumR : (((a.jk : ℚ) / L.card - (a.jpk : ℚ) / (2 * L.card : ℕ) *
        ((a.jpk : ℚ) / (2 * L.card : ℕ)) : ℚ) : ℝ) = cov L f g := by
      rw [← hnum, ← hm]; push_cast; rfl
    have hz : den = 0 ↔ ∃ c, ∀ x ∈ L, (adj x.1).length = c := by
      have h0 : den = 0 ↔ cov L f f = 0 := by rw [← hdenR]; exact_mod_cast Iff.rfl
      rw [h0, cov_self_zero hM]
      constructor
      · intro hall
        obtain ⟨y, hy⟩ := Finset.card_pos.1 (Nat.pos_of_ne_zero hM)
        refine ⟨(adj y.1).length, fun x hx => ?_⟩
        have : f x = f y := (hall x hx).trans (hall y hy).symm
        simpa [hf, deg] using this
      · rintro ⟨c, hall⟩ x hx
        have hfc : ∀ x ∈ L, f x = c := fun x hx => by simp [hf, deg, hall x hx]
        rw [hfc x hx]
        unfold mean
        rw [Finset.sum_congr rfl hfc, Finset.sum_const, nsmul_eq_mul]
        field_simp
    simp only [hM, false_or]
    refine ⟨?_, ?_⟩
    · rw [← hz]
      by_cases hd0 : den = 0
      · simp [hd0]
      · simp [hd0]
    · intro x hx
      by_cases hd0 : den = 0
      · simp [hd0] at hx
      · simp only [hd0, if_false, Option.some.injEq] at hx
        have hpos : 0 < cov L f f := by
          refine lt_of_le_of_ne (cov_self_nonneg _ _) ?_
          rw [← hdenR]; exact fun e => hd0 (by exact_mod_cast e.symm)
        have hxR : (x : ℝ) = cov L f g / cov L f f := by
          rw [← hx, Rat.cast_div, hdenR, hnumR]
        have hab := abs_le.1 (cov_le L f g hvg)
        have hb : -1 ≤ (x : ℝ) ∧ (x : ℝ) ≤ 1 := by
          rw [hxR]
          exact ⟨by rw [le_div_iff₀ hpos]; linarith [hab.1], by rw [div_le_one hpos]; exact hab.2⟩
        refine ⟨by exact_mod_cast hb.1, by exact_mod_cast hb.2, ?_⟩
        rw [hxR]
        show _ = pearson L f g
        unfold pearson
        rw [hvg, Real.mul_self_sqrt hpos.le]

/-- **C76**: beyond that bound an `int` overflows. -/
theorem C76_overflow (h : Undirected adj n)
    (hc : 2147483647 < 2 * ∑ p ∈ Finset.range n, (adj p).length ^ 3) : Assortativity adj n = none := by
  rw [assort_run h, if_neg (by omega)]

/-- **C76**: in particular with a node of 1024 neighbours or more. -/
theorem C76_hub (h : Undirected adj n) {p : ℕ} (hp : p < n) (hk : 1024 ≤ (adj p).length) :
    Assortativity adj n = none := by
  apply C76_overflow h
  have h1 : 1024 ^ 3 ≤ (adj p).length ^ 3 := Nat.pow_le_pow_left hk 3
  have h2 : (adj p).length ^ 3 ≤ ∑ p ∈ Finset.range n, (adj p).length ^ 3 :=
    Finset.single_le_sum (f := fun p => (adj p).length ^ 3) (fun _ _ => Nat.zero_le _)
      (Finset.mem_range.2 hp)
  omega

/-! ## Degrees of the neighbours -/

theorem row_sum_nbr (hnd : ∀ i, (adj i).Nodup) (p : ℕ) (f : ℕ → ℕ) :
    ((adj p).map f).sum = ∑ q ∈ nbr adj p, f q := by
  rw [nbr, List.sum_toFinset _ (hnd p)]

/-- **C77**: `CalculateKnn` is the mean degree of the neighbours (0/0 for a node without neighbours),
as long as the sum of these degrees fits an `int`. -/
theorem C77_knn (hnd : ∀ i, (adj i).Nodup) (p : ℕ)
    (hc : ∑ q ∈ nbr adj p, (adj q).length ≤ 2147483647) :
    (adj p ≠ [] → CalculateKnn adj p =
      some (some ((∑ q ∈ nbr adj p, ((adj q).length : ℚ)) / (nbr adj p).card))) ∧
    (adj p = [] → CalculateKnn adj p = some none) := by
  unfold CalculateKnn
  rw [addAll_eq _ _ (by omega), Nat.zero_add, row_sum_nbr hnd p fun q => (adj q).length, i32_some hc]
  have hk : (nbr adj p).card = (adj p).length := List.toFinset_card_of_nodup (hnd p)
  constructor
  · intro hne
    have : (adj p).length ≠ 0 := by simpa using hne
    simp [this, hk]
  · intro he
    simp [he]

/-- **C77**: weighted with the degrees, the mean degrees of neighbours of an undirected network add
up to the sum of the squares of the degrees. -/
theorem C77_identity (h : Undirected adj n)
    (hc : ∀ p < n, ∑ q ∈ nbr adj p, (adj q).length ≤ 2147483647) {knn : ℕ → ℚ}
    (hk : ∀ p < n, adj p ≠ [] → CalculateKnn adj p = some (some (knn p))) :
    ∑ p ∈ Finset.range n, ((adj p).length : ℚ) * knn p =
      ∑ p ∈ Finset.range n, ((adj p).length : ℚ) ^ 2 := by
  have h1 : ∀ p ∈ Finset.range n, ((adj p).length : ℚ) * knn p =
      ((adj p).map fun q => ((adj q).length : ℚ)).sum := by
    intro p hp
    have hp' := Finset.mem_range.1 hp
    by_cases hne : adj p = []
    · simp [hne]
    · have := (C77_knn h.nodup p (hc p hp')).1 hne
      rw [hk p hp' hne] at this
      simp only [Option.some.injEq] at this
      have hcard : (nbr adj p).card = (adj p).length := List.toFinset_card_of_nodup (h.nodup p)
      have hl : ((adj p).length : ℚ) ≠ 0 := by simpa using hne
      rw [this, hcard, mul_div_cancel₀ _ hl, nbr, List.sum_toFinset _ (h.nodup p)]
  rw [Finset.sum_congr rfl h1]
  have h2 : ∑ p ∈ Finset.range n, ((adj p).map fun q => ((adj q).length : ℚ)).sum =
      ((listed adj (List.range n)).map fun x => ((adj x.2).length : ℚ)).sum := by
    have : ∀ l : List ℕ, (l.map fun p => ((adj p).map fun q => ((adj q).length : ℚ)).sum).sum =
        ((listed adj l).map fun x => ((adj x.2).length : ℚ)).sum := by
      intro l
      induction l with
      | nil => rfl
      | cons p l ih =>
        simp only [listed, List.flatMap_cons, List.map_append, List.sum_append, List.map_cons,
          List.sum_cons] at ih ⊢
        rw [ih]
        simp [Function.comp_def]
    rw [← this, ← List.sum_toFinset _ List.nodup_range, List.toFinset_range]
  rw [h2, listed_sum h fun x => ((adj x.2).length : ℚ), ← swap_sum h fun x => ((adj x.2).length : ℚ)]
  have := first_sum (R := ℚ) h fun p => ((adj p).length : ℚ)
  simp only [Prod.snd_swap]
  rw [this]
  exact Finset.sum_congr rfl fun p _ => (sq _).symm

/-- **C77**: `CommonNeighbors` counts the nodes in the lists of both nodes, whatever the order of the
two. -/
theorem C77_common (hsym : Sym adj) (hnd : ∀ i, (adj i).Nodup) (i j : ℕ) :
    CommonNeighbors adj i j = (nbr adj i ∩ nbr adj j).card ∧
      CommonNeighbors adj i j = CommonNeighbors adj j i := by
  have key : ∀ i j, CommonNeighbors adj i j = (nbr adj i ∩ nbr adj j).card := by
    intro i j
    unfold CommonNeighbors
    rw [foldl_add]
    have : ((adj i).map fun v => if j ∈ adj v then 1 else 0).sum =
        ((adj i).filter fun v => j ∈ adj v).length := by
      generalize adj i = l
      induction l with
      | nil => rfl
      | cons a l ih =>
        by_cases hj : j ∈ adj a
        · simp [hj, ih, Nat.add_comm]
        · simp [hj, ih]
    rw [Nat.zero_add, this, ← List.toFinset_card_of_nodup ((hnd i).filter _)]
    congr 1
    ext v
    simp only [List.mem_toFinset, List.mem_filter, decide_eq_true_eq, Finset.mem_inter, nbr]
    exact ⟨fun hv => ⟨hv.1, hsym _ _ hv.2⟩, fun hv => ⟨hv.1, hsym _ _ hv.2⟩⟩
  exact ⟨key i j, by rw [key, key, Finset.inter_comm]⟩

/-! ## Examples -/

theorem tailed_undirected : Undirected tailed 4 :=
  ⟨tailed_simple.range, tailed_simple.sym, tailed_simple.nodup⟩

example : Assortativity tailed 4 = some (some (-5 / 7)) := by decide +kernel
example : ∃ r, Assortativity tailed 4 = some r := by
  obtain ⟨r, hr, _⟩ := C76_pearson tailed_undirected (by decide)
  exact ⟨r, hr⟩
example : CalculateKnn tailed 3 = some (some 3) ∧ CalculateKnn tailed 2 = some (some (5 / 3)) ∧
    CommonNeighbors tailed 0 1 = 1 ∧ CommonNeighbors tailed 3 1 = 1 := by decide +kernel

/-- A star: node 0 linked with 1, …, `m`. -/
def star (m i : ℕ) : List ℕ := if i = 0 then (List.range m).map (· + 1) else if i ≤ m then [0] else []

theorem star_undirected (m : ℕ) : Undirected (star m) (m + 1) where
  range := by
    intro i _ j hj
    unfold star at hj
    split_ifs at hj <;> simp at hj <;> omega
  sym := by
    intro i j hj
    unfold star at hj ⊢
    split_ifs at hj with h1 h2
    · simp at hj
      obtain ⟨a, ha, rfl⟩ := hj
      simp [h1]; omega
    · simp at hj
      subst hj
      simp
      exact ⟨i - 1, by omega, by omega⟩
    · simp at hj
  nodup := by
    intro i
    unfold star
    split_ifs
    · exact List.nodup_range.map (fun a b e => by simpa using e)
    · simp
    · simp

example : Assortativity (star 1024) 1025 = none :=
  C76_hub (star_undirected 1024) (p := 0) (by norm_num) (by simp [star])
example : Assortativity (star 3) 4 = some (some (-1)) := by decide +kernel
example : Assortativity (star 1) 2 = some none := by decide +kernel

end BFS
