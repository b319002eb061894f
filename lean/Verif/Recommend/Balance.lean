import Verif.Recommend.Score
import Verif.Missing.Balance

/-!
# C175: the samplers of the recommenders have the Boltzmann distribution

As C172, for two sets of nodes with one partition each (`MCStep2State`, `MCStepKState`).
-/

namespace RC

open GP hiding St
open RG LS KS Finset MH
open BP (Bi)

variable {b : Bi} {K : ℕ} {pt : (ℕ → Int) → Option ℝ} {T : (ℕ → Int) → ℝ}

/-! ## Specification -/

/-- Energy of a division of both sets. -/
noncomputable def E (T : (ℕ → Int) → ℝ) (b : Bi) (A : Fin b.n1 → Fin b.n1) (B : Fin b.n2 → Fin b.n2) : ℝ :=
  bEnergy T b (lift A) (lift B)

/-- Energy without the terms for the labels. -/
noncomputable def unlabelled (T : (ℕ → Int) → ℝ) (b : Bi) (f1 f2 : ℕ → Option ℕ) : ℝ :=
  ∑ g ∈ Finset.range b.n1, ∑ g' ∈ Finset.range b.n2, T (fun k => cnt b f1 f2 k g g')

/-- Probability of a step from `(A, B)` to `(A', B')`: with probability `r` a Metropolis step in the first set, otherwise
in the second. -/
noncomputable def mixed (T : (ℕ → Int) → ℝ) (b : Bi) (r : ℝ) (A : Fin b.n1 → Fin b.n1) (B : Fin b.n2 → Fin b.n2)
    (A' : Fin b.n1 → Fin b.n1) (B' : Fin b.n2 → Fin b.n2) : ℝ :=
  (if B' = B then r * kernel (fun A => E T b A B) A A' else 0) +
    (if A' = A then (1 - r) * kernel (fun B => E T b A B) B B' else 0)

/-! ## One attempt -/

theorem moveIn_run (h : b.OK) (P : Pot K pt T) {off : ℝ} {s : View} (hs : BInv T b K off s)
    {A : Fin b.n1 → Fin b.n1} (hA : s.part.inGroup = lift A) {v g : Fin b.n1} (hg : g ≠ A v) {u1 u2 u3 : ℚ}
    {bad : List ℚ} {t : Tape} (ht : s.tape = u1 :: (bad ++ u2 :: u3 :: t))
    (h1 : 0 ≤ u1 ∧ u1 < 1) (h2 : 0 ≤ u2 ∧ u2 < 1) (h3 : 0 ≤ u3 ∧ u3 < 1)
    (hv : ⌊u1 * b.n1⌋₊ = v) (hbad : ∀ x ∈ bad, 0 ≤ x ∧ x < 1 ∧ ⌊x * b.n1⌋₊ = A v) (hu2 : ⌊u2 * b.n1⌋₊ = g) {e e' : ℝ}
    (he : e = bEnergy T b (lift A) s.opart.inGroup) (he' : e' = bEnergy T b (lift (Function.update A v g)) s.opart.inGroup) :
    ∃ s', moveIn expAcc pt b K s = .ok s' ∧ BInv T b K off s' ∧ s'.opart.inGroup = s.opart.inGroup ∧
      ((u3 : ℝ) < min 1 (Real.exp (e - e')) → s'.part.inGroup = lift (Function.update A v g)) ∧
      (¬ (u3 : ℝ) < min 1 (Real.exp (e - e')) → s'.part.inGroup = lift A) ∧
      (e' ≤ e → s'.tape = u3 :: t) ∧ (e < e' → s'.tape = t) := by
  have hn : 0 < b.n1 := lt_of_le_of_lt (Nat.zero_le _) v.2
  have hgood := moveIn_inv h P hn expAcc hs
  suffices hh : ∃ s', moveIn expAcc pt b K s = .ok s' ∧ s'.opart.inGroup = s.opart.inGroup ∧
      ((u3 : ℝ) < min 1 (Real.exp (e - e')) → s'.part.inGroup = lift (Function.update A v g)) ∧
      (¬ (u3 : ℝ) < min 1 (Real.exp (e - e')) → s'.part.inGroup = lift A) ∧
      (e' ≤ e → s'.tape = u3 :: t) ∧ (e < e' → s'.tape = t) by
    obtain ⟨s', q, r⟩ := hh
    rw [q] at hgood
    exact ⟨s', q, hgood.1, r⟩
  have hold : s.part.inGroup v = some (A v : ℕ) := by rw [hA, lift_lt]
  have hne : (g : ℕ) ≠ A v := fun e => hg (Fin.ext e)
  have e1 := bDelta_eq h P hs.toBCounts hold g.2 hne
  obtain ⟨hc', hi'⟩ := tent_counts h hs.toBCounts hold g.2 hne
  rw [hA, ← lift_update, ← he, ← he'] at e1
  have hdest : destination b.n1 (A v) (bad ++ u2 :: u3 :: t) = .ok (g, u3 :: t) := by
    unfold destination
    rw [redraw_skip h2.1 h2.2 (by rw [hu2]; simpa using hne)
      (fun x hx => ⟨(hbad x hx).1, (hbad x hx).2.1, by rw [(hbad x hx).2.2]; simp⟩), hu2]
  have key : moveIn expAcc pt b K s = bDecide expAcc b K v (A v) g (tent b K v (A v) g s) (e' - e) (u3 :: t) := by
    unfold moveIn
    rw [ht]
    simp only [pick, draw, if_pos h1, Res.bind_ok, hv, hold, Res.pure_eq]
    rw [hdest]
    simp only [Res.bind_ok]
    rw [e1]
    simp only [Res.ofOption_some, Res.bind_ok]
  rw [key]
  unfold bDecide
  obtain ⟨a, t', m1, m2, m3, m4⟩ := metropolis_run (dH := e' - e) h3 t
  rw [m1]
  rw [neg_sub] at m2
  simp only [Res.bind_ok]
  cases a with
  | true =>
    refine ⟨_, rfl, rfl, fun _ => ?_, fun hc => absurd (m2.1 rfl) hc, fun hc => m3 (by linarith), fun hc => m4 (by linarith)⟩
    dsimp only
    rw [hi', hA, lift_update]
  | false =>
    have hno : ¬ (u3 : ℝ) < min 1 (Real.exp (e - e')) := fun hc => by simpa using m2.2 hc
    refine ⟨_, rfl, rfl, fun hc => absurd hc hno, fun _ => ?_, fun hc => m3 (by linarith), fun hc => m4 (by linarith)⟩
    obtain ⟨-, hu⟩ := untent_counts h hc' (v := v) (new := g) (old := A v) (by rw [hi', Function.update_self]) (A v).2 hne
    change (untent b K v (A v) g (tent b K v (A v) g s)).part.inGroup = _
    rw [hu, hi', Function.update_idem, ← hold, Function.update_eq_self, hA]

/-- **C175**: if the first number is below the ratio of the sets, the attempt is a Metropolis step in the first set: a
node, labels until one is not that of the node, and one more number that is compared with the change of energy. -/
theorem C175_first (h : b.OK) (P : Pot K pt T) {off : ℝ} {s : View} (hs : BInv T b K off s)
    {A : Fin b.n1 → Fin b.n1} {B : Fin b.n2 → Fin b.n2} (hA : s.part.inGroup = lift A) (hB : s.opart.inGroup = lift B)
    {v g : Fin b.n1} (hg : g ≠ A v) {u0 u1 u2 u3 : ℚ} {bad : List ℚ} {t : Tape}
    (ht : s.tape = u0 :: u1 :: (bad ++ u2 :: u3 :: t)) (h0 : 0 ≤ u0 ∧ u0 < 1) (hu0 : u0 < setRatio b)
    (h1 : 0 ≤ u1 ∧ u1 < 1) (h2 : 0 ≤ u2 ∧ u2 < 1) (h3 : 0 ≤ u3 ∧ u3 < 1)
    (hv : ⌊u1 * b.n1⌋₊ = v) (hbad : ∀ x ∈ bad, 0 ≤ x ∧ x < 1 ∧ ⌊x * b.n1⌋₊ = A v) (hu2 : ⌊u2 * b.n1⌋₊ = g) :
    ∃ s', bAttempt expAcc pt b K s = .ok s' ∧ BInv T b K off s' ∧ s'.opart.inGroup = lift B ∧
      ((u3 : ℝ) < min 1 (Real.exp (E T b A B - E T b (Function.update A v g) B)) →
        s'.part.inGroup = lift (Function.update A v g)) ∧
      (¬ (u3 : ℝ) < min 1 (Real.exp (E T b A B - E T b (Function.update A v g) B)) → s'.part.inGroup = lift A) := by
  obtain ⟨s', q1, q2, q3, q4, q5, -⟩ := moveIn_run (s := { s with tape := u1 :: (bad ++ u2 :: u3 :: t) }) h P
    ⟨⟨hs.part, hs.full, hs.opart, hs.ofull, hs.n, hs.ninv, hs.g, hs.ginv, hs.ng, hs.ong⟩, hs.energy⟩ hA hg rfl h1 h2 h3 hv
    hbad hu2 (e := E T b A B) (e' := E T b (Function.update A v g) B) (by dsimp only; rw [hB]; rfl)
    (by dsimp only; rw [hB]; rfl)
  refine ⟨s', ?_, q2, q3.trans hB, q4, q5⟩
  unfold bAttempt
  rw [ht]
  simp only [draw, if_pos h0, Res.bind_ok, if_pos hu0]
  exact q1

/-- **C175**: otherwise it is a Metropolis step in the second set. -/
theorem C175_second (h : b.OK) (P : Pot K pt T) {off : ℝ} {s : View} (hs : BInv T b K off s)
    {A : Fin b.n1 → Fin b.n1} {B : Fin b.n2 → Fin b.n2} (hA : s.part.inGroup = lift A) (hB : s.opart.inGroup = lift B)
    {v g : Fin b.n2} (hg : g ≠ B v) {u0 u1 u2 u3 : ℚ} {bad : List ℚ} {t : Tape}
    (ht : s.tape = u0 :: u1 :: (bad ++ u2 :: u3 :: t)) (h0 : 0 ≤ u0 ∧ u0 < 1) (hu0 : ¬ u0 < setRatio b)
    (h1 : 0 ≤ u1 ∧ u1 < 1) (h2 : 0 ≤ u2 ∧ u2 < 1) (h3 : 0 ≤ u3 ∧ u3 < 1)
    (hv : ⌊u1 * b.n2⌋₊ = v) (hbad : ∀ x ∈ bad, 0 ≤ x ∧ x < 1 ∧ ⌊x * b.n2⌋₊ = B v) (hu2 : ⌊u2 * b.n2⌋₊ = g) :
    ∃ s', bAttempt expAcc pt b K s = .ok s' ∧ BInv T b K off s' ∧ s'.part.inGroup = lift A ∧
      ((u3 : ℝ) < min 1 (Real.exp (E T b A B - E T b A (Function.update B v g))) →
        s'.opart.inGroup = lift (Function.update B v g)) ∧
      (¬ (u3 : ℝ) < min 1 (Real.exp (E T b A B - E T b A (Function.update B v g))) → s'.opart.inGroup = lift B) := by
  have hs0 : BInv T b K off { s with tape := u1 :: (bad ++ u2 :: u3 :: t) } :=
    ⟨⟨hs.part, hs.full, hs.opart, hs.ofull, hs.n, hs.ninv, hs.g, hs.ginv, hs.ng, hs.ong⟩, hs.energy⟩
  obtain ⟨s', q1, q2, q3, q4, q5, -⟩ := moveIn_run (b := b.swap) (s := View.swap { s with tape := u1 :: (bad ++ u2 :: u3 :: t) })
    (swap_ok h) P (inv_swap h hs0) (A := B) (v := v) (g := g) hB hg rfl h1 h2 h3 hv
    hbad hu2 (e := E T b A B) (e' := E T b A (Function.update B v g))
    (by unfold E; rw [← bEnergy_swap h T, ← hA]; rfl) (by unfold E; rw [← bEnergy_swap h T, ← hA]; rfl)
  refine ⟨s'.swap, ?_, ?_, q3.trans hA, q4, q5⟩
  · unfold bAttempt
    rw [ht]
    simp only [draw, if_pos h0, Res.bind_ok, if_neg hu0]
    rw [q1]
    rfl
  · exact inv_swap (swap_ok h) q2

/-! ## Stationarity -/

/-- **C175**: the weights `exp (-energy)` are stationary for every ratio, each part of the step being in detailed
balance. -/
theorem C175_balance (T : (ℕ → Int) → ℝ) (b : Bi) (r : ℝ) :
    (∀ A B A' B', Real.exp (-E T b A B) * mixed T b r A B A' B' = Real.exp (-E T b A' B') * mixed T b r A' B' A B) ∧
    (∀ A' B', ∑ A, ∑ B, Real.exp (-E T b A B) * mixed T b r A B A' B' = Real.exp (-E T b A' B')) ∧
    (2 ≤ b.n1 → 2 ≤ b.n2 → 0 ≤ r → r ≤ 1 → ∀ A B A' B', 0 ≤ mixed T b r A B A' B') := by
  refine ⟨?_, ?_, ?_⟩
  · intro A B A' B'
    unfold mixed
    rw [mul_add, mul_add]
    congr 1
    · by_cases h : B' = B
      · subst h
        rw [if_pos rfl, if_pos rfl, mul_left_comm, mul_left_comm (Real.exp (-E T b A' B'))]
        rw [kernel_rev (fun A => E T b A B') A A']
      · rw [if_neg h, if_neg (Ne.symm h)]; simp
    · by_cases h : A' = A
      · subst h
        rw [if_pos rfl, if_pos rfl, mul_left_comm, mul_left_comm (Real.exp (-E T b A' B'))]
        rw [kernel_rev (fun B => E T b A' B) B B']
      · rw [if_neg h, if_neg (Ne.symm h)]; simp
  · intro A' B'
    unfold mixed
    simp only [mul_add, sum_add_distrib, mul_ite, mul_zero]
    have e1 : ∑ A, ∑ B, (if B' = B then Real.exp (-E T b A B) * (r * kernel (fun A => E T b A B) A A') else 0) =
        r * Real.exp (-E T b A' B') := by
      rw [← stationary (fun A => E T b A B') A', mul_sum]
      apply sum_congr rfl
      intro A _
      rw [sum_ite_eq, if_pos (mem_univ _)]
      ring
    have e2 : ∑ A, ∑ B, (if A' = A then Real.exp (-E T b A B) * ((1 - r) * kernel (fun B => E T b A B) B B') else 0) =
        (1 - r) * Real.exp (-E T b A' B') := by
      rw [sum_comm, ← stationary (fun B => E T b A' B) B', mul_sum]
      apply sum_congr rfl
      intro B _
      rw [sum_ite_eq, if_pos (mem_univ _)]
      ring
    rw [e1, e2]
    ring
  · intro n1 n2 r0 r1 A B A' B'
    unfold mixed
    have k1 := kernel_nonneg n1 (fun A => E T b A B) A A'
    have k2 := kernel_nonneg n2 (fun B => E T b A B) B B'
    have r2 : 0 ≤ 1 - r := by linarith
    split_ifs <;> positivity

theorem mixed_sum (T : (ℕ → Int) → ℝ) (b : Bi) (r : ℝ) (A : Fin b.n1 → Fin b.n1) (B : Fin b.n2 → Fin b.n2) :
    ∑ A', ∑ B', mixed T b r A B A' B' = 1 := by
  unfold mixed
  simp only [sum_add_distrib]
  have e1 : ∑ A', ∑ B', (if B' = B then r * kernel (fun A => E T b A B) A A' else 0) = r := by
    have : ∀ A', ∑ B', (if B' = B then r * kernel (fun A => E T b A B) A A' else 0) = r * kernel (fun A => E T b A B) A A' := by
      intro A'
      rw [sum_ite_eq', if_pos (mem_univ _)]
    rw [sum_congr rfl fun A' _ => this A', ← mul_sum, kernel_sum, mul_one]
  have e2 : ∑ A', ∑ B', (if A' = A then (1 - r) * kernel (fun B => E T b A B) B B' else 0) = 1 - r := by
    rw [sum_comm]
    have : ∀ B', ∑ A', (if A' = A then (1 - r) * kernel (fun B => E T b A B) B B' else 0) =
        (1 - r) * kernel (fun B => E T b A B) B B' := by
      intro B'
      rw [sum_ite_eq', if_pos (mem_univ _)]
    rw [sum_congr rfl fun B' _ => this B', ← mul_sum, kernel_sum, mul_one]
  rw [e1, e2]
  ring

/-- **C175**: with two nodes or more in each set, the ratio of the program is between 0 and 1, and up to a factor no
other weights are stationary. -/
theorem C175_unique (T : (ℕ → Int) → ℝ) (b : Bi) (n1 : 2 ≤ b.n1) (n2 : 2 ≤ b.n2) :
    0 < setRatio b ∧ setRatio b < 1 ∧
    ∀ w : (Fin b.n1 → Fin b.n1) → (Fin b.n2 → Fin b.n2) → ℝ,
      (∀ A' B', ∑ A, ∑ B, w A B * mixed T b (setRatio b) A B A' B' = w A' B') →
      ∃ c, ∀ A B, w A B = c * Real.exp (-E T b A B) := by
  have q1 : (2 : ℚ) ≤ b.n1 := by exact_mod_cast n1
  have q2 : (2 : ℚ) ≤ b.n2 := by exact_mod_cast n2
  have r0 : 0 < setRatio b := by
    unfold setRatio
    apply div_pos <;> nlinarith
  have r1 : setRatio b < 1 := by
    unfold setRatio
    rw [div_lt_one (by nlinarith)]
    nlinarith
  refine ⟨r0, r1, fun w hw => ?_⟩
  have s0 : (0 : ℝ) < setRatio b := by exact_mod_cast r0
  have s1 : ((setRatio b : ℚ) : ℝ) < 1 := by exact_mod_cast r1
  obtain ⟨k1, -, k3⟩ := C175_balance T b (setRatio b)
  have hnn := k3 n1 n2 s0.le s1.le
  have : Nonempty (Fin b.n1) := ⟨⟨0, by omega⟩⟩
  have : Nonempty (Fin b.n2) := ⟨⟨0, by omega⟩⟩
  have hreach : ∀ x y : (Fin b.n1 → Fin b.n1) × (Fin b.n2 → Fin b.n2), Relation.ReflTransGen
      (fun x y => 0 < mixed T b (setRatio b) x.1 x.2 y.1 y.2) x y := by
    rintro ⟨A, B⟩ ⟨A', B'⟩
    have hfst : Relation.ReflTransGen (fun x y : (Fin b.n1 → Fin b.n1) × (Fin b.n2 → Fin b.n2) =>
        0 < mixed T b (setRatio b) x.1 x.2 y.1 y.2) (A, B) (A', B) := by
      refine map_reach (fun A => (A, B)) ?_ (kernel_reach n1 (fun A => E T b A B) A A')
      intro X Y h
      dsimp only
      unfold mixed
      rw [if_pos rfl]
      have p1 : 0 < (setRatio b : ℝ) * kernel (fun A => E T b A B) X Y := mul_pos s0 h
      have p2 : 0 ≤ (if Y = X then (1 - (setRatio b : ℝ)) * kernel (fun B => E T b X B) B B else 0) := by
        split_ifs
        · exact mul_nonneg (by linarith) (kernel_nonneg n2 _ _ _)
        · exact le_refl 0
      linarith
    have hsnd : Relation.ReflTransGen (fun x y : (Fin b.n1 → Fin b.n1) × (Fin b.n2 → Fin b.n2) =>
        0 < mixed T b (setRatio b) x.1 x.2 y.1 y.2) (A', B) (A', B') := by
      refine map_reach (fun B => (A', B)) ?_ (kernel_reach n2 (fun B => E T b A' B) B B')
      intro X Y h
      dsimp only
      unfold mixed
      rw [if_pos rfl]
      have p1 : 0 < (1 - (setRatio b : ℝ)) * kernel (fun B => E T b A' B) X Y := mul_pos (by linarith) h
      have p2 : 0 ≤ (if Y = X then (setRatio b : ℝ) * kernel (fun A => E T b A X) A' A' else 0) := by
        split_ifs
        · exact mul_nonneg s0.le (kernel_nonneg n1 _ _ _)
        · exact le_refl 0
      linarith
    exact hfst.trans hsnd
  obtain ⟨c, hc⟩ := unique_of_reversible (Ω := (Fin b.n1 → Fin b.n1) × (Fin b.n2 → Fin b.n2))
    (fun x y => mixed T b (setRatio b) x.1 x.2 y.1 y.2) (fun x => E T b x.1 x.2) (fun x y => hnn _ _ _ _)
    (fun x => by rw [Fintype.sum_prod_type]; exact mixed_sum T b _ x.1 x.2) (fun x y => k1 _ _ _ _) hreach
    (fun x => w x.1 x.2) (fun y => by rw [Fintype.sum_prod_type]; exact hw y.1 y.2)
  exact ⟨c, fun A B => hc (A, B)⟩

/-! ## Labels -/

theorem blk_relabel {n : ℕ} {A A' : Fin n → Fin n} {σ : Equiv.Perm (Fin n)} (hσ : ∀ v, A' v = σ (A v)) (g : Fin n) :
    blk n (lift A') (σ g) = blk n (lift A) g := block_relabel (net := dots n) hσ g

/-- **C175**: the energy less the terms for the labels does not depend on the labels in either set, and all labellings
of the same groups have together the weight `n1! n2!` times `exp` of minus that energy. -/
theorem C175_labels (T : (ℕ → Int) → ℝ) (b : Bi) (A : Fin b.n1 → Fin b.n1) (B : Fin b.n2 → Fin b.n2) :
    (∀ A' B', SameBlocks A A' → SameBlocks B B' →
      unlabelled T b (lift A') (lift B') = unlabelled T b (lift A) (lift B)) ∧
    ∑ A' ∈ univ.filter (fun A' => SameBlocks A A'), ∑ B' ∈ univ.filter (fun B' => SameBlocks B B'), Real.exp (-E T b A' B') =
      b.n1.factorial * b.n2.factorial * Real.exp (-unlabelled T b (lift A) (lift B)) := by
  have key : ∀ A' B', SameBlocks A A' → SameBlocks B B' →
      unlabelled T b (lift A') (lift B') = unlabelled T b (lift A) (lift B) := by
    intro A' B' hA hB
    obtain ⟨σ, hσ⟩ := hA.perm
    obtain ⟨τ, hτ⟩ := hB.perm
    unfold unlabelled cnt
    simp only [sum_range (n := b.n1), sum_range (n := b.n2)]
    rw [← Equiv.sum_comp σ]
    apply sum_congr rfl
    intro g _
    rw [← Equiv.sum_comp τ]
    apply sum_congr rfl
    intro g' _
    simp only [blk_relabel hσ, blk_relabel hτ]
  refine ⟨key, ?_⟩
  have hu : ∀ {n : ℕ} {A A' : Fin n → Fin n}, SameBlocks A A' → nused n (lift A') = (univ.image A).card := by
    intro n A A' hA
    obtain ⟨σ, hσ⟩ := hA.perm
    exact (used_relabel (net := dots n) hσ).trans (used_image (net := dots n) A)
  have inner : ∀ A', SameBlocks A A' → ∑ B' ∈ univ.filter (fun B' => SameBlocks B B'), Real.exp (-E T b A' B') =
      b.n2.factorial * Real.exp (-(unlabelled T b (lift A) (lift B) - Real.log ((b.n1 - (univ.image A).card).factorial : ℝ))) := by
    intro A' hA
    apply labels_weight (fun B' => E T b A' B') B
    intro B' hB
    rw [← key A' B' hA hB, ← hu hA, ← hu hB]
    unfold E bEnergy unlabelled
    ring
  rw [sum_congr rfl fun A' hA' => inner A' (mem_filter.1 hA').2]
  have outer := labels_weight (fun _ => unlabelled T b (lift A) (lift B) - Real.log ((b.n1 - (univ.image A).card).factorial : ℝ)) A
    (unlabelled T b (lift A) (lift B)) (fun _ _ => rfl)
  rw [← mul_sum, outer]
  ring

/-- The hypotheses of `C175_first` hold for the state with every node in its own group. -/
example : ∃ s : View, BInv T2 movies 2 0 s ∧ ∃ s', bAttempt expAcc pt2 movies 2 s = .ok s' := by
  obtain ⟨H, _, hs⟩ := start2 movies_ok movies_rated [0, 0, 0, 1 / 2, 1 / 2]
  have hs' := (inv2_iff movies_ok movies_rated).1 hs
  have hown : (ownGroups 2).inGroup = lift (id : Fin 2 → Fin 2) := by
    funext v
    rcases v with _ | _ | v
    · rfl
    · rfl
    · simp [ownGroups, lift, AddNodeToGroup, Part.empty, List.range, List.range.loop]
  obtain ⟨s', h5, -⟩ := C175_first movies_ok pot2 hs' (A := id) (B := id) hown hown (v := ⟨0, by decide⟩)
    (g := ⟨1, by decide⟩) (by simp) (u0 := 0) (u1 := 0) (bad := [0]) (u2 := 1 / 2) (u3 := 1 / 2) (t := []) rfl
    (by norm_num) (by norm_num [setRatio, movies]) (by norm_num) (by norm_num) (by norm_num) (by simp) (by simp)
    (by norm_num [movies])
  exact ⟨_, hs', s', h5⟩

end RC
