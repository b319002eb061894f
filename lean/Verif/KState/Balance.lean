import Verif.KState.Score
import Verif.Missing.Balance

/-!
# C174: the sampler of ratings has the Boltzmann distribution

As C172, for `LSMCStepKState`, which makes a move first and takes it back if it is not accepted.
-/

namespace KS

open GP RG LS Finset MH

variable {net : Net} {K : ℕ}

/-! ## Specification -/

/-- Energy of a division. -/
noncomputable def E (net : Net) (K : ℕ) (A : Fin net.n → Fin net.n) : ℝ := energyK net K (lift A)

/-- Energy of a division without the term for the labels. -/
noncomputable def unlabelled (net : Net) (K : ℕ) (f : ℕ → Option ℕ) : ℝ :=
  ∑ g ∈ Finset.range net.n, TK net K f g g +
    ∑ g ∈ Finset.range net.n, ∑ g' ∈ (Finset.range net.n).filter (g < ·), TK net K f g g'

/-! ## One attempt -/

/-- **C174**: one attempt of `LSMCStepKState` draws a node `v`, then labels until one is not that of `v`, then compares
one more number with the change of energy, as in `C172_step`. -/
theorem C174_step (h : net.Simple) (hr : Rated net K) (hK : 0 < K) {off : ℝ} {s : KSt} (hs : KInv net K off s)
    {A : Fin net.n → Fin net.n} (hA : s.part.inGroup = lift A) {v g : Fin net.n} (hg : g ≠ A v) {u1 u2 u3 : ℚ}
    {bad : List ℚ} {t : Tape} (ht : s.tape = u1 :: (bad ++ u2 :: u3 :: t))
    (h1 : 0 ≤ u1 ∧ u1 < 1) (h2 : 0 ≤ u2 ∧ u2 < 1) (h3 : 0 ≤ u3 ∧ u3 < 1)
    (hv : ⌊u1 * net.n⌋₊ = v) (hbad : ∀ b ∈ bad, 0 ≤ b ∧ b < 1 ∧ ⌊b * net.n⌋₊ = A v) (hu2 : ⌊u2 * net.n⌋₊ = g) :
    ∃ s', kAttempt expAcc net K s = .ok s' ∧ KInv net K off s' ∧
      ((u3 : ℝ) < min 1 (Real.exp (E net K A - E net K (Function.update A v g))) →
        s'.part.inGroup = lift (Function.update A v g)) ∧
      (¬ (u3 : ℝ) < min 1 (Real.exp (E net K A - E net K (Function.update A v g))) → s'.part.inGroup = lift A) ∧
      (E net K (Function.update A v g) ≤ E net K A → s'.tape = u3 :: t) ∧
      (E net K A < E net K (Function.update A v g) → s'.tape = t) := by
  have hn : 0 < net.n := lt_of_le_of_lt (Nat.zero_le _) v.2
  have hgood := attempt_inv h hr hK hn expAcc hs
  suffices hh : ∃ s', kAttempt expAcc net K s = .ok s' ∧
      ((u3 : ℝ) < min 1 (Real.exp (E net K A - E net K (Function.update A v g))) →
        s'.part.inGroup = lift (Function.update A v g)) ∧
      (¬ (u3 : ℝ) < min 1 (Real.exp (E net K A - E net K (Function.update A v g))) → s'.part.inGroup = lift A) ∧
      (E net K (Function.update A v g) ≤ E net K A → s'.tape = u3 :: t) ∧
      (E net K A < E net K (Function.update A v g) → s'.tape = t) by
    obtain ⟨s', e, r⟩ := hh
    rw [e] at hgood
    exact ⟨s', e, hgood.1, r⟩
  have hold : s.part.inGroup v = some (A v : ℕ) := by rw [hA, lift_lt]
  have hne : (g : ℕ) ≠ A v := fun e => hg (Fin.ext e)
  have e1 := kDelta_eq h hK hs.toKCounts hold g.2 hne
  obtain ⟨hc', hi'⟩ := tentative_counts h hs.toKCounts hold g.2 hne
  have e2 : energyK net K (Function.update s.part.inGroup v (some (g : ℕ))) - energyK net K s.part.inGroup =
      E net K (Function.update A v g) - E net K A := by
    rw [hA, ← lift_update]; rfl
  rw [e2] at e1
  have hdest : destination net.n (A v) (bad ++ u2 :: u3 :: t) = .ok (g, u3 :: t) := by
    unfold destination
    rw [redraw_skip h2.1 h2.2 (by rw [hu2]; simpa using hne)
      (fun b hb => ⟨(hbad b hb).1, (hbad b hb).2.1, by rw [(hbad b hb).2.2]; simp⟩), hu2]
  have key : kAttempt expAcc net K s = kDecide expAcc net K v (A v) g (tentative net K v (A v) g s)
      (E net K (Function.update A v g) - E net K A) (u3 :: t) := by
    unfold kAttempt
    rw [ht]
    simp only [pick, draw, if_pos h1, Res.bind_ok, hv, hold, Res.pure_eq]
    rw [hdest]
    simp only [Res.bind_ok]
    rw [e1]
    simp only [Res.ofOption_some, Res.bind_ok]
  rw [key]
  unfold kDecide
  obtain ⟨a, t', m1, m2, m3, m4⟩ := metropolis_run (dH := E net K (Function.update A v g) - E net K A) h3 t
  rw [m1]
  rw [neg_sub] at m2
  simp only [Res.bind_ok]
  cases a with
  | true =>
    refine ⟨_, rfl, fun _ => ?_, fun hc => absurd (m2.1 rfl) hc, fun hc => m3 (by linarith), fun hc => m4 (by linarith)⟩
    dsimp only
    rw [hi', hA, lift_update]
  | false =>
    have hno : ¬ (u3 : ℝ) < min 1 (Real.exp (E net K A - E net K (Function.update A v g))) := fun hc => by
      simpa using m2.2 hc
    refine ⟨_, rfl, fun hc => absurd hc hno, fun _ => ?_, fun hc => m3 (by linarith), fun hc => m4 (by linarith)⟩
    obtain ⟨-, hu⟩ := undo_counts h hc' (v := v) (new := g) (old := A v) (by rw [hi', Function.update_self]) (A v).2 hne
    change (undo net K v (A v) g (tentative net K v (A v) g s)).part.inGroup = _
    rw [hu, hi', Function.update_idem, ← hold, Function.update_eq_self, hA]

/-- **C174**: detailed balance, stationarity of the weights `exp (-energy)`, and uniqueness. -/
theorem C174_balance (net : Net) (hn : 2 ≤ net.n) (K : ℕ) :
    (∀ A B, Real.exp (-E net K A) * moveProb (E net K) A B = Real.exp (-E net K B) * moveProb (E net K) B A) ∧
    (∀ B, ∑ A, Real.exp (-E net K A) * kernel (E net K) A B = Real.exp (-E net K B)) ∧
    (∀ A B, 0 ≤ kernel (E net K) A B) ∧
    ∀ w : (Fin net.n → Fin net.n) → ℝ, (∀ B, ∑ A, w A * kernel (E net K) A B = w B) →
      ∃ c, ∀ A, w A = c * Real.exp (-E net K A) :=
  ⟨balance _, stationary _, kernel_nonneg hn _, fun w hw => unique hn _ w hw⟩

/-! ## Labels -/

section
variable {A A' : Fin net.n → Fin net.n} {σ : Equiv.Perm (Fin net.n)} (hσ : ∀ v, A' v = σ (A v))
include hσ

theorem TK_relabel (g g' : Fin net.n) : TK net K (lift A') (σ g) (σ g') = TK net K (lift A) g g' := by
  have hE : ((σ g : ℕ) = σ g') ↔ ((g : ℕ) = g') := by rw [Fin.val_inj, Fin.val_inj, σ.injective.eq_iff]
  unfold TK ratings
  simp only [block_relabel hσ, hE]

theorem unlabelled_relabel (h : net.Simple) : unlabelled net K (lift A') = unlabelled net K (lift A) :=
  tri_relabel (TK_symm h) (TK_symm h) (TK_relabel hσ)

end

/-- **C174**: all the labellings of the same groups have together the weight `n!` times `exp` of minus the energy of
the groups, in which the labels play no part. -/
theorem C174_labels (h : net.Simple) (K : ℕ) (A : Fin net.n → Fin net.n) :
    (∀ A', SameBlocks A A' → unlabelled net K (lift A') = unlabelled net K (lift A)) ∧
    ∑ A' ∈ univ.filter (fun A' => SameBlocks A A'), Real.exp (-E net K A') =
      net.n.factorial * Real.exp (-unlabelled net K (lift A)) := by
  refine ⟨fun A' hA' => ?_, labels_weight _ A _ fun A' hA' => ?_⟩
  · obtain ⟨σ, hσ⟩ := hA'.perm
    exact unlabelled_relabel hσ h
  · obtain ⟨σ, hσ⟩ := hA'.perm
    rw [← unlabelled_relabel hσ h, ← used_image A, ← used_relabel hσ]
    rfl

example : ∃ s : KSt, KInv trio 3 0 s ∧ ∃ s', kAttempt expAcc trio 3 s = .ok s' := by
  obtain ⟨hp, hi⟩ := own_groups trio_simple trio.n (le_refl _)
  have hf : Full trio ((List.range trio.n).foldl (fun p v => AddNodeToGroup trio v v p) Part.empty) := by
    intro v hv
    rw [hi, if_pos hv]; simp
  have hs := initial_inv trio_simple trio_rated (by norm_num) hp hf [0, 0, 1 / 2, 1 / 2]
  obtain ⟨s', h5, -⟩ := C174_step trio_simple trio_rated (by norm_num) hs (A := id) (by
    funext v
    dsimp only
    rw [hi]
    by_cases hv : v < trio.n <;> simp [lift, hv]) (v := ⟨0, by decide⟩) (g := ⟨1, by decide⟩) (by simp)
    (u1 := 0) (bad := [0]) (u2 := 1 / 2) (u3 := 1 / 2) (t := []) rfl (by norm_num)
    (by norm_num) (by norm_num) (by simp) (by simp) (by norm_num [trio, Nat.floor_eq_iff])
  exact ⟨_, hs, s', h5⟩

end KS
