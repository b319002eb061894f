import Verif.Block.Gibbs
import Verif.Block.Kernels
import Verif.Missing.Balance

/-!
# C173: the samplers of two-layer and degree models have the Boltzmann distribution

As C172, for every pair term (`AND`, `OR`, `OD` kernels).
-/

namespace BK

open GP hiding St
open RG LS Finset MH

variable {net : Net} {K : Kern} {F : Int → Int → ℝ} {D : ℕ → ℝ} {c : ℝ}

/-! ## Specification -/

/-- Energy of a division. -/
noncomputable def E (F : Int → Int → ℝ) (D : ℕ → ℝ) (net : Net) (linC : ℝ) (A : Fin net.n → Fin net.n) : ℝ :=
  energy F D net linC (lift A)

/-- Energy of a division without the term for the labels. -/
noncomputable def unlabelled (F : Int → Int → ℝ) (D : ℕ → ℝ) (net : Net) (linC : ℝ) (f : ℕ → Option ℕ) : ℝ :=
  linC * (used net f).card + ∑ g ∈ Finset.range net.n, T F net f g g +
    ∑ g ∈ Finset.range net.n, ∑ g' ∈ (Finset.range net.n).filter (g < ·), T F net f g g' - D (used net f).card

/-! ## One attempt -/

/-- **C173**: one attempt of `LSMCStepMB` and its copies draws a node `v`, then labels until one is not that of `v`,
then compares one more number with the change of energy, as in `C172_step`. -/
theorem C173_step (hK : Computes K net.n F D) (h : net.Simple) {linC : ℝ} {s : St} (hs : Exact F D net linC c s)
    {A : Fin net.n → Fin net.n} (hA : s.part.inGroup = lift A) {v g : Fin net.n} (hg : g ≠ A v) {u1 u2 u3 : ℚ}
    {bad : List ℚ} {t : Tape} (ht : s.tape = u1 :: (bad ++ u2 :: u3 :: t))
    (h1 : 0 ≤ u1 ∧ u1 < 1) (h2 : 0 ≤ u2 ∧ u2 < 1) (h3 : 0 ≤ u3 ∧ u3 < 1)
    (hv : ⌊u1 * net.n⌋₊ = v) (hbad : ∀ b ∈ bad, 0 ≤ b ∧ b < 1 ∧ ⌊b * net.n⌋₊ = A v) (hu2 : ⌊u2 * net.n⌋₊ = g) :
    ∃ s', attempt K expAcc net linC s = .ok s' ∧ Exact F D net linC c s' ∧
      ((u3 : ℝ) < min 1 (Real.exp (E F D net linC A - E F D net linC (Function.update A v g))) →
        s'.part.inGroup = lift (Function.update A v g)) ∧
      (¬ (u3 : ℝ) < min 1 (Real.exp (E F D net linC A - E F D net linC (Function.update A v g))) →
        s'.part.inGroup = lift A) ∧
      (E F D net linC (Function.update A v g) ≤ E F D net linC A → s'.tape = u3 :: t) ∧
      (E F D net linC A < E F D net linC (Function.update A v g) → s'.tape = t) := by
  have hn : 0 < net.n := lt_of_le_of_lt (Nat.zero_le _) v.2
  have hgood := attempt_exact hK h expAcc linC hn s hs
  suffices hh : ∃ s', attempt K expAcc net linC s = .ok s' ∧
      ((u3 : ℝ) < min 1 (Real.exp (E F D net linC A - E F D net linC (Function.update A v g))) →
        s'.part.inGroup = lift (Function.update A v g)) ∧
      (¬ (u3 : ℝ) < min 1 (Real.exp (E F D net linC A - E F D net linC (Function.update A v g))) →
        s'.part.inGroup = lift A) ∧
      (E F D net linC (Function.update A v g) ≤ E F D net linC A → s'.tape = u3 :: t) ∧
      (E F D net linC A < E F D net linC (Function.update A v g) → s'.tape = t) by
    obtain ⟨s', e, r⟩ := hh
    rw [e] at hgood
    exact ⟨s', e, hgood, r⟩
  have hold : s.part.inGroup v = some (A v : ℕ) := by rw [hA, lift_lt]
  have hne : (g : ℕ) ≠ A v := fun e => hg (Fin.ext e)
  have H : Mv net s.part v (A v) g := ⟨h, hs.part, hs.full, hold, g.2, hne⟩
  obtain ⟨d', e1, e2, -⟩ := deltaH_eq hK H linC (n2g := s.n2g) (slg := List.range net.n) hs.counts List.nodup_range
    (fun g hg => List.mem_range.1 hg) (fun g hg _ => List.mem_range.2 hg)
  have e2' : d'.dH = E F D net linC (Function.update A v g) - E F D net linC A := by
    rw [e2, hA, ← lift_update]; rfl
  have hdest : destination net.n (A v) (bad ++ u2 :: u3 :: t) = .ok (g, u3 :: t) := by
    unfold destination
    rw [redraw_skip h2.1 h2.2 (by rw [hu2]; simpa using hne)
      (fun b hb => ⟨(hbad b hb).1, (hbad b hb).2.1, by rw [(hbad b hb).2.2]; simp⟩), hu2]
  have key : attempt K expAcc net linC s = decideMove expAcc net s v (A v) g d' (u3 :: t) := by
    unfold attempt
    rw [ht]
    simp only [pick, draw, if_pos h1, Res.bind_ok, hv, hold, Res.pure_eq]
    rw [hdest]
    simp only [Res.bind_ok]
    rw [e1]
    simp only [Res.ofOption_some, Res.bind_ok]
  rw [key]
  unfold decideMove
  obtain ⟨a, t', m1, m2, m3, m4⟩ := metropolis_run (dH := d'.dH) h3 t
  rw [m1]
  rw [e2'] at m2 m3 m4
  rw [neg_sub] at m2
  simp only [Res.bind_ok]
  cases a with
  | true =>
    refine ⟨_, rfl, fun _ => ?_, fun hc => absurd (m2.1 rfl) hc, fun hc => m3 (by linarith), fun hc => m4 (by linarith)⟩
    obtain ⟨_, _, hi⟩ := move_ok h hs.part g.2 hold
    dsimp only
    rw [hi, hA, lift_update]
  | false =>
    have hno : ¬ (u3 : ℝ) < min 1 (Real.exp (E F D net linC A - E F D net linC (Function.update A v g))) := fun hc => by
      simpa using m2.2 hc
    exact ⟨_, rfl, fun hc => absurd hc hno, fun _ => hA, fun hc => m3 (by linarith), fun hc => m4 (by linarith)⟩

/-- **C173**: detailed balance, stationarity of the weights `exp (-energy)`, and uniqueness. -/
theorem C173_balance (F : Int → Int → ℝ) (D : ℕ → ℝ) (net : Net) (hn : 2 ≤ net.n) (linC : ℝ) :
    (∀ A B, Real.exp (-E F D net linC A) * moveProb (E F D net linC) A B =
      Real.exp (-E F D net linC B) * moveProb (E F D net linC) B A) ∧
    (∀ B, ∑ A, Real.exp (-E F D net linC A) * kernel (E F D net linC) A B = Real.exp (-E F D net linC B)) ∧
    (∀ A B, 0 ≤ kernel (E F D net linC) A B) ∧
    ∀ w : (Fin net.n → Fin net.n) → ℝ, (∀ B, ∑ A, w A * kernel (E F D net linC) A B = w B) →
      ∃ c, ∀ A, w A = c * Real.exp (-E F D net linC A) :=
  ⟨balance _, stationary _, kernel_nonneg hn _, fun w hw => unique hn _ w hw⟩

/-! ## Labels -/

section
variable {A A' : Fin net.n → Fin net.n} {σ : Equiv.Perm (Fin net.n)} (hσ : ∀ v, A' v = σ (A v))
include hσ

theorem T_relabel (g g' : Fin net.n) : T F net (lift A') (σ g) (σ g') = T F net (lift A) g g' := by
  have hE : ((σ g : ℕ) = σ g') ↔ ((g : ℕ) = g') := by rw [Fin.val_inj, Fin.val_inj, σ.injective.eq_iff]
  unfold T pairs links
  simp only [block_relabel hσ, hE]

theorem unlabelled_relabel (h : net.Simple) (linC : ℝ) :
    unlabelled F D net linC (lift A') = unlabelled F D net linC (lift A) := by
  have ht : tri net.n (T F net (lift A')) = tri net.n (T F net (lift A)) :=
    tri_relabel (T_symm h) (T_symm h) (T_relabel hσ)
  unfold unlabelled
  unfold tri at ht
  rw [used_relabel hσ, add_assoc, ht, add_assoc]

end

/-- **C173**: all the labellings of the same groups have together the weight `n!` times `exp` of minus the energy of
the groups, in which the labels play no part. -/
theorem C173_labels (h : net.Simple) (F : Int → Int → ℝ) (D : ℕ → ℝ) (linC : ℝ) (A : Fin net.n → Fin net.n) :
    (∀ A', SameBlocks A A' → unlabelled F D net linC (lift A') = unlabelled F D net linC (lift A)) ∧
    ∑ A' ∈ univ.filter (fun A' => SameBlocks A A'), Real.exp (-E F D net linC A') =
      net.n.factorial * Real.exp (-unlabelled F D net linC (lift A)) := by
  refine ⟨fun A' hA' => ?_, labels_weight _ A _ fun A' hA' => ?_⟩
  · obtain ⟨σ, hσ⟩ := hA'.perm
    exact unlabelled_relabel hσ h linC
  · obtain ⟨σ, hσ⟩ := hA'.perm
    rw [← unlabelled_relabel hσ h linC, ← used_image A, ← used_relabel hσ]
    unfold E energy unlabelled
    ring

example : ∃ s : St, Exact odF logDeg tailed 0 0 s ∧ s.part.inGroup = lift (id : Fin tailed.n → Fin tailed.n) ∧
    ∃ s', attempt OD expAcc tailed 0 s = .ok s' := by
  obtain ⟨s, k1, k2, k3, k4⟩ := own_state tailed_simple 0 [0, 0, 1 / 2, 1 / 2]
  have hE : Exact odF logDeg tailed 0 0 { s with H := energy odF logDeg tailed 0 s.part.inGroup + 0 } :=
    ⟨k1.part, k1.full, k1.counts, rfl⟩
  obtain ⟨s', h5, -⟩ := C173_step (od_computes _) tailed_simple hE (A := id) k3 (v := ⟨0, by decide⟩)
    (g := ⟨2, by decide⟩) (by simp) (u1 := 0) (bad := [0]) (u2 := 1 / 2) (u3 := 1 / 2) (t := []) k4 (by norm_num)
    (by norm_num) (by norm_num) (by simp) (by simp) (by norm_num [tailed])
  exact ⟨_, hE, k3, s', h5⟩

end BK
