import Verif.Missing.Gibbs
import Verif.Basic.Balance
import Mathlib.Tactic.Linarith

/-!
# C172: the sampler of links has the Boltzmann distribution of the divisions

`MH.moveProb`, `MH.kernel` (Verif/Basic/Balance.lean) give the meaning of a Metropolis step; the theorems below
show that one attempt of `LinkScoreMCStep` is such a step for the energy of the block model, that the weights
`exp (-energy)` are stationary, and that the term `log (n - k)!` makes up for the number of labels of the groups.
-/

namespace LS

open GP RG Finset MH

variable {net : Net}

/-! ## Specification -/

/-- `gsl_rng_uniform(gen) < exp(-dH)`, src/missing.c:298, with exact exponentials. -/
noncomputable def expAcc (dH : ℝ) (u : ℚ) : Bool := by
  classical exact decide ((u : ℝ) < Real.exp (-dH))

/-- Energy of a division. -/
noncomputable def E (net : Net) (linC : ℝ) (F : Fin net.n → Fin net.n) : ℝ := energy net linC (lift F)

/-- Energy of a division without the term for the labels. -/
noncomputable def unlabelled (net : Net) (linC : ℝ) (f : ℕ → Option ℕ) : ℝ :=
  linC * (used net f).card + ∑ g ∈ Finset.range net.n, T net f g g +
    ∑ g ∈ Finset.range net.n, ∑ g' ∈ (Finset.range net.n).filter (g < ·), T net f g g'

/-! ## One attempt -/

theorem redraw_skip {f : ℚ → ℕ} {bad : ℕ → Bool} {u : ℚ} {t : Tape} (h0 : 0 ≤ u) (h1 : u < 1) (hu : bad (f u) = false) :
    ∀ {bs : List ℚ}, (∀ b ∈ bs, 0 ≤ b ∧ b < 1 ∧ bad (f b) = true) → redraw f bad (bs ++ u :: t) = .ok (f u, t)
  | [], _ => by simp [redraw, h0, h1, hu]
  | b :: bs, h => by
    obtain ⟨b0, b1, b2⟩ := h b (by simp)
    rw [List.cons_append, redraw, if_pos ⟨b0, b1⟩, if_pos b2]
    exact redraw_skip h0 h1 hu fun b' hb' => h b' (by simp [hb'])

/-- The Metropolis rule: the move is made exactly if the random number is below `min 1 (exp (-dH))`; the number is
drawn only if the energy grows. -/
theorem metropolis_run {dH : ℝ} {u : ℚ} (hu : 0 ≤ u ∧ u < 1) (t : Tape) :
    ∃ a t', metropolis expAcc dH (u :: t) = .ok (a, t') ∧ (a = true ↔ (u : ℝ) < min 1 (Real.exp (-dH))) ∧
      (dH ≤ 0 → t' = u :: t) ∧ (0 < dH → t' = t) := by
  unfold metropolis
  by_cases hd : dH ≤ 0
  · rw [if_pos hd]
    refine ⟨true, u :: t, rfl, ⟨fun _ => ?_, fun _ => rfl⟩, fun _ => rfl, fun h => absurd hd (not_le.2 h)⟩
    rw [min_eq_left (Real.one_le_exp (by linarith))]
    exact_mod_cast hu.2
  · rw [if_neg hd]
    refine ⟨expAcc dH u, t, by simp [draw, hu], ?_, fun h => absurd h hd, fun _ => rfl⟩
    rw [min_eq_right (Real.exp_le_one_iff.2 (by linarith))]
    simp [expAcc]

/-- **C172**: one attempt draws a node `v`, then labels until one is not that of `v`, then compares one more number
`u3` with the change of energy: the node moves exactly if `u3 < min 1 (exp (E F - E F'))`, `F'` being the division
after the move. If the energy does not grow, `u3` is left for the next attempt. Otherwise the division is unchanged. -/
theorem C172_step (h : net.Simple) {linC : ℝ} {s : St} (hs : Good net linC s) (hl : Listed net s)
    {F : Fin net.n → Fin net.n} (hF : s.part.inGroup = lift F) {v g : Fin net.n} (hg : g ≠ F v) {u1 u2 u3 : ℚ}
    {bad : List ℚ} {t : Tape} (ht : s.tape = u1 :: (bad ++ u2 :: u3 :: t))
    (h1 : 0 ≤ u1 ∧ u1 < 1) (h2 : 0 ≤ u2 ∧ u2 < 1) (h3 : 0 ≤ u3 ∧ u3 < 1)
    (hv : ⌊u1 * net.n⌋₊ = v) (hbad : ∀ b ∈ bad, 0 ≤ b ∧ b < 1 ∧ ⌊b * net.n⌋₊ = F v) (hu2 : ⌊u2 * net.n⌋₊ = g) :
    ∃ s', attempt expAcc net linC s = .ok s' ∧ Good net linC s' ∧ Listed net s' ∧
      ((u3 : ℝ) < min 1 (Real.exp (E net linC F - E net linC (Function.update F v g))) →
        s'.part.inGroup = lift (Function.update F v g)) ∧
      (¬ (u3 : ℝ) < min 1 (Real.exp (E net linC F - E net linC (Function.update F v g))) → s'.part.inGroup = lift F) ∧
      (E net linC (Function.update F v g) ≤ E net linC F → s'.tape = u3 :: t) ∧
      (E net linC F < E net linC (Function.update F v g) → s'.tape = t) := by
  have hn : 0 < net.n := lt_of_le_of_lt (Nat.zero_le _) v.2
  have hgood := attempt_good h expAcc linC hn s ⟨hs, hl⟩
  suffices hh : ∃ s', attempt expAcc net linC s = .ok s' ∧
      ((u3 : ℝ) < min 1 (Real.exp (E net linC F - E net linC (Function.update F v g))) →
        s'.part.inGroup = lift (Function.update F v g)) ∧
      (¬ (u3 : ℝ) < min 1 (Real.exp (E net linC F - E net linC (Function.update F v g))) → s'.part.inGroup = lift F) ∧
      (E net linC (Function.update F v g) ≤ E net linC F → s'.tape = u3 :: t) ∧
      (E net linC F < E net linC (Function.update F v g) → s'.tape = t) by
    obtain ⟨s', e, r⟩ := hh
    rw [e] at hgood
    exact ⟨s', e, hgood.1, hgood.2, r⟩
  have hold : s.part.inGroup v = some (F v : ℕ) := by rw [hF, lift_lt]
  have hne : (g : ℕ) ≠ F v := fun e => hg (Fin.ext e)
  have H : Mv net s.part v (F v) g := ⟨h, hs.part, hs.full, hold, g.2, hne⟩
  obtain ⟨d', e1, e2, -⟩ := H.deltaH_eq linC (n2g := s.n2g) hs.counts hl.nodup hl.lt hl.all
  have e2' : d'.dH = E net linC (Function.update F v g) - E net linC F := by
    rw [e2, hF, ← lift_update]; rfl
  have hdest : destination net.n (F v) (bad ++ u2 :: u3 :: t) = .ok (g, u3 :: t) := by
    unfold destination
    rw [redraw_skip h2.1 h2.2 (by rw [hu2]; simpa using hne)
      (fun b hb => ⟨(hbad b hb).1, (hbad b hb).2.1, by rw [(hbad b hb).2.2]; simp⟩), hu2]
  have key : attempt expAcc net linC s = decideMove expAcc net s v (F v) g d' (u3 :: t) := by
    unfold attempt
    rw [ht]
    simp only [pick, draw, if_pos h1, Res.bind_ok, hv, hold, Res.pure_eq]
    rw [hdest]
    simp only [Res.bind_ok]
    rw [e1]
    simp only [Res.ofOption_some, Res.bind_ok]
  have hmove : ∀ t', ∃ s', acceptMove net s v (F v) g d' t' = .ok s' ∧
      s'.part.inGroup = lift (Function.update F v g) ∧ s'.tape = t' := by
    intro t'
    unfold acceptMove
    have hsh : ∃ l, addToShortlist net.n g s.slg = .ok l := by
      have := addToShortlist_holds g.2 hl.nodup hl.lt
      unfold addToShortlist at this ⊢
      split_ifs at this ⊢
      · exact ⟨_, rfl⟩
      · exact ⟨_, rfl⟩
      · exact absurd this (by simp)
    obtain ⟨l, hl'⟩ := hsh
    rw [hl']
    simp only [Res.bind_ok, Res.pure_eq]
    refine ⟨_, rfl, ?_, rfl⟩
    obtain ⟨_, _, hi⟩ := move_ok h hs.part g.2 hold
    dsimp only
    rw [hi, hF, lift_update]
  rw [key]
  unfold decideMove
  obtain ⟨a, t', m1, m2, m3, m4⟩ := metropolis_run (dH := d'.dH) h3 t
  rw [m1]
  rw [e2'] at m2 m3 m4
  rw [neg_sub] at m2
  simp only [Res.bind_ok]
  cases a with
  | true =>
    obtain ⟨s', q1, q2, q3⟩ := hmove t'
    exact ⟨s', q1, fun _ => q2, fun hc => absurd (m2.1 rfl) hc, fun hc => by rw [q3, m3 (by linarith)],
      fun hc => by rw [q3, m4 (by linarith)]⟩
  | false =>
    have hno : ¬ (u3 : ℝ) < min 1 (Real.exp (E net linC F - E net linC (Function.update F v g))) := fun hc => by
      simpa using m2.2 hc
    exact ⟨_, rfl, fun hc => absurd hc hno, fun _ => hF, fun hc => m3 (by linarith), fun hc => m4 (by linarith)⟩

/-- **C172**: the numbers that choose label `g` among `n` fill an interval of length `1 / n`. -/
theorem C172_uniform {n : ℕ} (hn : 0 < n) {u : ℚ} (hu : 0 ≤ u) (g : ℕ) :
    ⌊u * n⌋₊ = g ↔ (g : ℚ) / n ≤ u ∧ u < (g : ℚ) / n + 1 / n := by
  have hq : (0 : ℚ) < n := by exact_mod_cast hn
  rw [Nat.floor_eq_iff (by positivity), div_le_iff₀ hq, ← add_div, lt_div_iff₀ hq]

/-- **C172**: detailed balance and stationarity of the weights `exp (-energy)`; staying and moving have probabilities
that are not negative. -/
theorem C172_balance (net : Net) (linC : ℝ) (F F' : Fin net.n → Fin net.n) :
    Real.exp (-E net linC F) * moveProb (E net linC) F F' = Real.exp (-E net linC F') * moveProb (E net linC) F' F ∧
      ∑ G, Real.exp (-E net linC G) * kernel (E net linC) G F' = Real.exp (-E net linC F') ∧
      (2 ≤ net.n → 0 ≤ kernel (E net linC) F F') :=
  ⟨balance _ F F', stationary _ F', fun hn => kernel_nonneg hn _ F F'⟩

/-- **C172**: every division can be reached from every other one by moves of positive probability, and up to a factor
no other weights are stationary. -/
theorem C172_unique (net : Net) (hn : 2 ≤ net.n) (linC : ℝ) :
    (∀ F F', Relation.ReflTransGen (fun A B => A ≠ B ∧ 0 < moveProb (E net linC) A B) F F') ∧
    ∀ w : (Fin net.n → Fin net.n) → ℝ, (∀ F', ∑ F, w F * kernel (E net linC) F F' = w F') →
      ∃ c, ∀ F, w F = c * Real.exp (-E net linC F) :=
  ⟨reach hn _, fun w hw => unique hn _ w hw⟩

/-- Every simple network has a state as `C172_step` asks for. -/
theorem own_state (h : net.Simple) (linC : ℝ) (t : Tape) :
    ∃ s, Good net linC s ∧ Listed net s ∧ s.part.inGroup = lift (id : Fin net.n → Fin net.n) ∧ s.tape = t := by
  obtain ⟨hp, hi⟩ := own_groups h net.n (le_refl _)
  set p := (List.range net.n).foldl (fun p v => AddNodeToGroup net v v p) Part.empty with hpdef
  have hf : Full net p := by
    intro v hv
    rw [hi, if_pos hv]; simp
  refine ⟨St.mk p (initG2G net p) (fun _ => 0) (energy net linC p.inGroup) (List.range net.n) t,
    ⟨hp, hf, fun i hi j hj => initG2G_eq h hp hi hj, fun _ _ _ => rfl, partitionH_eq h hp hf linC⟩,
    ⟨List.nodup_range, fun g hg => List.mem_range.1 hg, fun g hg _ => List.mem_range.2 hg⟩, ?_, rfl⟩
  dsimp only
  funext v
  rw [hi]
  by_cases hv : v < net.n <;> simp [lift, hv]

example : ∃ s : St, Good tailed 0 s ∧ s.part.inGroup = lift (id : Fin tailed.n → Fin tailed.n) ∧
    ∃ s', attempt expAcc tailed 0 s = .ok s' := by
  obtain ⟨s, h1, h2, h3, h4⟩ := own_state tailed_simple 0 [0, 0, 1 / 2, 1 / 2]
  obtain ⟨s', h5, -⟩ := C172_step tailed_simple h1 h2 (F := id) h3 (v := ⟨0, by decide⟩) (g := ⟨2, by decide⟩) (by simp)
    (u1 := 0) (bad := [0]) (u2 := 1 / 2) (u3 := 1 / 2) (t := []) h4 (by norm_num) (by norm_num) (by norm_num)
    (by simp) (by simp) (by norm_num [tailed])
  exact ⟨s, h1, h3, s', h5⟩

/-! ## Labels -/

section
variable {σ : Equiv.Perm (Fin net.n)}

theorem tri_relabel {U U' : ℕ → ℕ → ℝ} (hs : ∀ g g', U g g' = U g' g) (hs' : ∀ g g', U' g g' = U' g' g)
    (hU : ∀ g g' : Fin net.n, U' (σ g) (σ g') = U g g') : tri net.n U' = tri net.n U := by
  have e1 := tri_eq (n := net.n) (U := U') hs'
  have e2 := tri_eq (n := net.n) (U := U) hs
  have e3 : ∑ g ∈ range net.n, U' g g = ∑ g ∈ range net.n, U g g := by
    rw [sum_range, sum_range, ← Equiv.sum_comp σ]
    simp only [hU]
  have e4 : ∑ g ∈ range net.n, ∑ g' ∈ range net.n, U' g g' = ∑ g ∈ range net.n, ∑ g' ∈ range net.n, U g g' := by
    simp only [sum_range]
    rw [← Equiv.sum_comp σ]
    apply sum_congr rfl
    intro g _
    rw [← Equiv.sum_comp σ]
    simp only [hU]
  linarith

variable {F F' : Fin net.n → Fin net.n} (hσ : ∀ v, F' v = σ (F v))
include hσ

theorem block_relabel (g : Fin net.n) : block net (lift F') (σ g) = block net (lift F) g := by
  ext v
  simp only [block, mem_filter, mem_range]
  refine and_congr_right fun hv => ?_
  have e1 := lift_lt F' ⟨v, hv⟩
  have e2 := lift_lt F ⟨v, hv⟩
  dsimp only at e1 e2
  rw [e1, e2, hσ, Option.some.injEq, Option.some.injEq, Fin.val_inj, Fin.val_inj, σ.injective.eq_iff]

theorem T_relabel (g g' : Fin net.n) : T net (lift F') (σ g) (σ g') = T net (lift F) g g' := by
  have hE : ((σ g : ℕ) = σ g') ↔ ((g : ℕ) = g') := by rw [Fin.val_inj, Fin.val_inj, σ.injective.eq_iff]
  unfold T pairs links
  simp only [block_relabel hσ, hE]

theorem used_relabel : (used net (lift F')).card = (used net (lift F)).card := by
  unfold used
  rw [card_filter, card_filter, sum_range, sum_range, ← Equiv.sum_comp σ]
  simp only [block_relabel hσ]

theorem unlabelled_relabel (h : net.Simple) (linC : ℝ) : unlabelled net linC (lift F') = unlabelled net linC (lift F) := by
  have ht : tri net.n (T net (lift F')) = tri net.n (T net (lift F)) :=
    tri_relabel (T_symm h) (T_symm h) (T_relabel hσ)
  unfold unlabelled
  unfold tri at ht
  rw [used_relabel hσ, add_assoc, ht, add_assoc]

end

theorem used_image (F : Fin net.n → Fin net.n) : (used net (lift F)).card = (univ.image F).card := by
  rw [← card_map Fin.valEmbedding]
  congr 1
  ext g
  simp only [used, mem_filter, mem_range, mem_map, mem_image, mem_univ, true_and, Fin.valEmbedding_apply]
  constructor
  · rintro ⟨_, v, hv⟩
    simp only [block, mem_filter, mem_range] at hv
    have := lift_lt F ⟨v, hv.1⟩
    dsimp only at this
    rw [this] at hv
    exact ⟨F ⟨v, hv.1⟩, ⟨_, rfl⟩, Option.some.inj hv.2⟩
  · rintro ⟨_, ⟨v, rfl⟩, rfl⟩
    exact ⟨(F v).2, v, by simp [block, lift_lt F v]⟩

/-- **C172**: the energy is that of the groups, whatever their labels, less the logarithm of `(n - k)!`, and all the
labellings of the same groups have together the weight `n!` times `exp` of minus the energy of the groups. So the
groups, without labels, have the Boltzmann distribution of the description length plus the bias. -/
theorem C172_labels (h : net.Simple) (linC : ℝ) (F : Fin net.n → Fin net.n) :
    (∀ F', SameBlocks F F' → unlabelled net linC (lift F') = unlabelled net linC (lift F) ∧
      E net linC F' = unlabelled net linC (lift F) - Real.log ((net.n - (univ.image F).card).factorial : ℝ)) ∧
    ∑ F' ∈ univ.filter (fun F' => SameBlocks F F'), Real.exp (-E net linC F') =
      net.n.factorial * Real.exp (-unlabelled net linC (lift F)) := by
  have key : ∀ F', SameBlocks F F' → unlabelled net linC (lift F') = unlabelled net linC (lift F) ∧
      E net linC F' = unlabelled net linC (lift F) - Real.log ((net.n - (univ.image F).card).factorial : ℝ) := by
    intro F' hF'
    obtain ⟨σ, hσ⟩ := hF'.perm
    refine ⟨unlabelled_relabel hσ h linC, ?_⟩
    rw [← unlabelled_relabel hσ h linC, ← used_image F, ← used_relabel hσ]
    rfl
  exact ⟨key, labels_weight _ F _ fun F' hF' => (key F' hF').2⟩

end LS
