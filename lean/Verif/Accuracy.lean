import Verif.Basic.Sample
import Verif.Block.Posterior
import Verif.KState.Posterior

/-!
# C185: the scores printed are accurate with a probability that grows with the number of samples

Means of functions of several samples in a row are taken with `MH.run`. For every network there is a constant `C`, the
same for all pairs of nodes, starts, numbers `w` of steps before the samples and `s` of steps between them, such that the
average over `m` samples is wrong by `δ` or more with probability at most `C / (m δ²)`. What is estimated is the posterior
probability of C181 to C184.
-/

open Finset MH

/-- Metropolis steps. -/
theorem MH.metropolis_error {n : ℕ} (hn : 3 ≤ n) (E : (Fin n → Fin n) → ℝ) : ∃ C : ℝ, ∀ f : (Fin n → Fin n) → ℝ,
    (∀ F, 0 ≤ f F) → (∀ F, f F ≤ 1) → ∀ s, 0 < s → ∀ w m, 0 < m → ∀ F,
      ((next (kernel E))^[w] (run ((next (kernel E))^[s]) m fun l => (average f l - mean E f) ^ 2)) F ≤ C / m ∧
      ∀ δ, 0 < δ → ((next (kernel E))^[w] (run ((next (kernel E))^[s]) m (wrong f (mean E f) δ))) F ≤ C / (m * δ ^ 2) := by
  have : Nonempty (Fin n) := ⟨⟨0, by omega⟩⟩
  obtain ⟨D, hD⟩ := bounded E
  have h3 : (3 : ℝ) ≤ n := by exact_mod_cast hn
  have hD0 : 0 ≤ D := by have := hD id id; linarith
  have hp : 0 < Real.exp (-D) / (n * ((n : ℝ) - 1)) := div_pos (Real.exp_pos _) (by nlinarith)
  have hp1 : Real.exp (-D) / (n * ((n : ℝ) - 1)) ≤ 1 := by
    rw [div_le_one (by nlinarith)]
    exact (Real.exp_le_one_iff.2 (by linarith)).trans (by nlinarith)
  have q0 : 0 < (Real.exp (-D) / (n * ((n : ℝ) - 1))) ^ (2 * n) := pow_pos hp _
  have q1 := pow_le_one₀ (n := 2 * n) hp.le hp1
  have hP : Expect (next (kernel E)) := Expect.next (kernel_nonneg (by omega) E) (kernel_sum E)
  refine ⟨1 + 2 * (((2 * n : ℕ) : ℝ) / (1 - (1 - (Real.exp (-D) / (n * ((n : ℝ) - 1))) ^ (2 * n)))), fun f f0 f1 s hs w m hm F => ?_⟩
  refine average_error hP (c := 1 - (Real.exp (-D) / (n * ((n : ℝ) - 1))) ^ (2 * n)) (by linarith) (by linarith) (N := 2 * n) (by omega)
    f0 f1 (mean_bounds E f 0 1 f0 f1) (fun k x => ?_) hs w hm F
  have := metropolis_converges hn hD k f 0 1 f0 f1 x
  rwa [sub_zero, mul_one] at this

/-- Heat-bath sweeps. -/
theorem MH.sweep_error {n : ℕ} (hn : 0 < n) (E : (Fin n → Fin n) → ℝ) : ∃ C : ℝ, ∀ f : (Fin n → Fin n) → ℝ,
    (∀ F, 0 ≤ f F) → (∀ F, f F ≤ 1) → ∀ s, 0 < s → ∀ w m, 0 < m → ∀ F,
      ((sweep E (List.finRange n))^[w] (run ((sweep E (List.finRange n))^[s]) m fun l => (average f l - mean E f) ^ 2)) F ≤ C / m ∧
      ∀ δ, 0 < δ → ((sweep E (List.finRange n))^[w] (run ((sweep E (List.finRange n))^[s]) m (wrong f (mean E f) δ))) F ≤
        C / (m * δ ^ 2) := by
  have : Nonempty (Fin n) := ⟨⟨0, hn⟩⟩
  obtain ⟨D, hD⟩ := bounded E
  have h1 : (1 : ℝ) ≤ n := by exact_mod_cast hn
  have hD0 : 0 ≤ D := by have := hD id id; linarith
  have hp : 0 < Real.exp (-D) / n := div_pos (Real.exp_pos _) (by linarith)
  have hp1 : Real.exp (-D) / n ≤ 1 := by
    rw [div_le_one (by linarith)]
    exact (Real.exp_le_one_iff.2 (by linarith)).trans h1
  have q0 : 0 < (Real.exp (-D) / n) ^ n := pow_pos hp _
  have q1 := pow_le_one₀ (n := n) hp.le hp1
  refine ⟨1 + 2 * (((1 : ℕ) : ℝ) / (1 - (1 - (Real.exp (-D) / n) ^ n))), fun f f0 f1 s hs w m hm F => ?_⟩
  refine average_error (Expect.sweep E (List.finRange n)) (c := 1 - (Real.exp (-D) / n) ^ n) (by linarith) (by linarith) (N := 1) one_pos
    f0 f1 (mean_bounds E f 0 1 f0 f1) (fun k x => ?_) hs w hm F
  have := sweep_converges hD (fun _ => (Fintype.card_fin n).le) (fun v => List.mem_finRange v) k f 0 1 f0 f1 x
  rw [List.length_finRange, sub_zero, mul_one] at this
  rwa [Nat.div_one]

namespace LS

open GP

variable {net : Net}

/-- **C185** for `LinkScore`. -/
theorem C185_metropolis (h : net.Simple) (hn : 3 ≤ net.n) (linC : ℝ) :
    ∃ C : ℝ, ∀ (i j : Fin net.n) (s : ℕ), 0 < s → ∀ w m, 0 < m → ∀ F δ, 0 < δ →
      ((next (kernel (E net linC)))^[w] (run ((next (kernel (E net linC)))^[s]) m
        (wrong (fun F => (score net (lift F) i j : ℝ)) (posterior net linC i j) δ))) F ≤ C / (m * δ ^ 2) := by
  obtain ⟨C, hC⟩ := metropolis_error hn (E net linC)
  refine ⟨C, fun i j s hs w m hm F δ hδ => ?_⟩
  rw [← C181_posterior h]
  exact (hC _ (fun F => (score_between h F i j).1) (fun F => (score_between h F i j).2) s hs w m hm F).2 δ hδ

/-- **C185** for `GibbsLinkScore`, steps being sweeps. -/
theorem C185_heat_bath (h : net.Simple) (hn : 0 < net.n) (linC : ℝ) :
    ∃ C : ℝ, ∀ (i j : Fin net.n) (s : ℕ), 0 < s → ∀ w m, 0 < m → ∀ F δ, 0 < δ →
      ((sweep (E net linC) (List.finRange net.n))^[w] (run ((sweep (E net linC) (List.finRange net.n))^[s]) m
        (wrong (fun F => (score net (lift F) i j : ℝ)) (posterior net linC i j) δ))) F ≤ C / (m * δ ^ 2) := by
  obtain ⟨C, hC⟩ := sweep_error hn (E net linC)
  refine ⟨C, fun i j s hs w m hm F δ hδ => ?_⟩
  rw [← C181_posterior h]
  exact (hC _ (fun F => (score_between h F i j).1) (fun F => (score_between h F i j).2) s hs w m hm F).2 δ hδ

/-- **C185** for `GibbsLinkScore` as it is, with a list of groups that determines which empty group is used: for all processes
on states `z` with a division `π z` whose means of functions of the groups are those of `s` sweeps. By C176 and C179 the
step of the program is such a process, whatever the list. -/
theorem C185_lists (h : net.Simple) (hn : 0 < net.n) (linC : ℝ) :
    ∃ C : ℝ, ∀ (Ω : Type) (π : Ω → Fin net.n → Fin net.n) (Q : (Ω → ℝ) → Ω → ℝ) (s : ℕ), 0 < s →
      (∀ f : (Fin net.n → Fin net.n) → ℝ, (∀ A B, SameBlocks A B → f A = f B) →
        ∀ z, Q (fun z => f (π z)) z = ((sweep (E net linC) (List.finRange net.n))^[s] f) (π z)) →
      ∀ (i j : Fin net.n) (m : ℕ), 0 < m → ∀ z δ, 0 < δ →
        run Q m (wrong (fun z => (score net (lift (π z)) i j : ℝ)) (posterior net linC i j) δ) z ≤ C / (m * δ ^ 2) := by
  have : Nonempty (Fin net.n) := ⟨⟨0, hn⟩⟩
  obtain ⟨C, hC⟩ := C185_heat_bath h hn linC
  refine ⟨C, fun Ω π Q s hs hQ i j m hm z δ hδ => ?_⟩
  have hE : ∀ A B, SameBlocks A B → E net linC A = E net linC B := fun A B hAB => by
    rw [((C172_labels h linC A).1 A fun _ _ => Iff.rfl).2, ((C172_labels h linC A).1 B hAB).2]
  have hsc : ∀ A B, SameBlocks A B → (score net (lift A) i j : ℝ) = score net (lift B) i j := fun A B hs => by
    rw [C181_score h, C181_score h, expected_same hs]
  have hiter : ∀ (t : ℕ) (f : (Fin net.n → Fin net.n) → ℝ), (∀ A B, SameBlocks A B → f A = f B) → ∀ A B, SameBlocks A B →
      ((sweep (E net linC) (List.finRange net.n))^[t] f) A = ((sweep (E net linC) (List.finRange net.n))^[t] f) B := by
    intro t
    induction t with
    | zero => exact fun f hf => hf
    | succ t ih =>
      intro f hf
      rw [Function.iterate_succ_apply]
      exact ih _ (sweep_blocks hE hf _)
  have key := (run_project π (R := SameBlocks) (fun _ _ _ => Iff.rfl) hQ (hiter s) m
    (wrong (fun F => (score net (lift F) i j : ℝ)) (posterior net linC i j) δ) (fun l l' hl => by
      have hsum : (l.map fun F => (score net (lift F) i j : ℝ)) = l'.map fun F => (score net (lift F) i j : ℝ) := by
        induction hl with
        | nil => rfl
        | cons a _ ih => rw [List.map_cons, List.map_cons, ih, hsc _ _ a]
      unfold wrong average
      rw [hsum, hl.length_eq])).1 z
  have hw : (fun l : List Ω => wrong (fun F => (score net (lift F) i j : ℝ)) (posterior net linC i j) δ (l.map π)) =
      wrong (fun z => (score net (lift (π z)) i j : ℝ)) (posterior net linC i j) δ := by
    funext l
    unfold wrong average
    rw [List.map_map, List.length_map]
    rfl
  rw [hw] at key
  rw [key]
  exact hC i j s hs 0 m hm (π z) δ hδ

example := C185_metropolis tailed_simple (by decide) 0
example := C185_heat_bath tailed_simple (by decide) 0
example := C185_lists tailed_simple (by decide) 0

end LS

namespace KS

open GP

/-- **C185** for `LSMultiLinkScoreKState`. -/
theorem C185_metropolis {net : Net} {K : ℕ} (h : net.Simple) (hK : 0 < K) (hn : 3 ≤ net.n) :
    ∃ C : ℝ, ∀ (k : Fin K) (i j : Fin net.n) (s : ℕ), 0 < s → ∀ w m, 0 < m → ∀ F δ, 0 < δ →
      ((next (kernel (E net K)))^[w] (run ((next (kernel (E net K)))^[s]) m
        (wrong (guess net K k i j) (posterior net K k i j) δ))) F ≤ C / (m * δ ^ 2) := by
  obtain ⟨C, hC⟩ := metropolis_error hn (E net K)
  refine ⟨C, fun k i j s hs w m hm F δ hδ => ?_⟩
  rw [← C183_posterior h hK]
  exact (hC _ (fun F => (guess_between h hK k i j F).1) (fun F => (guess_between h hK k i j F).2) s hs w m hm F).2 δ hδ

example := C185_metropolis tailed_simple (K := 3) (by norm_num) (by decide)

end KS

namespace BK

open GP LS

variable {net : Net} {L : ℕ → ℕ → ℝ}

/-- **C185** for the Metropolis samplers of multiblock.c and only_deg.c. -/
theorem C185_metropolis (h : net.Simple) (hL : Pattern L) (hn : 3 ≤ net.n) (D : ℕ → ℝ) (linC : ℝ) :
    ∃ C : ℝ, ∀ (i j : Fin net.n) (s : ℕ), 0 < s → ∀ w m, 0 < m → ∀ A δ, 0 < δ →
      ((next (kernel (E (cost L) D net linC)))^[w] (run ((next (kernel (E (cost L) D net linC)))^[s]) m
        (wrong (fun A => score (predict L) net (lift A) i j) (posterior L D net linC i j) δ))) A ≤ C / (m * δ ^ 2) ∧
      ((next (kernel (E (cost L) D net linC)))^[w] (run ((next (kernel (E (cost L) D net linC)))^[s]) m
        (wrong (fun A => score (fun r l => 1 - predict L r l) net (lift A) i j) (1 - posterior L D net linC i j) δ))) A ≤ C / (m * δ ^ 2) := by
  obtain ⟨C, hC⟩ := metropolis_error hn (E (cost L) D net linC)
  refine ⟨C, fun i j s hs w m hm A δ hδ => ⟨?_, ?_⟩⟩
  · rw [← (C184_posterior h hL D linC i j).1]
    exact (hC _ (fun A => by rw [(C184_score h L A i j).1]; exact (expected_between hL A i j).1)
      (fun A => by rw [(C184_score h L A i j).1]; exact (expected_between hL A i j).2) s hs w m hm A).2 δ hδ
  · rw [← (C184_posterior h hL D linC i j).2]
    exact (hC _ (fun A => by rw [(C184_score h L A i j).2]; linarith [(expected_between hL A i j).2])
      (fun A => by rw [(C184_score h L A i j).2]; linarith [(expected_between hL A i j).1]) s hs w m hm A).2 δ hδ

/-- **C185** for the heat-bath samplers of multiblock.c, only_deg.c and sparse_missing.c, steps being sweeps. -/
theorem C185_heat_bath (h : net.Simple) (hL : Pattern L) (hn : 0 < net.n) (D : ℕ → ℝ) (linC : ℝ) :
    ∃ C : ℝ, ∀ (i j : Fin net.n) (s : ℕ), 0 < s → ∀ w m, 0 < m → ∀ A δ, 0 < δ →
      ((sweep (E (cost L) D net linC) (List.finRange net.n))^[w] (run ((sweep (E (cost L) D net linC) (List.finRange net.n))^[s]) m
        (wrong (fun A => score (predict L) net (lift A) i j) (posterior L D net linC i j) δ))) A ≤ C / (m * δ ^ 2) ∧
      ((sweep (E (cost L) D net linC) (List.finRange net.n))^[w] (run ((sweep (E (cost L) D net linC) (List.finRange net.n))^[s]) m
        (wrong (fun A => score (fun r l => 1 - predict L r l) net (lift A) i j) (1 - posterior L D net linC i j) δ))) A ≤ C / (m * δ ^ 2) := by
  obtain ⟨C, hC⟩ := sweep_error hn (E (cost L) D net linC)
  refine ⟨C, fun i j s hs w m hm A δ hδ => ⟨?_, ?_⟩⟩
  · rw [← (C184_posterior h hL D linC i j).1]
    exact (hC _ (fun A => by rw [(C184_score h L A i j).1]; exact (expected_between hL A i j).1)
      (fun A => by rw [(C184_score h L A i j).1]; exact (expected_between hL A i j).2) s hs w m hm A).2 δ hδ
  · rw [← (C184_posterior h hL D linC i j).2]
    exact (hC _ (fun A => by rw [(C184_score h L A i j).2]; linarith [(expected_between hL A i j).2])
      (fun A => by rw [(C184_score h L A i j).2]; linarith [(expected_between hL A i j).1]) s hs w m hm A).2 δ hδ

example := C185_metropolis tailed_simple C184_models.2.1 (by decide) logDeg 0
example := C185_heat_bath tailed_simple C184_models.2.2.1 (by decide) logDeg 0

end BK

namespace RC

open BP (Bi)

variable {b : Bi} {K : ℕ}

theorem round_expect (T : (ℕ → Int) → ℝ) (n1 : 0 < b.n1) (n2 : 0 < b.n2) : Expect (round T b) := by
  have i1 : Nonempty (Fin b.n1) := ⟨⟨0, n1⟩⟩
  have i2 : Nonempty (Fin b.n2) := ⟨⟨0, n2⟩⟩
  refine ⟨fun f g x => ?_, fun a f x => ?_, fun f g h x => ?_, fun x => ?_⟩
  · unfold round
    simp only [(Expect.sweep _ (List.finRange b.n2)).add, (Expect.sweep _ (List.finRange b.n1)).add]
  · unfold round
    simp only [(Expect.sweep _ (List.finRange b.n2)).mul, (Expect.sweep _ (List.finRange b.n1)).mul]
  · exact (Expect.sweep _ (List.finRange b.n1)).le _ _ (fun A => (Expect.sweep _ (List.finRange b.n2)).le _ _ (fun B => h (A, B)) x.2) x.1
  · unfold round
    simp only [(Expect.sweep _ (List.finRange b.n2)).one, (Expect.sweep _ (List.finRange b.n1)).one]

theorem guess_between (hK : 0 < K) (k : Fin K) (i : Fin b.n1) (j : Fin b.n2) (x : (Fin b.n1 → Fin b.n1) × (Fin b.n2 → Fin b.n2)) :
    0 ≤ guess b K k i j x ∧ guess b K k i j x ≤ 1 := estimate_between hK x.1 x.2 k i j

/-- **C185** for `MultiLinkScoreKState` and `MultiLinkScore2State` (`C182_two`). -/
theorem C185_metropolis (hK : 0 < K) (n1 : 3 ≤ b.n1) (n2 : 3 ≤ b.n2) :
    ∃ C : ℝ, ∀ (k : Fin K) (i : Fin b.n1) (j : Fin b.n2) (s : ℕ), 0 < s → ∀ w m, 0 < m → ∀ x δ, 0 < δ →
      ((next (table (TKb K) b (setRatio b)))^[w] (run ((next (table (TKb K) b (setRatio b)))^[s]) m
        (wrong (guess b K k i j) (posterior b K k i j) δ))) x ≤ C / (m * δ ^ 2) := by
  obtain ⟨r0, r1, -⟩ := C175_unique (TKb K) b (by omega) (by omega)
  obtain ⟨p, hp0, hp1, hc⟩ := C180_converges_partial (TKb K) b n1 n2
  obtain ⟨-, -, k3⟩ := C175_balance (TKb K) b (setRatio b)
  have hnn := k3 (by omega) (by omega) (by exact_mod_cast r0.le) (by exact_mod_cast r1.le)
  have q0 : 0 < p ^ (2 * b.n1 + 2 * b.n2) := pow_pos hp0 _
  have q1 := pow_le_one₀ (n := 2 * b.n1 + 2 * b.n2) hp0.le hp1.le
  have i1 : Nonempty (Fin b.n1) := ⟨⟨0, by omega⟩⟩
  have i2 : Nonempty (Fin b.n2) := ⟨⟨0, by omega⟩⟩
  have hP : Expect (next (table (TKb K) b (setRatio b))) := Expect.next (fun x y => hnn _ _ _ _) (fun x => by
    rw [Fintype.sum_prod_type]
    exact mixed_sum (TKb K) b _ x.1 x.2)
  refine ⟨1 + 2 * (((2 * b.n1 + 2 * b.n2 : ℕ) : ℝ) / (1 - (1 - p ^ (2 * b.n1 + 2 * b.n2)))), fun k i j s hs w m hm x δ hδ => ?_⟩
  rw [← C182_posterior hK]
  refine (average_error hP (c := 1 - p ^ (2 * b.n1 + 2 * b.n2)) (by linarith) (by linarith) (N := 2 * b.n1 + 2 * b.n2) (by omega)
    (fun x => (guess_between hK k i j x).1) (fun x => (guess_between hK k i j x).2)
    (mean_bounds _ _ 0 1 (fun x => (guess_between hK k i j x).1) (fun x => (guess_between hK k i j x).2)) (fun l x => ?_) hs w hm x).2 δ hδ
  have := hc l (guess b K k i j) 0 1 (fun x => (guess_between hK k i j x).1) (fun x => (guess_between hK k i j x).2) x
  rwa [sub_zero, mul_one] at this

/-- **C185** for `GibbsMultiLinkScoreKState`. -/
theorem C185_heat_bath (hK : 0 < K) (n1 : 0 < b.n1) (n2 : 0 < b.n2) :
    ∃ C : ℝ, ∀ (k : Fin K) (i : Fin b.n1) (j : Fin b.n2) (s : ℕ), 0 < s → ∀ w m, 0 < m → ∀ x δ, 0 < δ →
      ((round (TKb K) b)^[w] (run ((round (TKb K) b)^[s]) m (wrong (guess b K k i j) (posterior b K k i j) δ))) x ≤ C / (m * δ ^ 2) := by
  obtain ⟨D, hD, hc⟩ := (C179_converges (TKb K) b n1 n2).2
  have i1 : Nonempty (Fin b.n1) := ⟨⟨0, n1⟩⟩
  have i2 : Nonempty (Fin b.n2) := ⟨⟨0, n2⟩⟩
  have hD0 : 0 ≤ D := by have := hD id id id id; linarith
  have hle : ∀ n : ℕ, 0 < n → Real.exp (-D) / n ≤ 1 := by
    intro n hn
    have hn1 : (1 : ℝ) ≤ n := by exact_mod_cast hn
    rw [div_le_one (by linarith)]
    exact (Real.exp_le_one_iff.2 (by linarith)).trans hn1
  have hpos : ∀ n : ℕ, 0 < n → 0 < Real.exp (-D) / n := fun n hn => div_pos (Real.exp_pos _) (by exact_mod_cast hn)
  have q0 : 0 < (Real.exp (-D) / b.n1) ^ b.n1 * (Real.exp (-D) / b.n2) ^ b.n2 := mul_pos (pow_pos (hpos _ n1) _) (pow_pos (hpos _ n2) _)
  have q1 := mul_le_one₀ (pow_le_one₀ (n := b.n1) (hpos _ n1).le (hle _ n1)) (pow_pos (hpos _ n2) b.n2).le
    (pow_le_one₀ (n := b.n2) (hpos _ n2).le (hle _ n2))
  refine ⟨1 + 2 * (((1 : ℕ) : ℝ) / (1 - (1 - (Real.exp (-D) / b.n1) ^ b.n1 * (Real.exp (-D) / b.n2) ^ b.n2))), fun k i j s hs w m hm x δ hδ => ?_⟩
  rw [← C182_posterior hK]
  refine (average_error (round_expect (TKb K) n1 n2) (c := 1 - (Real.exp (-D) / b.n1) ^ b.n1 * (Real.exp (-D) / b.n2) ^ b.n2)
    (by linarith) (by linarith) (N := 1) one_pos
    (fun x => (guess_between hK k i j x).1) (fun x => (guess_between hK k i j x).2)
    (mean_bounds _ _ 0 1 (fun x => (guess_between hK k i j x).1) (fun x => (guess_between hK k i j x).2)) (fun l x => ?_) hs w hm x).2 δ hδ
  have := hc l (guess b K k i j) 0 1 (fun x => (guess_between hK k i j x).1) (fun x => (guess_between hK k i j x).2) x
  rw [sub_zero, mul_one] at this
  rwa [Nat.div_one]

example := C185_heat_bath (b := movies) (K := 2) (by norm_num) (by decide) (by decide)

end RC
