import Verif.Basic.Sweep
import Verif.Group.SAProps
import Verif.Block.GibbsBalance
import Verif.KState.Balance
import Verif.Recommend.GibbsBalance

/-!
# C179, C180: the samplers forget where they started

C172 to C178 tie the steps of the programs to the probabilities `kernel`, `mixed` and `listed` and show that these keep
the Boltzmann distribution. Here it is shown that, from every start, the mean of every function approaches its mean in
that distribution (`mean`), and how fast. Random numbers are supposed to be independent and uniform.
-/

open Finset MH

/-! ## C179: heat bath -/

namespace LS

open GP (Net)

variable {net : Net}

/-- **C179** for `GibbsLinkScoreStep`: every node in turn. For functions `f` of the groups without labels, the mean after
the move of a node is `avg`, whatever the list of groups; it is again such a function; and after `k` sweeps the mean of
`f` is as near to its Boltzmann mean as stated, from every division. -/
theorem C179_converges (h : net.Simple) (hn : 0 < net.n) (linC : ℝ) :
    (∀ f : (Fin net.n → Fin net.n) → ℝ, (∀ A B, SameBlocks A B → f A = f B) →
      (∀ v F S e, (∀ u, F u ∈ S) → (Sᶜ.Nonempty → ∀ u, F u ≠ e) →
        next (listed (E net linC) v S e) f F = avg (E net linC) v f F) ∧
      ∀ vs A B, SameBlocks A B → sweep (E net linC) vs f A = sweep (E net linC) vs f B) ∧
    ∃ D, (∀ A B, E net linC A - E net linC B ≤ D) ∧ ∀ (k : ℕ) (f : (Fin net.n → Fin net.n) → ℝ) (m M : ℝ),
      (∀ A, m ≤ f A) → (∀ A, f A ≤ M) → ∀ F,
        |((sweep (E net linC) (List.finRange net.n))^[k] f) F - mean (E net linC) f| ≤
          (1 - (Real.exp (-D) / net.n) ^ net.n) ^ k * (M - m) := by
  have hE : ∀ A B, SameBlocks A B → E net linC A = E net linC B := fun A B hAB => by
    rw [((C172_labels h linC A).1 A fun _ _ => Iff.rfl).2, ((C172_labels h linC A).1 B hAB).2]
  have : Nonempty (Fin net.n) := ⟨⟨0, hn⟩⟩
  refine ⟨fun f hf => ⟨fun v F S e hS he => listed_avg hS he hf, fun vs A B hs => sweep_blocks hE hf vs A B hs⟩, ?_⟩
  obtain ⟨D, hD⟩ := bounded (E net linC)
  refine ⟨D, hD, fun k f m M a b F => ?_⟩
  have := sweep_converges hD (fun _ => (Fintype.card_fin net.n).le) (fun v => List.mem_finRange v) k f m M a b F
  rwa [List.length_finRange] at this

end LS

namespace BK

open GP (Net)

variable {net : Net}

/-- **C179** for the heat baths of multiblock.c, only_deg.c and the sparse model. -/
theorem C179_converges (h : net.Simple) (hn : 0 < net.n) (F : Int → Int → ℝ) (D : ℕ → ℝ) (linC : ℝ) :
    (∀ f : (Fin net.n → Fin net.n) → ℝ, (∀ A B, SameBlocks A B → f A = f B) →
      (∀ v A S e, (∀ u, A u ∈ S) → (Sᶜ.Nonempty → ∀ u, A u ≠ e) →
        next (listed (E F D net linC) v S e) f A = avg (E F D net linC) v f A) ∧
      ∀ vs A B, SameBlocks A B → sweep (E F D net linC) vs f A = sweep (E F D net linC) vs f B) ∧
    ∃ d, (∀ A B, E F D net linC A - E F D net linC B ≤ d) ∧ ∀ (k : ℕ) (f : (Fin net.n → Fin net.n) → ℝ) (m M : ℝ),
      (∀ A, m ≤ f A) → (∀ A, f A ≤ M) → ∀ A,
        |((sweep (E F D net linC) (List.finRange net.n))^[k] f) A - mean (E F D net linC) f| ≤
          (1 - (Real.exp (-d) / net.n) ^ net.n) ^ k * (M - m) := by
  have hE : ∀ A B, SameBlocks A B → E F D net linC A = E F D net linC B := fun A B hAB => by
    obtain ⟨σ, hσ⟩ := hAB.perm
    exact (E_relabel hσ h F D linC).symm
  have : Nonempty (Fin net.n) := ⟨⟨0, hn⟩⟩
  refine ⟨fun f hf => ⟨fun v A S e hS he => listed_avg hS he hf, fun vs A B hs => sweep_blocks hE hf vs A B hs⟩, ?_⟩
  obtain ⟨d, hd⟩ := bounded (E F D net linC)
  refine ⟨d, hd, fun k f m M a b A => ?_⟩
  have := sweep_converges hd (fun _ => (Fintype.card_fin net.n).le) (fun v => List.mem_finRange v) k f m M a b A
  rwa [List.length_finRange] at this

end BK

namespace RC

open BP (Bi)

/-- Mean of `f` after a step of the heat bath of the recommender: all nodes of the first set, then all of the second. -/
noncomputable def round (T : (ℕ → Int) → ℝ) (b : Bi) (f : (Fin b.n1 → Fin b.n1) × (Fin b.n2 → Fin b.n2) → ℝ)
    (x : (Fin b.n1 → Fin b.n1) × (Fin b.n2 → Fin b.n2)) : ℝ :=
  sweep (fun A => E T b A x.2) (List.finRange b.n1)
    (fun A => sweep (fun B => E T b A B) (List.finRange b.n2) (fun B => f (A, B)) x.2) x.1

theorem sum_sweep {n : ℕ} (hn : 0 < n) (E f : (Fin n → Fin n) → ℝ) (vs : List (Fin n)) :
    ∑ A, Real.exp (-E A) * sweep E vs f A = ∑ A, Real.exp (-E A) * f A := by
  have : Nonempty (Fin n) := ⟨⟨0, hn⟩⟩
  have h := mean_sweep E f vs
  unfold mean at h
  have hp : (∑ A, Real.exp (-E A)) ≠ 0 := (sum_pos (fun _ _ => Real.exp_pos _) univ_nonempty).ne'
  rwa [div_left_inj' hp] at h

/-- **C179** for `GibbsStepKState`. For functions of the groups of both sets without labels, the mean after the move of a
node of the first set is `avg` (of the second: `C178_swap`), whatever the list, and again such a function. After `k`
steps the mean of `f` is as near to its Boltzmann mean as stated, from every pair of divisions. -/
theorem C179_converges (T : (ℕ → Int) → ℝ) (b : Bi) (n1 : 0 < b.n1) (n2 : 0 < b.n2) :
    (∀ f : (Fin b.n1 → Fin b.n1) → ℝ, (∀ A A', SameBlocks A A' → f A = f A') → ∀ B,
      (∀ v A S e, (∀ u, A u ∈ S) → (Sᶜ.Nonempty → ∀ u, A u ≠ e) →
        next (listed (fun A => E T b A B) v S e) f A = avg (fun A => E T b A B) v f A) ∧
      ∀ vs A A' B', SameBlocks A A' → SameBlocks B B' →
        sweep (fun A => E T b A B) vs f A = sweep (fun A => E T b A B') vs f A') ∧
    ∃ D, (∀ A B A' B', E T b A B - E T b A' B' ≤ D) ∧
      ∀ (k : ℕ) (f : (Fin b.n1 → Fin b.n1) × (Fin b.n2 → Fin b.n2) → ℝ) (m M : ℝ), (∀ x, m ≤ f x) → (∀ x, f x ≤ M) →
        ∀ x, |((round T b)^[k] f) x - mean (fun x => E T b x.1 x.2) f| ≤
          (1 - (Real.exp (-D) / b.n1) ^ b.n1 * (Real.exp (-D) / b.n2) ^ b.n2) ^ k * (M - m) := by
  have i1 : Nonempty (Fin b.n1) := ⟨⟨0, n1⟩⟩
  have i2 : Nonempty (Fin b.n2) := ⟨⟨0, n2⟩⟩
  constructor
  · intro f hf B
    refine ⟨fun v A S e hS he => listed_avg hS he hf, fun vs A A' B' hA hB => ?_⟩
    rw [show (fun A => E T b A B) = fun A => E T b A B' from funext fun A => E_labels T b (fun _ _ => Iff.rfl) hB]
    exact sweep_blocks (fun A A' hA => E_labels T b hA fun _ _ => Iff.rfl) hf vs A A' hA
  · obtain ⟨D, hD⟩ := bounded fun x : (Fin b.n1 → Fin b.n1) × (Fin b.n2 → Fin b.n2) => E T b x.1 x.2
    refine ⟨D, fun A B A' B' => hD (A, B) (A', B'), fun k f m M a c x => ?_⟩
    have hD0 : 0 ≤ D := by have := hD x x; linarith
    have hle : ∀ n : ℕ, 0 < n → Real.exp (-D) / n ≤ 1 := by
      intro n hn
      have hn1 : (1 : ℝ) ≤ n := by exact_mod_cast hn
      rw [div_le_one (by linarith)]
      exact (Real.exp_le_one_iff.2 (by linarith)).trans hn1
    have hge : ∀ n : ℕ, 0 ≤ Real.exp (-D) / n := fun n => div_nonneg (Real.exp_pos _).le (Nat.cast_nonneg n)
    refine contract (mul_le_one₀ (pow_le_one₀ (hge _) (hle _ n1)) (pow_nonneg (hge _) _) (pow_le_one₀ (hge _) (hle _ n2)))
      ?_ ?_ ?_ (mean_bounds _) k f m M a c x
    · intro f m h x y
      have s1 := sweep_ge (E := fun A => E T b A x.2) (D := D) (fun A A' => hD (A, x.2) (A', x.2)) (N := b.n1)
        (fun _ => (Fintype.card_fin b.n1).le) (m := m)
        (f := fun A => sweep (fun B => E T b A B) (List.finRange b.n2) (fun B => f (A, B)) x.2)
        (fun A => sweep_low (fun B => h (A, B)) _ _) y.1 (List.finRange b.n1) x.1
        (fun v hv => absurd (List.mem_finRange v) hv)
      have s2 := sweep_ge (E := fun B => E T b y.1 B) (D := D) (fun B B' => hD (y.1, B) (y.1, B')) (N := b.n2)
        (fun _ => (Fintype.card_fin b.n2).le) (m := m) (f := fun B => f (y.1, B)) (fun B => h (y.1, B)) y.2
        (List.finRange b.n2) x.2 (fun v hv => absurd (List.mem_finRange v) hv)
      rw [List.length_finRange] at s1 s2
      refine le_trans ?_ s1
      have := mul_le_mul_of_nonneg_left s2 (pow_nonneg (hge b.n1) b.n1)
      have e : f (y.1, y.2) = f y := rfl
      rw [e] at this
      nlinarith
    · intro f M h x
      exact sweep_le (fun A => sweep_le (fun B => h (A, B)) _ _) _ _
    · intro f
      unfold mean round
      congr 1
      rw [Fintype.sum_prod_type_right, Fintype.sum_prod_type]
      have e1 : ∀ B, ∑ A, Real.exp (-E T b A B) * sweep (fun A => E T b A B) (List.finRange b.n1)
          (fun A => sweep (fun B => E T b A B) (List.finRange b.n2) (fun B => f (A, B)) B) A =
          ∑ A, Real.exp (-E T b A B) * sweep (fun B => E T b A B) (List.finRange b.n2) (fun B => f (A, B)) B :=
        fun B => sum_sweep n1 (fun A => E T b A B) _ _
      rw [sum_congr rfl fun B _ => e1 B, sum_comm]
      exact sum_congr rfl fun A _ => sum_sweep n2 (fun B => E T b A B) _ _

end RC

/-! ## C180: Metropolis -/

/-- **C180** for `LinkScoreMCStep`, one attempt at a time. -/
theorem LS.C180_converges_partial (net : GP.Net) (hn : 3 ≤ net.n) (linC : ℝ) :
    ∃ D, (∀ A B, LS.E net linC A - LS.E net linC B ≤ D) ∧ ∀ (j : ℕ) (f : (Fin net.n → Fin net.n) → ℝ) (m M : ℝ),
      (∀ A, m ≤ f A) → (∀ A, f A ≤ M) → ∀ A, |((next (kernel (LS.E net linC)))^[j] f) A - mean (LS.E net linC) f| ≤
        (1 - (Real.exp (-D) / (net.n * ((net.n : ℝ) - 1))) ^ (2 * net.n)) ^ (j / (2 * net.n)) * (M - m) := by
  have : Nonempty (Fin net.n) := ⟨⟨0, by omega⟩⟩
  obtain ⟨D, hD⟩ := bounded (LS.E net linC)
  exact ⟨D, hD, fun j f m M a b A => metropolis_converges hn hD j f m M a b A⟩

/-- **C180** for the Metropolis steps of multiblock.c, only_deg.c and the sparse model. -/
theorem BK.C180_converges_partial (F : Int → Int → ℝ) (D : ℕ → ℝ) (net : GP.Net) (hn : 3 ≤ net.n) (linC : ℝ) :
    ∃ d, (∀ A B, BK.E F D net linC A - BK.E F D net linC B ≤ d) ∧ ∀ (j : ℕ) (f : (Fin net.n → Fin net.n) → ℝ) (m M : ℝ),
      (∀ A, m ≤ f A) → (∀ A, f A ≤ M) → ∀ A, |((next (kernel (BK.E F D net linC)))^[j] f) A - mean (BK.E F D net linC) f| ≤
        (1 - (Real.exp (-d) / (net.n * ((net.n : ℝ) - 1))) ^ (2 * net.n)) ^ (j / (2 * net.n)) * (M - m) := by
  have : Nonempty (Fin net.n) := ⟨⟨0, by omega⟩⟩
  obtain ⟨d, hd⟩ := bounded (BK.E F D net linC)
  exact ⟨d, hd, fun j f m M a b A => metropolis_converges hn hd j f m M a b A⟩

/-- **C180** for `LSMCStepKState`. -/
theorem KS.C180_converges_partial (net : GP.Net) (hn : 3 ≤ net.n) (K : ℕ) :
    ∃ D, (∀ A B, KS.E net K A - KS.E net K B ≤ D) ∧ ∀ (j : ℕ) (f : (Fin net.n → Fin net.n) → ℝ) (m M : ℝ),
      (∀ A, m ≤ f A) → (∀ A, f A ≤ M) → ∀ A, |((next (kernel (KS.E net K)))^[j] f) A - mean (KS.E net K) f| ≤
        (1 - (Real.exp (-D) / (net.n * ((net.n : ℝ) - 1))) ^ (2 * net.n)) ^ (j / (2 * net.n)) * (M - m) := by
  have : Nonempty (Fin net.n) := ⟨⟨0, by omega⟩⟩
  obtain ⟨D, hD⟩ := bounded (KS.E net K)
  exact ⟨D, hD, fun j f m M a b A => metropolis_converges hn hD j f m M a b A⟩

/-- `RC.mixed` as a table of probabilities of pairs of divisions. -/
noncomputable def RC.table (T : (ℕ → Int) → ℝ) (b : BP.Bi) (r : ℝ) (x y : (Fin b.n1 → Fin b.n1) × (Fin b.n2 → Fin b.n2)) : ℝ :=
  RC.mixed T b r x.1 x.2 y.1 y.2

theorem RC.mixed_first (T : (ℕ → Int) → ℝ) (b : BP.Bi) {r : ℝ} (r0 : 0 ≤ r) (r1 : r ≤ 1) (n2 : 2 ≤ b.n2)
    {A A' : Fin b.n1 → Fin b.n1} (B : Fin b.n2 → Fin b.n2) {p : ℝ} (hp : p ≤ kernel (fun A => RC.E T b A B) A A') :
    r * p ≤ RC.mixed T b r A B A' B := by
  unfold RC.mixed
  rw [if_pos rfl]
  refine le_trans (mul_le_mul_of_nonneg_left hp r0) (le_add_of_nonneg_right ?_)
  split_ifs
  · exact mul_nonneg (by linarith) (kernel_nonneg n2 _ _ _)
  · exact le_refl 0

theorem RC.mixed_second (T : (ℕ → Int) → ℝ) (b : BP.Bi) {r : ℝ} (r0 : 0 ≤ r) (r1 : r ≤ 1) (n1 : 2 ≤ b.n1)
    (A : Fin b.n1 → Fin b.n1) {B B' : Fin b.n2 → Fin b.n2} {p : ℝ} (hp : p ≤ kernel (fun B => RC.E T b A B) B B') :
    (1 - r) * p ≤ RC.mixed T b r A B A B' := by
  unfold RC.mixed
  rw [if_pos (c := A = A) rfl]
  refine le_trans (mul_le_mul_of_nonneg_left hp (by linarith)) (le_add_of_nonneg_left ?_)
  split_ifs
  · exact mul_nonneg r0 (kernel_nonneg n1 _ _ _)
  · exact le_refl 0

/-- The steps that choose the first set with probability `r`. -/
theorem RC.mixed_converges (T : (ℕ → Int) → ℝ) (b : BP.Bi) (n1 : 3 ≤ b.n1) (n2 : 3 ≤ b.n2) {r : ℝ} (r0 : 0 < r) (r1 : r < 1) :
    ∃ p : ℝ, 0 < p ∧ p < 1 ∧ ∀ (j : ℕ) (f : (Fin b.n1 → Fin b.n1) × (Fin b.n2 → Fin b.n2) → ℝ) (m M : ℝ),
      (∀ x, m ≤ f x) → (∀ x, f x ≤ M) → ∀ x,
        |((next (RC.table T b r))^[j] f) x - mean (fun x => RC.E T b x.1 x.2) f| ≤
          (1 - p ^ (2 * b.n1 + 2 * b.n2)) ^ (j / (2 * b.n1 + 2 * b.n2)) * (M - m) := by
  have i1 : Nonempty (Fin b.n1) := ⟨⟨0, by omega⟩⟩
  have i2 : Nonempty (Fin b.n2) := ⟨⟨0, by omega⟩⟩
  obtain ⟨-, k2, k3⟩ := RC.C175_balance T b r
  have hnn := k3 (by omega) (by omega) r0.le r1.le
  obtain ⟨D, hD⟩ := bounded fun x : (Fin b.n1 → Fin b.n1) × (Fin b.n2 → Fin b.n2) => RC.E T b x.1 x.2
  have hD0 : 0 ≤ D := by have := hD (id, id) (id, id); linarith
  have hq : ∀ n : ℕ, 3 ≤ n → 0 < Real.exp (-D) / (n * ((n : ℝ) - 1)) ∧ Real.exp (-D) / (n * ((n : ℝ) - 1)) ≤ 1 := by
    intro n hn
    have h : (3 : ℝ) ≤ n := by exact_mod_cast hn
    refine ⟨div_pos (Real.exp_pos _) (by nlinarith), ?_⟩
    rw [div_le_one (by nlinarith)]
    exact (Real.exp_le_one_iff.2 (by linarith)).trans (by nlinarith)
  obtain ⟨q1, q3⟩ := hq b.n1 n1
  obtain ⟨q2, -⟩ := hq b.n2 n2
  have st1 : ∀ (x : (Fin b.n1 → Fin b.n1) × (Fin b.n2 → Fin b.n2)) (A : Fin b.n1 → Fin b.n1),
      Steps (kernel fun A => RC.E T b A x.2) (Real.exp (-D) / (b.n1 * ((b.n1 : ℝ) - 1))) (2 * b.n1) x.1 A := by
    intro x A
    have := kernel_steps n1 (E := fun A => RC.E T b A x.2) (D := D) (fun A A' => hD (A, x.2) (A', x.2)) A
      (List.finRange b.n1) x.1 (fun v hv => absurd (List.mem_finRange v) hv)
    rwa [List.length_finRange] at this
  have st2 : ∀ (A : Fin b.n1 → Fin b.n1) (B B' : Fin b.n2 → Fin b.n2),
      Steps (kernel fun B => RC.E T b A B) (Real.exp (-D) / (b.n2 * ((b.n2 : ℝ) - 1))) (2 * b.n2) B B' := by
    intro A B B'
    have := kernel_steps n2 (E := fun B => RC.E T b A B) (D := D) (fun B B' => hD (A, B) (A, B')) B'
      (List.finRange b.n2) B (fun v hv => absurd (List.mem_finRange v) hv)
    rwa [List.length_finRange] at this
  generalize Real.exp (-D) / (b.n1 * ((b.n1 : ℝ) - 1)) = p1 at q1 q3 st1
  generalize Real.exp (-D) / (b.n2 * ((b.n2 : ℝ) - 1)) = p2 at q2 st2
  have hp0 : 0 < min (r * p1) ((1 - r) * p2) := lt_min (mul_pos r0 q1) (mul_pos (by linarith) q2)
  have hplt : min (r * p1) ((1 - r) * p2) < 1 := lt_of_le_of_lt (min_le_left _ _) (by nlinarith)
  have hle1 := min_le_left (r * p1) ((1 - r) * p2)
  have hle2 := min_le_right (r * p1) ((1 - r) * p2)
  generalize min (r * p1) ((1 - r) * p2) = p at hp0 hplt hle1 hle2
  refine ⟨p, hp0, hplt, fun j f m M a c x => ?_⟩
  have t0 : ∀ x y, 0 ≤ RC.table T b r x y := fun x y => hnn _ _ _ _
  have t1 : ∀ x, ∑ y, RC.table T b r x y = 1 := by
    intro x
    rw [Fintype.sum_prod_type]
    exact RC.mixed_sum T b r x.1 x.2
  have t2 : ∀ y, ∑ x, Real.exp (-RC.E T b x.1 x.2) * RC.table T b r x y = Real.exp (-RC.E T b y.1 y.2) := by
    intro y
    rw [Fintype.sum_prod_type]
    exact k2 y.1 y.2
  have t3 : ∀ x y, Steps (RC.table T b r) p (2 * b.n1 + 2 * b.n2) x y := by
    intro x y
    have a1 : Steps (RC.table T b r) p (2 * b.n1) (x.1, x.2) (y.1, x.2) :=
      Steps.map (fun A => (A, x.2)) (fun A A' hA => hle1.trans (RC.mixed_first T b r0.le r1.le (by omega) x.2 hA)) (st1 x y.1)
    have a2 : Steps (RC.table T b r) p (2 * b.n2) (y.1, x.2) (y.1, y.2) :=
      Steps.map (fun B => (y.1, B)) (fun B B' hB => hle2.trans (RC.mixed_second T b r0.le r1.le (by omega) y.1 hB)) (st2 y.1 x.2 y.2)
    exact a1.trans a2
  exact next_converges (Ω := (Fin b.n1 → Fin b.n1) × (Fin b.n2 → Fin b.n2)) (k := RC.table T b r) (p := p)
    (N := 2 * b.n1 + 2 * b.n2) (E := fun x => RC.E T b x.1 x.2) t0 t1 t2 hp0.le hplt.le t3 j f m M a c x

/-- **C180** for the Metropolis steps of the recommender, which choose one of the two sets first. -/
theorem RC.C180_converges_partial (T : (ℕ → Int) → ℝ) (b : BP.Bi) (n1 : 3 ≤ b.n1) (n2 : 3 ≤ b.n2) :
    ∃ p : ℝ, 0 < p ∧ p < 1 ∧ ∀ (j : ℕ) (f : (Fin b.n1 → Fin b.n1) × (Fin b.n2 → Fin b.n2) → ℝ) (m M : ℝ),
      (∀ x, m ≤ f x) → (∀ x, f x ≤ M) → ∀ x,
        |((next (RC.table T b (RC.setRatio b)))^[j] f) x - mean (fun x => RC.E T b x.1 x.2) f| ≤
          (1 - p ^ (2 * b.n1 + 2 * b.n2)) ^ (j / (2 * b.n1 + 2 * b.n2)) * (M - m) := by
  obtain ⟨r0, r1, -⟩ := RC.C175_unique T b (by omega) (by omega)
  exact RC.mixed_converges T b n1 n2 (by exact_mod_cast r0) (by exact_mod_cast r1)

/-- All divisions of two linked nodes have the same energy. -/
theorem LS.pair_energy (F : Fin 2 → Fin 2) : LS.E GP.pair 0 F = Real.log 2 := by
  have hF : F = ![F 0, F 1] := by
    funext i
    fin_cases i <;> rfl
  have hc : ∀ a b : Fin 2, (GP.pair.n - (LS.used GP.pair (lift ![a, b])).card).factorial = 1 ∧
      (∀ g < 2, ∀ g' < 2, (LS.pairs GP.pair (lift ![a, b]) g g').toNat.choose (LS.links GP.pair (lift ![a, b]) g g').toNat = 1 ∨ g' < g) ∧
      (LS.pairs GP.pair (lift ![a, b]) 0 0, LS.pairs GP.pair (lift ![a, b]) 1 1, LS.pairs GP.pair (lift ![a, b]) 0 1) ∈
        [((1, 0, 0) : Int × Int × Int), (0, 1, 0), (0, 0, 1)] := by
    decide +kernel
  obtain ⟨c1, c2, c3⟩ := hc (F 0) (F 1)
  rw [← hF] at c1 c2 c3
  have hT : ∀ g < 2, ∀ g' < 2, g ≤ g' → LS.T GP.pair (lift F) g g' = Real.log ((LS.pairs GP.pair (lift F) g g' : ℝ) + 1) := by
    intro g hg g' hg' hle
    rcases c2 g hg g' hg' with e | e
    · unfold LS.T
      rw [e]
      simp
    · omega
  change LS.energy GP.pair 0 (lift (n := 2) F) = _
  unfold LS.energy
  rw [c1]
  have hr : Finset.range GP.pair.n = {0, 1} := rfl
  rw [hr, sum_pair (by norm_num), sum_pair (by norm_num), hT 0 (by norm_num) 0 (by norm_num) le_rfl,
    hT 1 (by norm_num) 1 (by norm_num) le_rfl, show ({0, 1} : Finset ℕ).filter (0 < ·) = {1} from rfl,
    show ({0, 1} : Finset ℕ).filter (1 < ·) = ∅ from rfl, sum_singleton, sum_empty, hT 0 (by norm_num) 1 (by norm_num) (by norm_num)]
  simp only [List.mem_cons, List.not_mem_nil, or_false, Prod.mk.injEq] at c3
  rcases c3 with ⟨e1, e2, e3⟩ | ⟨e1, e2, e3⟩ | ⟨e1, e2, e3⟩ <;> rw [e1, e2, e3] <;> norm_num

/-- Two linked nodes are in one group after every second attempt and in two groups after the others, for ever. -/
theorem LS.C180_alternates (j : ℕ) (F : Fin 2 → Fin 2) :
    ((next (kernel (LS.E GP.pair 0)))^[j] together) F = (-1) ^ j * together F :=
  alternates (fun A B => (LS.pair_energy A).trans (LS.pair_energy B).symm) j F

/-- **C180**, in full: with two nodes or more the means approach the Boltzmann means. -/
def LS.C180_full : Prop :=
  ∀ net : GP.Net, net.Simple → 2 ≤ net.n → ∀ (linC : ℝ) (f : (Fin net.n → Fin net.n) → ℝ) (A : Fin net.n → Fin net.n),
    ∀ ε > 0, ∃ J, ∀ j ≥ J, |((next (kernel (LS.E net linC)))^[j] f) A - mean (LS.E net linC) f| ≤ ε

theorem LS.pair_simple : GP.pair.Simple := by
  refine ⟨?_, ?_, ?_, ?_⟩
  · intro i
    match i with
    | 0 => decide
    | 1 => decide
    | _ + 2 => simp [GP.pair]
  · intro i
    match i with
    | 0 => decide
    | 1 => decide
    | _ + 2 => simp [GP.pair]
  · intro i j
    match i, j with
    | 0, 0 => rfl
    | 0, 1 => rfl
    | 1, 0 => rfl
    | 1, 1 => rfl
    | 0, _ + 2 => rfl
    | 1, _ + 2 => rfl
    | _ + 2, 0 => rfl
    | _ + 2, 1 => rfl
    | _ + 2, _ + 2 => rfl
  · intro i
    match i with
    | 0 => rfl
    | 1 => rfl
    | _ + 2 => rfl

/-- **C180** is refuted by two linked nodes. -/
theorem LS.C180_two_refuted : ¬ LS.C180_full := by
  intro h
  obtain ⟨J, hJ⟩ := h GP.pair LS.pair_simple (by decide) 0 together (fun _ => ⟨0, by decide⟩) (1 / 2) (by norm_num)
  have h1 := hJ (2 * J) (by omega)
  have h2 := hJ (2 * J + 1) (by omega)
  have v1 : (-1 : ℝ) ^ (2 * J) * together (fun _ => (0 : Fin 2)) = 1 := by
    rw [pow_mul]
    norm_num [together]
  have v2 : (-1 : ℝ) ^ (2 * J + 1) * together (fun _ => (0 : Fin 2)) = -1 := by
    rw [pow_succ, pow_mul]
    norm_num [together]
  have e1 : ((next (kernel (LS.E GP.pair 0)))^[2 * J] together) (fun _ => ⟨0, by decide⟩) = 1 :=
    (LS.C180_alternates (2 * J) _).trans v1
  have e2 : ((next (kernel (LS.E GP.pair 0)))^[2 * J + 1] together) (fun _ => ⟨0, by decide⟩) = -1 :=
    (LS.C180_alternates (2 * J + 1) _).trans v2
  have k1 := abs_le.1 (e1 ▸ h1)
  have k2 := abs_le.1 (e2 ▸ h2)
  linarith [k1.1, k1.2, k2.1, k2.2]

example : ((next (kernel (LS.E GP.pair 0)))^[4] together) (![0, 1] : Fin 2 → Fin 2) = -1 := by
  rw [LS.C180_alternates]
  norm_num [together]

example := LS.C180_converges_partial GP.tailed (by decide) 0
example := LS.C179_converges GP.tailed_simple (by decide) 0

/-- **C180**: how likely each change of one node is proposed by the recommender (the set, times the node, times the
group). Changes in the two sets are not equally likely unless the sets are equally large: a change in the smaller set is
more likely. -/
theorem RC.C180_proposals (b : BP.Bi) (n1 : 2 ≤ b.n1) (n2 : 2 ≤ b.n2) :
    RC.setRatio b * (1 / b.n1) * (1 / (b.n1 - 1)) = (b.n1 + 1) / (b.n1 * ((b.n1 : ℚ) ^ 2 + (b.n2 : ℚ) ^ 2 - 2)) ∧
    (1 - RC.setRatio b) * (1 / b.n2) * (1 / (b.n2 - 1)) = (b.n2 + 1) / (b.n2 * ((b.n1 : ℚ) ^ 2 + (b.n2 : ℚ) ^ 2 - 2)) ∧
    (RC.setRatio b * (1 / b.n1) * (1 / (b.n1 - 1)) < (1 - RC.setRatio b) * (1 / b.n2) * (1 / (b.n2 - 1)) ↔ b.n2 < b.n1) := by
  have h1 : (2 : ℚ) ≤ b.n1 := by exact_mod_cast n1
  have h2 : (2 : ℚ) ≤ b.n2 := by exact_mod_cast n2
  have hd : (0 : ℚ) < (b.n1 : ℚ) ^ 2 + (b.n2 : ℚ) ^ 2 - 2 := by nlinarith
  have hd' : (b.n1 : ℚ) * b.n1 + (b.n2 : ℚ) * b.n2 - 2 ≠ 0 := by nlinarith
  have a1 : (b.n1 : ℚ) - 1 ≠ 0 := by linarith
  have a2 : (b.n2 : ℚ) - 1 ≠ 0 := by linarith
  have b1 : (b.n1 : ℚ) ≠ 0 := by linarith
  have b2 : (b.n2 : ℚ) ≠ 0 := by linarith
  have e1 : RC.setRatio b * (1 / b.n1) * (1 / (b.n1 - 1)) = (b.n1 + 1) / (b.n1 * ((b.n1 : ℚ) ^ 2 + (b.n2 : ℚ) ^ 2 - 2)) := by
    unfold RC.setRatio
    rw [show (b.n1 : ℚ) * b.n1 - 1 = (b.n1 - 1) * (b.n1 + 1) by ring]
    field_simp
  have e2 : (1 - RC.setRatio b) * (1 / b.n2) * (1 / (b.n2 - 1)) = (b.n2 + 1) / (b.n2 * ((b.n1 : ℚ) ^ 2 + (b.n2 : ℚ) ^ 2 - 2)) := by
    unfold RC.setRatio
    rw [one_sub_div hd', show (b.n1 : ℚ) * b.n1 + (b.n2 : ℚ) * b.n2 - 2 - ((b.n1 : ℚ) * b.n1 - 1) = (b.n2 - 1) * (b.n2 + 1) by ring]
    field_simp
  refine ⟨e1, e2, ?_⟩
  rw [e1, e2, div_lt_div_iff₀ (by nlinarith) (by nlinarith)]
  have : ∀ x y d : ℚ, 0 < d → ((x + 1) * (y * d) < (y + 1) * (x * d) ↔ y < x) := by
    intro x y d h
    constructor
    · intro hh
      by_contra hc
      nlinarith
    · intro hh
      nlinarith
  rw [this _ _ _ hd]
  exact Nat.cast_lt

example : RC.setRatio RC.movies * (1 / 2) * (1 / (2 - 1)) = 1 / 4 := by norm_num [RC.setRatio, RC.movies]
