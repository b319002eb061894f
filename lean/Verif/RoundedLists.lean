import Verif.RoundedSweep

/-!
# C186 for the heat bath with its list of groups

The heat-bath steps keep a list of groups and choose among these and one empty group, to which they give the weights of all
the empty groups (missing.c:2266-2287). The list is part of the state. `Tracks` says that a step on such states changes the
means of functions of the groups by at most `η` times their spread; the steps of a sweep add up.
-/

open Finset

namespace MH

variable {Ω : Type*} {n : ℕ}

/-- The step `Q` on states `z` with a division `π z` has the means of `P` to within `η` times the spread, for functions that
do not see the labels. -/
def Tracks (π : Ω → Fin n → Fin n) (Q : (Ω → ℝ) → Ω → ℝ) (P : ((Fin n → Fin n) → ℝ) → (Fin n → Fin n) → ℝ) (η : ℝ) : Prop :=
  ∀ (f : (Fin n → Fin n) → ℝ) (m w : ℝ), (∀ A B, SameBlocks A B → f A = f B) → (∀ F, m ≤ f F) → (∀ F, f F ≤ m + w) →
    ∀ z, |Q (fun z => f (π z)) z - P f (π z)| ≤ η * w

/-- Steps at these nodes, the first one first. -/
def inTurn (Q : Fin n → (Ω → ℝ) → Ω → ℝ) : List (Fin n) → (Ω → ℝ) → Ω → ℝ
  | [], f => f
  | v :: vs, f => Q v (inTurn Q vs f)

theorem inTurn_expect {Q : Fin n → (Ω → ℝ) → Ω → ℝ} (hQ : ∀ v, Expect (Q v)) : ∀ vs, Expect (inTurn Q vs)
  | [] => ⟨fun _ _ _ => rfl, fun _ _ _ => rfl, fun _ _ h => h, fun _ => rfl⟩
  | v :: vs => (hQ v).comp (inTurn_expect hQ vs)

/-- Two functions that are near everywhere have near means. -/
theorem Expect.near {Q : (Ω → ℝ) → Ω → ℝ} (hQ : Expect Q) {f g : Ω → ℝ} {b : ℝ} (h : ∀ z, |f z - g z| ≤ b) (z : Ω) :
    |Q f z - Q g z| ≤ b := by
  have up := hQ.le f (fun z => g z + b) (fun z => by linarith [(abs_le.1 (h z)).2]) z
  have lo := hQ.le g (fun z => f z + b) (fun z => by linarith [(abs_le.1 (h z)).1]) z
  have a1 := hQ.add g (fun _ => b) z
  have a2 := hQ.add f (fun _ => b) z
  rw [hQ.const] at a1 a2
  rw [abs_le]
  constructor <;> linarith

/-- **C186**: the steps of a sweep add up. -/
theorem C186_in_turn [Nonempty (Fin n)] {E : (Fin n → Fin n) → ℝ} (hE : ∀ A B, SameBlocks A B → E A = E B) {π : Ω → Fin n → Fin n}
    {Q : Fin n → (Ω → ℝ) → Ω → ℝ} (hQ : ∀ v, Expect (Q v)) {η : ℝ} (h : ∀ v, Tracks π (Q v) (avg E v) η) :
    ∀ vs, Tracks π (inTurn Q vs) (sweep E vs) (vs.length * η)
  | [], f, m, w, _, _, _, z => by simp [inTurn, sweep]
  | v :: vs, f, m, w, hf, f0, f1, z => by
    have ih := C186_in_turn hE hQ h vs f m w hf f0 f1
    have a := (hQ v).near ih z
    have b := h v (sweep E vs f) m w (fun A B hs => sweep_blocks hE hf vs A B hs) (sweep_low f0 vs) (sweep_le f1 vs) z
    have e : ((v :: vs).length : ℝ) * η * w = vs.length * η * w + η * w := by
      rw [List.length_cons]
      push_cast
      ring
    rw [e]
    exact (abs_sub_le _ (Q v (fun z => sweep E vs f (π z)) z) _).trans (add_le_add a b)

/-- Weights that are near those of the heat bath with all the empty groups as one. -/
theorem C186_listed [Nonempty (Fin n)] {E : (Fin n → Fin n) → ℝ} {v : Fin n} {S : Finset (Fin n)} {e : Fin n} {F : Fin n → Fin n}
    (hS : ∀ u, F u ∈ S) (he : Sᶜ.Nonempty → ∀ u, F u ≠ e) {r : Fin n → ℝ} {r0 t : ℝ} (hr : ∑ a ∈ S, r a + r0 = 1)
    (hp : ∀ a ∈ S, |r a - Real.exp (-E (Function.update F v a)) / ∑ b, Real.exp (-E (Function.update F v b))| ≤ t)
    (h0 : |r0 - (∑ a ∈ Sᶜ, Real.exp (-E (Function.update F v a))) / ∑ b, Real.exp (-E (Function.update F v b))| ≤ t)
    {f : (Fin n → Fin n) → ℝ} (hf : ∀ A B, SameBlocks A B → f A = f B) {m w : ℝ} (f0 : ∀ A, m ≤ f A) (f1 : ∀ A, f A ≤ m + w) :
    |∑ a ∈ S, r a * f (Function.update F v a) + r0 * f (Function.update F v e) - avg E v f F| ≤ (n + 1) * t * w := by
  have w0 : 0 ≤ w := by linarith [f0 F, f1 F]
  have t0 : 0 ≤ t := (abs_nonneg _).trans h0
  obtain ⟨Z, hZ⟩ : ∃ Z, Z = ∑ b, Real.exp (-E (Function.update F v b)) := ⟨_, rfl⟩
  have hZ0 : 0 < Z := hZ ▸ avg_pos E v F
  obtain ⟨p, hpd⟩ : ∃ p : Fin n → ℝ, p = fun a => Real.exp (-E (Function.update F v a)) / Z := ⟨_, rfl⟩
  have hp1 : ∑ a ∈ S, p a + ∑ a ∈ Sᶜ, p a = 1 := by
    rw [sum_add_sum_compl, hpd, ← sum_div, ← hZ]
    exact div_self hZ0.ne'
  have hsame : ∀ a ∈ Sᶜ, f (Function.update F v a) = f (Function.update F v e) := by
    intro a ha
    have hne : ∀ u, F u ≠ a := fun u hu => by
      have := mem_compl.1 ha
      exact this (hu ▸ hS u)
    have hne' := he ⟨a, ha⟩
    refine hf _ _ fun x y => ?_
    by_cases hx : x = v <;> by_cases hy : y = v
    · simp [hx, hy]
    · subst hx
      simp [Function.update_of_ne hy, (hne y).symm, (hne' y).symm]
    · subst hy
      simp [Function.update_of_ne hx, hne x, hne' x]
    · simp [Function.update_of_ne hx, Function.update_of_ne hy]
  have havg : avg E v f F = ∑ a ∈ S, p a * f (Function.update F v a) + (∑ a ∈ Sᶜ, p a) * f (Function.update F v e) := by
    have : avg E v f F = ∑ a, p a * f (Function.update F v a) := by
      unfold avg
      rw [← hZ, sum_div, hpd]
      exact sum_congr rfl fun a _ => by ring
    rw [this, ← sum_add_sum_compl S, sum_mul]
    congr 1
    exact sum_congr rfl fun a ha => by rw [hsame a ha]
  have hdiff : ∑ a ∈ S, r a * f (Function.update F v a) + r0 * f (Function.update F v e) - avg E v f F =
      ∑ a ∈ S, (r a - p a) * (f (Function.update F v a) - m) + (r0 - ∑ a ∈ Sᶜ, p a) * (f (Function.update F v e) - m) := by
    rw [havg]
    simp only [sub_mul, mul_sub, sum_sub_distrib, ← sum_mul]
    have : (∑ a ∈ S, r a - ∑ a ∈ S, p a) * m + (r0 - ∑ a ∈ Sᶜ, p a) * m = 0 := by
      rw [← add_mul]
      have : ∑ a ∈ S, r a - ∑ a ∈ S, p a + (r0 - ∑ a ∈ Sᶜ, p a) = 0 := by linarith
      rw [this, zero_mul]
    linarith
  have hfm : ∀ A, |f A - m| ≤ w := fun A => by
    rw [abs_of_nonneg (by linarith [f0 A])]
    linarith [f1 A]
  rw [hdiff]
  refine (abs_add_le _ _).trans ?_
  have s1 : |∑ a ∈ S, (r a - p a) * (f (Function.update F v a) - m)| ≤ n * (t * w) := by
    refine (abs_sum_le_sum_abs _ _).trans ?_
    calc _ ≤ ∑ _a ∈ S, t * w := sum_le_sum fun a ha => by
          rw [abs_mul]
          refine mul_le_mul ?_ (hfm _) (abs_nonneg _) t0
          have := hp a ha
          rw [← hZ] at this
          rw [hpd]
          exact this
      _ = S.card * (t * w) := by rw [sum_const, nsmul_eq_mul]
      _ ≤ n * (t * w) := by
          refine mul_le_mul_of_nonneg_right ?_ (mul_nonneg t0 w0)
          exact_mod_cast (card_le_univ S).trans_eq (Fintype.card_fin n)
  have s2 : |(r0 - ∑ a ∈ Sᶜ, p a) * (f (Function.update F v e) - m)| ≤ t * w := by
    rw [abs_mul]
    refine mul_le_mul ?_ (hfm _) (abs_nonneg _) t0
    rw [← hZ, sum_div] at h0
    rw [hpd]
    exact h0
  refine (add_le_add s1 s2).trans (le_of_eq ?_)
  ring

/-- As `perturb`, for steps on states with more detail. -/
theorem perturb_tracks {π : Ω → Fin n → Fin n} {P : ((Fin n → Fin n) → ℝ) → (Fin n → Fin n) → ℝ} {Q : (Ω → ℝ) → Ω → ℝ} (hQ : Expect Q)
    {η : ℝ} (hη : 0 ≤ η) (h : Tracks π Q P η)
    (hP : ∀ f, (∀ A B, SameBlocks A B → f A = f B) → ∀ A B, SameBlocks A B → P f A = P f B)
    {f : (Fin n → Fin n) → ℝ} (hf : ∀ A B, SameBlocks A B → f A = f B) {μ c : ℝ} (c0 : 0 ≤ c) (c1 : c < 1)
    (hconv : ∀ k F, |(P^[k] f) F - μ| ≤ c ^ k) (k : ℕ) (z : Ω) :
    |(Q^[k] fun z => f (π z)) z - μ| ≤ c ^ k + 2 * η * (1 / (1 - c)) := by
  have hinv : ∀ k, ∀ A B, SameBlocks A B → (P^[k] f) A = (P^[k] f) B := by
    intro k
    induction k with
    | zero => exact hf
    | succ k ih =>
      rw [Function.iterate_succ_apply']
      exact hP _ ih
  have key : ∀ k z, |(Q^[k] fun z => f (π z)) z - (P^[k] f) (π z)| ≤ 2 * η * ∑ j ∈ range k, c ^ j := by
    intro k
    induction k with
    | zero => intro z; simp
    | succ k ih =>
      intro z
      rw [Function.iterate_succ_apply', Function.iterate_succ_apply', sum_range_succ, mul_add]
      have a := hQ.near ih z
      have b := h (P^[k] f) (μ - c ^ k) (2 * c ^ k) (hinv k) (fun F => by linarith [(abs_le.1 (hconv k F)).1])
        (fun F => by linarith [(abs_le.1 (hconv k F)).2]) z
      refine (abs_sub_le _ (Q (fun z => (P^[k] f) (π z)) z) _).trans (add_le_add a (b.trans (le_of_eq ?_)))
      ring
  have hs : ∑ j ∈ range k, c ^ j ≤ 1 / (1 - c) := by
    have := sum_geometric c0 c1 one_pos k
    simpa using this
  have hs' := mul_le_mul_of_nonneg_left hs (show 0 ≤ 2 * η by positivity)
  have h1 := abs_le.1 (key k z)
  have h2 := abs_le.1 (hconv k (π z))
  rw [abs_le]
  constructor <;> linarith [h1.1, h1.2, h2.1, h2.2]

end MH

namespace LS

open GP MH

variable {net : Net}

/-- **C186** for `GibbsLinkScore` as it is, with lists of groups: for all steps `Q v` on states `z` with a division `π z`
which have the means of the heat bath to within `η` (`C186_listed` with `t = 4 / M` gives `η = 4 (n + 1) / M`, whatever the
list). -/
theorem C186_lists (h : net.Simple) (hn : 0 < net.n) (linC : ℝ) : ∃ c C : ℝ, 0 ≤ c ∧ c < 1 ∧
    ∀ (Ω : Type) (π : Ω → Fin net.n → Fin net.n) (Q : Fin net.n → (Ω → ℝ) → Ω → ℝ) (η : ℝ), 0 ≤ η → (∀ v, Expect (Q v)) →
      (∀ v, Tracks π (Q v) (avg (E net linC) v) η) → ∀ (i j : Fin net.n) (k : ℕ) z,
        |((inTurn Q (List.finRange net.n))^[k] fun z => (score net (lift (π z)) i j : ℝ)) z - posterior net linC i j| ≤ c ^ k + C * η := by
  have : Nonempty (Fin net.n) := ⟨⟨0, hn⟩⟩
  have hE : ∀ A B, SameBlocks A B → E net linC A = E net linC B := fun A B hAB => by
    rw [((C172_labels h linC A).1 A fun _ _ => Iff.rfl).2, ((C172_labels h linC A).1 B hAB).2]
  obtain ⟨D, hD, hc⟩ := (C179_converges h hn linC).2
  have h1 : (1 : ℝ) ≤ net.n := by exact_mod_cast hn
  have hD0 : 0 ≤ D := by have := hD id id; linarith
  have hp : 0 < Real.exp (-D) / net.n := div_pos (Real.exp_pos _) (by linarith)
  have hp1 : Real.exp (-D) / net.n ≤ 1 := by
    rw [div_le_one (by linarith)]
    exact (Real.exp_le_one_iff.2 (by linarith)).trans h1
  have q0 : 0 < (Real.exp (-D) / net.n) ^ net.n := pow_pos hp _
  have q1 := pow_le_one₀ (n := net.n) hp.le hp1
  obtain ⟨c, hcd⟩ : ∃ c, c = 1 - (Real.exp (-D) / net.n) ^ net.n := ⟨_, rfl⟩
  have c0 : 0 ≤ c := by linarith
  have c1 : c < 1 := by linarith
  refine ⟨c, 2 * net.n * (1 / (1 - c)), c0, c1, fun Ω π Q η hη hQ hT i j k z => ?_⟩
  have hsc : ∀ A B, SameBlocks A B → (score net (lift A) i j : ℝ) = score net (lift B) i j := fun A B hs => by
    rw [C181_score h, C181_score h, expected_same hs]
  have key := perturb_tracks (inTurn_expect hQ (List.finRange net.n)) (η := net.n * η) (by positivity)
    (by simpa using C186_in_turn hE hQ hT (List.finRange net.n)) (fun f hf A B hs => sweep_blocks hE hf _ A B hs)
    (f := fun F => (score net (lift F) i j : ℝ)) hsc (μ := posterior net linC i j) c0 c1 (fun k F => by
      have := hc k (fun F => (score net (lift F) i j : ℝ)) 0 1 (fun F => (score_between h F i j).1) (fun F => (score_between h F i j).2) F
      rwa [C181_posterior h, sub_zero, mul_one, ← hcd] at this) k z
  refine key.trans (le_of_eq ?_)
  ring

example := C186_lists tailed_simple (by decide) 0

/-- The exact heat bath is such a step. -/
example (linC : ℝ) (v : Fin GP.tailed.n) : Tracks (fun F => F) (avg (E GP.tailed linC) v) (avg (E GP.tailed linC) v) 0 :=
  fun f m w _ _ _ z => by simp

end LS

namespace BK

open GP LS MH

variable {net : Net} {L : ℕ → ℕ → ℝ}

/-- **C186** for the heat-bath samplers of multiblock.c, only_deg.c and sparse_missing.c with lists of groups. -/
theorem C186_lists (h : net.Simple) (hL : Pattern L) (hn : 0 < net.n) (D : ℕ → ℝ) (linC : ℝ) : ∃ c C : ℝ, 0 ≤ c ∧ c < 1 ∧
    ∀ (Ω : Type) (π : Ω → Fin net.n → Fin net.n) (Q : Fin net.n → (Ω → ℝ) → Ω → ℝ) (η : ℝ), 0 ≤ η → (∀ v, Expect (Q v)) →
      (∀ v, Tracks π (Q v) (avg (E (cost L) D net linC) v) η) → ∀ (i j : Fin net.n) (k : ℕ) z,
        |((inTurn Q (List.finRange net.n))^[k] fun z => score (predict L) net (lift (π z)) i j) z - posterior L D net linC i j| ≤
          c ^ k + C * η := by
  have : Nonempty (Fin net.n) := ⟨⟨0, hn⟩⟩
  have hE : ∀ A B, SameBlocks A B → E (cost L) D net linC A = E (cost L) D net linC B := fun A B hAB => by
    obtain ⟨σ, hσ⟩ := hAB.perm
    exact (E_relabel hσ h (cost L) D linC).symm
  obtain ⟨d, hd, hc⟩ := (C179_converges h hn (cost L) D linC).2
  have h1 : (1 : ℝ) ≤ net.n := by exact_mod_cast hn
  have hd0 : 0 ≤ d := by have := hd id id; linarith
  have hp : 0 < Real.exp (-d) / net.n := div_pos (Real.exp_pos _) (by linarith)
  have hp1 : Real.exp (-d) / net.n ≤ 1 := by
    rw [div_le_one (by linarith)]
    exact (Real.exp_le_one_iff.2 (by linarith)).trans h1
  have q0 : 0 < (Real.exp (-d) / net.n) ^ net.n := pow_pos hp _
  have q1 := pow_le_one₀ (n := net.n) hp.le hp1
  obtain ⟨c, hcd⟩ : ∃ c, c = 1 - (Real.exp (-d) / net.n) ^ net.n := ⟨_, rfl⟩
  have c0 : 0 ≤ c := by linarith
  have c1 : c < 1 := by linarith
  refine ⟨c, 2 * net.n * (1 / (1 - c)), c0, c1, fun Ω π Q η hη hQ hT i j k z => ?_⟩
  have hsc : ∀ A B, SameBlocks A B → score (predict L) net (lift A) i j = score (predict L) net (lift B) i j := fun A B hs => by
    rw [(C184_score h L A i j).1, (C184_score h L B i j).1, expected_same hs]
  have hb : ∀ A : Fin net.n → Fin net.n, 0 ≤ score (predict L) net (lift A) i j ∧ score (predict L) net (lift A) i j ≤ 1 := fun A => by
    rw [(C184_score h L A i j).1]
    exact expected_between hL A i j
  have key := perturb_tracks (inTurn_expect hQ (List.finRange net.n)) (η := net.n * η) (by positivity)
    (by simpa using C186_in_turn hE hQ hT (List.finRange net.n)) (fun f hf A B hs => sweep_blocks hE hf _ A B hs)
    (f := fun A => score (predict L) net (lift A) i j) hsc (μ := posterior L D net linC i j) c0 c1 (fun k A => by
      have := hc k (fun A => score (predict L) net (lift A) i j) 0 1 (fun A => (hb A).1) (fun A => (hb A).2) A
      rwa [(C184_posterior h hL D linC i j).1, sub_zero, mul_one, ← hcd] at this) k z
  refine key.trans (le_of_eq ?_)
  ring

example := C186_lists tailed_simple C184_models.2.2.1 (by decide) logDeg 0

end BK
