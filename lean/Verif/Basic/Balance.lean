import Mathlib.Analysis.SpecialFunctions.Exp
import Mathlib.Analysis.SpecialFunctions.Log.Basic
import Mathlib.Data.Fintype.CardEmbedding
import Mathlib.Data.Fintype.Perm
import Mathlib.Logic.Equiv.Fintype
import Mathlib.Tactic.FieldSimp

/-!
# Samplers of divisions: what is meant by detailed balance

`n` nodes are divided among `n` groups with labels; a division is a function from nodes to labels. Nothing here
refers to a program.
-/

namespace MH

open Finset

variable {n : ℕ}

/-- The division as the `inGroup` fields of the nodes. -/
def lift (F : Fin n → Fin n) : ℕ → Option ℕ := fun v => if h : v < n then some (F ⟨v, h⟩) else none

theorem lift_lt (F : Fin n → Fin n) (v : Fin n) : lift F v = some (F v : ℕ) := by simp [lift]

theorem lift_update (F : Fin n → Fin n) (v g : Fin n) :
    lift (Function.update F v g) = Function.update (lift F) (v : ℕ) (some (g : ℕ)) := by
  funext u
  by_cases hu : u = v
  · subst hu; simp [lift]
  · rw [Function.update_of_ne hu]
    unfold lift
    by_cases h : u < n
    · rw [dif_pos h, dif_pos h, Function.update_of_ne]
      intro e; exact hu (by rw [← e])
    · rw [dif_neg h, dif_neg h]

/-- Probability that a Metropolis step for the energy `E` goes from division `F` to another division `F'`: a node is
chosen with probability `1 / n`, a group other than its own with probability `1 / (n - 1)`, and the move is made with
probability `min 1 (exp (E F - E F'))`. -/
noncomputable def moveProb (E : (Fin n → Fin n) → ℝ) (F F' : Fin n → Fin n) : ℝ :=
  ∑ v, ∑ g, if g ≠ F v ∧ Function.update F v g = F' then 1 / (n : ℝ) * (1 / ((n : ℝ) - 1)) * min 1 (Real.exp (E F - E F'))
    else 0

/-- Probability of each division after one step, if the step begins at `F`. -/
noncomputable def kernel (E : (Fin n → Fin n) → ℝ) (F F' : Fin n → Fin n) : ℝ :=
  if F' = F then 1 - ∑ G ∈ univ.erase F, moveProb E F G else moveProb E F F'

theorem one_node (c : ℝ) (F F' : Fin n → Fin n) (v : Fin n) :
    (∑ g, if g ≠ F v ∧ Function.update F v g = F' then c else 0) =
      if F' v ≠ F v ∧ ∀ u, u ≠ v → F' u = F u then c else 0 := by
  by_cases h : F' v ≠ F v ∧ ∀ u, u ≠ v → F' u = F u
  · rw [if_pos h, Finset.sum_eq_single (F' v)]
    · rw [if_pos]
      refine ⟨h.1, ?_⟩
      funext u
      by_cases e : u = v
      · subst e; simp
      · rw [Function.update_of_ne e, h.2 u e]
    · intro g _ hg
      rw [if_neg]
      rintro ⟨_, h2⟩
      exact hg (by rw [← h2]; simp)
    · intro h; exact absurd (mem_univ _) h
  · rw [if_neg h]
    apply Finset.sum_eq_zero
    intro g _
    rw [if_neg]
    rintro ⟨h1, h2⟩
    apply h
    rw [← h2]
    refine ⟨by simpa using h1, fun u hu => by rw [Function.update_of_ne hu]⟩

theorem exp_min (a b : ℝ) : Real.exp (-a) * min 1 (Real.exp (a - b)) = min (Real.exp (-a)) (Real.exp (-b)) := by
  rw [mul_min_of_nonneg _ _ (Real.exp_nonneg _), mul_one, ← Real.exp_add]
  congr 2; ring

/-- Detailed balance with the weights `exp (-E)`. -/
theorem balance (E : (Fin n → Fin n) → ℝ) (F F' : Fin n → Fin n) :
    Real.exp (-E F) * moveProb E F F' = Real.exp (-E F') * moveProb E F' F := by
  unfold moveProb
  simp only [one_node, mul_sum]
  apply sum_congr rfl
  intro v _
  have hc : (F' v ≠ F v ∧ ∀ u, u ≠ v → F' u = F u) ↔ (F v ≠ F' v ∧ ∀ u, u ≠ v → F u = F' u) :=
    and_congr ne_comm (forall_congr' fun u => imp_congr_right fun _ => eq_comm)
  by_cases h : F' v ≠ F v ∧ ∀ u, u ≠ v → F' u = F u
  · rw [if_pos h, if_pos (hc.1 h)]
    have h1 := exp_min (E F) (E F')
    have h2 := exp_min (E F') (E F)
    rw [mul_left_comm, h1, mul_left_comm, h2, min_comm]
  · rw [if_neg h, if_neg (fun hh => h (hc.2 hh))]
    simp

/-- The weights `exp (-E)` are stationary. -/
theorem stationary (E : (Fin n → Fin n) → ℝ) (F' : Fin n → Fin n) :
    ∑ F, Real.exp (-E F) * kernel E F F' = Real.exp (-E F') := by
  rw [← add_sum_erase univ _ (mem_univ F')]
  have h1 : ∑ F ∈ univ.erase F', Real.exp (-E F) * kernel E F F' =
      ∑ F ∈ univ.erase F', Real.exp (-E F') * moveProb E F' F := by
    apply sum_congr rfl
    intro F hF
    rw [kernel, if_neg (Ne.symm (ne_of_mem_erase hF)), balance]
  rw [h1, kernel, if_pos rfl, ← mul_sum]
  ring

/-- Acceptance is never improbable enough to leave less than nothing for staying: all probabilities are in `[0, 1]`
when there are two nodes or more. -/
theorem kernel_nonneg (hn : 2 ≤ n) (E : (Fin n → Fin n) → ℝ) (F F' : Fin n → Fin n) : 0 ≤ kernel E F F' := by
  have hn1 : (0 : ℝ) < (n : ℝ) - 1 := by
    have : (2 : ℝ) ≤ n := by exact_mod_cast hn
    linarith
  have hn0 : (0 : ℝ) < n := by linarith
  have hmove : ∀ G, 0 ≤ moveProb E F G := by
    intro G
    apply sum_nonneg; intro v _
    apply sum_nonneg; intro g _
    split_ifs
    · have : 0 ≤ min 1 (Real.exp (E F - E G)) := le_min zero_le_one (Real.exp_nonneg _)
      positivity
    · exact le_refl 0
  unfold kernel
  split_ifs with h
  · have hle : ∑ G ∈ univ.erase F, moveProb E F G ≤ ∑ G, moveProb E F G :=
      sum_le_sum_of_subset_of_nonneg (erase_subset _ _) fun G _ _ => hmove G
    have h1 : ∑ G, moveProb E F G ≤ ∑ G : Fin n → Fin n, ∑ v, ∑ g, (if g ≠ F v ∧ Function.update F v g = G
        then 1 / (n : ℝ) * (1 / ((n : ℝ) - 1)) else 0) := by
      apply sum_le_sum; intro G _
      apply sum_le_sum; intro v _
      apply sum_le_sum; intro g _
      split_ifs
      · have hc : (0 : ℝ) ≤ 1 / (n : ℝ) * (1 / ((n : ℝ) - 1)) := by positivity
        exact mul_le_of_le_one_right hc (min_le_left _ _)
      · exact le_refl 0
    have h2 : ∑ G : Fin n → Fin n, ∑ v, ∑ g, (if g ≠ F v ∧ Function.update F v g = G
        then 1 / (n : ℝ) * (1 / ((n : ℝ) - 1)) else 0) = 1 := by
      rw [sum_comm]
      have : ∀ v : Fin n, ∑ G : Fin n → Fin n, ∑ g, (if g ≠ F v ∧ Function.update F v g = G
          then 1 / (n : ℝ) * (1 / ((n : ℝ) - 1)) else 0) = 1 / (n : ℝ) := by
        intro v
        rw [sum_comm]
        have e : ∀ g : Fin n, ∑ G : Fin n → Fin n, (if g ≠ F v ∧ Function.update F v g = G
            then 1 / (n : ℝ) * (1 / ((n : ℝ) - 1)) else 0) = if g ≠ F v then 1 / (n : ℝ) * (1 / ((n : ℝ) - 1)) else 0 := by
          intro g
          by_cases hg : g ≠ F v
          · simp only [hg, ne_eq, not_false_eq_true, true_and, if_true]
            rw [sum_ite_eq]; simp
          · simp [hg]
        rw [sum_congr rfl fun g _ => e g, ← sum_filter, sum_const, filter_ne', card_erase_of_mem (mem_univ _), card_univ,
          Fintype.card_fin, nsmul_eq_mul, Nat.cast_sub (by omega), Nat.cast_one]
        field_simp
      rw [sum_congr rfl fun v _ => this v, sum_const, card_univ, Fintype.card_fin, nsmul_eq_mul]
      field_simp
    linarith
  · exact hmove F'

theorem moveProb_nonneg (hn : 2 ≤ n) (E : (Fin n → Fin n) → ℝ) (F F' : Fin n → Fin n) : 0 ≤ moveProb E F F' := by
  have hn1 : (0 : ℝ) < (n : ℝ) - 1 := by
    have : (2 : ℝ) ≤ n := by exact_mod_cast hn
    linarith
  apply sum_nonneg; intro v _
  apply sum_nonneg; intro g _
  split_ifs
  · have : 0 ≤ min 1 (Real.exp (E F - E F')) := le_min zero_le_one (Real.exp_nonneg _)
    positivity
  · exact le_refl 0

/-- Every change of one node has a positive probability. -/
theorem moveProb_pos (hn : 2 ≤ n) (E : (Fin n → Fin n) → ℝ) (F : Fin n → Fin n) {v g : Fin n} (hg : g ≠ F v) :
    0 < moveProb E F (Function.update F v g) := by
  have hn1 : (0 : ℝ) < (n : ℝ) - 1 := by
    have : (2 : ℝ) ≤ n := by exact_mod_cast hn
    linarith
  have hn0 : (0 : ℝ) < n := by linarith
  have hc : (0 : ℝ) < 1 / (n : ℝ) * (1 / ((n : ℝ) - 1)) * min 1 (Real.exp (E F - E (Function.update F v g))) := by
    have : 0 < min 1 (Real.exp (E F - E (Function.update F v g))) := lt_min zero_lt_one (Real.exp_pos _)
    positivity
  unfold moveProb
  refine lt_of_lt_of_le hc ?_
  have hnn : ∀ v' g', 0 ≤ if g' ≠ F v' ∧ Function.update F v' g' = Function.update F v g then
      1 / (n : ℝ) * (1 / ((n : ℝ) - 1)) * min 1 (Real.exp (E F - E (Function.update F v g))) else 0 := by
    intro v' g'
    split_ifs
    · exact hc.le
    · exact le_refl 0
  refine le_trans ?_ (single_le_sum (f := fun v' => ∑ g', if g' ≠ F v' ∧ Function.update F v' g' = Function.update F v g
    then 1 / (n : ℝ) * (1 / ((n : ℝ) - 1)) * min 1 (Real.exp (E F - E (Function.update F v g))) else 0)
    (fun v' _ => sum_nonneg fun g' _ => hnn v' g') (mem_univ v))
  refine le_trans ?_ (single_le_sum (f := fun g' => if g' ≠ F v ∧ Function.update F v g' = Function.update F v g
    then 1 / (n : ℝ) * (1 / ((n : ℝ) - 1)) * min 1 (Real.exp (E F - E (Function.update F v g))) else 0)
    (fun g' _ => hnn v g') (mem_univ g))
  rw [if_pos ⟨hg, rfl⟩]

/-- Every division can be reached from every other one. -/
theorem reach (hn : 2 ≤ n) (E : (Fin n → Fin n) → ℝ) (F F' : Fin n → Fin n) :
    Relation.ReflTransGen (fun A B => A ≠ B ∧ 0 < moveProb E A B) F F' := by
  have key : ∀ (k : ℕ) (F : Fin n → Fin n), (univ.filter fun v => F v ≠ F' v).card = k →
      Relation.ReflTransGen (fun A B => A ≠ B ∧ 0 < moveProb E A B) F F' := by
    intro k
    induction k with
    | zero =>
      intro F hF
      have : F = F' := by
        funext v
        by_contra hne
        have : v ∈ univ.filter fun v => F v ≠ F' v := by simp [hne]
        rw [card_eq_zero.1 hF] at this
        simp at this
      rw [this]
    | succ k ih =>
      intro F hF
      obtain ⟨v, hv⟩ : (univ.filter fun v => F v ≠ F' v).Nonempty := by
        rw [← card_pos]; omega
      have hv' : F v ≠ F' v := by simpa using hv
      refine Relation.ReflTransGen.head ⟨?_, moveProb_pos hn E F (Ne.symm hv')⟩ (ih (Function.update F v (F' v)) ?_)
      · intro e
        have := congrFun e v
        rw [Function.update_self] at this
        exact hv' this
      · have : (univ.filter fun u => Function.update F v (F' v) u ≠ F' u) = (univ.filter fun u => F u ≠ F' u).erase v := by
          ext u
          simp only [mem_filter, mem_univ, true_and, mem_erase]
          by_cases e : u = v
          · subst e; simp
          · rw [Function.update_of_ne e]; simp [e]
        rw [this, card_erase_of_mem hv, hF]
        rfl
  exact key _ F rfl

theorem kernel_sum (E : (Fin n → Fin n) → ℝ) (F : Fin n → Fin n) : ∑ F', kernel E F F' = 1 := by
  rw [← add_sum_erase univ _ (mem_univ F)]
  have : ∑ F' ∈ univ.erase F, kernel E F F' = ∑ F' ∈ univ.erase F, moveProb E F F' :=
    sum_congr rfl fun F' hF' => by rw [kernel, if_neg (ne_of_mem_erase hF')]
  rw [this, kernel, if_pos rfl]
  ring

/-- A reversible chain on a finite set, in which every state can be reached from every other, has up to a factor
only one stationary distribution. -/
theorem unique_of_reversible {Ω : Type*} [Fintype Ω] [DecidableEq Ω] [Nonempty Ω] (k : Ω → Ω → ℝ) (E : Ω → ℝ)
    (h0 : ∀ F F', 0 ≤ k F F') (h1 : ∀ F, ∑ F', k F F' = 1)
    (hrev : ∀ F F', Real.exp (-E F) * k F F' = Real.exp (-E F') * k F' F)
    (hreach : ∀ F F', Relation.ReflTransGen (fun A B => 0 < k A B) F F') (w : Ω → ℝ)
    (hw : ∀ F', ∑ F, w F * k F F' = w F') : ∃ c, ∀ F, w F = c * Real.exp (-E F) := by
  -- the ratio of the weights is harmonic
  let r : Ω → ℝ := fun F => w F * Real.exp (E F)
  have hr : ∀ F, w F = r F * Real.exp (-E F) := by
    intro F
    simp only [r]
    rw [mul_assoc, ← Real.exp_add, add_neg_cancel, Real.exp_zero, mul_one]
  have hharm : ∀ F', ∑ F, k F' F * r F = r F' := by
    intro F'
    have h1 := hw F'
    have h2 : ∑ F, w F * k F F' = Real.exp (-E F') * ∑ F, k F' F * r F := by
      rw [mul_sum]
      apply sum_congr rfl
      intro F _
      rw [hr F, mul_assoc, hrev F F']
      ring
    rw [h2, hr F', mul_comm (r F')] at h1
    exact mul_left_cancel₀ (Real.exp_pos _).ne' h1
  obtain ⟨F0, -, hmax⟩ := exists_max_image univ r univ_nonempty
  refine ⟨r F0, fun F => ?_⟩
  have hstep : ∀ A B, r A = r F0 → 0 < k A B → r B = r F0 := by
    intro A B hA hAB
    have e0 : ∑ F, k A F * (r F0 - r F) = 0 := by
      simp only [mul_sub, sum_sub_distrib]
      rw [← sum_mul, h1, hharm, hA]
      ring
    have e1 := (sum_eq_zero_iff_of_nonneg fun F _ =>
      mul_nonneg (h0 A F) (sub_nonneg.2 (hmax F (mem_univ F)))).1 e0 B (mem_univ B)
    rcases mul_eq_zero.1 e1 with e1 | e1
    · exact absurd e1 hAB.ne'
    · linarith
  have hall : r F = r F0 := by
    induction hreach F0 F with
    | refl => rfl
    | tail _ h2 ih => exact hstep _ _ ih h2
  rw [hr F, hall]

theorem kernel_rev (E : (Fin n → Fin n) → ℝ) (F F' : Fin n → Fin n) :
    Real.exp (-E F) * kernel E F F' = Real.exp (-E F') * kernel E F' F := by
  by_cases e : F' = F
  · subst e; rfl
  · rw [kernel, if_neg e, kernel, if_neg (Ne.symm e), balance]

theorem map_reach {α β : Type*} {r : α → α → Prop} {q : β → β → Prop} (f : α → β) (h : ∀ a b, r a b → q (f a) (f b))
    {a b : α} (hab : Relation.ReflTransGen r a b) : Relation.ReflTransGen q (f a) (f b) := by
  induction hab with
  | refl => exact .refl
  | tail _ h2 ih => exact ih.tail (h _ _ h2)

theorem kernel_reach (hn : 2 ≤ n) (E : (Fin n → Fin n) → ℝ) (F F' : Fin n → Fin n) :
    Relation.ReflTransGen (fun A B => 0 < kernel E A B) F F' :=
  map_reach id (fun A B h => by simp only [id, kernel]; rw [if_neg (Ne.symm h.1)]; exact h.2) (reach hn E F F')

/-- Up to a factor, no other weights are stationary. -/
theorem unique (hn : 2 ≤ n) (E : (Fin n → Fin n) → ℝ) (w : (Fin n → Fin n) → ℝ)
    (hw : ∀ F', ∑ F, w F * kernel E F F' = w F') : ∃ c, ∀ F, w F = c * Real.exp (-E F) :=
  have : Nonempty (Fin n) := ⟨⟨0, by omega⟩⟩
  unique_of_reversible _ E (kernel_nonneg hn E) (kernel_sum E) (kernel_rev E) (kernel_reach hn E) w hw

/-! ## Labels of groups -/

/-- The two divisions have the same groups, with other labels. -/
def SameBlocks (F F' : Fin n → Fin n) : Prop := ∀ u v, F' u = F' v ↔ F u = F v

instance (F F' : Fin n → Fin n) : Decidable (SameBlocks F F') := by unfold SameBlocks; infer_instance

/-- The labels of `F'`, as a function of those of `F`. -/
noncomputable def relabel (F F' : Fin n → Fin n) : {g // g ∈ Set.range F} → Fin n := fun g => F' g.2.choose

theorem relabel_apply {F F' : Fin n → Fin n} (h : SameBlocks F F') (v : Fin n) : relabel F F' ⟨F v, v, rfl⟩ = F' v :=
  (h _ _).2 (Exists.choose_spec (⟨v, rfl⟩ : F v ∈ Set.range F))

theorem relabel_injective {F F' : Fin n → Fin n} (h : SameBlocks F F') : Function.Injective (relabel F F') := by
  rintro ⟨g, v, rfl⟩ ⟨g', v', rfl⟩ e
  rw [relabel_apply h, relabel_apply h] at e
  exact Subtype.ext ((h _ _).1 e)

/-- Divisions with the same groups differ by a permutation of the labels. -/
theorem SameBlocks.perm {F F' : Fin n → Fin n} (h : SameBlocks F F') : ∃ σ : Equiv.Perm (Fin n), ∀ v, F' v = σ (F v) := by
  classical
  let e : {g // g ∈ Set.range F} ≃ {g // g ∈ Set.range (relabel F F')} := Equiv.ofInjective _ (relabel_injective h)
  refine ⟨e.extendSubtype, fun v => ?_⟩
  rw [Equiv.extendSubtype_apply_of_mem e (F v) ⟨v, rfl⟩]
  exact (relabel_apply h v).symm

/-- How many labellings the groups of `F` have. -/
theorem card_labels (F : Fin n → Fin n) :
    (univ.filter fun F' => SameBlocks F F').card = n.descFactorial (univ.image F).card := by
  classical
  have e : {F' // SameBlocks F F'} ≃ ({g // g ∈ Set.range F} ↪ Fin n) :=
    { toFun := fun F' => ⟨relabel F F'.1, relabel_injective F'.2⟩
      invFun := fun f => ⟨fun v => f ⟨F v, v, rfl⟩, fun u v => f.injective.eq_iff.trans Subtype.mk_eq_mk⟩
      left_inv := fun F' => Subtype.ext (funext fun v => relabel_apply F'.2 v)
      right_inv := fun f => by
        ext ⟨g, v, rfl⟩
        have hs : SameBlocks F (fun v => f ⟨F v, v, rfl⟩) := fun u v => f.injective.eq_iff.trans Subtype.mk_eq_mk
        exact congrArg Fin.val (relabel_apply hs v) }
  have h1 : Fintype.card {F' // SameBlocks F F'} = (univ.filter fun F' => SameBlocks F F').card := by
    rw [Fintype.card_subtype]
  have h2 : Fintype.card {g // g ∈ Set.range F} = (univ.image F).card := by
    rw [Fintype.card_subtype]
    congr 1
    ext g
    simp
  rw [← h1, Fintype.card_congr e, Fintype.card_embedding_eq, h2, Fintype.card_fin]

/-- If the energy of every labelling is `e - log (n - k)!`, with `k` the number of groups, then all labellings together
have the weight `n! exp (-e)`: whatever the number of groups, the labels do not matter. -/
theorem labels_weight (E : (Fin n → Fin n) → ℝ) (F : Fin n → Fin n) (e : ℝ)
    (h : ∀ F', SameBlocks F F' → E F' = e - Real.log ((n - (univ.image F).card).factorial : ℝ)) :
    ∑ F' ∈ univ.filter (fun F' => SameBlocks F F'), Real.exp (-E F') = n.factorial * Real.exp (-e) := by
  rw [sum_congr rfl (g := fun _ => Real.exp (-e) * ((n - (univ.image F).card).factorial : ℝ))]
  · rw [sum_const, card_labels, nsmul_eq_mul]
    have hk : (univ.image F).card ≤ n := by
      have := card_le_univ (univ.image F)
      rwa [Fintype.card_fin] at this
    have := Nat.factorial_mul_descFactorial hk
    rw [← this]
    push_cast
    ring
  · intro F' hF'
    rw [h F' (mem_filter.1 hF').2, neg_sub, sub_eq_neg_add, Real.exp_add, Real.exp_log (by positivity)]

end MH
