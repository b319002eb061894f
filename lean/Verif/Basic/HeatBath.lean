import Mathlib.Algebra.BigOperators.Field
import Verif.Basic.Balance

/-!
# Heat-bath samplers of divisions

As in `Verif.Basic.Balance`, a division is a function from `n` nodes to `n` labels. Nothing here refers to a program.
-/

namespace MH

open Finset

variable {n : ℕ}

/-- Probability that a heat-bath step at node `v`, for the energy `E`, goes from `F` to `F'`: the node goes to each of
the `n` groups with probability proportional to `exp (-E)` of the division that results. -/
noncomputable def heat (E : (Fin n → Fin n) → ℝ) (v : Fin n) (F F' : Fin n → Fin n) : ℝ :=
  (∑ g, if Function.update F v g = F' then Real.exp (-E (Function.update F v g)) else 0) /
    ∑ g, Real.exp (-E (Function.update F v g))

/-- Probability that this step ends with the groups of `F'`, with any labels. -/
noncomputable def heatBlocks (E : (Fin n → Fin n) → ℝ) (v : Fin n) (F F' : Fin n → Fin n) : ℝ :=
  ∑ A ∈ univ.filter (fun A => SameBlocks F' A), heat E v F A

/-- As `heat`, but the groups that are not in `S` all have their weights given to the group `e`. -/
noncomputable def listed (E : (Fin n → Fin n) → ℝ) (v : Fin n) (S : Finset (Fin n)) (e : Fin n) (F F' : Fin n → Fin n) : ℝ :=
  ((∑ g ∈ S, if Function.update F v g = F' then Real.exp (-E (Function.update F v g)) else 0) +
      if Function.update F v e = F' then ∑ g ∈ Sᶜ, Real.exp (-E (Function.update F v g)) else 0) /
    ∑ g, Real.exp (-E (Function.update F v g))

variable {E : (Fin n → Fin n) → ℝ} {v : Fin n} {F F' : Fin n → Fin n}

theorem norm_pos (E : (Fin n → Fin n) → ℝ) (v : Fin n) (F : Fin n → Fin n) :
    0 < ∑ g, Real.exp (-E (Function.update F v g)) :=
  sum_pos (fun _ _ => Real.exp_pos _) ⟨v, mem_univ v⟩

theorem heat_nonneg : 0 ≤ heat E v F F' :=
  div_nonneg (sum_nonneg fun g _ => by split_ifs; exacts [(Real.exp_pos _).le, le_rfl]) (norm_pos E v F).le

theorem heat_sum (E : (Fin n → Fin n) → ℝ) (v : Fin n) (F : Fin n → Fin n) : ∑ F', heat E v F F' = 1 := by
  unfold heat
  rw [← sum_div, sum_comm]
  simp only [sum_ite_eq, mem_univ, if_true]
  exact div_self (norm_pos E v F).ne'

theorem heat_eq (E : (Fin n → Fin n) → ℝ) (v : Fin n) (F F' : Fin n → Fin n) : heat E v F F' =
    (if Function.update F v (F' v) = F' then Real.exp (-E F') else 0) / ∑ g, Real.exp (-E (Function.update F v g)) := by
  unfold heat
  congr 1
  by_cases h : Function.update F v (F' v) = F'
  · rw [if_pos h, sum_eq_single (F' v)]
    · rw [if_pos h, h]
    · intro g _ hg
      rw [if_neg]
      intro e
      apply hg
      rw [← e, Function.update_self]
    · simp
  · rw [if_neg h]
    refine sum_eq_zero fun g _ => if_neg fun e => h ?_
    have : F' v = g := by rw [← e, Function.update_self]
    rw [this, e]

/-- Detailed balance. -/
theorem heat_balance (E : (Fin n → Fin n) → ℝ) (v : Fin n) (F F' : Fin n → Fin n) :
    Real.exp (-E F) * heat E v F F' = Real.exp (-E F') * heat E v F' F := by
  rw [heat_eq, heat_eq]
  by_cases h : Function.update F v (F' v) = F'
  · have h' : Function.update F' v (F v) = F := by
      rw [← h, Function.update_idem, Function.update_eq_self]
    have hd : ∀ g, Function.update F' v g = Function.update F v g := fun g => by rw [← h, Function.update_idem]
    rw [if_pos h, if_pos h']
    simp only [hd]
    ring
  · have h' : ¬ Function.update F' v (F v) = F := fun e => h (by
      rw [← e, Function.update_idem, Function.update_eq_self])
    rw [if_neg h, if_neg h']
    simp

/-- The Boltzmann distribution is stationary. -/
theorem heat_stationary (E : (Fin n → Fin n) → ℝ) (v : Fin n) (F' : Fin n → Fin n) :
    ∑ F, Real.exp (-E F) * heat E v F F' = Real.exp (-E F') := by
  rw [sum_congr rfl fun F _ => heat_balance E v F F', ← mul_sum, heat_sum, mul_one]

theorem SameBlocks.symm (h : SameBlocks F F') : SameBlocks F' F := fun u v => (h u v).symm

theorem SameBlocks.trans {F'' : Fin n → Fin n} (h : SameBlocks F F') (h' : SameBlocks F' F'') : SameBlocks F F'' :=
  fun u v => (h' u v).trans (h u v)

/-- Going to one empty group or to another is the same but for labels. -/
theorem update_empty {a b : Fin n} (ha : ∀ u, F u ≠ a) (hb : ∀ u, F u ≠ b) (v : Fin n) :
    SameBlocks (Function.update F v a) (Function.update F v b) := by
  intro u w
  by_cases hu : u = v <;> by_cases hw : w = v
  · subst hu; subst hw; simp
  · subst hu
    rw [Function.update_self, Function.update_self, Function.update_of_ne hw, Function.update_of_ne hw]
    exact ⟨fun e => absurd e.symm (hb w), fun e => absurd e.symm (ha w)⟩
  · subst hw
    rw [Function.update_self, Function.update_self, Function.update_of_ne hu, Function.update_of_ne hu]
    exact ⟨fun e => absurd e (hb u), fun e => absurd e (ha u)⟩
  · rw [Function.update_of_ne hu, Function.update_of_ne hw, Function.update_of_ne hu, Function.update_of_ne hw]

theorem heatBlocks_eq (E : (Fin n → Fin n) → ℝ) (v : Fin n) (F F' : Fin n → Fin n) : heatBlocks E v F F' =
    (∑ g, if SameBlocks F' (Function.update F v g) then Real.exp (-E (Function.update F v g)) else 0) /
      ∑ g, Real.exp (-E (Function.update F v g)) := by
  unfold heatBlocks heat
  rw [← sum_div, sum_comm]
  congr 1
  refine sum_congr rfl fun g _ => ?_
  rw [sum_ite_eq]
  simp

/-- Probability of the groups of `F'` after a step in which all the groups off a list `S`, all of them empty, are
replaced by one empty group: the same as if every empty group had its own chance. -/
theorem listed_blocks {S : Finset (Fin n)} {e : Fin n} (hS : ∀ u, F u ∈ S) (he : Sᶜ.Nonempty → ∀ u, F u ≠ e)
    (F' : Fin n → Fin n) :
    ∑ A ∈ univ.filter (fun A => SameBlocks F' A), listed E v S e F A = heatBlocks E v F F' := by
  rw [heatBlocks_eq]
  unfold listed
  rw [← sum_div, sum_add_distrib, sum_comm]
  congr 1
  rw [← sum_add_sum_compl S]
  congr 1
  · refine sum_congr rfl fun g _ => ?_
    rw [sum_ite_eq]
    simp
  · rw [sum_ite_eq]
    simp only [mem_filter, mem_univ, true_and]
    have key : ∀ g ∈ Sᶜ, (SameBlocks F' (Function.update F v g) ↔ SameBlocks F' (Function.update F v e)) := by
      intro g hg
      have hg' : ∀ u, F u ≠ g := fun u e => (mem_compl.1 hg) (e ▸ hS u)
      have := update_empty hg' (he ⟨g, hg⟩) v
      exact ⟨fun h => h.trans this, fun h => h.trans this.symm⟩
    by_cases h : SameBlocks F' (Function.update F v e)
    · rw [if_pos h]
      exact sum_congr rfl fun g hg => by rw [if_pos ((key g hg).2 h)]
    · rw [if_neg h]
      exact (sum_eq_zero fun g hg => if_neg fun h' => h ((key g hg).1 h')).symm

/-- The same with weights relative to that of `F`. -/
theorem listed_wt (E : (Fin n → Fin n) → ℝ) (v : Fin n) (S : Finset (Fin n)) (e : Fin n) (F F' : Fin n → Fin n) :
    listed E v S e F F' =
      ((∑ g ∈ S, if Function.update F v g = F' then Real.exp (E F - E (Function.update F v g)) else 0) +
        if Function.update F v e = F' then (∑ g, Real.exp (E F - E (Function.update F v g))) -
          ∑ g ∈ S, Real.exp (E F - E (Function.update F v g)) else 0) /
      ∑ g, Real.exp (E F - E (Function.update F v g)) := by
  have hw : ∀ g, Real.exp (E F - E (Function.update F v g)) = Real.exp (E F) * Real.exp (-E (Function.update F v g)) :=
    fun g => by rw [← Real.exp_add, sub_eq_add_neg]
  have hc : (∑ g, Real.exp (E F - E (Function.update F v g))) - ∑ g ∈ S, Real.exp (E F - E (Function.update F v g)) =
      Real.exp (E F) * ∑ g ∈ Sᶜ, Real.exp (-E (Function.update F v g)) := by
    rw [← sum_add_sum_compl S, add_sub_cancel_left, mul_sum]
    exact sum_congr rfl fun g _ => hw g
  unfold listed
  rw [hc]
  simp only [hw]
  rw [← mul_sum, ← mul_div_mul_left _ _ (Real.exp_pos (E F)).ne', mul_add, mul_sum]
  simp only [mul_ite, mul_zero]

/-- Where the energy does not depend on labels, neither does the probability of the groups that result. -/
theorem heatBlocks_same (hE : ∀ A B, SameBlocks A B → E A = E B) {G : Fin n → Fin n} (h : SameBlocks F G)
    (F' : Fin n → Fin n) : heatBlocks E v F F' = heatBlocks E v G F' := by
  obtain ⟨σ, hσ⟩ := h.perm
  have hs : ∀ g, SameBlocks (Function.update F v g) (Function.update G v (σ g)) := by
    intro g u w
    have : ∀ x, Function.update G v (σ g) x = σ (Function.update F v g x) := by
      intro x
      by_cases hx : x = v
      · subst hx; simp
      · rw [Function.update_of_ne hx, Function.update_of_ne hx, hσ]
    rw [this, this, σ.injective.eq_iff]
  rw [heatBlocks_eq, heatBlocks_eq]
  congr 1
  · refine Eq.trans ?_ (Equiv.sum_comp σ _)
    refine sum_congr rfl fun g _ => ?_
    rw [hE _ _ (hs g)]
    refine if_congr ⟨fun k => k.trans (hs g), fun k => k.trans (hs g).symm⟩ rfl rfl
  · refine Eq.trans ?_ (Equiv.sum_comp σ _)
    exact sum_congr rfl fun g _ => by rw [hE _ _ (hs g)]

/-- The Boltzmann weights of the groups are stationary. -/
theorem heatBlocks_stationary (E : (Fin n → Fin n) → ℝ) (v : Fin n) (F' : Fin n → Fin n) :
    ∑ F, Real.exp (-E F) * heatBlocks E v F F' = ∑ A ∈ univ.filter (fun A => SameBlocks F' A), Real.exp (-E A) := by
  unfold heatBlocks
  simp only [mul_sum]
  rw [sum_comm]
  exact sum_congr rfl fun A _ => heat_stationary E v A

/-- Sums of a function of the groups only depend on the weights of the groups. -/
theorem sum_of_blocks {w w' q : (Fin n → Fin n) → ℝ} (hq : ∀ A B, SameBlocks A B → q A = q B)
    (hw : ∀ A, ∑ B ∈ univ.filter (fun B => SameBlocks A B), w B = ∑ B ∈ univ.filter (fun B => SameBlocks A B), w' B) :
    ∑ F, w F * q F = ∑ F, w' F * q F := by
  have key : ∀ w : (Fin n → Fin n) → ℝ, ∑ F, w F * q F =
      ∑ F, q F / ((univ.filter fun B => SameBlocks F B).card : ℝ) * ∑ B ∈ univ.filter (fun B => SameBlocks F B), w B := by
    intro w
    simp only [mul_sum, sum_filter, mul_ite, mul_zero]
    rw [sum_comm]
    refine sum_congr rfl fun B _ => ?_
    rw [← sum_filter]
    have hset : univ.filter (fun F => SameBlocks F B) = univ.filter (fun F => SameBlocks B F) := by
      ext F
      simp only [mem_filter, mem_univ, true_and]
      exact ⟨fun h => h.symm, fun h => h.symm⟩
    rw [sum_congr hset (g := fun _ => q B / ((univ.filter fun F => SameBlocks B F).card : ℝ) * w B)]
    · rw [sum_const, nsmul_eq_mul]
      have : (0 : ℝ) < ((univ.filter fun F => SameBlocks B F).card : ℝ) := by
        exact_mod_cast card_pos.2 ⟨B, mem_filter.2 ⟨mem_univ _, fun _ _ => Iff.rfl⟩⟩
      field_simp
    · intro F hF
      have hF := (mem_filter.1 hF).2
      have hc : (univ.filter fun A => SameBlocks F A) = univ.filter fun A => SameBlocks B A := by
        ext A
        simp only [mem_filter, mem_univ, true_and]
        exact ⟨fun h => hF.trans h, fun h => hF.symm.trans h⟩
      rw [hq F B hF.symm, hc]
  rw [key w, key w']
  exact sum_congr rfl fun F _ => by rw [hw F]

/-- If the groups have the Boltzmann weights before the move of a node, with labels chosen in any way, they have them
after it. -/
theorem heatBlocks_invariant (hE : ∀ A B, SameBlocks A B → E A = E B) (v : Fin n) {w : (Fin n → Fin n) → ℝ}
    (hw : ∀ A, ∑ B ∈ univ.filter (fun B => SameBlocks A B), w B = ∑ B ∈ univ.filter (fun B => SameBlocks A B), Real.exp (-E B))
    (F' : Fin n → Fin n) :
    ∑ F, w F * heatBlocks E v F F' = ∑ A ∈ univ.filter (fun A => SameBlocks F' A), Real.exp (-E A) := by
  rw [sum_of_blocks (w' := fun F => Real.exp (-E F)) (fun A B h => heatBlocks_same hE h F') hw]
  exact heatBlocks_stationary E v F'

end MH
