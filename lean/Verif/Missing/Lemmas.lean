import Verif.Missing.Model
import Verif.Missing.Spec
import Verif.Group.SAProps
import Mathlib.Tactic.LinearCombination
import Mathlib.Algebra.Order.BigOperators.Group.Finset
import Mathlib.Algebra.BigOperators.Ring.Finset

/-! # Counting links and pairs of blocks -/

set_option linter.unusedSimpArgs false

namespace LS

open GP RG Finset

variable {net : Net} {p : Part} {f : ℕ → Option ℕ}

theorem block_eq (net : Net) (p : Part) (g : ℕ) : block net p.inGroup g = members net p g := rfl

theorem mem_block {v g : ℕ} : v ∈ block net f g ↔ v < net.n ∧ f v = some g := by
  simp [block]

/-- Ordered link count. -/
def B (net : Net) (f : ℕ → Option ℕ) (g g' : ℕ) : Int :=
  ∑ i ∈ block net f g, ∑ j ∈ block net f g', net.a i j

theorem B_symm (h : net.Simple) (g g' : ℕ) : B net f g g' = B net f g' g := by
  unfold B
  rw [sum_comm]
  exact sum_congr rfl fun i _ => sum_congr rfl fun j _ => a_sym h j i

theorem two_links (h : net.Simple) (g : ℕ) : 2 * links net f g g = B net f g g := by
  obtain ⟨k, hk⟩ := even_sq (n := net.n) (a := net.a) (a_sym h) (a_self h) (block net f g)
  unfold links B
  simp only [if_true]
  omega

theorem links_ne {g g' : ℕ} (hne : g ≠ g') : links net f g g' = B net f g g' := by
  unfold links B
  simp [hne]

theorem links_symm (h : net.Simple) (g g' : ℕ) : links net f g g' = links net f g' g := by
  by_cases e : g = g'
  · rw [e]
  · rw [links_ne e, links_ne (Ne.symm e), B_symm h]

theorem pairs_symm (g g' : ℕ) : pairs net f g g' = pairs net f g' g := by
  unfold pairs
  by_cases e : g = g'
  · rw [e]
  · rw [if_neg e, if_neg (Ne.symm e), mul_comm]

theorem T_symm (h : net.Simple) (g g' : ℕ) : T net f g g' = T net f g' g := by
  unfold T
  rw [pairs_symm, links_symm h]

theorem a_le_one (i j : ℕ) : net.a i j ≤ 1 := by unfold Net.a; split_ifs <;> decide

theorem B_nonneg (g g' : ℕ) : 0 ≤ B net f g g' :=
  sum_nonneg fun i _ => sum_nonneg fun j _ => a_nonneg i j

theorem links_nonneg (g g' : ℕ) : 0 ≤ links net f g g' := by
  have := B_nonneg (net := net) (f := f) g g'
  unfold links
  dsimp only
  change 0 ≤ if g = g' then B net f g g' / 2 else B net f g g'
  split_ifs <;> omega

theorem links_le (h : net.Simple) (g g' : ℕ) : links net f g g' ≤ pairs net f g g' := by
  by_cases e : g = g'
  · subst e
    have h1 := two_links (f := f) h g
    have h2 : B net f g g ≤ ((block net f g).card : Int) * ((block net f g).card - 1) := by
      unfold B
      calc ∑ i ∈ block net f g, ∑ j ∈ block net f g, net.a i j
          ≤ ∑ i ∈ block net f g, (((block net f g).card : Int) - 1) := by
            apply sum_le_sum
            intro i hi
            rw [← add_sum_erase _ _ hi, a_self h, zero_add]
            calc ∑ j ∈ (block net f g).erase i, net.a i j ≤ ∑ j ∈ (block net f g).erase i, (1 : Int) :=
                  sum_le_sum fun j _ => a_le_one i j
              _ = ((block net f g).card : Int) - 1 := by
                  rw [sum_const, card_erase_of_mem hi]
                  have : 0 < (block net f g).card := card_pos.2 ⟨i, hi⟩
                  simp only [nsmul_eq_mul, mul_one]
                  omega
        _ = _ := by rw [sum_const]; simp only [nsmul_eq_mul]
    unfold pairs
    rw [if_pos rfl]
    generalize ((block net f g).card : Int) * ((block net f g).card - 1) = x at h2
    omega
  · rw [links_ne e]
    unfold pairs B
    rw [if_neg e]
    calc ∑ i ∈ block net f g, ∑ j ∈ block net f g', net.a i j
        ≤ ∑ i ∈ block net f g, ∑ j ∈ block net f g', (1 : Int) :=
          sum_le_sum fun i _ => sum_le_sum fun j _ => a_le_one i j
      _ = _ := by simp

theorem lterm_T (h : net.Simple) (g g' : ℕ) :
    lterm (pairs net f g g') (links net f g g') = some (T net f g g') := by
  unfold lterm T
  rw [if_pos ⟨links_nonneg g g', links_le h g g'⟩]

theorem T_empty {g g' : ℕ} (h : block net f g = ∅ ∨ block net f g' = ∅) : T net f g g' = 0 := by
  have h1 : pairs net f g g' = 0 := by
    unfold pairs
    rcases h with h | h <;> rw [h] <;> simp
    rintro rfl
    rw [h]; simp
  have h2 : links net f g g' = 0 := by
    unfold links
    rcases h with h | h <;> rw [h] <;> simp
  unfold T
  rw [h1, h2]
  simp

/-! ## What a consistent partition stores -/

section
variable {m : ℕ} (hp : PartOK net m p)
include hp

theorem size_eq {g : ℕ} (hg : g < m) : (p.grp g).size = (block net p.inGroup g).card :=
  (hp.groups g hg).size

theorem inlinks_eq (h : net.Simple) {g : ℕ} (hg : g < m) : (p.grp g).inlinks = links net p.inGroup g g := by
  have h1 := (hp.groups g hg).links.1
  have h2 := two_links (f := p.inGroup) h g
  unfold B at h2
  rw [block_eq] at h2
  omega

theorem ng2g_eq (h : net.Simple) {g g' : ℕ} (hg : g < m) (hne : g ≠ g') :
    NG2GLinks net p g g' = links net p.inGroup g g' := by
  rw [NG2GLinks_eq h hp hg hne, links_ne hne]; rfl

theorem size_pos {g : ℕ} (hg : g < m) : 0 < (p.grp g).size ↔ (block net p.inGroup g).Nonempty := by
  rw [size_eq hp hg, ← card_pos]; omega

end

theorem nlinks_eq (h : net.Simple) (p : Part) (v g : ℕ) :
    NLinksToGroup net p v g = ∑ j ∈ block net p.inGroup g, net.a v j := NLinksToGroup_eq h p v g

/-! ## `PartitionH` is the energy -/

theorem foldlM_sum {α : Type} (F : ℝ → α → Option ℝ) (c : α → ℝ) : ∀ (l : List α) (s : ℝ),
    (∀ x ∈ l, ∀ s, F s x = some (s + c x)) → l.foldlM F s = some (s + (l.map c).sum)
  | [], s, _ => by simp
  | x :: l, s, h => by
    rw [List.foldlM_cons, h x (by simp)]
    simp only [Option.bind_eq_bind, Option.bind_some]
    rw [foldlM_sum F c l _ (fun y hy => h y (by simp [hy]))]
    congr 1
    simp; ring

theorem range_sum {R : Type} [AddCommMonoid R] (c : ℕ → R) (n : ℕ) :
    ((List.range n).map c).sum = ∑ g ∈ range n, c g := by
  rw [← List.sum_toFinset _ List.nodup_range, show (List.range n).toFinset = range n by ext; simp]

theorem range'_sum {R : Type} [AddCommMonoid R] (c : ℕ → R) (n g : ℕ) :
    ((List.range' (g + 1) (n - (g + 1))).map c).sum = ∑ g' ∈ (range n).filter (g < ·), c g' := by
  rw [← List.sum_toFinset _ List.nodup_range']
  congr 1
  ext x
  simp only [List.mem_toFinset, List.mem_range'_1, mem_filter, mem_range]
  omega

theorem nonempty_eq (hp : PartOK net net.n p) : NNonEmptyGroups net.n p = (used net p.inGroup).card := by
  unfold NNonEmptyGroups
  have : (fun (s : Int) g => if 0 < (p.grp g).size then s + 1 else s) =
      fun s g => s + if 0 < (p.grp g).size then 1 else 0 := by
    funext s g; split_ifs <;> simp
  rw [this, foldl_sum, zero_add, range_sum]
  unfold used
  rw [card_filter]
  push_cast
  apply sum_congr rfl
  intro g hg
  have := size_pos hp (mem_range.1 hg)
  split_ifs <;> simp_all

theorem nnod_eq (hp : PartOK net net.n p) (hf : Full net p) :
    (List.range net.n).foldl (fun s g => if 0 < (p.grp g).size then s + (p.grp g).size else s) (0 : Int) = net.n := by
  have : (fun (s : Int) g => if 0 < (p.grp g).size then s + (p.grp g).size else s) =
      fun s g => s + if 0 < (p.grp g).size then (p.grp g).size else 0 := by
    funext s g; split_ifs <;> simp
  rw [this, foldl_sum, zero_add, range_sum]
  have h1 := sum_members (R := Int) hp hf (fun _ => 1)
  simp only [sum_const, card_range, nsmul_eq_mul, mul_one] at h1
  rw [← h1]
  apply sum_congr rfl
  intro g hg
  rw [size_eq hp (mem_range.1 hg), block_eq]
  split_ifs with h
  · rfl
  · omega

theorem used_le (net : Net) (f : ℕ → Option ℕ) : (used net f).card ≤ net.n := by
  have := card_filter_le (range net.n) (fun g => (block net f g).Nonempty)
  rwa [card_range] at this

theorem lfact_eq {n k : ℕ} (h : k ≤ n) : lfact ((n : Int) - k) = some (Real.log (((n - k).factorial : ℕ) : ℝ)) := by
  unfold lfact
  rw [if_pos (by omega), show ((n : Int) - k).toNat = n - k by omega]

/-- **C29**: `PartitionH` is the energy of the division. -/
theorem partitionH_eq (h : net.Simple) (hp : PartOK net net.n p) (hf : Full net p) (linC : ℝ) :
    PartitionH net net.n linC p = some (energy net linC p.inGroup) := by
  unfold PartitionH
  rw [nonempty_eq hp, nnod_eq hp hf]
  dsimp only
  rw [lfact_eq (used_le net _)]
  rw [foldlM_sum _ (fun g => T net p.inGroup g g +
    ∑ g' ∈ (range net.n).filter (g < ·), T net p.inGroup g g')]
  · simp only [Option.bind_eq_bind, Option.bind_some, Option.pure_def]
    rw [range_sum, sum_add_distrib]
    unfold energy
    congr 1
    push_cast
    ring
  · intro g hg s
    have hg := List.mem_range.1 hg
    by_cases h0 : 0 < (p.grp g).size
    · rw [if_pos h0]
      have e1 : lterm ((p.grp g).size * ((p.grp g).size - 1) / 2) (p.grp g).inlinks = some (T net p.inGroup g g) := by
        rw [← lterm_T h, inlinks_eq hp h hg, size_eq hp hg]
        unfold pairs
        rw [if_pos rfl]
      rw [e1]
      simp only [Option.bind_eq_bind, Option.bind_some]
      rw [foldlM_sum _ (fun g' => T net p.inGroup g g')]
      · rw [range'_sum]; congr 1; ring
      · intro g' hg' s
        rw [List.mem_range'_1] at hg'
        by_cases h1 : 0 < (p.grp g').size
        · rw [if_pos h1]
          have : lterm ((p.grp g).size * (p.grp g').size) (NG2GLinks net p g g') = some (T net p.inGroup g g') := by
            rw [← lterm_T h, ng2g_eq hp h hg (by omega), size_eq hp hg, size_eq hp (by omega)]
            unfold pairs
            rw [if_neg (by omega)]
          rw [this]; rfl
        · rw [if_neg h1, T_empty (Or.inr _), add_zero]
          rw [size_pos hp (by omega)] at h1
          exact not_nonempty_iff_eq_empty.1 h1
    · rw [if_neg h0]
      rw [size_pos hp hg] at h0
      have h0 := not_nonempty_iff_eq_empty.1 h0
      rw [T_empty (Or.inl h0), sum_eq_zero (fun g' _ => T_empty (Or.inl h0))]
      simp

end LS
