import Verif.Missing.Lemmas

/-! # Moving one node -/

set_option linter.unusedSimpArgs false

namespace LS

open GP RG Finset

variable {net : Net} {f : ℕ → Option ℕ} {v old new : ℕ}

/-- Links of `v` to group `g`. -/
def d (net : Net) (f : ℕ → Option ℕ) (v g : ℕ) : Int := ∑ j ∈ block net f g, net.a v j

section
variable (hv : v < net.n) (hold : f v = some old) (hne : new ≠ old)
include hv hold hne

theorem block_old : block net (Function.update f v (some new)) old = (block net f old).erase v := by
  ext u
  rw [mem_erase, mem_block, mem_block]
  by_cases e : u = v
  · subst e; simp [hne]
  · simp [e]

theorem block_new : block net (Function.update f v (some new)) new = insert v (block net f new) := by
  ext u
  rw [mem_insert, mem_block, mem_block]
  by_cases e : u = v
  · subst e; simp [hv]
  · simp [e]

theorem block_other {g : ℕ} (h1 : g ≠ old) (h2 : g ≠ new) :
    block net (Function.update f v (some new)) g = block net f g := by
  ext u
  rw [mem_block, mem_block]
  by_cases e : u = v
  · subst e; simp [hold, h1.symm, h2.symm]
  · simp [e]

theorem v_mem : v ∈ block net f old := mem_block.2 ⟨hv, hold⟩

theorem v_not_mem : v ∉ block net f new := by
  rw [mem_block, hold]
  rintro ⟨_, h⟩
  exact hne (Option.some.inj h).symm

theorem card_old : ((block net (Function.update f v (some new)) old).card : Int) = (block net f old).card - 1 := by
  rw [block_old hv hold hne, card_erase_of_mem (v_mem hv hold hne)]
  have : 0 < (block net f old).card := card_pos.2 ⟨v, v_mem hv hold hne⟩
  omega

theorem card_new : ((block net (Function.update f v (some new)) new).card : Int) = (block net f new).card + 1 := by
  rw [block_new hv hold hne, card_insert_of_notMem (v_not_mem hv hold hne)]
  push_cast; rfl

theorem B_old_other (h : net.Simple) {g : ℕ} (h1 : g ≠ old) (h2 : g ≠ new) :
    B net (Function.update f v (some new)) old g = B net f old g - d net f v g := by
  unfold B d
  rw [block_old hv hold hne, block_other hv hold hne h1 h2]
  rw [← add_sum_erase _ _ (v_mem hv hold hne)]
  ring

theorem B_new_other (h : net.Simple) {g : ℕ} (h1 : g ≠ old) (h2 : g ≠ new) :
    B net (Function.update f v (some new)) new g = B net f new g + d net f v g := by
  unfold B d
  rw [block_new hv hold hne, block_other hv hold hne h1 h2]
  rw [sum_insert (v_not_mem hv hold hne)]
  ring

theorem B_new_old (h : net.Simple) :
    B net (Function.update f v (some new)) new old = B net f new old + d net f v old - d net f v new := by
  unfold B d
  rw [block_new hv hold hne, block_old hv hold hne]
  rw [sum_insert (v_not_mem hv hold hne)]
  have e1 : ∀ i, ∑ j ∈ block net f old, net.a i j = net.a i v + ∑ j ∈ (block net f old).erase v, net.a i j :=
    fun i => (add_sum_erase _ _ (v_mem hv hold hne)).symm
  simp only [e1, sum_add_distrib, a_self h]
  rw [sum_congr rfl (fun i _ => a_sym h i v)]
  ring

theorem B_old_old (h : net.Simple) :
    B net (Function.update f v (some new)) old old = B net f old old - 2 * d net f v old := by
  unfold B d
  rw [block_old hv hold hne]
  have := sq_insert (a_sym h) (a_self h) (notMem_erase v (block net f old))
  rw [insert_erase (v_mem hv hold hne)] at this
  have e1 : ∑ j ∈ block net f old, net.a v j = net.a v v + ∑ j ∈ (block net f old).erase v, net.a v j :=
    (add_sum_erase _ _ (v_mem hv hold hne)).symm
  rw [a_self h] at e1
  linarith

theorem B_new_new (h : net.Simple) :
    B net (Function.update f v (some new)) new new = B net f new new + 2 * d net f v new := by
  unfold B d
  rw [block_new hv hold hne]
  have := sq_insert (a_sym h) (a_self h) (v_not_mem hv hold hne)
  linarith

theorem B_other {g g' : ℕ} (h1 : g ≠ old) (h2 : g ≠ new) (h1' : g' ≠ old) (h2' : g' ≠ new) :
    B net (Function.update f v (some new)) g g' = B net f g g' := by
  unfold B
  rw [block_other hv hold hne h1 h2, block_other hv hold hne h1' h2']

/-- The change of the number of links. -/
theorem links_move (h : net.Simple) (g g' : ℕ) : links net (Function.update f v (some new)) g g' =
    links net f g g' +
      (if g = old ∧ g' = old then - d net f v old
       else if g = new ∧ g' = new then d net f v new
       else if (g = old ∧ g' = new) ∨ (g = new ∧ g' = old) then d net f v old - d net f v new
       else if g = old then - d net f v g'
       else if g' = old then - d net f v g
       else if g = new then d net f v g'
       else if g' = new then d net f v g else 0) := by
  by_cases e : g = g'
  · subst e
    have h1 := two_links (f := f) h g
    have h2 := two_links (f := Function.update f v (some new)) h g
    by_cases eo : g = old
    · subst eo
      rw [B_old_old hv hold hne h] at h2
      simp; omega
    · by_cases en : g = new
      · subst en
        rw [B_new_new hv hold hne h] at h2
        simp [eo]; omega
      · rw [B_other hv hold hne eo en eo en] at h2
        simp [eo, en]; omega
  · rw [links_ne e, links_ne e]
    by_cases eo : g = old
    · subst eo
      have e' : g' ≠ g := Ne.symm e
      by_cases en : g' = new
      · subst en
        rw [B_symm h, B_new_old hv hold hne h, B_symm h g']
        simp [e, e']
        ring
      · rw [B_old_other hv hold hne h e' en]
        simp [e', en, hne.symm]; ring
    · by_cases en : g = new
      · subst en
        by_cases eo' : g' = old
        · subst eo'
          rw [B_new_old hv hold hne h]
          simp [e, eo, Ne.symm e]; ring
        · rw [B_new_other hv hold hne h eo' (Ne.symm e)]
          simp [eo, eo', Ne.symm e]
      · by_cases eo' : g' = old
        · subst eo'
          rw [B_symm h, B_old_other hv hold hne h eo en, B_symm h g']
          simp [eo, en, hne.symm]; ring
        · by_cases en' : g' = new
          · subst en'
            rw [B_symm h, B_new_other hv hold hne h eo en, B_symm h g']
            simp [eo, en, eo']
          · rw [B_other hv hold hne eo en eo' en']
            simp [eo, en, eo', en']

theorem pairs_other {g g' : ℕ} (h1 : g ≠ old) (h2 : g ≠ new) (h1' : g' ≠ old) (h2' : g' ≠ new) :
    pairs net (Function.update f v (some new)) g g' = pairs net f g g' := by
  unfold pairs
  rw [block_other hv hold hne h1 h2, block_other hv hold hne h1' h2']

theorem T_other (h : net.Simple) {g g' : ℕ} (h1 : g ≠ old) (h2 : g ≠ new) (h1' : g' ≠ old) (h2' : g' ≠ new) :
    T net (Function.update f v (some new)) g g' = T net f g g' := by
  unfold T
  rw [pairs_other hv hold hne h1 h2 h1' h2', links_move hv hold hne h]
  simp [h1, h2, h1', h2']

end

/-! ## Sums over pairs of groups -/

/-- Diagonal and upper triangle. -/
noncomputable def tri (n : ℕ) (U : ℕ → ℕ → ℝ) : ℝ :=
  ∑ g ∈ range n, U g g + ∑ g ∈ range n, ∑ g' ∈ (range n).filter (g < ·), U g g'

theorem tri_eq {n : ℕ} {U : ℕ → ℕ → ℝ} (hs : ∀ g g', U g g' = U g' g) :
    2 * tri n U = ∑ g ∈ range n, U g g + ∑ g ∈ range n, ∑ g' ∈ range n, U g g' := by
  have h1 : ∀ g ∈ range n, ∑ g' ∈ range n, U g g' =
      U g g + ∑ g' ∈ (range n).filter (g < ·), U g g' + ∑ g' ∈ (range n).filter (· < g), U g g' := by
    intro g hg
    simp only [sum_filter]
    rw [← sum_ite_eq_of_mem (range n) g (fun g' => U g g') hg, ← sum_add_distrib, ← sum_add_distrib]
    apply sum_congr rfl
    intro g' _
    rcases Nat.lt_trichotomy g g' with h | h | h
    · simp [h, Nat.ne_of_lt h, Nat.not_lt.2 h.le]
    · subst h; simp
    · simp [h, (Nat.ne_of_lt h).symm, Nat.not_lt.2 h.le]
  have h2 : ∑ g ∈ range n, ∑ g' ∈ (range n).filter (· < g), U g g' =
      ∑ g ∈ range n, ∑ g' ∈ (range n).filter (g < ·), U g g' := by
    simp only [sum_filter]
    rw [sum_comm]
    exact sum_congr rfl fun g _ => sum_congr rfl fun g' _ => by rw [hs]
  rw [sum_congr rfl h1, sum_add_distrib, sum_add_distrib, h2]
  unfold tri
  ring

/-- Change of the sum when only pairs that touch `a` or `b` change. -/
theorem tri_change {n : ℕ} {U : ℕ → ℕ → ℝ} (hs : ∀ g g', U g g' = U g' g) {a b : ℕ} (ha : a < n) (hb : b < n)
    (hab : b ≠ a) (h0 : ∀ g g', g ≠ a → g ≠ b → g' ≠ a → g' ≠ b → U g g' = 0) :
    tri n U = ∑ g ∈ range n, (if g = a then U a a + U b a else if g = b then U b b else U a g + U b g) := by
  have ha' := mem_range.2 ha
  have hb' : b ∈ (range n).erase a := mem_erase.2 ⟨hab, mem_range.2 hb⟩
  have split : ∀ F : ℕ → ℝ, ∑ g ∈ range n, F g = F a + (F b + ∑ g ∈ ((range n).erase a).erase b, F g) := by
    intro F
    rw [← add_sum_erase _ _ ha', ← add_sum_erase _ _ hb']
  have hm : ∀ g ∈ ((range n).erase a).erase b, g ≠ a ∧ g ≠ b := by
    intro g hg
    have := mem_erase.1 hg
    exact ⟨(mem_erase.1 this.2).1, this.1⟩
  have h2 := tri_eq (n := n) hs
  have e1 : ∑ g ∈ range n, U g g = U a a + U b b := by
    rw [split, sum_eq_zero (fun g hg => h0 g g (hm g hg).1 (hm g hg).2 (hm g hg).1 (hm g hg).2)]
    ring
  have e3 : ∀ g ∈ ((range n).erase a).erase b, ∑ g' ∈ range n, U g g' = U a g + U b g := by
    intro g hg
    rw [split, sum_eq_zero (fun g' hg' => h0 g g' (hm g hg).1 (hm g hg).2 (hm g' hg').1 (hm g' hg').2), hs g a, hs g b]
    ring
  rw [e1, split (fun g => ∑ g' ∈ range n, U g g'), sum_congr rfl e3, split (fun g' => U a g'),
    split (fun g' => U b g'), sum_add_distrib, hs a b] at h2
  rw [split, if_pos rfl, if_neg hab, if_pos rfl]
  have e4 : ∑ g ∈ ((range n).erase a).erase b, (if g = a then U a a + U b a else if g = b then U b b else U a g + U b g)
      = ∑ g ∈ ((range n).erase a).erase b, U a g + ∑ g ∈ ((range n).erase a).erase b, U b g := by
    rw [← sum_add_distrib]
    apply sum_congr rfl
    intro g hg
    rw [if_neg (hm g hg).1, if_neg (hm g hg).2]
  rw [e4]
  linarith

end LS
