import Verif.Missing.Move

/-! # The incremental update of `G2G` -/

set_option linter.unusedSimpArgs false

namespace LS

open GP RG Finset

/-- Change of the link counts when a node with `c g` links to group `g` goes from `old` to `new`. -/
def change (old new : ℕ) (c : ℕ → Int) (g g' : ℕ) : Int :=
  if g = old ∧ g' = old then - c old
  else if g = new ∧ g' = new then c new
  else if (g = old ∧ g' = new) ∨ (g = new ∧ g' = old) then c old - c new
  else if g = old then - c g'
  else if g' = old then - c g
  else if g = new then c g'
  else if g' = new then c g else 0

theorem change_symm (old new : ℕ) (c : ℕ → Int) (g g' : ℕ) : change old new c g g' = change old new c g' g := by
  unfold change
  split_ifs <;> simp_all

theorem change_add (old new : ℕ) (c c' : ℕ → Int) (g g' : ℕ) :
    change old new (fun i => c i + c' i) g g' = change old new c g g' + change old new c' g g' := by
  unfold change
  split_ifs <;> ring

theorem set2_apply (M : ℕ → ℕ → Int) (i j : ℕ) (x : Int) (a b : ℕ) :
    set2 M i j x a b = if a = i ∧ b = j then x else M a b := by
  unfold set2
  by_cases h1 : a = i
  · subst h1
    by_cases h2 : b = j
    · subst h2; simp
    · simp [h2]
  · simp [h1]

theorem g2gStep_apply {old new : ℕ} (hne : new ≠ old) (c : ℕ → Int) {M : ℕ → ℕ → Int}
    (hs : ∀ i j, M i j = M j i) (i g g' : ℕ) :
    g2gStep old new c M i g g' = M g g' + change old new (fun j => if j = i then c i else 0) g g' := by
  have hne' := hne.symm
  unfold g2gStep
  simp only [set2_apply]
  unfold change
  by_cases e1 : i = old
  · subst e1
    by_cases a1 : g = i <;> by_cases a2 : g = new <;> by_cases b1 : g' = i <;> by_cases b2 : g' = new <;>
      simp_all <;> ring
  · by_cases e2 : i = new
    · subst e2
      by_cases a1 : g = old <;> by_cases a2 : g = i <;> by_cases b1 : g' = old <;> by_cases b2 : g' = i <;>
        simp_all <;> ring
    · by_cases a1 : g = old <;> by_cases a2 : g = new <;> by_cases a3 : g = i <;>
        by_cases b1 : g' = old <;> by_cases b2 : g' = new <;> by_cases b3 : g' = i <;>
        simp_all <;> ring

theorem g2gUpdate_apply {old new : ℕ} (hne : new ≠ old) (c : ℕ → Int) {M : ℕ → ℕ → Int}
    (hs : ∀ i j, M i j = M j i) : ∀ (n g g' : ℕ),
    g2gUpdate n old new c M g g' = M g g' + change old new (fun j => if j < n then c j else 0) g g'
  | 0, g, g' => by simp [g2gUpdate, change]
  | n + 1, g, g' => by
    have ih := g2gUpdate_apply hne c hs n
    unfold g2gUpdate at ih ⊢
    rw [List.range_succ, List.foldl_append, List.foldl_cons, List.foldl_nil, g2gStep_apply hne, ih, add_assoc,
      ← change_add]
    · congr 1
      congr 1
      funext j
      rcases Nat.lt_trichotomy j n with h | h | h
      · simp [h, Nat.ne_of_lt h, Nat.lt_succ_of_lt h]
      · subst h; simp
      · simp [(Nat.ne_of_lt h).symm, Nat.not_lt.2 h.le, show ¬ j < n + 1 by omega]
    · intro i j
      rw [ih, ih, hs, change_symm]

theorem g2gStep_congr {N old new i : ℕ} (ho : old < N) (hn : new < N) (hi : i < N) (c : ℕ → Int)
    {M M' : ℕ → ℕ → Int} (h : ∀ g < N, ∀ g' < N, M g g' = M' g g') :
    ∀ g < N, ∀ g' < N, g2gStep old new c M i g g' = g2gStep old new c M' i g g' := by
  intro g hg g' hg'
  unfold g2gStep
  simp only [set2_apply, h g hg g' hg', h i hi old ho, h i hi new hn]

theorem g2gUpdate_congr {N old new : ℕ} (ho : old < N) (hn : new < N) (c : ℕ → Int)
    {M M' : ℕ → ℕ → Int} (h : ∀ g < N, ∀ g' < N, M g g' = M' g g') : ∀ n ≤ N,
    ∀ g < N, ∀ g' < N, g2gUpdate n old new c M g g' = g2gUpdate n old new c M' g g'
  | 0, _ => h
  | n + 1, hle => by
    have ih := g2gUpdate_congr ho hn c h n (by omega)
    unfold g2gUpdate at ih ⊢
    rw [List.range_succ, List.foldl_append, List.foldl_append]
    exact g2gStep_congr ho hn (by omega) c ih

/-- The update adds the change to every cell of the matrix. -/
theorem g2gUpdate_eq {n old new : ℕ} (hne : new ≠ old) (ho : old < n) (hn : new < n) (c : ℕ → Int)
    {M : ℕ → ℕ → Int} (hs : ∀ i < n, ∀ j < n, M i j = M j i) {g g' : ℕ} (hg : g < n) (hg' : g' < n) :
    g2gUpdate n old new c M g g' = M g g' + change old new c g g' := by
  have h1 := g2gUpdate_congr ho hn c (M := M) (M' := fun i j => if i < n ∧ j < n then M i j else 0)
    (fun i hi j hj => by simp [hi, hj]) n (le_refl _) g hg g' hg'
  rw [h1, g2gUpdate_apply hne]
  · simp only [hg, hg', and_self, if_true]
    congr 1
    unfold change
    simp only [ho, hn, hg, hg', if_true]
  · intro i j
    by_cases hi : i < n <;> by_cases hj : j < n <;> simp [hi, hj]
    exact hs i hi j hj

end LS
