import Verif.Layout.Arrange
import Mathlib.Algebra.Order.BigOperators.Group.List

/-!
How far `ArrangeComponents` moves the components.
-/

set_option linter.unusedSimpArgs false

namespace LY
open RG

/-- No component has been moved farther than `k`. -/
def Near (k : ℝ) (c : Circles) : Prop := ∀ g, |c.dxtot g| ≤ k ∧ |c.dytot g| ≤ k

theorem Near.mono {k k' : ℝ} {c : Circles} (h : Near k c) (hk : k ≤ k') : Near k' c :=
  fun g => ⟨(h g).1.trans hk, (h g).2.trans hk⟩

theorem update_near {f : ℕ → ℝ} {k d : ℝ} (h : ∀ g, |f g| ≤ k) (hd : |d| ≤ 1) (j : ℕ) : ∀ g, |Function.update f j (f j + d) g| ≤ k + 1 := by
  intro g
  rw [Function.update_apply]
  split_ifs
  · exact (abs_add_le _ _).trans (add_le_add (h j) hd)
  · exact (h g).trans (by linarith)

theorem jump_le {width : ℝ} (h0 : 0 ≤ width) (h1 : width ≤ 1) {u : ℚ} (hu : 0 ≤ u ∧ u < 1) : |width * 2 * ((u : ℝ) - 1 / 2)| ≤ 1 := by
  have a : (0 : ℝ) ≤ u := by exact_mod_cast hu.1
  have b : (u : ℝ) < 1 := by exact_mod_cast hu.2
  rw [abs_le]
  constructor <;> nlinarith

theorem attempt_near {N : ℕ} (hN : 0 < N) (xtot ytot : ℝ) {width : ℝ} (h0 : 0 ≤ width) (h1 : width ≤ 1) {k : ℝ} (s : Circles × Tape)
    (h : Near k s.1) : (attempt N xtot ytot width s).Holds fun r => Near (k + 1) r.1 := by
  obtain ⟨c, t⟩ := s
  unfold attempt
  refine (pick_holds hN t).bind ?_
  rintro ⟨target, t⟩ ht
  simp only at ht
  simp only [if_pos ht]
  refine (draw_holds t).bind ?_
  rintro ⟨u, t⟩ hu
  refine (draw_holds t).bind ?_
  rintro ⟨v, t⟩ hv
  simp only
  split_ifs
  · exact h.mono (by linarith)
  · intro g
    exact ⟨update_near (fun g => (h g).1) (jump_le h0 h1 hu) _ g, update_near (fun g => (h g).2) (jump_le h0 h1 hv) _ g⟩

theorem iter_near {N : ℕ} (hN : 0 < N) (xtot ytot : ℝ) {width : ℝ} (h0 : 0 ≤ width) (h1 : width ≤ 1) (m : ℕ) : ∀ (k : ℝ) (s : Circles × Tape),
    Near k s.1 → (GP.iter (attempt N xtot ytot width) m s).Holds fun r => Near (k + m) r.1 := by
  induction m with
  | zero => intro k s h; simpa [GP.iter] using h
  | succ m ih =>
    intro k s h
    refine (attempt_near hN xtot ytot h0 h1 s h).bind fun s' h' => ?_
    refine (ih (k + 1) s' h').mono fun r hr => hr.mono (by push_cast; linarith)

theorem shrink_near {N : ℕ} (hN : 0 < N) (xtot ytot : ℝ) (fuel : ℕ) : ∀ (width k : ℝ) (s : Circles × Tape), 0 ≤ width → width ≤ 1 → Near k s.1 →
    (shrink N xtot ytot fuel width s).Holds fun r => Near (k + fuel * (100 * N)) r.1 := by
  induction fuel with
  | zero => intro w k s _ _ _; trivial
  | succ fuel ih =>
    intro w k s h0 h1 h
    unfold shrink
    split_ifs
    · refine (iter_near hN xtot ytot h0 h1 _ k s h).bind fun s' h' => ?_
      refine (ih _ _ s' (by linarith) (by linarith) h').mono fun r hr => hr.mono (by push_cast; linarith)
    · exact h.mono (by push_cast; have : (0 : ℝ) ≤ N := by positivity
                       nlinarith [show (0 : ℝ) ≤ fuel from by positivity, mul_nonneg (show (0 : ℝ) ≤ fuel from by positivity) this])

/-- `ArrangeComponents` keeps the shape of each component and moves no node farther than 4500 times the number of nodes. -/
theorem arrange_near (adj : ℕ → List ℕ) (n : ℕ) (hn : 0 < n) (hadj : BFS.InRange adj n)
    (hsym : BFS.Sym adj) (jx jy x y : ℕ → ℝ) (t : Tape) :
    (ArrangeComponents adj n jx jy x y t).Holds fun r =>
      (∀ i < n, ∀ j < n, BFS.Reach adj i j → r.1 i - x i = r.1 j - x j ∧ r.2.1 i - y i = r.2.1 j - y j) ∧
      ∀ i < n, |r.1 i - x i| ≤ 4500 * n ∧ |r.2.1 i - y i| ≤ 4500 * n := by
  by_cases hc : ∀ v < n, BFS.Reach adj 0 v
  · rw [C103_connected adj n hn hadj hc]
    simp
  unfold ArrangeComponents
  rw [(BFS.C18_connected hadj hn).2 hc]
  obtain ⟨p, hp, hne, hcount, hin, hreach⟩ := BFS.C28_components hn hadj hsym
  have hfilt : (p.groups.filter fun g => 0 < g.length) = p.groups := by
    rw [List.filter_eq_self]
    intro g hg
    simpa [List.length_pos_iff] using hne g hg
  have hgrp : ∀ i < n, ∃ g, p.inGroup i = some g ∧ g < p.groups.length := by
    intro i hi
    have h1 : i ∈ p.groups.flatten := by
      rw [← List.count_pos_iff, hcount, if_pos hi]; exact Nat.one_pos
    obtain ⟨g, hg, hig⟩ := List.mem_flatten.1 h1
    obtain ⟨k, hk, hkg⟩ := List.getElem_of_mem hg
    exact ⟨k, (hin i k).2 ⟨g, by rw [List.getElem?_eq_getElem hk, hkg], hig⟩, hk⟩
  have hN : 0 < p.groups.length := by
    obtain ⟨g, -, hg⟩ := hgrp 0 hn
    omega
  have hNn : p.groups.length ≤ n := by
    have h1 : p.groups.flatten.Perm (List.range n) := by
      rw [List.perm_iff_count]
      intro i
      rw [hcount]
      by_cases hi : i < n
      · rw [if_pos hi, List.count_eq_one_of_mem List.nodup_range (List.mem_range.2 hi)]
      · rw [if_neg hi, List.count_eq_zero_of_not_mem (by simpa using hi)]
    have h2 : p.groups.flatten.length = n := by rw [h1.length_eq, List.length_range]
    rw [List.length_flatten] at h2
    have h3 := List.length_le_sum_of_one_le (p.groups.map List.length) (by
      intro k hk
      obtain ⟨g, hg, rfl⟩ := List.mem_map.1 hk
      exact List.length_pos_iff.2 (hne g hg))
    rw [List.length_map] at h3
    omega
  simp only [Res.ofOption_some, Res.bind_ok, if_true, hp, hfilt, lt_irrefl, if_false]
  refine (shrink_near hN _ _ 45 1 0 (circles jx jy x y p.groups, t) (by norm_num) (by norm_num) (by intro g; simp [circles])).bind ?_
  rintro ⟨c, t'⟩ hnear
  simp only
  rw [if_pos (fun i hi => hgrp i (List.mem_range.1 hi))]
  refine ⟨?_, ?_⟩
  · intro i hi j hj hij
    have := (hreach i hi j hj).2 hij
    simp only [hi, hj, if_true, this]
    constructor <;> ring
  · intro i hi
    have hle : (0 : ℝ) + ((45 : ℕ) : ℝ) * (100 * p.groups.length) ≤ 4500 * n := by
      have : (p.groups.length : ℝ) ≤ n := by exact_mod_cast hNn
      push_cast; linarith
    simp only [hi, if_true, add_sub_cancel_left]
    exact ⟨(hnear _).1.trans hle, (hnear _).2.trans hle⟩

end LY
