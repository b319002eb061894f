import Verif.Layout.ArrangeModel
import Verif.BFS.Clusters
import Verif.BFS.Props
import Mathlib.Tactic.NormNum
import Mathlib.Tactic.Linarith

/-!
`ArrangeComponents` moves every component as a rigid body (C103); where to depends on uninitialised
memory.
-/

set_option linter.unusedSimpArgs false

namespace LY
open RG

/-- C103: the drawing of a connected network is left alone. -/
theorem C103_connected (adj : ℕ → List ℕ) (n : ℕ) (hn : 0 < n) (hadj : BFS.InRange adj n)
    (hc : ∀ v < n, BFS.Reach adj 0 v) (jx jy x y : ℕ → ℝ) (t : Tape) :
    ArrangeComponents adj n jx jy x y t = .ok (x, y, t) := by
  unfold ArrangeComponents
  rw [(BFS.C18_connected hadj hn).1 hc]
  simp

theorem attempt_holds {N : ℕ} (hN : 0 < N) (xtot ytot width : ℝ) (s : Circles × Tape) :
    (attempt N xtot ytot width s).Holds fun _ => True := by
  obtain ⟨c, t⟩ := s
  unfold attempt
  refine (pick_holds hN t).bind ?_
  rintro ⟨target, t⟩ ht
  simp only at ht
  simp only [if_pos ht]
  refine (draw_holds t).bind ?_
  rintro ⟨u, t⟩ -
  refine (draw_holds t).bind ?_
  rintro ⟨v, t⟩ -
  simp only
  split_ifs <;> trivial

theorem iter_holds {σ : Type} {f : σ → Res σ} (h : ∀ s, (f s).Holds fun _ => True) (k : ℕ) :
    ∀ s, (GP.iter f k s).Holds fun _ => True := by
  induction k with
  | zero => intro s; trivial
  | succ k ih => intro s; exact (h s).bind fun s' _ => ih s'

theorem shrink_holds {N : ℕ} (hN : 0 < N) (xtot ytot : ℝ) (fuel : ℕ) :
    ∀ width s, (shrink N xtot ytot fuel width s).Holds fun _ => True := by
  induction fuel with
  | zero => intro w s; trivial
  | succ fuel ih =>
    intro w s
    unfold shrink
    split_ifs
    · exact (iter_holds (attempt_holds hN xtot ytot w) _ s).bind fun s' _ => ih _ s'
    · trivial

/-- C103, the part that holds.  In every undirected network, for all random numbers and whatever the memory held, the
function stays within its arrays, and two nodes with a path between them are displaced by the same
amount: the shape of each component is kept. -/
theorem C103_rigid_partial (adj : ℕ → List ℕ) (n : ℕ) (hn : 0 < n) (hadj : BFS.InRange adj n)
    (hsym : BFS.Sym adj) (jx jy x y : ℕ → ℝ) (t : Tape) :
    (ArrangeComponents adj n jx jy x y t).Holds fun r =>
      ∀ i < n, ∀ j < n, BFS.Reach adj i j →
        r.1 i - x i = r.1 j - x j ∧ r.2.1 i - y i = r.2.1 j - y j := by
  by_cases hc : ∀ v < n, BFS.Reach adj 0 v
  · rw [C103_connected adj n hn hadj hc]
    simp
  unfold ArrangeComponents
  rw [(BFS.C18_connected hadj hn).2 hc]
  obtain ⟨p, hp, hne, hcount, hin, hreach⟩ := BFS.C28_components hn hadj hsym
  have hfilt : (p.groups.filter fun g => 0 < g.length) = p.groups := by
    rw [List.filter_eq_self]
    intro g hg
    simpa [List.length_pos_iff] using hne g hg
  have hgrp : ∀ i < n, ∃ g, p.inGroup i = some g ∧ g < p.groups.length := by
    intro i hi
    have h1 : i ∈ p.groups.flatten := by
      rw [← List.count_pos_iff, hcount, if_pos hi]; exact Nat.one_pos
    obtain ⟨g, hg, hig⟩ := List.mem_flatten.1 h1
    obtain ⟨k, hk, hkg⟩ := List.getElem_of_mem hg
    exact ⟨k, (hin i k).2 ⟨g, by rw [List.getElem?_eq_getElem hk, hkg], hig⟩, hk⟩
  have hN : 0 < p.groups.length := by
    obtain ⟨g, -, hg⟩ := hgrp 0 hn
    omega
  simp only [Res.ofOption_some, Res.bind_ok, if_true, hp, hfilt, lt_irrefl, if_false]
  refine (shrink_holds hN _ _ 45 1 _).bind ?_
  rintro ⟨c, t'⟩ -
  simp only
  rw [if_pos (fun i hi => hgrp i (List.mem_range.1 hi))]
  intro i hi j hj hij
  have := (hreach i hi j hj).2 hij
  simp only [hi, hj, if_true, this]
  constructor <;> ring

/-! ### Uninitialised memory -/

/-- The full statement: the result is determined by the network, its drawing and the random
numbers. -/
def C103_claim : Prop := ∀ (adj : ℕ → List ℕ) (n : ℕ) (x y jx jy jx' jy' : ℕ → ℝ) (t : Tape)
  (r r' : (ℕ → ℝ) × (ℕ → ℝ) × Tape), BFS.InRange adj n → BFS.Sym adj →
  ArrangeComponents adj n jx jy x y t = .ok r → ArrangeComponents adj n jx' jy' x y t = .ok r' →
  ∀ i < n, r.1 i = r'.1 i ∧ r.2.1 i = r'.2.1 i

/-- Random numbers of one half: circle 1 of two is left where it is. -/
theorem attempt_half (xtot ytot width : ℝ) (c : Circles) (t : Tape) :
    attempt 2 xtot ytot width (c, 1 / 2 :: 1 / 2 :: 1 / 2 :: t) = .ok (c, t) := by
  have hd : ∀ t : Tape, draw (1 / 2 :: t) = .ok (1 / 2, t) := by
    intro t; simp only [draw]; rw [if_pos (by norm_num)]
  have hp : ∀ t : Tape, pick 2 (1 / 2 :: t) = .ok (1, t) := by
    intro t; unfold pick; rw [hd]; norm_num
  unfold attempt
  simp only [hp, hd, Res.bind_ok]
  norm_num

theorem iter_half (xtot ytot width : ℝ) (c : Circles) (k : ℕ) (t : Tape) :
    GP.iter (attempt 2 xtot ytot width) k (c, List.replicate (3 * k) (1 / 2) ++ t) = .ok (c, t) := by
  induction k with
  | zero => rfl
  | succ k ih =>
    unfold GP.iter
    rw [show 3 * (k + 1) = 3 * k + 1 + 1 + 1 from by ring]
    simp only [List.replicate_succ, List.cons_append]
    rw [attempt_half]
    exact ih

theorem shrink_half (xtot ytot : ℝ) (c : Circles) (f : ℕ) : ∀ (width : ℝ),
    width * (9 / 10) ^ f ≤ 1 / 100 →
    ∃ t', shrink 2 xtot ytot (f + 1) width (c, List.replicate (600 * f) (1 / 2)) = .ok (c, t') := by
  induction f with
  | zero =>
    intro w hw
    refine ⟨[], ?_⟩
    unfold shrink
    rw [if_neg (by rw [pow_zero, mul_one] at hw; exact not_lt.2 hw)]
    rfl
  | succ f ih =>
    intro w hw
    by_cases h : w > 1 / 100
    · obtain ⟨t', ht'⟩ := ih (w * (9 / 10)) (by rw [pow_succ] at hw; linarith)
      refine ⟨t', ?_⟩
      unfold shrink
      rw [if_pos h, show 600 * (f + 1) = 3 * (100 * 2) + 600 * f from by ring, List.replicate_add,
        iter_half]
      exact ht'
    · refine ⟨List.replicate (600 * (f + 1)) (1 / 2), ?_⟩
      unfold shrink
      rw [if_neg h]

/-- Two nodes without links. -/
noncomputable def diag : ℕ → ℝ := fun i => i

/-- The tape that asks circle 1 to go half a unit to the left and then to stay. -/
def leftTape (k m : ℕ) : Tape := 1 / 2 :: 1 / 4 :: 1 / 2 :: (List.replicate (3 * k) (1 / 2) ++
  List.replicate (600 * m) (1 / 2))

/-- The first attempt with that tape. -/
theorem attempt_left (xtot ytot : ℝ) (c : Circles) (t : Tape) :
    let xce := Function.update c.xce 1 (c.xce 1 - 1 / 2)
    (CircleDistance 1 xtot ytot xce c.yce c.rad 2 ≤ CircleDistance 1 xtot ytot c.xce c.yce c.rad 2 →
      ∃ c', attempt 2 xtot ytot 1 (c, 1 / 2 :: 1 / 4 :: 1 / 2 :: t) = .ok (c', t) ∧
        c'.dxtot 1 = c.dxtot 1 - 1 / 2) ∧
    (CircleDistance 1 xtot ytot c.xce c.yce c.rad 2 < CircleDistance 1 xtot ytot xce c.yce c.rad 2 →
      ∃ c', attempt 2 xtot ytot 1 (c, 1 / 2 :: 1 / 4 :: 1 / 2 :: t) = .ok (c', t) ∧
        c'.dxtot 1 = c.dxtot 1) := by
  intro xce
  have hd : ∀ (t : Tape) (u : ℚ), 0 ≤ u → u < 1 → draw (u :: t) = .ok (u, t) := by
    intro t u h0 h1; simp only [draw]; rw [if_pos ⟨h0, h1⟩]
  have hp : ∀ t : Tape, pick 2 (1 / 2 :: t) = .ok (1, t) := by
    intro t; unfold pick; rw [hd _ _ (by norm_num) (by norm_num)]; norm_num
  have e1 : (1 : ℝ) * 2 * (((1 / 4 : ℚ) : ℝ) - 1 / 2) = - (1 / 2) := by norm_num
  have e2 : (1 : ℝ) * 2 * (((1 / 2 : ℚ) : ℝ) - 1 / 2) = 0 := by norm_num
  have run : attempt 2 xtot ytot 1 (c, 1 / 2 :: 1 / 4 :: 1 / 2 :: t) =
      (if CircleDistance 1 xtot ytot xce c.yce c.rad 2 > CircleDistance 1 xtot ytot c.xce c.yce c.rad 2
      then .ok ({ c with xce := Function.update xce 1 (xce 1 - (-(1 / 2))), yce := Function.update c.yce 1 (c.yce 1 - 0) }, t)
      else .ok ({ c with xce := xce, yce := c.yce, dxtot := Function.update c.dxtot 1 (c.dxtot 1 + -(1/2)), dytot := Function.update c.dytot 1 (c.dytot 1 + 0) }, t)) := by
    unfold attempt
    simp only [hp, hd _ (1 / 4) (by norm_num) (by norm_num), hd _ (1 / 2) (by norm_num) (by norm_num),
      Res.bind_ok, e1, e2, add_zero, Function.update_eq_self]
    rw [if_pos (by norm_num)]
    rfl
  rw [run]
  constructor
  · intro h
    rw [if_neg (not_lt.2 h)]
    exact ⟨_, rfl, by simp [sub_eq_add_neg]⟩
  · intro h
    rw [if_pos h]
    exact ⟨_, rfl, rfl⟩

/-- The run on two separate nodes, up to the first attempt. -/
theorem arrange_two (jx : ℕ → ℝ) (k m : ℕ) (hk : k = 199) (hm43 : m = 43) :
    let c := circles jx (fun _ => 0) diag diag [[0], [1]]
    let xce := Function.update c.xce 1 (c.xce 1 - 1 / 2)
    (CircleDistance 1 (c.xce 0) (c.yce 0) xce c.yce c.rad 2 ≤
        CircleDistance 1 (c.xce 0) (c.yce 0) c.xce c.yce c.rad 2 →
      ∃ r, ArrangeComponents (fun _ => []) 2 jx (fun _ => 0) diag diag (leftTape k m) = .ok r ∧ r.1 1 = 1 / 2) ∧
    (CircleDistance 1 (c.xce 0) (c.yce 0) c.xce c.yce c.rad 2 <
        CircleDistance 1 (c.xce 0) (c.yce 0) xce c.yce c.rad 2 →
      ∃ r, ArrangeComponents (fun _ => []) 2 jx (fun _ => 0) diag diag (leftTape k m) = .ok r ∧ r.1 1 = 1) := by
  intro c xce
  have hconn : BFS.IsGraphConnected (fun _ => []) 2 = some 0 := by decide +kernel
  have hcl : ∃ p, BFS.ClustersPartition (fun _ => []) 2 = some p ∧ p.groups = [[0], [1]] ∧
      p.inGroup 0 = some 0 ∧ p.inGroup 1 = some 1 := by
    have h : (BFS.ClustersPartition (fun _ => []) 2).map (fun p => (p.groups, p.inGroup 0, p.inGroup 1)) =
      some ([[0], [1]], some 0, some 1) := by decide +kernel
    rw [Option.map_eq_some_iff] at h
    obtain ⟨p, hp, h⟩ := h
    simp only [Prod.mk.injEq] at h
    exact ⟨p, hp, h.1, h.2.1, h.2.2⟩
  obtain ⟨p, hp, hg, h0, h1⟩ := hcl
  -- after the first attempt nothing moves
  have tail : ∀ c1 c2 : Circles, ∀ a b : ℝ, attempt 2 a b 1 (c1, (leftTape k m)) =
      .ok (c2, List.replicate (3 * k) (1 / 2) ++ List.replicate (600 * m) (1 / 2)) →
      ∃ t', shrink 2 a b 45 1 (c1, (leftTape k m)) = .ok (c2, t') := by
    intro c1 c2 a b h
    obtain ⟨t', ht'⟩ := shrink_half a b c2 m (1 * (9 / 10)) (by rw [hm43]; norm_num)
    refine ⟨t', ?_⟩
    have it : GP.iter (attempt 2 a b 1) (100 * 2) (c1, (leftTape k m)) =
        .ok (c2, List.replicate (600 * m) (1 / 2)) := by
      rw [show 100 * 2 = k + 1 from by omega]
      show (attempt 2 a b 1 (c1, leftTape k m) >>= fun s => GP.iter (attempt 2 a b 1) k s) = _
      rw [h]
      exact iter_half a b 1 c2 k _
    rw [show 45 = m + 1 + 1 from by omega]
    unfold shrink
    rw [if_pos (by norm_num), it]
    exact ht'
  have fin : ∀ c2 t', shrink 2 (c.xce 0) (c.yce 0) 45 1 (c, (leftTape k m)) = .ok (c2, t') →
      ∃ r, ArrangeComponents (fun _ => []) 2 jx (fun _ => 0) diag diag (leftTape k m) = .ok r ∧
        r.1 1 = 1 + c2.dxtot 1 := by
    intro c2 t' h
    have hall : ∀ i ∈ List.range 2, ∃ g, p.inGroup i = some g ∧ g < 2 := by
      intro i hi
      have : i = 0 ∨ i = 1 := by have := List.mem_range.1 hi; omega
      rcases this with rfl | rfl
      · exact ⟨0, h0, by norm_num⟩
      · exact ⟨1, h1, by norm_num⟩
    unfold ArrangeComponents
    simp only [hconn, Res.ofOption_some, Res.bind_ok, if_true, hp, hg]
    have hN : (([[0], [1]] : List (List ℕ)).filter fun g => 0 < g.length).length = 2 := by decide
    have hm : (largest [[0], [1]]).2 = 0 := by decide
    simp only [hN, hm]
    rw [if_neg (by decide), h, Res.bind_ok, if_pos hall]
    refine ⟨_, rfl, ?_⟩
    simp [h1, diag]
  constructor
  · intro h
    obtain ⟨c2, e, hd⟩ := (attempt_left (c.xce 0) (c.yce 0) c _).1 h
    obtain ⟨t', ht'⟩ := tail c c2 _ _ e
    obtain ⟨r, hr, hr1⟩ := fin c2 t' ht'
    refine ⟨r, hr, ?_⟩
    rw [hr1, hd]
    simp [c, circles]; norm_num
  · intro h
    obtain ⟨c2, e, hd⟩ := (attempt_left (c.xce 0) (c.yce 0) c _).2 h
    obtain ⟨t', ht'⟩ := tail c c2 _ _ e
    obtain ⟨r, hr, hr1⟩ := fin c2 t' ht'
    refine ⟨r, hr, ?_⟩
    rw [hr1, hd]
    simp [c, circles]

open Classical in
theorem distance_two (xtot ytot : ℝ) (xce yce rad : ℕ → ℝ) :
    CircleDistance 1 xtot ytot xce yce rad 2 =
      Real.sqrt ((xce 1 - xtot) * (xce 1 - xtot) + (yce 1 - ytot) * (yce 1 - ytot)) +
      10 ^ 5 * max 0 (rad 1 + rad 0 - Real.sqrt ((xce 1 - xce 0) * (xce 1 - xce 0) +
        (yce 1 - yce 0) * (yce 1 - yce 0))) := by
  have hr : List.range 2 = [0, 1] := by decide
  simp only [CircleDistance, hr, List.foldl_cons, List.foldl_nil]
  simp only [ne_eq, zero_ne_one, not_false_eq_true, if_true, not_true_eq_false, if_false]
  split_ifs with h
  · rw [max_eq_right (le_of_lt h)]
  · rw [max_eq_left (not_lt.1 h)]; ring

/-- The drawing depends on what the memory held: two separate nodes at opposite corners of the unit
square end at different places when the array holds 0 and when it holds 100. -/
theorem C103_refuted : ¬ C103_claim := by
  intro hclaim
  obtain ⟨k, hk⟩ : ∃ k, k = 199 := ⟨_, rfl⟩
  obtain ⟨m, hm⟩ : ∃ m, m = 43 := ⟨_, rfl⟩
  -- with zeroed memory the move is made
  have hA := (arrange_two (fun _ => 0) k m hk hm).1 (by
    rw [distance_two, distance_two]
    simp [circles, centre, radius, diag]
    norm_num)
  -- with the other value it is undone
  have hB := (arrange_two (fun i => if i = 1 then 100 else 0) k m hk hm).2 (by
    rw [distance_two, distance_two]
    have s1 : Real.sqrt 40405 / Real.sqrt 4 < Real.sqrt 10202 := by
      rw [← Real.sqrt_div (by norm_num)]
      exact Real.sqrt_lt_sqrt (by norm_num) (by norm_num)
    have s2 : Real.sqrt 10202 < 102 := by
      rw [Real.sqrt_lt' (by norm_num)]; norm_num
    have hrad : Real.sqrt 10000 = 100 := by
      rw [show (10000 : ℝ) = 100 * 100 by norm_num, Real.sqrt_mul_self (by norm_num)]
    simp only [circles, centre, radius, diag, List.getD_cons_zero, List.getD_cons_succ, List.foldl_cons,
      List.foldl_nil, List.length_singleton, Nat.cast_one, div_one, Nat.cast_zero, if_true, zero_ne_one,
      if_false, add_zero, zero_add, sub_self, mul_zero, zero_mul, Real.sqrt_zero, gt_iff_lt, lt_irrefl,
      Function.update_self, ne_eq, not_false_eq_true, Function.update_of_ne, sub_zero]
    norm_num
    rw [hrad, max_eq_right (by linarith), max_eq_right (by linarith)]
    linarith)
  obtain ⟨r, hr, h1⟩ := hA
  obtain ⟨r', hr', h1'⟩ := hB
  have := (hclaim (fun _ => []) 2 diag diag _ _ _ _ (leftTape k m) r r' (by intro i _ j hj; simp at hj)
    (by intro i j hj; simp at hj) hr hr' 1 (by norm_num)).1
  rw [h1, h1'] at this
  norm_num at this

end LY
