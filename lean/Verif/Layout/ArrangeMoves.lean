import Verif.Layout.Arrange
import Mathlib.Logic.Relation
import Mathlib.Order.Bounds.Basic

/-!
# C103: the moves of the components

The components of a drawing are moved one at a time, and no move makes the sum of the distance to the middle and 10⁵ times the overlaps
larger.
-/

set_option linter.unusedSimpArgs false

namespace LY
open RG
open scoped BigOperators

/-! ### Specification -/

/-- Distance of two points. -/
noncomputable def between (a b : ℝ × ℝ) : ℝ := Real.sqrt ((a.1 - b.1) ^ 2 + (a.2 - b.2) ^ 2)

/-- What a circle costs: its distance to the middle and its overlap with the other circles. -/
noncomputable def cost (N : ℕ) (rad : ℕ → ℝ) (mid : ℝ × ℝ) (c : ℕ → ℝ × ℝ) (k : ℕ) : ℝ :=
  between (c k) mid + 10 ^ 5 * ∑ l ∈ (Finset.range N).filter (· ≠ k), max 0 (rad k + rad l - between (c k) (c l))

/-- A circle is moved, and does not cost more. -/
def Move (N : ℕ) (rad : ℕ → ℝ) (mid : ℝ × ℝ) (c c' : ℕ → ℝ × ℝ) : Prop :=
  ∃ k < N, ∃ q, c' = Function.update c k q ∧ cost N rad mid c' k ≤ cost N rad mid c k

/-- The nodes of a component. -/
def nodesOf (n : ℕ) (comp : ℕ → ℕ) (k : ℕ) : Finset ℕ := (Finset.range n).filter fun i => comp i = k

/-! ### The model -/

/-- The centres. -/
def Circles.at (c : Circles) (k : ℕ) : ℝ × ℝ := (c.xce k, c.yce k)

theorem distance_cost (k : ℕ) (mid : ℝ × ℝ) (xce yce rad : ℕ → ℝ) (N : ℕ) :
    CircleDistance k mid.1 mid.2 xce yce rad N = cost N rad mid (fun l => (xce l, yce l)) k := by
  unfold CircleDistance cost between
  dsimp only
  have key : ∀ (M : ℕ) (d : ℝ), (List.range M).foldl (fun dis i =>
      if i ≠ k then
        let overlap := rad k + rad i - Real.sqrt ((xce k - xce i) * (xce k - xce i) + (yce k - yce i) * (yce k - yce i))
        if overlap > 0 then dis + 10 ^ 5 * overlap else dis
      else dis) d = d + 10 ^ 5 * ∑ l ∈ (Finset.range M).filter (· ≠ k),
        max 0 (rad k + rad l - Real.sqrt ((xce k - xce l) ^ 2 + (yce k - yce l) ^ 2)) := by
    intro M d
    induction M with
    | zero => simp
    | succ M ih =>
      rw [List.range_succ, List.foldl_append, ih, Finset.range_add_one, Finset.filter_insert]
      simp only [List.foldl_cons, List.foldl_nil]
      by_cases h : M = k
      · rw [if_neg (by simpa using h), if_neg (by simpa using h)]
      · rw [if_pos h, if_pos h, Finset.sum_insert (by simp)]
        simp only [pow_two]
        split_ifs with ho
        · rw [max_eq_right ho.le]; ring
        · rw [max_eq_left (not_lt.1 ho)]; ring
  rw [key]
  simp only [pow_two]

/-- What holds all along. -/
structure Travelled (N : ℕ) (rad : ℕ → ℝ) (mid : ℝ × ℝ) (c0 : ℕ → ℝ × ℝ) (c : Circles) : Prop where
  same : c.rad = rad
  path : Relation.ReflTransGen (Move N rad mid) c0 c.at
  dx : ∀ k, c.dxtot k = c.xce k - (c0 k).1
  dy : ∀ k, c.dytot k = c.yce k - (c0 k).2

theorem attempt_travel {N : ℕ} (hN : 0 < N) {rad : ℕ → ℝ} {mid : ℝ × ℝ} {c0 : ℕ → ℝ × ℝ} (width : ℝ) (s : Circles × Tape)
    (h : Travelled N rad mid c0 s.1) : (attempt N mid.1 mid.2 width s).Holds fun r => Travelled N rad mid c0 r.1 := by
  obtain ⟨c, t⟩ := s
  dsimp only at h
  unfold attempt
  refine (pick_holds hN t).bind ?_
  rintro ⟨k, t⟩ hk
  simp only at hk
  simp only [if_pos hk]
  refine (draw_holds t).bind ?_
  rintro ⟨u, t⟩ -
  refine (draw_holds t).bind ?_
  rintro ⟨v, t⟩ -
  simp only
  rw [distance_cost, distance_cost]
  set dx := width * 2 * ((u : ℝ) - 1 / 2)
  set dy := width * 2 * ((v : ℝ) - 1 / 2)
  split_ifs with hc
  · show Travelled N rad mid c0 _
    have ex : Function.update (Function.update c.xce k (c.xce k + dx)) k (Function.update c.xce k (c.xce k + dx) k - dx) = c.xce := by
      rw [Function.update_self, Function.update_idem, add_sub_cancel_right, Function.update_eq_self]
    have ey : Function.update (Function.update c.yce k (c.yce k + dy)) k (Function.update c.yce k (c.yce k + dy) k - dy) = c.yce := by
      rw [Function.update_self, Function.update_idem, add_sub_cancel_right, Function.update_eq_self]
    rw [ex, ey]
    exact h
  · show Travelled N rad mid c0 _
    have e : (fun l => (Function.update c.xce k (c.xce k + dx) l, Function.update c.yce k (c.yce k + dy) l)) =
        Function.update c.at k (c.xce k + dx, c.yce k + dy) := by
      funext l
      by_cases hl : l = k
      · subst hl; simp
      · simp [hl, Circles.at]
    refine ⟨h.same, ?_, ?_, ?_⟩
    · refine h.path.tail ⟨k, hk, (c.xce k + dx, c.yce k + dy), e, ?_⟩
      rw [h.same] at hc
      exact not_lt.1 hc
    · intro l
      by_cases hl : l = k
      · subst hl; simp [h.dx]; ring
      · simp [hl, h.dx]
    · intro l
      by_cases hl : l = k
      · subst hl; simp [h.dy]; ring
      · simp [hl, h.dy]

theorem iter_travel {σ : Type} {f : σ → Res σ} {P : σ → Prop} (h : ∀ s, P s → (f s).Holds P) (k : ℕ) :
    ∀ s, P s → (GP.iter f k s).Holds P := by
  induction k with
  | zero => intro s hs; exact hs
  | succ k ih =>
    intro s hs
    unfold GP.iter
    exact (h s hs).bind fun s' hs' => ih s' hs'

theorem shrink_travel {N : ℕ} (hN : 0 < N) {rad : ℕ → ℝ} {mid : ℝ × ℝ} {c0 : ℕ → ℝ × ℝ} (fuel : ℕ) :
    ∀ (width : ℝ) (s : Circles × Tape), Travelled N rad mid c0 s.1 →
      (shrink N mid.1 mid.2 fuel width s).Holds fun r => Travelled N rad mid c0 r.1 := by
  induction fuel with
  | zero => intro _ _ _; trivial
  | succ f ih =>
    intro w s hs
    unfold shrink
    split_ifs
    · exact (iter_travel (P := fun s => Travelled N rad mid c0 s.1) (fun s hs => attempt_travel hN w s hs) _ s hs).bind
        fun s' hs' => ih _ s' hs'
    · exact hs

theorem foldl_coord (x : ℕ → ℝ) : ∀ (l : List ℕ) (j : ℝ), l.foldl (fun c v => c + x v) j = j + (l.map x).sum
  | [], j => by simp
  | v :: l, j => by rw [List.foldl_cons, foldl_coord x l]; simp [add_assoc]

theorem radius_spec (d : ℕ → ℝ) (hd : ∀ v, 0 ≤ d v) {l : List ℕ} (hl : l ≠ []) :
    IsGreatest {r | ∃ v ∈ l, r = d v} (l.foldl (fun r v => if d v > r then d v else r) 0) := by
  have key : ∀ (l : List ℕ) (r0 : ℝ), (l.foldl (fun r v => if d v > r then d v else r) r0 = r0 ∨
      ∃ v ∈ l, l.foldl (fun r v => if d v > r then d v else r) r0 = d v) ∧ r0 ≤ l.foldl (fun r v => if d v > r then d v else r) r0 ∧
      ∀ v ∈ l, d v ≤ l.foldl (fun r v => if d v > r then d v else r) r0 := by
    intro l
    induction l with
    | nil => intro r0; simp
    | cons v l ih =>
      intro r0
      rw [List.foldl_cons]
      obtain ⟨h1, h2, h3⟩ := ih (if d v > r0 then d v else r0)
      have hm : r0 ≤ (if d v > r0 then d v else r0) ∧ d v ≤ (if d v > r0 then d v else r0) := by
        split_ifs with h
        · exact ⟨h.le, le_refl _⟩
        · exact ⟨le_refl _, not_lt.1 h⟩
      refine ⟨?_, hm.1.trans h2, ?_⟩
      · rcases h1 with h1 | ⟨w, hw, h1⟩
        · rw [h1]
          split_ifs
          · exact Or.inr ⟨v, by simp, rfl⟩
          · exact Or.inl rfl
        · exact Or.inr ⟨w, by simp [hw], h1⟩
      · intro w hw
        rcases List.mem_cons.1 hw with rfl | hw
        · exact hm.2.trans h2
        · exact h3 w hw
  obtain ⟨h1, h2, h3⟩ := key l 0
  refine ⟨?_, ?_⟩
  · rcases h1 with h1 | h1
    · obtain ⟨v, hv⟩ := List.exists_mem_of_ne_nil l hl
      refine ⟨v, hv, ?_⟩
      have := h3 v hv
      rw [h1] at this ⊢
      exact le_antisymm (hd v) this
    · exact h1
  · rintro r ⟨v, hv, rfl⟩
    exact h3 v hv

theorem largest_spec (groups : List (List ℕ)) (hg : groups ≠ []) (hne : ∀ g ∈ groups, g ≠ []) :
    (largest groups).2 < groups.length ∧ ∀ k < groups.length, (groups.getD k []).length ≤ (groups.getD (largest groups).2 []).length := by
  have key : ∀ M, M ≤ groups.length → 0 < M →
      let m := (List.range M).foldl (fun m g => if (groups.getD g []).length > m.1 then ((groups.getD g []).length, g) else m) (0, 0)
      m.2 < M ∧ m.1 = (groups.getD m.2 []).length ∧ ∀ k < M, (groups.getD k []).length ≤ m.1 := by
    intro M hM h0
    induction M with
    | zero => omega
    | succ M ih =>
      rw [List.range_succ, List.foldl_append]
      simp only [List.foldl_cons, List.foldl_nil]
      rcases Nat.eq_zero_or_pos M with rfl | hpos
      · have hlt : 0 < groups.length := by omega
        have : 0 < (groups.getD 0 []).length := by
          rw [List.getD_eq_getElem?_getD, List.getElem?_eq_getElem hlt]
          exact List.length_pos_iff.2 (hne _ (List.getElem_mem hlt))
        simp only [List.range_zero, List.foldl_nil, gt_iff_lt]
        rw [if_pos this]
        refine ⟨by dsimp only; omega, rfl, ?_⟩
        intro k hk
        have : k = 0 := by omega
        subst this
        exact le_refl _
      · obtain ⟨h1, h2, h3⟩ := ih (by omega) hpos
        split_ifs with h
        · refine ⟨by simp, rfl, ?_⟩
          intro k hk
          rcases Nat.lt_succ_iff_lt_or_eq.1 hk with hk | rfl
          · exact (h3 k hk).trans h.le
          · exact le_refl _
        · refine ⟨by omega, h2, ?_⟩
          intro k hk
          rcases Nat.lt_succ_iff_lt_or_eq.1 hk with hk | rfl
          · exact h3 k hk
          · exact not_lt.1 h
  obtain ⟨h1, h2, h3⟩ := key groups.length (le_refl _) (List.length_pos_iff.2 hg)
  exact ⟨h1, fun k hk => (h3 k hk).trans (le_of_eq h2)⟩

/-- C103, the part that holds, for networks that are not connected. There is a circle for each component: its centre is the sum of what the
memory held and the coordinates, divided by the number of nodes, its radius 1.02 times the distance of the farthest node. The circles are moved
one at a time, and no move makes the cost of a circle larger (distance to the first place of a largest component, and 10⁵ times the overlaps); the
nodes of each component go where its circle goes. -/
theorem C103_moves_partial (adj : ℕ → List ℕ) (n : ℕ) (hn : 0 < n) (hadj : BFS.InRange adj n)
    (hsym : BFS.Sym adj) (hc : ¬ ∀ v < n, BFS.Reach adj 0 v) (jx jy x y : ℕ → ℝ) (t : Tape) :
    (ArrangeComponents adj n jx jy x y t).Holds fun r =>
      ∃ (comp : ℕ → ℕ) (N m : ℕ) (c c' : ℕ → ℝ × ℝ) (rad : ℕ → ℝ),
        (∀ i < n, comp i < N) ∧ (∀ k < N, (nodesOf n comp k).Nonempty) ∧ (∀ i < n, ∀ j < n, comp i = comp j ↔ BFS.Reach adj i j) ∧
        m < N ∧ (∀ k < N, (nodesOf n comp k).card ≤ (nodesOf n comp m).card) ∧
        (∀ k < N, c k = ((jx k + ∑ i ∈ nodesOf n comp k, x i) / (nodesOf n comp k).card,
          (jy k + ∑ i ∈ nodesOf n comp k, y i) / (nodesOf n comp k).card)) ∧
        (∀ k < N, ∃ R, rad k = R * (102 / 100) ∧ IsGreatest {d | ∃ i ∈ nodesOf n comp k, d = between (c k) (x i, y i)} R) ∧
        Relation.ReflTransGen (Move N rad (c m)) c c' ∧
        ∀ i < n, r.1 i = x i + ((c' (comp i)).1 - (c (comp i)).1) ∧ r.2.1 i = y i + ((c' (comp i)).2 - (c (comp i)).2) := by
  unfold ArrangeComponents
  rw [(BFS.C18_connected hadj hn).2 hc]
  obtain ⟨p, hp, hne, hcount, hin, hreach⟩ := BFS.C28_components hn hadj hsym
  have hfilt : (p.groups.filter fun g => 0 < g.length) = p.groups := by
    rw [List.filter_eq_self]
    intro g hg
    simpa [List.length_pos_iff] using hne g hg
  have hgrp : ∀ i < n, ∃ g, p.inGroup i = some g ∧ g < p.groups.length := by
    intro i hi
    have h1 : i ∈ p.groups.flatten := by
      rw [← List.count_pos_iff, hcount, if_pos hi]; exact Nat.one_pos
    obtain ⟨g, hg, hig⟩ := List.mem_flatten.1 h1
    obtain ⟨k, hk, hkg⟩ := List.getElem_of_mem hg
    exact ⟨k, (hin i k).2 ⟨g, by rw [List.getElem?_eq_getElem hk, hkg], hig⟩, hk⟩
  have hN : 0 < p.groups.length := by
    obtain ⟨g, -, hg⟩ := hgrp 0 hn
    omega
  have hnodup : p.groups.flatten.Nodup := by
    rw [List.nodup_iff_count_le_one]
    intro a
    rw [hcount]
    split_ifs <;> omega
  set comp : ℕ → ℕ := fun i => (p.inGroup i).getD 0 with hcomp
  have hset : ∀ k < p.groups.length, (p.groups.getD k []).Nodup ∧ (p.groups.getD k []).toFinset = nodesOf n comp k := by
    intro k hk
    have hget : p.groups[k]? = some (p.groups.getD k []) := by
      rw [List.getD_eq_getElem?_getD, List.getElem?_eq_getElem hk]; rfl
    have hmem : p.groups.getD k [] ∈ p.groups := List.mem_of_getElem? hget
    refine ⟨(List.nodup_flatten.1 hnodup).1 _ hmem, ?_⟩
    ext i
    simp only [List.mem_toFinset, nodesOf, Finset.mem_filter, Finset.mem_range]
    constructor
    · intro hi
      have hlt : i < n := by
        have h1 : 0 < p.groups.flatten.count i := List.count_pos_iff.2 (List.mem_flatten.2 ⟨_, hmem, hi⟩)
        rw [hcount] at h1
        split_ifs at h1 with h
        · exact h
        · omega
      refine ⟨hlt, ?_⟩
      rw [hcomp]
      dsimp only
      rw [(hin i k).2 ⟨_, hget, hi⟩]
      rfl
    · rintro ⟨hi, he⟩
      obtain ⟨g, hg, -⟩ := hgrp i hi
      rw [hcomp] at he
      dsimp only at he
      rw [hg, Option.getD_some] at he
      subst he
      obtain ⟨l, hl, hil⟩ := (hin i _).1 hg
      rw [hget] at hl
      cases hl
      exact hil
  have hcard : ∀ k < p.groups.length, (p.groups.getD k []).length = (nodesOf n comp k).card := fun k hk => by
    rw [← (hset k hk).2, List.toFinset_card_of_nodup (hset k hk).1]
  have hsum : ∀ (z : ℕ → ℝ) (k) (_ : k < p.groups.length), ((p.groups.getD k []).map z).sum = ∑ i ∈ nodesOf n comp k, z i := fun z k hk => by
    rw [← (hset k hk).2, List.sum_toFinset z (hset k hk).1]
  have hgne : ∀ k < p.groups.length, p.groups.getD k [] ≠ [] := by
    intro k hk
    rw [List.getD_eq_getElem?_getD, List.getElem?_eq_getElem hk]
    exact hne _ (List.getElem_mem hk)
  simp only [Res.ofOption_some, Res.bind_ok, if_true, hp, hfilt, lt_irrefl, if_false]
  set c0 := circles jx jy x y p.groups with hc0
  obtain ⟨l1, l2⟩ := largest_spec p.groups (List.length_pos_iff.1 hN) hne
  have hstart : Travelled p.groups.length c0.rad (c0.at (largest p.groups).2) c0.at c0 :=
    ⟨rfl, .refl, fun k => by simp [hc0, circles, Circles.at], fun k => by simp [hc0, circles, Circles.at]⟩
  refine (shrink_travel hN (mid := c0.at (largest p.groups).2) 45 1 (c0, t) hstart).bind ?_
  rintro ⟨c, t'⟩ htr
  simp only
  rw [if_pos (fun i hi => hgrp i (List.mem_range.1 hi))]
  refine ⟨comp, p.groups.length, (largest p.groups).2, c0.at, c.at, c0.rad, ?_, ?_, ?_, l1, ?_, ?_, ?_, htr.path, ?_⟩
  · intro i hi
    obtain ⟨g, hg, hlt⟩ := hgrp i hi
    rw [hcomp]
    dsimp only
    rw [hg]
    exact hlt
  · intro k hk
    rw [← Finset.card_pos, ← hcard k hk]
    exact List.length_pos_iff.2 (hgne k hk)
  · intro i hi j hj
    rw [← hreach i hi j hj]
    obtain ⟨g, hg, -⟩ := hgrp i hi
    obtain ⟨g', hg', -⟩ := hgrp j hj
    rw [hcomp]
    dsimp only
    rw [hg, hg']
    simp
  · intro k hk
    rw [← hcard k hk, ← hcard _ l1]
    exact l2 k hk
  · intro k hk
    simp only [hc0, circles, Circles.at, centre]
    rw [foldl_coord, foldl_coord, hsum x k hk, hsum y k hk, hcard k hk]
  · intro k hk
    refine ⟨_, rfl, ?_⟩
    have := radius_spec (fun v => Real.sqrt ((c0.xce k - x v) * (c0.xce k - x v) + (c0.yce k - y v) * (c0.yce k - y v)))
      (fun v => Real.sqrt_nonneg _) (hgne k hk)
    have e : {d | ∃ i ∈ nodesOf n comp k, d = between (c0.at k) (x i, y i)} = {r | ∃ v ∈ p.groups.getD k [],
        r = Real.sqrt ((c0.xce k - x v) * (c0.xce k - x v) + (c0.yce k - y v) * (c0.yce k - y v))} := by
      ext d
      simp only [Set.mem_setOf_eq, ← (hset k hk).2, List.mem_toFinset, between, Circles.at, pow_two]
    rw [e]
    exact this
  · intro i hi
    simp only [hi, if_true]
    constructor
    · rw [htr.dx]; rfl
    · rw [htr.dy]; rfl

/-- The hypotheses hold for two nodes without a link. -/
example : BFS.InRange (fun _ => []) 2 ∧ BFS.Sym (fun _ => []) ∧ ¬ ∀ v < 2, BFS.Reach (fun _ => []) 0 v := by
  refine ⟨?_, ?_, ?_⟩
  · intro i _ j hj; cases hj
  · intro i j hj; cases hj
  · intro h
    obtain ⟨k, hk⟩ := h 1 (by norm_num)
    cases hk with
    | step _ h => cases h

end LY
