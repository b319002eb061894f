import Verif.Layout.Boxes
import Verif.Group.Spec
import Mathlib.Algebra.BigOperators.Group.Finset.Basic
import Mathlib.Algebra.BigOperators.Group.Finset.Piecewise
import Mathlib.Algebra.BigOperators.Ring.Finset

/-!
`CalculateNodeForces`: the force on every node is the sum of the forces of its springs and of the
charges in its box and the adjacent boxes (C97).
-/

set_option linter.unusedSimpArgs false

namespace LY
open scoped BigOperators

/-! ### Specification -/

/-- Every node is in the list of the box `home i` of the grid, once, and in no other list. -/
structure Filed (n b : ℕ) (boxes : ℕ → List ℕ) (home : ℕ → ℕ) : Prop where
  nodup : ∀ k, (boxes k).Nodup
  mem : ∀ k i, i ∈ boxes k ↔ i < n ∧ home i = k
  range : ∀ i, i < n → home i < b * b

/-- The charges of `i` and `j` act on one another: they are different nodes, their boxes are adjacent
and they are closer than the cutoff, which is ignored if there are at most two boxes per row. -/
def Interact (n b : ℕ) (x y : ℕ → ℝ) (home : ℕ → ℕ) (i j : ℕ) : Prop :=
  i ≠ j ∧ Adjacent b (home i) (home j) ∧ (dis x y i j < cutoff n b x y ∨ b ≤ 2)

open Classical in
/-- The force on a node in the direction of the coordinate `u`: springs of strength `w i j` and length
zero, and charges that repel one another. -/
noncomputable def force (net : GP.Net) (b : ℕ) (x y : ℕ → ℝ) (home : ℕ → ℕ) (u : ℕ → ℝ) (i : ℕ) : ℝ :=
  (∑ j ∈ Finset.range net.n, (net.w i j : ℝ) * (u j - u i)) +
  ∑ j ∈ Finset.range net.n, if Interact net.n b x y home i j then
    -(1 / (net.n : ℝ)) / (dis x y i j ^ 2 + Real.sqrt net.n / 10000) * ((u j - u i) / dis x y i j) else 0

/-- Two nodes that pull or push one another are in one place. -/
def Collision (net : GP.Net) (b : ℕ) (x y : ℕ → ℝ) (home : ℕ → ℕ) : Prop :=
  ∃ i j, i < net.n ∧ j < net.n ∧ ((net.link i j).isSome ∨ Interact net.n b x y home i j) ∧
    x i = x j ∧ y i = y j

/-! ### Distances -/

theorem dis_comm (x y : ℕ → ℝ) (i j : ℕ) : dis x y i j = dis x y j i := by
  unfold dis; congr 1; ring

theorem dis_eq_zero (x y : ℕ → ℝ) (i j : ℕ) : dis x y i j = 0 ↔ x i = x j ∧ y i = y j := by
  unfold dis
  rw [Real.sqrt_eq_zero (by nlinarith [mul_self_nonneg (x j - x i), mul_self_nonneg (y j - y i)])]
  constructor
  · intro h
    have h1 := mul_self_nonneg (x j - x i)
    have h2 := mul_self_nonneg (y j - y i)
    have a : (x j - x i) * (x j - x i) = 0 := by linarith
    have c : (y j - y i) * (y j - y i) = 0 := by linarith
    have a' := mul_self_eq_zero.1 a
    have c' := mul_self_eq_zero.1 c
    constructor <;> linarith
  · rintro ⟨h1, h2⟩; rw [h1, h2]; simp

theorem Adjacent.symm {b p q : ℕ} (h : Adjacent b p q) : Adjacent b q p :=
  ⟨h.2.1, h.1, h.2.2.2, h.2.2.1⟩

theorem Interact.symm {n b : ℕ} {x y : ℕ → ℝ} {home : ℕ → ℕ} {i j : ℕ}
    (h : Interact n b x y home i j) : Interact n b x y home j i :=
  ⟨h.1.symm, h.2.1.symm, by rw [dis_comm]; exact h.2.2⟩

/-! ### Pairs of nodes -/

theorem mem_pairsIn {boxes : ℕ → List ℕ} {p k i j : ℕ} : (i, j) ∈ pairsIn boxes p k ↔
    i ∈ boxes p ∧ j ∈ boxes k ∧ (p ≠ k ∨ i > j) := by
  simp only [pairsIn, List.mem_flatMap, List.mem_map, List.mem_filter, decide_eq_true_eq,
    Prod.mk.injEq]
  constructor
  · rintro ⟨a, ha, c, ⟨hc, h⟩, rfl, rfl⟩
    exact ⟨ha, hc, h.imp id And.right⟩
  · rintro ⟨ha, hc, h⟩
    refine ⟨i, ha, j, ⟨hc, ?_⟩, rfl, rfl⟩
    by_cases hpk : p = k
    · exact Or.inr ⟨hpk, h.resolve_left (fun g => g hpk)⟩
    · exact Or.inl hpk

theorem nodup_pairsIn {boxes : ℕ → List ℕ} (h : ∀ k, (boxes k).Nodup) (p k : ℕ) :
    (pairsIn boxes p k).Nodup := by
  unfold pairsIn
  rw [List.nodup_flatMap]
  constructor
  · intro i _
    exact ((h k).filter _).map (fun a c hac => (Prod.mk.inj hac).2)
  · refine List.Pairwise.imp_of_mem (R := fun a c => a ≠ c) ?_ (h p)
    intro a c _ _ hne
    simp only [Function.onFun, List.Disjoint]
    intro e h1 h2
    simp only [List.mem_map] at h1 h2
    obtain ⟨_, _, rfl⟩ := h1
    obtain ⟨_, _, h2⟩ := h2
    exact hne (Prod.mk.inj h2).1.symm

/-- Two nodes in adjacent boxes meet once. -/
theorem mem_nodePairs {n b : ℕ} {boxes : ℕ → List ℕ} {home : ℕ → ℕ} (hf : Filed n b boxes home)
    (i j : ℕ) : (i, j) ∈ nodePairs boxes (boxPairs b) ↔ i < n ∧ j < n ∧
      Adjacent b (home i) (home j) ∧ (home i < home j ∨ (home i = home j ∧ i > j)) := by
  simp only [nodePairs, List.mem_flatMap, Prod.exists]
  constructor
  · rintro ⟨p, q, hp, h⟩
    obtain ⟨k, rfl, hpk, hkb, ha⟩ := (C96_pairs b p q).1 hp
    rw [mem_pairsIn, hf.mem, Int.toNat_natCast, hf.mem] at h
    obtain ⟨⟨h1, rfl⟩, ⟨h3, rfl⟩, h5⟩ := h
    refine ⟨h1, h3, ha, ?_⟩
    omega
  · rintro ⟨h1, h2, ha, h⟩
    refine ⟨home i, home j, (C96_pairs _ _ _).2 ⟨home j, rfl, by omega, hf.range j h2, ha⟩, ?_⟩
    rw [mem_pairsIn, hf.mem, Int.toNat_natCast, hf.mem]
    exact ⟨⟨h1, rfl⟩, ⟨h2, rfl⟩, by omega⟩

theorem nodup_nodePairs {n b : ℕ} {boxes : ℕ → List ℕ} {home : ℕ → ℕ} (hf : Filed n b boxes home) :
    (nodePairs boxes (boxPairs b)).Nodup := by
  unfold nodePairs
  rw [List.nodup_flatMap]
  refine ⟨fun p _ => nodup_pairsIn hf.nodup _ _, ?_⟩
  refine List.Pairwise.imp_of_mem (R := fun a c => a ≠ c) ?_ (C96_once b)
  rintro ⟨p, q⟩ ⟨p', q'⟩ h h' hne
  simp only [Function.onFun, List.Disjoint]
  rintro ⟨i, j⟩ h1 h2
  obtain ⟨k, rfl, -⟩ := (C96_pairs b p q).1 h
  obtain ⟨k', rfl, -⟩ := (C96_pairs b p' q').1 h'
  rw [mem_pairsIn, hf.mem, Int.toNat_natCast, hf.mem] at h1 h2
  apply hne
  rw [← h1.1.2, ← h2.1.2, ← h1.2.1.2, ← h2.2.1.2]

/-! ### Sums of kicks -/

/-- What a pair adds to the component of the force on `i`. -/
def kick (f : ℕ → ℕ → ℝ) (i : ℕ) (p : ℕ × ℕ) : ℝ :=
  (if p.1 = i then f p.1 p.2 else 0) - (if p.2 = i then f p.1 p.2 else 0)

theorem push_x (F : Force) (a c : ℕ) (fx fy : ℝ) (i : ℕ) :
    (push F a c fx fy).x i = F.x i + ((if a = i then fx else 0) - (if c = i then fx else 0)) := by
  simp only [push, Function.update_apply]
  by_cases h1 : i = a <;> by_cases h2 : i = c
  · subst h1; subst h2; simp
  · subst h1; simp [h2, Ne.symm h2]
  · subst h2; simp [h1, Ne.symm h1]; ring
  · simp [h1, h2, Ne.symm h1, Ne.symm h2]

theorem push_y (F : Force) (a c : ℕ) (fx fy : ℝ) (i : ℕ) :
    (push F a c fx fy).y i = F.y i + ((if a = i then fy else 0) - (if c = i then fy else 0)) := by
  simp only [push, Function.update_apply]
  by_cases h1 : i = a <;> by_cases h2 : i = c
  · subst h1; subst h2; simp
  · subst h1; simp [h2, Ne.symm h2]
  · subst h2; simp [h1, Ne.symm h1]; ring
  · simp [h1, h2, Ne.symm h1, Ne.symm h2]

/-- A loop whose steps either fail or add a kick. -/
theorem fold_kicks {α : Type*} (step : Force → α → Option Force) (pr : α → ℕ × ℕ) (bad : α → Prop)
    (fx fy : ℕ → ℕ → ℝ)
    (hbad : ∀ F e, bad e → step F e = none)
    (hok : ∀ F e, ¬ bad e → ∃ F', step F e = some F' ∧
      (∀ i, F'.x i = F.x i + kick fx i (pr e)) ∧ ∀ i, F'.y i = F.y i + kick fy i (pr e)) :
    ∀ (L : List α) (F : Force),
      ((∃ e ∈ L, bad e) → L.foldlM step F = none) ∧
      ((∀ e ∈ L, ¬ bad e) → ∃ F', L.foldlM step F = some F' ∧
        (∀ i, F'.x i = F.x i + ((L.map pr).map (kick fx i)).sum) ∧
        ∀ i, F'.y i = F.y i + ((L.map pr).map (kick fy i)).sum)
  | [], F => ⟨by simp, fun _ => ⟨F, rfl, by simp, by simp⟩⟩
  | e :: L, F => by
    rw [List.foldlM_cons]
    constructor
    · rintro ⟨e', he', hb⟩
      by_cases hbe : bad e
      · rw [hbad F e hbe]; rfl
      · obtain ⟨F', hF', -⟩ := hok F e hbe
        rw [hF']
        have : e' ∈ L := by
          rcases List.mem_cons.1 he' with rfl | h
          · exact absurd hb hbe
          · exact h
        exact (fold_kicks step pr bad fx fy hbad hok L F').1 ⟨e', this, hb⟩
    · intro h
      obtain ⟨F', hF', hx, hy⟩ := hok F e (h e (List.mem_cons_self ..))
      obtain ⟨G, hG, gx, gy⟩ := (fold_kicks step pr bad fx fy hbad hok L F').2
        (fun e' he' => h e' (List.mem_cons_of_mem _ he'))
      rw [hF']
      refine ⟨G, hG, fun i => ?_, fun i => ?_⟩
      · rw [gx, hx]; simp [add_assoc]
      · rw [gy, hy]; simp [add_assoc]

open Classical in
/-- The kicks of a list of pairs, by partner. -/
theorem sum_kicks (n : ℕ) (P : List (ℕ × ℕ)) (hP : P.Nodup) (hr : ∀ p ∈ P, p.1 < n ∧ p.2 < n)
    (f : ℕ → ℕ → ℝ) (hf : ∀ i j, f j i = - f i j) (i : ℕ) (hi : i < n) :
    (P.map (kick f i)).sum = ∑ j ∈ Finset.range n,
      ((if (i, j) ∈ P then f i j else 0) + if (j, i) ∈ P then f i j else 0) := by
  have h1 : (P.map (kick f i)).sum = ∑ p ∈ Finset.range n ×ˢ Finset.range n,
      if p ∈ P then kick f i p else 0 := by
    rw [← List.sum_toFinset _ hP, ← Finset.sum_filter]
    apply Finset.sum_congr _ (fun _ _ => rfl)
    ext p
    simp only [List.mem_toFinset, Finset.mem_filter, Finset.mem_product, Finset.mem_range]
    exact ⟨fun h => ⟨hr p h, h⟩, fun h => h.2⟩
  rw [h1, Finset.sum_product]
  have h2 : ∀ a c, (if (a, c) ∈ P then kick f i (a, c) else 0) =
      (if a = i then (if (i, c) ∈ P then f i c else 0) else 0) +
      (if c = i then (if (a, i) ∈ P then f i a else 0) else 0) := by
    intro a c
    unfold kick
    by_cases ha : a = i <;> by_cases hc : c = i
    · subst ha; subst hc
      have := hf c c
      have h0 : f c c = 0 := by linarith
      simp [h0]
    · subst ha; by_cases h : (a, c) ∈ P <;> simp [h, hc]
    · subst hc; by_cases h : (a, c) ∈ P
      · simp [h, ha]; linarith [hf a c]
      · simp [h, ha]
    · simp [ha, hc]
  simp only [h2, Finset.sum_add_distrib]
  congr 1
  · rw [Finset.sum_comm]
    apply Finset.sum_congr rfl
    intro c _
    rw [Finset.sum_ite_eq' (Finset.range n) i]
    simp [hi]
  · apply Finset.sum_congr rfl
    intro a _
    rw [Finset.sum_ite_eq' (Finset.range n) i]
    simp [hi]

/-! ### Springs -/

/-- A link is in the list of one of its ends at most once. -/
theorem find_of_mem {l : List (ℕ × ℚ)} (hn : (l.map (·.1)).Nodup) {j : ℕ} {w : ℚ} (h : (j, w) ∈ l) :
    l.find? (fun x => x.1 = j) = some (j, w) := by
  induction l with
  | nil => simp at h
  | cons e l ih =>
    simp only [List.map_cons, List.nodup_cons] at hn
    rcases List.mem_cons.1 h with rfl | h'
    · simp
    · have hne : e.1 ≠ j := fun he => hn.1 (he ▸ List.mem_map.2 ⟨_, h', rfl⟩)
      rw [List.find?_cons_of_neg (by simpa using hne)]
      exact ih hn.2 h'

theorem link_of_mem {net : GP.Net} (hs : net.Simple) {i j : ℕ} {w : ℚ} (h : (j, w) ∈ net.neig i) :
    net.link i j = some w := by
  simp [GP.Net.link, find_of_mem (hs.nodup i) h]

theorem mem_of_link {net : GP.Net} {i j : ℕ} {w : ℚ} (h : net.link i j = some w) :
    (j, w) ∈ net.neig i := by
  simp only [GP.Net.link, Option.map_eq_some_iff] at h
  obtain ⟨e, he, rfl⟩ := h
  have h1 := List.mem_of_find?_eq_some he
  have h2 : e.1 = j := by simpa using List.find?_some he
  rw [← h2]; exact h1

theorem mem_springs {net : GP.Net} {i j : ℕ} {w : ℚ} :
    (i, j, w) ∈ springs net ↔ i < net.n ∧ (j, w) ∈ net.neig i ∧ i > j := by
  simp only [springs, List.mem_flatMap, List.mem_range, List.mem_map, List.mem_filter,
    decide_eq_true_eq, Prod.mk.injEq, Prod.exists]
  constructor
  · rintro ⟨a, ha, c, v, ⟨hm, hgt⟩, rfl, rfl, rfl⟩; exact ⟨ha, hm, hgt⟩
  · rintro ⟨ha, hm, hgt⟩; exact ⟨i, ha, j, w, ⟨hm, hgt⟩, rfl, rfl, rfl⟩

def springPair (e : ℕ × ℕ × ℚ) : ℕ × ℕ := (e.1, e.2.1)

theorem mem_springPairs {net : GP.Net} (hs : net.Simple) {i j : ℕ} :
    (i, j) ∈ (springs net).map springPair ↔ i < net.n ∧ (net.link i j).isSome ∧ i > j := by
  simp only [List.mem_map, Prod.exists, springPair, Prod.mk.injEq, mem_springs]
  constructor
  · rintro ⟨a, c, w, ⟨ha, hm, hgt⟩, rfl, rfl⟩
    exact ⟨ha, by rw [link_of_mem hs hm]; rfl, hgt⟩
  · rintro ⟨ha, hl, hgt⟩
    obtain ⟨w, hw⟩ := Option.isSome_iff_exists.1 hl
    exact ⟨i, j, w, ⟨ha, mem_of_link hw, hgt⟩, rfl, rfl⟩

theorem nodup_springPairs {net : GP.Net} (hs : net.Simple) :
    ((springs net).map springPair).Nodup := by
  unfold springs
  rw [List.map_flatMap, List.nodup_flatMap]
  constructor
  · intro i _
    rw [List.map_map]
    have h1 : ((net.neig i).filter fun e => decide (i > e.1)).map
        (springPair ∘ fun e => (i, e.1, e.2)) =
        ((((net.neig i).filter fun e => decide (i > e.1)).map (·.1)).map fun j => (i, j)) := by
      rw [List.map_map]; rfl
    rw [h1]
    apply List.Nodup.map (fun a c hac => (Prod.mk.inj hac).2)
    exact (hs.nodup i).sublist (List.filter_sublist.map _)
  · refine List.Pairwise.imp_of_mem (R := fun a c => a ≠ c) ?_ List.nodup_range
    intro a c _ _ hne
    simp only [Function.onFun, List.Disjoint]
    intro e h1 h2
    simp only [List.map_map, List.mem_map] at h1 h2
    obtain ⟨_, _, rfl⟩ := h1
    obtain ⟨_, _, h2⟩ := h2
    exact hne (Prod.mk.inj h2).1.symm

theorem w_symm {net : GP.Net} (hs : net.Simple) (i j : ℕ) : net.w i j = net.w j i := by
  simp [GP.Net.w, hs.sym i j]

theorem link_lt {net : GP.Net} (hs : net.Simple) {i j : ℕ} (h : (net.link i j).isSome) : j < net.n := by
  obtain ⟨w, hw⟩ := Option.isSome_iff_exists.1 h
  exact hs.range i _ (mem_of_link hw)

/-! ### The two loops -/

theorem springStep_ok {net : GP.Net} (hs : net.Simple) (x y : ℕ → ℝ) (F : Force)
    (e : ℕ × ℕ × ℚ) (he : e ∈ springs net) (hb : dis x y e.1 e.2.1 ≠ 0) :
    ∃ F', springStep x y F e = some F' ∧
      (∀ i, F'.x i = F.x i + kick (fun i j => (net.w i j : ℝ) * (x j - x i)) i (springPair e)) ∧
      ∀ i, F'.y i = F.y i + kick (fun i j => (net.w i j : ℝ) * (y j - y i)) i (springPair e) := by
  obtain ⟨a, c, w⟩ := e
  have hw : net.w a c = w := by
    simp [GP.Net.w, link_of_mem hs (mem_springs.1 he).2.1]
  simp only at hb
  unfold springStep
  rw [if_neg hb]
  refine ⟨_, rfl, fun i => ?_, fun i => ?_⟩
  · rw [push_x]; simp only [kick, springPair, hw]
    rw [show (w : ℝ) * dis x y a c * (x c - x a) / dis x y a c = w * (x c - x a) by field_simp]
  · rw [push_y]; simp only [kick, springPair, hw]
    rw [show (w : ℝ) * dis x y a c * (y c - y a) / dis x y a c = w * (y c - y a) by field_simp]

open Classical in
/-- The force between two charges. -/
noncomputable def coulomb (n b : ℕ) (x y u : ℕ → ℝ) (i j : ℕ) : ℝ :=
  if dis x y i j < cutoff n b x y ∨ b ≤ 2 then
    -(1 / (n : ℝ)) / (dis x y i j ^ 2 + Real.sqrt n / 10000) * ((u j - u i) / dis x y i j) else 0

theorem coulomb_antisymm (n b : ℕ) (x y u : ℕ → ℝ) (i j : ℕ) :
    coulomb n b x y u j i = - coulomb n b x y u i j := by
  unfold coulomb
  rw [dis_comm x y j i]
  by_cases h : dis x y i j < cutoff n b x y ∨ b ≤ 2
  · rw [if_pos h, if_pos h, ← neg_sub, neg_div]; ring
  · rw [if_neg h, if_neg h, neg_zero]

theorem chargeStep_bad (n b : ℕ) (x y : ℕ → ℝ) (F : Force) (p : ℕ × ℕ)
    (h : (dis x y p.1 p.2 < cutoff n b x y ∨ b ≤ 2) ∧ dis x y p.1 p.2 = 0) :
    chargeStep n b x y F p = none := by
  unfold chargeStep; rw [if_pos h.1, if_pos h.2]

theorem chargeStep_ok (n b : ℕ) (x y : ℕ → ℝ) (F : Force) (p : ℕ × ℕ)
    (h : ¬ ((dis x y p.1 p.2 < cutoff n b x y ∨ b ≤ 2) ∧ dis x y p.1 p.2 = 0)) :
    ∃ F', chargeStep n b x y F p = some F' ∧
      (∀ i, F'.x i = F.x i + kick (coulomb n b x y x) i p) ∧
      ∀ i, F'.y i = F.y i + kick (coulomb n b x y y) i p := by
  obtain ⟨a, c⟩ := p
  simp only at h
  unfold chargeStep
  by_cases h1 : dis x y a c < cutoff n b x y ∨ b ≤ 2
  · have h2 : dis x y a c ≠ 0 := fun h2 => h ⟨h1, h2⟩
    rw [if_pos h1, if_neg h2]
    refine ⟨_, rfl, fun i => ?_, fun i => ?_⟩
    · rw [push_x]; simp only [kick, coulomb, if_pos h1, epsilon, pow_two, mul_div_assoc]
    · rw [push_y]; simp only [kick, coulomb, if_pos h1, epsilon, pow_two, mul_div_assoc]
  · rw [if_neg h1]
    refine ⟨_, rfl, fun i => ?_, fun i => ?_⟩
    · simp [kick, coulomb, h1]
    · simp [kick, coulomb, h1]

/-- `foldlM` only looks at the elements of the list. -/
theorem foldlM_attach_kicks {net : GP.Net} (hs : net.Simple) (x y : ℕ → ℝ) (L : List (ℕ × ℕ × ℚ))
    (hL : ∀ e ∈ L, e ∈ springs net) (F : Force) :
    ((∃ e ∈ L, dis x y e.1 e.2.1 = 0) → L.foldlM (springStep x y) F = none) ∧
    ((∀ e ∈ L, ¬ dis x y e.1 e.2.1 = 0) → ∃ F', L.foldlM (springStep x y) F = some F' ∧
      (∀ i, F'.x i = F.x i + ((L.map springPair).map
        (kick (fun i j => (net.w i j : ℝ) * (x j - x i)) i)).sum) ∧
      ∀ i, F'.y i = F.y i + ((L.map springPair).map
        (kick (fun i j => (net.w i j : ℝ) * (y j - y i)) i)).sum) := by
  induction L generalizing F with
  | nil => exact ⟨by simp, fun _ => ⟨F, rfl, by simp, by simp⟩⟩
  | cons e L ih =>
    rw [List.foldlM_cons]
    constructor
    · rintro ⟨e', he', hb⟩
      by_cases hbe : dis x y e.1 e.2.1 = 0
      · unfold springStep; rw [if_pos hbe]; rfl
      · obtain ⟨F', hF', -⟩ := springStep_ok hs x y F e (hL e (List.mem_cons_self ..)) hbe
        rw [hF']
        have : e' ∈ L := by
          rcases List.mem_cons.1 he' with rfl | h
          · exact absurd hb hbe
          · exact h
        exact (ih (fun e h => hL e (List.mem_cons_of_mem _ h)) F').1 ⟨e', this, hb⟩
    · intro h
      obtain ⟨F', hF', hx, hy⟩ := springStep_ok hs x y F e (hL e (List.mem_cons_self ..))
        (h e (List.mem_cons_self ..))
      obtain ⟨G, hG, gx, gy⟩ := (ih (fun e h => hL e (List.mem_cons_of_mem _ h)) F').2
        (fun e' he' => h e' (List.mem_cons_of_mem _ he'))
      rw [hF']
      refine ⟨G, hG, fun i => ?_, fun i => ?_⟩
      · rw [gx, hx]; simp [add_assoc]
      · rw [gy, hy]; simp [add_assoc]

/-- The kicks of the springs. -/
theorem spring_sum {net : GP.Net} (hs : net.Simple) (u : ℕ → ℝ) (i : ℕ) (hi : i < net.n) :
    (((springs net).map springPair).map (kick (fun i j => (net.w i j : ℝ) * (u j - u i)) i)).sum =
      ∑ j ∈ Finset.range net.n, (net.w i j : ℝ) * (u j - u i) := by
  classical
  rw [sum_kicks net.n _ (nodup_springPairs hs) _ _ _ i hi]
  · apply Finset.sum_congr rfl
    intro j hj
    rw [Finset.mem_range] at hj
    simp only [mem_springPairs hs]
    have h0 : (net.link i j).isSome = (net.link j i).isSome := by rw [hs.sym]
    cases hl : (net.link i j).isSome with
    | false =>
      rw [hl] at h0
      have : net.w i j = 0 := by
        simp only [GP.Net.w]; rw [Option.isSome_eq_false_iff, Option.isNone_iff_eq_none] at hl; simp [hl]
      simp [← h0, this]
    | true =>
      rw [hl] at h0
      have hne : i ≠ j := by rintro rfl; rw [hs.irrefl] at hl; simp at hl
      simp only [← h0, hi, hj, true_and]
      rcases lt_or_gt_of_ne hne with h | h
      · rw [if_neg (by omega), if_pos h, zero_add]
      · rw [if_pos h, if_neg (by omega), add_zero]
  · rintro ⟨a, c⟩ h
    rw [mem_springPairs hs] at h
    exact ⟨h.1, link_lt hs h.2.1⟩
  · intro a c; rw [w_symm hs c a]; ring

/-- The kicks of the charges. -/
theorem charge_sum {n b : ℕ} {boxes : ℕ → List ℕ} {home : ℕ → ℕ} (hf : Filed n b boxes home)
    (x y u : ℕ → ℝ) (i : ℕ) (hi : i < n) [∀ j, Decidable (Interact n b x y home i j)] :
    (((nodePairs boxes (boxPairs b))).map (kick (coulomb n b x y u) i)).sum =
      ∑ j ∈ Finset.range n, if Interact n b x y home i j then
        -(1 / (n : ℝ)) / (dis x y i j ^ 2 + Real.sqrt n / 10000) * ((u j - u i) / dis x y i j)
        else 0 := by
  classical
  rw [sum_kicks n _ (nodup_nodePairs hf) _ _ (coulomb_antisymm n b x y u) i hi]
  · apply Finset.sum_congr rfl
    intro j hj
    rw [Finset.mem_range] at hj
    simp only [mem_nodePairs hf]
    by_cases hc : dis x y i j < cutoff n b x y ∨ b ≤ 2
    · by_cases ha : Adjacent b (home i) (home j)
      · have ha' := ha.symm
        by_cases hij : i = j
        · subst hij
          simp [Interact]
        · have hI : Interact n b x y home i j := ⟨hij, ha, hc⟩
          rw [if_pos hI]
          have hcc : coulomb n b x y u i j = -(1 / (n : ℝ)) / (dis x y i j ^ 2 + Real.sqrt n / 10000) *
            ((u j - u i) / dis x y i j) := by unfold coulomb; rw [if_pos hc]
          rw [hcc]
          simp only [hi, hj, ha, ha', true_and]
          by_cases ho : home i < home j ∨ (home i = home j ∧ i > j)
          · rw [if_pos ho, if_neg (by omega), add_zero]
          · rw [if_neg ho, if_pos (by omega), zero_add]
      · have ha' : ¬ Adjacent b (home j) (home i) := fun h => ha h.symm
        rw [if_neg (fun h => ha h.2.2.1), if_neg (fun h => ha' h.2.2.1), if_neg (fun h => ha h.2.1),
          add_zero]
    · have hcc : coulomb n b x y u i j = 0 := by unfold coulomb; rw [if_neg hc]
      have hI : ¬ Interact n b x y home i j := fun h => hc h.2.2
      rw [hcc, if_neg hI]
      simp
  · rintro ⟨a, c⟩ h
    rw [mem_nodePairs hf] at h
    exact ⟨h.1, h.2.1⟩

/-- C97.  When every node is filed in its box and no two nodes that act on one another are in one
place, `CalculateNodeForces` gives every node the sum of the forces of its springs and of the charges
it interacts with; otherwise a NaN appears. -/
theorem C97_forces (net : GP.Net) (hs : net.Simple) (x y : ℕ → ℝ) (b : ℕ) (boxes : ℕ → List ℕ)
    (home : ℕ → ℕ) (hf : Filed net.n b boxes home) :
    (Collision net b x y home → CalculateNodeForces net x y boxes b = none) ∧
    (¬ Collision net b x y home → ∃ F, CalculateNodeForces net x y boxes b = some F ∧
      ∀ i, i < net.n → F.x i = force net b x y home x i ∧ F.y i = force net b x y home y i) := by
  classical
  have hS := foldlM_attach_kicks hs x y (springs net) (fun _ h => h) ⟨fun _ => 0, fun _ => 0⟩
  have hC := fun F => fold_kicks (chargeStep net.n b x y) id
    (fun p => (dis x y p.1 p.2 < cutoff net.n b x y ∨ b ≤ 2) ∧ dis x y p.1 p.2 = 0)
    (coulomb net.n b x y x) (coulomb net.n b x y y)
    (fun F p h => chargeStep_bad net.n b x y F p h)
    (fun F p h => chargeStep_ok net.n b x y F p h) (nodePairs boxes (boxPairs b)) F
  constructor
  · rintro ⟨i, j, hi, hj, h, hxy⟩
    have hd : dis x y i j = 0 := (dis_eq_zero x y i j).2 hxy
    unfold CalculateNodeForces
    by_cases hbad : ∃ e ∈ springs net, dis x y e.1 e.2.1 = 0
    · rw [hS.1 hbad]; rfl
    · obtain ⟨F, hF, -⟩ := hS.2 (by
        intro e he hb; exact hbad ⟨e, he, hb⟩)
      rw [hF]
      apply (hC F).1
      rcases h with h | h
      · exfalso
        apply hbad
        have hne : i ≠ j := by rintro rfl; rw [hs.irrefl] at h; simp at h
        rcases lt_or_gt_of_ne hne with hlt | hlt
        · rw [hs.sym] at h
          obtain ⟨w, hw⟩ := Option.isSome_iff_exists.1 h
          exact ⟨(j, i, w), mem_springs.2 ⟨hj, mem_of_link hw, hlt⟩, by rw [← hd, dis_comm]⟩
        · obtain ⟨w, hw⟩ := Option.isSome_iff_exists.1 h
          exact ⟨(i, j, w), mem_springs.2 ⟨hi, mem_of_link hw, hlt⟩, hd⟩
      · by_cases ho : home i < home j ∨ (home i = home j ∧ i > j)
        · exact ⟨(i, j), (mem_nodePairs hf i j).2 ⟨hi, hj, h.2.1, ho⟩, h.2.2, hd⟩
        · refine ⟨(j, i), (mem_nodePairs hf j i).2 ⟨hj, hi, h.2.1.symm, ?_⟩, h.symm.2.2, ?_⟩
          · have := h.1; omega
          · rw [dis_comm]; exact hd
  · intro hcol
    obtain ⟨F, hF, fx, fy⟩ := hS.2 (by
      rintro ⟨i, j, w⟩ he hb
      obtain ⟨h1, h2, -⟩ := mem_springs.1 he
      exact hcol ⟨i, j, h1, hs.range i _ h2, Or.inl (by rw [link_of_mem hs h2]; rfl),
        (dis_eq_zero x y i j).1 hb⟩)
    obtain ⟨G, hG, gx, gy⟩ := (hC F).2 (by
      rintro ⟨i, j⟩ he ⟨hb1, hb2⟩
      obtain ⟨h1, h2, h3, h4⟩ := (mem_nodePairs hf i j).1 he
      refine hcol ⟨i, j, h1, h2, Or.inr ⟨?_, h3, hb1⟩, (dis_eq_zero x y i j).1 hb2⟩
      rintro rfl
      omega)
    refine ⟨G, ?_, fun i hi => ⟨?_, ?_⟩⟩
    · unfold CalculateNodeForces; rw [hF]; exact hG
    · rw [gx, fx, List.map_id, spring_sum hs x i hi, charge_sum hf x y x i hi, zero_add]; rfl
    · rw [gy, fy, List.map_id, spring_sum hs y i hi, charge_sum hf x y y i hi, zero_add]; rfl

/-- The sum of an antisymmetric matrix is zero. -/
theorem sum_antisymm (n : ℕ) (f : ℕ → ℕ → ℝ) (hf : ∀ i j, f j i = - f i j) :
    ∑ i ∈ Finset.range n, ∑ j ∈ Finset.range n, f i j = 0 := by
  have h : ∑ i ∈ Finset.range n, ∑ j ∈ Finset.range n, f i j =
      -∑ i ∈ Finset.range n, ∑ j ∈ Finset.range n, f i j := by
    conv_lhs => rw [Finset.sum_comm]
    rw [← Finset.sum_neg_distrib]
    apply Finset.sum_congr rfl; intro i _
    rw [← Finset.sum_neg_distrib]
    exact Finset.sum_congr rfl fun j _ => hf i j
  linarith

theorem force_sum (net : GP.Net) (hs : net.Simple) (x y : ℕ → ℝ) (b : ℕ) (home : ℕ → ℕ) (u : ℕ → ℝ) :
    ∑ i ∈ Finset.range net.n, force net b x y home u i = 0 := by
  unfold force
  rw [Finset.sum_add_distrib, sum_antisymm net.n, sum_antisymm net.n, add_zero]
  · intro i j
    by_cases h : Interact net.n b x y home i j
    · rw [if_pos h, if_pos h.symm, dis_comm x y j i, ← neg_sub, neg_div]; ring
    · rw [if_neg h, if_neg (fun h' => h h'.symm), neg_zero]
  · intro i j; rw [w_symm hs j i]; ring

/-- C97: the forces of a network add up to zero. -/
theorem C97_balance (net : GP.Net) (hs : net.Simple) (x y : ℕ → ℝ) (b : ℕ) (boxes : ℕ → List ℕ)
    (home : ℕ → ℕ) (hf : Filed net.n b boxes home) (F : Force)
    (hF : CalculateNodeForces net x y boxes b = some F) :
    ∑ i ∈ Finset.range net.n, F.x i = 0 ∧ ∑ i ∈ Finset.range net.n, F.y i = 0 := by
  by_cases hc : Collision net b x y home
  · rw [(C97_forces net hs x y b boxes home hf).1 hc] at hF; simp at hF
  · obtain ⟨G, hG, h⟩ := (C97_forces net hs x y b boxes home hf).2 hc
    rw [hG] at hF
    obtain rfl := Option.some.inj hF
    constructor
    · rw [Finset.sum_congr rfl fun i hi => (h i (Finset.mem_range.1 hi)).1]
      exact force_sum net hs x y b home x
    · rw [Finset.sum_congr rfl fun i hi => (h i (Finset.mem_range.1 hi)).2]
      exact force_sum net hs x y b home y

/-- A network of two linked nodes. -/
def pairNet : GP.Net := ⟨2, fun i => if i = 0 then [(1, 1)] else if i = 1 then [(0, 1)] else []⟩

theorem pairNet_simple : pairNet.Simple := by
  have hlink : ∀ i j, pairNet.link i j = if (i = 0 ∧ j = 1) ∨ (i = 1 ∧ j = 0) then some 1 else none := by
    intro i j
    by_cases h0 : i = 0
    · subst h0; by_cases hj : j = 1 <;> simp [GP.Net.link, pairNet, hj, eq_comm]
    · by_cases h1 : i = 1
      · subst h1; by_cases hj : j = 0 <;> simp [GP.Net.link, pairNet, hj, eq_comm]
      · simp [GP.Net.link, pairNet, h0, h1]
  refine ⟨?_, ?_, ?_, ?_⟩
  · intro i; simp only [pairNet]; split_ifs <;> simp
  · intro i e he
    simp only [pairNet] at he ⊢
    split_ifs at he <;> simp at he <;> subst he <;> decide
  · intro i j; rw [hlink, hlink]; congr 1; ext; constructor <;> rintro (h | h) <;> omega
  · intro i; rw [hlink, if_neg]; omega

/-- The hypotheses of C97 hold for the network of two nodes at distance 1 in one box. -/
example : Filed pairNet.n 1 (fun k => if k = 0 then [1, 0] else []) (fun _ => 0) ∧
    ¬ Collision pairNet 1 (fun i => i) (fun _ => 0) (fun _ => 0) := by
  refine ⟨⟨?_, ?_, ?_⟩, ?_⟩
  · intro k; split_ifs <;> simp
  · intro k i
    by_cases hk : k = 0
    · subst hk; simp [pairNet]; omega
    · simp [hk, Ne.symm hk]
  · intro i _; simp
  · rintro ⟨i, j, hi, hj, h, hx, -⟩
    have hx' : (i : ℝ) = j := hx
    have hij : i = j := by exact_mod_cast hx'
    subst hij
    rcases h with h | h
    · rw [pairNet_simple.irrefl] at h; simp at h
    · exact h.1 rfl

/-! ### The cutoff -/

theorem strip_near {b : ℕ} {lo hi : ℝ} {c d : ℕ} {u v : ℝ} (hb : 0 < b) (h : lo < hi)
    (hu : InStrip b lo hi c u) (hv : InStrip b lo hi d v) (hd : |u - v| < width b lo hi) :
    c ≤ d + 1 ∧ d ≤ c + 1 := by
  have hw := width_pos hb h
  rw [abs_lt] at hd
  obtain ⟨u1, u2⟩ := hu
  obtain ⟨v1, v2⟩ := hv
  constructor
  · by_contra hcon
    have : (d : ℝ) + 2 ≤ c := by
      have : d + 2 ≤ c := by omega
      exact_mod_cast this
    nlinarith
  · by_contra hcon
    have : (c : ℝ) + 2 ≤ d := by
      have : c + 2 ≤ d := by omega
      exact_mod_cast this
    nlinarith

/-- C98, the full statement: any two nodes closer than the cutoff, half the sum of the two sides of
the drawing divided by the number of boxes per row, are in adjacent boxes, so that their charges act
on one another. -/
def C98_claim : Prop := ∀ (b : ℕ) (xmin xmax ymin ymax x1 y1 x2 y2 : ℝ) (k1 k2 : ℕ), 0 < b →
  xmin < xmax → ymin < ymax → xmin ≤ x1 → x1 ≤ xmax → ymin ≤ y1 → y1 ≤ ymax →
  xmin ≤ x2 → x2 ≤ xmax → ymin ≤ y2 → y2 ≤ ymax →
  AssignBox b x1 y1 xmin xmax ymin ymax = some (k1 : ℤ) →
  AssignBox b x2 y2 xmin xmax ymin ymax = some (k2 : ℤ) →
  Real.sqrt ((x2 - x1) ^ 2 + (y2 - y1) ^ 2) < (xmax - xmin + ymax - ymin) / 2 / b →
  Adjacent b k1 k2

/-- C98, the part that holds: nodes closer than the sides of a box are in adjacent boxes.  In a
drawing as wide as it is high this covers all nodes closer than the cutoff. -/
theorem C98_near_partial (b : ℕ) (xmin xmax ymin ymax x1 y1 x2 y2 : ℝ) (k1 k2 : ℕ) (hb : 0 < b)
    (hx : xmin < xmax) (hy : ymin < ymax) (h1 : xmin ≤ x1) (h2 : x1 ≤ xmax) (h3 : ymin ≤ y1)
    (h4 : y1 ≤ ymax) (h5 : xmin ≤ x2) (h6 : x2 ≤ xmax) (h7 : ymin ≤ y2) (h8 : y2 ≤ ymax)
    (hk1 : AssignBox b x1 y1 xmin xmax ymin ymax = some (k1 : ℤ))
    (hk2 : AssignBox b x2 y2 xmin xmax ymin ymax = some (k2 : ℤ))
    (hd : (|x1 - x2| ≤ (xmax - xmin) / b ∧ |y1 - y2| ≤ (ymax - ymin) / b) ∨
      (xmax - xmin = ymax - ymin ∧
        Real.sqrt ((x2 - x1) ^ 2 + (y2 - y1) ^ 2) < (xmax - xmin + ymax - ymin) / 2 / b)) :
    Adjacent b k1 k2 := by
  obtain ⟨j1, e1, -, sx1, sy1⟩ := C95_box b hb x1 y1 xmin xmax ymin ymax hx hy h1 h2 h3 h4
  obtain ⟨j2, e2, -, sx2, sy2⟩ := C95_box b hb x2 y2 xmin xmax ymin ymax hx hy h5 h6 h7 h8
  rw [hk1] at e1
  rw [hk2] at e2
  have q1 : k1 = j1 := by exact_mod_cast Option.some.inj e1
  have q2 : k2 = j2 := by exact_mod_cast Option.some.inj e2
  subst q1; subst q2
  have hb' : (0 : ℝ) < b := by exact_mod_cast hb
  have lt_width : ∀ lo hi : ℝ, lo < hi → (hi - lo) / b < width b lo hi := by
    intro lo hi h
    unfold width
    apply div_lt_div_of_pos_right _ hb'
    have : 0 < hi - lo := by linarith
    nlinarith
  have hd' : |x1 - x2| ≤ (xmax - xmin) / b ∧ |y1 - y2| ≤ (ymax - ymin) / b := by
    rcases hd with hd | ⟨heq, hd⟩
    · exact hd
    · have hc : (xmax - xmin + ymax - ymin) / 2 / b = (xmax - xmin) / b := by
        congr 1; linarith
      rw [hc] at hd
      have a1 : |x1 - x2| ≤ Real.sqrt ((x2 - x1) ^ 2 + (y2 - y1) ^ 2) := by
        rw [abs_sub_comm, ← Real.sqrt_sq_eq_abs]
        exact Real.sqrt_le_sqrt (by nlinarith [sq_nonneg (y2 - y1)])
      have a2 : |y1 - y2| ≤ Real.sqrt ((x2 - x1) ^ 2 + (y2 - y1) ^ 2) := by
        rw [abs_sub_comm, ← Real.sqrt_sq_eq_abs]
        exact Real.sqrt_le_sqrt (by nlinarith [sq_nonneg (x2 - x1)])
      rw [← heq]
      constructor <;> linarith
  have nx := strip_near hb hx sx1 sx2 (lt_of_le_of_lt hd'.1 (lt_width _ _ hx))
  have ny := strip_near hb hy sy1 sy2 (lt_of_le_of_lt hd'.2 (lt_width _ _ hy))
  exact ⟨ny.1, ny.2, nx.1, nx.2⟩

/-- In a wide and low drawing two nodes closer than the cutoff can be two rows apart; their charges
do not act on one another. -/
theorem C98_refuted : ¬ C98_claim := by
  intro h
  have h1 : AssignBox 3 (1 / 2 : ℝ) 0 0 1 0 (1 / 10) = some ((1 : ℕ) : ℤ) := by
    norm_num [AssignBox, cell]
  have h2 : AssignBox 3 (1 / 2 : ℝ) (1 / 10) 0 1 0 (1 / 10) = some ((7 : ℕ) : ℤ) := by
    norm_num [AssignBox, cell]
  have hd : Real.sqrt (((1 : ℝ) / 2 - 1 / 2) ^ 2 + (1 / 10 - 0) ^ 2) <
      (1 - 0 + 1 / 10 - 0) / 2 / (3 : ℕ) := by
    rw [show ((1 : ℝ) / 2 - 1 / 2) ^ 2 + (1 / 10 - 0) ^ 2 = (1 / 10) ^ 2 by norm_num,
      Real.sqrt_sq (by norm_num)]
    norm_num
  have := h 3 0 1 0 (1 / 10) (1 / 2) 0 (1 / 2) (1 / 10) 1 7 (by norm_num) (by norm_num) (by norm_num)
    (by norm_num) (by norm_num) (by norm_num) (by norm_num) (by norm_num) (by norm_num) (by norm_num)
    (by norm_num) h1 h2 hd
  exact absurd this (by decide)

/-- The hypotheses of the part that holds. -/
example : AssignBox 3 (1 / 2 : ℝ) (1 / 2) 0 1 0 1 = some ((4 : ℕ) : ℤ) ∧
    AssignBox 3 (7 / 10 : ℝ) (7 / 10) 0 1 0 1 = some ((8 : ℕ) : ℤ) ∧
    |(1 / 2 : ℝ) - 7 / 10| ≤ (1 - 0) / (3 : ℕ) := by
  refine ⟨by norm_num [AssignBox, cell], by norm_num [AssignBox, cell], ?_⟩
  rw [abs_le]; norm_num

end LY
