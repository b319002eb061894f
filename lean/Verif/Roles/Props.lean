import Verif.Roles.Model
import Verif.NC.Props
import Mathlib.Tactic.Positivity
import Mathlib.Tactic.FieldSimp
import Mathlib.Algebra.Order.BigOperators.Ring.Finset
import Mathlib.Algebra.BigOperators.Field
import Mathlib.Data.Rat.BigOperators

/-! # C11: role metrics -/

set_option linter.unusedSimpArgs false

namespace Roles

open NC Finset

/-! ## Folds that fill an array -/

/-- Value of a cell after adding `w x` to cell `k x` for all `x` of a list. -/
theorem fill {α : Type} (g : α → Prop) [DecidablePred g] (k : α → ℕ) (w : α → ℚ) : ∀ (l : List α)
    (S : ℕ → ℚ), (∀ x ∈ l, g x) →
    l.foldlM (fun S x => if g x then some (Function.update S (k x) (S (k x) + w x)) else none) S =
      some (fun c => S c + (l.map fun x => if k x = c then w x else 0).sum)
  | [], S, _ => by simp
  | x :: l, S, h => by
    rw [List.foldlM_cons, if_pos (h x (by simp))]
    simp only [Option.bind_eq_bind, Option.bind_some]
    rw [fill g k w l _ (fun y hy => h y (by simp [hy]))]
    congr 1
    funext c
    by_cases e : k x = c
    · subst e; simp; ring
    · have : ¬ c = k x := fun h => e h.symm
      simp [Function.update_apply, e, this]

theorem fill2 {N : ℕ} (F : (ℕ → ℚ) → ℕ → Option (ℕ → ℚ)) (W : ℕ → ℕ → ℚ)
    (hF : ∀ S i, i < N → F S i = some (fun c => S c + W i c)) : ∀ (n : ℕ), n ≤ N → ∀ S,
    (List.range n).foldlM F S = some (fun c => S c + ∑ i ∈ range n, W i c)
  | 0, _, S => by simp
  | n + 1, hn, S => by
    rw [List.range_succ, List.foldlM_append, fill2 F W hF n (by omega)]
    simp only [Option.bind_eq_bind, Option.bind_some, List.foldlM_cons, List.foldlM_nil]
    rw [hF _ n (by omega)]
    simp only [Option.bind_some, Option.pure_def]
    congr 1
    funext c
    rw [sum_range_succ]; ring

/-- Strength of the links of `i` towards module `m`. -/
def toModule (n : ℕ) (A : ℕ → ℕ → ℚ) (g : ℕ → ℕ) (i m : ℕ) : ℚ :=
  ∑ j ∈ range n, if g j = m then A i j else 0

variable {p : Partition} {adj : Adj} {A : ℕ → ℕ → ℚ}

theorem cell_inj {N i i' k k' : ℕ} (hi : i < N) (hi' : i' < N) (h : i + N * k = i' + N * k') :
    i = i' ∧ k = k' := by
  have h1 : (i + N * k) % N = i := by rw [Nat.add_mul_mod_self_left, Nat.mod_eq_of_lt hi]
  have h2 : (i' + N * k') % N = i' := by rw [Nat.add_mul_mod_self_left, Nat.mod_eq_of_lt hi']
  have e : i = i' := by rw [← h1, h, h2]
  subst e
  refine ⟨rfl, ?_⟩
  have : N * k = N * k' := by omega
  exact Nat.eq_of_mul_eq_mul_left (by omega) this

theorem strengthToModule_eq (h : Consistent p) (hN : adj.N = p.N) (ha : Represents adj p.N A) :
    ∃ S, strengthToModule p adj = some S ∧ ∀ i < p.N, ∀ m, S (i + p.N * m) = toModule p.N A (labelOf p) i m := by
  unfold strengthToModule
  rw [hN]
  have hF : ∀ (S : ℕ → ℚ) (i : ℕ), i < p.N → (slots adj i).foldlM (fun S j =>
    if adj.neighbors j < p.N ∧ (p.nodes (adj.neighbors j)).module < p.M then
      some (Function.update S (i + p.N * (p.nodes (adj.neighbors j)).module)
        (S (i + p.N * (p.nodes (adj.neighbors j)).module) + adj.strength j))
    else none) S = some (fun c => S c + ((slots adj i).map fun j =>
      if i + p.N * (p.nodes (adj.neighbors j)).module = c then adj.strength j else 0).sum) := by
    intro S i hi
    apply fill (fun j => adj.neighbors j < p.N ∧ (p.nodes (adj.neighbors j)).module < p.M)
      (fun j => i + p.N * (p.nodes (adj.neighbors j)).module) adj.strength
    intro j hj
    rw [mem_slots] at hj
    have := ha.range i hi j hj.1 hj.2
    exact ⟨this, h.label _ this⟩
  refine ⟨_, fill2 _ _ hF p.N (le_refl _) _, ?_⟩
  intro i hi m
  rw [zero_add, sum_eq_single i]
  · have := slots_sum ha hi (fun j => if labelOf p j = m then 1 else 0)
    unfold toModule
    have e1 : ∀ j, (if i + p.N * (p.nodes (adj.neighbors j)).module = i + p.N * m then adj.strength j else 0)
        = adj.strength j * (if labelOf p (adj.neighbors j) = m then 1 else 0) := by
      intro j
      unfold labelOf
      by_cases e : (p.nodes (adj.neighbors j)).module = m
      · simp [e]
      · rw [if_neg (fun h => e (cell_inj hi hi h).2), if_neg e, mul_zero]
    simp only [e1]
    rw [this]
    apply sum_congr rfl
    intro j _
    split_ifs <;> simp
  · intro i' hi' hne
    apply List.sum_eq_zero
    intro x hx
    obtain ⟨j, _, rfl⟩ := List.mem_map.1 hx
    rw [if_neg]
    intro e
    exact hne (cell_inj (mem_range.1 hi') hi e).1
  · intro hh; exact absurd (mem_range.2 hi) hh

theorem byModule_eq (h : Consistent p) (w : ℕ → ℕ → ℚ) :
    ∃ m, byModule p p.N w = some m ∧
      ∀ k, m k = ∑ i ∈ (range p.N).filter (fun i => labelOf p i = k), w i k := by
  unfold byModule
  refine ⟨_, fill (fun i => i < p.N ∧ (p.nodes i).module < p.M) (fun i => (p.nodes i).module)
    (fun i => w i (p.nodes i).module) _ _ ?_, ?_⟩
  · intro i hi
    have := List.mem_range.1 hi
    exact ⟨this, h.label i this⟩
  · intro k
    rw [zero_add, sum_filter, ← List.sum_toFinset _ List.nodup_range,
      show (List.range p.N).toFinset = range p.N by ext; simp]
    apply sum_congr rfl
    intro i _
    unfold labelOf
    split_ifs with e
    · rw [e]
    · rfl

theorem foldl_range (f : ℕ → ℚ) (n : ℕ) (s : ℚ) :
    (List.range n).foldl (fun s j => s + f j) s = s + ∑ j ∈ range n, f j := by
  rw [foldl_add, ← List.sum_toFinset _ List.nodup_range,
    show (List.range n).toFinset = range n by ext; simp]

theorem sum_toModule (h : Consistent p) (i : ℕ) :
    ∑ m ∈ range p.M, toModule p.N A (labelOf p) i m = ∑ j ∈ range p.N, A i j := by
  unfold toModule
  rw [sum_comm]
  apply sum_congr rfl
  intro j hj
  rw [sum_ite_eq]
  exact if_pos (mem_range.2 (h.label j (mem_range.1 hj)))

/-- Within-module degree and its statistics, by definition. -/
def within (p : Partition) (A : ℕ → ℕ → ℚ) (i : ℕ) : ℚ := toModule p.N A (labelOf p) i (labelOf p i)

/-- Nodes of a module. -/
def nodesOf (p : Partition) (k : ℕ) : Finset ℕ := (range p.N).filter (fun i => labelOf p i = k)

/-- Mean within-module degree of a module. -/
def meanOf (p : Partition) (A : ℕ → ℕ → ℚ) (k : ℕ) : ℚ := (∑ i ∈ nodesOf p k, within p A i) / (nodesOf p k).card

/-- **C11**: the function returns; participation is `1 - ∑ (share of the strength towards a module)²`
for every node with a link and positive strength, 0 for a node without links, provided the array of
the caller was 0 at that node; the z-score is the deviation from the mean of the module over the
standard deviation, 0 when all nodes of the module have the same within-module degree. -/
theorem C11_values (h : Consistent p) (hN : adj.N = p.N) (ha : Represents adj p.N A) (part0 : ℕ → ℚ) :
    ∃ r, PartitionRolesMetrics p adj part0 = some r ∧
      (∀ i < p.N, adj.idx i = adj.idx (i + 1) → r.participation i = some 0) ∧
      (∀ i < p.N, adj.idx i ≠ adj.idx (i + 1) → part0 i = 0 → ∑ j ∈ range p.N, A i j ≠ 0 →
        r.participation i = some (1 - ∑ m ∈ range p.M,
          (toModule p.N A (labelOf p) i m / ∑ j ∈ range p.N, A i j) ^ 2)) ∧
      (∀ i < p.N, r.connectivity i =
        if (∀ j ∈ nodesOf p (labelOf p i), within p A j = meanOf p A (labelOf p i)) then 0
        else ((within p A i - meanOf p A (labelOf p i) : ℚ) : ℝ) /
          Real.sqrt (((∑ j ∈ nodesOf p (labelOf p i), (within p A j - meanOf p A (labelOf p i)) ^ 2) /
            (nodesOf p (labelOf p i)).card : ℚ) : ℝ)) := by
  obtain ⟨S, eS, hS⟩ := strengthToModule_eq h hN ha
  obtain ⟨m1, em, hm1⟩ := byModule_eq h (fun i k => S (i + p.N * k))
  obtain ⟨v, ev, hv⟩ := byModule_eq h (fun i k => (S (i + p.N * k) - m1 k / (p.modules k).size) *
    (S (i + p.N * k) - m1 k / (p.modules k).size))
  refine ⟨scores p adj S (fun k => m1 k / (p.modules k).size) v part0, by
    unfold PartitionRolesMetrics
    simp only [hN, eS, em, ev, Option.bind_eq_bind, Option.bind_some, Option.pure_def], ?_, ?_, ?_⟩
  · intro i hi he
    simp [scores, he]
  · intro i hi he hp0 hs
    dsimp only [scores]
    rw [hN, if_neg he, foldl_range, foldl_range, hp0, zero_add, zero_add]
    have e1 : ∑ j ∈ range p.M, S (i + p.N * j) = ∑ j ∈ range p.N, A i j := by
      rw [← sum_toModule h]
      exact sum_congr rfl fun m _ => hS i hi m
    rw [e1, if_neg hs]
    congr 2
    rw [sum_div]
    apply sum_congr rfl
    intro m _
    rw [hS i hi m]
    field_simp
  · intro i hi
    dsimp only [scores]
    rw [hN]
    have hk := h.label i hi
    change labelOf p i < p.M at hk
    have hsize : (p.modules (labelOf p i)).size = (nodesOf p (labelOf p i)).card := h.size _ hk
    have hmean : m1 (labelOf p i) / (p.modules (labelOf p i)).size = meanOf p A (labelOf p i) := by
      rw [hm1, hsize]
      unfold meanOf nodesOf
      congr 1
      apply sum_congr rfl
      intro j hj
      have := (mem_filter.1 hj)
      rw [hS j (mem_range.1 this.1)]
      unfold within
      rw [this.2]
    have hvar : v (labelOf p i) = ∑ j ∈ nodesOf p (labelOf p i), (within p A j - meanOf p A (labelOf p i)) ^ 2 := by
      rw [hv, hmean]
      unfold nodesOf
      apply sum_congr rfl
      intro j hj
      have := (mem_filter.1 hj)
      rw [hS j (mem_range.1 this.1)]
      unfold within
      rw [this.2, sq]
    have hcell : S (i + p.N * labelOf p i) = within p A i := hS i hi _
    change (if Real.sqrt (((v (labelOf p i) / (p.modules (labelOf p i)).size : ℚ)) : ℝ) ≠ 0 then
      ((S (i + p.N * labelOf p i) - m1 (labelOf p i) / (p.modules (labelOf p i)).size : ℚ) : ℝ) /
        Real.sqrt (((v (labelOf p i) / (p.modules (labelOf p i)).size : ℚ)) : ℝ) else 0) = _
    rw [hmean, hcell, hvar, hsize]
    have hpos : 0 < (nodesOf p (labelOf p i)).card := card_pos.2 ⟨i, mem_filter.2 ⟨mem_range.2 hi, rfl⟩⟩
    have hpos' : (0 : ℚ) < (nodesOf p (labelOf p i)).card := by exact_mod_cast hpos
    have hzero : Real.sqrt (((∑ j ∈ nodesOf p (labelOf p i), (within p A j - meanOf p A (labelOf p i)) ^ 2) /
            (nodesOf p (labelOf p i)).card : ℚ) : ℝ) ≠ 0 ↔
        ¬ ∀ j ∈ nodesOf p (labelOf p i), within p A j = meanOf p A (labelOf p i) := by
      rw [not_iff_not]
      have hnn : 0 ≤ ∑ j ∈ nodesOf p (labelOf p i), (within p A j - meanOf p A (labelOf p i)) ^ 2 :=
        sum_nonneg fun j _ => sq_nonneg _
      rw [Real.sqrt_eq_zero (by exact_mod_cast div_nonneg hnn hpos'.le)]
      rw [Rat.cast_eq_zero, div_eq_zero_iff, sum_eq_zero_iff_of_nonneg (fun j _ => sq_nonneg _)]
      constructor
      · rintro (h1 | h1)
        · intro j hj
          have := h1 j hj
          rw [sq_eq_zero_iff, sub_eq_zero] at this
          exact this
        · exact absurd h1 hpos'.ne'
      · intro h1
        left
        intro j hj
        rw [h1 j hj]; simp
    by_cases hall : ∀ j ∈ nodesOf p (labelOf p i), within p A j = meanOf p A (labelOf p i)
    · rw [if_pos hall, if_neg (fun hh => (hzero.1 hh) hall)]
    · rw [if_neg hall, if_pos (hzero.2 hall)]

/-- Non-vacuity: on the weighted path with node 0 alone, the middle node has participation 12/25. -/
example : ∃ p r, Consistent p ∧ Represents pathAdj p.N pathA ∧
    PartitionRolesMetrics p pathAdj (fun _ => 0) = some r ∧ r.participation 1 = some (12 / 25) := by
  obtain ⟨p, hc, hN, hM, hl⟩ := path_partition
  have hrep : Represents pathAdj p.N pathA := hN ▸ path_represents
  obtain ⟨r, hr, _, h2, _⟩ := C11_values hc (by rw [hN]; rfl) hrep (fun _ => 0)
  refine ⟨p, r, hc, hrep, hr, ?_⟩
  have l0 := hl 0 (by omega)
  have l1 := hl 1 (by omega)
  have l2 := hl 2 (by omega)
  have hs : ∑ j ∈ range p.N, pathA 1 j = 5 := by
    rw [hN]; simp [sum_range_succ, pathA]; norm_num
  rw [h2 1 (by omega) (by decide) rfl (by rw [hs]; norm_num), hs, hM]
  simp only [sum_range_succ, toModule, hN, l0, l1, l2, range_zero, sum_empty]
  simp [pathA]
  norm_num

/-- **C11**: for non-negative weights participation lies in `[0, 1)`. -/
theorem C11_participation_bounds (h : Consistent p) (hA : ∀ i j, 0 ≤ A i j) {i : ℕ}
    (hs : 0 < ∑ j ∈ range p.N, A i j) :
    let P := 1 - ∑ m ∈ range p.M, (toModule p.N A (labelOf p) i m / ∑ j ∈ range p.N, A i j) ^ 2
    0 ≤ P ∧ P < 1 := by
  have hnn : ∀ m ∈ range p.M, 0 ≤ toModule p.N A (labelOf p) i m / ∑ j ∈ range p.N, A i j := by
    intro m _
    refine div_nonneg (sum_nonneg fun j _ => ?_) hs.le
    split_ifs
    · exact hA i j
    · exact le_refl _
  have hsum : ∑ m ∈ range p.M, toModule p.N A (labelOf p) i m / ∑ j ∈ range p.N, A i j = 1 := by
    rw [← sum_div, sum_toModule h, div_self hs.ne']
  have hle : ∀ m ∈ range p.M, toModule p.N A (labelOf p) i m / ∑ j ∈ range p.N, A i j ≤ 1 := by
    intro m hm
    rw [← hsum]
    exact single_le_sum hnn hm
  intro P
  constructor
  · have : ∑ m ∈ range p.M, (toModule p.N A (labelOf p) i m / ∑ j ∈ range p.N, A i j) ^ 2 ≤ 1 := by
      conv_rhs => rw [← hsum]
      apply sum_le_sum
      intro m hm
      have h1 := hnn m hm
      have h2 := hle m hm
      nlinarith
    change 0 ≤ 1 - _
    linarith
  · have h0 : 0 ≤ ∑ m ∈ range p.M, (toModule p.N A (labelOf p) i m / ∑ j ∈ range p.N, A i j) ^ 2 :=
      sum_nonneg fun m _ => sq_nonneg _
    have hne : ∑ m ∈ range p.M, (toModule p.N A (labelOf p) i m / ∑ j ∈ range p.N, A i j) ^ 2 ≠ 0 := by
      intro hz
      rw [sum_eq_zero_iff_of_nonneg (fun m _ => sq_nonneg _)] at hz
      have : ∑ m ∈ range p.M, toModule p.N A (labelOf p) i m / ∑ j ∈ range p.N, A i j = 0 :=
        sum_eq_zero fun m hm => pow_eq_zero_iff (two_ne_zero) |>.1 (hz m hm)
      rw [hsum] at this
      exact one_ne_zero this
    have := lt_of_le_of_ne h0 hne.symm
    change 1 - _ < 1
    linarith

/-- **C11**: participation is 0 exactly when all links of the node with weight lead to one module. -/
theorem C11_participation_zero (h : Consistent p) (hA : ∀ i j, 0 ≤ A i j) {i : ℕ}
    (hs : 0 < ∑ j ∈ range p.N, A i j) :
    1 - ∑ m ∈ range p.M, (toModule p.N A (labelOf p) i m / ∑ j ∈ range p.N, A i j) ^ 2 = 0 ↔
      ∃ m, ∀ j < p.N, A i j ≠ 0 → labelOf p j = m := by
  set s := ∑ j ∈ range p.N, A i j with hsdef
  have hnn : ∀ m ∈ range p.M, 0 ≤ toModule p.N A (labelOf p) i m / s := by
    intro m _
    refine div_nonneg (sum_nonneg fun j _ => ?_) hs.le
    split_ifs
    · exact hA i j
    · exact le_refl _
  have hsum : ∑ m ∈ range p.M, toModule p.N A (labelOf p) i m / s = 1 := by
    rw [← sum_div, sum_toModule h, div_self hs.ne']
  have hle : ∀ m ∈ range p.M, toModule p.N A (labelOf p) i m / s ≤ 1 := by
    intro m hm
    rw [← hsum]
    exact single_le_sum hnn hm
  constructor
  · intro h0
    have h1 : ∑ m ∈ range p.M, (toModule p.N A (labelOf p) i m / s -
        (toModule p.N A (labelOf p) i m / s) ^ 2) = 0 := by
      rw [sum_sub_distrib, hsum]; exact h0
    rw [sum_eq_zero_iff_of_nonneg] at h1
    · have : ∃ m ∈ range p.M, toModule p.N A (labelOf p) i m / s ≠ 0 := by
        by_contra hh
        push Not at hh
        rw [sum_eq_zero hh] at hsum
        exact zero_ne_one hsum
      obtain ⟨m, hm, hne⟩ := this
      refine ⟨m, ?_⟩
      have h2 := h1 m hm
      have h3 : toModule p.N A (labelOf p) i m / s = 1 := by
        have : (toModule p.N A (labelOf p) i m / s) * (1 - toModule p.N A (labelOf p) i m / s) = 0 := by
          rw [← h2]; ring
        rcases mul_eq_zero.1 this with h4 | h4
        · exact absurd h4 hne
        · linarith
      rw [div_eq_one_iff_eq hs.ne', hsdef] at h3
      unfold toModule at h3
      intro j hj hnz
      by_contra hm'
      have h5 := sum_lt_sum (s := range p.N) (f := fun j => if labelOf p j = m then A i j else 0) (g := fun j => A i j) (fun j _ => by
        split_ifs
        · exact le_refl _
        · exact hA i j) ⟨j, mem_range.2 hj, by
          rw [if_neg hm']
          exact lt_of_le_of_ne (hA i j) hnz.symm⟩
      exact absurd h3 h5.ne
    · intro m hm
      have h1 := hnn m hm
      have h2 := hle m hm
      nlinarith
  · rintro ⟨m, hm⟩
    have hk : ∀ m', toModule p.N A (labelOf p) i m' = if m' = m then s else 0 := by
      intro m'
      unfold toModule
      by_cases e : m' = m
      · rw [if_pos e, hsdef]
        apply sum_congr rfl
        intro j hj
        split_ifs with h1
        · rfl
        · by_contra hne
          exact h1 (by rw [hm j (mem_range.1 hj) (fun h => hne h.symm), e])
      · rw [if_neg e]
        apply sum_eq_zero
        intro j hj
        split_ifs with h1
        · by_contra hne
          exact e (by rw [← h1, hm j (mem_range.1 hj) hne])
        · rfl
    have hmM : m ∈ range p.M := by
      by_contra hno
      have : ∑ m' ∈ range p.M, toModule p.N A (labelOf p) i m' / s = 0 := by
        apply sum_eq_zero
        intro m' hm'
        rw [hk, if_neg (by rintro rfl; exact hno hm'), zero_div]
      rw [hsum] at this
      exact one_ne_zero this
    rw [sum_eq_single m]
    · rw [hk, if_pos rfl, div_self hs.ne']; norm_num
    · intro m' _ hne
      rw [hk, if_neg hne]; simp
    · intro hno; exact absurd hmM hno

/-- **C11**: in every module the z-scores sum to 0, and their squares sum to the number of nodes of
the module unless all nodes have the same within-module degree, in which case all scores are 0. -/
theorem C11_zscores (h : Consistent p) (hN : adj.N = p.N) (ha : Represents adj p.N A) (part0 : ℕ → ℚ)
    {r : Out} (hr : PartitionRolesMetrics p adj part0 = some r) (k : ℕ) :
    ∑ i ∈ nodesOf p k, r.connectivity i = 0 ∧
    ((∃ i ∈ nodesOf p k, ∃ j ∈ nodesOf p k, within p A i ≠ within p A j) →
      ∑ i ∈ nodesOf p k, r.connectivity i ^ 2 = (nodesOf p k).card) ∧
    ((∀ i ∈ nodesOf p k, ∀ j ∈ nodesOf p k, within p A i = within p A j) →
      ∀ i ∈ nodesOf p k, r.connectivity i = 0) := by
  obtain ⟨r', hr', _, _, hz⟩ := C11_values h hN ha part0
  rw [hr] at hr'
  cases hr'
  have hmem : ∀ i ∈ nodesOf p k, i < p.N ∧ labelOf p i = k := fun i hi =>
    ⟨mem_range.1 (mem_filter.1 hi).1, (mem_filter.1 hi).2⟩
  have hdev : (nodesOf p k).Nonempty → ∑ i ∈ nodesOf p k, (within p A i - meanOf p A k) = 0 := by
    intro hne
    have hc : ((nodesOf p k).card : ℚ) ≠ 0 := by exact_mod_cast (card_pos.2 hne).ne'
    rw [sum_sub_distrib, sum_const, nsmul_eq_mul]
    unfold meanOf
    field_simp
    ring
  by_cases hall : ∀ j ∈ nodesOf p k, within p A j = meanOf p A k
  · have h0 : ∀ i ∈ nodesOf p k, r.connectivity i = 0 := by
      intro i hi
      obtain ⟨h1, h2⟩ := hmem i hi
      rw [hz i h1, h2, if_pos hall]
    refine ⟨sum_eq_zero h0, ?_, fun _ => h0⟩
    rintro ⟨i, hi, j, hj, hne⟩
    exact absurd (by rw [hall i hi, hall j hj]) hne
  · have hv : ∀ i ∈ nodesOf p k, r.connectivity i = ((within p A i - meanOf p A k : ℚ) : ℝ) /
        Real.sqrt (((∑ j ∈ nodesOf p k, (within p A j - meanOf p A k) ^ 2) / (nodesOf p k).card : ℚ) : ℝ) := by
      intro i hi
      obtain ⟨h1, h2⟩ := hmem i hi
      rw [hz i h1, h2, if_neg hall]
    have hne : (nodesOf p k).Nonempty := by
      rw [nonempty_iff_ne_empty]
      intro he
      exact hall (by rw [he]; simp)
    have hcard : (0 : ℚ) < (nodesOf p k).card := by exact_mod_cast card_pos.2 hne
    have hpos : 0 < ∑ j ∈ nodesOf p k, (within p A j - meanOf p A k) ^ 2 := by
      apply lt_of_le_of_ne (sum_nonneg fun j _ => sq_nonneg _)
      intro h0
      have h0 := h0.symm
      rw [sum_eq_zero_iff_of_nonneg (fun j _ => sq_nonneg _)] at h0
      exact hall fun j hj => by
        have := h0 j hj
        rw [sq_eq_zero_iff, sub_eq_zero] at this
        exact this
    refine ⟨?_, ?_, ?_⟩
    · rw [sum_congr rfl hv, ← sum_div, ← Rat.cast_sum, hdev hne]; simp
    · intro _
      rw [sum_congr rfl (fun i hi => by rw [hv i hi, div_pow, Real.sq_sqrt (by
        exact_mod_cast div_nonneg hpos.le hcard.le)]), ← sum_div]
      have : ∑ i ∈ nodesOf p k, ((within p A i - meanOf p A k : ℚ) : ℝ) ^ 2 =
          ((∑ i ∈ nodesOf p k, (within p A i - meanOf p A k) ^ 2 : ℚ) : ℝ) := by push_cast; rfl
      rw [this, ← Rat.cast_div]
      have h2 : (∑ i ∈ nodesOf p k, (within p A i - meanOf p A k) ^ 2) /
          ((∑ j ∈ nodesOf p k, (within p A j - meanOf p A k) ^ 2) / (nodesOf p k).card) = (nodesOf p k).card := by
        have := hpos.ne'
        field_simp
      rw [h2]
      simp
    · intro heq
      exfalso
      apply hall
      intro j hj
      have : ∑ i ∈ nodesOf p k, within p A i = (nodesOf p k).card * within p A j := by
        rw [sum_congr rfl (fun i hi => heq i hi j hj), sum_const, nsmul_eq_mul]
      unfold meanOf
      rw [this]
      field_simp

/-- **C11** (finding): the values at the call of the array `participation` enter the result. A node
with links and strength `s ≠ 0` gets `v - part0 / s²` where `v` is the right value. -/
theorem C11_garbage (h : Consistent p) (hN : adj.N = p.N) (ha : Represents adj p.N A) (part0 : ℕ → ℚ)
    {i : ℕ} (hi : i < p.N) (hl : adj.idx i ≠ adj.idx (i + 1)) (hs : ∑ j ∈ range p.N, A i j ≠ 0)
    {r r0 : Out} (hr : PartitionRolesMetrics p adj part0 = some r)
    (hr0 : PartitionRolesMetrics p adj (fun _ => 0) = some r0) :
    r.participation i = (r0.participation i).map (fun v => v - part0 i / (∑ j ∈ range p.N, A i j) ^ 2) ∧
    (part0 i ≠ 0 → r.participation i ≠ r0.participation i) := by
  obtain ⟨S, eS, hS⟩ := strengthToModule_eq h hN ha
  obtain ⟨m1, em, hm1⟩ := byModule_eq h (fun i k => S (i + p.N * k))
  obtain ⟨v, ev, hv⟩ := byModule_eq h (fun i k => (S (i + p.N * k) - m1 k / (p.modules k).size) *
    (S (i + p.N * k) - m1 k / (p.modules k).size))
  unfold PartitionRolesMetrics at hr hr0
  simp only [hN, eS, em, ev, Option.bind_eq_bind, Option.bind_some, Option.pure_def, Option.some.injEq] at hr hr0
  subst hr hr0
  have e1 : ∑ j ∈ range p.M, S (i + p.N * j) = ∑ j ∈ range p.N, A i j := by
    rw [← sum_toModule h]
    exact sum_congr rfl fun m _ => hS i hi m
  have key : (scores p adj S (fun k => m1 k / (p.modules k).size) v part0).participation i =
      ((scores p adj S (fun k => m1 k / (p.modules k).size) v (fun _ => 0)).participation i).map
        (fun v => v - part0 i / (∑ j ∈ range p.N, A i j) ^ 2) := by
    simp only [scores, hN, if_neg hl, foldl_range, zero_add, e1, if_neg hs, Option.map_some]
    congr 1
    field_simp
    ring
  refine ⟨key, ?_⟩
  intro hne heq
  rw [key] at heq
  simp only [scores, hN, if_neg hl, foldl_range, zero_add, e1, if_neg hs, Option.map_some, Option.some.injEq] at heq
  have : part0 i / (∑ j ∈ range p.N, A i j) ^ 2 = 0 := by linarith
  rw [div_eq_zero_iff] at this
  rcases this with h1 | h1
  · exact hne h1
  · exact hs (pow_eq_zero_iff two_ne_zero |>.1 h1)

/-- **C11** (finding): a node that has links, all of total weight 0, divides 0 by 0. -/
theorem C11_zero_strength (h : Consistent p) (hN : adj.N = p.N) (ha : Represents adj p.N A) (part0 : ℕ → ℚ)
    {i : ℕ} (hi : i < p.N) (hl : adj.idx i ≠ adj.idx (i + 1)) (hs : ∑ j ∈ range p.N, A i j = 0)
    {r : Out} (hr : PartitionRolesMetrics p adj part0 = some r) : r.participation i = none := by
  obtain ⟨S, eS, hS⟩ := strengthToModule_eq h hN ha
  obtain ⟨m1, em, hm1⟩ := byModule_eq h (fun i k => S (i + p.N * k))
  obtain ⟨v, ev, hv⟩ := byModule_eq h (fun i k => (S (i + p.N * k) - m1 k / (p.modules k).size) *
    (S (i + p.N * k) - m1 k / (p.modules k).size))
  unfold PartitionRolesMetrics at hr
  simp only [hN, eS, em, ev, Option.bind_eq_bind, Option.bind_some, Option.pure_def, Option.some.injEq] at hr
  subst hr
  have e1 : ∑ j ∈ range p.M, S (i + p.N * j) = 0 := by
    rw [← hs, ← sum_toModule h]
    exact sum_congr rfl fun m _ => hS i hi m
  simp only [scores, hN, if_neg hl, foldl_range, zero_add, e1, if_true]

/-- Non-vacuity of the hypotheses on the path: node 1 has links, strength 5, weights are not negative,
and in module 1 the within-module degrees of nodes 1 and 2 agree, so their scores are 0. -/
example : ∃ p r, Consistent p ∧ PartitionRolesMetrics p pathAdj (fun _ => 7) = some r ∧
    (∀ i j, 0 ≤ pathA i j) ∧ 0 < ∑ j ∈ range p.N, pathA 1 j ∧ pathAdj.idx 1 ≠ pathAdj.idx 2 ∧
    r.connectivity 1 = 0 ∧ r.participation 1 = some (1 / 5) := by
  obtain ⟨p, hc, hN, hM, hl⟩ := path_partition
  have hrep : Represents pathAdj p.N pathA := hN ▸ path_represents
  obtain ⟨r, hr, _, _, _⟩ := C11_values hc (by rw [hN]; rfl) hrep (fun _ => 7)
  obtain ⟨r0, hr0, _, h2, _⟩ := C11_values hc (by rw [hN]; rfl) hrep (fun _ => 0)
  have l0 := hl 0 (by omega)
  have l1 := hl 1 (by omega)
  have l2 := hl 2 (by omega)
  have hs : ∑ j ∈ range p.N, pathA 1 j = 5 := by
    rw [hN]; simp [sum_range_succ, pathA]; norm_num
  refine ⟨p, r, hc, hr, ?_, by rw [hs]; norm_num, by decide, ?_, ?_⟩
  · intro i j; unfold pathA; split_ifs <;> norm_num
  · have hz := C11_zscores hc (by rw [hN]; rfl) hrep _ hr 1
    apply hz.2.2
    · have hset : nodesOf p 1 = {1, 2} := by
        unfold nodesOf
        rw [hN]
        ext j
        simp only [mem_filter, mem_range, mem_insert, mem_singleton]
        constructor
        · rintro ⟨h1, h3⟩
          rw [hl j h1] at h3
          split_ifs at h3
          omega
        · rintro (rfl | rfl)
          · exact ⟨by omega, l1⟩
          · exact ⟨by omega, l2⟩
      rw [hset]
      intro i hi j hj
      simp only [mem_insert, mem_singleton] at hi hj
      rcases hi with rfl | rfl <;> rcases hj with rfl | rfl <;>
        simp [within, toModule, hN, sum_range_succ, l0, l1, l2, pathA]
    · exact mem_filter.2 ⟨mem_range.2 (by omega), l1⟩
  · have hg := (C11_garbage hc (by rw [hN]; rfl) hrep (fun _ => 7) (i := 1) (by omega) (by decide)
      (by rw [hs]; norm_num) hr hr0).1
    rw [hg, h2 1 (by omega) (by decide) rfl (by rw [hs]; norm_num), hs, hM]
    simp only [sum_range_succ, toModule, hN, l0, l1, l2, range_zero, sum_empty]
    simp [pathA]
    norm_num

/-! ## Roles -/

/-- **C11**: the role is a number from 0 to 6; hubs (4-6) are the nodes with `z ≥ 2.5`; for the same
kind of node a larger participation never gives a smaller role; each role has exactly its cell of the
published table. -/
theorem C11_role (P z : ℝ) :
    GetRole P z ≤ 6 ∧ (4 ≤ GetRole P z ↔ 2.5 ≤ z) ∧
    (∀ P' z', P ≤ P' → (2.5 ≤ z ↔ 2.5 ≤ z') → GetRole P z ≤ GetRole P' z') ∧
    (∀ P' z', z ≤ z' → P' = P → GetRole P z ≤ GetRole P' z') ∧
    (GetRole P z = 0 ↔ z < 2.5 ∧ P < 0.05) ∧
    (GetRole P z = 1 ↔ z < 2.5 ∧ 0.05 ≤ P ∧ P < 0.62) ∧
    (GetRole P z = 2 ↔ z < 2.5 ∧ 0.62 ≤ P ∧ P < 0.8) ∧
    (GetRole P z = 3 ↔ z < 2.5 ∧ 0.8 ≤ P) ∧
    (GetRole P z = 4 ↔ 2.5 ≤ z ∧ P < 0.3) ∧
    (GetRole P z = 5 ↔ 2.5 ≤ z ∧ 0.3 ≤ P ∧ P < 0.75) ∧
    (GetRole P z = 6 ↔ 2.5 ≤ z ∧ 0.75 ≤ P) := by
  have cases : ∀ P z : ℝ,
      (GetRole P z = 0 ∧ z < 5/2 ∧ P < 5/100) ∨
      (GetRole P z = 1 ∧ z < 5/2 ∧ 5/100 ≤ P ∧ P < 62/100) ∨
      (GetRole P z = 2 ∧ z < 5/2 ∧ 62/100 ≤ P ∧ P < 8/10) ∨
      (GetRole P z = 3 ∧ z < 5/2 ∧ 8/10 ≤ P) ∨
      (GetRole P z = 4 ∧ 5/2 ≤ z ∧ P < 3/10) ∨
      (GetRole P z = 5 ∧ 5/2 ≤ z ∧ 3/10 ≤ P ∧ P < 75/100) ∨
      (GetRole P z = 6 ∧ 5/2 ≤ z ∧ 75/100 ≤ P) := by
    intro P z
    unfold GetRole
    split_ifs <;> simp_all
  have n1 : (2.5 : ℝ) = 5/2 := by norm_num
  have n2 : (0.05 : ℝ) = 5/100 := by norm_num
  have n3 : (0.62 : ℝ) = 62/100 := by norm_num
  have n4 : (0.8 : ℝ) = 8/10 := by norm_num
  have n5 : (0.3 : ℝ) = 3/10 := by norm_num
  have n6 : (0.75 : ℝ) = 75/100 := by norm_num
  rw [n1, n2, n3, n4, n5, n6]
  have hc := cases P z
  refine ⟨?_, ?_, ?_, ?_, ?_, ?_, ?_, ?_, ?_, ?_, ?_⟩
  · rcases hc with h | h | h | h | h | h | h <;> rw [h.1] <;> norm_num
  · rcases hc with h | h | h | h | h | h | h <;> rw [h.1] <;> constructor <;> intro h' <;> first | omega | linarith
  · intro P' z' hP hz
    have hc' := cases P' z'
    rcases hc with h | h | h | h | h | h | h <;> rcases hc' with h' | h' | h' | h' | h' | h' | h' <;>
      rw [h.1, h'.1] <;> first | omega | (exfalso; first | linarith | linarith [hz.1 h.2.1] | linarith [hz.2 h'.2.1])
  · rintro P' z' hz rfl
    have hc' := cases P' z'
    rcases hc with h | h | h | h | h | h | h <;> rcases hc' with h' | h' | h' | h' | h' | h' | h' <;>
      rw [h.1, h'.1] <;> first | omega | (exfalso; linarith)
  all_goals
    rcases hc with h | h | h | h | h | h | h <;> rw [h.1] <;> constructor <;> intro h' <;>
      first | omega | exact h.2 | (exfalso; linarith) | skip

example : GetRole (7 / 10) 1 = 2 ∧ GetRole (7 / 10) 3 = 5 := by
  unfold GetRole; norm_num

end Roles
