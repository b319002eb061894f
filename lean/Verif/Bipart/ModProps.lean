import Verif.Bipart.ModModel
import Verif.Bipart.Props
import Mathlib.Tactic.FieldSimp
import Mathlib.Tactic.Positivity

/-! # C60, C63: modularity of bipartite networks -/

set_option linter.unusedSimpArgs false
set_option linter.unusedSectionVars false

namespace BP

open Finset

variable {b : Bi}

/-! ## Specification -/

/-- Number of nodes of the second set linked to `i`. -/
noncomputable def deg1 (b : Bi) (i : ℕ) : ℕ := by
  classical exact ((range b.n2).filter fun a => b.Linked i a).card

/-- Number of nodes of the first set linked to `a`. -/
noncomputable def deg2 (b : Bi) (a : ℕ) : ℕ := by
  classical exact ((range b.n1).filter fun i => b.Linked i a).card

/-- `i` and `j` are in the same group. -/
def together (part : List (List ℕ)) (i j : ℕ) : Prop := ∃ g ∈ part, i ∈ g ∧ j ∈ g

/-- No node is twice in the partition, and all of them are nodes of the first set. -/
structure PartOK (n : ℕ) (part : List (List ℕ)) : Prop where
  nodup : part.flatten.Nodup
  range : ∀ g ∈ part, ∀ i ∈ g, i < n

/-- Sum over the ordered pairs of different nodes of the same group. -/
noncomputable def pairSum (n : ℕ) (part : List (List ℕ)) (F : ℕ → ℕ → ℚ) : ℚ := by
  classical exact ∑ i ∈ range n, ∑ j ∈ range n, if i ≠ j ∧ together part i j then F i j else 0

/-- Bipartite modularity (Guimerà, Sales-Pardo and Amaral, 2007). -/
noncomputable def biMod (b : Bi) (part : List (List ℕ)) : ℚ :=
  pairSum b.n1 part fun i j =>
    ((common b i j).card : ℚ) / (∑ a ∈ range b.n2, (deg2 b a : ℚ) * ((deg2 b a : ℚ) - 1))
      - (deg1 b i : ℚ) * deg1 b j / (∑ a ∈ range b.n2, (deg2 b a : ℚ)) ^ 2

/-! ## Sums over pairs -/

theorem foldl_add {α : Type} (F : α → ℚ) : ∀ (l : List α) (s : ℚ), l.foldl (fun s x => s + F x) s = s + (l.map F).sum
  | [], s => by simp
  | x :: l, s => by rw [List.foldl_cons, foldl_add F l, List.map_cons, List.sum_cons]; ring

theorem foldl_range (F : ℕ → ℚ) (n : ℕ) : (List.range n).foldl (fun s x => s + F x) 0 = ∑ a ∈ range n, F a := by
  induction n with
  | zero => rfl
  | succ n ih => rw [List.range_succ, List.foldl_append, ih, sum_range_succ]; rfl

theorem foldlM_add {α : Type} {f : α → Option ℚ} {F : α → ℚ} : ∀ (l : List α) (s : ℚ), (∀ x ∈ l, f x = some (F x)) →
    l.foldlM (fun s x => (f x).map (s + ·)) s = some (s + (l.map F).sum)
  | [], s, _ => by simp
  | x :: l, s, h => by
    rw [List.foldlM_cons, h x (by simp)]
    simp only [Option.map_some, Option.bind_eq_bind, Option.bind_some]
    rw [foldlM_add l _ fun y hy => h y (by simp [hy]), List.map_cons, List.sum_cons, add_assoc]

theorem upper_mem {l : List ℕ} {p : ℕ × ℕ} (h : p ∈ upper l) : p.1 ∈ l ∧ p.2 ∈ l := by
  induction l with
  | nil => simp [upper] at h
  | cons x l ih =>
    simp only [upper, List.mem_append, List.mem_map] at h
    rcases h with ⟨y, hy, rfl⟩ | h
    · simp [hy]
    · have := ih h
      simp [this]

theorem pairLoop_eq {term : ℕ → ℕ → Option ℚ} {F : ℕ → ℕ → ℚ} {part : List (List ℕ)}
    (h : ∀ g ∈ part, ∀ i ∈ g, ∀ j ∈ g, term i j = some (F i j)) :
    pairLoop term part = some (part.map fun g => ((upper g).map fun p => F p.1 p.2).sum).sum := by
  unfold pairLoop
  have : ∀ (l : List (List ℕ)) (s : ℚ), (∀ g ∈ l, g ∈ part) →
      l.foldlM (fun s g => (upper g).foldlM (fun s p => (term p.1 p.2).map (s + ·)) s) s =
        some (s + (l.map fun g => ((upper g).map fun p => F p.1 p.2).sum).sum) := by
    intro l
    induction l with
    | nil => intro s _; simp
    | cons g l ih =>
      intro s hl
      rw [List.foldlM_cons, foldlM_add (F := fun p => F p.1 p.2) (upper g) s fun p hp =>
        h g (hl g (by simp)) _ (upper_mem hp).1 _ (upper_mem hp).2]
      simp only [Option.bind_eq_bind, Option.bind_some]
      rw [ih _ fun g hg => hl g (by simp [hg]), List.map_cons, List.sum_cons, add_assoc]
  rw [this part 0 fun g hg => hg, zero_add]

theorem upper_sum {F : ℕ → ℕ → ℚ} (hF : ∀ i j, F i j = F j i) : ∀ {g : List ℕ}, g.Nodup →
    ((upper g).map fun p => F p.1 p.2).sum * 2 = ∑ i ∈ g.toFinset, ∑ j ∈ g.toFinset, if i ≠ j then F i j else 0
  | [], _ => by simp [upper]
  | x :: l, h => by
    rw [List.nodup_cons] at h
    have hx : x ∉ l.toFinset := by simpa using h.1
    have ih := upper_sum hF h.2
    rw [upper, List.map_append, List.sum_append, List.map_map, add_mul, ih, List.toFinset_cons, sum_insert hx]
    simp only [sum_insert hx]
    rw [if_neg (by simp), zero_add, sum_add_distrib]
    have h1 : ∀ j ∈ l.toFinset, (if x ≠ j then F x j else 0) = F x j := fun j hj => by
      rw [if_pos]; rintro rfl; exact hx hj
    have h2 : ∀ j ∈ l.toFinset, (if j ≠ x then F j x else 0) = F x j := fun j hj => by
      rw [if_pos, hF]; rintro rfl; exact hx hj
    rw [sum_congr rfl h1, sum_congr rfl h2]
    have h3 : ((l.map ((fun p : ℕ × ℕ => F p.1 p.2) ∘ fun y => (x, y))).sum) = ∑ j ∈ l.toFinset, F x j := by
      rw [List.sum_toFinset _ h.2]; rfl
    rw [h3]; ring

theorem parts_sum {n : ℕ} {F : ℕ → ℕ → ℚ} (hF : ∀ i j, F i j = F j i) : ∀ {part : List (List ℕ)}, PartOK n part →
    (part.map fun g => ((upper g).map fun p => F p.1 p.2).sum).sum * 2 = pairSum n part F
  | [], _ => by simp [pairSum, together]
  | g :: part, h => by
    classical
    have hn := h.nodup
    rw [List.flatten_cons, List.nodup_append'] at hn
    have ih := parts_sum hF (part := part) ⟨hn.2.1, fun g hg => h.range g (by simp [hg])⟩
    rw [List.map_cons, List.sum_cons, add_mul, ih, upper_sum hF hn.1]
    unfold pairSum
    have hsub : g.toFinset ⊆ range n := fun i hi => mem_range.2 (h.range g (by simp) i (by simpa using hi))
    have e : ∀ i j, (if i ≠ j ∧ together (g :: part) i j then F i j else 0) =
        (if i ∈ g.toFinset then (if j ∈ g.toFinset then (if i ≠ j then F i j else 0) else 0) else 0) +
          if i ≠ j ∧ together part i j then F i j else 0 := by
      intro i j
      have hd : i ∈ g → together part i j → False := by
        rintro h1 ⟨g', h2, h3, _⟩
        exact hn.2.2 h1 (List.mem_flatten.2 ⟨g', h2, h3⟩)
      have ht : together (g :: part) i j ↔ (i ∈ g ∧ j ∈ g) ∨ together part i j := by
        simp [together]
      simp only [ht, List.mem_toFinset]
      by_cases h0 : i ≠ j
      · by_cases h1 : i ∈ g <;> by_cases h2 : j ∈ g <;> by_cases h3 : together part i j
        · exact absurd h3 (hd h1)
        · simp [h0, h1, h2, h3]
        · exact absurd h3 (hd h1)
        · simp [h0, h1, h2, h3]
        all_goals simp [h0, h1, h2, h3]
      · simp [h0]
    simp only [e, sum_add_distrib]
    congr 1
    rw [← sum_subset hsub (f := fun i => ∑ j ∈ range n,
      if i ∈ g.toFinset then if j ∈ g.toFinset then if i ≠ j then F i j else 0 else 0 else 0)]
    · apply sum_congr rfl
      intro i hi
      rw [← sum_subset hsub (f := fun j => if i ∈ g.toFinset then if j ∈ g.toFinset then if i ≠ j then F i j else 0 else 0 else 0)]
      · apply sum_congr rfl
        intro j hj
        rw [if_pos hi, if_pos hj]
      · intro j _ hj
        rw [if_pos hi, if_neg hj]
    · intro i _ hi
      simp only [if_neg hi, sum_const_zero]

theorem deg1_eq (h : b.OK) (i : ℕ) : (b.neig1 i).length = deg1 b i := by
  classical
  unfold deg1
  rw [← List.length_map (f := (·.1)), ← List.toFinset_card_of_nodup (h.nodup1 i)]
  congr 1
  ext a
  simp only [mem_filter, mem_range, List.mem_toFinset]
  rw [linked_map]
  constructor
  · intro ha
    exact ⟨(linked_range h (linked_map.2 ha)).2, ha⟩
  · exact fun ha => ha.2

theorem deg2_eq (h : b.OK) (a : ℕ) : (b.neig2 a).length = deg2 b a := by
  classical
  unfold deg2
  rw [← List.length_map (f := (·.1)), ← List.toFinset_card_of_nodup (h.nodup2 a)]
  congr 1
  ext i
  simp only [mem_filter, mem_range, List.mem_toFinset]
  rw [linked_map2 h]
  constructor
  · intro ha
    exact ⟨(linked_range h ((linked_map2 h).2 ha)).1, ha⟩
  · exact fun ha => ha.2

/-! ## The formula -/

/-- **C60**: `ModularityBipart` is the bipartite modularity. The degrees must be small enough for the products of `int`s and
`unsigned`s, some group of the second set must have two nodes (else the code divides by zero). -/
theorem C60_formula (h : b.OK) {part : List (List ℕ)} (hp : PartOK b.n1 part) (h1 : ∀ i, deg1 b i ≤ 46340)
    (h2 : ∀ a, deg2 b a ≤ 65535) (hd : ∃ a < b.n2, 2 ≤ deg2 b a) :
    ModularityBipart b part = some (biMod b part) := by
  have hs : ∀ a, (umul (b.neig2 a).length (b.neig2 a).length : ℚ) = (deg2 b a : ℚ) * deg2 b a := by
    intro a
    unfold umul
    rw [deg2_eq h, Nat.mod_eq_of_lt, Nat.cast_mul]
    calc deg2 b a * deg2 b a ≤ 65535 * 65535 := Nat.mul_le_mul (h2 a) (h2 a)
      _ < _ := by norm_num
  have hm : ∀ i j, imul (b.neig1 i).length (b.neig1 j).length = some (deg1 b i * deg1 b j) := by
    intro i j
    unfold imul
    rw [deg1_eq h, deg1_eq h, if_pos]
    calc deg1 b i * deg1 b j ≤ 46340 * 46340 := Nat.mul_le_mul (h1 i) (h1 j)
      _ ≤ _ := by norm_num
  have hS : ∑ a ∈ range b.n2, (deg2 b a : ℚ) * deg2 b a - ∑ a ∈ range b.n2, (deg2 b a : ℚ) =
      ∑ a ∈ range b.n2, (deg2 b a : ℚ) * ((deg2 b a : ℚ) - 1) := by
    rw [← sum_sub_distrib]
    exact sum_congr rfl fun a _ => by ring
  obtain ⟨a0, ha0, hd0⟩ := hd
  have hd1 : (2 : ℚ) ≤ deg2 b a0 := by exact_mod_cast hd0
  have hpos1 : 0 < ∑ a ∈ range b.n2, (deg2 b a : ℚ) :=
    sum_pos' (fun a _ => by positivity) ⟨a0, mem_range.2 ha0, by linarith⟩
  have hterm : ∀ a, (0 : ℚ) ≤ (deg2 b a : ℚ) * ((deg2 b a : ℚ) - 1) := by
    intro a
    rcases Nat.eq_zero_or_pos (deg2 b a) with e | e
    · rw [e]; simp
    · have : (1 : ℚ) ≤ deg2 b a := by exact_mod_cast e
      exact mul_nonneg (by linarith) (by linarith)
  have hpos2 : 0 < ∑ a ∈ range b.n2, (deg2 b a : ℚ) * ((deg2 b a : ℚ) - 1) :=
    sum_pos' (fun a _ => hterm a) ⟨a0, mem_range.2 ha0, mul_pos (by linarith) (by linarith)⟩
  unfold ModularityBipart
  simp only [Option.bind_eq_bind]
  simp only [hs]
  simp only [deg2_eq h, foldl_range, hS, hm, Option.bind_some]
  rw [pairLoop_eq (F := fun i j => ((common b i j).card : ℚ) / (∑ a ∈ range b.n2, (deg2 b a : ℚ) * ((deg2 b a : ℚ) - 1))
      - (deg1 b i : ℚ) * deg1 b j / (∑ a ∈ range b.n2, (deg2 b a : ℚ)) ^ 2)]
  · simp only [Option.bind_some]
    have := parts_sum (F := fun i j => ((common b i j).card : ℚ) / (∑ a ∈ range b.n2, (deg2 b a : ℚ) * ((deg2 b a : ℚ) - 1))
      - (deg1 b i : ℚ) * deg1 b j / (∑ a ∈ range b.n2, (deg2 b a : ℚ)) ^ 2)
      (fun i j => by rw [common_symm, mul_comm (deg1 b i : ℚ)]) hp
    rw [this]
    rfl
  · intro g _ i _ j _
    unfold quot
    rw [if_neg hpos2.ne', if_neg (mul_pos hpos1 hpos1).ne', ncommon_eq h]
    simp [sq]

/-! ## Consequences -/

/-- 1 if there is a link. -/
noncomputable def lk (b : Bi) (i a : ℕ) : ℚ := by classical exact if b.Linked i a then 1 else 0

theorem deg1_lk (b : Bi) (i : ℕ) : (deg1 b i : ℚ) = ∑ a ∈ range b.n2, lk b i a := by
  classical
  unfold deg1 lk
  rw [card_filter, Nat.cast_sum]
  exact sum_congr rfl fun a _ => by split_ifs <;> simp

theorem deg2_lk (b : Bi) (a : ℕ) : (deg2 b a : ℚ) = ∑ i ∈ range b.n1, lk b i a := by
  classical
  unfold deg2 lk
  rw [card_filter, Nat.cast_sum]
  exact sum_congr rfl fun a _ => by split_ifs <;> simp

theorem links_count (b : Bi) : ∑ i ∈ range b.n1, (deg1 b i : ℚ) = ∑ a ∈ range b.n2, (deg2 b a : ℚ) := by
  simp only [deg1_lk, deg2_lk]
  rw [sum_comm]

theorem common_card (b : Bi) (i j : ℕ) : ((common b i j).card : ℚ) = ∑ a ∈ range b.n2, lk b i a * lk b j a := by
  classical
  unfold common lk
  rw [card_filter, Nat.cast_sum]
  apply sum_congr rfl
  intro a _
  have e : ∀ i, (∃ x ∈ b.neig1 i, x.1 = a) ↔ b.Linked i a := by
    intro i
    rw [linked_map, List.mem_map]
  simp only [e]
  by_cases h1 : b.Linked i a <;> by_cases h2 : b.Linked j a <;> simp [h1, h2]

theorem common_total (b : Bi) : ∑ i ∈ range b.n1, ∑ j ∈ range b.n1, (if i ≠ j then ((common b i j).card : ℚ) else 0) =
    ∑ a ∈ range b.n2, (deg2 b a : ℚ) * ((deg2 b a : ℚ) - 1) := by
  have h1 : ∀ i j, (if i ≠ j then ((common b i j).card : ℚ) else 0) =
      ∑ a ∈ range b.n2, (lk b i a * lk b j a - (if i = j then lk b i a else 0)) := by
    intro i j
    by_cases e : i = j
    · subst e
      rw [if_neg (by simp)]
      symm
      apply sum_eq_zero
      intro a _
      classical
      unfold lk
      by_cases hl : b.Linked i a <;> simp [hl]
    · rw [if_pos e, common_card]
      apply sum_congr rfl
      intro a _
      rw [if_neg e, sub_zero]
  simp only [h1]
  rw [sum_congr rfl fun i _ => sum_comm, sum_comm]
  apply sum_congr rfl
  intro a _
  simp only [sum_sub_distrib, ← mul_sum, ← sum_mul]
  have h3 : ∑ i ∈ range b.n1, ∑ j ∈ range b.n1, (if i = j then lk b i a else 0) = deg2 b a := by
    rw [deg2_lk]
    apply sum_congr rfl
    intro i hi
    rw [sum_ite_eq, if_pos hi]
  rw [h3, ← deg2_lk]; ring

theorem pairSum_mono {n : ℕ} {part : List (List ℕ)} {F G : ℕ → ℕ → ℚ} (h : ∀ i j, F i j ≤ G i j) :
    pairSum n part F ≤ pairSum n part G := by
  classical
  unfold pairSum
  apply sum_le_sum; intro i _
  apply sum_le_sum; intro j _
  split_ifs
  · exact h i j
  · exact le_refl _

theorem pairSum_le_all {n : ℕ} {part : List (List ℕ)} {F : ℕ → ℕ → ℚ} (h : ∀ i j, 0 ≤ F i j) :
    pairSum n part F ≤ ∑ i ∈ range n, ∑ j ∈ range n, if i ≠ j then F i j else 0 := by
  classical
  unfold pairSum
  apply sum_le_sum; intro i _
  apply sum_le_sum; intro j _
  by_cases h1 : i ≠ j
  · by_cases h2 : together part i j
    · simp [h1, h2]
    · simp only [h1, h2, and_false, if_false]; simp [h1, h i j]
  · simp [h1]

theorem pairSum_sub {n : ℕ} {part : List (List ℕ)} {F G : ℕ → ℕ → ℚ} :
    pairSum n part (fun i j => F i j - G i j) = pairSum n part F - pairSum n part G := by
  classical
  unfold pairSum
  rw [← sum_sub_distrib]
  apply sum_congr rfl; intro i _
  rw [← sum_sub_distrib]
  apply sum_congr rfl; intro j _
  split_ifs <;> simp

theorem den_nonneg (b : Bi) : 0 ≤ ∑ a ∈ range b.n2, (deg2 b a : ℚ) * ((deg2 b a : ℚ) - 1) := by
  apply sum_nonneg
  intro a _
  rcases Nat.eq_zero_or_pos (deg2 b a) with e | e
  · rw [e]; simp
  · have : (1 : ℚ) ≤ deg2 b a := by exact_mod_cast e
    exact mul_nonneg (by linarith) (by linarith)

theorem degrees_total (b : Bi) : ∑ i ∈ range b.n1, ∑ j ∈ range b.n1, (if i ≠ j then (deg1 b i : ℚ) * deg1 b j else 0) =
    (∑ a ∈ range b.n2, (deg2 b a : ℚ)) ^ 2 - ∑ i ∈ range b.n1, (deg1 b i : ℚ) ^ 2 := by
  have h1 : ∀ i j, (if i ≠ j then (deg1 b i : ℚ) * deg1 b j else 0) =
      (deg1 b i : ℚ) * deg1 b j - if i = j then (deg1 b i : ℚ) ^ 2 else 0 := by
    intro i j
    by_cases e : i = j
    · subst e; simp [sq]
    · simp [e]
  simp only [h1, sum_sub_distrib]
  congr 1
  · simp only [← mul_sum, ← sum_mul, links_count]
    ring
  · apply sum_congr rfl
    intro i hi
    rw [sum_ite_eq, if_pos hi]

theorem div_total {n : ℕ} (F : ℕ → ℕ → ℚ) (D : ℚ) : ∑ i ∈ range n, ∑ j ∈ range n, (if i ≠ j then F i j / D else 0) =
    (∑ i ∈ range n, ∑ j ∈ range n, if i ≠ j then F i j else 0) / D := by
  simp only [sum_div]
  apply sum_congr rfl; intro i _
  apply sum_congr rfl; intro j _
  split_ifs <;> simp

/-- **C60**: the modularity is between -1 and 1. -/
theorem C60_bounds (b : Bi) (part : List (List ℕ)) : -1 ≤ biMod b part ∧ biMod b part ≤ 1 := by
  have hc : ∀ i j, 0 ≤ ((common b i j).card : ℚ) / (∑ a ∈ range b.n2, (deg2 b a : ℚ) * ((deg2 b a : ℚ) - 1)) :=
    fun i j => div_nonneg (by positivity) (den_nonneg b)
  have hk : ∀ i j, 0 ≤ (deg1 b i : ℚ) * deg1 b j / (∑ a ∈ range b.n2, (deg2 b a : ℚ)) ^ 2 := fun i j => by positivity
  have h0 : ∀ {F : ℕ → ℕ → ℚ}, (∀ i j, 0 ≤ F i j) → 0 ≤ pairSum b.n1 part F := by
    intro F hF
    classical
    unfold pairSum
    apply sum_nonneg; intro i _
    apply sum_nonneg; intro j _
    split_ifs
    · exact hF i j
    · exact le_refl _
  have h1 := pairSum_le_all (n := b.n1) (part := part) hc
  have h2 := pairSum_le_all (n := b.n1) (part := part) hk
  rw [div_total, common_total] at h1
  rw [div_total, degrees_total] at h2
  have h3 := h0 hc
  have h4 := h0 hk
  have h5 := div_self_le_one (∑ a ∈ range b.n2, (deg2 b a : ℚ) * ((deg2 b a : ℚ) - 1))
  have h6 : ((∑ a ∈ range b.n2, (deg2 b a : ℚ)) ^ 2 - ∑ i ∈ range b.n1, (deg1 b i : ℚ) ^ 2) / (∑ a ∈ range b.n2, (deg2 b a : ℚ)) ^ 2
      ≤ 1 := by
    rw [sub_div]
    have := div_self_le_one ((∑ a ∈ range b.n2, (deg2 b a : ℚ)) ^ 2)
    have h7 : 0 ≤ (∑ i ∈ range b.n1, (deg1 b i : ℚ) ^ 2) / (∑ a ∈ range b.n2, (deg2 b a : ℚ)) ^ 2 := by positivity
    linarith
  unfold biMod
  rw [pairSum_sub]
  constructor <;> linarith

/-- **C60**: all nodes in one group. Other than for one-mode networks the value is not zero. -/
theorem C60_one_group {g : List ℕ} (hg : g.Perm (List.range b.n1)) (hd : ∃ a < b.n2, 2 ≤ deg2 b a) :
    biMod b [g] = (∑ i ∈ range b.n1, (deg1 b i : ℚ) ^ 2) / (∑ i ∈ range b.n1, (deg1 b i : ℚ)) ^ 2 := by
  classical
  have hall : ∀ F : ℕ → ℕ → ℚ, pairSum b.n1 [g] F = ∑ i ∈ range b.n1, ∑ j ∈ range b.n1, if i ≠ j then F i j else 0 := by
    intro F
    unfold pairSum
    apply sum_congr rfl; intro i hi
    apply sum_congr rfl; intro j hj
    have : together [g] i j := ⟨g, by simp, hg.mem_iff.2 (by simpa using hi), hg.mem_iff.2 (by simpa using hj)⟩
    simp [this]
  obtain ⟨a0, ha0, hd0⟩ := hd
  have hd1 : (2 : ℚ) ≤ deg2 b a0 := by exact_mod_cast hd0
  have hpos1 : 0 < ∑ a ∈ range b.n2, (deg2 b a : ℚ) :=
    sum_pos' (fun a _ => by positivity) ⟨a0, mem_range.2 ha0, by linarith⟩
  have hterm : ∀ a, (0 : ℚ) ≤ (deg2 b a : ℚ) * ((deg2 b a : ℚ) - 1) := by
    intro a
    rcases Nat.eq_zero_or_pos (deg2 b a) with e | e
    · rw [e]; simp
    · have : (1 : ℚ) ≤ deg2 b a := by exact_mod_cast e
      exact mul_nonneg (by linarith) (by linarith)
  have hpos2 : 0 < ∑ a ∈ range b.n2, (deg2 b a : ℚ) * ((deg2 b a : ℚ) - 1) :=
    sum_pos' (fun a _ => hterm a) ⟨a0, mem_range.2 ha0, mul_pos (by linarith) (by linarith)⟩
  unfold biMod
  rw [pairSum_sub, hall, hall, div_total, div_total, common_total, degrees_total, div_self hpos2.ne', sub_div,
    div_self (by positivity), links_count]
  ring

/-- **C60**: every node in its own group. -/
theorem C60_singletons (b : Bi) : biMod b ((List.range b.n1).map fun i => [i]) = 0 := by
  classical
  unfold biMod pairSum
  apply sum_eq_zero; intro i _
  apply sum_eq_zero; intro j _
  rw [if_neg]
  rintro ⟨h1, g, hg, h2, h3⟩
  obtain ⟨k, _, rfl⟩ := List.mem_map.1 hg
  simp at h2 h3
  omega

/-! ## Weights -/

/-- What the code computes for weights: the number of pairs of members of a group of the second set is replaced by
`W² - W`. -/
noncomputable def biModW (b : Bi) (part : List (List ℕ)) : ℚ :=
  let W := fun a => ∑ i ∈ range b.n1, b.wt i a
  let s := fun i => ∑ a ∈ range b.n2, b.wt i a
  pairSum b.n1 part fun i j =>
    (∑ a ∈ range b.n2, b.wt i a * b.wt j a) / (∑ a ∈ range b.n2, W a * (W a - 1)) - s i * s j / (∑ a ∈ range b.n2, W a) ^ 2

theorem strength_lw {m : ℕ} {l : List (ℕ × ℚ)} (h : (l.map (·.1)).Nodup) (hr : ∀ x ∈ l, x.1 < m) :
    strength l = ∑ a ∈ range m, lw l a := by
  have := outer_sum (m := m) (fun _ => 1) l 0 h hr
  simp only [mul_one, zero_add] at this
  exact this

theorem lw_mem {a : ℕ} {w : ℚ} : ∀ {l : List (ℕ × ℚ)}, (l.map (·.1)).Nodup → (a, w) ∈ l → lw l a = w
  | [], _, h => by simp at h
  | x :: l, hn, h => by
    rw [List.map_cons, List.nodup_cons] at hn
    rw [lw_cons]
    rcases List.mem_cons.1 h with rfl | h
    · simp
    · rw [if_neg, lw_mem hn.2 h]
      rintro rfl
      exact hn.1 (List.mem_map.2 ⟨_, h, rfl⟩)

theorem wt_neig2 (h : b.OK) (i a : ℕ) : lw (b.neig2 a) i = b.wt i a := by
  by_cases hl : b.Linked i a
  · obtain ⟨w, hw⟩ := hl
    rw [lw_mem (h.nodup2 a) ((h.sym i a w).1 hw)]
    exact (lw_mem (h.nodup1 i) hw).symm
  · rw [lw_not_mem fun hh => hl ((linked_map2 h).2 hh)]
    exact (lw_not_mem fun hh => hl (linked_map.2 hh)).symm

/-- **C63**: `ModularityBipartWeighted` computes `biModW`. -/
theorem C63_weighted_partial (h : b.OK) {part : List (List ℕ)} (hp : PartOK b.n1 part)
    (h1 : ∑ a ∈ range b.n2, (∑ i ∈ range b.n1, b.wt i a) ≠ 0)
    (h2 : ∑ a ∈ range b.n2, (∑ i ∈ range b.n1, b.wt i a) * ((∑ i ∈ range b.n1, b.wt i a) - 1) ≠ 0) :
    ModularityBipartWeighted b part = some (biModW b part) := by
  have hW : ∀ a, strength (b.neig2 a) = ∑ i ∈ range b.n1, b.wt i a := by
    intro a
    rw [strength_lw (h.nodup2 a) (h.range2 a)]
    exact sum_congr rfl fun i _ => wt_neig2 h i a
  have hs : ∀ i, strength (b.neig1 i) = ∑ a ∈ range b.n2, b.wt i a := fun i => strength_lw (h.nodup1 i) (h.range1 i)
  have hS : ∑ a ∈ range b.n2, (∑ i ∈ range b.n1, b.wt i a) * (∑ i ∈ range b.n1, b.wt i a)
      - ∑ a ∈ range b.n2, (∑ i ∈ range b.n1, b.wt i a) =
      ∑ a ∈ range b.n2, (∑ i ∈ range b.n1, b.wt i a) * ((∑ i ∈ range b.n1, b.wt i a) - 1) := by
    rw [← sum_sub_distrib]
    exact sum_congr rfl fun a _ => by ring
  unfold ModularityBipartWeighted
  simp only [Option.bind_eq_bind]
  simp only [hW, hs, foldl_range, hS]
  rw [pairLoop_eq (F := fun i j => (∑ a ∈ range b.n2, b.wt i a * b.wt j a) /
      (∑ a ∈ range b.n2, (∑ i ∈ range b.n1, b.wt i a) * ((∑ i ∈ range b.n1, b.wt i a) - 1)) -
      (∑ a ∈ range b.n2, b.wt i a) * (∑ a ∈ range b.n2, b.wt j a) / (∑ a ∈ range b.n2, ∑ i ∈ range b.n1, b.wt i a) ^ 2)]
  · simp only [Option.bind_some]
    have := parts_sum (F := fun i j => (∑ a ∈ range b.n2, b.wt i a * b.wt j a) /
      (∑ a ∈ range b.n2, (∑ i ∈ range b.n1, b.wt i a) * ((∑ i ∈ range b.n1, b.wt i a) - 1)) -
      (∑ a ∈ range b.n2, b.wt i a) * (∑ a ∈ range b.n2, b.wt j a) / (∑ a ∈ range b.n2, ∑ i ∈ range b.n1, b.wt i a) ^ 2)
      (fun i j => by
        rw [mul_comm (∑ a ∈ range b.n2, b.wt i a), sum_congr rfl fun a _ => mul_comm (b.wt i a) (b.wt j a)]) hp
    rw [this]
    rfl
  · intro g _ i _ j _
    unfold quot
    rw [if_neg h2, if_neg (mul_self_ne_zero.2 h1), overlap_eq h]
    simp [sq, overlap]

/-- **C63**: if all weights are one, it is the bipartite modularity. -/
theorem C63_unit_weights (h : b.OK) (hw : ∀ i, ∀ x ∈ b.neig1 i, x.2 = 1) (part : List (List ℕ)) : biModW b part = biMod b part := by
  have e : ∀ i a, b.wt i a = lk b i a := by
    intro i a
    classical
    unfold lk
    by_cases hl : b.Linked i a
    · obtain ⟨w, hm⟩ := hl
      rw [if_pos ⟨w, hm⟩]
      have : b.wt i a = w := lw_mem (h.nodup1 i) hm
      rw [this]
      exact hw i _ hm
    · rw [if_neg hl]
      exact lw_not_mem fun hh => hl (linked_map.2 hh)
  unfold biModW biMod
  simp only [e, common_card, deg1_lk, deg2_lk]

/-! ## Examples and counterexamples -/

/-- One team of two, the weights less than one. -/
def duo : Bi :=
  ⟨2, 1, fun i => if i < 2 then [(0, 3/5)] else [], fun j => if j = 0 then [(0, 3/5), (1, 3/5)] else []⟩

/-- One team of two, the weights one half. -/
def half : Bi :=
  ⟨2, 1, fun i => if i < 2 then [(0, 1/2)] else [], fun j => if j = 0 then [(0, 1/2), (1, 1/2)] else []⟩

theorem pairOK {w : ℚ} : (⟨2, 1, fun i => if i < 2 then [(0, w)] else [], fun j => if j = 0 then [(0, w), (1, w)] else []⟩ : Bi).OK := by
  refine ⟨?_, ?_, ?_, ?_, ?_⟩
  · intro i; dsimp only; split_ifs <;> simp
  · intro i; dsimp only; split_ifs <;> simp
  · intro i x; dsimp only; split_ifs <;> simp; rintro rfl; simp
  · intro i x; dsimp only; split_ifs <;> simp; rintro (rfl | rfl) <;> simp
  · intro i j v
    dsimp only
    by_cases h1 : i < 2 <;> by_cases h2 : j = 0 <;> simp [h1, h2]
    · rcases (by omega : i = 0 ∨ i = 1) with rfl | rfl <;> simp
    · constructor <;> intro h3 <;> omega

/-- **C63**: with weights other than one the value is not normalised. Two nodes in one group of the second set get 5/2, and if the weights are one half
the code divides by zero. -/
theorem C63_not_normalised : duo.OK ∧ ModularityBipartWeighted duo [[0, 1]] = some (5/2) ∧
    half.OK ∧ ModularityBipartWeighted half [[0, 1]] = none :=
  ⟨pairOK, by decide +kernel, pairOK, by decide +kernel⟩

/-- Four persons in three teams, partition `{0, 1}`, `{2, 3}`. -/
def teams : Bi :=
  ⟨4, 3, fun i => match i with | 0 => [(0, 1), (2, 1)] | 1 => [(0, 1)] | 2 => [(1, 1), (2, 1)] | 3 => [(1, 1)] | _ => [],
    fun j => match j with | 0 => [(0, 1), (1, 1)] | 1 => [(2, 1), (3, 1)] | 2 => [(0, 1), (2, 1)] | _ => []⟩

example : ModularityBipart teams [[0, 1], [3, 2]] = some (4/9) ∧ ModularityBipart teams [[0, 1, 2, 3]] = some (10/36) ∧
    ModularityBipart teams [[0], [1], [2], [3]] = some 0 ∧ ModularityBipartWeighted teams [[0, 1], [3, 2]] = some (4/9) := by
  decide +kernel

/-- A hub: the product of degrees does not fit an `int`. -/
theorem C60_overflow {b : Bi} {i j : ℕ} (h : 2147483647 < (b.neig1 i).length * (b.neig1 j).length) :
    ModularityBipart b [[i, j]] = none := by
  unfold ModularityBipart pairLoop imul
  simp [upper, not_le.2 h]

end BP
