import Verif.Bipart.Spec
import Verif.Group.Split
import Mathlib.Algebra.BigOperators.Intervals
import Mathlib.Algebra.Order.BigOperators.Group.Finset

/-! # Lists of neighbours -/

set_option linter.unusedSimpArgs false

namespace BP

open RG Finset

variable {b : Bi}

theorem isThere_iff {l : List (ℕ × ℚ)} {j : ℕ} : isThere l j = true ↔ ∃ w, (j, w) ∈ l := by
  unfold isThere
  rw [List.any_eq_true]
  constructor
  · rintro ⟨⟨a, w⟩, hm, he⟩
    have : a = j := by simpa using he
    subst this
    exact ⟨w, hm⟩
  · rintro ⟨w, hm⟩; exact ⟨_, hm, by simp⟩

theorem isThere_map {l : List (ℕ × ℚ)} {j : ℕ} : isThere l j = true ↔ j ∈ l.map (·.1) := by
  rw [isThere_iff, List.mem_map]
  constructor
  · rintro ⟨w, h⟩; exact ⟨_, h, rfl⟩
  · rintro ⟨⟨a, w⟩, h, rfl⟩; exact ⟨w, h⟩

theorem addAdj_new {l : List (ℕ × ℚ)} {j : ℕ} (w : ℚ) (h : j ∉ l.map (·.1)) : addAdj l j w = l ++ [(j, w)] := by
  unfold addAdj
  rw [if_neg]
  intro hh
  exact h (isThere_map.1 hh)

/-- Removing from a list without repetitions. -/
theorem remAdj_eq : ∀ {l : List (ℕ × ℚ)} {j : ℕ}, (l.map (·.1)).Nodup → j ∈ l.map (·.1) →
    remAdj l j = some (l.filter fun x => x.1 ≠ j)
  | [], j, _, h => by simp at h
  | x :: l, j, hnd, h => by
    rw [List.map_cons, List.nodup_cons] at hnd
    unfold remAdj
    by_cases e : x.1 = j
    · rw [if_pos e, List.filter_cons_of_neg (by simpa using e)]
      congr 1
      symm
      apply List.filter_eq_self.2
      intro y hy
      simp only [ne_eq, decide_not, Bool.not_eq_true', decide_eq_false_iff_not]
      intro h2
      exact hnd.1 (List.mem_map.2 ⟨y, hy, by rw [h2, e]⟩)
    · rw [if_neg e, List.filter_cons_of_pos (by simpa using e)]
      rw [List.map_cons, List.mem_cons] at h
      rw [remAdj_eq hnd.2 (h.resolve_left fun h => e h.symm)]
      rfl

theorem remAdj_length : ∀ {l l' : List (ℕ × ℚ)} {j : ℕ}, remAdj l j = some l' → l'.length + 1 = l.length
  | [], l', j, h => by simp [remAdj] at h
  | x :: l, l', j, h => by
    unfold remAdj at h
    by_cases e : x.1 = j
    · rw [if_pos e] at h
      rw [Option.some.inj h]; rfl
    · rw [if_neg e] at h
      cases hr : remAdj l j with
      | none => rw [hr] at h; simp at h
      | some l2 =>
        rw [hr] at h
        have := Option.some.inj h
        rw [← this, List.length_cons, List.length_cons, remAdj_length hr]

theorem swap_ok (h : b.OK) : b.swap.OK :=
  ⟨h.nodup2, h.nodup1, h.range2, h.range1, fun i j w => (h.sym j i w).symm⟩

theorem linked_map {i j : ℕ} : b.Linked i j ↔ j ∈ (b.neig1 i).map (·.1) := by
  unfold Bi.Linked
  rw [← isThere_iff, isThere_map]

theorem linked_map2 (h : b.OK) {i j : ℕ} : b.Linked i j ↔ i ∈ (b.neig2 j).map (·.1) := by
  unfold Bi.Linked
  simp only [h.sym]
  rw [← isThere_iff, isThere_map]

theorem linked_range (h : b.OK) {i j : ℕ} (hl : b.Linked i j) : i < b.n1 ∧ j < b.n2 := by
  obtain ⟨w, hw⟩ := hl
  exact ⟨h.range2 j _ ((h.sym i j w).1 hw), h.range1 i _ hw⟩

theorem weight_unique (h : b.OK) {i j : ℕ} {w w' : ℚ} (h1 : (j, w) ∈ b.neig1 i) (h2 : (j, w') ∈ b.neig1 i) : w = w' := by
  have := List.inj_on_of_nodup_map (h.nodup1 i) h1 h2 rfl
  exact (Prod.mk.inj this).2

/-- Network without one link. -/
def without (b : Bi) (i j : ℕ) : Bi :=
  ⟨b.n1, b.n2, Function.update b.neig1 i ((b.neig1 i).filter fun x => x.1 ≠ j),
    Function.update b.neig2 j ((b.neig2 j).filter fun x => x.1 ≠ i)⟩

theorem without_mem1 {i j a c : ℕ} {w : ℚ} : (c, w) ∈ (without b i j).neig1 a ↔ (c, w) ∈ b.neig1 a ∧ ¬ (a = i ∧ c = j) := by
  unfold without
  dsimp only
  by_cases e : a = i
  · subst e
    rw [Function.update_self]
    simp
  · rw [Function.update_of_ne e]
    simp [e]

theorem without_mem2 {i j a c : ℕ} {w : ℚ} : (a, w) ∈ (without b i j).neig2 c ↔ (a, w) ∈ b.neig2 c ∧ ¬ (a = i ∧ c = j) := by
  unfold without
  dsimp only
  by_cases e : c = j
  · subst e
    rw [Function.update_self]
    simp
  · rw [Function.update_of_ne e]
    simp [e]

theorem without_sub1 (i j a : ℕ) : List.Sublist ((without b i j).neig1 a) (b.neig1 a) := by
  unfold without
  dsimp only
  by_cases e : a = i
  · subst e
    rw [Function.update_self]; exact List.filter_sublist
  · rw [Function.update_of_ne e]

theorem without_sub2 (i j a : ℕ) : List.Sublist ((without b i j).neig2 a) (b.neig2 a) := by
  unfold without
  dsimp only
  by_cases e : a = j
  · subst e
    rw [Function.update_self]; exact List.filter_sublist
  · rw [Function.update_of_ne e]

theorem without_ok (h : b.OK) (i j : ℕ) : (without b i j).OK where
  nodup1 a := (h.nodup1 a).sublist ((without_sub1 i j a).map _)
  nodup2 a := (h.nodup2 a).sublist ((without_sub2 i j a).map _)
  range1 a x hx := h.range1 a x ((without_sub1 i j a).subset hx)
  range2 a x hx := h.range2 a x ((without_sub2 i j a).subset hx)
  sym a c w := by rw [without_mem1, without_mem2, h.sym]

theorem remove_eq (h : b.OK) {i j : ℕ} (hl : b.Linked i j) : RemoveLink b i j = some (without b i j) := by
  unfold RemoveLink
  rw [remAdj_eq (h.nodup1 i) (linked_map.1 hl), remAdj_eq (h.nodup2 j) ((linked_map2 h).1 hl)]
  rfl

/-- Network with one more link. -/
def withLink (b : Bi) (i j : ℕ) (w : ℚ) : Bi :=
  ⟨b.n1, b.n2, Function.update b.neig1 i (b.neig1 i ++ [(j, w)]), Function.update b.neig2 j (b.neig2 j ++ [(i, w)])⟩

theorem addLink_eq (h : b.OK) {i j : ℕ} (w : ℚ) (hl : ¬ b.Linked i j) : addLink b i j w = withLink b i j w := by
  unfold addLink withLink
  rw [addAdj_new w fun hh => hl (linked_map.2 hh), addAdj_new w fun hh => hl ((linked_map2 h).2 hh)]

theorem withLink_mem1 {i j a c : ℕ} {w w' : ℚ} : (c, w') ∈ (withLink b i j w).neig1 a ↔
    (c, w') ∈ b.neig1 a ∨ (a = i ∧ c = j ∧ w' = w) := by
  unfold withLink
  dsimp only
  by_cases e : a = i
  · subst e
    rw [Function.update_self]
    simp
  · rw [Function.update_of_ne e]
    simp [e]

theorem withLink_mem2 {i j a c : ℕ} {w w' : ℚ} : (a, w') ∈ (withLink b i j w).neig2 c ↔
    (a, w') ∈ b.neig2 c ∨ (a = i ∧ c = j ∧ w' = w) := by
  unfold withLink
  dsimp only
  by_cases e : c = j
  · subst e
    rw [Function.update_self]
    simp
  · rw [Function.update_of_ne e]
    simp [e]

theorem withLink_ok (h : b.OK) {i j : ℕ} (hi : i < b.n1) (hj : j < b.n2) (w : ℚ) (hl : ¬ b.Linked i j) :
    (withLink b i j w).OK where
  nodup1 a := by
    unfold withLink
    dsimp only
    by_cases e : a = i
    · subst e
      rw [Function.update_self, List.map_append, List.nodup_append]
      refine ⟨h.nodup1 a, by simp, ?_⟩
      intro x hx y hy
      simp only [List.map_cons, List.map_nil, List.mem_singleton] at hy
      subst hy
      rintro rfl
      exact hl (linked_map.2 hx)
    · rw [Function.update_of_ne e]; exact h.nodup1 a
  nodup2 a := by
    unfold withLink
    dsimp only
    by_cases e : a = j
    · subst e
      rw [Function.update_self, List.map_append, List.nodup_append]
      refine ⟨h.nodup2 a, by simp, ?_⟩
      intro x hx y hy
      simp only [List.map_cons, List.map_nil, List.mem_singleton] at hy
      subst hy
      rintro rfl
      exact hl ((linked_map2 h).2 hx)
    · rw [Function.update_of_ne e]; exact h.nodup2 a
  range1 a x hx := by
    obtain ⟨c, w'⟩ := x
    rcases withLink_mem1.1 hx with hx | ⟨_, rfl, _⟩
    · exact h.range1 a _ hx
    · exact hj
  range2 a x hx := by
    obtain ⟨c, w'⟩ := x
    rcases withLink_mem2.1 hx with hx | ⟨rfl, _, _⟩
    · exact h.range2 a _ hx
    · exact hi
  sym a c w' := by rw [withLink_mem1, withLink_mem2, h.sym]

theorem withLink_linked {i j a c : ℕ} {w : ℚ} : (withLink b i j w).Linked a c ↔ b.Linked a c ∨ (a = i ∧ c = j) := by
  unfold Bi.Linked
  simp only [withLink_mem1]
  constructor
  · rintro ⟨w', h | h⟩
    · exact Or.inl ⟨w', h⟩
    · exact Or.inr ⟨h.1, h.2.1⟩
  · rintro (⟨w', h⟩ | h)
    · exact ⟨w', Or.inl h⟩
    · exact ⟨w, Or.inr ⟨h.1, h.2, rfl⟩⟩

theorem without_linked {i j a c : ℕ} : (without b i j).Linked a c ↔ b.Linked a c ∧ ¬ (a = i ∧ c = j) := by
  unfold Bi.Linked
  simp only [without_mem1]
  constructor
  · rintro ⟨w, h⟩; exact ⟨⟨w, h.1⟩, h.2⟩
  · rintro ⟨⟨w, h⟩, h2⟩; exact ⟨w, h, h2⟩

end BP
