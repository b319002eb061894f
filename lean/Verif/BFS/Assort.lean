import Verif.BFS.CorrSpec
import Mathlib.Algebra.Order.Field.Basic
import Mathlib.Tactic.Linarith
import Mathlib.Tactic.Ring
import Mathlib.Tactic.FieldSimp

/-!
# C76, C77: assortativity and degrees of neighbours
-/

set_option linter.unusedSimpArgs false

namespace BFS

variable {adj : ℕ → List ℕ} {n : ℕ}

theorem i32_some {k : ℕ} (h : k ≤ 2147483647) : i32 k = some k := if_pos h
theorem i32_none {k : ℕ} (h : ¬ k ≤ 2147483647) : i32 k = none := if_neg h

theorem i32_iff {k m : ℕ} : i32 k = some m ↔ k ≤ 2147483647 ∧ k = m := by
  unfold i32
  split_ifs with h <;> simp [h]

theorem addAll_eq : ∀ (l : List ℕ) (s : ℕ), s ≤ 2147483647 →
    addAll l s = i32 (s + l.sum)
  | [], s, h => by simp [addAll, i32_some h]
  | v :: vs, s, h => by
    unfold addAll
    by_cases hv : s + v ≤ 2147483647
    · rw [i32_some (by omega : v ≤ _)]
      simp only [Option.bind_eq_bind, Option.bind_some]
      rw [i32_some hv]
      simp only [Option.bind_some]
      rw [addAll_eq vs _ hv, List.sum_cons, Nat.add_assoc]
    · rw [i32_none (k := s + (v :: vs).sum) (by simp; omega)]
      by_cases hv' : v ≤ 2147483647
      · rw [i32_some hv']; simp only [Option.bind_eq_bind, Option.bind_some]; rw [i32_none hv]; rfl
      · rw [i32_none hv']; rfl

/-- What one link adds. -/
def AS.plus (a b : AS) : AS := ⟨a.jk + b.jk, a.jpk + b.jpk, a.j2pk2 + b.j2pk2⟩

/-- The sums so far are in order. -/
def AS.Fine (a : AS) : Prop := 2 * a.jk ≤ a.j2pk2 ∧ a.jpk ≤ a.j2pk2

def AS.cap (a : AS) : Option AS := if a.j2pk2 ≤ 2147483647 then some a else none

/-- The contribution of one link. -/
def AS.one (dp dq : ℕ) : AS := ⟨dp * dq, dp + dq, dp * dp + dq * dq⟩

theorem AS.one_fine (dp dq : ℕ) : (AS.one dp dq).Fine := by
  constructor
  · show 2 * (dp * dq) ≤ dp * dp + dq * dq
    zify
    nlinarith [sq_nonneg ((dp : ℤ) - dq)]
  · show dp + dq ≤ dp * dp + dq * dq
    have h1 : dp ≤ dp * dp := Nat.le_mul_self dp
    have h2 : dq ≤ dq * dq := Nat.le_mul_self dq
    omega

theorem AS.plus_fine {a b : AS} (ha : a.Fine) (hb : b.Fine) : (a.plus b).Fine := by
  unfold AS.Fine AS.plus at *
  simp only
  omega

theorem assortLink_eq (dp dq : ℕ) {a : AS} (h : a.Fine) :
    assortLink dp dq a = (a.plus (AS.one dp dq)).cap := by
  have h1 : 2 * (dp * dq) ≤ dp * dp + dq * dq ∧ dp + dq ≤ dp * dp + dq * dq := AS.one_fine dp dq
  unfold AS.Fine at h
  unfold assortLink AS.cap AS.plus AS.one
  simp only
  generalize dp * dq = x at *
  generalize dp * dp = u at *
  generalize dq * dq = v at *
  simp only [Option.bind_eq_bind]
  by_cases hc : a.j2pk2 + (u + v) ≤ 2147483647
  · rw [if_pos hc, i32_some (by omega)]; simp only [Option.bind_some]
    rw [i32_some (by omega)]; simp only [Option.bind_some]
    rw [i32_some (by omega)]; simp only [Option.bind_some]
    rw [i32_some (by omega)]; simp only [Option.bind_some]
    rw [i32_some (by omega)]; simp only [Option.bind_some]
    rw [i32_some (by omega)]; simp only [Option.bind_some]
    rw [i32_some (by omega)]; simp only [Option.bind_some]
    rw [i32_some hc]; simp
  · rw [if_neg hc, Option.eq_none_iff_forall_ne_some]
    intro b hb
    simp only [Option.bind_eq_some_iff, i32_iff] at hb
    obtain ⟨_, ⟨_, rfl⟩, _, ⟨_, rfl⟩, _, ⟨_, rfl⟩, _, ⟨_, rfl⟩, _, ⟨_, rfl⟩, _, ⟨_, rfl⟩, _, ⟨_, rfl⟩, _,
      ⟨h8, rfl⟩, _⟩ := hb
    exact hc h8

/-- The sum of contributions. -/
def AS.total (adj : ℕ → List ℕ) (l : List (ℕ × ℕ)) : AS :=
  ⟨(l.map fun x => (adj x.1).length * (adj x.2).length).sum,
   (l.map fun x => (adj x.1).length + (adj x.2).length).sum,
   (l.map fun x => (adj x.1).length * (adj x.1).length + (adj x.2).length * (adj x.2).length).sum⟩

theorem assortRow_eq (p : ℕ) : ∀ (l : List ℕ) (a : AS), a.Fine → a.j2pk2 ≤ 2147483647 →
    (a.plus (AS.total adj (l.map fun q => (p, q)))).Fine ∧
    assortRow adj p l a = (a.plus (AS.total adj (l.map fun q => (p, q)))).cap
  | [], a, h, hc => by
    have : a.plus (AS.total adj []) = a := rfl
    simp only [List.map_nil, this]
    exact ⟨h, by simp [assortRow, AS.cap, hc]⟩
  | q :: qs, a, h, hc => by
    have e : a.plus (AS.total adj ((q :: qs).map fun q => (p, q))) =
        (a.plus (AS.one (adj p).length (adj q).length)).plus (AS.total adj (qs.map fun q => (p, q))) := by
      simp [AS.plus, AS.total, AS.one, Nat.add_assoc]
    have hf := AS.plus_fine h (AS.one_fine (adj p).length (adj q).length)
    unfold assortRow
    rw [assortLink_eq _ _ h, e]
    by_cases hc' : (a.plus (AS.one (adj p).length (adj q).length)).j2pk2 ≤ 2147483647
    · have := assortRow_eq p qs _ hf hc'
      refine ⟨this.1, ?_⟩
      rw [AS.cap, if_pos hc']
      exact this.2
    · rw [AS.cap, if_neg hc', AS.cap, if_neg]
      · refine ⟨?_, rfl⟩
        have key : ∀ (l : List ℕ) (b : AS), b.Fine → (b.plus (AS.total adj (l.map fun q => (p, q)))).Fine := by
          intro l
          induction l with
          | nil => intro b hb; exact hb
          | cons q l ih =>
            intro b hb
            have := ih _ (AS.plus_fine hb (AS.one_fine (adj p).length (adj q).length))
            convert this using 1
            simp [AS.plus, AS.total, AS.one, Nat.add_assoc]
        exact key qs _ hf
      · intro hle
        apply hc'
        unfold AS.plus at hle ⊢
        simp only at hle ⊢
        omega

theorem AS.total_append (l l' : List (ℕ × ℕ)) :
    AS.total adj (l ++ l') = (AS.total adj l).plus (AS.total adj l') := by
  simp [AS.total, AS.plus]

/-- The links in the order of the loops. -/
def listed (adj : ℕ → List ℕ) (ps : List ℕ) : List (ℕ × ℕ) :=
  ps.flatMap fun p => (adj p).map fun q => (p, q)

theorem assortNodes_eq : ∀ (ps : List ℕ) (a : AS), a.Fine → a.j2pk2 ≤ 2147483647 →
    assortNodes adj ps a = (a.plus (AS.total adj (listed adj ps))).cap
  | [], a, _, hc => by
    have : a.plus (AS.total adj (listed adj [])) = a := rfl
    rw [this]; simp [assortNodes, AS.cap, hc]
  | p :: ps, a, h, hc => by
    have e : a.plus (AS.total adj (listed adj (p :: ps))) =
        (a.plus (AS.total adj ((adj p).map fun q => (p, q)))).plus (AS.total adj (listed adj ps)) := by
      rw [listed, List.flatMap_cons, AS.total_append, ← listed]
      simp [AS.plus, Nat.add_assoc]
    obtain ⟨hf, hr⟩ := assortRow_eq (adj := adj) p (adj p) a h hc
    unfold assortNodes
    rw [hr, e]
    by_cases hc' : (a.plus (AS.total adj ((adj p).map fun q => (p, q)))).j2pk2 ≤ 2147483647
    · rw [AS.cap, if_pos hc']
      exact assortNodes_eq ps _ hf hc'
    · rw [AS.cap, if_neg hc', AS.cap, if_neg]
      · rfl
      · intro hle
        apply hc'
        unfold AS.plus at hle ⊢
        simp only at hle ⊢
        omega

/-! ## Sums over links -/

theorem listed_sum {R : Type} [AddCommMonoid R] (h : Undirected adj n) (f : ℕ × ℕ → R) :
    ((listed adj (List.range n)).map f).sum = ∑ x ∈ linkPairs adj n, f x := by
  have hnd : (listed adj (List.range n)).Nodup := by
    unfold listed
    rw [List.nodup_flatMap]
    refine ⟨fun p _ => (h.nodup p).map fun a b e => (Prod.mk.inj e).2, ?_⟩
    refine List.nodup_range.imp ?_
    intro a b hab x hx hx'
    obtain ⟨_, _, rfl⟩ := List.mem_map.1 hx
    obtain ⟨_, _, e⟩ := List.mem_map.1 hx'
    exact hab (Prod.mk.inj e).1.symm
  rw [← List.sum_toFinset _ hnd]
  apply Finset.sum_congr _ fun _ _ => rfl
  ext ⟨a, b⟩
  simp only [List.mem_toFinset, listed, List.mem_flatMap, List.mem_range, List.mem_map, linkPairs,
    Finset.mem_filter, Finset.mem_product, Finset.mem_range, Prod.mk.injEq]
  constructor
  · rintro ⟨p, hp, q, hq, rfl, rfl⟩
    exact ⟨⟨hp, h.range _ hp _ hq⟩, hq⟩
  · rintro ⟨⟨ha, _⟩, hq⟩
    exact ⟨a, ha, b, hq, rfl, rfl⟩

theorem swap_sum {R : Type} [AddCommMonoid R] (h : Undirected adj n) (f : ℕ × ℕ → R) :
    ∑ x ∈ linkPairs adj n, f x.swap = ∑ x ∈ linkPairs adj n, f x := by
  apply Finset.sum_bij (fun x _ => x.swap)
  · rintro ⟨a, b⟩ hx
    simp only [linkPairs, Finset.mem_filter, Finset.mem_product, Prod.swap] at hx ⊢
    exact ⟨⟨hx.1.2, hx.1.1⟩, h.sym _ _ hx.2⟩
  · intro a _ b _ e; exact Prod.swap_injective e
  · rintro ⟨a, b⟩ hx
    refine ⟨(b, a), ?_, rfl⟩
    simp only [linkPairs, Finset.mem_filter, Finset.mem_product] at hx ⊢
    exact ⟨⟨hx.1.2, hx.1.1⟩, h.sym _ _ hx.2⟩
  · intro _ _; rfl

/-- Sums of a function of the first end. -/
theorem first_sum {R : Type} [CommSemiring R] (h : Undirected adj n) (f : ℕ → R) :
    ∑ x ∈ linkPairs adj n, f x.1 = ∑ p ∈ Finset.range n, ((adj p).length : R) * f p := by
  rw [← listed_sum h]
  have : ∀ (l : List ℕ), ((listed adj l).map fun x => f x.1).sum =
      (l.map fun p => ((adj p).length : R) * f p).sum := by
    intro l
    induction l with
    | nil => rfl
    | cons p l ih =>
      simp only [listed, List.flatMap_cons, List.map_append, List.sum_append, List.map_cons,
        List.sum_cons] at ih ⊢
      rw [ih]
      simp [Function.comp_def, List.sum_replicate]
  rw [this, ← List.sum_toFinset _ List.nodup_range, List.toFinset_range]

end BFS
