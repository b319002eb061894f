import Verif.Graph.RandomModel
import Verif.Graph.Props
import Mathlib.Data.Sym.Sym2

set_option linter.unusedSimpArgs false

namespace GR
open RG

/-- Symmetric weights, no self links, all links between the `n` nodes. -/
structure SymSimple (n : ℕ) (g : WG) : Prop where
  sym : ∀ i j, g i j = g j i
  loop : ∀ i, g i i = none
  supp : ∀ i j, (g i j).isSome → i < n ∧ j < n

/-! ## Lemmas -/

theorem degree_set (g : WG) (n i j k : ℕ) (v : Option ℚ) (hj : j < n) :
    (g.set i j v).degree n k + (if k = i then (if (g i j).isSome then 1 else 0) else 0)
      = g.degree n k + (if k = i then (if v.isSome then 1 else 0) else 0) := by
  by_cases hk : k = i
  · subst hk
    simp only [if_true]
    have e : ∀ (f : WG), f.degree n k = ∑ b ∈ Finset.range n, if (f k b).isSome then 1 else 0 := by
      intro f; rw [WG.degree, Finset.card_filter]
    rw [e, e, ← Finset.add_sum_erase _ _ (Finset.mem_range.2 hj),
      ← Finset.add_sum_erase (Finset.range n) (fun b => if (g k b).isSome then 1 else 0)
        (Finset.mem_range.2 hj)]
    have e2 : ∑ b ∈ (Finset.range n).erase j, (if ((g.set k j v) k b).isSome then 1 else 0)
        = ∑ b ∈ (Finset.range n).erase j, (if (g k b).isSome then 1 else 0) := by
      apply Finset.sum_congr rfl
      intro b hb
      have : b ≠ j := Finset.ne_of_mem_erase hb
      simp [WG.set, this]
    rw [e2]
    simp only [WG.set, and_self, if_true]
    ring
  · simp only [hk, if_false]
    congr 1
    unfold WG.degree
    congr 1
    ext b
    simp [WG.set, hk]

/-- Result of a switch. -/
def switched (g : WG) (n1 n2 n3 n4 : ℕ) : WG :=
  (((((((g.set n1 n2 none).set n2 n1 none).set n3 n4 none).set n4 n3 none).set n1 n4 (some 1)).set
    n4 n1 (some 1)).set n3 n2 (some 1)).set n2 n3 (some 1)

structure CanSwitch (n : ℕ) (g : WG) (n1 n2 n3 n4 : ℕ) : Prop where
  l12 : (g n1 n2).isSome
  l34 : (g n3 n4).isSome
  n14 : g n1 n4 = none
  n23 : g n2 n3 = none
  d31 : n3 ≠ n1
  d32 : n3 ≠ n2
  d41 : n4 ≠ n1
  d42 : n4 ≠ n2

theorem add_new {g : WG} {i j : ℕ} (hij : i ≠ j) (h : g i j = none) :
    (g.add i j false false 1).2 = g.set i j (some 1) := by
  unfold WG.add
  rw [if_neg (fun h => hij h.1), h]

theorem switch_rep {net : Net} {g : WG} (h : Rep net g) (hs : SymSimple net.n g) {n1 n2 n3 n4 : ℕ}
    (hc : CanSwitch net.n g n1 n2 n3 n4) :
    ∃ net', switchLinks net n1 n2 n3 n4 = some net' ∧ net'.n = net.n ∧ net'.label = net.label ∧
      Rep net' (switched g n1 n2 n3 n4) := by
  have d12 : n1 ≠ n2 := by
    rintro rfl; have := hc.l12; rw [hs.loop] at this; simp at this
  have d34 : n3 ≠ n4 := by
    rintro rfl; have := hc.l34; rw [hs.loop] at this; simp at this
  obtain ⟨b1, b2⟩ := hs.supp _ _ hc.l12
  obtain ⟨b3, b4⟩ := hs.supp _ _ hc.l34
  have h21 : (g n2 n1).isSome := by rw [hs.sym]; exact hc.l12
  have h43 : (g n4 n3).isSome := by rw [hs.sym]; exact hc.l34
  have n41 : g n4 n1 = none := by rw [hs.sym]; exact hc.n14
  have n32 : g n3 n2 = none := by rw [hs.sym]; exact hc.n23
  obtain ⟨d31, d32, d41, d42⟩ := (⟨hc.d31, hc.d32, hc.d41, hc.d42⟩ : _ ∧ _ ∧ _ ∧ _)
  have nn : ∀ o : Option ℚ, o.isSome → o.isNone = false := by intro o ho; cases o <;> simp_all
  -- first removal
  have r1 := remove_rep h b1 b2 true
  have e1 : g.remove n1 n2 true = some ((g.set n1 n2 none).set n2 n1 none) := by
    unfold WG.remove
    rw [nn _ hc.l12, nn _ h21]
    simp [d12]
  rw [e1] at r1
  obtain ⟨net1, f1, m1, lab1, rep1⟩ := r1
  set g1 := (g.set n1 n2 none).set n2 n1 none with hg1
  -- second removal
  have v34 : g1 n3 n4 = g n3 n4 := by simp [hg1, WG.set, d31, d32]
  have v43 : g1 n4 n3 = g n4 n3 := by simp [hg1, WG.set, d41, d42]
  have r2 := remove_rep rep1 (i := n3) (j := n4) (by omega) (by omega) true
  have e2 : g1.remove n3 n4 true = some ((g1.set n3 n4 none).set n4 n3 none) := by
    unfold WG.remove
    rw [v34, v43, nn _ hc.l34, nn _ h43]
    simp [d34]
  rw [e2] at r2
  obtain ⟨net2, f2, m2, lab2, rep2⟩ := r2
  set g2 := (g1.set n3 n4 none).set n4 n3 none with hg2
  have A3 := add_rep rep2 (i := n1) (j := n4) (by omega) (by omega) false false 1
  have w3 : g2 n1 n4 = none := by
    simp [hg2, hg1, WG.set, d31.symm, d41.symm, d42.symm, d42, d41, d12, d12.symm, hc.n14]
  rw [add_new d41.symm w3] at A3
  obtain ⟨_, m3, lab3, rep3⟩ := A3
  set g3 := g2.set n1 n4 (some 1) with hg3
  set net3 := (AddAdjacency net2 n1 n4 false false 1).2 with hn3
  have A4 := add_rep rep3 (i := n4) (j := n1) (by omega) (by omega) false false 1
  have w4 : g3 n4 n1 = none := by
    simp [hg3, hg2, hg1, WG.set, d31, d31.symm, d41, d41.symm, d42.symm, d42, d12, d12.symm, n41]
  rw [add_new d41 w4] at A4
  obtain ⟨_, m4, lab4, rep4⟩ := A4
  set g4 := g3.set n4 n1 (some 1) with hg4
  set net4 := (AddAdjacency net3 n4 n1 false false 1).2 with hn4
  have A5 := add_rep rep4 (i := n3) (j := n2) (by omega) (by omega) false false 1
  have w5 : g4 n3 n2 = none := by
    simp [hg4, hg3, hg2, hg1, WG.set, d31, d31.symm, d41, d41.symm, d42.symm, d42, d12, d12.symm, d34, n32]
  rw [add_new d32 w5] at A5
  obtain ⟨_, m5, lab5, rep5⟩ := A5
  set g5 := g4.set n3 n2 (some 1) with hg5
  set net5 := (AddAdjacency net4 n3 n2 false false 1).2 with hn5
  have A6 := add_rep rep5 (i := n2) (j := n3) (by omega) (by omega) false false 1
  have w6 : g5 n2 n3 = none := by
    simp [hg5, hg4, hg3, hg2, hg1, WG.set, d31, d31.symm, d32, d32.symm, d41, d41.symm, d42.symm, d42,
      d12, d12.symm, d34, hc.n23]
  rw [add_new d32.symm w6] at A6
  obtain ⟨_, m6, lab6, rep6⟩ := A6
  refine ⟨(AddAdjacency net5 n2 n3 false false 1).2, ?_, by omega, ?_, rep6⟩
  · unfold switchLinks
    simp only [f1, f2, Option.bind_eq_bind, Option.bind_some]
    rfl
  · rw [lab6, lab5, lab4, lab3, lab2, lab1]

theorem nest_if {α : Type} (p1 p2 p3 p4 p5 p6 p7 p8 : Prop) [Decidable p1] [Decidable p2] [Decidable p3]
    [Decidable p4] [Decidable p5] [Decidable p6] [Decidable p7] [Decidable p8] (x y z : α) :
    (if p1 then x else if p2 then x else if p3 then x else if p4 then x else if p5 then y
      else if p6 then y else if p7 then y else if p8 then y else z)
      = if p4 ∨ p3 ∨ p2 ∨ p1 then x else if p8 ∨ p7 ∨ p6 ∨ p5 then y else z := by
  by_cases h1 : p1
  · simp [h1]
  by_cases h2 : p2
  · simp [h1, h2]
  by_cases h3 : p3
  · simp [h1, h2, h3]
  by_cases h4 : p4
  · simp [h1, h2, h3, h4]
  by_cases h5 : p5
  · simp [h1, h2, h3, h4, h5]
  by_cases h6 : p6
  · simp [h1, h2, h3, h4, h5, h6]
  by_cases h7 : p7
  · simp [h1, h2, h3, h4, h5, h6, h7]
  simp [h1, h2, h3, h4, h5, h6, h7]

theorem switched_eq (g : WG) (n1 n2 n3 n4 a b : ℕ) :
    switched g n1 n2 n3 n4 a b =
      if (a = n1 ∧ b = n4) ∨ (a = n4 ∧ b = n1) ∨ (a = n3 ∧ b = n2) ∨ (a = n2 ∧ b = n3) then some 1
      else if (a = n1 ∧ b = n2) ∨ (a = n2 ∧ b = n1) ∨ (a = n3 ∧ b = n4) ∨ (a = n4 ∧ b = n3) then none
      else g a b := nest_if _ _ _ _ _ _ _ _ _ _ _

theorem perm4 {p1 p2 p3 p4 q1 q2 q3 q4 : Prop} (h1 : p1 ↔ q2) (h2 : p2 ↔ q1) (h3 : p3 ↔ q4)
    (h4 : p4 ↔ q3) : (p1 ∨ p2 ∨ p3 ∨ p4) ↔ (q1 ∨ q2 ∨ q3 ∨ q4) := by
  rw [h1, h2, h3, h4]
  constructor
  · rintro (h | h | h | h) <;> simp [h]
  · rintro (h | h | h | h) <;> simp [h]

theorem switched_simple {n : ℕ} {g : WG} (hs : SymSimple n g) {n1 n2 n3 n4 : ℕ}
    (hc : CanSwitch n g n1 n2 n3 n4) : SymSimple n (switched g n1 n2 n3 n4) := by
  obtain ⟨b1, b2⟩ := hs.supp _ _ hc.l12
  obtain ⟨b3, b4⟩ := hs.supp _ _ hc.l34
  constructor
  · intro a b
    rw [switched_eq, switched_eq]
    have p1 : ((a = n1 ∧ b = n4) ∨ (a = n4 ∧ b = n1) ∨ (a = n3 ∧ b = n2) ∨ (a = n2 ∧ b = n3)) ↔
      ((b = n1 ∧ a = n4) ∨ (b = n4 ∧ a = n1) ∨ (b = n3 ∧ a = n2) ∨ (b = n2 ∧ a = n3)) :=
      perm4 and_comm and_comm and_comm and_comm
    have p2 : ((a = n1 ∧ b = n2) ∨ (a = n2 ∧ b = n1) ∨ (a = n3 ∧ b = n4) ∨ (a = n4 ∧ b = n3)) ↔
      ((b = n1 ∧ a = n2) ∨ (b = n2 ∧ a = n1) ∨ (b = n3 ∧ a = n4) ∨ (b = n4 ∧ a = n3)) :=
      perm4 and_comm and_comm and_comm and_comm
    simp only [p1, p2, hs.sym a b]
  · intro a
    rw [switched_eq, if_neg]
    · split_ifs
      · rfl
      · exact hs.loop a
    · have := hc.d41; have := hc.d32
      rintro (h | h | h | h) <;> omega
  · intro a b hab
    rw [switched_eq] at hab
    split_ifs at hab with h1 h2
    · omega
    · simp at hab
    · exact hs.supp a b hab

theorem switched_degree {n : ℕ} {g : WG} (hs : SymSimple n g) {n1 n2 n3 n4 : ℕ}
    (hc : CanSwitch n g n1 n2 n3 n4) (k : ℕ) :
    (switched g n1 n2 n3 n4).degree n k = g.degree n k := by
  have d12 : n1 ≠ n2 := by
    rintro rfl; have := hc.l12; rw [hs.loop] at this; simp at this
  have d34 : n3 ≠ n4 := by
    rintro rfl; have := hc.l34; rw [hs.loop] at this; simp at this
  obtain ⟨b1, b2⟩ := hs.supp _ _ hc.l12
  obtain ⟨b3, b4⟩ := hs.supp _ _ hc.l34
  have h21 : (g n2 n1).isSome := by rw [hs.sym]; exact hc.l12
  have h43 : (g n4 n3).isSome := by rw [hs.sym]; exact hc.l34
  have n41 : g n4 n1 = none := by rw [hs.sym]; exact hc.n14
  have n32 : g n3 n2 = none := by rw [hs.sym]; exact hc.n23
  have l12 := hc.l12
  have l34 := hc.l34
  have n14 := hc.n14
  have n23 := hc.n23
  obtain ⟨d31, d32, d41, d42⟩ := (⟨hc.d31, hc.d32, hc.d41, hc.d42⟩ : _ ∧ _ ∧ _ ∧ _)
  have q1 := degree_set g n n1 n2 k none b2
  have q2 := degree_set (g.set n1 n2 none) n n2 n1 k none b1
  have q3 := degree_set ((g.set n1 n2 none).set n2 n1 none) n n3 n4 k none b4
  have q4 := degree_set (((g.set n1 n2 none).set n2 n1 none).set n3 n4 none) n n4 n3 k none b3
  have q5 := degree_set ((((g.set n1 n2 none).set n2 n1 none).set n3 n4 none).set n4 n3 none) n n1 n4 k
    (some 1) b4
  have q6 := degree_set (((((g.set n1 n2 none).set n2 n1 none).set n3 n4 none).set n4 n3 none).set n1 n4
    (some 1)) n n4 n1 k (some 1) b1
  have q7 := degree_set ((((((g.set n1 n2 none).set n2 n1 none).set n3 n4 none).set n4 n3 none).set n1 n4
    (some 1)).set n4 n1 (some 1)) n n3 n2 k (some 1) b2
  have q8 := degree_set (((((((g.set n1 n2 none).set n2 n1 none).set n3 n4 none).set n4 n3 none).set n1 n4
    (some 1)).set n4 n1 (some 1)).set n3 n2 (some 1)) n n2 n3 k (some 1) b3
  have hsw : (switched g n1 n2 n3 n4).degree n k = ((((((((g.set n1 n2 none).set n2 n1 none).set n3 n4
    none).set n4 n3 none).set n1 n4 (some 1)).set n4 n1 (some 1)).set n3 n2 (some 1)).set n2 n3
    (some 1)).degree n k := rfl
  rw [hsw]
  have v2 : (g.set n1 n2 none) n2 n1 = g n2 n1 := by simp [WG.set, d12.symm]
  have v3 : ((g.set n1 n2 none).set n2 n1 none) n3 n4 = g n3 n4 := by simp [WG.set, d31, d32]
  have v4 : (((g.set n1 n2 none).set n2 n1 none).set n3 n4 none) n4 n3 = g n4 n3 := by
    simp [WG.set, d41, d42, d34.symm]
  have v5 : ((((g.set n1 n2 none).set n2 n1 none).set n3 n4 none).set n4 n3 none) n1 n4 = none := by
    simp [WG.set, d31.symm, d41.symm, d12, d42, n14]
  have v6 : (((((g.set n1 n2 none).set n2 n1 none).set n3 n4 none).set n4 n3 none).set n1 n4
    (some 1)) n4 n1 = none := by simp [WG.set, d41, d42, d34.symm, d31.symm, n41]
  have v7 : ((((((g.set n1 n2 none).set n2 n1 none).set n3 n4 none).set n4 n3 none).set n1 n4
    (some 1)).set n4 n1 (some 1)) n3 n2 = none := by simp [WG.set, d31, d32, d34, d42.symm, n32]
  have v8 : (((((((g.set n1 n2 none).set n2 n1 none).set n3 n4 none).set n4 n3 none).set n1 n4
    (some 1)).set n4 n1 (some 1)).set n3 n2 (some 1)) n2 n3 = none := by
    simp [WG.set, d12.symm, d31, d32.symm, d42.symm, n23]
  rw [v2] at q2
  rw [v3] at q3
  rw [v4] at q4
  rw [v5] at q5
  rw [v6] at q6
  rw [v7] at q7
  rw [v8] at q8
  simp only [l12, h21, l34, h43, Option.isSome_none, Option.isSome_some, Bool.false_eq_true, if_false,
    if_true, ite_self, add_zero] at q1 q2 q3 q4 q5 q6 q7 q8
  omega

/-! ## The loop -/

/-- What is kept, with respect to the initial weights `g0`. -/
structure Kept (n : ℕ) (g0 g : WG) : Prop where
  simple : SymSimple n g
  degree : ∀ k, g.degree n k = g0.degree n k
  weights : ∀ i j, g i j = none ∨ g i j = g0 i j ∨ g i j = some 1

structure LoopInv (g0 : WG) (lab : ℕ → String) (n : ℕ) (net : Net) (links : List (Option (ℕ × ℕ))) : Prop where
  n_eq : net.n = n
  lab_eq : net.label = lab
  ex : ∃ (g : WG) (P : List (ℕ × ℕ)), Rep net g ∧ Kept n g0 g ∧ links = P.map some ∧
    (∀ p ∈ P, (g p.1 p.2).isSome) ∧ (P.map fun p => s(p.1, p.2)).Nodup

theorem pickFour_holds {net : Net} {g : WG} (h : Holds net g) (hs : SymSimple net.n g)
    {P : List (ℕ × ℕ)} (hP : ∀ p ∈ P, (g p.1 p.2).isSome) (hne : P ≠ []) :
    ∀ t, (pickFour net (P.map some) t).Holds fun r =>
      CanSwitch net.n g r.1.2.2.1 r.1.2.2.2.1 r.1.2.2.2.2.1 r.1.2.2.2.2.2 ∧
      P[r.1.1]? = some (r.1.2.2.1, r.1.2.2.2.1) ∧
      (P[r.1.2.1]? = some (r.1.2.2.2.2.1, r.1.2.2.2.2.2) ∨
        P[r.1.2.1]? = some (r.1.2.2.2.2.2, r.1.2.2.2.2.1))
  | [] => trivial
  | [_] => trivial
  | [_, _] => trivial
  | u1 :: u2 :: u3 :: t => by
    unfold pickFour
    by_cases hu : (0 ≤ u1 ∧ u1 < 1) ∧ (0 ≤ u2 ∧ u2 < 1) ∧ (0 ≤ u3 ∧ u3 < 1)
    swap
    · rw [if_neg hu]; trivial
    rw [if_pos hu]
    have hpos : 0 < P.length := List.length_pos_iff.2 hne
    have ht1 : ⌊u1 * (P.map some).length⌋₊ < P.length := by
      rw [List.length_map]; exact floor_lt hu.1.2 hpos
    have ht2 : ⌊u2 * (P.map some).length⌋₊ < P.length := by
      rw [List.length_map]; exact floor_lt hu.2.1.2 hpos
    set t1 := ⌊u1 * (P.map some).length⌋₊ with e1
    set t2 := ⌊u2 * (P.map some).length⌋₊ with e2
    have g1 : (P.map some)[t1]? = some (some P[t1]) := by simp [ht1]
    have g2 : (P.map some)[t2]? = some (some P[t2]) := by simp [ht2]
    simp only [g1, g2]
    have m1 := hP _ (List.getElem_mem ht1)
    have m2 := hP _ (List.getElem_mem ht2)
    have q1 : P[t1]? = some P[t1] := by simp [ht1]
    have q2 : P[t2]? = some P[t2] := by simp [ht2]
    generalize P[t1] = p1 at *
    generalize P[t2] = p2 at *
    obtain ⟨n1, n2⟩ := p1
    obtain ⟨o, d⟩ := p2
    simp only at m1 m2 ⊢
    have m34 : (g (if u3 < 1 / 2 then d else o) (if u3 < 1 / 2 then o else d)).isSome ∧
        (P[t2]? = some ((if u3 < 1 / 2 then d else o), (if u3 < 1 / 2 then o else d)) ∨
          P[t2]? = some ((if u3 < 1 / 2 then o else d), (if u3 < 1 / 2 then d else o))) := by
      by_cases hc : u3 < 1 / 2
      · simp only [hc, if_true]
        exact ⟨by rw [hs.sym]; exact m2, Or.inr q2⟩
      · simp only [hc, if_false]
        exact ⟨m2, Or.inl q2⟩
    generalize (if u3 < 1 / 2 then d else o) = n3 at *
    generalize (if u3 < 1 / 2 then o else d) = n4 at *
    by_cases c1 : n3 = n1 ∨ n3 = n2 ∨ n4 = n1 ∨ n4 = n2
    · rw [if_pos c1]; exact pickFour_holds h hs hP hne t
    rw [if_neg c1]
    by_cases c2 : IsThereLink net n1 n4 = true ∨ IsThereLink net n2 n3 = true
    · rw [if_pos c2]; exact pickFour_holds h hs hP hne t
    rw [if_neg c2]
    push Not at c1 c2
    obtain ⟨b1, b2⟩ := hs.supp _ _ m1
    rw [isLink_eq h b1, isLink_eq h b2] at c2
    have nn : ∀ o : Option ℚ, o.isSome ≠ true → o = none := by intro o ho; cases o <;> simp_all
    exact ⟨⟨m1, m34.1, nn _ c2.1, nn _ c2.2, c1.1, c1.2.1, c1.2.2.1, c1.2.2.2⟩, q1, m34.2⟩

theorem randomizeLoop_holds {g0 : WG} {lab : ℕ → String} {n : ℕ} :
    ∀ (k : ℕ) {net : Net} {links : List (Option (ℕ × ℕ))} (t : Tape),
      LoopInv g0 lab n net links → links ≠ [] →
      (randomizeLoop k net links t).Holds fun r => r.1.n = n ∧ r.1.label = lab ∧
        ∃ g, Rep r.1 g ∧ Kept n g0 g
  | 0, net, links, t, h, _ => by
    obtain ⟨g, P, h1, h2, _⟩ := h.ex
    exact ⟨h.n_eq, h.lab_eq, g, h1, h2⟩
  | k + 1, net, links, t, h, hne => by
    obtain ⟨hn, hlab, g, P, hrep, hk, rfl, hP, hnd⟩ := h
    subst hn
    have hne' : P ≠ [] := by rintro rfl; exact hne rfl
    unfold randomizeLoop
    refine (pickFour_holds hrep.1 hk.simple hP hne' t).bind ?_
    rintro ⟨⟨t1, t2, n1, n2, n3, n4⟩, t'⟩ ⟨hc, p1, p2⟩
    simp only at hc p1 p2 ⊢
    obtain ⟨net', e, hn', hl', hrep'⟩ := switch_rep hrep hk.simple hc
    rw [e]
    simp only [Res.ofOption_some, Res.bind_ok]
    apply randomizeLoop_holds k t'
    swap
    · intro h0
      have := congrArg List.length h0
      simp at this
      exact hne' this
    refine ⟨hn', by rw [hl', hlab], switched g n1 n2 n3 n4,
      (P.set t1 (n1, n4)).set t2 (n3, n2), hrep', ⟨switched_simple hk.simple hc, ?_, ?_⟩, ?_, ?_, ?_⟩
    · intro a; rw [switched_degree hk.simple hc, hk.degree]
    · intro i j
      rw [switched_eq]
      split_ifs
      · exact Or.inr (Or.inr rfl)
      · exact Or.inl rfl
      · exact hk.weights i j
    · simp [List.map_set]
    · -- listed pairs are links
      obtain ⟨lt1, _⟩ := List.getElem?_eq_some_iff.1 p1
      have lt2 : t2 < P.length := by
        rcases p2 with p2 | p2 <;> exact (List.getElem?_eq_some_iff.1 p2).1
      intro p hp
      obtain ⟨i, hi, rfl⟩ := List.mem_iff_getElem.1 hp
      simp only [List.length_set] at hi
      rw [List.getElem_set]
      split_ifs with c2
      · rw [switched_eq, if_pos (by simp)]; rfl
      · rw [List.getElem_set]
        split_ifs with c1
        · rw [switched_eq, if_pos (by simp)]; rfl
        · -- other entries are different pairs
          have hdiff : ∀ (m : ℕ) (hm : m < P.length), m ≠ i →
              s(P[m].1, P[m].2) ≠ s(P[i].1, P[i].2) := by
            intro m hm hmi heq
            have hnd' := hnd
            rw [List.nodup_iff_injective_get] at hnd'
            have := @hnd' ⟨m, by simpa using hm⟩ ⟨i, by simpa using hi⟩ (by simpa using heq)
            exact hmi (by simpa using this)
          have d1 := hdiff t1 lt1 c1
          have d2 := hdiff t2 lt2 c2
          have q1 : P[t1] = (n1, n2) := (List.getElem?_eq_some_iff.1 p1).2
          have q2 : P[t2] = (n3, n4) ∨ P[t2] = (n4, n3) := by
            rcases p2 with p2 | p2
            · exact Or.inl (List.getElem?_eq_some_iff.1 p2).2
            · exact Or.inr (List.getElem?_eq_some_iff.1 p2).2
          rw [switched_eq]
          split_ifs with s1 s2
          · rfl
          · exfalso
            rcases s2 with ⟨x, y⟩ | ⟨x, y⟩ | ⟨x, y⟩ | ⟨x, y⟩
            · apply d1; rw [q1, x, y]
            · apply d1; rw [q1, x, y]; exact Sym2.eq_swap
            · apply d2
              rcases q2 with q2 | q2 <;> rw [q2, x, y]
              exact Sym2.eq_swap
            · apply d2
              rcases q2 with q2 | q2 <;> rw [q2, x, y]
              exact Sym2.eq_swap
          · exact hP _ (List.getElem_mem hi)
    · -- no repeated pairs
      obtain ⟨lt1, q1⟩ := List.getElem?_eq_some_iff.1 p1
      have lt2 : t2 < P.length := by
        rcases p2 with p2 | p2 <;> exact (List.getElem?_eq_some_iff.1 p2).1
      have hnot : ∀ p ∈ P, s(p.1, p.2) ≠ s(n1, n4) ∧ s(p.1, p.2) ≠ s(n3, n2) := by
        intro p hp
        have hl := hP p hp
        constructor
        · intro e
          rw [Sym2.eq_iff] at e
          rcases e with ⟨x, y⟩ | ⟨x, y⟩
          · rw [x, y, hc.n14] at hl; simp at hl
          · rw [x, y, hk.simple.sym, hc.n14] at hl; simp at hl
        · intro e
          rw [Sym2.eq_iff] at e
          rcases e with ⟨x, y⟩ | ⟨x, y⟩
          · rw [x, y, hk.simple.sym, hc.n23] at hl; simp at hl
          · rw [x, y, hc.n23] at hl; simp at hl
      have hnew : s(n1, n4) ≠ s(n3, n2) := by
        intro e
        rw [Sym2.eq_iff] at e
        have := hc.d31; have := hc.d41; have := hc.d42; have := hc.l12
        rcases e with ⟨x, y⟩ | ⟨x, y⟩
        · exact hc.d31 x.symm
        · rw [x, hk.simple.loop] at this; simp at this
      rw [List.map_set, List.map_set]
      have hset : ∀ (l : List (Sym2 ℕ)) (i : ℕ) (x : Sym2 ℕ), l.Nodup → x ∉ l → (l.set i x).Nodup := by
        intro l
        induction l with
        | nil => intro i x _ _; simp
        | cons y l ih =>
          intro i x hnd hx
          rw [List.nodup_cons] at hnd
          cases i with
          | zero =>
            rw [List.set_cons_zero, List.nodup_cons]
            exact ⟨fun h => hx (by simp [h]), hnd.2⟩
          | succ i =>
            rw [List.set_cons_succ, List.nodup_cons]
            refine ⟨fun h => ?_, ih i x hnd.2 (fun h => hx (by simp [h]))⟩
            rcases List.mem_or_eq_of_mem_set h with h | h
            · exact hnd.1 h
            · exact hx (by simp [h])
      apply hset
      · apply hset _ _ _ hnd
        intro hm
        obtain ⟨p, hp, e⟩ := List.mem_map.1 hm
        exact (hnot p hp).1 e
      · intro hm
        rcases List.mem_or_eq_of_mem_set hm with hm | hm
        · obtain ⟨p, hp, e⟩ := List.mem_map.1 hm
          exact (hnot p hp).2 e
        · exact hnew hm.symm

/-! ## The list of links -/

theorem linkList_mem {net : Net} {g : WG} (h : Holds net g) {p : ℕ × ℕ} :
    p ∈ linkList net ↔ p.1 < net.n ∧ p.2 < p.1 ∧ (g p.1 p.2).isSome := by
  obtain ⟨a, b⟩ := p
  unfold linkList
  simp only [List.mem_flatMap, List.mem_range, List.mem_filterMap, Option.bind_eq_some_iff]
  constructor
  · rintro ⟨i, hi, l, hl, j, ej, hij⟩
    split_ifs at hij with hji
    · simp only [Option.some.injEq, Prod.mk.injEq] at hij
      obtain ⟨rfl, rfl⟩ := hij
      exact ⟨hi, hji, (row_mem_iff (h i hi) j).1 ⟨l, hl, ej⟩⟩
  · rintro ⟨ha, hb, hs⟩
    obtain ⟨l, hl, e⟩ := (row_mem_iff (h a ha) b).2 hs
    exact ⟨a, ha, l, hl, b, e, by simp [hb]⟩

theorem linkList_nodup {net : Net} {g : WG} (h : Holds net g) : (linkList net).Nodup := by
  unfold linkList
  rw [List.nodup_flatMap]
  constructor
  · intro i hi
    have hn := (h i (by simpa using hi)).1
    have : ((net.neig i).filterMap fun l => l.ref.bind fun j => if j < i then some (i, j) else none)
        = ((net.neig i).map Link.ref).filterMap fun r => r.bind fun j => if j < i then some (i, j) else none := by
      rw [List.filterMap_map]; rfl
    rw [this]
    refine hn.filterMap ?_
    intro x y z hx hy
    simp only [Option.mem_def, Option.bind_eq_some_iff] at hx hy
    obtain ⟨j, rfl, hj⟩ := hx
    obtain ⟨k, rfl, hk⟩ := hy
    split_ifs at hj hk
    simp only [Option.some.injEq] at hj hk
    rw [← hj] at hk
    simp only [Prod.mk.injEq, true_and] at hk
    rw [hk]
  · refine List.Pairwise.imp ?_ List.nodup_range
    intro a b hab
    simp only [Function.onFun]
    intro p hp hq
    simp only [List.mem_filterMap, Option.bind_eq_some_iff] at hp hq
    obtain ⟨l, _, j, _, e1⟩ := hp
    obtain ⟨m, _, k, _, e2⟩ := hq
    split_ifs at e1 e2
    simp only [Option.some.injEq] at e1 e2
    rw [← e2] at e1
    exact hab (by simpa using (Prod.mk.inj e1).1)

theorem linkList_length {net : Net} {g : WG} (h : Holds net g) :
    (linkList net).length = ((Finset.range net.n ×ˢ Finset.range net.n).filter fun p =>
        (g p.1 p.2).isSome ∧ (true = true → p.2 < p.1)).card := by
  rw [← List.toFinset_card_of_nodup (linkList_nodup h)]
  congr 1
  ext p
  rw [List.mem_toFinset, linkList_mem h]
  simp only [Finset.mem_filter, Finset.mem_product, Finset.mem_range, forall_const]
  constructor
  · rintro ⟨h1, h2, h3⟩; exact ⟨⟨h1, by omega⟩, h3, h2⟩
  · rintro ⟨⟨h1, _⟩, h3, h2⟩; exact ⟨h1, h2, h3⟩

/-! ## C17 -/

theorem randomize_start {net : Net} {g : WG} (h : Holds net g) (hc : CachesOK net)
    (hs : SymSimple net.n g) (hlink : ∃ i j, (g i j).isSome) :
    ∃ net1, TotalNLinks net true = ((linkList net1).length, net1) ∧ net1.n = net.n ∧
      linkArray net1 (linkList net1).length = some ((linkList net1).map some) ∧
      LoopInv g net.label net.n net1 ((linkList net1).map some) ∧ linkList net1 ≠ [] ∧ Holds net1 g ∧
      ∀ p ∈ linkList net1, (g p.1 p.2).isSome := by
  obtain ⟨e1, e2, e3, e4, e5, e6⟩ := C45_total_links h hc true
    (fun _ => ⟨fun i j => by rw [hs.sym], hs.loop⟩)
  generalize TotalNLinks net true = T at *
  obtain ⟨nl, net1⟩ := T
  simp only at e1 e2 e3 e4 e5 e6
  have hlen : (linkList net1).length = nl := by
    rw [linkList_length e5, e1, e4]; simp
  have hinv : LoopInv g net.label net.n net1 ((linkList net1).map some) := by
    refine ⟨e4, e3, g, linkList net1, ⟨e5, e6⟩, ⟨hs, fun _ => rfl, fun i j => Or.inr (Or.inl rfl)⟩,
      rfl, fun p hp => ((linkList_mem e5).1 hp).2.2, ?_⟩
    refine List.Nodup.map_on ?_ (linkList_nodup e5)
    intro p hp q hq e
    have h1 := ((linkList_mem e5).1 hp).2.1
    have h2 := ((linkList_mem e5).1 hq).2.1
    rw [Sym2.eq_iff] at e
    rcases e with ⟨x, y⟩ | ⟨x, y⟩
    · exact Prod.ext x y
    · omega
  refine ⟨net1, by rw [hlen], e4, by unfold linkArray; simp, hinv, ?_, e5,
    fun p hp => ((linkList_mem e5).1 hp).2.2⟩
  obtain ⟨i, j, hij⟩ := hlink
  have : ∃ p, p ∈ linkList net1 := by
    obtain ⟨bi, bj⟩ := hs.supp i j hij
    rcases Nat.lt_trichotomy i j with hlt | heq | hlt
    · exact ⟨(j, i), (linkList_mem e5).2 ⟨by rw [e4]; exact bj, hlt, by rw [hs.sym]; exact hij⟩⟩
    · subst heq; rw [hs.loop] at hij; simp at hij
    · exact ⟨(i, j), (linkList_mem e5).2 ⟨by rw [e4]; exact bi, hlt, hij⟩⟩
  obtain ⟨p, hp⟩ := this
  intro h0
  rw [h0] at hp
  simp at hp

/-- C17. For every symmetric network without self links that has at least one link, every `times`
and every random stream, `RandomizeSymmetricNetwork` does nothing undefined and, when it returns,
the network has the same nodes and labels, is symmetric, has no self link and no repeated link,
and every node has its old degree.  (Links that survive keep their weight, new links have
weight 1.) -/
theorem C17_degrees_preserved {net : Net} {g : WG} (h : Holds net g) (hc : CachesOK net)
    (hs : SymSimple net.n g) (hlink : ∃ i j, (g i j).isSome) (times : ℚ) (t : Tape) :
    (RandomizeSymmetricNetwork net times t).Holds fun r =>
      r.1.n = net.n ∧ r.1.label = net.label ∧ CachesOK r.1 ∧
      ∃ g', Holds r.1 g' ∧ SymSimple net.n g' ∧ (∀ k, g'.degree net.n k = g.degree net.n k) ∧
        ∀ i j, g' i j = none ∨ g' i j = g i j ∨ g' i j = some 1 := by
  obtain ⟨net1, e1, -, harr, hinv, hne, -⟩ := randomize_start h hc hs hlink
  unfold RandomizeSymmetricNetwork
  rw [e1]
  refine (draw_holds t).bind ?_
  rintro ⟨u, t'⟩ _
  simp only [harr, Res.ofOption_some, Res.bind_ok]
  refine (randomizeLoop_holds _ t' hinv (by simpa using hne)).mono ?_
  rintro ⟨net', t''⟩ ⟨h1, h2, g', h3, h4⟩
  exact ⟨h1, h2, h3.2, g', h3.1, h4.simple, h4.degree, h4.weights⟩

/-- C17, limits: if no two links without a common node can be switched — because one of the links to
be made is there already, or because any two links have a common node, as in stars and complete
graphs — the function never ends for any positive `times`, whatever the random numbers. -/
theorem C17_never_ends {net : Net} {g : WG} (h : Holds net g) (hc : CachesOK net)
    (hs : SymSimple net.n g) (hlink : ∃ i j, (g i j).isSome)
    (hno : ∀ i j k l, (g i j).isSome → (g k l).isSome → k ≠ i → k ≠ j → l ≠ i → l ≠ j →
      (g i l).isSome ∨ (g j k).isSome)
    {times : ℚ} (ht : 0 < times) (t : Tape) : RandomizeSymmetricNetwork net times t = .starved := by
  obtain ⟨net1, e1, e4, harr, -, hne, h1, hP⟩ := randomize_start h hc hs hlink
  have key : (RandomizeSymmetricNetwork net times t).Holds fun _ => False := by
    unfold RandomizeSymmetricNetwork
    rw [e1]
    refine (draw_holds t).bind ?_
    rintro ⟨u, t'⟩ hu
    simp only [harr, Res.ofOption_some, Res.bind_ok]
    have hpos : 0 < ⌈times * ((linkList net1).length : ℚ) + u⌉.toNat := by
      have hlen : (0 : ℚ) < (linkList net1).length := by
        exact_mod_cast List.length_pos_iff.2 hne
      have hu0 : (0 : ℚ) ≤ u := hu.1
      have : 0 < ⌈times * ((linkList net1).length : ℚ) + u⌉ := Int.ceil_pos.2 (by positivity)
      omega
    obtain ⟨k, hk⟩ := Nat.exists_eq_succ_of_ne_zero hpos.ne'
    rw [hk]
    unfold randomizeLoop
    refine (pickFour_holds h1 (e4 ▸ hs) hP hne t').bind ?_
    rintro ⟨⟨t1, t2, n1, n2, n3, n4⟩, t''⟩ ⟨hsw, -⟩
    exfalso
    obtain ⟨m1, m2, m3, m4, d1, d2, d3, d4⟩ := hsw
    rcases hno n1 n2 n3 n4 m1 m2 d1 d2 d3 d4 with hh | hh
    · simp only at m3; rw [m3] at hh; cases hh
    · simp only at m4; rw [m4] at hh; cases hh
  cases hr : RandomizeSymmetricNetwork net times t with
  | ok r => rw [hr] at key; exact key.elim
  | starved => rfl
  | ub => rw [hr] at key; exact key.elim

/-- C17, limits: on a network without links the first iteration reads outside the arrays. -/
theorem C17_no_links_undefined (net : Net) (h : ∀ i, net.neig i = []) (hd : ∀ i, net.degree i = 0)
    (times u u1 u2 u3 : ℚ) (t : Tape) (hu : 0 < u ∧ u < 1)
    (h1 : 0 ≤ u1 ∧ u1 < 1) (h2 : 0 ≤ u2 ∧ u2 < 1) (h3 : 0 ≤ u3 ∧ u3 < 1) :
    RandomizeSymmetricNetwork net times (u :: u1 :: u2 :: u3 :: t) = .ub := by
  have hdeg : ∀ i, NodeDegree net i = (0, net) := by intro i; simp [NodeDegree, h, hd]
  have hsum : ∀ todo i, sumDegrees id todo i net = (0, net) := by
    intro todo
    induction todo with
    | zero => intro i; rfl
    | succ k ih => intro i; simp [sumDegrees, hdeg, ih]
  have htot : TotalNLinks net true = (0, net) := by simp [TotalNLinks, hsum]
  have hll : linkList net = [] := by simp [linkList, h]
  have hceil : ⌈times * ((0 : ℕ) : ℚ) + u⌉.toNat = 1 := by
    have : ⌈times * ((0 : ℕ) : ℚ) + u⌉ = 1 := by
      rw [Int.ceil_eq_iff]; constructor <;> push_cast <;> linarith
    rw [this]; rfl
  unfold RandomizeSymmetricNetwork
  simp only [htot, draw, hu.1.le, hu.2, and_self, if_true, Res.bind_ok, hceil]
  simp [linkArray, hll, randomizeLoop, pickFour, h1, h2, h3]

/-- Two separate links, of weights 5 and 7. -/
def twoLinks : Net :=
  { n := 4, label := fun i => toString i
    neig := fun i => if i = 0 then [⟨"1", some 1, 5⟩] else if i = 1 then [⟨"0", some 0, 5⟩]
      else if i = 2 then [⟨"3", some 3, 7⟩] else if i = 3 then [⟨"2", some 2, 7⟩] else []
    degree := fun _ => 0, strength := fun _ => 0 }

/-- Weights of `twoLinks`. -/
def twoLinksG : WG := fun i j =>
  if (i = 0 ∧ j = 1) ∨ (i = 1 ∧ j = 0) then some 5
  else if (i = 2 ∧ j = 3) ∨ (i = 3 ∧ j = 2) then some 7 else none

theorem twoLinks_holds : Holds twoLinks twoLinksG ∧ CachesOK twoLinks ∧ SymSimple 4 twoLinksG := by
  refine ⟨?_, ?_, ?_, ?_, ?_⟩
  · intro i hi
    have : i = 0 ∨ i = 1 ∨ i = 2 ∨ i = 3 := by simp only [twoLinks] at hi; omega
    rcases this with rfl | rfl | rfl | rfl
    all_goals
      refine ⟨by simp [twoLinks], by simp [twoLinks, twoLinksG], ?_⟩
      intro j w hw
      simp only [twoLinksG] at hw
      split_ifs at hw with h1 h2 <;> simp_all [twoLinks]
  · intro i _; simp [twoLinks]
  · intro i j
    simp only [twoLinksG]
    have p1 : ((i = 0 ∧ j = 1) ∨ (i = 1 ∧ j = 0)) ↔ ((j = 0 ∧ i = 1) ∨ (j = 1 ∧ i = 0)) := by tauto
    have p2 : ((i = 2 ∧ j = 3) ∨ (i = 3 ∧ j = 2)) ↔ ((j = 2 ∧ i = 3) ∨ (j = 3 ∧ i = 2)) := by tauto
    simp only [p1, p2]
  · intro i
    simp only [twoLinksG]
    rw [if_neg (by omega), if_neg (by omega)]
  · intro i j h
    simp only [twoLinksG] at h
    split_ifs at h
    · omega
    · omega
    · simp at h

/-- Adjacency read from an outcome. -/
def rowOf (r : Res (Net × Tape)) (i : ℕ) : List (Option ℕ × ℚ) :=
  match r with
  | .ok (net, _) => (net.neig i).map fun l => (l.ref, l.weight)
  | _ => []

example : (RandomizeSymmetricNetwork twoLinks (1/2) [0, 0, 3/4, 0]).Holds (fun r =>
      ∃ g', Holds r.1 g' ∧ ∀ k, g'.degree 4 k = twoLinksG.degree 4 k) ∧
    rowOf (RandomizeSymmetricNetwork twoLinks (1/2) [0, 0, 3/4, 0]) 0 = [(some 2, 1)] := by
  refine ⟨?_, by decide +kernel⟩
  refine (C17_degrees_preserved twoLinks_holds.1 twoLinks_holds.2.1 twoLinks_holds.2.2
    ⟨0, 1, by decide⟩ (1/2) [0, 0, 3/4, 0]).mono ?_
  rintro r ⟨_, _, _, g', h1, _, h2, _⟩
  exact ⟨g', h1, h2⟩

/-- Finding: the weights of switched links are lost (replaced by 1), so strengths are not preserved. -/
theorem C17_strength_not_preserved :
    (NodeStrength twoLinks 0).1 = 5 ∧
    (match RandomizeSymmetricNetwork twoLinks (1/2) [0, 0, 3/4, 0] with
      | .ok (net, _) => (NodeStrength net 0).1
      | _ => 0) = 1 := by
  decide +kernel

end GR
