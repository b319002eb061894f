import Verif.Missing.ReconstructModel
import Verif.Models.Props
import Verif.Graph.RandomProps
import Mathlib.Tactic.Linarith
import Mathlib.Tactic.IntervalCases

/-! # C108, C109: networks made from link scores -/

set_option linter.unusedSimpArgs false

namespace NR

open GR MD RG

/-! ## C109 -/

theorem addScored_fold {M : ℕ → ℕ → ℚ} : ∀ (es : List (ℕ × ℕ)) (net : Net) (E : ℕ → ℕ → Prop),
    (∀ e ∈ es, e.1 < net.n ∧ e.2 < net.n ∧ e.1 ≠ e.2) → Rep net (wg E) →
    (es.foldl (addScored M) net).n = net.n ∧ (es.foldl (addScored M) net).label = net.label ∧
    Rep (es.foldl (addScored M) net) (wg fun a b => E a b ∨ ((a, b) ∈ es ∧ 1 / 2 < M a b) ∨ ((b, a) ∈ es ∧ 1 / 2 < M b a))
  | [], net, E, _, h => by simpa using h
  | e :: es, net, E, he, h => by
    rw [List.foldl_cons]
    obtain ⟨h1, h2, h3⟩ := he e (by simp)
    by_cases hM : 1 / 2 < M e.1 e.2
    · rw [show addScored M net e = linkBoth net e.1 e.2 by unfold addScored; rw [if_pos hM]]
      obtain ⟨k1, k2, k3⟩ := linkBoth_wg h h1 h2 h3
      obtain ⟨l1, l2, l3⟩ := addScored_fold es _ _ (fun x hx => by rw [k1]; exact he x (by simp [hx])) k3
      refine ⟨l1.trans k1, l2.trans k2, ?_⟩
      convert l3 using 1
      apply wg_congr
      intro a b
      obtain ⟨e1, e2⟩ := e
      simp only [List.mem_cons, Prod.mk.injEq] at *
      constructor
      · rintro (h | ⟨⟨rfl, rfl⟩ | h, h'⟩ | ⟨⟨rfl, rfl⟩ | h, h'⟩) <;> tauto
      · rintro ((h | ⟨rfl, rfl⟩ | ⟨rfl, rfl⟩) | h | h) <;> tauto
    · rw [show addScored M net e = net by unfold addScored; rw [if_neg hM]]
      obtain ⟨l1, l2, l3⟩ := addScored_fold es _ _ (fun x hx => he x (by simp [hx])) h
      refine ⟨l1, l2, ?_⟩
      convert l3 using 1
      apply wg_congr
      intro a b
      obtain ⟨e1, e2⟩ := e
      simp only [List.mem_cons, Prod.mk.injEq] at *
      constructor
      · rintro (h | ⟨⟨rfl, rfl⟩ | h, h'⟩ | ⟨⟨rfl, rfl⟩ | h, h'⟩) <;> tauto
      · tauto

/-- **C109**: `NetFromSBMScores` returns a network with the nodes of the given one, in order and with
their labels, in which two nodes are linked, in both directions, exactly if their score is above 1/2. All
links have weight 0. -/
theorem C109_from_scores (net : Net) (hn : net.n ≤ 2147483647) (M : ℕ → ℕ → ℚ) :
    ∃ new, NetFromSBMScores net M = some new ∧ new.n = net.n ∧ (∀ i < net.n, new.label i = net.label i) ∧
      CachesOK new ∧ ∃ g : WG, Holds new g ∧ SymSimple net.n g ∧
        ∀ i < net.n, ∀ j < net.n, g i j = if i ≠ j ∧ 1 / 2 < M (min i j) (max i j) then some 0 else none := by
  obtain ⟨e, h1, h2, -, h4, h5⟩ := C57_empty hn
  have hr : Rep { e with label := fun i => if i < net.n then net.label i else e.label i } (wg fun _ _ => False) := by
    refine ⟨?_, h5⟩
    have : (wg fun _ _ => False) = fun _ _ => none := by funext a b; simp [wg]
    rw [this]
    exact h4
  obtain ⟨k1, k2, k3, k4⟩ := addScored_fold (M := M) (MD.pairs net.n) _ _ (by
    rintro ⟨a, b⟩ hab
    have := mem_pairs.1 hab
    refine ⟨?_, ?_, ?_⟩
    · show a < e.n; omega
    · show b < e.n; omega
    · show a ≠ b; omega) hr
  refine ⟨_, by unfold NetFromSBMScores; rw [h1]; rfl, k1.trans h2, ?_, k4, _, k3, ⟨?_, ?_, ?_⟩, ?_⟩
  · intro i hi
    rw [k2]
    simp [hi]
  · intro i j
    unfold wg
    congr 1
    apply propext
    tauto
  · intro i
    unfold wg
    rw [if_neg]
    rintro (h | ⟨h, -⟩ | ⟨h, -⟩)
    · exact h
    · exact absurd (mem_pairs.1 h).1 (lt_irrefl _)
    · exact absurd (mem_pairs.1 h).1 (lt_irrefl _)
  · intro i j h
    unfold wg at h
    split_ifs at h with hh
    · rcases hh with h | ⟨h, -⟩ | ⟨h, -⟩
      · exact absurd h id
      · have := mem_pairs.1 h; omega
      · have := mem_pairs.1 h; omega
    · cases h
  · intro i hi j hj
    unfold wg
    have : (False ∨ ((i, j) ∈ MD.pairs net.n ∧ 1 / 2 < M i j) ∨ ((j, i) ∈ MD.pairs net.n ∧ 1 / 2 < M j i)) ↔
        i ≠ j ∧ 1 / 2 < M (min i j) (max i j) := by
      rw [mem_pairs, mem_pairs]
      rcases lt_trichotomy i j with h | h | h
      · rw [min_eq_left h.le, max_eq_right h.le]
        constructor
        · rintro (h | h | h)
          · exact absurd h id
          · exact ⟨by omega, h.2⟩
          · omega
        · rintro ⟨-, h'⟩; exact Or.inr (Or.inl ⟨⟨h, hj⟩, h'⟩)
      · subst h; simp
      · rw [min_eq_right h.le, max_eq_left h.le]
        constructor
        · rintro (h | h | h)
          · exact absurd h id
          · omega
          · exact ⟨by omega, h.2⟩
        · rintro ⟨-, h'⟩; exact Or.inr (Or.inr ⟨⟨h, hi⟩, h'⟩)
    by_cases hh : i ≠ j ∧ 1 / 2 < M (min i j) (max i j)
    · rw [if_pos hh, if_pos (this.2 hh)]
    · rw [if_neg hh, if_neg fun h => hh (this.1 h)]

/-! ## C108: choosing and exchanging links -/

/-- Pairs of nodes with a link. -/
def edges (n : ℕ) (g : WG) : Finset (ℕ × ℕ) :=
  (Finset.range n ×ˢ Finset.range n).filter fun e => e.1 < e.2 ∧ (g e.1 e.2).isSome

theorem mem_edges {n : ℕ} {g : WG} {i j : ℕ} : (i, j) ∈ edges n g ↔ i < j ∧ j < n ∧ (g i j).isSome := by
  simp only [edges, Finset.mem_filter, Finset.mem_product, Finset.mem_range]
  constructor
  · rintro ⟨⟨-, h⟩, h1, h2⟩; exact ⟨h1, h, h2⟩
  · rintro ⟨h1, h2, h3⟩; exact ⟨⟨by omega, h2⟩, h1, h3⟩

/-- The network with the link `a` and without the link `r`. -/
def exchanged (g : WG) (a r : ℕ × ℕ) : WG :=
  (((g.set a.1 a.2 (some 1)).set a.2 a.1 (some 1)).set r.1 r.2 none).set r.2 r.1 none

theorem exchanged_apply (g : WG) (a r : ℕ × ℕ) (i j : ℕ) : exchanged g a r i j =
    if (i = r.1 ∧ j = r.2) ∨ (i = r.2 ∧ j = r.1) then none
    else if (i = a.1 ∧ j = a.2) ∨ (i = a.2 ∧ j = a.1) then some 1 else g i j := by
  unfold exchanged WG.set
  split_ifs <;> first | rfl | tauto

theorem exchanged_simple {n : ℕ} {g : WG} (hg : SymSimple n g) {a r : ℕ × ℕ} (ha : a.1 < n ∧ a.2 < n) (hne : a.1 ≠ a.2) :
    SymSimple n (exchanged g a r) := by
  refine ⟨?_, ?_, ?_⟩
  · intro i j
    rw [exchanged_apply, exchanged_apply, hg.sym i j]
    congr 1
    · apply propext; tauto
    · congr 1
      apply propext; tauto
  · intro i
    rw [exchanged_apply, hg.loop]
    split_ifs with h1 h2
    · rfl
    · omega
    · rfl
  · intro i j h
    rw [exchanged_apply] at h
    split_ifs at h with h1 h2
    · cases h
    · omega
    · exact hg.supp i j h

theorem swap_ok {net : Net} {g : WG} (h : Rep net g) (hg : SymSimple net.n g) {a r : ℕ × ℕ} (ha : a.1 < a.2 ∧ a.2 < net.n)
    (hr : r.1 < r.2 ∧ r.2 < net.n) (h1 : g a.1 a.2 = none) (h2 : (g r.1 r.2).isSome) :
    ∃ net', swapLinks net a r = some net' ∧ net'.n = net.n ∧ net'.label = net.label ∧ Rep net' (exchanged g a r) := by
  obtain ⟨a1, a2⟩ := a
  obtain ⟨r1, r2⟩ := r
  dsimp only at *
  have h3 : g a2 a1 = none := by rw [hg.sym]; exact h1
  have hne : a1 ≠ a2 := by omega
  have hnr : r1 ≠ r2 := by omega
  obtain ⟨-, n1, l1, e1⟩ := add_rep h (i := a1) (j := a2) (by omega) (by omega) false false 1
  have w1 : (g.add a1 a2 false false 1).2 = g.set a1 a2 (some 1) := by
    unfold WG.add; rw [if_neg (fun c => hne c.1), h1]
  rw [w1] at e1
  obtain ⟨-, n2, l2, e2⟩ := add_rep e1 (i := a2) (j := a1) (by rw [n1]; omega) (by rw [n1]; omega) false false 1
  have w2 : ((g.set a1 a2 (some 1)).add a2 a1 false false 1).2 = (g.set a1 a2 (some 1)).set a2 a1 (some 1) := by
    unfold WG.add
    have : (g.set a1 a2 (some 1)) a2 a1 = none := by
      unfold WG.set; rw [if_neg (by omega)]; exact h3
    rw [if_neg (fun c => hne.symm c.1), this]
  rw [w2] at e2
  have e3 := remove_rep e2 (i := r1) (j := r2) (by rw [n2, n1]; omega) (by rw [n2, n1]; omega) true
  have hs : ∀ i j, (i = r1 ∧ j = r2) ∨ (i = r2 ∧ j = r1) →
      ((g.set a1 a2 (some 1)).set a2 a1 (some 1) i j).isNone = false := by
    intro i j hij
    have : (g i j).isSome := by
      rcases hij with ⟨rfl, rfl⟩ | ⟨rfl, rfl⟩
      · exact h2
      · rw [hg.sym]; exact h2
    unfold WG.set
    split_ifs <;> simp_all
  have w3 : ((g.set a1 a2 (some 1)).set a2 a1 (some 1)).remove r1 r2 true = some (exchanged g (a1, a2) (r1, r2)) := by
    unfold WG.remove
    rw [hs r1 r2 (Or.inl ⟨rfl, rfl⟩), hs r2 r1 (Or.inr ⟨rfl, rfl⟩)]
    simp [hnr, exchanged]
  rw [w3] at e3
  obtain ⟨net', k1, k2, k3, k4⟩ := e3
  exact ⟨net', k1, k2.trans (n2.trans n1), k3.trans (l2.trans l1), k4⟩

theorem edges_exchanged {n : ℕ} {g : WG} {a r : ℕ × ℕ} (ha : a.1 < a.2 ∧ a.2 < n) (hr : r.1 < r.2 ∧ r.2 < n)
    (h1 : g a.1 a.2 = none) (h2 : (g r.1 r.2).isSome) :
    edges n (exchanged g a r) = (insert a (edges n g)).erase r ∧
      (edges n (exchanged g a r)).card = (edges n g).card := by
  have e : edges n (exchanged g a r) = (insert a (edges n g)).erase r := by
    ext ⟨i, j⟩
    obtain ⟨a1, a2⟩ := a
    obtain ⟨r1, r2⟩ := r
    dsimp only at *
    rw [Finset.mem_erase, Finset.mem_insert, mem_edges, mem_edges, exchanged_apply]
    simp only [Prod.mk.injEq, ne_eq]
    split_ifs with c1 c2
    · constructor
      · rintro ⟨-, -, h⟩; cases h
      · rintro ⟨h, h'⟩
        rcases c1 with c1 | c1
        · exact absurd c1 h
        · rcases h' with h' | h' <;> omega
    · constructor
      · rintro ⟨h, h', -⟩
        refine ⟨fun c => c1 (Or.inl c), Or.inl ?_⟩
        rcases c2 with c2 | c2
        · exact c2
        · omega
      · rintro ⟨-, h'⟩
        refine ⟨?_, ?_, rfl⟩ <;> rcases h' with h' | h' <;> omega
    · constructor
      · rintro h; exact ⟨fun c => c1 (Or.inl c), Or.inr h⟩
      · rintro ⟨-, h | h⟩
        · exact absurd (Or.inl h) c2
        · exact h
  refine ⟨e, ?_⟩
  have ma : a ∉ edges n g := by
    intro h
    have := (mem_edges (i := a.1) (j := a.2)).1 h
    rw [h1] at this; simp at this
  have mr : r ∈ insert a (edges n g) := Finset.mem_insert_of_mem ((mem_edges (i := r.1) (j := r.2)).2 ⟨hr.1, hr.2, h2⟩)
  rw [e, Finset.card_erase_of_mem mr, Finset.card_insert_of_notMem ma]
  omega

/-- A pair of nodes without a link. -/
def Missing (n : ℕ) (g : WG) (e : ℕ × ℕ) : Prop := e.1 < e.2 ∧ e.2 < n ∧ g e.1 e.2 = none

/-- A pair of nodes with a link. -/
def Linked (n : ℕ) (g : WG) (e : ℕ × ℕ) : Prop := e.1 < e.2 ∧ e.2 < n ∧ (g e.1 e.2).isSome

/-- Choice after the pairs `es`. -/
structure PickOK (n : ℕ) (g : WG) (M : ℕ → ℕ → ℚ) (es : List (ℕ × ℕ)) (s : Pick) : Prop where
  add : (s.maxS = 0 ∧ ∀ e ∈ es, ¬ Missing n g e) ∨ ∃ e ∈ es, s.add = some e ∧ Missing n g e ∧ s.maxS = M e.1 e.2 ∧
    ∀ e' ∈ es, Missing n g e' → M e'.1 e'.2 ≤ M e.1 e.2
  rem : (s.minS = 1 ∧ ∀ e ∈ es, ¬ Linked n g e) ∨ ∃ e ∈ es, s.rem = some e ∧ Linked n g e ∧ s.minS = M e.1 e.2 ∧
    ∀ e' ∈ es, Linked n g e' → M e.1 e.2 ≤ M e'.1 e'.2

/-- Scores strictly between 0 and 1. -/
def Inside (n : ℕ) (M : ℕ → ℕ → ℚ) : Prop := ∀ i j, i < j → j < n → 0 < M i j ∧ M i j < 1

theorem pickStep_ok {net : Net} {g : WG} {M : ℕ → ℕ → ℚ} (h : Holds net g) (hM : Inside net.n M) {es : List (ℕ × ℕ)}
    {s : Pick} (hs : PickOK net.n g M es s) {e : ℕ × ℕ} (he : e.1 < e.2 ∧ e.2 < net.n) :
    PickOK net.n g M (es ++ [e]) (pickStep net M s e) := by
  obtain ⟨m0, m1⟩ := hM e.1 e.2 he.1 he.2
  have hl := isLink_eq h (i := e.1) (by omega) e.2
  cases hg : g e.1 e.2 with
  | none =>
    have hmis : Missing net.n g e := ⟨he.1, he.2, hg⟩
    have hnl : ¬ Linked net.n g e := by rintro ⟨-, -, c⟩; rw [hg] at c; cases c
    rw [hg] at hl
    have e1 : pickStep net M s e = if s.maxS < M e.1 e.2 then { s with add := some e, maxS := M e.1 e.2 } else s := by
      unfold pickStep
      rw [hl]
      simp
    rw [e1]
    have hrem : ∀ p : Pick, p.rem = s.rem → p.minS = s.minS →
        (p.minS = 1 ∧ ∀ x ∈ es ++ [e], ¬ Linked net.n g x) ∨ ∃ x ∈ es ++ [e], p.rem = some x ∧ Linked net.n g x ∧
          p.minS = M x.1 x.2 ∧ ∀ e' ∈ es ++ [e], Linked net.n g e' → M x.1 x.2 ≤ M e'.1 e'.2 := by
      intro p q1 q2
      rw [q1, q2]
      rcases hs.rem with ⟨c1, c2⟩ | ⟨x, c1, c2, c3, c4, c5⟩
      · left
        refine ⟨c1, fun x hx => ?_⟩
        rcases List.mem_append.1 hx with hx | hx
        · exact c2 x hx
        · rw [List.mem_singleton.1 hx]; exact hnl
      · right
        refine ⟨x, List.mem_append_left _ c1, c2, c3, c4, fun y hy hy' => ?_⟩
        rcases List.mem_append.1 hy with hy | hy
        · exact c5 y hy hy'
        · rw [List.mem_singleton.1 hy] at hy'; exact absurd hy' hnl
    split_ifs with hc
    · refine ⟨Or.inr ⟨e, by simp, rfl, hmis, rfl, fun x hx hx' => ?_⟩, hrem _ rfl rfl⟩
      rcases List.mem_append.1 hx with hx | hx
      · rcases hs.add with ⟨-, c2⟩ | ⟨y, -, -, -, c4, c5⟩
        · exact absurd hx' (c2 x hx)
        · have := c5 x hx hx'
          rw [c4] at hc
          linarith
      · rw [List.mem_singleton.1 hx]
    · refine ⟨Or.inr ?_, hrem _ rfl rfl⟩
      rcases hs.add with ⟨c1, -⟩ | ⟨y, c1, c2, c3, c4, c5⟩
      · rw [c1] at hc; exact absurd m0 hc
      · refine ⟨y, List.mem_append_left _ c1, c2, c3, c4, fun x hx hx' => ?_⟩
        rcases List.mem_append.1 hx with hx | hx
        · exact c5 x hx hx'
        · rw [List.mem_singleton.1 hx, ← c4]; exact not_lt.1 hc
  | some w =>
    have hlk : Linked net.n g e := ⟨he.1, he.2, by rw [hg]; rfl⟩
    have hnm : ¬ Missing net.n g e := by rintro ⟨-, -, c⟩; rw [hg] at c; cases c
    rw [hg] at hl
    have e1 : pickStep net M s e = if M e.1 e.2 < s.minS then { s with rem := some e, minS := M e.1 e.2 } else s := by
      unfold pickStep
      rw [hl]
      simp
    rw [e1]
    have hadd : ∀ p : Pick, p.add = s.add → p.maxS = s.maxS →
        (p.maxS = 0 ∧ ∀ x ∈ es ++ [e], ¬ Missing net.n g x) ∨ ∃ x ∈ es ++ [e], p.add = some x ∧ Missing net.n g x ∧
          p.maxS = M x.1 x.2 ∧ ∀ e' ∈ es ++ [e], Missing net.n g e' → M e'.1 e'.2 ≤ M x.1 x.2 := by
      intro p q1 q2
      rw [q1, q2]
      rcases hs.add with ⟨c1, c2⟩ | ⟨x, c1, c2, c3, c4, c5⟩
      · left
        refine ⟨c1, fun x hx => ?_⟩
        rcases List.mem_append.1 hx with hx | hx
        · exact c2 x hx
        · rw [List.mem_singleton.1 hx]; exact hnm
      · right
        refine ⟨x, List.mem_append_left _ c1, c2, c3, c4, fun y hy hy' => ?_⟩
        rcases List.mem_append.1 hy with hy | hy
        · exact c5 y hy hy'
        · rw [List.mem_singleton.1 hy] at hy'; exact absurd hy' hnm
    split_ifs with hc
    · refine ⟨hadd _ rfl rfl, Or.inr ⟨e, by simp, rfl, hlk, rfl, fun x hx hx' => ?_⟩⟩
      rcases List.mem_append.1 hx with hx | hx
      · rcases hs.rem with ⟨-, c2⟩ | ⟨y, -, -, -, c4, c5⟩
        · exact absurd hx' (c2 x hx)
        · have := c5 x hx hx'
          rw [c4] at hc
          linarith
      · rw [List.mem_singleton.1 hx]
    · refine ⟨hadd _ rfl rfl, Or.inr ?_⟩
      rcases hs.rem with ⟨c1, -⟩ | ⟨y, c1, c2, c3, c4, c5⟩
      · rw [c1] at hc; exact absurd m1 hc
      · refine ⟨y, List.mem_append_left _ c1, c2, c3, c4, fun x hx hx' => ?_⟩
        rcases List.mem_append.1 hx with hx | hx
        · exact c5 x hx hx'
        · rw [List.mem_singleton.1 hx, ← c4]; exact not_lt.1 hc

theorem pickFold_ok {net : Net} {g : WG} {M : ℕ → ℕ → ℚ} (h : Holds net g) (hM : Inside net.n M) :
    ∀ (es done : List (ℕ × ℕ)) (s : Pick), (∀ e ∈ es, e.1 < e.2 ∧ e.2 < net.n) → PickOK net.n g M done s →
      PickOK net.n g M (done ++ es) (es.foldl (pickStep net M) s)
  | [], done, s, _, hs => by simpa using hs
  | e :: es, done, s, he, hs => by
    rw [List.foldl_cons, show done ++ e :: es = (done ++ [e]) ++ es by simp]
    exact pickFold_ok h hM es _ _ (fun x hx => he x (by simp [hx])) (pickStep_ok h hM hs (he e (by simp)))

theorem pick_ok {net : Net} {g : WG} {M : ℕ → ℕ → ℚ} (h : Holds net g) (hM : Inside net.n M) (add rem : Option (ℕ × ℕ)) :
    ((∃ e, Missing net.n g e) → ∃ a, (pickLinks net M add rem).add = some a ∧ Missing net.n g a ∧
      ∀ e, Missing net.n g e → M e.1 e.2 ≤ M a.1 a.2) ∧
    ((∃ e, Linked net.n g e) → ∃ r, (pickLinks net M add rem).rem = some r ∧ Linked net.n g r ∧
      ∀ e, Linked net.n g e → M r.1 r.2 ≤ M e.1 e.2) := by
  have k := pickFold_ok h hM (MD.pairs net.n) [] { maxS := 0, minS := 1, add := add, rem := rem }
    (fun e he => by have := mem_pairs (a := e.1) (b := e.2) |>.1 he; omega)
    ⟨Or.inl ⟨rfl, by simp⟩, Or.inl ⟨rfl, by simp⟩⟩
  rw [List.nil_append] at k
  have mem : ∀ e : ℕ × ℕ, e.1 < e.2 → e.2 < net.n → e ∈ MD.pairs net.n := fun e h1 h2 =>
    (mem_pairs (a := e.1) (b := e.2)).2 ⟨h1, h2⟩
  constructor
  · rintro ⟨e, he⟩
    rcases k.add with ⟨-, c⟩ | ⟨a, -, c2, c3, -, c5⟩
    · exact absurd he (c e (mem e he.1 he.2.1))
    · exact ⟨a, c2, c3, fun x hx => c5 x (mem x hx.1 hx.2.1) hx⟩
  · rintro ⟨e, he⟩
    rcases k.rem with ⟨-, c⟩ | ⟨a, -, c2, c3, -, c5⟩
    · exact absurd he (c e (mem e he.1 he.2.1))
    · exact ⟨a, c2, c3, fun x hx => c5 x (mem x hx.1 hx.2.1) hx⟩

/-- With no missing link the pointer of the link to add is not assigned; with no link, the other. -/
theorem pick_none {net : Net} {g : WG} {M : ℕ → ℕ → ℚ} (h : Holds net g) :
    ((∀ e, ¬ Missing net.n g e) → (pickLinks net M none none).add = none) ∧
    ((∀ e, ¬ Linked net.n g e) → (pickLinks net M none none).rem = none) := by
  have key : ∀ (es : List (ℕ × ℕ)) (s : Pick), (∀ e ∈ es, e.1 < e.2 ∧ e.2 < net.n) →
      ((∀ e, ¬ Missing net.n g e) → (es.foldl (pickStep net M) s).add = s.add) ∧
      ((∀ e, ¬ Linked net.n g e) → (es.foldl (pickStep net M) s).rem = s.rem) := by
    intro es
    induction es with
    | nil => intro s _; exact ⟨fun _ => rfl, fun _ => rfl⟩
    | cons e es ih =>
      intro s he
      rw [List.foldl_cons]
      obtain ⟨i1, i2⟩ := ih (pickStep net M s e) (fun x hx => he x (by simp [hx]))
      have hee := he e (by simp)
      have hl := isLink_eq h (i := e.1) (by omega) e.2
      constructor
      · intro hm
        rw [i1 hm]
        have : IsThereLink net e.1 e.2 = true := by
          rw [hl]
          by_contra c
          exact hm e ⟨hee.1, hee.2, by simpa using c⟩
        unfold pickStep
        rw [this]
        simp only [Bool.true_eq_false, and_false, if_false, and_true]
        split_ifs <;> rfl
      · intro hm
        rw [i2 hm]
        have : IsThereLink net e.1 e.2 = false := by
          rw [hl]
          by_contra c
          exact hm e ⟨hee.1, hee.2, by simpa [Option.isSome_iff_ne_none] using c⟩
        unfold pickStep
        rw [this]
        simp only [Bool.false_eq_true, and_false, if_false, and_true]
        split_ifs <;> rfl
  exact key _ _ (fun e he => by have := mem_pairs (a := e.1) (b := e.2) |>.1 he; omega)

/-! ## C108: the whole procedure -/

variable {R : Type} [LinearOrder R]

/-- A simple network of `n` nodes with the links of `g`. -/
structure Simple (n : ℕ) (label : ℕ → String) (net : Net) (g : WG) : Prop where
  nodes : net.n = n
  labels : ∀ i < n, net.label i = label i
  rep : Rep net g
  simple : SymSimple n g

/-- The score function and the link score function are defined on simple networks, and the link scores
are strictly between 0 and 1 (C106, C31). -/
structure Scoring (n : ℕ) (label : ℕ → String) (netScore : Net → Tape → Res (R × Tape))
    (linkScore : Net → Tape → Res ((ℕ → ℕ → ℚ) × Tape)) : Prop where
  net : ∀ net g t, Simple n label net g → (netScore net t).Holds fun _ => True
  link : ∀ net g t, Simple n label net g → (linkScore net t).Holds fun r => Inside n r.1

/-- What holds of the network and the score kept by the procedure: `E` the links and `score0` the score
of the observed network. -/
structure RecOK (n : ℕ) (label : ℕ → String) (netScore : Net → Tape → Res (R × Tape)) (E : Finset (ℕ × ℕ)) (score0 : R)
    (net : Net) (score : R) : Prop where
  exist : ∃ g, Simple n label net g ∧ (edges n g).card = E.card ∧ (score = score0 → edges n g = E) ∧
    ∃ net1 g1 t t', Simple n label net1 g1 ∧ edges n g1 = edges n g ∧ netScore net1 t = .ok (score, t')
  le : score0 ≤ score

theorem exists_linked {n : ℕ} {g : WG} (h : 0 < (edges n g).card) : ∃ e, Linked n g e := by
  obtain ⟨e, he⟩ := Finset.card_pos.1 h
  exact ⟨e, (mem_edges (i := e.1) (j := e.2)).1 he⟩

/-- All pairs of nodes. -/
def allEdges (n : ℕ) : Finset (ℕ × ℕ) := edges n fun _ _ => some 0

theorem exists_missing {n : ℕ} {g : WG} (h : (edges n g).card < (allEdges n).card) : ∃ e, Missing n g e := by
  by_contra c
  apply absurd h
  rw [not_lt]
  apply Finset.card_le_card
  rintro ⟨i, j⟩ he
  obtain ⟨h1, h2, -⟩ := mem_edges.1 he
  rw [mem_edges]
  refine ⟨h1, h2, ?_⟩
  by_contra c'
  exact c ⟨(i, j), h1, h2, by simpa using c'⟩

theorem recStep_ok {n : ℕ} {label : ℕ → String} {netScore : Net → Tape → Res (R × Tape)}
    {linkScore : Net → Tape → Res ((ℕ → ℕ → ℚ) × Tape)} (hsc : Scoring n label netScore linkScore) {E : Finset (ℕ × ℕ)}
    (hE : 0 < E.card) (hE' : E.card < (allEdges n).card) {score0 : R} {M : ℕ → ℕ → ℚ} (hM : Inside n M) {s : Rec R}
    (hs : RecOK n label netScore E score0 s.net s.score) :
    (recStep netScore M s).Holds fun s' => RecOK n label netScore E score0 s'.net s'.score := by
  obtain ⟨⟨g, hg, hcard, heq, net1, g1, t1, t2, hs1, hed, hval⟩, hle⟩ := hs
  obtain ⟨pa, pr⟩ := pick_ok hg.rep.1 (by rw [hg.nodes]; exact hM) s.add s.rem
  rw [hg.nodes] at pa pr
  obtain ⟨a, pa1, ⟨pa2, pa3, pa4⟩, -⟩ := pa (exists_missing (by rw [hcard]; exact hE'))
  obtain ⟨r, pr1, ⟨pr2, pr3, pr4⟩, -⟩ := pr (exists_linked (by rw [hcard]; exact hE))
  obtain ⟨net', k1, k2, k3, k4⟩ := swap_ok hg.rep (by rw [hg.nodes]; exact hg.simple) (a := a) (r := r)
    ⟨pa2, by rw [hg.nodes]; exact pa3⟩ ⟨pr2, by rw [hg.nodes]; exact pr3⟩ pa4 pr4
  obtain ⟨x1, x2⟩ := edges_exchanged (n := n) ⟨pa2, pa3⟩ ⟨pr2, pr3⟩ pa4 pr4
  have hg' : Simple n label net' (exchanged g a r) := ⟨k2.trans hg.nodes, by rw [k3]; exact hg.labels, k4,
    exchanged_simple hg.simple ⟨by omega, pa3⟩ (by omega)⟩
  have hne : a ≠ r := by rintro rfl; rw [pa4] at pr4; cases pr4
  have y1 : exchanged g a r r.1 r.2 = none := by rw [exchanged_apply, if_pos (Or.inl ⟨rfl, rfl⟩)]
  have y2 : (exchanged g a r a.1 a.2).isSome := by
    rw [exchanged_apply, if_neg, if_pos (Or.inl ⟨rfl, rfl⟩)]
    · rfl
    · rintro (⟨h1, h2⟩ | ⟨h1, h2⟩)
      · exact hne (Prod.ext h1 h2)
      · omega
  unfold recStep
  simp only [pa1, pr1, k1, Res.ofOption_some, Res.bind_ok]
  have hN := hsc.net net' _ s.tape hg'
  cases hv : netScore net' s.tape with
  | ub => rw [hv] at hN; exact absurd hN (Res.holds_ub _)
  | starved => trivial
  | ok v =>
    obtain ⟨score, t⟩ := v
    simp only [Res.bind_ok]
    split_ifs with hlt
    · refine ⟨⟨_, hg', x2.trans hcard, fun h => ?_, net', _, _, _, hg', rfl, hv⟩, (hle.trans_lt hlt).le⟩
      exact absurd (hle.trans_lt hlt) (by rw [show score = score0 from h]; exact lt_irrefl _)
    · obtain ⟨net'', l1, l2, l3, l4⟩ := swap_ok hg'.rep (by rw [hg'.nodes]; exact hg'.simple) (a := r) (r := a)
        ⟨pr2, by rw [hg'.nodes]; exact pr3⟩ ⟨pa2, by rw [hg'.nodes]; exact pa3⟩ y1 y2
      obtain ⟨z1, z2⟩ := edges_exchanged (n := n) ⟨pr2, pr3⟩ ⟨pa2, pa3⟩ y1 y2
      have back : edges n (exchanged (exchanged g a r) r a) = edges n g := by
        rw [z1, x1, Finset.insert_erase (Finset.mem_insert_of_mem ((mem_edges (i := r.1) (j := r.2)).2 ⟨pr2, pr3, pr4⟩)),
          Finset.erase_insert]
        intro h
        have := (mem_edges (i := a.1) (j := a.2)).1 h
        rw [pa4] at this
        exact absurd this.2.2 (by simp)
      simp only [l1, Res.ofOption_some, Res.bind_ok]
      exact ⟨⟨_, ⟨l2.trans hg'.nodes, by rw [l3]; exact hg'.labels, l4,
        exchanged_simple hg'.simple ⟨by omega, pr3⟩ (by omega)⟩, by rw [back]; exact hcard,
        fun h => by rw [back]; exact heq h, net1, g1, t1, t2, hs1, by rw [back]; exact hed, hval⟩, hle⟩

theorem recInner_ok {n : ℕ} {label : ℕ → String} {netScore : Net → Tape → Res (R × Tape)}
    {linkScore : Net → Tape → Res ((ℕ → ℕ → ℚ) × Tape)} (hsc : Scoring n label netScore linkScore) {E : Finset (ℕ × ℕ)}
    (hE : 0 < E.card) (hE' : E.card < (allEdges n).card) {score0 : R} {M : ℕ → ℕ → ℚ} (hM : Inside n M) :
    ∀ (fuel : ℕ) (s : Rec R), RecOK n label netScore E score0 s.net s.score →
    (recInner netScore M fuel s).Holds fun s' => RecOK n label netScore E score0 s'.net s'.score
  | 0, _, _ => trivial
  | fuel + 1, s, hs => by
    unfold recInner
    refine (recStep_ok hsc hE hE' hM hs).bind fun s' hs' => ?_
    split_ifs
    · exact recInner_ok hsc hE hE' hM fuel s' hs'
    · exact hs'

theorem recOuter_ok {n : ℕ} {label : ℕ → String} {netScore : Net → Tape → Res (R × Tape)}
    {linkScore : Net → Tape → Res ((ℕ → ℕ → ℚ) × Tape)} (hsc : Scoring n label netScore linkScore) {E : Finset (ℕ × ℕ)}
    (hE : 0 < E.card) (hE' : E.card < (allEdges n).card) {score0 : R} (inner : ℕ) :
    ∀ (fuel : ℕ) (s : Rec R), RecOK n label netScore E score0 s.net s.score →
    (recOuter netScore linkScore inner fuel s).Holds fun s' => RecOK n label netScore E score0 s'.net s'.score
  | 0, _, _ => trivial
  | fuel + 1, s, hs => by
    unfold recOuter
    obtain ⟨g, hg, -⟩ := hs.exist
    refine (hsc.link s.net g s.tape hg).bind ?_
    rintro ⟨M, t⟩ hM
    refine (recInner_ok hsc hE hE' hM inner _ (by exact hs)).bind fun s' hs' => ?_
    split_ifs
    · exact recOuter_ok hsc hE hE' inner fuel s' hs'
    · exact hs'

/-- The copy the procedure works on. -/
theorem copy_simple {obs : Net} {g : WG} (h : Holds obs g) (hg : SymSimple obs.n g) (hl : LabelsOK obs)
    (hf : ∀ i, i < obs.n → fits (obs.label i) = true)
    (hd : ∀ i k, i < obs.n → k < obs.n → obs.label i = obs.label k → i = k) :
    ∃ net, CopyNetwork obs = some net ∧ Simple obs.n obs.label net g := by
  obtain ⟨net, h1, h2, h3, h4, h5⟩ := copy_ok h hl hf hd
  refine ⟨net, h1, h2, h3, ⟨?_, ?_⟩, hg⟩
  · intro i hi
    rw [h2] at hi ⊢
    rw [h4 i hi]
    exact h i hi
  · intro i hi
    rw [h2] at hi
    exact ⟨Or.inl (h5 i hi).1, Or.inl (h5 i hi).2⟩

/-- **C108** (partial: there must be a link and a missing link, see `C108_undefined`; weights are lost, see
`C108_weights_refuted`; the score functions are arguments). `NetReconstruct` returns a simple network with the
nodes of the observed one and as many links. Its score is at least that of the observed network, and is a
score computed for a network with the very links of the one returned; if no better score was found, the
links are those observed. -/
theorem C108_reconstruct_partial {netScore : Net → Tape → Res (R × Tape)}
    {linkScore : Net → Tape → Res ((ℕ → ℕ → ℚ) × Tape)} {obs : Net} {g : WG} (h : Holds obs g) (hg : SymSimple obs.n g)
    (hl : LabelsOK obs) (hf : ∀ i, i < obs.n → fits (obs.label i) = true)
    (hd : ∀ i k, i < obs.n → k < obs.n → obs.label i = obs.label k → i = k)
    (hsc : Scoring obs.n obs.label netScore linkScore) (hlk : ∃ e, Linked obs.n g e) (hms : ∃ e, Missing obs.n g e)
    (inner outer : ℕ) (t : Tape) :
    (NetReconstruct netScore linkScore inner outer obs t).Holds fun s =>
      ∃ score0 t0, (∃ net0, Simple obs.n obs.label net0 g ∧ netScore net0 t = .ok (score0, t0)) ∧
        score0 ≤ s.score ∧ ∃ g', Simple obs.n obs.label s.net g' ∧ (edges obs.n g').card = (edges obs.n g).card ∧
          (s.score = score0 → edges obs.n g' = edges obs.n g) ∧
          ∃ net1 g1 t t', Simple obs.n obs.label net1 g1 ∧ edges obs.n g1 = edges obs.n g' ∧
            netScore net1 t = .ok (s.score, t') := by
  obtain ⟨net, h1, h2⟩ := copy_simple h hg hl hf hd
  unfold NetReconstruct
  simp only [h1, Res.ofOption_some, Res.bind_ok]
  have hN := hsc.net net _ t h2
  cases hv : netScore net t with
  | ub => rw [hv] at hN; exact absurd hN (Res.holds_ub _)
  | starved => trivial
  | ok v =>
    obtain ⟨score0, t0⟩ := v
    simp only [Res.bind_ok]
    have hE : 0 < (edges obs.n g).card := by
      obtain ⟨e, he⟩ := hlk
      exact Finset.card_pos.2 ⟨e, (mem_edges (i := e.1) (j := e.2)).2 he⟩
    have hE' : (edges obs.n g).card < (allEdges obs.n).card := by
      obtain ⟨e, e1, e2, e3⟩ := hms
      apply Finset.card_lt_card
      rw [Finset.ssubset_iff_of_subset]
      · refine ⟨e, (mem_edges (i := e.1) (j := e.2)).2 ⟨e1, e2, rfl⟩, fun c => ?_⟩
        have := (mem_edges (i := e.1) (j := e.2)).1 c
        rw [e3] at this
        exact absurd this.2.2 (by simp)
      · rintro ⟨i, j⟩ hij
        have := mem_edges.1 hij
        exact mem_edges.2 ⟨this.1, this.2.1, rfl⟩
    refine (recOuter_ok hsc hE hE' (score0 := score0) inner outer _ ?_).mono ?_
    · exact ⟨⟨g, h2, rfl, fun _ => rfl, net, g, t, t0, h2, rfl, hv⟩, le_refl _⟩
    · rintro s ⟨⟨g', k1, k2, k3, k4⟩, hle⟩
      exact ⟨score0, t0, ⟨net, h2, hv⟩, hle, g', k1, k2, k3, k4⟩

/-- One turn exchanges a missing link of largest score for a link of smallest score, and keeps the exchange
exactly if the score grows. -/
theorem C108_exchange {n : ℕ} {label : ℕ → String} {netScore : Net → Tape → Res (R × Tape)} {M : ℕ → ℕ → ℚ}
    (hM : Inside n M) {s s' : Rec R} {g : WG} (hg : Simple n label s.net g) (hlk : ∃ e, Linked n g e)
    (hms : ∃ e, Missing n g e) (h : recStep netScore M s = .ok s') :
    ∃ a r net1 score t, Missing n g a ∧ (∀ e, Missing n g e → M e.1 e.2 ≤ M a.1 a.2) ∧
      Linked n g r ∧ (∀ e, Linked n g e → M r.1 r.2 ≤ M e.1 e.2) ∧
      Simple n label net1 (exchanged g a r) ∧ netScore net1 s.tape = .ok (score, t) ∧ s'.tape = t ∧
      ∃ g', Simple n label s'.net g' ∧
      (s.score < score → edges n g' = (insert a (edges n g)).erase r ∧ s'.score = score ∧ s'.rejected = 0) ∧
      (¬ s.score < score → edges n g' = edges n g ∧ s'.score = s.score ∧ s'.rejected = s.rejected + 1) := by
  obtain ⟨pa, pr⟩ := pick_ok hg.rep.1 (by rw [hg.nodes]; exact hM) s.add s.rem
  rw [hg.nodes] at pa pr
  obtain ⟨a, pa1, ⟨pa2, pa3, pa4⟩, pa5⟩ := pa hms
  obtain ⟨r, pr1, ⟨pr2, pr3, pr4⟩, pr5⟩ := pr hlk
  obtain ⟨net', k1, k2, k3, k4⟩ := swap_ok hg.rep (by rw [hg.nodes]; exact hg.simple) (a := a) (r := r)
    ⟨pa2, by rw [hg.nodes]; exact pa3⟩ ⟨pr2, by rw [hg.nodes]; exact pr3⟩ pa4 pr4
  obtain ⟨x1, x2⟩ := edges_exchanged (n := n) ⟨pa2, pa3⟩ ⟨pr2, pr3⟩ pa4 pr4
  have hg' : Simple n label net' (exchanged g a r) := ⟨k2.trans hg.nodes, by rw [k3]; exact hg.labels, k4,
    exchanged_simple hg.simple ⟨by omega, pa3⟩ (by omega)⟩
  have hne : a ≠ r := by rintro rfl; rw [pa4] at pr4; cases pr4
  have y1 : exchanged g a r r.1 r.2 = none := by rw [exchanged_apply, if_pos (Or.inl ⟨rfl, rfl⟩)]
  have y2 : (exchanged g a r a.1 a.2).isSome := by
    rw [exchanged_apply, if_neg, if_pos (Or.inl ⟨rfl, rfl⟩)]
    · rfl
    · rintro (⟨h1, h2⟩ | ⟨h1, h2⟩)
      · exact hne (Prod.ext h1 h2)
      · omega
  unfold recStep at h
  simp only [pa1, pr1, k1, Res.ofOption_some, Res.bind_ok] at h
  cases hv : netScore net' s.tape with
  | ub => rw [hv] at h; simp at h
  | starved => rw [hv] at h; simp at h
  | ok v =>
    obtain ⟨score, t⟩ := v
    rw [hv] at h
    simp only [Res.bind_ok] at h
    refine ⟨a, r, net', score, t, ⟨pa2, pa3, pa4⟩, pa5, ⟨pr2, pr3, pr4⟩, pr5, hg', hv, ?_⟩
    split_ifs at h with hlt
    · cases h
      exact ⟨rfl, _, hg', fun _ => ⟨x1, rfl, rfl⟩, fun c => absurd hlt c⟩
    · obtain ⟨net'', l1, l2, l3, l4⟩ := swap_ok hg'.rep (by rw [hg'.nodes]; exact hg'.simple) (a := r) (r := a)
        ⟨pr2, by rw [hg'.nodes]; exact pr3⟩ ⟨pa2, by rw [hg'.nodes]; exact pa3⟩ y1 y2
      obtain ⟨z1, z2⟩ := edges_exchanged (n := n) ⟨pr2, pr3⟩ ⟨pa2, pa3⟩ y1 y2
      simp only [l1, Res.ofOption_some, Res.bind_ok] at h
      cases h
      refine ⟨rfl, _, ⟨l2.trans hg'.nodes, by rw [l3]; exact hg'.labels, l4,
        exchanged_simple hg'.simple ⟨by omega, pr3⟩ (by omega)⟩, fun c => absurd c hlt, fun _ => ⟨?_, rfl, rfl⟩⟩
      rw [z1, x1, Finset.insert_erase (Finset.mem_insert_of_mem ((mem_edges (i := r.1) (j := r.2)).2 ⟨pr2, pr3, pr4⟩)),
        Finset.erase_insert]
      intro h
      have := (mem_edges (i := a.1) (j := a.2)).1 h
      rw [pa4] at this
      exact absurd this.2.2 (by simp)

/-- The inner loop ends with the fifth exchange in a row that is not kept (`C108_exchange`: `rejected` counts them). -/
theorem C108_five {netScore : Net → Tape → Res (R × Tape)} {M : ℕ → ℕ → ℚ} : ∀ (fuel : ℕ) {s s' : Rec R}, s.rejected < 5 →
    recInner netScore M fuel s = .ok s' → s'.rejected = 5
  | 0, _, _, _, h => by cases h
  | fuel + 1, s, s', hs, h => by
    unfold recInner at h
    cases e : recStep netScore M s with
    | ub => rw [e] at h; cases h
    | starved => rw [e] at h; cases h
    | ok s1 =>
      rw [e] at h
      simp only [Res.bind_ok] at h
      split_ifs at h with h5
      · exact C108_five fuel h5 h
      · cases h
        have : s'.rejected ≤ s.rejected + 1 := by
          unfold recStep at e
          dsimp only at e
          generalize (pickLinks s.net M s.add s.rem).add = A at e
          generalize (pickLinks s.net M s.add s.rem).rem = B at e
          rcases A with - | a
          · cases e
          rcases B with - | r
          · cases e
          · dsimp only at e
            cases e1 : swapLinks s.net a r with
            | none => rw [e1] at e; cases e
            | some net =>
              rw [e1] at e
              simp only [Res.ofOption_some, Res.bind_ok] at e
              cases e2 : netScore net s.tape with
              | ub => rw [e2] at e; cases e
              | starved => rw [e2] at e; cases e
              | ok v =>
                rw [e2] at e
                simp only [Res.bind_ok] at e
                split_ifs at e
                · cases e; exact Nat.zero_le _
                · cases e3 : swapLinks net r a with
                  | none => simp [e3] at e
                  | some net' => rw [e3] at e; cases e; exact le_refl _
        omega

/-- The choice depends only on which pairs are linked: after a rejected exchange the same one is tried. -/
theorem C108_same_again {n : ℕ} {label : ℕ → String} {M : ℕ → ℕ → ℚ} {net net' : Net} {g g' : WG}
    (h : Simple n label net g) (h' : Simple n label net' g') (he : edges n g' = edges n g)
    (add rem : Option (ℕ × ℕ)) : pickLinks net' M add rem = pickLinks net M add rem := by
  unfold pickLinks
  rw [h.nodes, h'.nodes]
  have key : ∀ (es : List (ℕ × ℕ)) (s : Pick), (∀ e ∈ es, e.1 < e.2 ∧ e.2 < n) →
      es.foldl (pickStep net' M) s = es.foldl (pickStep net M) s := by
    intro es
    induction es with
    | nil => intro s _; rfl
    | cons e es ih =>
      intro s hs
      have hee := hs e (by simp)
      have : IsThereLink net' e.1 e.2 = IsThereLink net e.1 e.2 := by
        rw [isLink_eq h.rep.1 (by rw [h.nodes]; omega), isLink_eq h'.rep.1 (by rw [h'.nodes]; omega)]
        have m1 := mem_edges (n := n) (g := g) (i := e.1) (j := e.2)
        have m2 := mem_edges (n := n) (g := g') (i := e.1) (j := e.2)
        rw [he] at m2
        rw [Bool.eq_iff_iff]
        tauto
      rw [List.foldl_cons, List.foldl_cons,
        show pickStep net' M s e = pickStep net M s e by unfold pickStep; rw [this]]
      exact ih _ (fun x hx => hs x (by simp [hx]))
  exact key _ _ (fun e he => by have := mem_pairs (a := e.1) (b := e.2) |>.1 he; omega)

/-- A network without links, or one in which all pairs are linked, has no exchange: the procedure uses
pointers that were never assigned. -/
theorem C108_undefined {netScore : Net → Tape → Res (R × Tape)}
    {linkScore : Net → Tape → Res ((ℕ → ℕ → ℚ) × Tape)} {obs : Net} {g : WG} (h : Holds obs g) (hg : SymSimple obs.n g)
    (hl : LabelsOK obs) (hf : ∀ i, i < obs.n → fits (obs.label i) = true)
    (hd : ∀ i k, i < obs.n → k < obs.n → obs.label i = obs.label k → i = k)
    (hN : ∀ net t, ∃ v, netScore net t = .ok v) (hL : ∀ net t, ∃ v, linkScore net t = .ok v)
    (hno : (∀ e, ¬ Linked obs.n g e) ∨ ∀ e, ¬ Missing obs.n g e) (inner outer : ℕ) (t : Tape) :
    NetReconstruct netScore linkScore (inner + 1) (outer + 1) obs t = .ub := by
  obtain ⟨net, h1, h2⟩ := copy_simple h hg hl hf hd
  obtain ⟨⟨sc, t1⟩, hv⟩ := hN net t
  obtain ⟨⟨M, t2⟩, hw⟩ := hL net t1
  obtain ⟨p1, p2⟩ := pick_none (M := M) h2.rep.1
  rw [h2.nodes] at p1 p2
  unfold NetReconstruct
  simp only [h1, Res.ofOption_some, Res.bind_ok, hv]
  unfold recOuter
  simp only [hw, Res.bind_ok]
  unfold recInner recStep
  dsimp only
  rcases hno with hno | hno
  · rw [p2 hno]
    simp
  · rw [p1 hno]
    simp

/-! ## Concrete networks -/

/-- Three nodes; `0` and `1` are linked with weight `w`. -/
def oneLink (w : ℚ) : Net where
  n := 3
  label i := if i = 0 then "a" else if i = 1 then "b" else "c"
  neig i := if i = 0 then [{ nodeLabel := "b", ref := some 1, weight := w }]
    else if i = 1 then [{ nodeLabel := "a", ref := some 0, weight := w }] else []
  degree _ := 0
  strength _ := 0

/-- Its links. -/
def oneLinkW (w : ℚ) : WG := fun i j => if (i = 0 ∧ j = 1) ∨ (i = 1 ∧ j = 0) then some w else none

theorem oneLink_holds (w : ℚ) : Holds (oneLink w) (oneLinkW w) := by
  intro i hi
  have hi : i < 3 := hi
  interval_cases i
  · refine ⟨by simp [oneLink], ?_, ?_⟩
    · intro l hl
      simp only [oneLink, if_true, List.mem_singleton] at hl
      subst hl
      exact ⟨1, by show _ < 3; omega, rfl, by simp [oneLinkW]⟩
    · intro j v hv
      unfold oneLinkW at hv
      by_cases c : (0 = 0 ∧ j = 1) ∨ (0 = 1 ∧ j = 0)
      · rw [if_pos c] at hv
        have : j = 1 := by omega
        subst this
        cases hv
        exact ⟨_, List.mem_singleton.2 rfl, rfl, rfl⟩
      · rw [if_neg c] at hv
        cases hv
  · refine ⟨by simp [oneLink], ?_, ?_⟩
    · intro l hl
      simp only [oneLink, if_true, List.mem_singleton, one_ne_zero, if_false] at hl
      subst hl
      exact ⟨0, by show _ < 3; omega, rfl, by simp [oneLinkW]⟩
    · intro j v hv
      unfold oneLinkW at hv
      by_cases c : (1 = 0 ∧ j = 1) ∨ (1 = 1 ∧ j = 0)
      · rw [if_pos c] at hv
        have : j = 0 := by omega
        subst this
        cases hv
        exact ⟨_, List.mem_singleton.2 rfl, rfl, rfl⟩
      · rw [if_neg c] at hv
        cases hv
  · refine ⟨by simp [oneLink], ?_, ?_⟩
    · intro l hl
      simp [oneLink] at hl
    · intro j v hv
      unfold oneLinkW at hv
      rw [if_neg (by omega)] at hv
      cases hv

theorem oneLink_simple (w : ℚ) : SymSimple 3 (oneLinkW w) := by
  refine ⟨fun i j => ?_, fun i => ?_, fun i j h => ?_⟩
  · unfold oneLinkW
    congr 1
    apply propext
    tauto
  · unfold oneLinkW
    rw [if_neg (by omega)]
  · unfold oneLinkW at h
    split_ifs at h with c
    · omega
    · cases h

/-- A score that prefers the link between `0` and `2`. -/
def likes02 (net : Net) (t : Tape) : Res (ℚ × Tape) := .ok (if IsThereLink net 0 2 then 1 else 0, t)

/-- The same score for all networks. -/
def constant (_ : Net) (t : Tape) : Res (ℚ × Tape) := .ok (0, t)

/-- Link scores 1/2, and 2/3 for the pair of `0` and `2`. -/
def someScores (_ : Net) (t : Tape) : Res ((ℕ → ℕ → ℚ) × Tape) := .ok (fun i j => if i = 0 ∧ j = 2 then 2 / 3 else 1 / 2, t)

theorem someScores_ok (f : Net → Tape → Res (ℚ × Tape)) (hf : ∀ net t, ∃ v, f net t = .ok v) :
    Scoring 3 (oneLink 1).label f someScores := by
  constructor
  · intro net g t _
    obtain ⟨v, hv⟩ := hf net t
    rw [hv]
    trivial
  · intro net g t _ i j _ _
    dsimp only
    split_ifs <;> norm_num

/-- The links of an outcome with weights, `none` if there is no outcome. -/
def seen (r : Res (Rec ℚ)) : Option (ℚ × List (ℕ × Option ℕ × ℚ)) :=
  match r with
  | .ok s => some (s.score, (List.range s.net.n).flatMap fun i => (s.net.neig i).map fun l => (i, l.ref, l.weight))
  | _ => none

/-- The hypotheses of `C108_reconstruct_partial` hold, and the link between `0` and `2` is found. -/
example : Holds (oneLink 1) (oneLinkW 1) ∧ SymSimple (oneLink 1).n (oneLinkW 1) ∧ LabelsOK (oneLink 1) ∧
    Scoring (oneLink 1).n (oneLink 1).label likes02 someScores ∧
    seen (NetReconstruct likes02 someScores 10 10 (oneLink 1) []) = some (1, [(0, some 2, 1), (2, some 0, 1)]) := by
  refine ⟨oneLink_holds 1, oneLink_simple 1, ?_, someScores_ok _ (fun net t => ⟨_, rfl⟩), by decide +kernel⟩
  intro i hi l hl j hj
  have hi : i < 3 := hi
  interval_cases i <;> simp [oneLink] at hl <;> subst hl <;> cases hj <;> rfl

/-- **C108** refuted for weights: no exchange is accepted, yet the link returned has weight 1 where the one
observed has weight 5. -/
theorem C108_weights_refuted : ∃ (obs : Net) (g : WG) (s : Rec ℚ) (g' : WG), Holds obs g ∧ SymSimple obs.n g ∧
    Scoring obs.n obs.label constant someScores ∧
    NetReconstruct constant someScores 10 10 obs [] = .ok s ∧ s.score = 0 ∧ constant obs [] = .ok (0, []) ∧
    Holds s.net g' ∧ g 0 1 = some 5 ∧ g' 0 1 = some 1 := by
  have hl : LabelsOK (oneLink 5) := by
    intro i hi l hl j hj
    have hi : i < 3 := hi
    interval_cases i <;> simp [oneLink] at hl <;> subst hl <;> cases hj <;> rfl
  have hf : ∀ i, i < (oneLink 5).n → fits ((oneLink 5).label i) = true := by
    intro i hi
    have hi : i < 3 := hi
    interval_cases i <;> decide
  have hd : ∀ i k, i < (oneLink 5).n → k < (oneLink 5).n → (oneLink 5).label i = (oneLink 5).label k → i = k := by
    intro i k hi hk
    have hi : i < 3 := hi
    have hk : k < 3 := hk
    interval_cases i <;> interval_cases k <;> simp [oneLink]
  have hs : Scoring (oneLink 5).n (oneLink 5).label constant someScores := someScores_ok _ (fun net t => ⟨_, rfl⟩)
  have key := C108_reconstruct_partial (oneLink_holds 5) (oneLink_simple 5) hl hf hd hs
    ⟨(0, 1), by decide, by decide, by simp [oneLinkW]⟩ ⟨(0, 2), by decide, by decide, by simp [oneLinkW]⟩ 10 10 []
  have run : seen (NetReconstruct constant someScores 10 10 (oneLink 5) []) = some (0, [(0, some 1, 1), (1, some 0, 1)]) := by
    decide +kernel
  have w : ∀ s, NetReconstruct constant someScores 10 10 (oneLink 5) [] = .ok s →
      s.score = 0 ∧ ∀ l ∈ s.net.neig 0, 0 < s.net.n → l.weight = 1 := by
    intro s hs
    rw [hs] at run
    simp only [seen, Option.some.injEq, Prod.mk.injEq] at run
    refine ⟨run.1, fun l hl h0 => ?_⟩
    have : (0, l.ref, l.weight) ∈ (List.range s.net.n).flatMap fun i => (s.net.neig i).map fun l => (i, l.ref, l.weight) :=
      List.mem_flatMap.2 ⟨0, List.mem_range.2 h0, List.mem_map.2 ⟨l, hl, rfl⟩⟩
    rw [run.2] at this
    simp at this
    exact this.2
  cases hr : NetReconstruct constant someScores 10 10 (oneLink 5) [] with
  | ub => rw [hr] at run; cases run
  | starved => rw [hr] at run; cases run
  | ok s =>
    rw [hr] at key
    obtain ⟨score0, t0, ⟨net0, -, q⟩, -, g', h1, -, h3, -⟩ := key
    obtain ⟨w1, w2⟩ := w s hr
    refine ⟨oneLink 5, oneLinkW 5, s, g', oneLink_holds 5, oneLink_simple 5, hs, hr, w1, rfl, h1.rep.1, by simp [oneLinkW], ?_⟩
    have e : edges 3 g' = edges 3 (oneLinkW 5) := h3 (by
      rw [w1]; unfold constant at q; cases q; rfl)
    have m : ((0, 1) : ℕ × ℕ) ∈ edges 3 g' := by
      rw [e]; exact mem_edges.2 ⟨by decide, by decide, by simp [oneLinkW]⟩
    obtain ⟨-, -, m⟩ := mem_edges.1 m
    obtain ⟨v, hv⟩ := Option.isSome_iff_exists.1 m
    have n0 : 0 < s.net.n := by rw [h1.nodes]; decide
    obtain ⟨l, hl1, hl2⟩ := (row_mem_iff (h1.rep.1 0 n0) 1).2 m
    have hw := w2 l hl1 n0
    obtain ⟨k, -, hk, hv'⟩ := (h1.rep.1 0 n0).2.1 l hl1
    rw [hl2] at hk
    cases hk
    rw [hv', hw]

/-- The complete network of two nodes: undefined, by `C108_undefined`. -/
example : (match NetReconstruct constant someScores 10 10
    { n := 2, label := fun i => if i = 0 then "a" else "b",
      neig := fun i => if i = 0 then [{ nodeLabel := "b", ref := some 1, weight := 1 }] else [{ nodeLabel := "a", ref := some 0, weight := 1 }],
      degree := fun _ => 0, strength := fun _ => 0 } [] with | .ub => true | _ => false) = true := by
  decide +kernel

/-- Scores above 1/2 become links. -/
example : (NetFromSBMScores (oneLink 1) (fun i j => if i = 0 ∧ j = 2 then 2 / 3 else 1 / 2)).map
    (fun net => (List.range net.n).flatMap fun i => (net.neig i).map fun l => (i, l.ref, l.weight)) =
    some [(0, some 2, 0), (2, some 0, 0)] := by
  decide +kernel

end NR
