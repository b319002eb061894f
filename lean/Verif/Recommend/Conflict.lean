import Verif.Recommend.Score

/-!
# C116: scores of all pairs (`src/conflict.c`, `conflict/main_conflict.c`)

`AllLinkScore2State` is the sampler of `MultiLinkScore2State` on the network itself, without a copy and without taking
any rating out, with all pairs as queries.
-/

set_option linter.unusedSimpArgs false

namespace RC

open GP RG LS KS Finset
open BP (Bi)

variable {b : Bi}

/-- The array of queries, src/conflict.c:74-88: all pairs, those of the first node of the first set first. The product
`nnod1*nnod2` is not checked for overflow. -/
def allPairs (b : Bi) : List (ℕ × ℕ) := (List.range b.n1).flatMap fun i => (List.range b.n2).map fun j => (i, j)

/-- `AllLinkScore2State`, src/conflict.c:35-309: the queries with their scores, in order. Same conventions as
`MultiLinkScore2State` (`warm`, `decorStep`, `reset`). Messages are left out. -/
noncomputable def AllLinkScore2State (acc : ℝ → ℚ → Bool) (b : Bi) (nIter : ℕ) (warm : List ℕ) (decorStep : ℕ)
    (reset : Bool) (fuel : ℕ) (t : Tape) : Res (List ((ℕ × ℕ) × Option ℚ)) := do
  let H ← Res.ofOption (H2State b (ownGroups b.n1) (ownGroups b.n2))
  let score ← bRun (MCStep2State acc b) (fun s _ q => score2 s q) nIter warm decorStep reset fuel
    (startView b (ownGroups b.n1) (ownGroups b.n2) H t)
  return (allPairs b).map fun q => (q, score 1 q)

/-- What the program writes, conflict/main_conflict.c:49-60: the scores of the pairs whose labels differ. -/
def conflictLines (l1 l2 : ℕ → String) (r : List ((ℕ × ℕ) × Option ℚ)) : List (String × String × Option ℚ) :=
  (r.filter fun x => l1 x.1.1 ≠ l2 x.1.2).map fun x => (l1 x.1.1, l2 x.1.2, x.2)

theorem allPairs_length (b : Bi) : (allPairs b).length = b.n1 * b.n2 := by
  unfold allPairs
  rw [List.length_flatMap]
  simp

theorem allPairs_mem {b : Bi} {q : ℕ × ℕ} : q ∈ allPairs b ↔ q.1 < b.n1 ∧ q.2 < b.n2 := by
  unfold allPairs
  rw [List.mem_flatMap]
  constructor
  · rintro ⟨i, hi, hq⟩
    obtain ⟨j, hj, rfl⟩ := List.mem_map.1 hq
    exact ⟨List.mem_range.1 hi, List.mem_range.1 hj⟩
  · rintro ⟨h1, h2⟩
    exact ⟨q.1, List.mem_range.2 h1, List.mem_map.2 ⟨q.2, List.mem_range.2 h2, rfl⟩⟩

theorem pairs_get (n2 : ℕ) : ∀ (n1 i j : ℕ), i < n1 → j < n2 →
    ((List.range n1).flatMap fun i => (List.range n2).map fun j => (i, j))[i * n2 + j]? = some (i, j)
  | 0, i, j, hi, _ => by omega
  | n1 + 1, i, j, hi, hj => by
    have hlen : ((List.range n1).flatMap fun i => (List.range n2).map fun j => (i, j)).length = n1 * n2 := by
      rw [List.length_flatMap]; simp
    rw [List.range_succ, List.flatMap_append]
    by_cases h : i < n1
    · have hlt : i * n2 + j < n1 * n2 := by nlinarith
      rw [List.getElem?_append_left (by rw [hlen]; exact hlt)]
      exact pairs_get n2 n1 i j h hj
    · have e : i = n1 := by omega
      subst e
      rw [List.getElem?_append_right (by rw [hlen]; omega), hlen, Nat.add_sub_cancel_left]
      simp [hj]

theorem allPairs_nodup (b : Bi) : (allPairs b).Nodup := by
  unfold allPairs
  refine List.nodup_flatMap.2 ⟨fun i _ => (List.nodup_range).map fun _ _ e => (Prod.mk.inj e).2, ?_⟩
  refine (List.nodup_range).imp ?_
  intro i j hij x hx hy
  obtain ⟨_, _, rfl⟩ := List.mem_map.1 hx
  obtain ⟨_, _, e⟩ := List.mem_map.1 hy
  exact hij (Prod.mk.inj e).1.symm

/-- **C116**: the query of the pair `(i, j)` is number `i * n2 + j` of the array, and its score is the mean over `nIter`
sampled pairs of partitions of `(l + 1) / (r + 2)`, counted on all ratings; it lies strictly between 0 and 1. The call
is defined. -/
theorem C116_scores (h : b.OK) (hr : b.Rated 2) (h1 : 0 < b.n1) (h2 : 0 < b.n2) (acc : ℝ → ℚ → Bool) {nIter : ℕ}
    (hn : 0 < nIter) (warm : List ℕ) (decorStep : ℕ) (reset : Bool) (fuel : ℕ) (t : Tape) :
    (AllLinkScore2State acc b nIter warm decorStep reset fuel t).Holds fun r =>
      r.length = b.n1 * b.n2 ∧ r.map (·.1) = allPairs b ∧
      ∃ S, S.length = nIter ∧ (∀ f ∈ S, Assigned b f) ∧ ∀ i < b.n1, ∀ j < b.n2,
        ∃ x, r[i * b.n2 + j]? = some ((i, j), some x) ∧ x = Means b 2 nIter S 1 (i, j) ∧ 0 < x ∧ x < 1 := by
  unfold AllLinkScore2State
  obtain ⟨H, hH, hs⟩ := start2 h hr t
  rw [hH]
  simp only [Res.ofOption_some, Res.bind_ok]
  have := run_means (c := b) (K := 2) (R := fun k => k = 1) (step := MCStep2State acc b) (f := fun s _ q => score2 s q)
    (I := fun s => ∃ off, Inv2 b off s) (fun s ⟨_, h⟩ => h.1)
    (fun s ⟨off, h⟩ => ⟨s.H + off, ⟨h.1.part, h.1.full, h.1.opart, h.1.ofull, h.1.n, h.1.ninv, h.1.g, h.1.ginv, h.1.ng, h.1.ong⟩,
      by dsimp only; rw [h.2, zero_add]⟩)
    (fun n s ⟨off, hs⟩ => (C34_step h hr h1 h2 acc off n hs).mono fun _ h => ⟨off, h⟩)
    (fun s ⟨off, h⟩ k hk q hq1 hq2 => by rw [hk]; exact score2_eq h.1 hq1 hq2) hn warm decorStep reset fuel ⟨0, hs⟩
  refine this.bind ?_
  rintro score ⟨S, g1, g2, g3⟩
  refine ⟨by rw [List.length_map, allPairs_length], by rw [List.map_map]; exact List.map_id _, S, g1, g2, ?_⟩
  intro i hi j hj
  refine ⟨Means b 2 nIter S 1 (i, j), ?_, rfl, means_pos hn g1 (by norm_num) 1 _, ?_⟩
  · rw [List.getElem?_map]
    unfold allPairs
    rw [pairs_get b.n2 b.n1 i j hi hj, Option.map_some, g3 1 rfl (i, j) hi hj]
  · have e := means_sum (c := b) (K := 2) hn g1 (by norm_num) (i, j)
    have := means_pos (c := b) (K := 2) hn g1 (by norm_num) 0 (i, j)
    rw [sum_range_succ, sum_range_succ, sum_range_zero] at e
    linarith

/-- **C116**: the program writes exactly one line for each pair of nodes with different labels, if the labels of each
set are distinct; none is lost or repeated, and every line has a score. -/
theorem C116_lines (h : b.OK) (hr : b.Rated 2) (h1 : 0 < b.n1) (h2 : 0 < b.n2) (acc : ℝ → ℚ → Bool) {nIter : ℕ}
    (hn : 0 < nIter) (warm : List ℕ) (decorStep : ℕ) (reset : Bool) (fuel : ℕ) (t : Tape) {l1 l2 : ℕ → String}
    (d1 : ∀ i < b.n1, ∀ j < b.n1, l1 i = l1 j → i = j) (d2 : ∀ i < b.n2, ∀ j < b.n2, l2 i = l2 j → i = j) :
    (AllLinkScore2State acc b nIter warm decorStep reset fuel t).Holds fun r =>
      ((conflictLines l1 l2 r).map fun x => (x.1, x.2.1)).Nodup ∧
      (∀ i < b.n1, ∀ j < b.n2, l1 i ≠ l2 j → ∃ x, (l1 i, l2 j, some x) ∈ conflictLines l1 l2 r ∧ 0 < x ∧ x < 1) ∧
      ∀ x ∈ conflictLines l1 l2 r, x.1 ≠ x.2.1 ∧ ∃ i < b.n1, ∃ j < b.n2, x.1 = l1 i ∧ x.2.1 = l2 j := by
  refine (C116_scores h hr h1 h2 acc hn warm decorStep reset fuel t).mono ?_
  rintro r ⟨_, hp, S, -, -, hS⟩
  have hmem : ∀ x ∈ r, x.1.1 < b.n1 ∧ x.1.2 < b.n2 := fun x hx =>
    allPairs_mem.1 (hp ▸ List.mem_map_of_mem (f := (·.1)) hx)
  have hnd : (r.map (·.1)).Nodup := by rw [hp]; exact allPairs_nodup b
  refine ⟨?_, ?_, ?_⟩
  · unfold conflictLines
    rw [List.map_map]
    refine List.Nodup.map_on ?_ ((List.Nodup.of_map _ hnd).filter _)
    intro x hx y hy e
    have hx := (List.mem_filter.1 hx).1
    have hy := (List.mem_filter.1 hy).1
    obtain ⟨e1, e2⟩ := Prod.mk.inj e
    have e1 := d1 _ (hmem x hx).1 _ (hmem y hy).1 e1
    have e2 := d2 _ (hmem x hx).2 _ (hmem y hy).2 e2
    exact List.inj_on_of_nodup_map hnd hx hy (Prod.ext e1 e2)
  · intro i hi j hj hne
    obtain ⟨x, hx, -, p, q⟩ := hS i hi j hj
    refine ⟨x, ?_, p, q⟩
    unfold conflictLines
    exact List.mem_map.2 ⟨((i, j), some x), List.mem_filter.2 ⟨List.mem_of_getElem? hx, by simpa using hne⟩, rfl⟩
  · intro x hx
    unfold conflictLines at hx
    obtain ⟨y, hy, rfl⟩ := List.mem_map.1 hx
    obtain ⟨hy, hne⟩ := List.mem_filter.1 hy
    exact ⟨by simpa using hne, y.1.1, (hmem y hy).1, y.1.2, (hmem y hy).2, rfl, rfl⟩

/-- Two persons and two films: four queries, and the labels of the two sets meet once. -/
example : allPairs movies = [(0, 0), (0, 1), (1, 0), (1, 1)] := by decide +kernel

example : conflictLines (fun i => if i = 0 then "a" else "b") (fun i => if i = 0 then "b" else "c")
    ((allPairs movies).map fun q => (q, some (1 / 2 : ℚ))) =
      [("a", "b", some (1 / 2)), ("a", "c", some (1 / 2)), ("b", "c", some (1 / 2))] := by decide +kernel

/-- The hypotheses of C116 hold of `movies`. -/
example (acc : ℝ → ℚ → Bool) (t : Tape) : (AllLinkScore2State acc movies 3 [4] 2 true 10 t).Holds fun r => r.length = 4 :=
  (C116_scores movies_ok movies_rated (by decide) (by decide) acc (by norm_num) [4] 2 true 10 t).mono fun _ h => h.1

end RC
