import Verif.BFS.HistModel
import Verif.BFS.Props
import Mathlib.Algebra.BigOperators.Group.Finset.Sigma

/-! # C127: printed distributions of distances -/

namespace BFS

open Classical

variable {adj : ℕ → List ℕ}

/-- Ordered pairs of nodes at distance `d`. -/
noncomputable def pairsAt (adj : ℕ → List ℕ) (n d : ℕ) : ℕ :=
  ((Finset.range n ×ˢ Finset.range n).filter fun x => IsDist adj x.1 x.2 d).card

/-- Nodes at distance `d` of `s`. -/
noncomputable def nodesAt (adj : ℕ → List ℕ) (n s d : ℕ) : ℕ :=
  ((Finset.range n).filter fun v => IsDist adj s v d).card

/-- Distance, if there is a path. -/
noncomputable def dist (adj : ℕ → List ℕ) (s v : ℕ) : ℕ :=
  if h : Reach adj s v then (h.dist).choose else 0

theorem dist_spec {s v : ℕ} (h : Reach adj s v) : IsDist adj s v (dist adj s v) := by
  unfold dist
  rw [dif_pos h]
  exact (h.dist).choose_spec

theorem isDist_iff {s v d : ℕ} (h : Reach adj s v) : IsDist adj s v d ↔ dist adj s v = d := by
  constructor
  · intro hd; exact (dist_spec h).unique hd
  · rintro rfl; exact dist_spec h

/-- All sums over the histogram after a loop over nodes. -/
theorem loop_sums {n : ℕ} (hadj : InRange adj n) (hn : n ≤ 10000) : ∀ (ps : List ℕ) (h : ℕ → ℚ),
    (∀ p ∈ ps, p < n) → ∃ h', inverseLoop adj n ps h = some h' ∧ ∀ f : ℕ → ℚ,
      ∑ i ∈ Finset.range 10000, f i * h' i = ∑ i ∈ Finset.range 10000, f i * h i +
        (ps.map fun s => ∑ v ∈ Finset.range n, if v ≠ s ∧ Reach adj s v then f (dist adj s v) else 0).sum / n := by
  intro ps
  induction ps with
  | nil => intro h _; exact ⟨h, rfl, by simp⟩
  | cons p ps ih =>
    intro h hps
    have hp := hps p (by simp)
    obtain ⟨D, h1, hF, e1, _⟩ := one_search hadj hp hn (fun _ => 0) (dist adj p) (fun v _ hr => dist_spec hr) h
    obtain ⟨h2, e2, hh2⟩ := ih h1 (fun q hq => hps q (by simp [hq]))
    refine ⟨h2, ?_, ?_⟩
    · simp only [inverseLoop, hF.run, e1, Option.bind_eq_bind, Option.bind_some, e2]
    · intro f
      obtain ⟨D', h1', hF', e1', hh1⟩ := one_search hadj hp hn f (dist adj p) (fun v _ hr => dist_spec hr) h
      have eD : D' = D := by
        have := hF'.run
        rw [hF.run] at this
        exact (Option.some.inj this).symm
      subst eD
      rw [e1] at e1'
      cases e1'
      rw [hh2 f, hh1, List.map_cons, List.sum_cons, add_div, add_assoc]

theorem sum_single {N d : ℕ} (hd : d < N) (h : ℕ → ℚ) :
    ∑ i ∈ Finset.range N, (if i = d then (1 : ℚ) else 0) * h i = h d := by
  rw [Finset.sum_eq_single d]
  · simp
  · intro b _ hb; simp [hb]
  · intro hx; exact (hx (Finset.mem_range.2 hd)).elim

theorem reach_pos {s v d : ℕ} (hd : d ≠ 0) (h : IsDist adj s v d) : v ≠ s := by
  rintro rfl
  exact hd (h.unique isDist_self)

/-- The sum of indicators over one row. -/
theorem row_at {n s d : ℕ} (hd : d ≠ 0) :
    (∑ v ∈ Finset.range n, if v ≠ s ∧ Reach adj s v then (if dist adj s v = d then (1 : ℚ) else 0) else 0) =
      nodesAt adj n s d := by
  unfold nodesAt
  rw [Finset.card_eq_sum_ones, Finset.sum_filter]
  push_cast
  apply Finset.sum_congr rfl
  intro v _
  by_cases hr : Reach adj s v
  · by_cases hv : v = s
    · subst hv
      have : ¬ IsDist adj v v d := fun h => hd (h.unique isDist_self)
      simp [this]
    · simp only [isDist_iff hr, ne_eq, hv, not_false_eq_true, hr, and_self, if_true]
  · have : ¬ IsDist adj s v d := fun h => hr ⟨d, h.1⟩
    simp [hr, this]

theorem pairsAt_eq (n d : ℕ) : pairsAt adj n d = ∑ s ∈ Finset.range n, nodesAt adj n s d := by
  unfold pairsAt nodesAt
  simp only [Finset.card_eq_sum_ones, Finset.sum_filter]
  rw [Finset.sum_product]

theorem cell {n : ℕ} {h : ℕ → ℚ}
    (hh : ∀ f : ℕ → ℚ, ∑ i ∈ Finset.range 10000, f i * h i =
      (∑ s ∈ Finset.range n, ∑ v ∈ Finset.range n, if v ≠ s ∧ Reach adj s v then f (dist adj s v) else 0) / n)
    {d : ℕ} (hd : d < 10000) : h d = if d = 0 then 0 else (pairsAt adj n d : ℚ) / n := by
  have := hh fun i => if i = d then 1 else 0
  rw [sum_single hd] at this
  rw [this]
  split_ifs with h0
  · subst h0
    rw [div_eq_zero_iff]
    left
    apply Finset.sum_eq_zero
    intro s _
    apply Finset.sum_eq_zero
    intro v _
    by_cases hv : v ≠ s ∧ Reach adj s v
    · rw [if_pos hv, if_neg]
      intro e
      have := dist_spec hv.2
      rw [e] at this
      cases this.1
      exact hv.1 rfl
    · rw [if_neg hv]
  · rw [pairsAt_eq]
    push_cast
    rw [Finset.sum_congr rfl fun s _ => row_at h0]

/-- **C127**.  In a network of at most 10000 nodes the file has, in increasing order, one line for each
positive distance that occurs, with the fraction of all ordered pairs of different nodes that are at that
distance; the average distance is the sum of all distances over the number of ordered pairs of different
nodes (pairs without a path add nothing to the sum, but are counted); the normalization is the
fraction of these pairs that have a path; `z` is the mean number of nodes at distance 1. -/
theorem C127_histogram {n : ℕ} (hadj : InRange adj n) (hn : n ≤ 10000) :
    ∃ F, FPrintDistanceHistogram adj n = some F ∧ (F.lines.map Prod.fst).Pairwise (· < ·) ∧
      (∀ d x, (d, x) ∈ F.lines ↔ d ≠ 0 ∧ pairsAt adj n d ≠ 0 ∧ x = pairsAt adj n d / ((n : ℚ) * (n - 1))) ∧
      F.average = (∑ s ∈ Finset.range n, ∑ v ∈ Finset.range n, (dist adj s v : ℚ)) / ((n : ℚ) * (n - 1)) ∧
      F.norm = (((Finset.range n ×ˢ Finset.range n).filter fun x => x.1 ≠ x.2 ∧ Reach adj x.1 x.2).card : ℚ) /
        ((n : ℚ) * (n - 1)) ∧
      F.z = (pairsAt adj n 1 : ℚ) / n := by
  obtain ⟨h, e, hh⟩ := loop_sums hadj hn (List.range n) (fun _ => 0) (by simp)
  have hh' : ∀ f : ℕ → ℚ, ∑ i ∈ Finset.range 10000, f i * h i =
      (∑ s ∈ Finset.range n, ∑ v ∈ Finset.range n, if v ≠ s ∧ Reach adj s v then f (dist adj s v) else 0) / n := by
    intro f
    have := hh f
    simp only [mul_zero, Finset.sum_const_zero, zero_add] at this
    exact this
  refine ⟨_, by unfold FPrintDistanceHistogram; rw [e]; rfl, ?_, ?_, ?_, ?_, ?_⟩
  · dsimp only
    rw [List.map_map]
    have : (Prod.fst ∘ fun i => (i, h i / ((n : ℚ) - 1))) = fun i : ℕ => i := by funext i; rfl
    rw [this, List.map_id']
    exact List.Pairwise.filter _ List.pairwise_lt_range
  · intro d x
    have hlt : d ≠ 0 → pairsAt adj n d ≠ 0 → d < 10000 := by
      intro hd hp
      obtain ⟨y, hy⟩ := Finset.card_pos.1 (Nat.pos_of_ne_zero hp)
      simp only [Finset.mem_filter, Finset.mem_product, Finset.mem_range] at hy
      have := isDist_lt hadj hy.1.1 hy.2
      omega
    have hn0 : pairsAt adj n d ≠ 0 → (n : ℚ) ≠ 0 := by
      intro hp
      obtain ⟨y, hy⟩ := Finset.card_pos.1 (Nat.pos_of_ne_zero hp)
      simp only [Finset.mem_filter, Finset.mem_product, Finset.mem_range] at hy
      have : n ≠ 0 := by omega
      exact_mod_cast this
    dsimp only
    rw [List.mem_map]
    constructor
    · rintro ⟨i, hi, hx⟩
      rw [List.mem_filter, List.mem_range, decide_eq_true_eq] at hi
      cases hx
      rw [cell hh' hi.1] at hi ⊢
      split_ifs at hi ⊢ with h0
      · exact (hi.2 rfl).elim
      · refine ⟨h0, ?_, by rw [div_div]⟩
        intro hz
        rw [hz] at hi
        simp at hi
    · rintro ⟨hd, hp, rfl⟩
      have hl := hlt hd hp
      refine ⟨d, ?_, ?_⟩
      · rw [List.mem_filter, List.mem_range, decide_eq_true_eq]
        refine ⟨hl, ?_⟩
        rw [cell hh' hl, if_neg hd]
        have : (pairsAt adj n d : ℚ) ≠ 0 := by exact_mod_cast hp
        exact div_ne_zero this (hn0 hp)
      · rw [cell hh' hl, if_neg hd, div_div]
  · dsimp only
    have h1 : ∀ i : ℕ, (if h i ≠ 0 then (i : ℚ) * h i / ((n : ℚ) - 1) else 0)
        = (if h i ≠ 0 then (i : ℚ) * h i else 0) / ((n : ℚ) - 1) := by
      intro i; split_ifs <;> simp
    simp only [h1]
    rw [← Finset.sum_div, hist_drop, hh' fun i => (i : ℚ), div_div]
    congr 1
    apply Finset.sum_congr rfl
    intro s _
    apply Finset.sum_congr rfl
    intro v _
    split_ifs with hv
    · rfl
    · by_cases hr : Reach adj s v
      · have : v = s := by
          by_contra hne
          exact hv ⟨hne, hr⟩
        subst this
        rw [(dist_spec hr).unique isDist_self]
        simp
      · simp [dist, hr]
  · dsimp only
    have h1 : ∀ i : ℕ, (if h i ≠ 0 then h i / ((n : ℚ) - 1) else 0)
        = (if h i ≠ 0 then (1 : ℚ) * h i else 0) / ((n : ℚ) - 1) := by
      intro i; split_ifs <;> simp
    simp only [h1]
    rw [← Finset.sum_div, hist_drop (fun _ => 1), hh' fun _ => (1 : ℚ), div_div]
    congr 1
    rw [Finset.card_eq_sum_ones, Finset.sum_filter, Finset.sum_product]
    push_cast
    apply Finset.sum_congr rfl
    intro s _
    apply Finset.sum_congr rfl
    intro v _
    simp only [ne_comm]
  · dsimp only
    rw [cell hh' (by norm_num), if_neg (by norm_num)]

/-! ## From one node -/

theorem fill_scale {n : ℕ} (hn : n ≠ 0) : ∀ (rs : List Round) (d : ℕ) (h k : ℕ → ℚ),
    (∀ i, k i = n * h i) → ∀ h', fillHist n d rs h = some h' →
    ∃ k', fillHist 1 d rs k = some k' ∧ ∀ i, k' i = n * h' i := by
  have hq : (n : ℚ) ≠ 0 := by exact_mod_cast hn
  intro rs
  induction rs with
  | nil => intro d h k hk h' e; cases e; exact ⟨k, rfl, hk⟩
  | cons r rs ih =>
    intro d h k hk h' e
    rw [fillHist] at e ⊢
    split_ifs at e ⊢
    · exact ih _ _ _ hk _ e
    · refine ih _ _ _ ?_ _ e
      intro i
      by_cases hi : i = d
      · subst hi
        simp only [Function.update_self, hk]
        push_cast
        field_simp
      · simp only [Function.update_of_ne hi, hk]

theorem fromNode_skip {n ori : ℕ} : ∀ (ps : List ℕ) (h : ℕ → ℚ), ori ∉ ps →
    fromNodeLoop adj n ori ps h = some h := by
  intro ps
  induction ps with
  | nil => intro h _; rfl
  | cons p ps ih =>
    intro h hp
    simp only [List.mem_cons, not_or] at hp
    rw [fromNodeLoop, if_neg (fun e => hp.1 e.symm)]
    exact ih h hp.2

theorem fromNode_at {n ori : ℕ} : ∀ (ps : List ℕ) (h : ℕ → ℚ), ps.Nodup → ori ∈ ps →
    fromNodeLoop adj n ori ps h = (search adj n ori).bind fun D => fillHist 1 1 D.rounds h := by
  intro ps
  induction ps with
  | nil => intro h _ hm; simp at hm
  | cons p ps ih =>
    intro h hnd hm
    rw [List.nodup_cons] at hnd
    rw [fromNodeLoop]
    by_cases e : p = ori
    · subst e
      rw [if_pos rfl]
      cases search adj n p with
      | none => rfl
      | some D =>
        simp only [Option.bind_eq_bind, Option.bind_some]
        cases fillHist 1 1 D.rounds h with
        | none => rfl
        | some h' => exact fromNode_skip _ _ hnd.1
    · rw [if_neg e]
      exact ih h hnd.2 ((List.mem_cons.1 hm).resolve_left (fun e' => e e'.symm))

/-- **C127** (from one node).  The average distance printed is the sum of the distances from the node over
the number of other nodes, and `z` the number of nodes at distance 1; for a number that no node has both
are 0. -/
theorem C127_from_node {n : ℕ} (hadj : InRange adj n) (hn : n ≤ 10000) (ori : ℕ) :
    (ori < n → FPrintDistanceHistogramFromNode adj n ori =
      some ((∑ v ∈ Finset.range n, (dist adj ori v : ℚ)) / ((n : ℚ) - 1), (nodesAt adj n ori 1 : ℚ))) ∧
    (n ≤ ori → FPrintDistanceHistogramFromNode adj n ori = some (0, 0)) := by
  constructor
  · intro ho
    have hn0 : n ≠ 0 := by omega
    have hq : (n : ℚ) ≠ 0 := by exact_mod_cast hn0
    obtain ⟨D, h1, hF, e1, _⟩ := one_search hadj ho hn (fun _ => 0) (dist adj ori)
      (fun v _ hr => dist_spec hr) (fun _ => 0)
    obtain ⟨k, ek, hk⟩ := fill_scale hn0 D.rounds 1 (fun _ => 0) (fun _ => 0) (by simp) h1 e1
    have hsum : ∀ f : ℕ → ℚ, ∑ i ∈ Finset.range 10000, f i * k i =
        ∑ v ∈ Finset.range n, if v ≠ ori ∧ Reach adj ori v then f (dist adj ori v) else 0 := by
      intro f
      obtain ⟨D', h1', hF', e1', hh1⟩ := one_search hadj ho hn f (dist adj ori)
        (fun v _ hr => dist_spec hr) (fun _ => 0)
      have eD : D' = D := by
        have := hF'.run
        rw [hF.run] at this
        exact (Option.some.inj this).symm
      subst eD
      rw [e1] at e1'
      cases e1'
      have : ∑ i ∈ Finset.range 10000, f i * k i = n * ∑ i ∈ Finset.range 10000, f i * h1 i := by
        rw [Finset.mul_sum]
        apply Finset.sum_congr rfl
        intro i _
        rw [hk]; ring
      rw [this, hh1]
      simp only [mul_zero, Finset.sum_const_zero, zero_add]
      field_simp
    have hrun : fromNodeLoop adj n ori (List.range n) (fun _ => 0) = some k := by
      rw [fromNode_at _ _ List.nodup_range (List.mem_range.2 ho), hF.run]
      exact ek
    unfold FPrintDistanceHistogramFromNode
    rw [hrun]
    simp only [Option.bind_eq_bind, Option.bind_some, Option.pure_def, Option.some.injEq, Prod.mk.injEq]
    constructor
    · have h1 : ∀ i : ℕ, (if k i ≠ 0 then (i : ℚ) * k i / ((n : ℚ) - 1) else 0)
          = (if k i ≠ 0 then (i : ℚ) * k i else 0) / ((n : ℚ) - 1) := by
        intro i; split_ifs <;> simp
      simp only [h1]
      rw [← Finset.sum_div, hist_drop, hsum fun i => (i : ℚ)]
      refine congrArg (fun x : ℚ => x / ((n : ℚ) - 1)) ?_
      apply Finset.sum_congr rfl
      intro v _
      split_ifs with hv
      · rfl
      · by_cases hr : Reach adj ori v
        · have : v = ori := by
            by_contra hne
            exact hv ⟨hne, hr⟩
          subst this
          rw [(dist_spec hr).unique isDist_self]
          simp
        · simp [dist, hr]
    · have := hsum fun i => if i = 1 then 1 else 0
      rw [sum_single (by norm_num)] at this
      rw [this, row_at (by norm_num)]
  · intro ho
    unfold FPrintDistanceHistogramFromNode
    rw [fromNode_skip _ _ (by simp; omega)]
    simp only [Option.bind_eq_bind, Option.bind_some, Option.pure_def, ne_eq, not_true_eq_false, if_false,
      Finset.sum_const_zero]

/-- On a line of four nodes: 6 of the 12 ordered pairs are at distance 1, and the mean distance is 5/3. -/
example : ∃ F, FPrintDistanceHistogram (line 4) 4 = some F ∧ F.average = 5 / 3 := by
  obtain ⟨F, e, _, _, ha, _⟩ := C127_histogram (line_range 4) (by norm_num)
  refine ⟨F, e, ?_⟩
  rw [ha]
  have : ∀ s ∈ Finset.range 4, ∀ v ∈ Finset.range 4, dist (line 4) s v = (v - s) + (s - v) := by
    intro s hs v hv
    have hs := Finset.mem_range.1 hs
    have hv := Finset.mem_range.1 hv
    have hd := line_dist (n := 4) hs hv
    exact (dist_spec ⟨_, hd.1⟩).unique hd
  rw [Finset.sum_congr rfl fun s hs => Finset.sum_congr rfl fun v hv => by rw [this s hs v hv]]
  norm_num [Finset.sum_range_succ]

end BFS
