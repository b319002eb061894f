import Verif.BFS.Lemmas
import Mathlib.Tactic.FieldSimp
import Mathlib.Tactic.Ring
import Mathlib.Tactic.IntervalCases
import Mathlib.Tactic.NormNum
import Mathlib.Algebra.BigOperators.Ring.Finset
import Mathlib.Algebra.BigOperators.Field
import Mathlib.Algebra.Order.Field.Rat

/-!
# C18, C46: breadth-first search, connectedness, path lengths
-/

set_option linter.unusedSimpArgs false

namespace BFS

variable {adj : ℕ → List ℕ} {s : ℕ}

/-- The links point to nodes of the network. -/
def InRange (adj : ℕ → List ℕ) (n : ℕ) : Prop := ∀ i < n, ∀ j ∈ adj i, j < n

/-- **C18**: the search ends, a node is in the list with distance `d` exactly when its distance from
the start is `d`, each node is there once, in order of distance, and (no repeated links) the
predecessors recorded for an entry are, once each, the nodes one step closer with a link to it. -/
theorem C18_layers {n : ℕ} (hadj : InRange adj n) (hs : s < n) :
    ∃ D, search adj n s = some D ∧
      (∀ v d, (∃ e ∈ D.q.list, e.node = v ∧ e.d = d) ↔ IsDist adj s v d) ∧
      (D.q.list.map Entry.node).Nodup ∧
      D.q.list.Pairwise (fun a b => a.d ≤ b.d) ∧
      (∀ e ∈ D.q.list, e.d = 0 → e.pred = [none]) ∧
      ((∀ i, (adj i).Nodup) → ∀ e ∈ D.q.list, e.d ≠ 0 → e.pred.Nodup ∧
        ∀ x, x ∈ e.pred ↔ ∃ u, x = some u ∧ IsDist adj s u (e.d - 1) ∧ e.node ∈ adj u) := by
  obtain ⟨D, h⟩ := search_final hadj hs
  have hd : ∀ v d, (∃ e ∈ D.q.list, e.node = v ∧ e.d = d) ↔ IsDist adj s v d := by
    intro v d
    constructor
    · rintro ⟨e, he, rfl, rfl⟩; exact h.final.dist e he
    · intro hv
      obtain ⟨e, he, rfl⟩ := List.mem_map.1 ((h.final.reach v).2 ⟨d, hv.1⟩)
      exact ⟨e, he, rfl, (h.final.dist e he).unique hv⟩
  refine ⟨D, h.run, hd, h.final.nodup, h.final.sorted, h.final.pred0, ?_⟩
  intro hnd e he h0
  rw [h.final.pred hnd e he h0]
  constructor
  · have h1 : (nodes (D.q.list.filter fun a => a.d + 1 = e.d ∧ e.node ∈ adj a.node)).Nodup :=
      h.final.nodup.sublist (List.Sublist.map _ List.filter_sublist)
    have : ((nodes (D.q.list.filter fun a => a.d + 1 = e.d ∧ e.node ∈ adj a.node)).map some).Nodup :=
      h1.map (Option.some_injective _)
    simpa [nodes, List.map_map, Function.comp_def] using this
  · intro x
    simp only [List.mem_map, List.mem_filter, decide_eq_true_eq]
    constructor
    · rintro ⟨a, ⟨ha, h1, h2⟩, rfl⟩
      refine ⟨a.node, rfl, ?_, h2⟩
      rw [← h1]; simpa using h.final.dist a ha
    · rintro ⟨u, rfl, hu, hm⟩
      obtain ⟨a, ha, rfl, had⟩ := (hd u _).2 hu
      exact ⟨a, ⟨ha, by omega, hm⟩, rfl⟩

theorem all_reached_iff {n : ℕ} (hadj : InRange adj n) (hs : s < n) {D : Done}
    (h : Found adj n s D) : D.q.list.length = n ↔ ∀ v < n, Reach adj s v := by
  have hlen : D.q.list.length = (nodes D.q.list).toFinset.card := by
    rw [List.toFinset_card_of_nodup h.final.nodup]; simp [nodes]
  have hsub : (nodes D.q.list).toFinset ⊆ Finset.range n := by
    intro v hv
    obtain ⟨k, hk⟩ := (h.final.reach v).1 (List.mem_toFinset.1 hv)
    exact Finset.mem_range.2 (mem_bound hadj hs hk)
  rw [hlen]
  constructor
  · intro hc v hv
    have := Finset.eq_of_subset_of_card_le hsub (by rw [hc]; simp)
    rw [← h.final.reach v, ← List.mem_toFinset, this]
    exact Finset.mem_range.2 hv
  · intro hall
    have : (nodes D.q.list).toFinset = Finset.range n := by
      apply Finset.Subset.antisymm hsub
      intro v hv
      exact List.mem_toFinset.2 ((h.final.reach v).2 (hall v (Finset.mem_range.1 hv)))
    rw [this]; simp

/-- **C18**: `IsGraphConnected` answers 1 exactly when every node is reached from the first, and 0
otherwise. -/
theorem C18_connected {n : ℕ} (hadj : InRange adj n) (hn : 0 < n) :
    ((∀ v < n, Reach adj 0 v) → IsGraphConnected adj n = some 1) ∧
    (¬ (∀ v < n, Reach adj 0 v) → IsGraphConnected adj n = some 0) := by
  obtain ⟨D, h⟩ := search_final hadj hn
  have hiff := all_reached_iff hadj hn h
  unfold IsGraphConnected
  rw [if_neg (by omega)]
  simp only [h.run, Option.bind_eq_bind, Option.bind_some]
  constructor
  · intro hall
    rw [if_pos (hiff.2 hall)]; rfl
  · intro hall
    rw [if_neg (fun hh => hall (hiff.1 hh))]; rfl

/-- Links of directed networks are followed one way only: with `1 → 0` the answer depends on which
node comes first. -/
theorem C18_connected_is_one_way :
    IsGraphConnected (fun i => if i = 1 then [0] else []) 2 = some 0 ∧
    IsGraphConnected (fun i => if i = 0 then [1] else []) 2 = some 1 := by
  decide +kernel

/-- A 5-cycle with a pendant node. -/
def cycle5 : ℕ → List ℕ
  | 0 => [1, 4, 5] | 1 => [0, 2] | 2 => [1, 3] | 3 => [2, 4] | 4 => [3, 0] | 5 => [0] | _ => []

theorem cycle5_range : InRange cycle5 6 := by unfold InRange; decide

example : ∃ D, search cycle5 6 5 = some D ∧ (∃ e ∈ D.q.list, e.node = 3 ∧ e.d = 3) := by
  obtain ⟨D, h, hd, _⟩ := C18_layers cycle5_range (s := 5) (by decide)
  refine ⟨D, h, (hd 3 3).2 ⟨?_, ?_⟩⟩
  · exact .step (.step (.step (.refl 5) (u := 5) (v := 0) (by decide)) (v := 4) (by decide)) (by decide)
  · intro k hk
    by_contra hc
    interval_cases k
    · cases hk
    · cases hk with
      | step h1 hm => cases h1; revert hm; decide
    · cases hk with
      | step h1 hm =>
        cases h1 with
        | step h2 hm2 =>
          cases h2
          simp [cycle5] at hm2
          subst hm2
          revert hm; decide

example : (search cycle5 6 5).map (fun D => D.q.list.map fun e => (e.node, e.d, e.pred)) =
    some [(5, 0, [none]), (0, 1, [some 5]), (1, 2, [some 0]), (4, 2, [some 0]),
      (2, 3, [some 1]), (3, 3, [some 4])] := by decide +kernel

/-! ## Path lengths -/

theorem isDist_lt {n : ℕ} (hadj : InRange adj n) (hs : s < n) {v d : ℕ} (h : IsDist adj s v d) :
    d < n := by
  have hex : ∀ d v, IsDist adj s v d → ∀ k ≤ d, ∃ u, IsDist adj s u k := by
    intro d
    induction d with
    | zero => intro v hv k hk; exact ⟨v, by rwa [Nat.le_zero.1 hk]⟩
    | succ d ih =>
      intro v hv k hk
      rcases Nat.lt_or_ge d k with h1 | h1
      · exact ⟨v, by rwa [show k = d + 1 by omega]⟩
      · obtain ⟨u, hu, _⟩ := hv.pred
        exact ih u hu k h1
  choose! f hf using hex d v h
  have := Finset.card_le_card_of_injOn (s := Finset.range (d + 1)) (t := Finset.range n) f
    (by
      intro k hk
      have hk' : k ≤ d := by have := Finset.mem_range.1 hk; omega
      exact Finset.mem_coe.2 (Finset.mem_range.2 (mem_bound hadj hs (hf k hk').1)))
    (by
      intro a ha b hb hab
      have ha' : a ≤ d := by have := Finset.mem_range.1 (Finset.mem_coe.1 ha); omega
      have hb' : b ≤ d := by have := Finset.mem_range.1 (Finset.mem_coe.1 hb); omega
      have h1 := hf a ha'
      rw [show f a = f b from hab] at h1
      exact h1.unique (hf b hb'))
  simp at this
  omega

/-- Effect of the histogram on a weighted sum. -/
theorem fillHist_sum {n : ℕ} (hadj : InRange adj n) (hs : s < n) (hn : n ≤ 10000) (f : ℕ → ℚ)
    (δ : ℕ → ℕ) : ∀ (rs : List Round) (d : ℕ) (h : ℕ → ℚ),
      (∀ r ∈ rs, r.grew = r.after.length) →
      (∀ i r, rs[i]? = some r → ∀ v ∈ r.after, IsDist adj s v (d + i) ∧ δ v = d + i) →
      ∃ h', fillHist n d rs h = some h' ∧
        ∑ i ∈ Finset.range 10000, f i * h' i = ∑ i ∈ Finset.range 10000, f i * h i +
          (((rs.map Round.after).flatten.map fun v => f (δ v)).sum) / n
  | [], d, h, _, _ => ⟨h, rfl, by simp⟩
  | r :: rs, d, h, hg, hl => by
    have ih := fun h => fillHist_sum hadj hs hn f δ rs (d + 1) h
      (fun r' hr' => hg r' (by simp [hr'])) (by
        intro i r' hi v hv
        have := hl (i + 1) r' (by simpa using hi) v hv
        rwa [show d + (i + 1) = d + 1 + i by omega] at this)
    have hr := hg r (by simp)
    have h0 := hl 0 r (by simp)
    unfold fillHist
    by_cases hz : r.grew = 0
    · rw [if_pos hz]
      obtain ⟨h', e, hh⟩ := ih h
      refine ⟨h', e, ?_⟩
      have : r.after = [] := by
        rw [← List.length_eq_zero_iff]; omega
      rw [hh]; simp [this]
    · rw [if_neg hz]
      have hne : r.after ≠ [] := by
        intro e; rw [e] at hr; exact hz (by simpa using hr)
      obtain ⟨v, hv⟩ := List.exists_mem_of_ne_nil _ hne
      have hdlt : d < n := by have := isDist_lt hadj hs (h0 v hv).1; simpa using this
      rw [if_pos (by omega)]
      obtain ⟨h', e, hh⟩ := ih (Function.update h d (h d + (r.grew : ℚ) / n))
      refine ⟨h', e, ?_⟩
      rw [hh]
      have h1 : ∑ i ∈ Finset.range 10000, f i * Function.update h d (h d + (r.grew : ℚ) / n) i
          = ∑ i ∈ Finset.range 10000, f i * h i + f d * ((r.grew : ℚ) / n) := by
        have hd : d ∈ Finset.range 10000 := Finset.mem_range.2 (by omega)
        rw [← Finset.add_sum_erase _ _ hd, ← Finset.add_sum_erase (Finset.range 10000) (fun i => f i * h i) hd]
        have : ∑ i ∈ (Finset.range 10000).erase d, f i * Function.update h d (h d + (r.grew : ℚ) / n) i
            = ∑ i ∈ (Finset.range 10000).erase d, f i * h i := by
          apply Finset.sum_congr rfl
          intro i hi
          rw [Function.update_of_ne (Finset.ne_of_mem_erase hi)]
        rw [this, Function.update_self]
        ring
      have h2 : (r.after.map fun v => f (δ v)).sum = r.grew * f d := by
        have : r.after.map (fun v => f (δ v)) = r.after.map fun _ => f d := by
          apply List.map_congr_left
          intro v hv
          have := (h0 v hv).2
          simp at this
          rw [this]
        rw [this]
        simp [hr]
      rw [h1]
      simp only [List.map_cons, List.flatten_cons, List.map_append, List.sum_append, h2]
      ring

/-- The nodes shown by a search are the reachable ones other than the start. -/
theorem shown_sum {n : ℕ} (hadj : InRange adj n) (hs : s < n) {D : Done} (h : Found adj n s D)
    (g : ℕ → ℚ) [DecidablePred fun v => Reach adj s v] :
    ((D.rounds.map Round.after).flatten.map g).sum =
      ∑ v ∈ Finset.range n, if v ≠ s ∧ Reach adj s v then g v else 0 := by
  have hnd := h.final.nodup
  rw [h.nodes, List.nodup_cons] at hnd
  rw [← Finset.sum_filter, ← List.sum_toFinset _ hnd.2]
  apply Finset.sum_congr _ (fun _ _ => rfl)
  ext v
  rw [List.mem_toFinset, Finset.mem_filter, Finset.mem_range]
  have hr := h.final.reach v
  rw [h.nodes, List.mem_cons] at hr
  constructor
  · intro hv
    have hv' := hr.1 (Or.inr hv)
    refine ⟨?_, ?_, hv'⟩
    · obtain ⟨k, hk⟩ := hv'; exact mem_bound hadj hs hk
    · rintro rfl; exact hnd.1 hv
  · rintro ⟨_, hne, hv⟩
    exact (hr.2 hv).resolve_left hne

/-- The histogram after one search. -/
theorem one_search {n : ℕ} (hadj : InRange adj n) (hs : s < n) (hn : n ≤ 10000) (f : ℕ → ℚ)
    (δ : ℕ → ℕ) (hδ : ∀ v < n, Reach adj s v → IsDist adj s v (δ v)) (h : ℕ → ℚ)
    [DecidablePred fun v => Reach adj s v] :
    ∃ D h', Found adj n s D ∧ fillHist n 1 D.rounds h = some h' ∧
      ∑ i ∈ Finset.range 10000, f i * h' i = ∑ i ∈ Finset.range 10000, f i * h i +
        (∑ v ∈ Finset.range n, if v ≠ s ∧ Reach adj s v then f (δ v) else 0) / n := by
  obtain ⟨D, hF⟩ := search_final hadj hs
  obtain ⟨h', e, hh⟩ := fillHist_sum hadj hs hn f δ D.rounds 1 h hF.grew (by
    intro i r hi v hv
    have h1 := hF.layer i r hi v hv
    rw [Nat.add_comm] at h1
    have hre : Reach adj s v := ⟨_, h1.1⟩
    have hvn : v < n := mem_bound hadj hs h1.1
    exact ⟨h1, (hδ v hvn hre).unique h1⟩)
  exact ⟨D, h', hF, e, by rw [hh, shown_sum hadj hs hF]⟩

theorem hist_drop (f h : ℕ → ℚ) :
    (∑ i ∈ Finset.range 10000, if h i ≠ 0 then f i * h i else 0)
      = ∑ i ∈ Finset.range 10000, f i * h i := by
  apply Finset.sum_congr rfl
  intro i _
  by_cases hi : h i = 0 <;> simp [hi]

/-- **C46**: in a network (up to 10000 nodes) where every node reaches every other,
`AveragePathLength` is the mean distance over ordered pairs of different nodes. -/
theorem C46_average_path_length {n : ℕ} (hadj : InRange adj n) (hn : n ≤ 10000)
    (δ : ℕ → ℕ → ℕ) (hδ : ∀ s < n, ∀ v < n, IsDist adj s v (δ s v)) :
    AveragePathLength adj n =
      some ((∑ s ∈ Finset.range n, ∑ v ∈ Finset.range n, (δ s v : ℚ)) / (n * ((n : ℚ) - 1))) := by
  classical
  have hloop : ∀ (ps : List ℕ) (h : ℕ → ℚ), (∀ p ∈ ps, p < n) → ∃ h', pathLoop adj n ps h = some (some h') ∧
      ∑ i ∈ Finset.range 10000, (i : ℚ) * h' i = ∑ i ∈ Finset.range 10000, (i : ℚ) * h i +
        (ps.map fun p => ∑ v ∈ Finset.range n, (δ p v : ℚ)).sum / n := by
    intro ps
    induction ps with
    | nil => intro h _; exact ⟨h, rfl, by simp⟩
    | cons p ps ih =>
      intro h hps
      have hp := hps p (by simp)
      obtain ⟨D, h1, hF, e1, hh1⟩ := one_search hadj hp hn (fun i => (i : ℚ)) (δ p)
        (fun v hv _ => hδ p hp v hv) h
      obtain ⟨h2, e2, hh2⟩ := ih h1 (fun q hq => hps q (by simp [hq]))
      refine ⟨h2, ?_, ?_⟩
      · have hlen : D.q.list.length = n := (all_reached_iff hadj hp hF).2
          (fun v hv => ⟨_, (hδ p hp v hv).1⟩)
        simp only [pathLoop, hF.run, e1, Option.bind_eq_bind, Option.bind_some, hlen, ne_eq,
          not_true_eq_false, if_false, e2]
      · rw [hh2, hh1]
        have : (∑ v ∈ Finset.range n, if v ≠ p ∧ Reach adj p v then (δ p v : ℚ) else 0)
            = ∑ v ∈ Finset.range n, (δ p v : ℚ) := by
          apply Finset.sum_congr rfl
          intro v hv
          have hv := Finset.mem_range.1 hv
          by_cases hvp : v = p
          · subst hvp
            have : δ v v = 0 := (hδ v hv v hv).unique isDist_self
            simp [this]
          · have : Reach adj p v := ⟨_, (hδ p hp v hv).1⟩
            simp [hvp, this]
        rw [this, List.map_cons, List.sum_cons, add_div, add_assoc]
  obtain ⟨h, e, hh⟩ := hloop (List.range n) (fun _ => 0) (by simp)
  unfold AveragePathLength
  simp only [e, Option.bind_eq_bind, Option.bind_some]
  refine congrArg some ?_
  have h1 : ∀ i : ℕ, (if h i ≠ 0 then (i : ℚ) * h i / ((n : ℚ) - 1) else 0)
      = (if h i ≠ 0 then (i : ℚ) * h i else 0) / ((n : ℚ) - 1) := by
    intro i; split_ifs <;> simp
  simp only [h1]
  rw [← Finset.sum_div, hist_drop, hh]
  have h2 : ((List.range n).map fun p => ∑ v ∈ Finset.range n, (δ p v : ℚ)).sum
      = ∑ s ∈ Finset.range n, ∑ v ∈ Finset.range n, (δ s v : ℚ) := rfl
  rw [h2]
  simp [div_div]

/-- **C46**: if some node does not reach some other the answer is -1. -/
theorem C46_not_connected {n : ℕ} (hadj : InRange adj n) (hn : n ≤ 10000)
    (h : ∃ s < n, ∃ v < n, ¬ Reach adj s v) : AveragePathLength adj n = some (-1) := by
  classical
  have hδ : ∀ s v, ∃ d, Reach adj s v → IsDist adj s v d := by
    intro s v
    by_cases hr : Reach adj s v
    · obtain ⟨d, hd⟩ := hr.dist; exact ⟨d, fun _ => hd⟩
    · exact ⟨0, fun h => (hr h).elim⟩
  choose δ hδ using hδ
  have hloop : ∀ (ps : List ℕ) (h : ℕ → ℚ), (∀ p ∈ ps, p < n) →
      (∃ s ∈ ps, ∃ v < n, ¬ Reach adj s v) → pathLoop adj n ps h = some none := by
    intro ps
    induction ps with
    | nil => intro h _ hx; obtain ⟨s, hs, _⟩ := hx; simp at hs
    | cons p ps ih =>
      intro h hps hx
      have hp := hps p (by simp)
      obtain ⟨D, h1, hF, e1, _⟩ := one_search hadj hp hn (fun i => (i : ℚ)) (δ p)
        (fun v _ hr => hδ p v hr) h
      simp only [pathLoop, hF.run, e1, Option.bind_eq_bind, Option.bind_some]
      by_cases hlen : D.q.list.length = n
      · rw [if_neg (by simpa using hlen)]
        have hall := (all_reached_iff hadj hp hF).1 hlen
        obtain ⟨s, hs, v, hv, hnr⟩ := hx
        refine ih h1 (fun q hq => hps q (by simp [hq])) ⟨s, ?_, v, hv, hnr⟩
        rcases List.mem_cons.1 hs with rfl | hs
        · exact (hnr (hall v hv)).elim
        · exact hs
      · rw [if_pos hlen]; rfl
  obtain ⟨s, hs, v, hv, hnr⟩ := h
  unfold AveragePathLength
  rw [hloop (List.range n) (fun _ => 0) (by simp) ⟨s, by simpa using hs, v, hv, hnr⟩]
  rfl

/-- **C46**: `AverageInverseDistance` is the mean over ordered pairs of different nodes of the
inverse distance, with 0 for pairs without a path. -/
theorem C46_average_inverse_distance {n : ℕ} (hadj : InRange adj n) (hn : n ≤ 10000)
    (ι : ℕ → ℕ → ℚ) (hι : ∀ s < n, ∀ v < n, s ≠ v → (∀ d, IsDist adj s v d → ι s v = 1 / d) ∧
      (¬ Reach adj s v → ι s v = 0)) :
    AverageInverseDistance adj n =
      some ((∑ s ∈ Finset.range n, ∑ v ∈ Finset.range n, if s ≠ v then ι s v else 0) /
        (n * ((n : ℚ) - 1))) := by
  classical
  have hδ : ∀ s v, ∃ d, Reach adj s v → IsDist adj s v d := by
    intro s v
    by_cases hr : Reach adj s v
    · obtain ⟨d, hd⟩ := hr.dist; exact ⟨d, fun _ => hd⟩
    · exact ⟨0, fun h => (hr h).elim⟩
  choose δ hδ using hδ
  have hloop : ∀ (ps : List ℕ) (h : ℕ → ℚ), (∀ p ∈ ps, p < n) → ∃ h', inverseLoop adj n ps h = some h' ∧
      ∑ i ∈ Finset.range 10000, (1 / i : ℚ) * h' i = ∑ i ∈ Finset.range 10000, (1 / i : ℚ) * h i +
        (ps.map fun p => ∑ v ∈ Finset.range n, if p ≠ v then ι p v else 0).sum / n := by
    intro ps
    induction ps with
    | nil => intro h _; exact ⟨h, rfl, by simp⟩
    | cons p ps ih =>
      intro h hps
      have hp := hps p (by simp)
      obtain ⟨D, h1, hF, e1, hh1⟩ := one_search hadj hp hn (fun i => (1 / i : ℚ)) (δ p)
        (fun v _ hr => hδ p v hr) h
      obtain ⟨h2, e2, hh2⟩ := ih h1 (fun q hq => hps q (by simp [hq]))
      refine ⟨h2, ?_, ?_⟩
      · simp only [inverseLoop, hF.run, e1, Option.bind_eq_bind, Option.bind_some, e2]
      · rw [hh2, hh1]
        have : (∑ v ∈ Finset.range n, if v ≠ p ∧ Reach adj p v then (1 / (δ p v) : ℚ) else 0)
            = ∑ v ∈ Finset.range n, if p ≠ v then ι p v else 0 := by
          apply Finset.sum_congr rfl
          intro v hv
          have hv := Finset.mem_range.1 hv
          by_cases hvp : v = p
          · subst hvp; simp
          · have hpv : p ≠ v := fun e => hvp e.symm
            obtain ⟨i1, i2⟩ := hι p hp v hv hpv
            by_cases hr : Reach adj p v
            · simp [hvp, hpv, hr, i1 _ (hδ p v hr)]
            · simp [hvp, hpv, hr, i2 hr]
        rw [this, List.map_cons, List.sum_cons, add_div, add_assoc]
  obtain ⟨h, e, hh⟩ := hloop (List.range n) (fun _ => 0) (by simp)
  unfold AverageInverseDistance
  simp only [e, Option.bind_eq_bind, Option.bind_some]
  refine congrArg some ?_
  have h1 : ∀ i : ℕ, (if h i ≠ 0 then h i / ((i : ℚ) * ((n : ℚ) - 1)) else 0)
      = (if h i ≠ 0 then (1 / i : ℚ) * h i else 0) / ((n : ℚ) - 1) := by
    intro i
    split_ifs
    · rw [← div_div]; ring
    · simp
  simp only [h1]
  rw [← Finset.sum_div, hist_drop, hh]
  have h2 : ((List.range n).map fun p => ∑ v ∈ Finset.range n, if p ≠ v then ι p v else 0).sum
      = ∑ s ∈ Finset.range n, ∑ v ∈ Finset.range n, if s ≠ v then ι s v else 0 := rfl
  rw [h2]
  simp [div_div]

theorem fillHist_overflow {n : ℕ} : ∀ (rs : List Round) (d : ℕ) (h : ℕ → ℚ) (i : ℕ) (r : Round),
    rs[i]? = some r → r.grew ≠ 0 → 10000 ≤ d + i → fillHist n d rs h = none
  | [], _, _, _, _, hr, _, _ => by simp at hr
  | r' :: rs, d, h, i, r, hr, hg, hi => by
    unfold fillHist
    cases i with
    | zero =>
      simp only [List.getElem?_cons_zero, Option.some.injEq] at hr
      subst hr
      rw [if_neg hg, if_neg (by omega)]
    | succ i =>
      simp only [List.getElem?_cons_succ] at hr
      have ih := fun h => fillHist_overflow (n := n) rs (d + 1) h i r hr hg (by omega)
      split_ifs
      · exact ih h
      · exact ih _
      · rfl

/-- **C46** (limit): with every node reachable and some distance of 10000 or more the histogram is
written outside its bounds. -/
theorem C46_long_path_overflows {n : ℕ} (hadj : InRange adj n)
    (hall : ∀ s < n, ∀ v < n, Reach adj s v) {s v d : ℕ} (hs : s < n) (hd : IsDist adj s v d)
    (hlong : 10000 ≤ d) : AveragePathLength adj n = none := by
  have hloop : ∀ (ps : List ℕ) (h : ℕ → ℚ), (∀ p ∈ ps, p < n) → s ∈ ps →
      pathLoop adj n ps h = none := by
    intro ps
    induction ps with
    | nil => intro h _ hx; simp at hx
    | cons p ps ih =>
      intro h hps hx
      have hp := hps p (by simp)
      obtain ⟨D, hF⟩ := search_final hadj hp
      simp only [pathLoop, hF.run, Option.bind_eq_bind, Option.bind_some]
      by_cases hps' : p = s
      · subst hps'
        have hne : v ≠ p := by
          rintro rfl
          have := hd.unique isDist_self
          omega
        have hin := (hF.final.reach v).2 ⟨d, hd.1⟩
        rw [hF.nodes, List.mem_cons] at hin
        have hin := hin.resolve_left hne
        obtain ⟨l, hl, hvl⟩ := List.mem_flatten.1 hin
        obtain ⟨r, hr, rfl⟩ := List.mem_map.1 hl
        obtain ⟨i, hi⟩ := List.mem_iff_getElem?.1 hr
        have := (hF.layer i r hi v hvl).unique hd
        rw [fillHist_overflow D.rounds 1 h i r hi (by
          rw [hF.grew r hr]
          have := List.length_pos_of_mem hvl
          omega) (by omega)]
        rfl
      · cases fillHist n 1 D.rounds h with
        | none => rfl
        | some h1 =>
          have hlen := (all_reached_iff hadj hp hF).2 (hall p hp)
          simp only [Option.bind_some]
          rw [if_neg (by simpa using hlen)]
          exact ih h1 (fun q hq => hps q (by simp [hq]))
            ((List.mem_cons.1 hx).resolve_left (fun e => hps' e.symm))
  unfold AveragePathLength
  rw [hloop (List.range n) (fun _ => 0) (by simp) (by simpa using hs)]
  rfl

/-- A line of `n` nodes. -/
def line (n i : ℕ) : List ℕ := (if 0 < i then [i - 1] else []) ++ (if i + 1 < n then [i + 1] else [])

theorem line_range (n : ℕ) : InRange (line n) n := by
  intro i hi j hj
  unfold line at hj
  simp only [List.mem_append] at hj
  rcases hj with hj | hj <;> split_ifs at hj <;> simp at hj <;> omega

theorem line_up {n : ℕ} (s : ℕ) : ∀ k, s + k < n → Walk (line n) k s (s + k)
  | 0, _ => .refl s
  | k + 1, h => .step (line_up s k (by omega)) (by
      unfold line
      rw [if_pos (show s + k + 1 < n by omega)]
      simp [Nat.add_assoc])

theorem line_down {n : ℕ} (s : ℕ) : ∀ k, k ≤ s → Walk (line n) k s (s - k)
  | 0, _ => .refl s
  | k + 1, h => .step (line_down s k (by omega)) (by
      unfold line
      rw [if_pos (show 0 < s - k by omega)]
      simp; left; omega)

theorem line_bound {n k s v : ℕ} (h : Walk (line n) k s v) : v ≤ s + k ∧ s ≤ v + k := by
  induction h with
  | refl => simp
  | @step k s u v _ hm ih =>
    unfold line at hm
    simp only [List.mem_append] at hm
    rcases hm with hm | hm <;> split_ifs at hm <;> simp at hm <;> omega

/-- Distances on a line. -/
theorem line_dist {n s v : ℕ} (hs : s < n) (hv : v < n) :
    IsDist (line n) s v ((v - s) + (s - v)) := by
  constructor
  · rcases Nat.le_total s v with h | h
    · have := line_up (n := n) s (v - s) (by omega)
      rwa [show s + (v - s) = v by omega, show v - s = (v - s) + (s - v) by omega] at this
    · have := line_down (n := n) s (s - v) (by omega)
      rwa [show s - (s - v) = v by omega, show s - v = (v - s) + (s - v) by omega] at this
  · intro k hk
    have := line_bound hk
    omega

/-- On a line of 4 nodes the mean distance is 5/3, … -/
example : AveragePathLength (line 4) 4 = some (5 / 3) := by
  rw [C46_average_path_length (line_range 4) (by norm_num) (fun s v => (v - s) + (s - v))
    (fun s hs v hv => line_dist hs hv)]
  norm_num [Finset.sum_range_succ]

/-- … the mean inverse distance 13/18, … -/
example : AverageInverseDistance (line 4) 4 = some (13 / 18) := by
  rw [C46_average_inverse_distance (line_range 4) (by norm_num)
    (fun s v => 1 / (((v - s) + (s - v) : ℕ) : ℚ))
    (fun s hs v hv _ => ⟨fun d hd => by rw [(line_dist hs hv).unique hd],
      fun h => (h ⟨_, (line_dist hs hv).1⟩).elim⟩)]
  norm_num [Finset.sum_range_succ]

/-- … two separate nodes give -1, … -/
example : AveragePathLength (fun _ => []) 2 = some (-1) :=
  C46_not_connected (by intro i _ j hj; simp at hj) (by norm_num)
    ⟨0, by norm_num, 1, by norm_num, by rintro ⟨k, hk⟩; cases hk with | step _ hm => simp at hm⟩

/-- … and a line of 10001 nodes is outside what the function can handle. -/
example : AveragePathLength (line 10001) 10001 = none :=
  C46_long_path_overflows (line_range _) (fun s hs v hv => ⟨_, (line_dist hs hv).1⟩)
    (s := 0) (v := 10000) (by norm_num) (line_dist (by norm_num) (by norm_num)) (by norm_num)

end BFS
