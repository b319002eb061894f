import Verif.Btw.LinkProps
import Verif.Tools.Props
import Mathlib.Data.Finset.Card

/-! # C129: statistics of the betweenness of the nodes -/

namespace BT

open BFS

/-- `NodeBetweennessStatistics`, src/graph.c:2322-2353: mean, standard deviation, minimum, maximum; `none` if the betweenness is not
defined (overflow), or without nodes (0/0 and reading beyond the array). -/
noncomputable def NodeBetweennessStatistics (adj : ℕ → List ℕ) (n : ℕ) : Option (ℝ × ℝ × ℚ × ℚ) := do
  let btw ← CalculateNodeBetweenness adj n
  let betws := (List.range n).map btw
  let a ← Tools.mean (betws.map fun x : ℚ => (x : ℝ))
  let s ← Tools.stddev (betws.map fun x : ℚ => (x : ℝ))
  let l ← Tools.cmin betws
  let u ← Tools.cmax betws
  return (a, s, l, u)

variable {adj : ℕ → List ℕ} {n s t : ℕ}

theorem walks_length : ∀ (k s : ℕ) (l : List ℕ), l ∈ walks adj k s → l.length = k + 1
  | 0, s, l, h => by simp [walks] at h; subst h; rfl
  | k + 1, s, l, h => by
    simp only [walks, List.mem_flatMap, List.mem_map] at h
    obtain ⟨w, _, l', hl', rfl⟩ := h
    rw [List.length_cons, walks_length k w l' hl']

theorem walks_head : ∀ (k s : ℕ) (l : List ℕ), l ∈ walks adj k s → s ∈ l
  | 0, s, l, h => by simp [walks] at h; subst h; simp
  | k + 1, s, l, h => by
    simp only [walks, List.mem_flatMap, List.mem_map] at h
    obtain ⟨w, _, l', hl', rfl⟩ := h
    simp

/-- The nodes of a shortest path between different nodes other than its ends. -/
theorem inner_nodes (hadj : InRange adj n) (hs : s < n) {d : ℕ} (hd : IsDist adj s t d) (hst : s ≠ t) {l : List ℕ}
    (hl : l ∈ shortest adj s t) :
    ((Finset.range n).filter fun v => (s ≠ v ∧ t ≠ v ∧ s ≠ t) ∧ v ∈ l).card = d - 1 := by
  unfold shortest at hl
  simp only [List.mem_filter, decide_eq_true_eq] at hl
  rw [dist_eq hd] at hl
  obtain ⟨hl, hlast⟩ := hl
  have hlen := walks_length d s l hl
  have hnodup : l.Nodup := by
    rw [List.nodup_iff_getElem?_ne_getElem?]
    intro i j hij hj he
    obtain ⟨v, hv⟩ : ∃ v, l[j]? = some v := ⟨_, List.getElem?_eq_getElem hj⟩
    rw [hv] at he
    obtain ⟨h1, _⟩ := walk_parts d s l hl i v t he hlast
    obtain ⟨a, ha⟩ := Reach.dist (adj := adj) (s := s) (v := v) ⟨i, h1⟩
    have e1 := shortest_index ha hd hl hlast he
    have e2 := shortest_index ha hd hl hlast hv
    omega
  have hrange : ∀ v ∈ l, v < n := by
    intro v hv
    obtain ⟨i, hi⟩ := List.getElem?_of_mem hv
    exact mem_bound hadj hs (walk_parts d s l hl i v t hi hlast).1
  have : (Finset.range n).filter (fun v => (s ≠ v ∧ t ≠ v ∧ s ≠ t) ∧ v ∈ l) = (l.toFinset.erase s).erase t := by
    ext v
    simp only [Finset.mem_filter, Finset.mem_range, Finset.mem_erase, List.mem_toFinset]
    constructor
    · rintro ⟨_, ⟨h1, h2, _⟩, h3⟩; exact ⟨h2.symm, h1.symm, h3⟩
    · rintro ⟨h1, h2, h3⟩; exact ⟨hrange v h3, ⟨Ne.symm h2, Ne.symm h1, hst⟩, h3⟩
  rw [this, Finset.card_erase_of_mem, Finset.card_erase_of_mem, List.toFinset_card_of_nodup hnodup, hlen]
  · omega
  · rw [List.mem_toFinset]; exact walks_head d s l hl
  · rw [Finset.mem_erase, List.mem_toFinset]; exact ⟨hst.symm, List.mem_of_getLast? hlast⟩

theorem sum_countP {α : Type} (c : ℕ → Prop) [DecidablePred c] (p : ℕ → α → Bool) (k : ℕ) : ∀ (L : List α),
    (∀ l ∈ L, ((Finset.range n).filter fun v => c v ∧ p v l = true).card = k) →
    (∑ v ∈ Finset.range n, if c v then (L.countP (p v) : ℚ) else 0) = L.length * k
  | [], _ => by simp
  | l :: L, h => by
    have ih := sum_countP c p k L (fun x hx => h x (by simp [hx]))
    have h1 := h l (by simp)
    have e : ∀ v, (if c v then ((l :: L).countP (p v) : ℚ) else 0) =
        (if c v then (L.countP (p v) : ℚ) else 0) + if c v ∧ p v l = true then 1 else 0 := by
      intro v
      rw [List.countP_cons]
      by_cases hc : c v
      · by_cases hp : p v l = true <;> simp [hc, hp]
      · simp [hc]
    simp only [e, Finset.sum_add_distrib, ih]
    rw [← Finset.sum_filter, Finset.sum_const, h1, List.length_cons]
    simp
    ring

/-- The shares of all nodes between `s` and `t` add up to the number of nodes between them. -/
theorem share_sum (hadj : InRange adj n) (hs : s < n) (t : ℕ) :
    (∑ v ∈ Finset.range n, if s ≠ v ∧ t ≠ v ∧ s ≠ t then share adj s t v else 0) = ((dist adj s t - 1 : ℕ) : ℚ) := by
  by_cases hr : Reach adj s t
  · obtain ⟨d, hd⟩ := Reach.dist hr
    rw [dist_eq hd]
    by_cases hst : s = t
    · subst hst
      have : d = 0 := by have := hd.2 0 (Walk.refl _); omega
      subst this
      simp
    · have hpos : (0 : ℚ) < (shortest adj s t).length := by
        rw [shortest_length hd]
        exact_mod_cast W_pos.2 hd.1
      have h1 : ∀ v, (if s ≠ v ∧ t ≠ v ∧ s ≠ t then share adj s t v else 0) =
          (if s ≠ v ∧ t ≠ v ∧ s ≠ t then ((shortest adj s t).countP (fun l => decide (v ∈ l)) : ℚ) else 0) /
            (shortest adj s t).length := by
        intro v
        unfold share
        split_ifs <;> simp
      simp only [h1]
      rw [← Finset.sum_div, sum_countP _ (fun v l => decide (v ∈ l)) (d - 1), mul_comm, mul_div_assoc, div_self hpos.ne', mul_one]
      intro l hl
      simp only [decide_eq_true_eq]
      exact inner_nodes hadj hs hd hst hl
  · have h0 : dist adj s t = 0 := by
      have : {k | Walk adj k s t} = ∅ := by ext k; simp; exact fun hh => hr ⟨k, hh⟩
      rw [dist, this, Nat.sInf_empty]
    rw [h0]
    simp [share_zero_left hr]

theorem sum_cast_range (f : ℕ → ℚ) (m : ℕ) :
    ((List.range m).map ((fun x : ℚ => (x : ℝ)) ∘ f)).sum = ((∑ v ∈ Finset.range m, f v : ℚ) : ℝ) := by
  induction m with
  | zero => simp
  | succ m ih => rw [List.range_succ, List.map_append, List.sum_append, ih, Finset.sum_range_succ]; simp

/-- **C129**.  For every network with nodes (with at most `INT_MAX` shortest paths between any two): the mean betweenness times the
number of nodes is the sum over the ordered pairs of nodes of the number of nodes between them on a shortest path (distance
less 1); minimum and maximum are attained and bound the betweenness of all nodes; the standard deviation is the root of the mean
squared deviation. -/
theorem C129_statistics (hadj : InRange adj n) (hnd : ∀ i < n, (adj i).Nodup)
    (hmax : ∀ s < n, ∀ t, (shortest adj s t).length ≤ INT_MAX) (hn : n ≠ 0) :
    ∃ a d l u, NodeBetweennessStatistics adj n = some (a, d, l, u) ∧
      a * n = ((∑ s ∈ Finset.range n, ∑ t ∈ Finset.range n, (dist adj s t - 1) : ℕ) : ℝ) ∧
      (∃ v < n, l = betweenness adj n v) ∧ (∃ v < n, u = betweenness adj n v) ∧
      (∀ v < n, l ≤ betweenness adj n v ∧ betweenness adj n v ≤ u) ∧
      0 ≤ d ∧ d ^ 2 * n = ((List.range n).map fun v => ((betweenness adj n v : ℝ) - a) ^ 2).sum := by
  obtain ⟨btw, hb, hv⟩ := C54_betweenness hadj hnd hmax
  have hlist : (List.range n).map btw = (List.range n).map (betweenness adj n) := by
    rw [funext hv]
  have hne : (List.range n).map (betweenness adj n) ≠ [] := by simpa using hn
  have hne' : ((List.range n).map (betweenness adj n)).map (fun x : ℚ => (x : ℝ)) ≠ [] := by simpa using hn
  obtain ⟨a, d, ha, hd, h0, hsq, _⟩ := Tools.C41_stddev _ hne'
  obtain ⟨a', ha', hmul, _⟩ := Tools.C41_mean _ hne'
  obtain ⟨⟨u, hu, eu, bu⟩, ⟨l, hl, el, bl⟩⟩ := Tools.C41_max_min _ hne
  rw [ha] at ha'
  cases ha'
  have hlen : ((((List.range n).map (betweenness adj n)).map (fun x : ℚ => (x : ℝ))).length : ℝ) = n := by simp
  refine ⟨a, d, l, u, ?_, ?_, ?_, ?_, ?_, h0, ?_⟩
  · unfold NodeBetweennessStatistics
    rw [hb]
    simp only [Option.bind_eq_bind, Option.bind_some, hlist]
    rw [ha, hd, el, eu]
    rfl
  · rw [hlen] at hmul
    rw [hmul]
    have : (((List.range n).map (betweenness adj n)).map (fun x : ℚ => (x : ℝ))).sum =
        ((∑ v ∈ Finset.range n, betweenness adj n v : ℚ) : ℝ) := by
      rw [List.map_map]
      exact sum_cast_range (betweenness adj n) n
    rw [this]
    have hsum : ∑ v ∈ Finset.range n, betweenness adj n v =
        ((∑ s ∈ Finset.range n, ∑ t ∈ Finset.range n, (dist adj s t - 1) : ℕ) : ℚ) := by
      unfold betweenness
      rw [Finset.sum_comm]
      push_cast
      apply Finset.sum_congr rfl
      intro s hs
      rw [Finset.sum_comm]
      apply Finset.sum_congr rfl
      intro t _
      exact share_sum hadj (Finset.mem_range.1 hs) t
    rw [hsum]
    push_cast
    rfl
  · obtain ⟨v, hv, e⟩ := List.mem_map.1 hl
    exact ⟨v, List.mem_range.1 hv, e.symm⟩
  · obtain ⟨v, hv, e⟩ := List.mem_map.1 hu
    exact ⟨v, List.mem_range.1 hv, e.symm⟩
  · intro v hv
    have hm : betweenness adj n v ∈ (List.range n).map (betweenness adj n) :=
      List.mem_map.2 ⟨v, List.mem_range.2 hv, rfl⟩
    exact ⟨bl _ hm, bu _ hm⟩
  · rw [hlen] at hsq
    rw [hsq, List.map_map, List.map_map]
    rfl

/-- In the star of three leaves the six ordered pairs of leaves have one node between them: the mean is 6/4. -/
example : ∃ a d l u, NodeBetweennessStatistics star 4 = some (a, d, l, u) ∧ a * 4 = 6 := by
  obtain ⟨a, d, l, u, h, hm, _⟩ := C129_statistics (adj := star) (n := 4) (by unfold InRange; decide) (by decide)
    (fun s _ t => (star_unique s t).trans (by decide)) (by norm_num)
  refine ⟨a, d, l, u, h, ?_⟩
  have hd : ∀ s < 4, ∀ t < 4, dist star s t = if s = t then 0 else if s = 1 ∨ t = 1 then 1 else 2 := by
    have h : ∀ s < 4, ∀ t < 4, 0 < W star (if s = t then 0 else if s = 1 ∨ t = 1 then 1 else 2) s t ∧
      ∀ k < (if s = t then 0 else if s = 1 ∨ t = 1 then 1 else 2), W star k s t = 0 := by decide +kernel
    intro s hs t ht
    refine dist_eq ⟨W_pos.1 (h s hs t ht).1, fun k hk => ?_⟩
    by_contra hlt
    have := (h s hs t ht).2 k (by omega)
    have := W_pos.2 hk
    omega
  have e : (∑ s ∈ Finset.range 4, ∑ t ∈ Finset.range 4, (dist star s t - 1)) = 6 := by
    rw [Finset.sum_congr rfl fun s hs => Finset.sum_congr rfl fun t ht => by
      rw [hd s (Finset.mem_range.1 hs) t (Finset.mem_range.1 ht)]]
    decide
  rw [e] at hm
  exact_mod_cast hm

end BT
