import Verif.Utils.NetPropModel
import Verif.Utils.NetPropSpec
import Verif.Utils.Output
import Verif.Graph.Sets
import Verif.BFS.AssortProps

/-!
# From nodes to labels: components, clustering, correlations, caches
-/

set_option linter.unusedSimpArgs false
set_option linter.unusedSectionVars false

namespace UT

open GR RG

/-! ## Means over the image of a set -/

section image

variable {α β : Type} [DecidableEq β] {s : Finset α} {φ : α → β}

theorem mean_image (hφ : Set.InjOn φ s) (f : β → ℝ) : BFS.mean (s.image φ) f = BFS.mean s fun x => f (φ x) := by
  unfold BFS.mean
  rw [Finset.sum_image hφ, Finset.card_image_of_injOn hφ]

theorem cov_image (hφ : Set.InjOn φ s) (f g : β → ℝ) : BFS.cov (s.image φ) f g = BFS.cov s (fun x => f (φ x)) fun x => g (φ x) := by
  unfold BFS.cov
  rw [mean_image hφ, mean_image hφ, mean_image hφ]

theorem pearson_image (hφ : Set.InjOn φ s) (f g : β → ℝ) :
    BFS.pearson (s.image φ) f g = BFS.pearson s (fun x => f (φ x)) fun x => g (φ x) := by
  unfold BFS.pearson
  rw [cov_image hφ, cov_image hφ, cov_image hφ]

end image

theorem mean_congr {α : Type} {s : Finset α} {f f' : α → ℝ} (h : ∀ x ∈ s, f x = f' x) : BFS.mean s f = BFS.mean s f' := by
  unfold BFS.mean
  rw [Finset.sum_congr rfl h]

theorem pearson_congr {α : Type} {s : Finset α} {f f' g g' : α → ℝ} (h : ∀ x ∈ s, f x = f' x) (h' : ∀ x ∈ s, g x = g' x) :
    BFS.pearson s f g = BFS.pearson s f' g' := by
  have cc : ∀ {f f' g g' : α → ℝ}, (∀ x ∈ s, f x = f' x) → (∀ x ∈ s, g x = g' x) → BFS.cov s f g = BFS.cov s f' g' := by
    intro f f' g g' h h'
    unfold BFS.cov
    rw [mean_congr h, mean_congr h']
    exact mean_congr fun x hx => by rw [h x hx, h' x hx]
  unfold BFS.pearson
  rw [cc h h', cc h h, cc h' h']

theorem sizes_eq : ∀ (cs : List Net) (a b : ℕ),
    (sizes cs (a, b)).2 = b + (cs.map CountNodes).sum ∧ a ≤ (sizes cs (a, b)).1 ∧
      (∀ c ∈ cs, CountNodes c ≤ (sizes cs (a, b)).1) ∧ ((sizes cs (a, b)).1 = a ∨ ∃ c ∈ cs, (sizes cs (a, b)).1 = CountNodes c)
  | [], a, b => by simp [sizes]
  | c :: cs, a, b => by
    obtain ⟨h1, h2, h3, h4⟩ := sizes_eq cs (if a < CountNodes c then CountNodes c else a) (b + CountNodes c)
    rw [sizes]
    refine ⟨by rw [h1]; simp [Nat.add_assoc], ?_, ?_, ?_⟩
    · refine le_trans ?_ h2; split_ifs <;> omega
    · intro d hd
      rcases List.mem_cons.1 hd with rfl | hd
      · refine le_trans ?_ h2; split_ifs <;> omega
      · exact h3 d hd
    · rcases h4 with h4 | ⟨d, hd, h4⟩
      · rw [h4]
        split_ifs
        · exact Or.inr ⟨c, by simp, rfl⟩
        · exact Or.inl rfl
      · exact Or.inr ⟨d, by simp [hd], h4⟩

namespace Loaded

variable {ps : List (String × String)} {net : Net} (L : Loaded ps net)
include L

/-! ## Caches -/

theorem same {net' : Net} (h1 : net'.n = net.n) (h2 : net'.label = net.label) (h3 : net'.neig = net.neig) (h4 : CachesOK net') :
    Loaded ps net' := by
  have hw : weights ps net' = weights ps net := by unfold weights; rw [h1, h2]
  refine ⟨by rw [h1, h2]; exact L.labels, ?_, ?_, h4, ?_, ?_, ?_⟩
  · intro k hk
    rw [hw, h1, h3]
    exact L.holds k (h1 ▸ hk)
  · intro k hk l hl j hj
    rw [h2]
    rw [h3] at hl
    exact L.link_labels k (h1 ▸ hk) l hl j hj
  · intro k hk; rw [h2]; exact L.fit k (h1 ▸ hk)
  · intro k hk; rw [h2]; exact L.words k (h1 ▸ hk)
  · intro k hk; rw [h3]; exact L.outside k (h1 ▸ hk)

theorem node_degree {i : ℕ} (hi : i < net.n) : (NodeDegree net i).1 = degree ps (net.label i) := by
  rw [← L.degree_eq hi, degree_answer L.caches hi, row_length (L.holds i hi)]
  rfl

theorem targets_length {i : ℕ} (hi : i < net.n) : (targets net i).length = degree ps (net.label i) := by
  classical
  rw [← L.degree_eq hi, ← List.toFinset_card_of_nodup (L.nodup i)]
  unfold WG.degree
  congr 1
  ext j
  rw [List.mem_toFinset, L.mem_targets' i j, Finset.mem_filter, Finset.mem_range, L.weights_isSome]
  tauto

theorem laplace_loop {nn : ℕ} : ∀ (todo i : ℕ) (net' : Net) (M : Mat) (M' : Mat) (net'' : Net), todo + i = net'.n → CachesOK net' →
    laplaceLoop nn todo i net' M = some (M', net'') →
    net''.n = net'.n ∧ net''.label = net'.label ∧ net''.neig = net'.neig ∧ CachesOK net''
  | 0, i, net', M, M', net'', _, hc, e => by
    simp only [laplaceLoop, Option.some.injEq, Prod.mk.injEq] at e
    obtain ⟨_, rfl⟩ := e
    exact ⟨rfl, rfl, rfl, hc⟩
  | todo + 1, i, net', M, M', net'', hi, hc, e => by
    obtain ⟨d1, d2, d3, d4⟩ := degree_net hc (i := i) (by omega)
    rw [laplaceLoop] at e
    split_ifs at e
    obtain ⟨h1, h2, h3, h4⟩ := laplace_loop todo (i + 1) _ _ M' net'' (by rw [d1]; omega) d4 e
    exact ⟨h1.trans d1, h2.trans d3, h3.trans d2, h4⟩

theorem spectrum_net {ev : List ℝ} {net' : Net} (e : LaplacianSpectrum net = some (ev, net')) : Loaded ps net' ∧ net'.n = net.n := by
  unfold LaplacianSpectrum at e
  simp only [Option.bind_eq_bind, Option.bind_eq_some_iff] at e
  obtain ⟨r, h1, ⟨M, net''⟩, h2, e⟩ := e
  split_ifs at e
  simp only [Option.some.injEq, Prod.mk.injEq] at e
  obtain ⟨_, rfl⟩ := e
  unfold LaplacianMat at h1
  simp only [Option.bind_eq_bind, Option.bind_eq_some_iff, Option.pure_def, Option.some.injEq] at h1
  obtain ⟨A, _, rfl⟩ := h1
  obtain ⟨k1, k2, k3, k4⟩ := L.laplace_loop net.n 0 net A M net'' (by omega) L.caches h2
  exact ⟨L.same k1 k2 k3 k4, k1⟩

/-! ## Components -/

/-- Labels of the component of a node. -/
theorem comp_image {S : List ℕ} {p : ℕ} (hp : p < net.n) (hS : ∀ v, v ∈ S ↔ BFS.Reach (targets net) p v) :
    {b | (graph ps).Reachable (net.label p) b} = net.label '' {v | v ∈ S} := by
  ext b
  rw [Set.mem_image]
  constructor
  · intro h
    have hb : b ∈ names ps := by
      obtain ⟨w⟩ := h
      obtain ⟨_, j, hj, e, _⟩ := L.list_of_walk w p hp rfl
      exact e ▸ L.label_mem hj
    obtain ⟨j, hj, rfl⟩ := L.node_of hb
    exact ⟨j, (hS j).2 ((L.reach_iff hp hj).2 h), rfl⟩
  · rintro ⟨v, hv, rfl⟩
    have hv := (hS v).1 hv
    exact (L.reach_iff hp (hv.lt L.range hp)).1 hv

theorem comp_ncard {S : List ℕ} {p : ℕ} (hp : p < net.n) (hS : ∀ v, v ∈ S ↔ BFS.Reach (targets net) p v) (hnd : S.Nodup) :
    {b | (graph ps).Reachable (net.label p) b}.ncard = S.length := by
  classical
  rw [L.comp_image hp hS, Set.InjOn.ncard_image]
  · have : {v | v ∈ S} = ↑S.toFinset := by ext; simp
    rw [this, Set.ncard_coe_finset, List.toFinset_card_of_nodup hnd]
  · intro a ha b hb e
    exact L.distinct a b (((hS a).1 ha).lt L.range hp) (((hS b).1 hb).lt L.range hp) e

theorem mem_components {X : Set String} : X ∈ components ps ↔ ∃ p < net.n, X = {b | (graph ps).Reachable (net.label p) b} := by
  unfold components
  rw [Finset.mem_image]
  constructor
  · rintro ⟨a, ha, rfl⟩
    obtain ⟨p, hp, rfl⟩ := L.node_of (List.mem_toFinset.1 ha)
    exact ⟨p, hp, rfl⟩
  · rintro ⟨p, hp, rfl⟩
    exact ⟨_, List.mem_toFinset.2 (L.label_mem hp), rfl⟩

theorem reach_comm {i j : ℕ} (hi : i < net.n) (h : BFS.Reach (targets net) i j) : BFS.Reach (targets net) j i := by
  have hj := h.lt L.range hi
  exact (L.reach_iff hj hi).2 ((L.reach_iff hi hj).1 h).symm

theorem components_card : (BFS.strongComponents (targets net) net.n).ncard = (components ps).card := by
  classical
  have hst : ∀ p < net.n, {v | BFS.Strong (targets net) p v} = {v | BFS.Reach (targets net) p v} := by
    intro p hp
    ext v
    exact ⟨fun h => h.1, fun h => ⟨h, L.reach_comm hp h⟩⟩
  have himg : (↑(components ps) : Set (Set String)) = (fun X : Set ℕ => net.label '' X) '' BFS.strongComponents (targets net) net.n := by
    ext X
    rw [Finset.mem_coe, L.mem_components, Set.mem_image]
    have key : ∀ p < net.n, net.label '' {v | BFS.Reach (targets net) p v} = {b | (graph ps).Reachable (net.label p) b} := by
      intro p hp
      have hfin : {v | BFS.Reach (targets net) p v}.Finite := (Set.finite_Iio net.n).subset fun v hv => BFS.Reach.lt L.range hp hv
      have := L.comp_image (S := hfin.toFinset.toList) hp (by intro v; simp)
      rw [this]
      congr 1
      ext v
      simp
    constructor
    · rintro ⟨p, hp, rfl⟩
      exact ⟨_, ⟨p, hp, rfl⟩, by rw [hst p hp, key p hp]⟩
    · rintro ⟨_, ⟨p, hp, rfl⟩, rfl⟩
      exact ⟨p, hp, by rw [hst p hp, key p hp]⟩
  rw [← Set.ncard_coe_finset, himg, Set.InjOn.ncard_image]
  rintro _ ⟨p, hp, rfl⟩ _ ⟨q, hq, rfl⟩ e
  have sub : ∀ p < net.n, {v | BFS.Strong (targets net) p v} ⊆ {v | v < net.n} := fun p hp v hv => BFS.Reach.lt L.range hp hv.1
  have inj : Set.InjOn net.label {v | v < net.n} := fun a ha b hb e => L.distinct a b ha hb e
  exact (inj.image_eq_image_iff (sub p hp) (sub q hq)).1 e

end Loaded

/-- The sizes of the components add up to the number of labels. -/
theorem components_sum (ps : List (String × String)) : ∑ X ∈ components ps, X.ncard = (names ps).length := by
  classical
  rw [← List.toFinset_card_of_nodup (names_nodup ps), Finset.card_eq_sum_card_image (fun a => {b | (graph ps).Reachable a b})]
  unfold components
  refine Finset.sum_congr ?_ fun X hX => ?_
  · congr
  · obtain ⟨a, ha, rfl⟩ := Finset.mem_image.1 hX
    rw [← Set.ncard_coe_finset]
    congr 1
    ext b
    simp only [Finset.coe_filter, List.mem_toFinset, Set.mem_ofPred_eq]
    constructor
    · intro h
      refine ⟨?_, ?_⟩
      · by_cases e : a = b
        · exact e ▸ List.mem_toFinset.1 ha
        · obtain ⟨w⟩ := h
          cases w.reverse with
          | nil => exact (e rfl).elim
          | cons h _ => exact (adj_names h).1
      · ext c
        exact ⟨fun h' => h.trans h', fun h' => h.symm.trans h'⟩
    · rintro ⟨_, h⟩
      have : b ∈ {c | (graph ps).Reachable b c} := SimpleGraph.Reachable.refl b
      rw [h] at this
      exact this

namespace Loaded

variable {ps : List (String × String)} {net : Net} (L : Loaded ps net)
include L

/-! ## Distances, clustering, correlations -/

theorem sum_names' {f : String → ℕ} : ((names ps).map f).sum = ∑ i ∈ Finset.range net.n, f (net.label i) := by
  rw [← L.labels, List.map_map, ← List.sum_toFinset _ List.nodup_range, List.toFinset_range]
  rfl

theorem inverse_ok (hn : net.n ≤ 10000) : BFS.AverageInverseDistance (targets net) net.n =
    some (((names ps).map fun a => ((names ps).map fun b => if a ≠ b then invDist ps a b else 0).sum).sum /
      ((names ps).length * (((names ps).length : ℚ) - 1))) := by
  classical
  rw [BFS.C46_average_inverse_distance L.range hn (fun s v => invDist ps (net.label s) (net.label v))]
  · rw [← L.len, L.sum_names]
    congr 2
    refine Finset.sum_congr rfl fun s hs => ?_
    rw [L.sum_names]
    refine Finset.sum_congr rfl fun t ht => ?_
    have hs := Finset.mem_range.1 hs
    have ht := Finset.mem_range.1 ht
    by_cases e : s = t
    · subst e; simp
    · rw [if_pos e, if_pos fun h => e (L.distinct s t hs ht h)]
  · intro s hs v hv _
    constructor
    · intro d hd
      obtain ⟨h1, h2⟩ := (L.isDist_iff hs hv d).1 hd
      rw [invDist, if_pos h1, h2]
    · intro h
      rw [invDist, if_neg]
      rwa [← L.reach_iff hs hv]

theorem linksAmong_eq {i : ℕ} (hi : i < net.n) : BFS.linksAmong (targets net) i =
    {e ∈ (graph ps).edgeSet | ∀ b ∈ e, (graph ps).Adj (net.label i) b}.ncard := by
  classical
  have : {e ∈ (graph ps).edgeSet | ∀ b ∈ e, (graph ps).Adj (net.label i) b} =
      ↑(((BFS.nbr (targets net) i ×ˢ BFS.nbr (targets net) i).filter fun x => x.1 < x.2 ∧ x.2 ∈ targets net x.1).image
        fun p => s(net.label p.1, net.label p.2)) := by
    ext e
    rw [Finset.mem_coe, Finset.mem_image]
    simp only [Finset.mem_filter, Finset.mem_product, BFS.nbr, List.mem_toFinset, Set.mem_ofPred_eq, L.mem_targets']
    constructor
    · induction e with
      | _ a b =>
        rintro ⟨h, hb⟩
        rw [SimpleGraph.mem_edgeSet] at h
        have h1 := hb a (by simp)
        have h2 := hb b (by simp)
        obtain ⟨j, hj, rfl⟩ := L.node_of (adj_names h).1
        obtain ⟨k, hk, rfl⟩ := L.node_of (adj_names h).2
        have hij : j ≠ k := by rintro rfl; exact h.1 rfl
        rcases lt_or_gt_of_ne hij with hlt | hlt
        · exact ⟨(j, k), ⟨⟨⟨hi, hj, h1⟩, hi, hk, h2⟩, hlt, hj, hk, h⟩, rfl⟩
        · exact ⟨(k, j), ⟨⟨⟨hi, hk, h2⟩, hi, hj, h1⟩, hlt, hk, hj, h.symm⟩, Sym2.eq_swap⟩
    · rintro ⟨⟨j, k⟩, ⟨⟨⟨_, _, h1⟩, _, _, h2⟩, _, _, _, h⟩, rfl⟩
      refine ⟨h, ?_⟩
      intro b hb
      rcases Sym2.mem_iff.1 hb with rfl | rfl
      · exact h1
      · exact h2
  rw [this, Set.ncard_coe_finset, Finset.card_image_of_injOn]
  · rfl
  rintro ⟨j, k⟩ hx ⟨j', k'⟩ hy e
  simp only [Finset.coe_filter, Finset.mem_product, BFS.nbr, List.mem_toFinset, Set.mem_ofPred_eq, L.mem_targets'] at hx hy
  simp only [Sym2.eq_iff] at e
  rcases e with ⟨e1, e2⟩ | ⟨e1, e2⟩
  · have := L.distinct j j' hx.2.2.1 hy.2.2.1 e1
    have := L.distinct k k' hx.2.2.2.1 hy.2.2.2.1 e2
    simp_all
  · have := L.distinct j k' hx.2.2.1 hy.2.2.2.1 e1
    have := L.distinct k j' hx.2.2.2.1 hy.2.2.1 e2
    omega

theorem cluster_eq {i : ℕ} (hi : i < net.n) : BFS.coefficient (targets net) i = clusterOf ps (net.label i) := by
  unfold BFS.coefficient clusterOf
  rw [L.linksAmong_eq hi, L.targets_length hi]

theorem twoLinks_eq : twoLinks ps = ((List.range net.n).filter fun p => 1 < (targets net p).length).map net.label := by
  unfold twoLinks
  rw [← L.labels, List.filter_map]
  congr 1
  refine List.filter_congr fun i hi => ?_
  simp only [Function.comp_apply]
  rw [L.targets_length (List.mem_range.1 hi)]
  rfl

theorem clustering_ok : clustering (targets net) net.n = some (if twoLinks ps = [] then none else
    some (((twoLinks ps).map (clusterOf ps)).sum / (twoLinks ps).length)) := by
  unfold clustering
  rw [BFS.clusterSum_spec L.simple (List.range net.n) (by simp)]
  simp only [Option.bind_eq_bind, Option.bind_some, Option.pure_def, zero_add]
  have hlen : net.n - ((List.range net.n).filter fun p => ¬ 1 < (targets net p).length).length = (twoLinks ps).length := by
    have h2 := List.length_eq_length_filter_add (l := List.range net.n) (fun p => decide (1 < (targets net p).length))
    rw [L.twoLinks_eq, List.length_map]
    simp only [List.length_range] at h2
    simp only [decide_not]
    omega
  have hsum : (((List.range net.n).filter fun p => 1 < (targets net p).length).map (BFS.coefficient (targets net))).sum =
      ((twoLinks ps).map (clusterOf ps)).sum := by
    rw [L.twoLinks_eq, List.map_map]
    congr 1
    refine List.map_congr_left fun i hi => ?_
    exact L.cluster_eq (List.mem_range.1 (List.mem_filter.1 hi).1)
  rw [hlen, hsum]
  simp only [List.length_eq_zero_iff]

theorem linkEnds_eq [DecidableEq (String × String)] : linkEnds ps = (BFS.linkPairs (targets net) net.n).image (Prod.map net.label net.label) := by
  classical
  ext ⟨a, b⟩
  unfold linkEnds BFS.linkPairs
  simp only [Finset.mem_filter, Finset.mem_product, List.mem_toFinset, Finset.mem_image, Finset.mem_range, L.mem_targets', Prod.exists,
    Prod.map_apply, Prod.mk.injEq]
  constructor
  · rintro ⟨⟨ha, hb⟩, h⟩
    obtain ⟨i, hi, rfl⟩ := L.node_of ha
    obtain ⟨j, hj, rfl⟩ := L.node_of hb
    exact ⟨i, j, ⟨⟨hi, hj⟩, hi, hj, h⟩, rfl, rfl⟩
  · rintro ⟨i, j, ⟨⟨hi, hj⟩, _, _, h⟩, rfl, rfl⟩
    exact ⟨⟨L.label_mem hi, L.label_mem hj⟩, h⟩

theorem assort_ok (hdeg : 2 * ((names ps).map fun a => degree ps a ^ 3).sum ≤ 2147483647) :
    ∃ r, BFS.Assortativity (targets net) net.n = some r ∧ (r = none ↔ ∃ c, ∀ x ∈ linkEnds ps, degree ps x.1 = c) ∧
      ∀ x, r = some x → -1 ≤ x ∧ x ≤ 1 ∧ (x : ℝ) = BFS.pearson (linkEnds ps) (fun y => (degree ps y.1 : ℝ)) fun y => degree ps y.2 := by
  classical
  obtain ⟨r, e, h1, h2⟩ := BFS.C76_pearson (adj := targets net) (n := net.n) ⟨L.range, L.simple.sym, L.nodup⟩ (by
    rw [L.sum_names'] at hdeg
    refine le_trans (le_of_eq ?_) hdeg
    congr 1
    exact Finset.sum_congr rfl fun p hp => by rw [L.targets_length (Finset.mem_range.1 hp)])
  have hmem : ∀ x ∈ BFS.linkPairs (targets net) net.n, x.1 < net.n ∧ x.2 < net.n := by
    intro x hx
    have := (Finset.mem_product.1 (Finset.mem_filter.1 hx).1)
    exact ⟨Finset.mem_range.1 this.1, Finset.mem_range.1 this.2⟩
  have hinj : Set.InjOn (Prod.map net.label net.label) (↑(BFS.linkPairs (targets net) net.n) : Set (ℕ × ℕ)) := by
    rintro ⟨a, b⟩ hx ⟨c, d⟩ hy e
    simp only [Prod.map_apply, Prod.mk.injEq] at e
    obtain ⟨x1, x2⟩ := hmem _ (Finset.mem_coe.1 hx)
    obtain ⟨y1, y2⟩ := hmem _ (Finset.mem_coe.1 hy)
    rw [L.distinct a c x1 y1 e.1, L.distinct b d x2 y2 e.2]
  refine ⟨r, e, h1.trans (exists_congr fun c => ?_), fun x hx => ?_⟩
  · rw [L.linkEnds_eq]
    simp only [Finset.forall_mem_image, Prod.map_fst]
    exact forall₂_congr fun x hx => by rw [L.targets_length (hmem x hx).1]
  · obtain ⟨k1, k2, k3⟩ := h2 x hx
    refine ⟨k1, k2, ?_⟩
    rw [k3, L.linkEnds_eq, pearson_image hinj]
    apply pearson_congr
    · intro y hy; rw [L.targets_length (hmem y hy).1]; rfl
    · intro y hy; rw [L.targets_length (hmem y hy).2]; rfl

theorem stats_ok (hmax : ∀ s ∈ names ps, ∀ t ∈ names ps, (shortest ps s t).ncard ≤ 2147483647) (hn : net.n ≠ 0) :
    ∃ a d l u, BT.NodeBetweennessStatistics (targets net) net.n = some (a, d, l, u) ∧
      a = (((names ps).map (betweenness ps)).sum : ℚ) / (names ps).length ∧
      0 ≤ d ∧ d ^ 2 = ((names ps).map fun v => ((betweenness ps v : ℝ) - a) ^ 2).sum / (names ps).length ∧
      l ∈ (names ps).map (betweenness ps) ∧ u ∈ (names ps).map (betweenness ps) ∧
      ∀ v ∈ names ps, l ≤ betweenness ps v ∧ betweenness ps v ≤ u := by
  obtain ⟨btw, hb, hv⟩ := L.btw_ok hmax
  have hlist : (List.range net.n).map btw = (names ps).map (betweenness ps) := by
    rw [← L.labels, List.map_map]
    exact List.map_congr_left fun i hi => hv i (List.mem_range.1 hi)
  have hne : (names ps).map (betweenness ps) ≠ [] := by
    intro h
    apply hn
    have := congrArg List.length h
    rw [L.len]
    simpa using this
  have hne' : ((names ps).map (betweenness ps)).map (fun x : ℚ => (x : ℝ)) ≠ [] := by simpa using hne
  obtain ⟨a, d, ha, hd, h0, hsq, _⟩ := Tools.C41_stddev _ hne'
  obtain ⟨a', ha', hmul, _⟩ := Tools.C41_mean _ hne'
  obtain ⟨⟨u, hu, eu, bu⟩, ⟨l, hl, el, bl⟩⟩ := Tools.C41_max_min _ hne
  rw [ha] at ha'
  cases ha'
  have hlen : ((((names ps).map (betweenness ps)).map (fun x : ℚ => (x : ℝ))).length : ℝ) = (names ps).length := by simp
  have hpos : ((names ps).length : ℝ) ≠ 0 := by
    rw [← L.len]; exact_mod_cast hn
  refine ⟨a, d, l, u, ?_, ?_, h0, ?_, hl, hu, ?_⟩
  · unfold BT.NodeBetweennessStatistics
    rw [hb]
    simp only [Option.bind_eq_bind, Option.bind_some, hlist]
    rw [ha, hd, el, eu]
    rfl
  · rw [hlen] at hmul
    rw [eq_div_iff hpos, hmul]
    have : ∀ l : List ℚ, (l.map fun x : ℚ => (x : ℝ)).sum = (l.sum : ℝ) := by
      intro l
      induction l with
      | nil => simp
      | cons x l ih => rw [List.map_cons, List.sum_cons, List.sum_cons, ih, Rat.cast_add]
    exact this _
  · rw [hlen] at hsq
    rw [eq_div_iff hpos, hsq, List.map_map, List.map_map]
    rfl
  · intro v hv
    have hm : betweenness ps v ∈ (names ps).map (betweenness ps) := List.mem_map.2 ⟨v, hv, rfl⟩
    exact ⟨bl _ hm, bu _ hm⟩

theorem avDegree_ok (hn : net.n ≠ 0) : ∃ net', AverageDegree net true =
    some ((((names ps).map fun a => (degree ps a : ℚ)).sum) / (names ps).length, net') ∧ Loaded ps net' ∧ net'.n = net.n := by
  obtain ⟨h1, h2, h3⟩ := L.totalLinks
  obtain ⟨net', e⟩ := C45_average_degree L.holds L.caches true (fun _ => ⟨L.sym, L.symSimple.loop⟩) (by omega)
  have : net' = (TotalNLinks net true).2 := by
    unfold AverageDegree at e
    rw [if_neg hn] at e
    exact (Prod.mk.inj (Option.some.inj e)).2.symm
  subst this
  refine ⟨_, ?_, h3, h2⟩
  rw [e, ← L.len, L.sum_names]
  congr 3
  exact Finset.sum_congr rfl fun i hi => by rw [L.degree_eq (Finset.mem_range.1 hi)]

theorem sqDegree_ok (hn : net.n ≠ 0) : ∃ net', AverageSquaredDegree net =
    some ((⌊((((names ps).map fun a => degree ps a ^ 2).sum : ℕ) : ℚ) / (names ps).length⌋ : ℚ), net') ∧ net'.n = net.n := by
  obtain ⟨v, net', e, hv, _⟩ := C20_average_squared_degree_partial L.holds L.caches (by omega)
  have hN : net'.n = net.n := by
    have : ∀ (f : ℕ → ℕ) (todo i : ℕ) (m : Net), (sumDegrees f todo i m).2.n = m.n := by
      intro f todo
      induction todo with
      | zero => intro i m; rfl
      | succ t ih =>
        intro i m
        rw [sumDegrees]
        simp only
        rw [ih]
        unfold NodeDegree
        split_ifs <;> rfl
    unfold AverageSquaredDegree at e
    simp only [if_neg hn, Option.some.injEq, Prod.mk.injEq] at e
    rw [← e.2, this]
  refine ⟨net', ?_, hN⟩
  rw [e, hv, ← L.len, L.sum_names']
  congr 6
  exact Finset.sum_congr rfl fun i hi => by rw [L.degree_eq (Finset.mem_range.1 hi)]

end Loaded

end UT
