import Verif.Block.SparseMeaning
import Verif.Block.Props

/-! # C69, C70: the sparse block model of src/sparse_missing.c -/

set_option linter.unusedSimpArgs false

namespace BK

open GP hiding St
open RG LS Finset

variable {net : Net}

/-! ## Number of links -/

/-- Specification: pairs of nodes that are linked. -/
def linked (net : Net) : Finset (ℕ × ℕ) := (nodePairs net.n).filter fun x => net.a x.1 x.2 = 1

/-- Specification: fraction of the pairs of nodes that are linked. -/
noncomputable def density (net : Net) : ℝ := (linked net).card / (nodePairs net.n).card

theorem pairs_twice (n : ℕ) (g : ℕ → ℕ → Int) (hs : ∀ i j, g i j = g j i) (hd : ∀ i, g i i = 0) :
    ∑ i ∈ range n, ∑ j ∈ range n, g i j = 2 * ∑ x ∈ nodePairs n, g x.1 x.2 := by
  rw [← sum_product']
  rw [← sum_filter_add_sum_filter_not (range n ×ˢ range n) (fun x => x.1 < x.2)]
  rw [← sum_filter_add_sum_filter_not ((range n ×ˢ range n).filter fun x => ¬ x.1 < x.2) (fun x => x.2 < x.1)]
  have h1 : ∑ x ∈ ((range n ×ˢ range n).filter fun x => ¬ x.1 < x.2).filter (fun x => ¬ x.2 < x.1), g x.1 x.2 = 0 := by
    apply sum_eq_zero
    rintro ⟨i, j⟩ hx
    simp only [mem_filter] at hx
    have : i = j := by omega
    rw [this]; exact hd j
  have h2 : ∑ x ∈ ((range n ×ˢ range n).filter fun x => ¬ x.1 < x.2).filter (fun x => x.2 < x.1), g x.1 x.2 =
      ∑ x ∈ nodePairs n, g x.1 x.2 := by
    apply sum_nbij' Prod.swap Prod.swap
    · rintro ⟨i, j⟩ hx
      simp only [nodePairs, mem_filter, mem_product, mem_range, Prod.swap] at hx ⊢
      omega
    · rintro ⟨i, j⟩ hx
      simp only [nodePairs, mem_filter, mem_product, mem_range, Prod.swap] at hx ⊢
      omega
    · rintro ⟨i, j⟩ _; rfl
    · rintro ⟨i, j⟩ _; rfl
    · rintro ⟨i, j⟩ _; exact hs i j
  rw [h1, h2]
  unfold nodePairs
  ring

theorem card_nodePairs (n : ℕ) : 2 * (nodePairs n).card = n * (n - 1) := by
  have h := pairs_twice n (fun i j => if i = j then 0 else 1) (fun i j => by simp [eq_comm]) (fun i => by simp)
  have h1 : ∀ i ∈ range n, ∑ j ∈ range n, (if i = j then (0 : Int) else 1) = n - 1 := by
    intro i hi
    have : ∀ j, (if i = j then (0 : Int) else 1) = 1 - if i = j then 1 else 0 := by intro j; split_ifs <;> rfl
    simp only [this, sum_sub_distrib, sum_ite_eq, if_pos hi]
    simp
  rw [sum_congr rfl h1] at h
  have h2 : ∑ x ∈ nodePairs n, (if x.1 = x.2 then (0 : Int) else 1) = (nodePairs n).card := by
    rw [sum_congr rfl (g := fun _ => (1 : Int))]
    · simp
    · intro x hx
      rw [if_neg]
      simp only [nodePairs, mem_filter] at hx
      omega
  rw [h2] at h
  simp only [sum_const, card_range, nsmul_eq_mul] at h
  rcases n with _ | n
  · simp at h ⊢; exact h
  · push_cast at h
    simp only [Nat.add_sub_cancel]
    have : (2 * (nodePairs (n + 1)).card : Int) = (n + 1) * n := by rw [← h]; ring
    exact_mod_cast this

/-- `TotalNLinks` counts the linked pairs. -/
theorem total_links (h : net.Simple) : TotalNLinks net = (linked net).card := by
  have h1 : ∀ v, ((net.neig v).length : Int) = ∑ j ∈ range net.n, net.a v j := fun v => NodeDegree_eq h v
  have h2 := pairs_twice net.n net.a (fun i j => by unfold Net.a; rw [h.sym]) (fun i => a_self h i)
  have h3 : ∑ x ∈ nodePairs net.n, net.a x.1 x.2 = (linked net).card := by
    unfold linked
    rw [card_filter]
    push_cast
    apply sum_congr rfl
    intro x _
    unfold Net.a
    split_ifs <;> simp_all
  rw [h3] at h2
  have h4 : ((List.range net.n).map fun v => (net.neig v).length).sum = ∑ v ∈ range net.n, (net.neig v).length := by
    rw [range_sum]
  unfold TotalNLinks
  rw [h4]
  have h5 : ((∑ v ∈ range net.n, (net.neig v).length : ℕ) : Int) = 2 * (linked net).card := by
    rw [← h2]; push_cast; exact sum_congr rfl fun v _ => h1 v
  omega

/-! ## The prior -/

/-- **C69.** The parameters chosen for the prior of a network with some but not all pairs linked are positive, and
the mean of the prior is the fraction of linked pairs. -/
theorem C69_prior (h : net.Simple) (h1 : (linked net).Nonempty) (h2 : (linked net).card < (nodePairs net.n).card) :
    ∃ a : ℝ, sparsePrior net = some (a, 1 / 2) ∧ 0 < a ∧ a / (a + 1 / 2) = density net := by
  have hc := card_nodePairs net.n
  have hL : (0 : ℝ) < (linked net).card := by exact_mod_cast card_pos.2 h1
  have hP : ((linked net).card : ℝ) < (nodePairs net.n).card := by exact_mod_cast h2
  have hP0 : (0 : ℝ) < (nodePairs net.n).card := hL.trans hP
  have hd : (2 * (TotalNLinks net : ℝ)) / ((net.n * (net.n - 1) : ℕ) : ℝ) = density net := by
    rw [total_links h, ← hc]
    unfold density
    push_cast
    field_simp
  have hd0 : 0 < density net := div_pos hL hP0
  have hd1 : density net < 1 := (div_lt_one hP0).2 hP
  have hd2 : 0 < 1 - density net := by linarith
  refine ⟨density net * (1 / 2) / (1 - density net), ?_, by positivity, ?_⟩
  · unfold sparsePrior
    rw [if_neg (by rw [← hc]; have : 0 < (nodePairs net.n).card := by exact_mod_cast hP0
                   omega)]
    dsimp only
    rw [hd, if_neg hd2.ne']
  · field_simp
    ring

/-- **C70.** With no link at all, or with all pairs linked, the function is undefined: `betaA` is 0, where the
logarithm of Gamma has no value, or it is a division by zero. -/
theorem C70_undefined (h : net.Simple) (_hn : 0 < net.n)
    (hl : (linked net).card = 0 ∨ (linked net).card = (nodePairs net.n).card)
    (nIter warm : ℕ) (scratch : ℕ → Int) (t : Tape) : SparseGibbsLinkScore net nIter warm scratch t = .ub := by
  have hc := card_nodePairs net.n
  unfold SparseGibbsLinkScore sparsePrior
  by_cases h0 : net.n * (net.n - 1) = 0
  · rw [if_pos h0]
    rfl
  · rw [if_neg h0]
    dsimp only
    rw [total_links h]
    rcases hl with hl | hl
    · rw [hl]
      have : lngamma 0 = none := by unfold lngamma; simp
      simp [this, Res.ofOption]
    · rw [hl, ← hc]
      have hne : ((nodePairs net.n).card : ℝ) ≠ 0 := by
        intro he
        have : (nodePairs net.n).card = 0 := by exact_mod_cast he
        omega
      rw [if_pos (by push_cast; field_simp; ring)]
      rfl

/-! ## Energy and samples -/

/-- **C69.** `SparsePartitionH` is the cost of the partition (minus the logarithm of its probability with the Beta
prior, and the number of labellings), plus the same constant for all partitions of the network. -/
theorem C69_energy {a b : ℝ} (ha : 0 < a) (hb : 0 < b) (h : net.Simple) {p : Part} (hp : PartOK net net.n p)
    (hf : Full net p) : SparsePartitionH (SPARSE a b) net net.n p =
      some (energy (cost (likeBeta a b)) (fun _ => 0) net 0 p.inGroup -
        ((net.n * (net.n + 1) / 2 : ℕ) : ℝ) * Real.log (ProbabilityTheory.beta a b)) := by
  rw [sparsePartitionH_eq (norm_computes ha hb net.n) (norm_shift a b) (fun _ => rfl) h hp hf]
  congr 1
  ring

/-- **C70.** Full statement: the sampler and `SparseGibbsLinkScore` are defined for every network and every sequence
of random numbers. It is false (`C70_undefined`, `C70_stuck`). What holds: one call of the sampler from an exact state with two groups or more, when no draw is 0: it is defined
and leaves an exact state, in particular the running energy is the energy of the new partition. -/
theorem C70_step_partial {a b c : ℝ} (ha : 0 < a) (hb : 0 < b) (h : net.Simple) {s : St}
    (hs : Exact (cost (likeBeta a b)) (fun _ => 0) net 0 c s) (h2 : 2 ≤ (used net s.part.inGroup).card) (ht : NZ s.tape) :
    (SparseGibbsLinkScoreStep (SPARSE a b) net s).Holds fun s' =>
      Exact (cost (likeBeta a b)) (fun _ => 0) net 0 c s' ∧ NZ s'.tape := by
  rw [sparseStep_eq (norm_computes ha hb net.n) (norm_shift a b) h hs]
  exact step_holds (norm_computes ha hb net.n) h hs h2 ht

/-- **C70.** The sampler is undefined when all nodes are in one group, and when the first draw is 0. -/
theorem C70_stuck {a b c : ℝ} (ha : 0 < a) (hb : 0 < b) (h : net.Simple) {s : St}
    (hs : Exact (cost (likeBeta a b)) (fun _ => 0) net 0 c s) :
    ((used net s.part.inGroup).card = 1 → SparseGibbsLinkScoreStep (SPARSE a b) net s = .ub) ∧
    (∀ t, 2 ≤ (used net s.part.inGroup).card → s.tape = 0 :: t → SparseGibbsLinkScoreStep (SPARSE a b) net s = .ub) := by
  rw [sparseStep_eq (norm_computes ha hb net.n) (norm_shift a b) h hs]
  exact ⟨fun h1 => step_one_group (norm_computes ha hb net.n) h hs h1,
    fun t h2 ht => step_zero_draw (norm_computes ha hb net.n) h hs h2 ht⟩

/-- **C69.** `SparseGibbsLinkScore`, whenever it returns: the link probability of a block has a Beta prior whose mean
is the fraction of linked pairs of the network; the requested number of partitions was sampled, each with exact link
counts and exact energy (up to the constant of `C69_energy`); the score of a pair of nodes is the average over the
samples of the probability that one more pair of their two groups is linked; it is symmetric, strictly between 0 and
1, and the diagonal is 0. -/
theorem C69_scores (h : net.Simple) (h1 : (linked net).Nonempty) (h2 : (linked net).card < (nodePairs net.n).card)
    {nIter : ℕ} (hI : 0 < nIter) (warm : ℕ) (scratch : ℕ → Int) (t : Tape) :
    ∃ a : ℝ, 0 < a ∧ a / (a + 1 / 2) = density net ∧
      Safe (fun r => ScoresOK (cost (likeBeta a (1 / 2))) (fun _ => 0) (predict (likeBeta a (1 / 2))) net 0
          (-(((net.n * (net.n + 1) / 2 : ℕ) : ℝ) * Real.log (ProbabilityTheory.beta a (1 / 2)))) nIter r.1 r.2)
        (SparseGibbsLinkScore net nIter warm scratch t) := by
  obtain ⟨a, e, ha, hm⟩ := C69_prior h h1 h2
  refine ⟨a, ha, hm, ?_⟩
  have hb : (0 : ℝ) < 1 / 2 := by norm_num
  have hK := norm_computes ha hb net.n
  have hS := norm_shift a (1 / 2)
  obtain ⟨hp, hi⟩ := own_groups h net.n (le_refl _)
  have hf : Full net ((List.range net.n).foldl (fun p v => AddNodeToGroup net v v p) Part.empty) := by
    intro v hv
    rw [hi, if_pos hv]; simp
  unfold SparseGibbsLinkScore
  rw [e]
  have hg : lngamma (0 + a) = some (Real.log (Real.Gamma (0 + a))) := by unfold lngamma; rw [if_pos (by linarith)]
  simp only [Res.ofOption_some, Res.bind_ok, hg]
  cases hsk : skip net.n t with
  | starved => trivial
  | ub => trivial
  | ok t' =>
    simp only [Res.bind_ok]
    rw [C69_energy ha hb h hp hf]
    simp only [Res.ofOption_some, Res.bind_ok]
    refine (sparseSteps_safe hK hS h (c := -(((net.n * (net.n + 1) / 2 : ℕ) : ℝ) *
      Real.log (ProbabilityTheory.beta a (1 / 2)))) warm _ ⟨hp, hf, fun i hi j hj => initG2G_eq h hp hi hj, ?_⟩).bind ?_
    · dsimp only
      ring
    · intro s hs
      refine (sample_safe (sparse_scores ha hb net.n) h (fun s hs => by
        rw [sparseStep_eq hK hS h hs]; exact step_safe hK h hs) nIter s (fun _ _ => 0) [] hs (by simp)).bind ?_
      rintro ⟨M, tr⟩ ⟨⟨tr', e1, e2, e3⟩, e4⟩
      dsimp only at *
      rw [List.nil_append] at e1
      subst e1
      exact scores_ok (sparse_scores ha hb net.n) h hI e2 e4 (fun a ha b hb => by rw [e3 a ha b hb, zero_add])

/-- **C69.** The prediction: `l` linked pairs out of `r` seen give `(l + a) / (r + a + b)`; before anything is seen it
is the mean of the prior. -/
theorem C69_predict {a b : ℝ} (ha : 0 < a) (hb : 0 < b) {r l : ℕ} (h : l ≤ r) :
    predict (likeBeta a b) r l = (l + a) / (r + a + b) ∧ predict (likeBeta a b) 0 0 = a / (a + b) := by
  refine ⟨predict_beta ha hb h, ?_⟩
  have := predict_beta ha hb (le_refl 0)
  simpa using this

/-! ## Examples -/

/-- A triangle with a tail: four of the six pairs are linked, so `betaA` is 1. -/
example : (linked tailed).card = 4 ∧ (nodePairs tailed.n).card = 6 := by decide

example : sparsePrior tailed = some (1, 1 / 2) := by
  obtain ⟨a, e, _, hm⟩ := C69_prior tailed_simple (by decide) (by decide)
  rw [e]
  have : density tailed = 2 / 3 := by
    unfold density
    rw [show (linked tailed).card = 4 by decide, show (nodePairs tailed.n).card = 6 by decide]
    norm_num
  rw [this] at hm
  have ha : a + 1 / 2 ≠ 0 := by
    intro h0
    rw [h0] at hm
    norm_num at hm
  field_simp at hm
  have : a = 1 := by linarith
  rw [this]

/-- Non-vacuity of `C69_scores`: with eight draws equal to 1/2 a sample is returned. -/
example : ∃ r, SparseGibbsLinkScore tailed 1 0 (fun _ => 7) (List.replicate 8 (1 / 2)) = .ok r := by
  have h := tailed_simple
  obtain ⟨a, e, ha, hm⟩ := C69_prior h (by decide) (by decide)
  have hb : (0 : ℝ) < 1 / 2 := by norm_num
  have hK := norm_computes ha hb tailed.n
  have hS := norm_shift a (1 / 2)
  obtain ⟨hp, hi⟩ := own_groups h tailed.n (le_refl _)
  have hf : Full tailed ((List.range tailed.n).foldl (fun p v => AddNodeToGroup tailed v v p) Part.empty) := by
    intro v hv
    rw [hi, if_pos hv]; simp
  generalize hP : (List.range tailed.n).foldl (fun p v => AddNodeToGroup tailed v v p) Part.empty = P at hp hi hf
  have hu : 2 ≤ (used tailed P.inGroup).card := by
    have : P.inGroup = fun v => if v < 4 then some v else none := funext hi
    rw [this]; decide
  have hsk : skip tailed.n (List.replicate 8 (1 / 2)) = .ok (List.replicate 4 (1 / 2)) := by
    norm_num [skip, draw, tailed, List.replicate]
  unfold SparseGibbsLinkScore
  rw [e]
  have hg : lngamma (0 + a) = some (Real.log (Real.Gamma (0 + a))) := by unfold lngamma; rw [if_pos (by linarith)]
  simp only [Res.ofOption_some, Res.bind_ok, hg]
  rw [hsk, Res.bind_ok, hP]
  rw [C69_energy ha hb h hp hf]
  simp only [Res.ofOption_some, Res.bind_ok, sparseSteps]
  unfold sample
  have hs : Exact (cost (likeBeta a (1 / 2))) (fun _ => 0) tailed 0
      (-(((tailed.n * (tailed.n + 1) / 2 : ℕ) : ℝ) * Real.log (ProbabilityTheory.beta a (1 / 2))))
      { part := P, G2G := initG2G tailed P, n2g := fun _ => 7,
        H := energy (cost (likeBeta a (1 / 2))) (fun _ => 0) tailed 0 P.inGroup -
          ((tailed.n * (tailed.n + 1) / 2 : ℕ) : ℝ) * Real.log (ProbabilityTheory.beta a (1 / 2)), slg := [],
        tape := List.replicate 4 (1 / 2) } :=
    ⟨hp, hf, fun i hi j hj => initG2G_eq h hp hi hj, by ring⟩
  rw [sparseStep_eq hK hS h hs]
  unfold GibbsLinkScoreStep
  obtain ⟨s', e1, i1⟩ := gibbsNodes_ok hK h (List.range tailed.n) _ (start_inv hs hu)
    (by intro u hu; rw [List.eq_of_mem_replicate hu]; norm_num) (by simp [tailed]) (fun v hv => List.mem_range.1 hv)
  unfold startList at e1
  dsimp only at e1 ⊢
  rw [e1]
  simp only [Res.bind_ok, Res.pure_eq]
  rw [accumulate_pure (sparse_scores ha hb tailed.n) h i1.1.part i1.1.counts]
  exact ⟨_, rfl⟩

/-- Non-vacuity of `C70_undefined`: the complete network of two nodes. -/
example (t : Tape) : SparseGibbsLinkScore ⟨2, fun v => if v = 0 then [(1, 1)] else if v = 1 then [(0, 1)] else []⟩ 1 0 (fun _ => 0) t = .ub := by
  refine C70_undefined ⟨?_, ?_, ?_, ?_⟩ (by decide) (Or.inr (by decide)) _ _ _ _
  · intro i; dsimp only; split_ifs <;> simp
  · intro i x; dsimp only; split_ifs <;> simp <;> rintro rfl <;> decide
  · intro i j
    unfold Net.link
    dsimp only
    split_ifs <;> simp_all <;> omega
  · intro i
    unfold Net.link
    dsimp only
    split_ifs <;> simp_all

end BK
