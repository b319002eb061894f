import Verif.Convergence
import Verif.Block.Meaning
import Verif.Missing.Balance
import Verif.Missing.GibbsBalance
import Verif.Missing.Score

/-!
# C181: the link score is the posterior probability of the link

The model behind the score: nodes are divided into groups, every two groups (and every group with itself) have an unknown
probability of a link, all values in [0,1] being equally likely beforehand, and every pair of nodes is linked with the
probability of its groups. A division into `k` groups has weight `exp (-linC k)` beforehand. The definitions of the
first section state this with integrals and do not refer to the program.
-/

namespace LS

open GP Finset MH

/-! ## Bayesian model -/

section spec

variable (net : Net) (F : Fin net.n → Fin net.n)

/-- Pairs of nodes, each counted once, of which one is in group `g` and the other in group `g'`. -/
def cell (g g' : Fin net.n) : Finset (Fin net.n × Fin net.n) :=
  univ.filter fun p => p.1 < p.2 ∧ (F p.1 = g ∧ F p.2 = g' ∨ F p.1 = g' ∧ F p.2 = g)

/-- Probability of what is seen between two groups if the probability of a link is `x`. -/
noncomputable def seen (g g' : Fin net.n) (x : ℝ) : ℝ :=
  ∏ p ∈ cell net F g g', if (net.link p.1 p.2).isSome then x else 1 - x

/-- Probability of the network for this division, all probabilities of links being equally likely. -/
noncomputable def evidence : ℝ := ∏ g, ∏ g' ∈ univ.filter (g ≤ ·), ∫ x in (0 : ℝ)..1, seen net F g g' x

/-- Mean of the probability of a link between `i` and `j`, given the network and the division. -/
noncomputable def expected (i j : Fin net.n) : ℝ :=
  (∫ x in (0 : ℝ)..1, x * seen net F (F i) (F j) x) / ∫ x in (0 : ℝ)..1, seen net F (F i) (F j) x

/-- Divisions: labels are forgotten. -/
def divisions (n : ℕ) : Setoid (Fin n → Fin n) :=
  ⟨SameBlocks, fun _ _ _ => Iff.rfl, fun h => h.symm, fun h h' => h.trans h'⟩

/-- Probability of a link between `i` and `j` given the network, all divisions considered; `linC` biases the number of
groups. -/
noncomputable def posterior (linC : ℝ) (i j : Fin net.n) : ℝ :=
  haveI : Fintype (Quotient (divisions net.n)) := Fintype.ofFinite _
  (∑ q : Quotient (divisions net.n), Real.exp (-(linC * (univ.image q.out).card)) * evidence net q.out * expected net q.out i j) /
    ∑ q : Quotient (divisions net.n), Real.exp (-(linC * (univ.image q.out).card)) * evidence net q.out

end spec

/-! ## Counting pairs once -/

variable {net : Net} {F : Fin net.n → Fin net.n}

theorem sum_triangle {n : ℕ} (h : Fin n → Fin n → ℤ) : ∑ u, ∑ v, h u v =
    ∑ p ∈ univ.filter (fun p : Fin n × Fin n => p.1 < p.2), (h p.1 p.2 + h p.2 p.1) + ∑ u, h u u := by
  rw [← Fintype.sum_prod_type' (f := h)]
  have h1 : ∑ p ∈ univ.filter (fun p : Fin n × Fin n => p.1 < p.2), h p.2 p.1 =
      ∑ p ∈ univ.filter (fun p : Fin n × Fin n => p.2 < p.1), h p.1 p.2 := by
    refine sum_bij' (fun p _ => p.swap) (fun p _ => p.swap) ?_ ?_ ?_ ?_ ?_ <;> simp
  have h2 : ∑ u, h u u = ∑ p ∈ univ.filter (fun p : Fin n × Fin n => p.1 = p.2), h p.1 p.2 := by
    refine sum_bij' (fun u _ => (u, u)) (fun p _ => p.1) ?_ ?_ ?_ ?_ ?_ <;> simp
  rw [sum_add_distrib, h1, h2, ← sum_filter_add_sum_filter_not univ (fun p : Fin n × Fin n => p.1 < p.2), add_assoc]
  congr 1
  rw [← sum_filter_add_sum_filter_not (univ.filter fun p : Fin n × Fin n => ¬ p.1 < p.2) (fun p => p.2 < p.1), filter_filter,
    filter_filter]
  congr 1
  · refine sum_congr (filter_congr fun p _ => ⟨fun h => h.2, fun h => ⟨not_lt.2 h.le, h⟩⟩) fun _ _ => rfl
  · refine sum_congr (filter_congr fun p _ => ⟨fun h => le_antisymm (not_lt.1 h.2) (not_lt.1 h.1), fun h => ?_⟩) fun _ _ => rfl
    rw [h]
    simp

theorem sum_cell (φ : Fin net.n → Fin net.n → ℤ) (hs : ∀ u v, φ u v = φ v u) (h0 : ∀ u, φ u u = 0) (g g' : Fin net.n) :
    (∑ u, ∑ v, if F u = g ∧ F v = g' then φ u v else 0) =
      (if g = g' then 2 else 1) * ∑ p ∈ cell net F g g', φ p.1 p.2 := by
  rw [sum_triangle]
  have hd : ∑ u, (if F u = g ∧ F u = g' then φ u u else 0) = 0 := sum_eq_zero fun u _ => by
    rw [h0]; simp
  rw [hd, add_zero]
  have hcell : cell net F g g' = (univ.filter fun p : Fin net.n × Fin net.n => p.1 < p.2).filter
      fun p => F p.1 = g ∧ F p.2 = g' ∨ F p.1 = g' ∧ F p.2 = g := by rw [filter_filter]; rfl
  rw [hcell, sum_filter _ (fun p : Fin net.n × Fin net.n => φ p.1 p.2), mul_sum]
  refine sum_congr rfl fun p _ => ?_
  rw [hs p.2 p.1]
  by_cases e : g = g'
  · subst e
    by_cases a : F p.1 = g <;> by_cases b : F p.2 = g <;> simp [a, b]
    ring
  · rw [if_neg e, one_mul]
    by_cases a : F p.1 = g ∧ F p.2 = g'
    · have : ¬ (F p.2 = g ∧ F p.1 = g') := fun b => e (a.1.symm.trans b.2)
      rw [if_pos a, if_neg this, if_pos (Or.inl a), add_zero]
    · by_cases b : F p.2 = g ∧ F p.1 = g'
      · rw [if_neg a, if_pos b, if_pos (Or.inr ⟨b.2, b.1⟩), zero_add]
      · rw [if_neg a, if_neg b, if_neg, add_zero]
        rintro (c | c)
        exacts [a c, b ⟨c.2, c.1⟩]

theorem sum_block (F : Fin net.n → Fin net.n) (h : ℕ → ℤ) (g : Fin net.n) :
    ∑ i ∈ block net (lift F) g, h i = ∑ u : Fin net.n, if F u = g then h u else 0 := by
  unfold block
  rw [sum_filter, sum_range]
  refine sum_congr rfl fun u _ => ?_
  rw [lift_lt]
  simp only [Option.some.injEq, Fin.val_inj]

theorem sum_blocks (F : Fin net.n → Fin net.n) (h : ℕ → ℕ → ℤ) (g g' : Fin net.n) :
    ∑ i ∈ block net (lift F) g, ∑ j ∈ block net (lift F) g', h i j =
      ∑ u : Fin net.n, ∑ v : Fin net.n, if F u = g ∧ F v = g' then h u v else 0 := by
  rw [sum_block F (fun i => ∑ j ∈ block net (lift F) g', h i j)]
  refine sum_congr rfl fun u _ => ?_
  by_cases a : F u = g
  · rw [if_pos a, sum_block]
    exact sum_congr rfl fun v _ => by simp [a]
  · rw [if_neg a]
    exact (sum_eq_zero fun v _ => by simp [a]).symm

/-- The links counted by the program are the linked pairs of the cell. -/
theorem links_cell (h : net.Simple) (g g' : Fin net.n) : links net (lift F) g g' =
    (((cell net F g g').filter fun p => (net.link p.1 p.2).isSome).card : ℤ) := by
  have key := sum_cell (F := F) (fun u v => net.a u v) (fun u v => by unfold Net.a; rw [h.sym]) (fun u => by
    unfold Net.a; rw [h.irrefl]; rfl) g g'
  have hc : ∑ p ∈ cell net F g g', net.a p.1 p.2 = (((cell net F g g').filter fun p => (net.link p.1 p.2).isSome).card : ℤ) := by
    unfold Net.a
    rw [card_filter]
    push_cast
    rfl
  unfold links
  rw [sum_blocks, key, hc]
  by_cases e : g = g'
  · subst e
    rw [if_pos rfl, if_pos rfl]
    omega
  · rw [if_neg e, if_neg (fun e' => e (Fin.ext e')), one_mul]

/-- The pairs counted by the program are the pairs of the cell. -/
theorem pairs_cell (g g' : Fin net.n) : pairs net (lift F) g g' = ((cell net F g g').card : ℤ) := by
  have key := sum_cell (F := F) (fun u v => if u = v then 0 else 1) (fun u v => by simp only [eq_comm]) (fun u => by simp) g g'
  have hc : ∑ p ∈ cell net F g g', (if p.1 = p.2 then (0 : ℤ) else 1) = ((cell net F g g').card : ℤ) := by
    rw [sum_congr rfl (g := fun _ => (1 : ℤ)), sum_const, nsmul_eq_mul, mul_one]
    intro p hp
    rw [if_neg (ne_of_lt (mem_filter.1 hp).2.1)]
  rw [hc] at key
  have hcard : ∀ g : Fin net.n, ((block net (lift F) g).card : ℤ) = ∑ u, if F u = g then 1 else 0 := by
    intro g
    rw [card_eq_sum_ones]
    push_cast
    exact sum_block F (fun _ => 1) g
  unfold pairs
  by_cases e : g = g'
  · subst e
    rw [if_pos rfl] at key ⊢
    have : (∑ u, ∑ v, if F u = g ∧ F v = g then (if u = v then (0 : ℤ) else 1) else 0) =
        (block net (lift F) g).card * ((block net (lift F) g).card - 1) := by
      rw [mul_sub, mul_one, hcard, sum_mul_sum, ← sum_sub_distrib]
      refine sum_congr rfl fun u _ => ?_
      by_cases a : F u = g
      · simp only [a, true_and, if_true, one_mul]
        rw [← sum_filter_add_sum_filter_not univ (fun v => u = v) (fun v => if F v = g then (if u = v then (0 : ℤ) else 1) else 0),
          ← sum_filter_add_sum_filter_not univ (fun v => u = v) (fun v => if F v = g then (1 : ℤ) else 0), filter_eq, if_pos (mem_univ _),
          sum_singleton, sum_singleton]
        simp only [a, if_true]
        rw [zero_add, add_sub_cancel_left]
        refine sum_congr rfl fun v hv => ?_
        rw [if_neg (c := u = v) (mem_filter.1 hv).2]
      · simp [a]
    rw [← this, key]
    omega
  · rw [if_neg e] at key
    rw [if_neg (fun e' => e (Fin.ext e')), hcard, hcard, sum_mul_sum, ← one_mul ((cell net F g g').card : ℤ), ← key]
    refine sum_congr rfl fun u _ => sum_congr rfl fun v _ => ?_
    by_cases a : F u = g
    · by_cases b : F v = g'
      · have : u ≠ v := fun e' => e (by rw [← a, ← b, e'])
        simp [a, b, this]
      · simp [b]
    · simp [a]

/-! ## Integrals -/

theorem seen_eq (F : Fin net.n → Fin net.n) (g g' : Fin net.n) (x : ℝ) : seen net F g g' x =
    x ^ ((cell net F g g').filter fun p => (net.link p.1 p.2).isSome).card *
      (1 - x) ^ ((cell net F g g').card - ((cell net F g g').filter fun p => (net.link p.1 p.2).isSome).card) := by
  unfold seen
  rw [prod_ite, prod_const, prod_const]
  congr 2
  have := card_filter_add_card_filter_not (s := cell net F g g') (fun p => (net.link p.1 p.2).isSome = true)
  omega

theorem seen_int (F : Fin net.n → Fin net.n) (g g' : Fin net.n) : ∫ x in (0 : ℝ)..1, seen net F g g' x =
    BK.like1 (cell net F g g').card ((cell net F g g').filter fun p => (net.link p.1 p.2).isSome).card := by
  simp only [seen_eq]
  rfl

theorem seen_exp (h : net.Simple) (g g' : Fin net.n) : ∫ x in (0 : ℝ)..1, seen net F g g' x = Real.exp (-T net (lift F) g g') := by
  have hle : ((cell net F g g').filter fun p => (net.link p.1 p.2).isSome).card ≤ (cell net F g g').card := card_filter_le _ _
  rw [seen_int, BK.like1_eq hle]
  unfold T
  rw [pairs_cell, links_cell h, Int.toNat_natCast, Int.toNat_natCast, ← Real.log_mul, Real.exp_neg, Real.exp_log, one_div]
  · push_cast; rfl
  · have : 0 < (cell net F g g').card.choose ((cell net F g g').filter fun p => (net.link p.1 p.2).isSome).card := Nat.choose_pos hle
    push_cast
    positivity
  · push_cast
    positivity
  · have : 0 < (cell net F g g').card.choose ((cell net F g g').filter fun p => (net.link p.1 p.2).isSome).card := Nat.choose_pos hle
    exact_mod_cast this.ne'

/-- What the program adds for a sampled division is the mean probability of the link. -/
theorem expected_score (h : net.Simple) (F : Fin net.n → Fin net.n) (i j : Fin net.n) :
    expected net F i j = (score net (lift F) i j : ℝ) := by
  have hle : ((cell net F (F i) (F j)).filter fun p => (net.link p.1 p.2).isSome).card ≤ (cell net F (F i) (F j)).card :=
    card_filter_le _ _
  have hnum : ∫ x in (0 : ℝ)..1, x * seen net F (F i) (F j) x = BK.like1 ((cell net F (F i) (F j)).card + 1)
      (((cell net F (F i) (F j)).filter fun p => (net.link p.1 p.2).isSome).card + 1) := by
    unfold BK.like1
    congr 1
    funext x
    rw [seen_eq, Nat.add_sub_add_right, pow_succ']
    ring
  unfold expected score
  rw [hnum, seen_int, ← BK.odS_eq hle, lift_lt, lift_lt]
  dsimp only
  rw [pairs_cell, links_cell h]
  unfold BK.odS
  push_cast
  rfl

/-- **C181**: the Boltzmann weight of a division, without the factor for its labels, is its weight beforehand times the
probability of the network. -/
theorem C181_weight (h : net.Simple) (linC : ℝ) (F : Fin net.n → Fin net.n) :
    Real.exp (-unlabelled net linC (lift F)) = Real.exp (-(linC * (univ.image F).card)) * evidence net F := by
  have hev : evidence net F = Real.exp (-(∑ g ∈ range net.n, T net (lift F) g g +
      ∑ g ∈ range net.n, ∑ g' ∈ (range net.n).filter (g < ·), T net (lift F) g g')) := by
    unfold evidence
    rw [← sum_add_distrib, ← sum_neg_distrib, Real.exp_sum, prod_range]
    refine prod_congr rfl fun g _ => ?_
    have hset : univ.filter (g ≤ ·) = insert g (univ.filter (g < ·)) := by
      ext x
      simp only [mem_filter, mem_univ, true_and, mem_insert]
      exact le_iff_eq_or_lt.trans (or_congr_left eq_comm)
    rw [hset, prod_insert (by simp), seen_exp h, neg_add, Real.exp_add]
    congr 1
    rw [← sum_neg_distrib, Real.exp_sum, prod_filter, prod_filter, prod_range]
    refine prod_congr rfl fun g' _ => ?_
    rw [seen_exp h]
    simp only [Fin.lt_def]
  unfold unlabelled
  rw [hev, ← Real.exp_add, used_image]
  congr 1
  ring

/-- **C181**: what the program adds to the score of a pair for a division is the mean of the probability of the link,
given the division. -/
theorem C181_score (h : net.Simple) (F : Fin net.n → Fin net.n) (i j : Fin net.n) :
    (score net (lift F) i j : ℝ) = expected net F i j := (expected_score h F i j).symm

theorem expected_same {F' : Fin net.n → Fin net.n} (hs : SameBlocks F F') (i j : Fin net.n) :
    expected net F' i j = expected net F i j := by
  have hc : cell net F' (F' i) (F' j) = cell net F (F i) (F j) := by
    unfold cell
    refine filter_congr fun p _ => ?_
    rw [hs, hs, hs, hs]
  have : seen net F' (F' i) (F' j) = seen net F (F i) (F j) := by
    funext x
    unfold seen
    rw [hc]
  unfold expected
  rw [this]

/-- Sums over labelled divisions are sums over divisions. -/
theorem sum_classes (h : net.Simple) (linC : ℝ) {f : (Fin net.n → Fin net.n) → ℝ} (hf : ∀ A B, SameBlocks A B → f A = f B) :
    haveI : Fintype (Quotient (divisions net.n)) := Fintype.ofFinite _
    ∑ A, Real.exp (-E net linC A) * f A = net.n.factorial *
      ∑ q : Quotient (divisions net.n), Real.exp (-(linC * (univ.image q.out).card)) * evidence net q.out * f q.out := by
  classical
  let : Fintype (Quotient (divisions net.n)) := Fintype.ofFinite _
  rw [← sum_fiberwise univ (fun A => (Quotient.mk (divisions net.n) A)) (fun A => Real.exp (-E net linC A) * f A), mul_sum]
  refine sum_congr rfl fun q _ => ?_
  have hset : (univ.filter fun A => Quotient.mk (divisions net.n) A = q) = univ.filter fun A => SameBlocks q.out A := by
    ext A
    simp only [mem_filter, mem_univ, true_and]
    constructor
    · intro e
      subst e
      exact Quotient.mk_out (s := divisions net.n) A
    · intro e
      rw [← Quotient.out_eq q]
      exact Quotient.sound (s := divisions net.n) (SameBlocks.symm e)
  rw [hset, sum_congr rfl (g := fun A => Real.exp (-E net linC A) * f q.out), ← sum_mul, (C172_labels h linC q.out).2,
    C181_weight h]
  · ring
  · intro A hA
    rw [hf q.out A (mem_filter.1 hA).2]

/-- **C181**: in the Boltzmann distribution of the samplers the mean of the score of a pair is the posterior probability of
the link. -/
theorem C181_posterior (h : net.Simple) (linC : ℝ) (i j : Fin net.n) :
    mean (E net linC) (fun F => (score net (lift F) i j : ℝ)) = posterior net linC i j := by
  have e : (fun F => (score net (lift F) i j : ℝ)) = fun F => expected net F i j := funext fun F => C181_score h F i j
  have h1 := sum_classes h linC (f := fun F => expected net F i j) (fun A B hs => (expected_same hs i j).symm)
  have h2 := sum_classes h linC (f := fun _ => 1) (fun _ _ _ => rfl)
  simp only [mul_one] at h2
  unfold mean posterior
  rw [e, h1, h2, mul_div_mul_left]
  exact_mod_cast net.n.factorial_ne_zero

theorem score_between (h : net.Simple) (F : Fin net.n → Fin net.n) (i j : Fin net.n) :
    0 ≤ (score net (lift F) i j : ℝ) ∧ (score net (lift F) i j : ℝ) ≤ 1 := by
  have hle : (((cell net F (F i) (F j)).filter fun p => (net.link p.1 p.2).isSome).card : ℝ) ≤ (cell net F (F i) (F j)).card := by
    exact_mod_cast card_filter_le _ _
  unfold score
  rw [lift_lt, lift_lt]
  dsimp only
  rw [pairs_cell, links_cell h]
  push_cast
  constructor
  · positivity
  · rw [div_le_one (by positivity)]
    linarith

/-- Means over any times late enough are near the limit. -/
theorem late_average {c : ℝ} (h0 : 0 ≤ c) (h1 : c < 1) {N : ℕ} (hN : 0 < N) {x : ℕ → ℝ} {y : ℝ} (hx : ∀ k, |x k - y| ≤ c ^ (k / N)) {ε : ℝ}
    {J : ℕ} (hJ : c ^ J ≤ ε) (ts : List ℕ) (hts : ts ≠ []) (hlate : ∀ k ∈ ts, J * N ≤ k) :
    |(ts.map x).sum / ts.length - y| ≤ ε := by
  have hlen : (0 : ℝ) < ts.length := by exact_mod_cast List.length_pos_of_ne_nil hts
  have key : ∀ l : List ℕ, (∀ k ∈ l, J * N ≤ k) → |(l.map x).sum - l.length * y| ≤ l.length * ε := by
    intro l
    induction l with
    | nil => simp
    | cons k l ih =>
      intro hl
      have a := ih fun k hk => hl k (by simp [hk])
      have b : |x k - y| ≤ ε := by
        refine (hx k).trans (le_trans (pow_le_pow_of_le_one h0 h1.le ?_) hJ)
        exact (Nat.le_div_iff_mul_le hN).2 (hl k (by simp))
      rw [List.map_cons, List.sum_cons, List.length_cons]
      push_cast
      rw [abs_le] at a b ⊢
      constructor <;> linarith [a.1, a.2, b.1, b.2]
  have := key ts hlate
  rw [abs_le] at this ⊢
  have e : (ts.map x).sum / ts.length - y = ((ts.map x).sum - ts.length * y) / ts.length := by field_simp
  rw [e, le_div_iff₀ hlen, div_le_iff₀ hlen]
  constructor <;> linarith [this.1, this.2]

/-- **C181** for `LinkScore`: whatever the start, the mean of the score of a pair, averaged over samples taken at any times
late enough, is as near as one likes to the posterior probability of the link. The scores printed are such averages
(`C31_scores_partial`), and each attempt has the probabilities of `kernel` (C172). -/
theorem C181_metropolis (h : net.Simple) (hn : 3 ≤ net.n) (linC : ℝ) {ε : ℝ} (hε : 0 < ε) :
    ∃ J, ∀ ts : List ℕ, ts ≠ [] → (∀ k ∈ ts, J ≤ k) → ∀ F (i j : Fin net.n),
      |(ts.map fun k => ((next (kernel (E net linC)))^[k] fun F => (score net (lift F) i j : ℝ)) F).sum / ts.length -
        posterior net linC i j| ≤ ε := by
  have : Nonempty (Fin net.n) := ⟨⟨0, by omega⟩⟩
  obtain ⟨D, hD⟩ := bounded (E net linC)
  have h3 : (3 : ℝ) ≤ net.n := by exact_mod_cast hn
  have hD0 : 0 ≤ D := by have := hD id id; linarith
  have hp : 0 < Real.exp (-D) / (net.n * ((net.n : ℝ) - 1)) := div_pos (Real.exp_pos _) (by nlinarith)
  have hp1 : Real.exp (-D) / (net.n * ((net.n : ℝ) - 1)) ≤ 1 := by
    rw [div_le_one (by nlinarith)]
    exact (Real.exp_le_one_iff.2 (by linarith)).trans (by nlinarith)
  have q0 : 0 < (Real.exp (-D) / (net.n * ((net.n : ℝ) - 1))) ^ (2 * net.n) := pow_pos hp _
  have q1 := pow_le_one₀ (n := 2 * net.n) hp.le hp1
  obtain ⟨J, hJ⟩ := exists_pow_lt_of_lt_one hε
    (show 1 - (Real.exp (-D) / (net.n * ((net.n : ℝ) - 1))) ^ (2 * net.n) < 1 by linarith)
  refine ⟨J * (2 * net.n), fun ts hts hlate F i j => ?_⟩
  refine late_average (by linarith) (by linarith) (by omega) (fun k => ?_) hJ.le ts hts hlate
  have := metropolis_converges hn hD k (fun F => (score net (lift F) i j : ℝ)) 0 1 (fun F => (score_between h F i j).1)
    (fun F => (score_between h F i j).2) F
  rw [C181_posterior h] at this
  simpa using this

/-- **C181** for `GibbsLinkScore`, with times counted in sweeps. The scores printed are averages (`C31_gibbs_scores`), and
each move has the probabilities of the heat bath (C176). -/
theorem C181_heat_bath (h : net.Simple) (hn : 0 < net.n) (linC : ℝ) {ε : ℝ} (hε : 0 < ε) :
    ∃ J, ∀ ts : List ℕ, ts ≠ [] → (∀ k ∈ ts, J ≤ k) → ∀ F (i j : Fin net.n),
      |(ts.map fun k => ((sweep (E net linC) (List.finRange net.n))^[k] fun F => (score net (lift F) i j : ℝ)) F).sum / ts.length -
        posterior net linC i j| ≤ ε := by
  have : Nonempty (Fin net.n) := ⟨⟨0, hn⟩⟩
  obtain ⟨D, hD⟩ := bounded (E net linC)
  have h1 : (1 : ℝ) ≤ net.n := by exact_mod_cast hn
  have hD0 : 0 ≤ D := by have := hD id id; linarith
  have hp : 0 < Real.exp (-D) / net.n := div_pos (Real.exp_pos _) (by linarith)
  have hp1 : Real.exp (-D) / net.n ≤ 1 := by
    rw [div_le_one (by linarith)]
    exact (Real.exp_le_one_iff.2 (by linarith)).trans h1
  have q0 : 0 < (Real.exp (-D) / net.n) ^ net.n := pow_pos hp _
  have q1 := pow_le_one₀ (n := net.n) hp.le hp1
  obtain ⟨J, hJ⟩ := exists_pow_lt_of_lt_one hε (show 1 - (Real.exp (-D) / net.n) ^ net.n < 1 by linarith)
  refine ⟨J, fun ts hts hlate F i j => ?_⟩
  refine late_average (by linarith) (by linarith) one_pos (fun k => ?_) hJ.le ts hts (by simpa using hlate)
  have := sweep_converges hD (fun _ => (Fintype.card_fin net.n).le) (fun v => List.mem_finRange v) k
    (fun F => (score net (lift F) i j : ℝ)) 0 1 (fun F => (score_between h F i j).1) (fun F => (score_between h F i j).2) F
  rw [List.length_finRange, C181_posterior h] at this
  simpa using this

example := C181_metropolis tailed_simple (by decide) 0 (ε := 1 / 100) (by norm_num)
example := C181_heat_bath tailed_simple (by decide) 0 (ε := 1 / 100) (by norm_num)

theorem pair_scores : ∀ F : Fin 2 → Fin 2, score GP.pair (lift F) 0 1 = 2 / 3 := by decide +kernel

/-- Of two linked nodes alone, the link has posterior probability 2/3. -/
theorem C181_pair (linC : ℝ) : posterior GP.pair linC (0 : Fin 2) (1 : Fin 2) = 2 / 3 := by
  have e : (fun F : Fin GP.pair.n → Fin GP.pair.n => (score GP.pair (lift F) ((0 : Fin 2) : ℕ) ((1 : Fin 2) : ℕ) : ℝ)) =
      fun _ => (2 / 3 : ℝ) := by
    funext F
    have := pair_scores F
    exact (congrArg (fun q : ℚ => (q : ℝ)) this).trans (by norm_num)
  refine (C181_posterior pair_simple linC (0 : Fin 2) (1 : Fin 2)).symm.trans ?_
  rw [e]
  unfold mean
  rw [← sum_mul, mul_div_cancel_left₀]
  exact (sum_pos (fun _ _ => Real.exp_pos _) ⟨id, mem_univ _⟩).ne'

end LS
