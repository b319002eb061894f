import Verif.Recommend.GibbsStep

/-! # C115: the scores of the heat-bath recommender -/

set_option linter.unusedSimpArgs false

namespace RC

open GP RG LS KS Finset
open BP (Bi)

variable {b : Bi} {K : ℕ}

theorem gCollect_eq (s : View) (H0 : ℝ) (A : Acc) :
    (gCollect (scoreK K) s H0 A).2 = (bCollect (scoreK K) { s with H := s.H - H0 } A).2 := by
  unfold gCollect bCollect
  dsimp only
  have e : (400 < H0 - s.H) ↔ (s.H - H0 < -400) := by constructor <;> intro h <;> linarith
  by_cases hc : 400 < H0 - s.H
  · rw [if_pos hc, if_pos (e.1 hc)]; rfl
  · rw [if_neg hc, if_neg (fun h => hc (e.2 h))]; rfl

theorem gCollect_sums {c : Bi} {s : View} (hs : BCounts c K s) (H0 : ℝ) {A : Acc}
    {S : List ((ℕ → Option ℕ) × (ℕ → Option ℕ))} (hA : Sums c K (fun k => k < K) A S) :
    ∃ S', Sums c K (fun k => k < K) (gCollect (scoreK K) s H0 A).2 S' ∧ S'.length ≤ S.length + 1 := by
  rw [gCollect_eq]
  have hs' : BCounts c K { s with H := s.H - H0 } :=
    ⟨hs.part, hs.full, hs.opart, hs.ofull, hs.n, hs.ninv, hs.g, hs.ginv, hs.ng, hs.ong⟩
  exact collect_sums hs' (fun k hk q h1 h2 => scoreK_eq hs' hk h1 h2) hA

theorem gSample_sums {c : Bi} {step : View → Res View} {I : View → Prop} (hI : ∀ s, I s → BCounts c K s)
    (hstep : ∀ s, I s → (step s).Holds I) (nIter : ℕ) :
    ∀ (fuel : ℕ) (s : View) (H0 : ℝ) (A : Acc) (S : List ((ℕ → Option ℕ) × (ℕ → Option ℕ))), I s →
    Sums c K (fun k => k < K) A S → S.length ≤ nIter →
    (gSample step (scoreK K) nIter fuel s H0 A).Holds fun r => ∃ S', Sums c K (fun k => k < K) r S' ∧ S'.length = nIter
  | 0, s, H0, A, S, hs, hA, hle => by
    unfold gSample
    split_ifs with hi
    · trivial
    · exact ⟨S, hA, by have := hA.2.1; omega⟩
  | fuel + 1, s, H0, A, S, hs, hA, hle => by
    unfold gSample
    split_ifs with hi
    · refine (hstep s hs).bind ?_
      intro s' hs'
      obtain ⟨S', h1, h2⟩ := gCollect_sums (hI s' hs') H0 hA
      exact gSample_sums hI hstep nIter fuel _ _ _ S' hs' h1 (by have := hA.2.1; omega)
    · exact ⟨S, hA, by have := hA.2.1; omega⟩

/-- **C115**: for every query and rating the score returned by `GibbsMultiLinkScoreKState` is the mean, over `nIter`
sampled pairs of partitions, of `(nₖ + 1) / (n + K)`, the counts being those of the ratings left after all queried
pairs have been taken out; for every network with ratings `0 … K-1`, every length of the warm-up, every stream of random
numbers without 0, and any number of restarts. The call is defined. -/
theorem C115_means_partial (h : b.OK) (hr : b.Rated K) (hK : 0 < K) (qs : List (ℕ × ℕ)) {nIter : ℕ} (hn : 0 < nIter)
    (warm fuel : ℕ) {t : Tape} (ht : NonZero t) :
    (GibbsMultiLinkScoreKState b K qs nIter warm fuel t).Holds fun score => ∃ c, Unqueried b c qs ∧
      ∃ S, S.length = nIter ∧ (∀ f ∈ S, Assigned c f) ∧
      ∀ k < K, ∀ q : ℕ × ℕ, q.1 < b.n1 → q.2 < b.n2 → score k q = some (Means c K nIter S k q) := by
  unfold GibbsMultiLinkScoreKState
  obtain ⟨c, hc, hu, _⟩ := clean_ok h qs
  have hr' := unqueried_rated hu hr
  obtain ⟨H, hH, hs⟩ := startK hu.1 hr' hK t
  rw [hc]
  simp only [Res.ofOption_some, Res.bind_ok, hH]
  have hstep : ∀ s, (BInv (TKb K) c K 0 s ∧ NonZero s.tape) →
      (GibbsStepKState c K s).Holds fun s => BInv (TKb K) c K 0 s ∧ NonZero s.tape :=
    fun s hs => gibbs_inv hu.1 hK hs.1 hs.2
  refine (iter_holds hstep warm _ ⟨(invK_iff hu.1 hr' hK).1 hs, ht⟩).bind ?_
  intro s1 hs1
  refine (gSample_sums (fun s hs => hs.1.toBCounts) hstep nIter fuel s1 s1.H (Acc.mk 0 0 fun _ _ => some 0) [] hs1
    ⟨rfl, rfl, by simp, fun _ _ _ _ _ => by simp⟩ (by simp)).bind ?_
  rintro A ⟨S, ⟨h1, h2, h3, h4⟩, hlen⟩
  refine ⟨c, hu, S, hlen, h3, ?_⟩
  intro k hk q hq1 hq2
  dsimp only
  rw [if_neg (by omega), h4 k hk q (by rw [hu.2.1]; exact hq1) (by rw [hu.2.2.1]; exact hq2), h1, hlen]
  rfl

/-- **C115**: the `K` scores of every query are positive and sum to one. -/
theorem C115_distribution_partial (h : b.OK) (hr : b.Rated K) (hK : 0 < K) (qs : List (ℕ × ℕ)) {nIter : ℕ} (hn : 0 < nIter)
    (warm fuel : ℕ) {t : Tape} (ht : NonZero t) :
    (GibbsMultiLinkScoreKState b K qs nIter warm fuel t).Holds fun score =>
      ∀ q : ℕ × ℕ, q.1 < b.n1 → q.2 < b.n2 → Distribution K fun k => score k q := by
  refine (C115_means_partial h hr hK qs hn warm fuel ht).mono ?_
  rintro score ⟨c, _, S, hl, _, hsc⟩ q hq1 hq2
  exact ⟨fun k => Means c K nIter S k q, fun k hk => ⟨hsc k hk q hq1 hq2, means_pos hn hl hK k q⟩, means_sum hn hl hK q⟩

/-- **C115**: the scores do not depend on the ratings of the queried pairs. -/
theorem C115_no_leak {b' : Bi} (h : b.OK) (h' : b'.OK) {qs : List (ℕ × ℕ)} (e1 : b.n1 = b'.n1) (e2 : b.n2 = b'.n2)
    (e : ∀ i, ((b.neig1 i).filter fun x => (i, x.1) ∉ qs) = (b'.neig1 i).filter fun x => (i, x.1) ∉ qs)
    (K nIter warm fuel : ℕ) (t : Tape) :
    GibbsMultiLinkScoreKState b K qs nIter warm fuel t = GibbsMultiLinkScoreKState b' K qs nIter warm fuel t := by
  unfold GibbsMultiLinkScoreKState
  rw [clean_same h h' e1 e2 e]

/-- **C115**: the whole call is undefined if the first random number is 0. -/
theorem C115_zero (h : b.OK) (hr : b.Rated K) (hK : 0 < K) (hn : 0 < b.n1) (qs : List (ℕ × ℕ)) (nIter warm fuel : ℕ) (t : Tape) :
    GibbsMultiLinkScoreKState b K qs nIter (warm + 1) fuel (0 :: t) = .ub := by
  unfold GibbsMultiLinkScoreKState
  obtain ⟨c, hc, hu, _⟩ := clean_ok h qs
  have hr' := unqueried_rated hu hr
  obtain ⟨H, hH, hs⟩ := startK hu.1 hr' hK (0 :: t)
  rw [hc]
  simp only [Res.ofOption_some, Res.bind_ok, hH]
  rw [iter, C114_zero hu.1 hr' hK (by rw [hu.2.1]; exact hn) hs rfl]
  rfl

/-- The run returns scores for two persons and two films. -/
example : ∃ score, GibbsMultiLinkScoreKState movies 2 [(1, 0)] 1 0 1 [1 / 2, 1 / 3, 1 / 4, 1 / 5] = .ok score ∧
    Distribution 2 fun k => score k (1, 0) := by
  have hd := C115_distribution_partial (t := [1 / 2, 1 / 3, 1 / 4, 1 / 5]) (nIter := 1) movies_ok movies_rated (by norm_num) [(1, 0)]
    (by norm_num) 0 1 (by intro u hu; simp at hu; rcases hu with rfl | rfl | rfl | rfl <;> norm_num)
  obtain ⟨c, hc, hu, _⟩ := clean_ok movies_ok [(1, 0)]
  have hr' := unqueried_rated hu movies_rated
  obtain ⟨H, hH, hs⟩ := startK hu.1 hr' (by norm_num) [1 / 2, 1 / 3, 1 / 4, 1 / 5]
  obtain ⟨m, s', e1, _⟩ := C114_every_node (us1 := [1 / 2, 1 / 3]) (us2 := [1 / 4, 1 / 5]) (t := []) hu.1 hr'
    (by norm_num) hs rfl (by rw [hu.2.1]; rfl) (by rw [hu.2.2.1]; rfl) (by norm_num) (by norm_num)
  unfold GibbsMultiLinkScoreKState at hd ⊢
  rw [hc] at hd ⊢
  simp only [Res.ofOption_some, Res.bind_ok, hH, iter] at hd ⊢
  rw [gSample, if_pos (by norm_num), e1] at hd ⊢
  simp only [Res.bind_ok] at hd ⊢
  rw [gSample, if_neg (by unfold gCollect; dsimp only; omega)] at hd ⊢
  exact ⟨_, rfl, hd (1, 0) (by decide) (by decide)⟩

end RC
