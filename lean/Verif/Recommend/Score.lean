import Verif.Recommend.Props
import Verif.Bipart.Props
import Verif.Missing.Gibbs
import Verif.KState.Score
import Mathlib.Algebra.BigOperators.Field

/-! # C50: scores of the recommender -/

set_option linter.unusedSimpArgs false

namespace RC

open GP RG LS KS Finset
open BP (Bi)

variable {b : Bi} {K : ℕ}

/-! ## The ratings of the queries are removed -/

/-- Lists of the second set in increasing order. -/
def Sorted2 (c : Bi) : Prop := ∀ j, ((c.neig2 j).map (·.1)).Pairwise (· < ·)

theorem clean_aux : ∀ (qs : List (ℕ × ℕ)) (c : Bi), c.OK → Sorted2 c → ∃ d,
    qs.foldlM (fun c q => if BP.isThere (c.neig1 q.1) q.2 then BP.RemoveLink c q.1 q.2 else some c) c = some d ∧
      Unqueried c d qs ∧ Sorted2 d
  | [], c, h, hs => ⟨c, rfl, ⟨h, rfl, rfl, fun i => by simp⟩, hs⟩
  | q :: qs, c, h, hs => by
    rw [List.foldlM_cons]
    have key : ∀ c' : Bi, c'.OK → Sorted2 c' → c'.n1 = c.n1 → c'.n2 = c.n2 →
        (∀ i, c'.neig1 i = (c.neig1 i).filter fun x => (i, x.1) ≠ q) → ∃ d,
        qs.foldlM (fun c q => if BP.isThere (c.neig1 q.1) q.2 then BP.RemoveLink c q.1 q.2 else some c) c' = some d ∧
          Unqueried c d (q :: qs) ∧ Sorted2 d := by
      intro c' h' hs' e1 e2 e3
      obtain ⟨d, hd, ⟨g1, g2, g3, g4⟩, g5⟩ := clean_aux qs c' h' hs'
      refine ⟨d, hd, ⟨g1, g2.trans e1, g3.trans e2, fun i => ?_⟩, g5⟩
      rw [g4, e3, List.filter_filter]
      apply List.filter_congr
      intro x _
      by_cases a1 : (i, x.1) = q <;> by_cases a2 : (i, x.1) ∈ qs <;> simp [a1, a2]
    by_cases hq : BP.isThere (c.neig1 q.1) q.2 = true
    · rw [if_pos hq]
      have hl : c.Linked q.1 q.2 := BP.linked_map.2 (BP.isThere_map.1 hq)
      rw [BP.remove_eq h hl]
      simp only [Option.bind_eq_bind, Option.bind_some]
      refine key _ (BP.without_ok h _ _) ?_ rfl rfl ?_
      · intro j
        exact (hs j).sublist ((BP.without_sub2 q.1 q.2 j).map _)
      · intro i
        unfold BP.without
        dsimp only
        by_cases ei : i = q.1
        · subst ei
          rw [Function.update_self]
          apply List.filter_congr
          intro x _
          have : ((q.1, x.1) = q) ↔ x.1 = q.2 := by
            constructor
            · intro hh; rw [← hh]
            · intro hh; rw [hh]
          simp [this]
        · rw [Function.update_of_ne ei]
          symm
          rw [List.filter_eq_self]
          intro x _
          have : (i, x.1) ≠ q := fun hh => ei (by rw [← hh])
          simp [this]
    · rw [if_neg hq]
      simp only [Option.bind_eq_bind, Option.bind_some]
      refine key c h hs rfl rfl ?_
      intro i
      symm
      rw [List.filter_eq_self]
      intro x hx
      have : (i, x.1) ≠ q := by
        rintro rfl
        exact hq (BP.isThere_map.2 (List.mem_map.2 ⟨x, hx, rfl⟩))
      simp [this]

theorem clean_ok (h : b.OK) (qs : List (ℕ × ℕ)) : ∃ c, clean b qs = some c ∧ Unqueried b c qs ∧ Sorted2 c := by
  obtain ⟨h1, h2, h3, h4, _⟩ := BP.C51_copy h
  obtain ⟨d, hd, ⟨g1, g2, g3, g4⟩, g5⟩ := clean_aux qs (BP.CopyBipart b) h1 (BP.copy_sorted h)
  exact ⟨d, hd, ⟨g1, g2.trans h2, g3.trans h3, fun i => by rw [g4, h4]⟩, g5⟩

theorem bi_ext : ∀ {c d : Bi}, c.n1 = d.n1 → c.n2 = d.n2 → c.neig1 = d.neig1 → c.neig2 = d.neig2 → c = d
  | ⟨_, _, _, _⟩, ⟨_, _, _, _⟩, rfl, rfl, rfl, rfl => rfl

/-- A network is determined by the lists of the first set if those of the second are ordered. -/
theorem sorted_determined {c d : Bi} (hc : c.OK) (hd : d.OK) (sc : Sorted2 c) (sd : Sorted2 d) (e1 : c.n1 = d.n1)
    (e2 : c.n2 = d.n2) (e : c.neig1 = d.neig1) : c = d := by
  refine bi_ext e1 e2 e ?_
  funext j
  have hp : List.Perm (c.neig2 j) (d.neig2 j) := by
    rw [List.perm_ext_iff_of_nodup (List.Nodup.of_map _ (hc.nodup2 j)) (List.Nodup.of_map _ (hd.nodup2 j))]
    rintro ⟨i, w⟩
    rw [← hc.sym, ← hd.sym, e]
  exact hp.eq_of_pairwise (le := fun x y : ℕ × ℚ => x.1 < y.1) (fun x y _ _ h1 h2 => absurd (h1.trans h2) (lt_irrefl _))
    (List.pairwise_map.1 (sc j)) (List.pairwise_map.1 (sd j))

theorem clean_same {b' : Bi} (h : b.OK) (h' : b'.OK) {qs : List (ℕ × ℕ)} (e1 : b.n1 = b'.n1) (e2 : b.n2 = b'.n2)
    (e : ∀ i, ((b.neig1 i).filter fun x => (i, x.1) ∉ qs) = (b'.neig1 i).filter fun x => (i, x.1) ∉ qs) :
    clean b qs = clean b' qs := by
  obtain ⟨c, hc, ⟨c1, c2, c3, c4⟩, c5⟩ := clean_ok h qs
  obtain ⟨d, hd, ⟨d1, d2, d3, d4⟩, d5⟩ := clean_ok h' qs
  rw [hc, hd]
  congr 1
  refine sorted_determined c1 d1 c5 d5 (by rw [c2, d2, e1]) (by rw [c3, d3, e2]) ?_
  funext i
  rw [c4, d4, e]

/-- **C50**: the scores do not depend on the ratings of the queried pairs: if two rating networks agree outside of
them, `MultiLinkScoreKState` gives the same result for the same random numbers. -/
theorem C50_no_leak {b' : Bi} (h : b.OK) (h' : b'.OK) {qs : List (ℕ × ℕ)} (e1 : b.n1 = b'.n1) (e2 : b.n2 = b'.n2)
    (e : ∀ i, ((b.neig1 i).filter fun x => (i, x.1) ∉ qs) = (b'.neig1 i).filter fun x => (i, x.1) ∉ qs)
    (acc : ℝ → ℚ → Bool) (K nIter : ℕ) (warm : List ℕ) (decorStep : ℕ) (fuel : ℕ) (t : Tape) :
    MultiLinkScoreKState acc b K qs nIter warm decorStep fuel t = MultiLinkScoreKState acc b' K qs nIter warm decorStep fuel t := by
  unfold MultiLinkScoreKState
  rw [clean_same h h' e1 e2 e]

/-- **C50**: the same for `MultiLinkScore2State`. -/
theorem C50_no_leak2 {b' : Bi} (h : b.OK) (h' : b'.OK) {qs : List (ℕ × ℕ)} (e1 : b.n1 = b'.n1) (e2 : b.n2 = b'.n2)
    (e : ∀ i, ((b.neig1 i).filter fun x => (i, x.1) ∉ qs) = (b'.neig1 i).filter fun x => (i, x.1) ∉ qs)
    (acc : ℝ → ℚ → Bool) (nIter : ℕ) (warm : List ℕ) (decorStep : ℕ) (reset : Bool) (fuel : ℕ) (t : Tape) :
    MultiLinkScore2State acc b qs nIter warm decorStep reset fuel t =
      MultiLinkScore2State acc b' qs nIter warm decorStep reset fuel t := by
  unfold MultiLinkScore2State
  rw [clean_same h h' e1 e2 e]

/-! ## The initial state -/

theorem own_ok (n : ℕ) : PartOK (dots n) n (ownGroups n) ∧ Full (dots n) (ownGroups n) := by
  obtain ⟨hp, hi⟩ := own_groups (dots_simple n) n (le_refl _)
  refine ⟨hp, ?_⟩
  intro v hv
  change (ownGroups n).inGroup v ≠ none
  have : (ownGroups n).inGroup v = some v := by
    have := hi v
    rw [if_pos (show v < n from hv)] at this
    exact this
  rw [this]; simp

theorem start_counts {c : Bi} (h : c.OK) {p1 p2 : Part} (hp1 : PartOK (dots c.n1) c.n1 p1) (hf1 : Full (dots c.n1) p1)
    (hp2 : PartOK (dots c.n2) c.n2 p2) (hf2 : Full (dots c.n2) p2) (H : ℝ) (t : Tape) :
    BCounts c K (startView c p1 p2 H t) where
  part := hp1
  full := hf1
  opart := hp2
  ofull := hf2
  n := fun k _ v _ g _ => nwl_ncnt h v g k
  ninv := fun k _ v _ g _ => nwl_ncnt (swap_ok h) v g k
  g := fun k _ g hg g' _ => bnwg2g_eq h hp1 hg k
  ginv := fun k _ g hg g' _ => bnwg2g_eq h hp1 hg k
  ng := nonempty' hp1
  ong := nonempty' hp2

/-- The state built at the start of `MultiLinkScore2State` is consistent. -/
theorem start2 {c : Bi} (h : c.OK) (hr : c.Rated 2) (t : Tape) : ∃ H, H2State c (ownGroups c.n1) (ownGroups c.n2) = some H ∧
    Inv2 c 0 (startView c (ownGroups c.n1) (ownGroups c.n2) H t) := by
  obtain ⟨a1, a2⟩ := own_ok c.n1
  obtain ⟨a3, a4⟩ := own_ok c.n2
  have e := h2_eq h hr a1 a2 a3 a4
  refine ⟨_, e, start_counts h a1 a2 a3 a4 _ t, ?_⟩
  change H2State c (ownGroups c.n1) (ownGroups c.n2) = some (_ + 0)
  rw [e, add_zero]; rfl

/-- The state built at the start of `MultiLinkScoreKState` is consistent. -/
theorem startK {c : Bi} (h : c.OK) (hr : c.Rated K) (hK : 0 < K) (t : Tape) : ∃ H,
    HKState c K (ownGroups c.n1) (ownGroups c.n2) = some H ∧
    InvK c K 0 (startView c (ownGroups c.n1) (ownGroups c.n2) H t) := by
  obtain ⟨a1, a2⟩ := own_ok c.n1
  obtain ⟨a3, a4⟩ := own_ok c.n2
  have e := hK_eq h hr hK a1 a2 a3 a4
  refine ⟨_, e, start_counts h a1 a2 a3 a4 _ t, ?_⟩
  change HKState c K (ownGroups c.n1) (ownGroups c.n2) = some (_ + 0)
  rw [e, add_zero]; rfl

/-! ## Samples -/

theorem assigned_of {c : Bi} {s : View} (hs : BCounts c K s) : Assigned c (s.part.inGroup, s.opart.inGroup) := by
  refine ⟨?_, ?_⟩
  · intro v hv
    obtain ⟨g, hg⟩ := Option.ne_none_iff_exists'.1 (hs.full v hv)
    exact ⟨g, (hs.part.range _ _ hg).2, hg⟩
  · intro v hv
    obtain ⟨g, hg⟩ := Option.ne_none_iff_exists'.1 (hs.ofull v hv)
    exact ⟨g, (hs.opart.range _ _ hg).2, hg⟩

theorem scoreK_eq {c : Bi} {s : View} (hs : BCounts c K s) {k : ℕ} (hk : k < K) {q : ℕ × ℕ} (h1 : q.1 < c.n1) (h2 : q.2 < c.n2) :
    scoreK K s k q = some (estimate c K (s.part.inGroup, s.opart.inGroup) k q) := by
  obtain ⟨a1, a2⟩ := assigned_of hs
  obtain ⟨g, hg, e1⟩ := a1 _ h1
  obtain ⟨g', hg', e2⟩ := a2 _ h2
  unfold scoreK estimate
  dsimp only at e1 e2 ⊢
  rw [e1, e2]
  simp only [Option.bind_eq_bind, Option.bind_some, Option.getD_some]
  rw [foldl_sum, zero_add, range_sum, hs.g k hk g hg g' hg']
  rw [sum_congr rfl fun k' hk' => hs.g k' (mem_range.1 hk') g hg g' hg']

theorem score2_eq {c : Bi} {s : View} (hs : BCounts c 2 s) {q : ℕ × ℕ} (h1 : q.1 < c.n1) (h2 : q.2 < c.n2) :
    score2 s q = some (estimate c 2 (s.part.inGroup, s.opart.inGroup) 1 q) := by
  obtain ⟨a1, a2⟩ := assigned_of hs
  obtain ⟨g, hg, e1⟩ := a1 _ h1
  obtain ⟨g', hg', e2⟩ := a2 _ h2
  unfold score2 estimate
  dsimp only at e1 e2 ⊢
  rw [e1, e2]
  simp only [Option.bind_eq_bind, Option.bind_some, Option.getD_some]
  rw [hs.g 0 (by norm_num) g hg g' hg', hs.g 1 (by norm_num) g hg g' hg']
  simp [sum_range_succ]

theorem estimate_pos {c : Bi} {f : (ℕ → Option ℕ) × (ℕ → Option ℕ)} (hK : 0 < K) (k : ℕ) (q : ℕ × ℕ) : 0 < estimate c K f k q := by
  unfold estimate
  apply div_pos
  · have := cnt_nonneg (b := c) (f1 := f.1) (f2 := f.2) k ((f.1 q.1).getD 0) ((f.2 q.2).getD 0)
    exact_mod_cast (by omega)
  · have : 0 ≤ ∑ k' ∈ range K, cnt c f.1 f.2 k' ((f.1 q.1).getD 0) ((f.2 q.2).getD 0) := sum_nonneg fun k' _ => cnt_nonneg _ _ _
    exact_mod_cast (by omega)

theorem estimate_sum {c : Bi} {f : (ℕ → Option ℕ) × (ℕ → Option ℕ)} (hK : 0 < K) (q : ℕ × ℕ) :
    ∑ k ∈ range K, estimate c K f k q = 1 := by
  unfold estimate
  have h0 : 0 ≤ ∑ k' ∈ range K, cnt c f.1 f.2 k' ((f.1 q.1).getD 0) ((f.2 q.2).getD 0) := sum_nonneg fun k' _ => cnt_nonneg _ _ _
  have hpos : (0 : ℚ) < (((∑ k' ∈ range K, cnt c f.1 f.2 k' ((f.1 q.1).getD 0) ((f.2 q.2).getD 0)) + K : Int) : ℚ) := by
    exact_mod_cast (by omega)
  rw [← sum_div, div_eq_one_iff_eq hpos.ne']
  push_cast
  rw [sum_add_distrib]
  simp

/-- The sums collected so far come from a list of partitions. -/
def Sums (c : Bi) (K : ℕ) (R : ℕ → Prop) (A : Acc) (S : List ((ℕ → Option ℕ) × (ℕ → Option ℕ))) : Prop :=
  A.norm = S.length ∧ A.iter = S.length ∧ (∀ f ∈ S, Assigned c f) ∧ ∀ k, R k → ∀ q : ℕ × ℕ, q.1 < c.n1 → q.2 < c.n2 →
    A.score k q = some ((S.map fun f => estimate c K f k q).sum)

theorem collect_sums {c : Bi} {R : ℕ → Prop} {f : View → ℕ → ℕ × ℕ → Option ℚ} {s : View} (hs : BCounts c K s)
    (hf : ∀ k, R k → ∀ q : ℕ × ℕ, q.1 < c.n1 → q.2 < c.n2 → f s k q = some (estimate c K (s.part.inGroup, s.opart.inGroup) k q))
    {A : Acc} {S : List ((ℕ → Option ℕ) × (ℕ → Option ℕ))} (hA : Sums c K R A S) :
    ∃ S', Sums c K R (bCollect f s A).2 S' ∧ S'.length ≤ S.length + 1 := by
  have key : ∀ (A' : Acc) (S' : List ((ℕ → Option ℕ) × (ℕ → Option ℕ))), Sums c K R A' S' →
      Sums c K R (Acc.mk (A'.iter + 1) (A'.norm + 1) fun k q => do
        let x ← A'.score k q
        let y ← f s k q
        some (x + y)) (S' ++ [(s.part.inGroup, s.opart.inGroup)]) := by
    rintro A' S' ⟨h1, h2, h3, h4⟩
    refine ⟨by simp [h1], by simp [h2], ?_, ?_⟩
    · intro g hg
      rw [List.mem_append, List.mem_singleton] at hg
      rcases hg with hg | rfl
      · exact h3 g hg
      · exact assigned_of hs
    · intro k hk q hq1 hq2
      dsimp only
      rw [h4 k hk q hq1 hq2, hf k hk q hq1 hq2]
      simp
  unfold bCollect
  dsimp only
  by_cases hc : s.H < -400
  · simp only [hc, if_true]
    exact ⟨_, key (Acc.mk 0 0 fun _ _ => some 0) [] ⟨rfl, rfl, by simp, fun _ _ _ _ _ => by simp⟩, by simp⟩
  · simp only [hc, if_false]
    exact ⟨_, key A S hA, by simp⟩

theorem sample_sums {c : Bi} {R : ℕ → Prop} {step : ℕ → View → Res View} {f : View → ℕ → ℕ × ℕ → Option ℚ}
    {I : View → Prop} (hI : ∀ s, I s → BCounts c K s) (hreset : ∀ s, I s → I { s with H := 0 })
    (hstep : ∀ n s, I s → (step n s).Holds I)
    (hf : ∀ s, I s → ∀ k, R k → ∀ q : ℕ × ℕ, q.1 < c.n1 → q.2 < c.n2 →
      f s k q = some (estimate c K (s.part.inGroup, s.opart.inGroup) k q)) (decorStep nIter : ℕ) :
    ∀ (fuel : ℕ) (s : View) (A : Acc) (S : List ((ℕ → Option ℕ) × (ℕ → Option ℕ))), I s → Sums c K R A S → S.length ≤ nIter →
    (bSample step f decorStep nIter fuel s A).Holds fun r => ∃ S', Sums c K R r.2 S' ∧ S'.length = nIter
  | 0, s, A, S, hs, hA, hle => by
    unfold bSample
    split_ifs with hi
    · trivial
    · exact ⟨S, hA, by have := hA.2.1; omega⟩
  | fuel + 1, s, A, S, hs, hA, hle => by
    unfold bSample
    split_ifs with hi
    · refine (hstep decorStep s hs).bind ?_
      intro s' hs'
      obtain ⟨S', h1, h2⟩ := collect_sums (hI s' hs') (hf s' hs') hA
      refine sample_sums hI hreset hstep hf decorStep nIter fuel _ _ S' ?_ h1 (by have := hA.2.1; omega)
      unfold bCollect
      dsimp only
      split_ifs
      · exact hreset _ hs'
      · exact hs'
    · exact ⟨S, hA, by have := hA.2.1; omega⟩

theorem steps_inv {step : ℕ → View → Res View} {I : View → Prop} (hstep : ∀ n s, I s → (step n s).Holds I) :
    ∀ (fs : List ℕ) (s : View), I s → (bSteps step fs s).Holds I
  | [], _, hs => hs
  | f :: fs, s, hs => by
    unfold bSteps
    exact (hstep f s hs).bind fun s' hs' => steps_inv hstep fs s' hs'

/-- The scores are means over `nIter` pairs of partitions. -/
def Means (c : Bi) (K nIter : ℕ) (S : List ((ℕ → Option ℕ) × (ℕ → Option ℕ))) (k : ℕ) (q : ℕ × ℕ) : ℚ :=
  (S.map fun f => estimate c K f k q).sum / nIter

theorem run_means {c : Bi} {R : ℕ → Prop} {step : ℕ → View → Res View} {f : View → ℕ → ℕ × ℕ → Option ℚ}
    {I : View → Prop} (hI : ∀ s, I s → BCounts c K s) (hreset : ∀ s, I s → I { s with H := 0 })
    (hstep : ∀ n s, I s → (step n s).Holds I)
    (hf : ∀ s, I s → ∀ k, R k → ∀ q : ℕ × ℕ, q.1 < c.n1 → q.2 < c.n2 →
      f s k q = some (estimate c K (s.part.inGroup, s.opart.inGroup) k q)) {nIter : ℕ} (hn : 0 < nIter) (warm : List ℕ)
    (decorStep : ℕ) (reset : Bool) (fuel : ℕ) {s : View} (hs : I s) :
    (bRun step f nIter warm decorStep reset fuel s).Holds fun score => ∃ S, S.length = nIter ∧ (∀ f ∈ S, Assigned c f) ∧
      ∀ k, R k → ∀ q : ℕ × ℕ, q.1 < c.n1 → q.2 < c.n2 → score k q = some (Means c K nIter S k q) := by
  unfold bRun
  refine (steps_inv hstep warm s hs).bind ?_
  intro s' hs'
  have hs2 : I (if reset then { s' with H := 0 } else s') := by
    cases reset with
    | false => exact hs'
    | true => exact hreset _ hs'
  refine (sample_sums hI hreset hstep hf decorStep nIter fuel _ (Acc.mk 0 0 fun _ _ => some 0) [] hs2
    ⟨rfl, rfl, by simp, fun _ _ _ _ _ => by simp⟩ (by simp)).bind ?_
  rintro ⟨s3, A⟩ ⟨S, ⟨h1, h2, h3, h4⟩, hlen⟩
  refine ⟨S, hlen, h3, ?_⟩
  intro k hk q hq1 hq2
  dsimp only at h1 h4 ⊢
  rw [if_neg (by omega), h4 k hk q hq1 hq2, h1, hlen]
  rfl

theorem unqueried_rated {c : Bi} {qs : List (ℕ × ℕ)} (hc : Unqueried b c qs) (hr : b.Rated K) : c.Rated K := by
  intro i x hx
  rw [hc.2.2.2] at hx
  exact hr i x (List.mem_filter.1 hx).1

/-- **C50**: for every query and rating the score returned by `MultiLinkScoreKState` is the mean, over `nIter` sampled
pairs of partitions, of `(nₖ + 1) / (n + K)`, the counts being those of the ratings left after all queried pairs have
been taken out; for every network with ratings `0 … K-1`, every warm-up, acceptance rule and stream of random numbers,
and any number of restarts. The call is defined. -/
theorem C50_means (h : b.OK) (hr : b.Rated K) (hK : 0 < K) (h1 : 0 < b.n1) (h2 : 0 < b.n2) (acc : ℝ → ℚ → Bool) (qs : List (ℕ × ℕ))
    {nIter : ℕ} (hn : 0 < nIter) (warm : List ℕ) (decorStep : ℕ) (fuel : ℕ) (t : Tape) :
    (MultiLinkScoreKState acc b K qs nIter warm decorStep fuel t).Holds fun score => ∃ c, Unqueried b c qs ∧
      ∃ S, S.length = nIter ∧ (∀ f ∈ S, Assigned c f) ∧
      ∀ k < K, ∀ q : ℕ × ℕ, q.1 < b.n1 → q.2 < b.n2 → score k q = some (Means c K nIter S k q) := by
  unfold MultiLinkScoreKState
  obtain ⟨c, hc, hu, _⟩ := clean_ok h qs
  have hr' := unqueried_rated hu hr
  obtain ⟨H, hH, hs⟩ := startK hu.1 hr' hK t
  rw [hc]
  simp only [Res.ofOption_some, Res.bind_ok, hH]
  have := run_means (c := c) (K := K) (R := fun k => k < K) (step := MCStepKState acc c K) (f := scoreK K)
    (I := fun s => ∃ off, InvK c K off s) (fun s ⟨_, h⟩ => h.1)
    (fun s ⟨off, h⟩ => ⟨s.H + off, ⟨h.1.part, h.1.full, h.1.opart, h.1.ofull, h.1.n, h.1.ninv, h.1.g, h.1.ginv, h.1.ng, h.1.ong⟩,
      by dsimp only; rw [h.2, zero_add]⟩)
    (fun n s ⟨off, h⟩ => (C49_step hu.1 hr' hK (by rw [hu.2.1]; exact h1) (by rw [hu.2.2.1]; exact h2) acc off n h).mono
      fun _ h => ⟨off, h⟩)
    (fun s ⟨off, h⟩ k hk q hq1 hq2 => scoreK_eq h.1 hk hq1 hq2) hn warm decorStep false fuel ⟨0, hs⟩
  refine this.mono ?_
  rintro score ⟨S, g1, g2, g3⟩
  exact ⟨c, hu, S, g1, g2, fun k hk q hq1 hq2 => g3 k hk q (by rw [hu.2.1]; exact hq1) (by rw [hu.2.2.1]; exact hq2)⟩

theorem means_pos {c : Bi} {S : List ((ℕ → Option ℕ) × (ℕ → Option ℕ))} {nIter : ℕ} (hn : 0 < nIter) (hl : S.length = nIter)
    (hK : 0 < K) (k : ℕ) (q : ℕ × ℕ) : 0 < Means c K nIter S k q := by
  unfold Means
  apply div_pos _ (by exact_mod_cast hn)
  have : ∀ S : List ((ℕ → Option ℕ) × (ℕ → Option ℕ)), S ≠ [] → 0 < (S.map fun f => estimate c K f k q).sum := by
    intro S
    induction S with
    | nil => intro h; exact absurd rfl h
    | cons f S ih =>
      intro _
      have := estimate_pos (c := c) (f := f) hK k q
      rw [List.map_cons, List.sum_cons]
      by_cases e : S = []
      · subst e; simpa using this
      · have := ih e; linarith
  apply this
  rintro rfl
  simp at hl
  omega

theorem means_sum {c : Bi} {S : List ((ℕ → Option ℕ) × (ℕ → Option ℕ))} {nIter : ℕ} (hn : 0 < nIter) (hl : S.length = nIter)
    (hK : 0 < K) (q : ℕ × ℕ) : ∑ k ∈ range K, Means c K nIter S k q = 1 := by
  unfold Means
  rw [← sum_div, div_eq_one_iff_eq (by exact_mod_cast hn.ne'), ← hl]
  clear hl
  induction S with
  | nil => simp
  | cons f S ih =>
    simp only [List.map_cons, List.sum_cons, sum_add_distrib, ih, estimate_sum hK, List.length_cons]
    push_cast; ring

/-- **C50**: the `K` scores of every query are positive and sum to one. -/
theorem C50_distribution (h : b.OK) (hr : b.Rated K) (hK : 0 < K) (h1 : 0 < b.n1) (h2 : 0 < b.n2) (acc : ℝ → ℚ → Bool)
    (qs : List (ℕ × ℕ)) {nIter : ℕ} (hn : 0 < nIter) (warm : List ℕ) (decorStep : ℕ) (fuel : ℕ) (t : Tape) :
    (MultiLinkScoreKState acc b K qs nIter warm decorStep fuel t).Holds fun score =>
      ∀ q : ℕ × ℕ, q.1 < b.n1 → q.2 < b.n2 → Distribution K fun k => score k q := by
  refine (C50_means h hr hK h1 h2 acc qs hn warm decorStep fuel t).mono ?_
  rintro score ⟨c, _, S, hl, _, hsc⟩ q hq1 hq2
  exact ⟨fun k => Means c K nIter S k q, fun k hk => ⟨hsc k hk q hq1 hq2, means_pos hn hl hK k q⟩, means_sum hn hl hK q⟩

/-- **C50**: the score of `MultiLinkScore2State` is the mean over `nIter` sampled pairs of partitions of
`(l + 1) / (r + 2)`, and lies strictly between 0 and 1. -/
theorem C50_score2 (h : b.OK) (hr : b.Rated 2) (h1 : 0 < b.n1) (h2 : 0 < b.n2) (acc : ℝ → ℚ → Bool) (qs : List (ℕ × ℕ))
    {nIter : ℕ} (hn : 0 < nIter) (warm : List ℕ) (decorStep : ℕ) (reset : Bool) (fuel : ℕ) (t : Tape) :
    (MultiLinkScore2State acc b qs nIter warm decorStep reset fuel t).Holds fun score => ∃ c, Unqueried b c qs ∧
      ∃ S, S.length = nIter ∧ (∀ f ∈ S, Assigned c f) ∧
      ∀ q : ℕ × ℕ, q.1 < b.n1 → q.2 < b.n2 → ∃ x, score q = some x ∧ x = Means c 2 nIter S 1 q ∧ 0 < x ∧ x < 1 := by
  unfold MultiLinkScore2State
  obtain ⟨c, hc, hu, _⟩ := clean_ok h qs
  have hr' := unqueried_rated hu hr
  obtain ⟨H, hH, hs⟩ := start2 hu.1 hr' t
  rw [hc]
  simp only [Res.ofOption_some, Res.bind_ok, hH]
  have := run_means (c := c) (K := 2) (R := fun k => k = 1) (step := MCStep2State acc c) (f := fun s _ q => score2 s q)
    (I := fun s => ∃ off, Inv2 c off s) (fun s ⟨_, h⟩ => h.1)
    (fun s ⟨off, h⟩ => ⟨s.H + off, ⟨h.1.part, h.1.full, h.1.opart, h.1.ofull, h.1.n, h.1.ninv, h.1.g, h.1.ginv, h.1.ng, h.1.ong⟩,
      by dsimp only; rw [h.2, zero_add]⟩)
    (fun n s ⟨off, h⟩ => (C34_step hu.1 hr' (by rw [hu.2.1]; exact h1) (by rw [hu.2.2.1]; exact h2) acc off n h).mono
      fun _ h => ⟨off, h⟩)
    (fun s ⟨off, h⟩ k hk q hq1 hq2 => by rw [hk]; exact score2_eq h.1 hq1 hq2) hn warm decorStep reset fuel ⟨0, hs⟩
  refine this.bind ?_
  rintro score ⟨S, g1, g2, g3⟩
  refine ⟨c, hu, S, g1, g2, fun q hq1 hq2 => ⟨_, g3 1 rfl q (by rw [hu.2.1]; exact hq1) (by rw [hu.2.2.1]; exact hq2), rfl,
    means_pos hn g1 (by norm_num) 1 q, ?_⟩⟩
  have e := means_sum (c := c) (K := 2) hn g1 (by norm_num) q
  have := means_pos (c := c) (K := 2) hn g1 (by norm_num) 0 q
  rw [sum_range_succ, sum_range_succ, sum_range_zero] at e
  linarith

/-! ## Examples -/

/-- Two persons, two films, ratings 0 and 1. -/
def movies : Bi :=
  ⟨2, 2, fun i => match i with | 0 => [(0, 1), (1, 0)] | 1 => [(1, 1)] | _ => [],
    fun j => match j with | 0 => [(0, 1)] | 1 => [(0, 0), (1, 1)] | _ => []⟩

theorem movies_ok : movies.OK := by
  refine ⟨?_, ?_, ?_, ?_, ?_⟩
  · intro i; rcases i with _ | _ | i <;> simp [movies]
  · intro i; rcases i with _ | _ | i <;> simp [movies]
  · intro i x hx
    rcases i with _ | _ | i <;> simp [movies] at hx ⊢ <;> (try rcases hx with rfl | rfl) <;> (try subst hx) <;> decide
  · intro i x hx
    rcases i with _ | _ | i <;> simp [movies] at hx ⊢ <;> (try rcases hx with rfl | rfl) <;> (try subst hx) <;> decide
  · intro i j w
    rcases i with _ | _ | i <;> rcases j with _ | _ | j <;> simp [movies]

theorem movies_rated : movies.Rated 2 := by
  intro i x hx
  rcases i with _ | _ | i <;> simp [movies] at hx
  · rcases hx with rfl | rfl
    · exact ⟨1, by norm_num, by norm_num⟩
    · exact ⟨0, by norm_num, by norm_num⟩
  · subst hx; exact ⟨1, by norm_num, by norm_num⟩

/-- The hypotheses of C34 and C49 hold for the state with every node in its own group. -/
example : ∃ s, Inv2 movies 0 s ∧ s.G 1 0 0 = 1 ∧ s.G 1 0 1 = 0 ∧ s.ng = 2 := by
  obtain ⟨H, _, hs⟩ := start2 movies_ok movies_rated []
  refine ⟨_, hs, ?_, ?_, ?_⟩
  · change bnwg2g movies (ownGroups 2) (ownGroups 2) 0 0 1 = 1
    decide +kernel
  · change bnwg2g movies (ownGroups 2) (ownGroups 2) 0 1 1 = 0
    decide +kernel
  · change NNonEmptyGroups 2 (ownGroups 2) = 2
    decide +kernel

example : ∃ s, InvK movies 2 0 s := by
  obtain ⟨H, _, hs⟩ := startK movies_ok movies_rated (by norm_num) []
  exact ⟨_, hs⟩

/-- With film 0 queried by person 0, its rating is taken out, on both sides. -/
example : (clean movies [(0, 0), (0, 0), (1, 0)]).map (fun c => [c.neig1 0, c.neig1 1, c.neig2 0, c.neig2 1]) =
    some [[(1, 0)], [(1, 1)], [], [(0, 0), (1, 1)]] := by decide +kernel

example : estimate movies 2 (fun _ => some 0, fun _ => some 0) 1 (1, 0) = 3 / 5 := by decide +kernel

/-- Two networks that differ in the queried rating only satisfy the hypothesis of `C50_no_leak`. -/
example : ∀ i, ((movies.neig1 i).filter fun x => (i, x.1) ∉ [((0 : ℕ), (0 : ℕ))]) =
    (((fun i => match i with | 0 => [(0, 0), (1, 0)] | 1 => [(1, 1)] | _ => []) : ℕ → List (ℕ × ℚ)) i).filter
      fun x => (i, x.1) ∉ [((0 : ℕ), (0 : ℕ))] := by
  intro i
  rcases i with _ | _ | i <;> simp [movies]

end RC
