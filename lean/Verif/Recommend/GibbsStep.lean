import Verif.Recommend.Gibbs

/-! # C114: the step of the heat-bath sampler -/

set_option linter.unusedSimpArgs false

namespace RC

open GP RG LS KS Finset
open BP (Bi)

variable {b : Bi} {K : ℕ}

theorem set2_twice (M : ℕ → ℕ → Int) (i j : ℕ) (x : Int) :
    set2 (set2 M i j (M i j - x)) i j (set2 M i j (M i j - x) i j + x) = M := by
  funext a c
  rw [set2_apply, set2_apply, set2_apply]
  by_cases h : a = i ∧ c = j
  · simp [h]
  · simp [h]

theorem cols_same (old : ℕ) (c : ℕ → Int) (M : ℕ → ℕ → Int) (m : ℕ) : (List.range m).foldl (colStep old old c) M = M := by
  induction m with
  | zero => rfl
  | succ m ih => rw [List.range_succ, List.foldl_append, ih, List.foldl_cons, List.foldl_nil]; exact set2_twice _ _ _ _

theorem rows_same (old : ℕ) (c : ℕ → Int) (M : ℕ → ℕ → Int) (m : ℕ) : (List.range m).foldl (rowStep old old c) M = M := by
  induction m with
  | zero => rfl
  | succ m ih => rw [List.range_succ, List.foldl_append, ih, List.foldl_cons, List.foldl_nil]; exact set2_twice _ _ _ _

theorem n2g_same (K old : ℕ) (e : Int) (N : ℕ → ℕ → ℕ → Int) (x : ℕ × ℚ) : n2gStep K old old e N x = N := by
  unfold n2gStep
  induction K with
  | zero => rfl
  | succ K ih =>
    rw [List.range_succ, List.foldl_append, ih, List.foldl_cons, List.foldl_nil]
    dsimp only
    rw [set2_twice, Function.update_eq_self]
    split_ifs <;> rfl

theorem n2gs_same (K old : ℕ) (e : Int) (N : ℕ → ℕ → ℕ → Int) : ∀ (l : List (ℕ × ℚ)), l.foldl (n2gStep K old old e) N = N
  | [] => rfl
  | x :: l => by rw [List.foldl_cons, n2g_same, n2gs_same K old e N l]

/-- The state after the move of `v` to `new`, up to energy and random numbers. -/
theorem moved_counts (h : b.OK) {s : View} (hs : BCounts b K s) {v old new : ℕ} (hold : s.part.inGroup v = some old)
    (hn : new < b.n1) (H : ℝ) (t : Tape) :
    BCounts b K { tent b K v old new s with ng := if old = new then s.ng else (tent b K v old new s).ng, H := H, tape := t } ∧
    (tent b K v old new s).part.inGroup = Function.update s.part.inGroup v (some new) := by
  by_cases hne : new = old
  · subst hne
    obtain ⟨_, hp, hi⟩ := move_ok (dots_simple b.n1) hs.part hn hold
    have hi' : (tent b K v new new s).part.inGroup = s.part.inGroup := by
      refine hi.trans ?_
      rw [← hold, Function.update_eq_self]
    refine ⟨⟨hp, full_update hs.full hi, hs.opart, hs.ofull, hs.n, ?_, ?_, ?_, ?_, hs.ong⟩, hi⟩
    · intro k hk j hj g hg
      rw [hi']
      dsimp only [tent]
      rw [n2gs_same]
      exact hs.ninv k hk j hj g hg
    · intro k hk g hg g' hg'
      rw [hi']
      dsimp only [tent, updG]
      rw [if_pos hk, cols_same]
      exact hs.g k hk g hg g' hg'
    · intro k hk g hg g' hg'
      rw [hi']
      dsimp only [tent, updGinv]
      rw [if_pos hk, rows_same]
      exact hs.ginv k hk g hg g' hg'
    · rw [if_pos rfl, hi']
      exact hs.ng
  · obtain ⟨hs', hi⟩ := tent_counts h hs hold hn hne
    rw [if_neg (Ne.symm hne)]
    exact ⟨⟨hs'.part, hs'.full, hs'.opart, hs'.ofull, hs'.n, hs'.ninv, hs'.g, hs'.ginv, hs'.ng, hs'.ong⟩, hi⟩

theorem size_nonneg {n : ℕ} {p : Part} (hp : PartOK (dots n) n p) {g : ℕ} (hg : g < n) : 0 ≤ (p.grp g).size := by
  rw [size_blk hp hg]; omega

/-- What the move of node `v` does with the random number `u`. -/
structure Heated (b : Bi) (K v : ℕ) (s s' : View) (slg : List ℕ) (u : ℚ) (new : ℕ) : Prop where
  moved : s'.part.inGroup = Function.update s.part.inGroup v (some new)
  others : s'.opart = s.opart
  rule : HeatBath b.n1 (fun g => Real.exp (-(bEnergy (TKb K) b (Function.update s.part.inGroup v (some g)) s.opart.inGroup -
    bEnergy (TKb K) b s.part.inGroup s.opart.inGroup))) (fun g => ∀ w < b.n1, s.part.inGroup w ≠ some g) slg u new

theorem gMove_ok (h : b.OK) (hK : 0 < K) {off : ℝ} {s : View} (hs : BInv (TKb K) b K off s) {slg slo : List ℕ}
    (hg : GoodList b.n1 s.part slg) (hl : GoodList b.n2 s.opart slo) {v : ℕ} (hv : v < b.n1) {u : ℚ} {t : Tape}
    (ht : s.tape = u :: t) (h0 : 0 < u) (h1 : u < 1) :
    ∃ s' slg' new, gMove b K slo v (s, slg) = .ok (s', slg') ∧ BInv (TKb K) b K off s' ∧ GoodList b.n1 s'.part slg' ∧
      (∀ g ∈ slg, g ∈ slg') ∧ s'.tape = t ∧ Heated b K v s s' slg u new := by
  obtain ⟨old, hold⟩ := Option.ne_none_iff_exists'.1 (hs.full v hv)
  obtain ⟨fix, hf, hd, e, he, hee⟩ := deltas hK hs.toBCounts hold hl h
  obtain ⟨new, slg', hc, hnew, c1, c2, c3, c4, c5⟩ := choose_ok hg (fun g hgn => size_nonneg hs.part hgn) (by omega) hee h0 h1
  obtain ⟨m1, m2⟩ := moved_counts h hs.toBCounts hold hnew (s.H + chg b K s v new) t
  unfold gMove
  dsimp only
  rw [hold]
  dsimp only
  rw [hf]
  simp only [Res.ofOption_some, Res.bind_ok]
  rw [mapM_some _ fun g hgm => hd g (hg.range g hgm), he, ht]
  simp only [Res.ofOption_some, Res.bind_ok]
  have hdraw : draw (u :: t) = .ok (u, t) := by rw [draw, if_pos ⟨h0.le, h1⟩]
  rw [hdraw]
  simp only [Res.bind_ok]
  rw [hc]
  simp only [Res.ofOption_some, Res.bind_ok, Res.pure_eq]
  refine ⟨_, _, new, rfl, ⟨m1, ?_⟩, ⟨c1, c2, ?_⟩, c3, rfl, ⟨m2, rfl, ?_⟩⟩
  · change bEnergy (TKb K) b (tent b K v old new s).part.inGroup s.opart.inGroup = s.H + chg b K s v new + off
    rw [m2]
    have := hs.energy
    unfold chg
    linarith
  · intro g hgn hpos
    have := (size_pos_iff m1.part hgn).1 hpos
    obtain ⟨w, hw⟩ := this
    rw [mem_blk] at hw
    have hw2 := hw.2
    change (tent b K v old new s).part.inGroup w = some g at hw2
    rw [m2] at hw2
    by_cases e : w = v
    · subst e
      rw [Function.update_self] at hw2
      rw [← Option.some.inj hw2]
      exact c4
    · rw [Function.update_of_ne e] at hw2
      exact c3 g (hg.cover g hgn ((size_pos_iff hs.part hgn).2 ⟨w, mem_blk.2 ⟨hw.1, hw2⟩⟩))
  · have hemp : ∀ g, g < b.n1 → ((s.part.grp g).size = 0 ↔ ∀ w < b.n1, s.part.inGroup w ≠ some g) := by
      intro g hgn
      rw [size_blk hs.part hgn, Nat.cast_eq_zero, card_eq_zero]
      constructor
      · intro h w hw hh
        have : w ∈ blk b.n1 s.part.inGroup g := mem_blk.2 ⟨hw, hh⟩
        rw [h] at this
        simp at this
      · intro h
        rw [← not_nonempty_iff_eq_empty]
        rintro ⟨w, hw⟩
        exact h w (mem_blk.1 hw).1 (mem_blk.1 hw).2
    rcases c5 with c5 | ⟨c5, c6, c7, c8⟩
    · exact Or.inl c5
    · exact Or.inr ⟨c5, c6, (hemp new c6).1 c7, fun g hgn hh => c8 g hgn ((hemp g (hgn.trans c6)).2 hh)⟩

/-- The draw 0. -/
theorem gMove_zero (h : b.OK) (hK : 0 < K) {off : ℝ} {s : View} (hs : BInv (TKb K) b K off s) {slg slo : List ℕ}
    (hg : GoodList b.n1 s.part slg) (hl : GoodList b.n2 s.opart slo) {v : ℕ} (hv : v < b.n1) {t : Tape}
    (ht : s.tape = 0 :: t) : gMove b K slo v (s, slg) = .ub := by
  obtain ⟨old, hold⟩ := Option.ne_none_iff_exists'.1 (hs.full v hv)
  obtain ⟨fix, hf, hd, e, he, hee⟩ := deltas hK hs.toBCounts hold hl h
  unfold gMove
  dsimp only
  rw [hold]
  dsimp only
  rw [hf]
  simp only [Res.ofOption_some, Res.bind_ok]
  rw [mapM_some _ fun g hgm => hd g (hg.range g hgm), he, ht]
  simp only [Res.ofOption_some, Res.bind_ok]
  have hdraw : draw (0 :: t) = .ok (0, t) := by rw [draw, if_pos ⟨le_refl _, by norm_num⟩]
  rw [hdraw]
  simp only [Res.bind_ok]
  have : gChoose b.n1 s.part slg (slg.map fun g => (g, chg b K s v g)) e 0 = none := by
    unfold gChoose
    dsimp only
    rw [if_neg]
    · rw [scan_zero (by simp)]; rfl
    · simp only [Rat.cast_zero, mul_zero, not_lt]
      have : 0 ≤ ((slg.map fun g => (g, chg b K s v g)).map fun x => Real.exp (-x.2)).sum := by
        apply List.sum_nonneg
        intro x hx
        obtain ⟨y, _, rfl⟩ := List.mem_map.1 hx
        exact (Real.exp_pos _).le
      linarith
  rw [this]
  rfl

/-- No random number is exactly 0. -/
def NonZero (t : Tape) : Prop := ∀ u ∈ t, u ≠ 0

theorem gMove_holds (h : b.OK) (hK : 0 < K) {off : ℝ} {s : View} (hs : BInv (TKb K) b K off s) {slg slo : List ℕ}
    (hg : GoodList b.n1 s.part slg) (hl : GoodList b.n2 s.opart slo) {v : ℕ} (hv : v < b.n1) (hz : NonZero s.tape) :
    (gMove b K slo v (s, slg)).Holds fun r => BInv (TKb K) b K off r.1 ∧ GoodList b.n1 r.1.part r.2 ∧ NonZero r.1.tape ∧
      r.1.opart = s.opart := by
  by_cases hd : ∃ u t, s.tape = u :: t ∧ 0 ≤ u ∧ u < 1
  · obtain ⟨u, t, ht, h0, h1⟩ := hd
    have hu : u ≠ 0 := hz u (by rw [ht]; simp)
    obtain ⟨s', slg', new, e, e1, e2, _, e3, e4⟩ := gMove_ok h hK hs hg hl hv ht (lt_of_le_of_ne h0 (Ne.symm hu)) h1
    rw [e]
    refine ⟨e1, e2, ?_, e4.others⟩
    dsimp only
    rw [e3]
    intro x hx
    exact hz x (by rw [ht]; simp [hx])
  · have hst : draw s.tape = .starved := by
      cases ht : s.tape with
      | nil => rfl
      | cons u t =>
        rw [draw, if_neg]
        rintro ⟨h0, h1⟩
        exact hd ⟨u, t, ht, h0, h1⟩
    obtain ⟨old, hold⟩ := Option.ne_none_iff_exists'.1 (hs.full v hv)
    obtain ⟨fix, hf, hd', e, he, hee⟩ := deltas hK hs.toBCounts hold hl h
    unfold gMove
    dsimp only
    rw [hold]
    dsimp only
    rw [hf]
    simp only [Res.ofOption_some, Res.bind_ok]
    rw [mapM_some _ fun g hgm => hd' g (hg.range g hgm), he, hst]
    trivial

theorem gSweep_holds (h : b.OK) (hK : 0 < K) {off : ℝ} {slo : List ℕ} {o : Part} (hl : GoodList b.n2 o slo) :
    ∀ (vs : List ℕ), (∀ v ∈ vs, v < b.n1) → ∀ (s : View) (slg : List ℕ), BInv (TKb K) b K off s → GoodList b.n1 s.part slg →
    NonZero s.tape → s.opart = o →
    (gSweep b K slo vs (s, slg)).Holds fun r => BInv (TKb K) b K off r.1 ∧ GoodList b.n1 r.1.part r.2 ∧ NonZero r.1.tape ∧
      r.1.opart = o
  | [], _, s, slg, hs, hg, hz, ho => ⟨hs, hg, hz, ho⟩
  | v :: vs, hvs, s, slg, hs, hg, hz, ho => by
    rw [gSweep]
    refine (gMove_holds h hK hs hg (by rw [ho]; exact hl) (hvs v (by simp)) hz).bind ?_
    rintro ⟨s', slg'⟩ ⟨h1, h2, h3, h4⟩
    exact gSweep_holds h hK hl vs (fun w hw => hvs w (by simp [hw])) s' slg' h1 h2 h3 (h4.trans ho)

theorem gibbs_inv (h : b.OK) (hK : 0 < K) {off : ℝ} {s : View} (hs : BInv (TKb K) b K off s) (hz : NonZero s.tape) :
    (GibbsStepKState b K s).Holds fun s' => BInv (TKb K) b K off s' ∧ NonZero s'.tape := by
  unfold GibbsStepKState
  refine (gSweep_holds h hK (shortlist_good _ _) _ (fun v hv => List.mem_range.1 hv) s _ hs (shortlist_good _ _) hz rfl).bind ?_
  rintro ⟨s', slg1⟩ ⟨h1, h2, h3, h4⟩
  dsimp only at h1 h2 h3 h4 ⊢
  refine (gSweep_holds (b := b.swap) (o := s'.swap.opart) (swap_ok h) hK h2 _ (fun v hv => List.mem_range.1 hv) s'.swap _ (inv_swap h h1) (by
    change GoodList b.n2 s'.opart _
    rw [h4]
    exact shortlist_good _ _) h3 rfl).bind ?_
  rintro ⟨s'', slg2⟩ ⟨g1, g2, g3, _⟩
  exact ⟨inv_swap (swap_ok h) g1, g3⟩

/-- **C114**: a heat-bath step keeps both partitions consistent, and all tables of counts, the numbers of non-empty
groups and the energy exact, and never leaves the defined behaviour, for every bipartite network with ratings
`0 … K-1`, from every consistent state, for every stream of random numbers without the number 0. -/
theorem C114_step_partial (h : b.OK) (hr : b.Rated K) (hK : 0 < K) (off : ℝ) {s : View} (hs : InvK b K off s)
    (hz : NonZero s.tape) : (GibbsStepKState b K s).Holds (InvK b K off) :=
  (gibbs_inv h hK ((invK_iff h hr hK).1 hs) hz).mono fun _ hs => (invK_iff h hr hK).2 hs.1

/-- **C114**: without the condition on the random numbers the claim is false: `gsl_rng_uniform` can return 0, and then
`slg[-1]` is read. -/
theorem C114_zero (h : b.OK) (hr : b.Rated K) (hK : 0 < K) (hn : 0 < b.n1) {off : ℝ} {s : View} (hs : InvK b K off s) {t : Tape}
    (ht : s.tape = 0 :: t) : GibbsStepKState b K s = .ub := by
  unfold GibbsStepKState
  have e : List.range b.n1 = 0 :: (List.range (b.n1 - 1)).map Nat.succ := by
    rw [← List.range_succ_eq_map]; congr 1; omega
  rw [e, gSweep, gMove_zero h hK ((invK_iff h hr hK).1 hs) (shortlist_good _ _) (shortlist_good _ _) hn ht]
  rfl

/-- **C114**: the move of one node follows the heat-bath rule of the energy: the node goes to group `g` of the list
when the random number falls in an interval of length `exp(-ΔE(g)) / ∑ exp(-ΔE)`, the sum running over all groups, and
to the first empty group in what remains. -/
theorem C114_heat_bath (h : b.OK) (hr : b.Rated K) (hK : 0 < K) {off : ℝ} {s : View} (hs : InvK b K off s) {slg slo : List ℕ}
    (hg : GoodList b.n1 s.part slg) (hl : GoodList b.n2 s.opart slo) {v : ℕ} (hv : v < b.n1) {u : ℚ} {t : Tape}
    (ht : s.tape = u :: t) (h0 : 0 < u) (h1 : u < 1) :
    ∃ s' slg' new, gMove b K slo v (s, slg) = .ok (s', slg') ∧ InvK b K off s' ∧ GoodList b.n1 s'.part slg' ∧
      s'.tape = t ∧ Heated b K v s s' slg u new := by
  obtain ⟨s', slg', new, a1, a2, a3, _, a4, a5⟩ := gMove_ok h hK ((invK_iff h hr hK).1 hs) hg hl hv ht h0 h1
  exact ⟨s', slg', new, a1, (invK_iff h hr hK).2 a2, a3, a4, a5⟩

/-- Nodes moved one after the other, with the random numbers used. -/
inductive Sweep (b : Bi) (K : ℕ) : List (ℕ × ℚ) → View → View → Prop
  | nil (s : View) : Sweep b K [] s s
  | cons {s s' s'' : View} {v : ℕ} {u : ℚ} {new : ℕ} {slg : List ℕ} {l : List (ℕ × ℚ)} :
    GoodList b.n1 s.part slg → Heated b K v s s' slg u new → Sweep b K l s' s'' → Sweep b K ((v, u) :: l) s s''

theorem gSweep_ok (h : b.OK) (hK : 0 < K) {off : ℝ} {slo : List ℕ} {o : Part} (hl : GoodList b.n2 o slo) (t : Tape) :
    ∀ (vs : List ℕ) (us : List ℚ), vs.length = us.length → (∀ v ∈ vs, v < b.n1) → (∀ u ∈ us, 0 < u ∧ u < 1) →
    ∀ (s : View) (slg : List ℕ), BInv (TKb K) b K off s → GoodList b.n1 s.part slg → s.tape = us ++ t → s.opart = o →
    ∃ s' slg', gSweep b K slo vs (s, slg) = .ok (s', slg') ∧ BInv (TKb K) b K off s' ∧ GoodList b.n1 s'.part slg' ∧
      s'.tape = t ∧ s'.opart = o ∧ Sweep b K (vs.zip us) s s'
  | [], [], _, _, _, s, slg, hs, hg, ht, ho => ⟨s, slg, rfl, hs, hg, ht, ho, .nil s⟩
  | v :: vs, u :: us, hlen, hvs, hus, s, slg, hs, hg, ht, ho => by
    obtain ⟨h0, h1⟩ := hus u (by simp)
    obtain ⟨s1, slg1, new, e1, e2, e3, _, e4, e5⟩ := gMove_ok h hK hs hg (by rw [ho]; exact hl) (hvs v (by simp)) ht h0 h1
    obtain ⟨s2, slg2, f1, f2, f3, f4, f5, f6⟩ := gSweep_ok h hK hl t vs us (by simpa using hlen) (fun w hw => hvs w (by simp [hw]))
      (fun w hw => hus w (by simp [hw])) s1 slg1 e2 e3 e4 (e5.others.trans ho)
    refine ⟨s2, slg2, ?_, f2, f3, f4, f5, .cons hg e5 f6⟩
    rw [gSweep, e1]
    exact f1

/-- **C114**: a step moves every node of the first set and then every node of the second one, in order, each by the
heat-bath rule with one random number. -/
theorem C114_every_node (h : b.OK) (hr : b.Rated K) (hK : 0 < K) {off : ℝ} {s : View} (hs : InvK b K off s) {us1 us2 : List ℚ}
    {t : Tape} (ht : s.tape = us1 ++ (us2 ++ t)) (l1 : us1.length = b.n1) (l2 : us2.length = b.n2)
    (h1 : ∀ u ∈ us1, 0 < u ∧ u < 1) (h2 : ∀ u ∈ us2, 0 < u ∧ u < 1) :
    ∃ m s', GibbsStepKState b K s = .ok s' ∧ InvK b K off s' ∧ s'.tape = t ∧ Sweep b K ((List.range b.n1).zip us1) s m ∧
      Sweep b.swap K ((List.range b.n2).zip us2) m.swap s'.swap := by
  have hs' := (invK_iff h hr hK).1 hs
  obtain ⟨m, slg1, e1, e2, e3, e4, e5, e6⟩ := gSweep_ok h hK (shortlist_good _ _) (us2 ++ t) (List.range b.n1) us1
    (by rw [List.length_range, l1]) (fun v hv => List.mem_range.1 hv) h1 s _ hs' (shortlist_good _ _) ht rfl
  obtain ⟨s2, slg2, f1, f2, f3, f4, f5, f6⟩ := gSweep_ok (b := b.swap) (o := m.swap.opart) (swap_ok h) hK e3 t (List.range b.n2) us2
    (by rw [List.length_range, l2]) (fun v hv => List.mem_range.1 hv) h2 m.swap (shortlist b.n2 s.opart) (inv_swap h e2) (by
      change GoodList b.n2 m.opart _
      rw [e5]
      exact shortlist_good _ _) e4 rfl
  refine ⟨m, s2.swap, ?_, (invK_iff h hr hK).2 (inv_swap (swap_ok h) f2), f4, e6, f6⟩
  unfold GibbsStepKState
  rw [e1]
  simp only [Res.bind_ok]
  rw [f1]
  rfl

/-- The hypotheses hold for two persons and two films, each in its own group, and four random numbers. -/
example : ∃ m s s', InvK movies 2 0 s ∧ GibbsStepKState movies 2 s = .ok s' ∧ InvK movies 2 0 s' ∧
    Sweep movies 2 [(0, 1 / 2), (1, 1 / 3)] s m := by
  obtain ⟨H, _, hs⟩ := startK movies_ok movies_rated (by norm_num) [1 / 2, 1 / 3, 1 / 4, 1 / 5]
  obtain ⟨m, s', e1, e2, _, e3, _⟩ := C114_every_node (us1 := [1 / 2, 1 / 3]) (us2 := [1 / 4, 1 / 5]) (t := []) movies_ok movies_rated
    (by norm_num) hs rfl rfl rfl (by norm_num) (by norm_num)
  exact ⟨m, _, s', hs, e1, e2, e3⟩

/-- The rule is not vacuous: of two groups of equal weight, the first of which is empty, the number 1/3 selects the
first of the list and 3/4 the empty one. -/
example : HeatBath 2 (fun _ => 1) (fun g => g = 0) [1] (1 / 3) 1 ∧ HeatBath 2 (fun _ => 1) (fun g => g = 0) [1] (3 / 4) 0 := by
  refine ⟨Or.inl ⟨[], [], rfl, ?_, ?_⟩, Or.inr ⟨?_, by norm_num, rfl, by simp⟩⟩ <;> norm_num [Finset.sum_range_succ]

end RC
