import Verif.Programs.Ratings
import Verif.Programs.Scores
import Verif.Programs.KScores

/-!
# C150, C157, C159, C160: programs that never end

With one label (or one person and one thing) the Metropolis samplers look for another group for ever.
-/

namespace PG

open RG

/-! ## The estimate of the waiting time -/

section
variable {σ : Type} {step : ℕ → σ → Res σ} {s : σ}

theorem decor_starved (hs : step 1 s = .starved) (mi : σ → σ → ℝ) (solver : WU.Solver) (nnod least : ℕ) (rounding : Bool) (fuel : ℕ) :
    WU.GetDecorrelationStep step mi solver nnod least rounding fuel s = .starved := by
  unfold WU.GetDecorrelationStep
  have : WU.estimates (WU.estimate step mi solver nnod (WU.times nnod least).1 (WU.times nnod least).2) fuel 10 s = .starved := by
    cases fuel with
    | zero => rfl
    | succ k =>
      unfold WU.estimates WU.estimate WU.watch
      simp only [hs, Res.bind_starved]
  rw [this, Res.bind_starved]

theorem decor2_starved (hs : step 1 s = .starved) (mi1 mi2 : σ → σ → ℝ) (solver : WU.Solver) (n1 n2 fuel : ℕ) :
    WU.GetDecorrelationStep2 step mi1 mi2 solver n1 n2 fuel s = .starved := by
  unfold WU.GetDecorrelationStep2
  have : WU.estimates2 (WU.estimate2 step mi1 mi2 solver n1 n2 (WU.times (n1 + n2) 10).1 (WU.times (n1 + n2) 10).2) fuel 10 s = .starved := by
    cases fuel with
    | zero => rfl
    | succ k =>
      unfold WU.estimates2 WU.estimate2 WU.watch2
      simp only [hs, Res.bind_starved]
  rw [this, Res.bind_starved]

end

theorem floor_one {u : ℚ} (_ : 0 ≤ u) (h1 : u < 1) : ⌊u * ((1 : ℕ) : ℚ)⌋₊ = 0 := by
  have := floor_lt (n := 1) h1 (by norm_num)
  omega

theorem pick_one {t : Tape} {r : ℕ × Tape} (h : pick 1 t = .ok r) : r.1 = 0 := by
  have := pick_holds (n := 1) (by norm_num) t
  rw [h] at this
  exact Nat.lt_one_iff.1 this

theorem destination_one (t : Tape) : LS.destination 1 0 t = .starved :=
  GP.redraw_forever (fun u h0 h1 => by rw [floor_one h0 h1]; rfl) t

/-! ## Recommenders -/

theorem bAttempt_starved (acc : ℝ → ℚ → Bool) (pt : (ℕ → Int) → Option ℝ) {b : BP.Bi} (h1 : b.n1 = 1) (h2 : b.n2 = 1) (K : ℕ) {s : RC.View}
    (hp : s.part.inGroup 0 = some 0) (ho : s.opart.inGroup 0 = some 0) : RC.bAttempt acc pt b K s = .starved := by
  have one : ∀ (b : BP.Bi) (s : RC.View), b.n1 = 1 → s.part.inGroup 0 = some 0 → RC.moveIn acc pt b K s = .starved := by
    intro b s h hp
    unfold RC.moveIn
    rw [h]
    cases e : pick 1 s.tape with
    | starved => rfl
    | ub => have := pick_holds (n := 1) (by norm_num) s.tape; rw [e] at this; exact this.elim
    | ok r =>
      obtain ⟨v, t⟩ := r
      obtain rfl : v = 0 := pick_one e
      simp only [Res.bind_ok, hp, destination_one, Res.bind_starved]
  unfold RC.bAttempt
  cases e : draw s.tape with
  | starved => rfl
  | ub => have := draw_holds s.tape; rw [e] at this; exact this.elim
  | ok r =>
    obtain ⟨u, t⟩ := r
    simp only [Res.bind_ok]
    split_ifs
    · exact one _ _ h1 hp
    · rw [one _ _ (by exact h2) (by exact ho)]
      rfl

theorem own_zero : (RC.ownGroups 1).inGroup 0 = some 0 := by decide +kernel

theorem warmup2_starved (acc : ℝ → ℚ → Bool) (pt : (ℕ → Int) → Option ℝ) {c : BP.Bi} (h1 : c.n1 = 1) (h2 : c.n2 = 1) (K : ℕ) (H : ℝ) (t : Tape)
    (mi1 mi2 : RC.View → RC.View → ℝ) (solver : WU.Solver) (fuel : ℕ) :
    WU.warmup2 (fun f s => GP.iter (RC.bAttempt acc pt c K) ((c.n1 + c.n2) * f) s) mi1 mi2 solver c.n1 c.n2 0 fuel
      (RC.startView c (RC.ownGroups c.n1) (RC.ownGroups c.n2) H t) = .starved := by
  unfold WU.warmup2 WU.warmup
  simp only [if_true]
  rw [decor2_starved, Res.bind_starved]
  rw [h1, h2]
  show GP.iter _ (1 + 1) _ = _
  unfold GP.iter
  rw [bAttempt_starved acc pt h1 h2 K (by exact own_zero) (by exact own_zero)]
  rfl

section
variable {strtod : String → Option ℚ} {atoi : String → Int} {files : String → Option (List Char)} {o q : String} {ro rq : List Char}
    {ls : List (String × String × ℚ)} {qs : List (String × String)} (ho : files o = some ro)
    (hs : List.Forall₂ (GR.LineSays true strtod) (GR.fileFields ro) ls) (hq : files q = some rq) (ha : Asks rq qs)
    (h1 : (persons ls qs).length = 1) (h2 : (things ls qs).length = 1)

include h1 in
theorem some_line : ls ≠ [] ∨ qs ≠ [] := by
  by_contra hn
  push Not at hn
  rw [hn.1, hn.2] at h1
  simp [persons] at h1

include ho hs hq ha h1 h2

/-- **C159**, refutation of "the recommenders end": if the two files name only one person and one thing, `multi_recommend_2` never ends,
whatever the random numbers. -/
theorem C159_never_ends_2 (hr : ∀ l ∈ ls, l.2.2 = 0 ∨ l.2.2 = 1) (mi1 mi2 : RC.View → RC.View → ℝ) (solver : WU.Solver)
    (acc : ℝ → ℚ → Bool) (fuel : ℕ) (x : String) (rest : List String) (t : Tape) :
    multi_recommend_2 mi1 mi2 solver acc fuel strtod files (o :: q :: x :: rest) t = .starved := by
  obtain ⟨b, d, r, e1, e2, hd, hrated, p1, p2, hlab, hrange, hT⟩ := ratings_ok (K := 2) ho hs (fun l hl => by
    rcases hr l hl with h | h
    · exact ⟨0, by norm_num, by rw [h]; norm_num⟩
    · exact ⟨1, by norm_num, by rw [h]; norm_num⟩) hq ha (some_line h1)
  obtain ⟨c, hc, hu, _⟩ := RC.clean_ok hd r
  have T := hT c hu
  have n1 : c.n1 = 1 := by rw [← h1, ← T.labels1, List.length_map, List.length_range]
  have n2 : c.n2 = 1 := by rw [← h2, ← T.labels2, List.length_map, List.length_range]
  obtain ⟨H, hH, _⟩ := RC.start2 hu.1 (RC.unqueried_rated hu hrated) t
  unfold multi_recommend_2 WU.MultiLinkScore2State
  simp only [e1, e2, Res.bind_ok, hc, Res.ofOption_some, hH]
  have := warmup2_starved acc RC.pt2 n1 n2 2 H t mi1 mi2 solver fuel
  unfold RC.MCStep2State
  rw [this]
  rfl

/-- **C159**, the same for `multi_recommend_k`. -/
theorem C159_never_ends_k {kw : String} {K : ℕ} (hk : atoi kw = K) (hK : 0 < K) (hr : ∀ l ∈ ls, ∃ k < K, l.2.2 = ((k : ℕ) : ℚ))
    (mi1 mi2 : RC.View → RC.View → ℝ) (solver : WU.Solver) (acc : ℝ → ℚ → Bool) (fuel : ℕ) (x : String) (rest : List String) (t : Tape) :
    multi_recommend_k mi1 mi2 solver acc fuel strtod atoi files (kw :: o :: q :: x :: rest) t = .starved := by
  obtain ⟨b, d, r, e1, e2, hd, hrated, p1, p2, hlab, hrange, hT⟩ := ratings_ok (K := K) ho hs hr hq ha (some_line h1)
  obtain ⟨c, hc, hu, _⟩ := RC.clean_ok hd r
  have T := hT c hu
  have n1 : c.n1 = 1 := by rw [← h1, ← T.labels1, List.length_map, List.length_range]
  have n2 : c.n2 = 1 := by rw [← h2, ← T.labels2, List.length_map, List.length_range]
  obtain ⟨H, hH, _⟩ := RC.startK hu.1 (RC.unqueried_rated hu hrated) hK t
  unfold multi_recommend_k WU.MultiLinkScoreKState
  simp only [e1, e2, Res.bind_ok, hk, Nat.cast_pos, hK, if_true, Int.toNat_natCast, hc, Res.ofOption_some, hH]
  have := warmup2_starved acc (KS.pairTerm K) n1 n2 K H t mi1 mi2 solver fuel
  unfold RC.MCStepKState
  rw [this]
  rfl

end

/-- **C160**, refutation of "`conflict` ends": with one person and one thing it never does. -/
theorem C160_never_ends {strtod : String → Option ℚ} {files : String → Option (List Char)} {o : String} {ro : List Char}
    {ls : List (String × String × ℚ)} (ho : files o = some ro) (hs : List.Forall₂ (GR.LineSays true strtod) (GR.fileFields ro) ls)
    (hr : ∀ l ∈ ls, l.2.2 = 0 ∨ l.2.2 = 1) (h1 : (persons ls []).length = 1) (h2 : (things ls []).length = 1)
    (mi1 mi2 : RC.View → RC.View → ℝ) (solver : WU.Solver) (acc : ℝ → ℚ → Bool) (fuel : ℕ) (x : String) (rest : List String) (t : Tape) :
    conflict mi1 mi2 solver acc fuel strtod files (o :: x :: rest) t = .starved := by
  obtain ⟨b, d, r, hb, hrq, hd, hrated, p1, p2, hl1, hl2, hlink, hlab, hrange⟩ := RC.files_ok (K := 2) hs (fun l hl => by
    rcases hr l hl with h | h
    · exact ⟨0, by norm_num, by rw [h]; norm_num⟩
    · exact ⟨1, by norm_num, by rw [h]; norm_num⟩) [] (by simp) (some_line h1)
  have hbd : b = d := by
    have : RC.ReadQueries (RC.wordsOf []) ([] : List (String × String)).length b = some (b, []) := rfl
    rw [this] at hrq
    exact (Prod.mk.inj (Option.some.inj hrq)).1
  subst hbd
  have n1 : b.bi.n1 = 1 := by
    have := congrArg List.length hl1
    rw [BP.LBi.labels1, List.length_map, List.length_range] at this
    rw [this]; exact h1
  have n2 : b.bi.n2 = 1 := by
    have := congrArg List.length hl2
    rw [BP.LBi.labels2, List.length_map, List.length_range] at this
    rw [this]; exact h2
  obtain ⟨H, hH, _⟩ := RC.start2 hd hrated t
  have e : loadBi files true strtod o = .ok b := by unfold loadBi; simp only [ho, hb]
  unfold conflict AllLinkScore2State
  simp only [e, Res.bind_ok, if_pos (show b.bi.n1 * b.bi.n2 ≤ 2147483647 by rw [n1, n2]; norm_num), Res.ofOption_some, hH]
  have := warmup2_starved acc RC.pt2 n1 n2 2 H t mi1 mi2 solver fuel
  unfold RC.MCStep2State
  rw [this]
  rfl

/-! ## The heat bath -/

/-- Without ratings, and with one person and one thing, all states have the same energy. -/
theorem energy_alone {c : BP.Bi} (n1 : c.n1 = 1) (n2 : c.n2 = 1) (h0 : c.neig1 0 = []) (K : ℕ) (f1 f2 : ℕ → Option ℕ) :
    RC.bEnergy (RC.TKb K) c f1 f2 = Real.log (((K - 1).factorial : ℕ) : ℝ) := by
  have fac : ∀ m : ℕ, (1 - m).factorial = 1 := by
    intro m
    rcases Nat.eq_zero_or_pos m with rfl | h
    · rfl
    · rw [show 1 - m = 0 by omega]; rfl
  have hc : (fun k => RC.cnt c f1 f2 k 0 0) = fun _ => 0 := by
    funext k
    unfold RC.cnt
    refine Finset.sum_eq_zero fun i hi => Finset.sum_eq_zero fun j _ => ?_
    have : i = 0 := by
      have := Finset.mem_range.1 (Finset.mem_filter.1 hi).1
      omega
    subst this
    unfold RC.ra
    rw [h0]
    simp
  unfold RC.bEnergy
  rw [n1, n2, fac, fac, Finset.sum_range_one, Finset.sum_range_one, hc]
  unfold RC.TKb
  rw [Finset.sum_const_zero, show ((0 : Int) + K - 1).toNat = K - 1 by omega]
  simp

theorem log_factorial_le {m : ℕ} (h : m ≤ 10000) : Real.log ((m.factorial : ℕ) : ℝ) ≤ 10 ^ 10 - 1 := by
  have h1 : Real.log ((m.factorial : ℕ) : ℝ) ≤ Real.log ((m : ℝ) ^ m) := by
    refine Real.log_le_log (by exact_mod_cast Nat.factorial_pos m) ?_
    exact_mod_cast Nat.factorial_le_pow m
  rw [Real.log_pow] at h1
  have h2 : Real.log (m : ℝ) ≤ m := (Real.log_le_self (by positivity))
  have h3 : (m : ℝ) ≤ 10000 := by exact_mod_cast h
  have h4 : (m : ℝ) * Real.log (m : ℝ) ≤ m * m := mul_le_mul_of_nonneg_left h2 (by positivity)
  have h5 : (m : ℝ) * m ≤ 10000 * 10000 := mul_le_mul h3 h3 (by positivity) (by norm_num)
  linarith

/-- **C159**, refutation for `multi_recommend_k_gibbs` (at most 10000 ratings): with one person and one thing, the query being the pair, the
program never ends whatever random numbers other than 0 it gets: the energy cannot change, and the test for the end of the thermalization asks for
a strict decrease or increase. -/
theorem C159_never_ends_gibbs {strtod : String → Option ℚ} {atoi : String → Int} {files : String → Option (List Char)} {o q : String}
    {ro rq : List Char} {ls : List (String × String × ℚ)} {qs : List (String × String)} (ho : files o = some ro)
    (hs : List.Forall₂ (GR.LineSays true strtod) (GR.fileFields ro) ls) (hq : files q = some rq) (ha : Asks rq qs) (hne : qs ≠ [])
    (h1 : (persons ls qs).length = 1) (h2 : (things ls qs).length = 1) {kw : String} {K : ℕ} (hk : atoi kw = K) (hK : 0 < K)
    (hK' : K ≤ 10000) (hr : ∀ l ∈ ls, ∃ k < K, l.2.2 = ((k : ℕ) : ℚ)) (fuel : ℕ) (x : String) (rest : List String) {t : Tape}
    (ht : RC.NonZero t) : multi_recommend_k_gibbs fuel strtod atoi files (kw :: o :: q :: x :: rest) t = .starved := by
  obtain ⟨b, d, r, e1, e2, hd, hrated, p1, p2, hlab, hrange, hT⟩ := ratings_ok (K := K) ho hs hr hq ha (Or.inr hne)
  obtain ⟨c, hc, hu, _⟩ := RC.clean_ok hd r
  have T := hT c hu
  have n1 : c.n1 = 1 := by rw [← h1, ← T.labels1, List.length_map, List.length_range]
  have n2 : c.n2 = 1 := by rw [← h2, ← T.labels2, List.length_map, List.length_range]
  have hrc := RC.unqueried_rated hu hrated
  have h0 : c.neig1 0 = [] := by
    rw [List.eq_nil_iff_forall_not_mem]
    rintro ⟨j, w⟩ hm
    have hj : j < c.n2 := hu.1.range1 0 _ hm
    have hj0 : j = 0 := by omega
    subst hj0
    obtain ⟨y, ys, hys⟩ := List.exists_cons_of_ne_nil hne
    refine ((T.link 0 (by omega) 0 (by omega) w).1 hm).2 ?_
    have m1 : y.1 ∈ persons ls qs := by unfold persons; simp [hys]
    have m2 : y.2 ∈ things ls qs := by unfold things; simp [hys]
    rw [← T.labels1, n1] at m1
    rw [← T.labels2, n2] at m2
    simp only [List.range_one, List.map_cons, List.map_nil, List.mem_singleton] at m1 m2
    rw [← m1, ← m2, hys]
    exact List.mem_cons_self
  obtain ⟨H, hH, hI⟩ := RC.startK hu.1 hrc hK t
  unfold multi_recommend_k_gibbs GibbsMultiLinkScoreKState
  simp only [e1, e2, Res.bind_ok, hk, Nat.cast_pos, hK, if_true, Int.toNat_natCast, hc, Res.ofOption_some, hH]
  rw [WU.C132_strict_never_ends (P := fun s => RC.BInv (RC.TKb K) c K 0 s ∧ RC.NonZero s.tape)
    (c := Real.log (((K - 1).factorial : ℕ) : ℝ)) (log_factorial_le (by omega)) ?_ ⟨(RC.invK_iff hu.1 hrc hK).1 hI, ht⟩ fuel]
  · rfl
  · rintro s ⟨a1, a2⟩
    refine (RC.gibbs_inv hu.1 hK a1 a2).mono ?_
    rintro s' ⟨b1, b2⟩
    refine ⟨⟨b1, b2⟩, ?_⟩
    have := b1.energy
    rw [energy_alone n1 n2 h0, add_zero] at this
    exact this.symm

/-! ## Reliability of links -/

/-- **C150**, refutation of "the program ends": with one label, `reliability_links` never ends. -/
theorem C150_never_ends {files : String → Option (List Char)} {f : String} {text : List Char} {ps : List (String × String)}
    (hf : files f = some text) (hs : UT.Says text ps) (h1 : (UT.names ps).length = 1) (mi : LS.St → LS.St → ℝ) (solver : WU.Solver)
    (acc : ℝ → ℚ → Bool) (fuel : ℕ) (scratch : ℕ → Int) (x : String) (rest : List String) (t : Tape) :
    reliability_links mi solver acc fuel scratch files (f :: x :: rest) t = .starved := by
  obtain ⟨net, e, L⟩ := UT.load_ok hf hs
  have hn : (toNet net).n = 1 := by
    rw [← h1, ← L.labels, List.length_map, List.length_range]; rfl
  have hS := toNet_simple L
  unfold reliability_links WU.LinkScore
  simp only [e, Res.bind_ok]
  have hI := LS.init_holds hS (m := (toNet net).n) (by omega) (List.range (toNet net).n) GP.Part.empty t (GP.empty_ok _ _) List.nodup_range
    (fun v hv => ⟨List.mem_range.1 hv, rfl⟩) (fun v hv hv' => absurd (List.mem_range.2 hv) hv')
  cases ei : GP.randomInit (toNet net) (toNet net).n (List.range (toNet net).n) GP.Part.empty t with
  | starved => rfl
  | ub => rw [ei] at hI; exact hI.elim
  | ok r =>
    obtain ⟨p, t'⟩ := r
    rw [ei] at hI
    obtain ⟨hp, hF⟩ := hI
    dsimp only at hp hF
    simp only [Res.bind_ok, LS.partitionH_eq hS hp hF, Res.ofOption_some]
    unfold WU.warmup
    rw [decor_starved (LS.C29_one_node acc 0 0 _ hn hF hp)]
    rfl

/-- **C157**, refutation of "the program ends": with one label, `reliability_links_k` never ends. -/
theorem C157_never_ends {strtod : String → Option ℚ} {atoi : String → Int} {files : String → Option (List Char)} {f : String} {text : List Char}
    {ls : List (String × String × ℚ)} (hf : files f = some text) (hs : List.Forall₂ (GR.LineSays true strtod) (GR.fileFields text) ls)
    (h1 : (UT.names (ends ls)).length = 1) {kw : String} {K : ℕ} (hk : atoi kw = K) (hK : 0 < K) (hr : ∀ l ∈ ls, ∃ k < K, l.2.2 = ((k : ℕ) : ℚ))
    (mi : KS.KSt → KS.KSt → ℝ) (solver : WU.Solver) (acc : ℝ → ℚ → Bool) (fuel : ℕ) (x : String) (rest : List String) (t : Tape) :
    reliability_links_k mi solver acc fuel strtod atoi files (kw :: f :: x :: rest) t = .starved := by
  obtain ⟨net, e, L⟩ := loadW_ok hf hs
  have hn : (toNet net).n = 1 := by
    rw [← h1, ← L.labels, List.length_map, List.length_range]; rfl
  unfold reliability_links_k WU.LSMultiLinkScoreKState
  simp only [e, Res.bind_ok, hk, Nat.cast_nonneg, if_true, Res.ofOption_some, Int.toNat_natCast]
  obtain ⟨hp, hi⟩ := LS.own_groups L.simple (toNet net).n (le_refl _)
  have hF : GP.Full (toNet net) ((List.range (toNet net).n).foldl (fun p v => GP.AddNodeToGroup (toNet net) v v p) GP.Part.empty) := by
    intro v hv
    rw [hi v, if_pos hv]; simp
  rw [KS.C30_energy L.simple (L.rated hr) hK hp hF]
  simp only [Res.ofOption_some, Res.bind_ok]
  unfold WU.warmup
  dsimp only
  rw [decor_starved (KS.C30_one_node hn (by norm_num) acc (by show GP.Part.inGroup _ 0 = _; rw [hi 0, hn]; rfl))]
  rfl

/-! ## Examples -/

/-- A file with one rating. -/
theorem says_one : List.Forall₂ (GR.LineSays true digit) (GR.fileFields (UT.tex "a b 1\n")) [("a", "b", 1)] := by
  have : GR.fileFields (UT.tex "a b 1\n") = [["a", "b", "1"]] := by decide +kernel
  rw [this]
  exact .cons ⟨by decide +kernel, by decide +kernel, "1", [], rfl, rfl⟩ .nil

example (mi1 mi2 : RC.View → RC.View → ℝ) (solver : WU.Solver) (acc : ℝ → ℚ → Bool) (fuel : ℕ) (t : Tape) :
    conflict mi1 mi2 solver acc fuel digit (fun _ => some (UT.tex "a b 1\n")) ["O", "1"] t = .starved :=
  C160_never_ends rfl says_one (by simp) (by decide +kernel) (by decide +kernel) mi1 mi2 solver acc fuel "1" [] t

theorem asks_one : Asks (UT.tex "a b\n") [("a", "b")] where
  words := by decide +kernel
  lines := by decide +kernel
  short := by
    intro a b c h _
    have h1 := congrArg List.length h
    have h2 : (UT.tex "a b\n").length = 4 := by decide +kernel
    simp only [List.length_append, h2] at h1
    omega
  fit := by decide +kernel

/-- The files `O` with a rating and `Q` with the query for it. -/
def oneFiles : String → Option (List Char) := fun f => if f = "O" then some (UT.tex "a b 1\n") else some (UT.tex "a b\n")

example (mi1 mi2 : RC.View → RC.View → ℝ) (solver : WU.Solver) (acc : ℝ → ℚ → Bool) (fuel : ℕ) (t : Tape) :
    multi_recommend_2 mi1 mi2 solver acc fuel digit oneFiles ["O", "Q", "1"] t = .starved :=
  C159_never_ends_2 (ho := rfl) says_one rfl asks_one (by decide +kernel) (by decide +kernel) (by simp) mi1 mi2 solver acc fuel "1" [] t

example (mi1 mi2 : RC.View → RC.View → ℝ) (solver : WU.Solver) (acc : ℝ → ℚ → Bool) (fuel : ℕ) (t : Tape) :
    multi_recommend_k mi1 mi2 solver acc fuel digit (fun _ => 2) oneFiles ["2", "O", "Q", "1"] t = .starved :=
  C159_never_ends_k (ho := rfl) says_one rfl asks_one (by decide +kernel) (by decide +kernel) (K := 2) rfl (by norm_num)
    (by simp only [List.mem_singleton, forall_eq]; exact ⟨1, by norm_num, by norm_num⟩) mi1 mi2 solver acc fuel "1" [] t

example (fuel : ℕ) : multi_recommend_k_gibbs fuel digit (fun _ => 2) oneFiles ["2", "O", "Q", "1"] [1 / 2, 1 / 3] = .starved :=
  C159_never_ends_gibbs rfl says_one rfl asks_one (by simp) (by decide +kernel) (by decide +kernel) (K := 2) rfl (by norm_num) (by norm_num)
    (by simp only [List.mem_singleton, forall_eq]; exact ⟨1, by norm_num, by norm_num⟩) fuel "1" [] (by intro u hu; simp at hu; rcases hu with rfl | rfl <;> norm_num)

theorem says_loop : UT.Says (UT.tex "a a\n") [("a", "a")] := by
  have e : GR.fileFields (UT.tex "a a\n") = [["a", "a"]] := by decide +kernel
  rw [UT.Says, e]
  exact .cons ⟨by decide +kernel, by decide +kernel, [], rfl⟩ .nil

example (mi : LS.St → LS.St → ℝ) (solver : WU.Solver) (acc : ℝ → ℚ → Bool) (fuel : ℕ) (scratch : ℕ → Int) (t : Tape) :
    reliability_links mi solver acc fuel scratch (fun _ => some (UT.tex "a a\n")) ["G", "1"] t = .starved :=
  C150_never_ends rfl says_loop (by decide +kernel) mi solver acc fuel scratch "1" [] t

theorem says_loop_k : List.Forall₂ (GR.LineSays true digit) (GR.fileFields (UT.tex "a a 1\n")) [("a", "a", 1)] := by
  have : GR.fileFields (UT.tex "a a 1\n") = [["a", "a", "1"]] := by decide +kernel
  rw [this]
  exact .cons ⟨by decide +kernel, by decide +kernel, "1", [], rfl, rfl⟩ .nil

example (mi : KS.KSt → KS.KSt → ℝ) (solver : WU.Solver) (acc : ℝ → ℚ → Bool) (fuel : ℕ) (t : Tape) :
    reliability_links_k mi solver acc fuel digit (fun _ => 2) (fun _ => some (UT.tex "a a 1\n")) ["2", "G", "1"] t = .starved :=
  C157_never_ends rfl says_loop_k (by decide +kernel) (K := 2) rfl (by norm_num)
    (by simp only [List.mem_singleton, forall_eq]; exact ⟨1, by norm_num, by norm_num⟩) mi solver acc fuel "1" [] t

end PG
