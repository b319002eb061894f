import Verif.Warm.RefineModel
import Verif.Warm.Decor
import Verif.Missing.Score
import Verif.KState.Score
import Verif.Recommend.Score

/-! # C134: the samplers with their warm-up refine the samplers with an arbitrary warm-up -/

namespace WU

open RG Tools

variable {σ α β : Type} {step : ℕ → σ → Res σ}

/-- `r` only calls `step` (from `s`), and returns values with `Q`. -/
def Follows (step : ℕ → σ → Res σ) (Q : α → Prop) (s : σ) (r : Res (α × σ)) : Prop :=
  (∃ a s' fs, r = .ok (a, s') ∧ Q a ∧ calls step fs s = .ok s') ∨ r = .starved ∨ (r = .ub ∧ ∃ fs, calls step fs s = .ub)

theorem Follows.pure {Q : α → Prop} {s : σ} {a : α} (h : Q a) : Follows step Q s (.ok (a, s)) :=
  Or.inl ⟨a, s, [], rfl, h, rfl⟩

theorem Follows.bind {Q : α → Prop} {Q' : β → Prop} {s : σ} {r : Res (α × σ)} {g : α × σ → Res (β × σ)}
    (h : Follows step Q s r) (hg : ∀ a s', Q a → Follows step Q' s' (g (a, s'))) : Follows step Q' s (r >>= g) := by
  rcases h with ⟨a, s', fs, rfl, ha, hc⟩ | rfl | ⟨rfl, fs, hc⟩
  · rcases hg a s' ha with ⟨b, s2, gs, e, hb, hc'⟩ | e | ⟨e, gs, hc'⟩
    · exact Or.inl ⟨b, s2, fs ++ gs, e, hb, by rw [calls_append, hc]; exact hc'⟩
    · exact Or.inr (Or.inl e)
    · exact Or.inr (Or.inr ⟨e, fs ++ gs, by rw [calls_append, hc]; exact hc'⟩)
  · exact Or.inr (Or.inl rfl)
  · exact Or.inr (Or.inr ⟨rfl, fs, hc⟩)

theorem Follows.mono {Q Q' : α → Prop} {s : σ} {r : Res (α × σ)} (h : Follows step Q s r) (hq : ∀ a, Q a → Q' a) :
    Follows step Q' s r := by
  rcases h with ⟨a, s', fs, e, ha, hc⟩ | h | h
  · exact Or.inl ⟨a, s', fs, e, hq a ha, hc⟩
  · exact Or.inr (Or.inl h)
  · exact Or.inr (Or.inr h)

theorem Follows.one {Q : α → Prop} {s : σ} {f : ℕ} {g : σ → Res (α × σ)} (hg : ∀ s', Follows step Q s' (g s')) :
    Follows step Q s (step f s >>= g) := by
  cases e : step f s with
  | starved => exact Or.inr (Or.inl rfl)
  | ub => exact Or.inr (Or.inr ⟨rfl, [f], by simp [calls, e]⟩)
  | ok s1 =>
    rcases hg s1 with ⟨b, s2, gs, h, hb, hc⟩ | h | ⟨h, gs, hc⟩
    · exact Or.inl ⟨b, s2, f :: gs, h, hb, by simp only [calls, e, Res.bind_ok]; exact hc⟩
    · exact Or.inr (Or.inl h)
    · exact Or.inr (Or.inr ⟨h, f :: gs, by simp only [calls, e, Res.bind_ok]; exact hc⟩)

/-! ## Thermalisation -/

theorem batch_follows (H : σ → ℝ) (f : ℕ) : ∀ k s, Follows step (fun hs => hs.length = k) s (batch step H f k s)
  | 0, _ => Follows.pure rfl
  | k + 1, s => by
    rw [batch]
    refine Follows.one fun s' => ?_
    exact (batch_follows H f k s').bind fun hs s2 h => Follows.pure (by simp [h])

theorem therm_follows (test : Test) (H : σ → ℝ) (f : ℕ) : ∀ (fuel : ℕ) (m0 s0 : ℝ) (eq : ℕ) (s : σ),
    Follows step (fun _ : Unit => True) s (thermLoop test step H f fuel m0 s0 eq s >>= fun s' => .ok ((), s'))
  | 0, _, _, _, _ => Or.inr (Or.inl rfl)
  | fuel + 1, m0, s0, eq, s => by
    rw [thermLoop]
    have hassoc : ∀ {γ : Type} (r : Res γ) (g : γ → Res σ) (k : σ → Res (Unit × σ)), ((r >>= g) >>= k) = (r >>= fun x => g x >>= k) := by
      intro γ r g k; cases r <;> rfl
    rw [hassoc]
    refine (batch_follows H f 20 s).bind fun hs s1 hl => ?_
    dsimp only
    obtain ⟨m1, d1, e1, e2, _⟩ := stats (hs := hs) hl (B := (hs.foldr min 0)) (fun h hh => by
      clear hl
      induction hs with
      | nil => simp at hh
      | cons x xs ih =>
        rcases List.mem_cons.1 hh with rfl | hh
        · exact min_le_left _ _
        · exact (min_le_right _ _).trans (ih hh))
    rw [e1, e2]
    simp only [Res.ofOption_some, Res.bind_ok]
    split_ifs
    · exact therm_follows test H f fuel m0 s0 (eq + 1) s1
    · exact Follows.pure trivial
    · exact therm_follows test H f fuel m1 d1 0 s1

/-! ## Decorrelation -/

/-- The times found by the solver are not astronomic. -/
def Moderate (solver : Solver) : Prop := ∀ nnod x1 y1 x2 y2, CalculateDecay solver nnod x1 y1 x2 y2 ≤ 10 ^ 9

theorem watch_follows (mi : σ → ℝ) (x1 : ℕ) : ∀ (k i : ℕ) (y : Option ℝ) (s : σ), (y = none → i ≤ x1) → (y = none → x1 < i + k) →
    Follows step (fun y => y ≠ none) s (watch step mi x1 k i y s)
  | 0, i, y, s, h1, h2 => by
    refine Follows.pure ?_
    intro hy
    have := h1 hy
    have := h2 hy
    omega
  | k + 1, i, y, s, h1, h2 => by
    rw [watch]
    refine Follows.one fun s' => watch_follows mi x1 k (i + 1) _ s' ?_ ?_
    · split_ifs with h
      · intro h'; cases h'
      · intro hy
        have := h1 hy
        omega
    · split_ifs with h
      · intro h'; cases h'
      · intro hy
        have := h2 hy
        omega

theorem estimate_follows {mi : σ → σ → ℝ} {solver : Solver} (hM : Moderate solver) (nnod : ℕ) {x1 x2 : ℕ} (hx : x1 ≤ x2) (s : σ) :
    Follows step (fun d => d ≤ 2 * 10 ^ 9) s (estimate step mi solver nnod x1 x2 s) := by
  unfold estimate
  refine (watch_follows (mi s) x1 (x2 + 1) 0 none s (fun _ => Nat.zero_le _) (fun _ => by omega)).bind fun y s' hy => ?_
  cases y with
  | none => exact absurd rfl hy
  | some y =>
    simp only [Res.ofOption_some, Res.bind_ok]
    refine Follows.pure ?_
    have := hM nnod x1 y x2 (mi s s')
    linarith

theorem estimates_follows {one : σ → Res (ℝ × σ)} (h1 : ∀ s, Follows step (fun d => d ≤ 2 * 10 ^ 9) s (one s)) :
    ∀ (fuel left : ℕ) (s : σ),
    Follows step (fun ds => ds.length = left ∧ ∀ d ∈ ds, 0 ≤ d ∧ d ≤ 2 * 10 ^ 9) s (estimates one fuel left s)
  | fuel, 0, s => by
    have : estimates one fuel 0 s = .ok ([], s) := by cases fuel <;> rfl
    rw [this]
    exact Follows.pure ⟨rfl, by simp⟩
  | 0, left + 1, s => Or.inr (Or.inl rfl)
  | fuel + 1, left + 1, s => by
    rw [estimates]
    refine (h1 s).bind fun d s' hd => ?_
    dsimp only
    split_ifs with hn
    · exact estimates_follows h1 fuel (left + 1) s'
    · refine (estimates_follows h1 fuel left s').bind fun ds s2 hds => Follows.pure ⟨by simp [hds.1], ?_⟩
      intro x hx
      rcases List.mem_cons.1 hx with rfl | hx
      · exact ⟨not_lt.1 hn, hd⟩
      · exact hds.2 x hx

theorem times_le (nnod least : ℕ) : (times nnod least).1 ≤ (times nnod least).2 := by
  unfold times
  dsimp only
  omega

theorem toInt_some {ds : List ℝ} (hl : ds.length = 10) (hd : ∀ d ∈ ds, 0 ≤ d ∧ d ≤ 2 * 10 ^ 9) (rounding : Bool) :
    ∃ v n, chauvenet ds = some v ∧ toInt rounding v = some n := by
  obtain ⟨m, sigma, v, _, _, hv, _, hb⟩ := C133_chauvenet (ds := ds) (by rintro rfl; simp at hl)
  have := (hb _ _ hd).2
  unfold toInt
  cases rounding with
  | true => exact ⟨v, _, hv, by simp only [if_true]; rw [if_pos (by linarith)]⟩
  | false => exact ⟨v, _, hv, by simp only [Bool.false_eq_true, if_false]; rw [if_pos (by linarith)]⟩

theorem decor_follows {mi : σ → σ → ℝ} {solver : Solver} (hM : Moderate solver) (nnod least : ℕ) (rounding : Bool) (fuel : ℕ) (s : σ) :
    Follows step (fun _ : ℕ => True) s (GetDecorrelationStep step mi solver nnod least rounding fuel s) := by
  unfold GetDecorrelationStep
  refine (estimates_follows (fun s => estimate_follows hM nnod (times_le nnod least) s) fuel 10 s).bind fun ds s' hds => ?_
  obtain ⟨v, n, hv, hn⟩ := toInt_some hds.1 hds.2 rounding
  simp only [hv, hn, Res.ofOption_some, Res.bind_ok]
  exact Follows.pure trivial

theorem watch2_follows (mi1 mi2 : σ → ℝ) (x1 : ℕ) : ∀ (k i : ℕ) (y : Option (ℝ × ℝ)) (s : σ), (y = none → i ≤ x1) →
    (y = none → x1 < i + k) → Follows step (fun y => y ≠ none) s (watch2 step mi1 mi2 x1 k i y s)
  | 0, i, y, s, h1, h2 => by
    refine Follows.pure ?_
    intro hy
    have := h1 hy
    have := h2 hy
    omega
  | k + 1, i, y, s, h1, h2 => by
    rw [watch2]
    refine Follows.one fun s' => watch2_follows mi1 mi2 x1 k (i + 1) _ s' ?_ ?_
    · split_ifs with h
      · intro h'; cases h'
      · intro hy
        have := h1 hy
        omega
    · split_ifs with h
      · intro h'; cases h'
      · intro hy
        have := h2 hy
        omega

theorem estimate2_follows {mi1 mi2 : σ → σ → ℝ} {solver : Solver} (hM : Moderate solver) (n1 n2 : ℕ) {x1 x2 : ℕ} (hx : x1 ≤ x2) (s : σ) :
    Follows step (fun d => d.1 ≤ 2 * 10 ^ 9 ∧ d.2 ≤ 2 * 10 ^ 9) s (estimate2 step mi1 mi2 solver n1 n2 x1 x2 s) := by
  unfold estimate2
  refine (watch2_follows (mi1 s) (mi2 s) x1 (x2 + 1) 0 none s (fun _ => Nat.zero_le _) (fun _ => by omega)).bind fun y s' hy => ?_
  cases y with
  | none => exact absurd rfl hy
  | some y =>
    simp only [Res.ofOption_some, Res.bind_ok]
    refine Follows.pure ⟨?_, ?_⟩
    · dsimp only
      split_ifs
      · have := hM n1 x1 y.1 x2 (mi1 s s')
        linarith
      · norm_num
    · dsimp only
      split_ifs
      · have := hM n2 x1 y.2 x2 (mi2 s s')
        linarith
      · norm_num

theorem estimates2_follows {one : σ → Res ((ℝ × ℝ) × σ)}
    (h1 : ∀ s, Follows step (fun d => d.1 ≤ 2 * 10 ^ 9 ∧ d.2 ≤ 2 * 10 ^ 9) s (one s)) : ∀ (fuel left : ℕ) (s : σ),
    Follows step (fun ds => ds.length = left ∧ ∀ d ∈ ds, (0 ≤ d.1 ∧ d.1 ≤ 2 * 10 ^ 9) ∧ (0 ≤ d.2 ∧ d.2 ≤ 2 * 10 ^ 9)) s
      (estimates2 one fuel left s)
  | fuel, 0, s => by
    have : estimates2 one fuel 0 s = .ok ([], s) := by cases fuel <;> rfl
    rw [this]
    exact Follows.pure ⟨rfl, by simp⟩
  | 0, left + 1, s => Or.inr (Or.inl rfl)
  | fuel + 1, left + 1, s => by
    rw [estimates2]
    refine (h1 s).bind fun d s' hd => ?_
    dsimp only
    split_ifs with hn
    · exact estimates2_follows h1 fuel (left + 1) s'
    · refine (estimates2_follows h1 fuel left s').bind fun ds s2 hds => Follows.pure ⟨by simp [hds.1], ?_⟩
      push Not at hn
      intro x hx
      rcases List.mem_cons.1 hx with rfl | hx
      · exact ⟨⟨hn.1, hd.1⟩, hn.2, hd.2⟩
      · exact hds.2 x hx

theorem slower_spec {ds : List (ℝ × ℝ)} (hl : ds.length = 10) (hd : ∀ d ∈ ds, (0 ≤ d.1 ∧ d.1 ≤ 2 * 10 ^ 9) ∧ (0 ≤ d.2 ∧ d.2 ≤ 2 * 10 ^ 9)) :
    ∃ l, slower ds = some l ∧ l.length = 10 ∧ ∀ d ∈ l, (0 : ℝ) ≤ d ∧ d ≤ 2 * 10 ^ 9 := by
  obtain ⟨m1, e1, _⟩ := C41_mean (ds.map Prod.fst) (by intro h; rw [List.map_eq_nil_iff.1 h] at hl; simp at hl)
  obtain ⟨m2, e2, _⟩ := C41_mean (ds.map Prod.snd) (by intro h; rw [List.map_eq_nil_iff.1 h] at hl; simp at hl)
  unfold slower
  rw [e1, e2]
  simp only [Option.bind_eq_bind, Option.bind_some, Option.pure_def]
  split_ifs
  · refine ⟨_, rfl, by simp [hl], ?_⟩
    intro d hm
    obtain ⟨p, hp, rfl⟩ := List.mem_map.1 hm
    exact (hd p hp).1
  · refine ⟨_, rfl, by simp [hl], ?_⟩
    intro d hm
    obtain ⟨p, hp, rfl⟩ := List.mem_map.1 hm
    exact (hd p hp).2

/-- **C133**, for the samplers with two partitions: of the two lists of estimates the one with the larger mean is used. -/
theorem C133_slower {ds : List (ℝ × ℝ)} (hne : ds ≠ []) :
    ∃ l, slower ds = some l ∧ (l = ds.map Prod.fst ∨ l = ds.map Prod.snd) ∧ (ds.map Prod.fst).sum ≤ l.sum ∧ (ds.map Prod.snd).sum ≤ l.sum := by
  obtain ⟨m1, e1, s1, _⟩ := C41_mean (ds.map Prod.fst) (by intro h; exact hne (List.map_eq_nil_iff.1 h))
  obtain ⟨m2, e2, s2, _⟩ := C41_mean (ds.map Prod.snd) (by intro h; exact hne (List.map_eq_nil_iff.1 h))
  have hlen : (0 : ℝ) < ds.length := by exact_mod_cast List.length_pos_iff.2 hne
  rw [List.length_map] at s1 s2
  unfold slower
  rw [e1, e2]
  simp only [Option.bind_eq_bind, Option.bind_some, Option.pure_def]
  split_ifs with h
  · refine ⟨_, rfl, Or.inl rfl, le_refl _, ?_⟩
    rw [← s1, ← s2]
    nlinarith
  · refine ⟨_, rfl, Or.inr rfl, ?_, le_refl _⟩
    rw [← s1, ← s2]
    nlinarith

example : ∃ l, slower [(1, 2), (3, 1)] = some l ∧ l = [1, 3] := by
  obtain ⟨l, h, h1 | h1, h2, h3⟩ := C133_slower (ds := [(1, 2), (3, 1)]) (by simp)
  · exact ⟨l, h, by simpa using h1⟩
  · subst h1
    norm_num at h2

theorem decor2_follows {mi1 mi2 : σ → σ → ℝ} {solver : Solver} (hM : Moderate solver) (n1 n2 fuel : ℕ) (s : σ) :
    Follows step (fun _ : ℕ => True) s (GetDecorrelationStep2 step mi1 mi2 solver n1 n2 fuel s) := by
  unfold GetDecorrelationStep2
  refine (estimates2_follows (fun s => estimate2_follows hM n1 n2 (times_le (n1 + n2) 10) s) fuel 10 s).bind fun ds s' hds => ?_
  obtain ⟨l, hl, hlen, hr⟩ := slower_spec hds.1 hds.2
  obtain ⟨v, n, hv, hn⟩ := toInt_some hlen hr true
  simp only [hl, hv, hn, Res.ofOption_some, Res.bind_ok]
  exact Follows.pure trivial

/-! ## The warm-up -/

theorem warmup_cases (test : Test) (H : σ → ℝ) {decor : σ → Res (ℕ × σ)}
    (hd : ∀ s, Follows step (fun _ : ℕ => True) s (decor s)) (fuel : ℕ) (s : σ) :
    warmup test step H decor fuel s = .starved ∨
      ∃ d fs, warmup test step H decor fuel s = (calls step fs s >>= fun s' => .ok (d, s')) := by
  have : Follows step (fun _ : ℕ => True) s (warmup test step H decor fuel s) := by
    unfold warmup
    refine (hd s).bind fun d s' _ => ?_
    have h := therm_follows (step := step) test H d fuel (10 ^ 10) (1 / 10 ^ 10) 0 s'
    dsimp only
    unfold Thermalize
    cases e : thermLoop test step H d fuel (10 ^ 10) (1 / 10 ^ 10) 0 s' with
    | starved => exact Or.inr (Or.inl rfl)
    | ub =>
      rw [e] at h
      rcases h with ⟨_, _, _, h, _⟩ | h | ⟨_, fs, h⟩
      · cases h
      · cases h
      · exact Or.inr (Or.inr ⟨rfl, fs, h⟩)
    | ok s2 =>
      rw [e] at h
      rcases h with ⟨_, _, fs, h, _, hc⟩ | h | ⟨h, _⟩
      · cases h
        exact Or.inl ⟨d, _, fs, rfl, trivial, hc⟩
      · cases h
      · cases h
  rcases this with ⟨d, s', fs, h, _, hc⟩ | h | ⟨h, fs, hc⟩
  · exact Or.inr ⟨d, fs, by rw [h, hc]; rfl⟩
  · exact Or.inl h
  · exact Or.inr ⟨0, fs, by rw [h, hc]; rfl⟩

theorem steps_calls (acc : ℝ → ℚ → Bool) (net : GP.Net) (linC : ℝ) : ∀ fs s,
    LS.steps acc net linC fs s = calls (LS.LinkScoreMCStep acc net linC) fs s
  | [], _ => rfl
  | f :: fs, s => by simp only [LS.steps, calls, steps_calls acc net linC fs]

theorem mbSteps_calls (K : BK.Kern) (acc : ℝ → ℚ → Bool) (net : GP.Net) (linC : ℝ) : ∀ fs s,
    BK.steps K acc net linC fs s = calls (BK.LSMCStepMB K acc net linC) fs s
  | [], _ => rfl
  | f :: fs, s => by simp only [BK.steps, calls, mbSteps_calls K acc net linC fs]

theorem kSteps_calls (acc : ℝ → ℚ → Bool) (net : GP.Net) (K : ℕ) : ∀ fs s,
    KS.kSteps acc net K fs s = calls (KS.LSMCStepKState acc net K) fs s
  | [], _ => rfl
  | f :: fs, s => by simp only [KS.kSteps, calls, kSteps_calls acc net K fs]

theorem bSteps_calls (step : ℕ → RC.View → Res RC.View) : ∀ fs s, RC.bSteps step fs s = calls step fs s
  | [], _ => rfl
  | f :: fs, s => by simp only [RC.bSteps, calls, bSteps_calls step fs]

theorem gibbsSteps_calls (net : GP.Net) (linC : ℝ) : ∀ fs s,
    LS.gibbsSteps net linC fs.length s = calls (fun _ => LS.GibbsLinkScoreStep net linC) fs s
  | [], _ => rfl
  | f :: fs, s => by simp only [List.length_cons, LS.gibbsSteps, calls, gibbsSteps_calls net linC fs]

/-- **C134** (src/missing.c).  `LinkScore` with its estimate of the decorrelation step and its thermalisation gives what the sampler gives after
some warm-up, or does not return. So everything proved for all warm-ups (C29, C31) holds of it. -/
theorem C134_link_score {mi : LS.St → LS.St → ℝ} {solver : Solver} (hM : Moderate solver) (acc : ℝ → ℚ → Bool) (net : GP.Net) (linC : ℝ)
    (nIter fuel : ℕ) (scratch : ℕ → Int) (t : Tape) :
    LinkScore mi solver acc net linC nIter fuel scratch t = .starved ∨
      ∃ warm decorStep, LinkScore mi solver acc net linC nIter fuel scratch t =
        LS.LinkScore acc net linC nIter warm decorStep scratch t := by
  unfold LinkScore LS.LinkScore
  cases GP.randomInit net net.n (List.range net.n) GP.Part.empty t with
  | starved => exact Or.inl rfl
  | ub => exact Or.inr ⟨[], 0, rfl⟩
  | ok r =>
    obtain ⟨p, t'⟩ := r
    simp only [Res.bind_ok]
    cases Res.ofOption (LS.PartitionH net net.n linC p) with
    | starved => exact Or.inl rfl
    | ub => exact Or.inr ⟨[], 0, rfl⟩
    | ok H =>
      simp only [Res.bind_ok]
      rcases warmup_cases (step := LS.LinkScoreMCStep acc net linC) .epsilon (fun s => s.H)
        (fun s => decor_follows (mi := mi) hM net.n 0 false fuel s) fuel
        { part := p, G2G := LS.initG2G net p, n2g := scratch, H := H, slg := [], tape := t' } with h | ⟨d, fs, h⟩
      · left; rw [h]; rfl
      · right
        refine ⟨fs, d, ?_⟩
        rw [h, steps_calls]
        cases calls (LS.LinkScoreMCStep acc net linC) fs
          { part := p, G2G := LS.initG2G net p, n2g := scratch, H := H, slg := [], tape := t' } <;> rfl

/-- **C134** (src/missing.c, heat bath). -/
theorem C134_gibbs (net : GP.Net) (linC : ℝ) (nIter fuel : ℕ) (scratch : ℕ → Int) (t : Tape) :
    GibbsLinkScore net linC nIter fuel scratch t = .starved ∨
      ∃ warm, GibbsLinkScore net linC nIter fuel scratch t = LS.GibbsLinkScore net linC nIter warm scratch t := by
  unfold GibbsLinkScore LS.GibbsLinkScore
  cases LS.skip net.n t with
  | starved => exact Or.inl rfl
  | ub => exact Or.inr ⟨0, rfl⟩
  | ok t' =>
    simp only [Res.bind_ok]
    cases Res.ofOption (LS.PartitionH net net.n linC ((List.range net.n).foldl (fun p v => GP.AddNodeToGroup net v v p) GP.Part.empty)) with
    | starved => exact Or.inl rfl
    | ub => exact Or.inr ⟨0, rfl⟩
    | ok H =>
      simp only [Res.bind_ok]
      set s0 := LS.St.mk ((List.range net.n).foldl (fun p v => GP.AddNodeToGroup net v v p) GP.Part.empty)
        (LS.initG2G net ((List.range net.n).foldl (fun p v => GP.AddNodeToGroup net v v p) GP.Part.empty)) scratch H [] t'
      have h := therm_follows (step := fun _ => LS.GibbsLinkScoreStep net linC) .epsilon (fun s => s.H) 1 fuel (10 ^ 10) (1 / 10 ^ 10) 0 s0
      unfold Thermalize
      cases e : thermLoop .epsilon (fun _ => LS.GibbsLinkScoreStep net linC) (fun s => s.H) 1 fuel (10 ^ 10) (1 / 10 ^ 10) 0 s0 with
      | starved => exact Or.inl rfl
      | ub =>
        rw [e] at h
        rcases h with ⟨_, _, _, h, _⟩ | h | ⟨_, fs, h⟩
        · cases h
        · cases h
        · exact Or.inr ⟨fs.length, by rw [gibbsSteps_calls, h]⟩
      | ok s2 =>
        rw [e] at h
        rcases h with ⟨_, _, fs, h, _, hc⟩ | h | ⟨h, _⟩
        · cases h
          exact Or.inr ⟨fs.length, by rw [gibbsSteps_calls, hc]⟩
        · cases h
        · cases h

/-- **C134** (src/multiblock.c, src/only_deg.c). -/
theorem C134_multiblock {mi : LS.St → LS.St → ℝ} {solver : Solver} (hM : Moderate solver) (K : BK.Kern) (debug : Bool) (acc : ℝ → ℚ → Bool)
    (net : GP.Net) (linC : ℝ) (nIter fuel : ℕ) (scratch : ℕ → Int) (t : Tape) :
    LinkScoreMB mi solver K debug acc net linC nIter fuel scratch t = .starved ∨
      ∃ warm decorStep, LinkScoreMB mi solver K debug acc net linC nIter fuel scratch t =
        BK.LinkScoreMB K debug acc net linC nIter warm decorStep scratch t := by
  unfold LinkScoreMB BK.LinkScoreMB
  cases GP.randomInit net net.n (List.range net.n) GP.Part.empty t with
  | starved => exact Or.inl rfl
  | ub => exact Or.inr ⟨[], 0, rfl⟩
  | ok r =>
    obtain ⟨p, t'⟩ := r
    simp only [Res.bind_ok]
    cases Res.ofOption (BK.PartitionH K net net.n linC p) with
    | starved => exact Or.inl rfl
    | ub => exact Or.inr ⟨[], 0, rfl⟩
    | ok H =>
      simp only [Res.bind_ok]
      rcases warmup_cases (step := BK.LSMCStepMB K acc net linC) .epsilon (fun s => s.H)
        (fun s => decor_follows (mi := mi) hM net.n 0 false fuel s) fuel
        { part := p, G2G := LS.initG2G net p, n2g := scratch, H := H, slg := [], tape := t' } with h | ⟨d, fs, h⟩
      · left; rw [h]; rfl
      · right
        refine ⟨fs, d, ?_⟩
        rw [h, mbSteps_calls]
        cases calls (BK.LSMCStepMB K acc net linC) fs
          { part := p, G2G := LS.initG2G net p, n2g := scratch, H := H, slg := [], tape := t' } <;> rfl

theorem given_or_estimated {step : ℕ → σ → Res σ} {g : σ → Res (ℕ × σ)} (hg : ∀ s, Follows step (fun _ : ℕ => True) s (g s)) (decor : ℕ) (s : σ) :
    Follows step (fun _ : ℕ => True) s (if decor = 0 then g s else .ok (decor, s)) := by
  split_ifs
  · exact hg s
  · exact Follows.pure trivial

/-- **C134** (networks with several kinds of links). -/
theorem C134_k_state {mi : KS.KSt → KS.KSt → ℝ} {solver : Solver} (hM : Moderate solver) (acc : ℝ → ℚ → Bool) (net : GP.Net)
    (K nIter decor : ℕ) (reset : Bool) (fuel : ℕ) (t : Tape) :
    LSMultiLinkScoreKState mi solver acc net K nIter decor reset fuel t = .starved ∨
      ∃ warm decorStep, LSMultiLinkScoreKState mi solver acc net K nIter decor reset fuel t =
        KS.LSMultiLinkScoreKState acc net K nIter warm decorStep reset fuel t := by
  unfold LSMultiLinkScoreKState KS.LSMultiLinkScoreKState
  dsimp only
  cases Res.ofOption (KS.LSHKState net K ((List.range net.n).foldl (fun p v => GP.AddNodeToGroup net v v p) GP.Part.empty)) with
  | starved => exact Or.inl rfl
  | ub => exact Or.inr ⟨[], 0, rfl⟩
  | ok H =>
    simp only [Res.bind_ok]
    rcases warmup_cases (step := KS.LSMCStepKState acc net K) .strict (fun s => s.H)
      (fun s => given_or_estimated (fun s => decor_follows (mi := mi) hM net.n 10 true fuel s) decor s) fuel
      (KS.KSt.mk ((List.range net.n).foldl (fun p v => GP.AddNodeToGroup net v v p) GP.Part.empty)
        (fun k v g => KS.NWeightLinksToGroup net ((List.range net.n).foldl (fun p v => GP.AddNodeToGroup net v v p) GP.Part.empty) v g k)
        (fun k g g' => KS.NWeightG2GLinks net ((List.range net.n).foldl (fun p v => GP.AddNodeToGroup net v v p) GP.Part.empty) g g' k)
        (LS.NNonEmptyGroups net.n ((List.range net.n).foldl (fun p v => GP.AddNodeToGroup net v v p) GP.Part.empty)) H t) with h | ⟨d, fs, h⟩
    · left; rw [h]; rfl
    · right
      refine ⟨fs, d, ?_⟩
      rw [h, kSteps_calls]
      generalize calls (KS.LSMCStepKState acc net K) fs _ = r
      cases r <;> rfl

theorem bRun_warm (step : ℕ → RC.View → Res RC.View) (g : RC.View → ℕ → ℕ × ℕ → Option ℚ) (nIter : ℕ) (fs : List ℕ) (d : ℕ) (reset : Bool)
    (fuel : ℕ) (s : RC.View) : RC.bRun step g nIter fs d reset fuel s = (calls step fs s >>= fun s => RC.bRun step g nIter [] d reset fuel s) := by
  unfold RC.bRun
  rw [bSteps_calls]
  cases calls step fs s <;> rfl

/-- **C134** (recommender, two ratings). -/
theorem C134_recommend_two {mi1 mi2 : RC.View → RC.View → ℝ} {solver : Solver} (hM : Moderate solver) (acc : ℝ → ℚ → Bool) (b : BP.Bi)
    (qs : List (ℕ × ℕ)) (nIter decor : ℕ) (reset : Bool) (fuel : ℕ) (t : Tape) :
    MultiLinkScore2State mi1 mi2 solver acc b qs nIter decor reset fuel t = .starved ∨
      ∃ warm decorStep, MultiLinkScore2State mi1 mi2 solver acc b qs nIter decor reset fuel t =
        RC.MultiLinkScore2State acc b qs nIter warm decorStep reset fuel t := by
  unfold MultiLinkScore2State RC.MultiLinkScore2State
  cases Res.ofOption (RC.clean b qs) with
  | starved => exact Or.inl rfl
  | ub => exact Or.inr ⟨[], 0, rfl⟩
  | ok c =>
    simp only [Res.bind_ok]
    cases Res.ofOption (RC.H2State c (RC.ownGroups c.n1) (RC.ownGroups c.n2)) with
    | starved => exact Or.inl rfl
    | ub => exact Or.inr ⟨[], 0, rfl⟩
    | ok H =>
      simp only [Res.bind_ok]
      unfold warmup2
      rcases warmup_cases (step := RC.MCStep2State acc c) .strict (fun s => s.H)
        (fun s => given_or_estimated (fun s => decor2_follows (mi1 := mi1) (mi2 := mi2) hM c.n1 c.n2 fuel s) decor s) fuel
        (RC.startView c (RC.ownGroups c.n1) (RC.ownGroups c.n2) H t) with h | ⟨d, fs, h⟩
      · left; rw [h]; rfl
      · right
        refine ⟨fs, d, ?_⟩
        rw [h, bRun_warm _ _ _ fs]
        generalize calls (RC.MCStep2State acc c) fs _ = r
        cases r <;> rfl

/-- **C134** (recommender, `K` ratings). -/
theorem C134_recommend_many {mi1 mi2 : RC.View → RC.View → ℝ} {solver : Solver} (hM : Moderate solver) (acc : ℝ → ℚ → Bool) (b : BP.Bi) (K : ℕ)
    (qs : List (ℕ × ℕ)) (nIter decor fuel : ℕ) (t : Tape) :
    MultiLinkScoreKState mi1 mi2 solver acc b K qs nIter decor fuel t = .starved ∨
      ∃ warm decorStep, MultiLinkScoreKState mi1 mi2 solver acc b K qs nIter decor fuel t =
        RC.MultiLinkScoreKState acc b K qs nIter warm decorStep fuel t := by
  unfold MultiLinkScoreKState RC.MultiLinkScoreKState
  cases Res.ofOption (RC.clean b qs) with
  | starved => exact Or.inl rfl
  | ub => exact Or.inr ⟨[], 0, rfl⟩
  | ok c =>
    simp only [Res.bind_ok]
    cases Res.ofOption (RC.HKState c K (RC.ownGroups c.n1) (RC.ownGroups c.n2)) with
    | starved => exact Or.inl rfl
    | ub => exact Or.inr ⟨[], 0, rfl⟩
    | ok H =>
      simp only [Res.bind_ok]
      unfold warmup2
      rcases warmup_cases (step := RC.MCStepKState acc c K) .strict (fun s => s.H)
        (fun s => given_or_estimated (fun s => decor2_follows (mi1 := mi1) (mi2 := mi2) hM c.n1 c.n2 fuel s) decor s) fuel
        (RC.startView c (RC.ownGroups c.n1) (RC.ownGroups c.n2) H t) with h | ⟨d, fs, h⟩
      · left; rw [h]; rfl
      · right
        refine ⟨fs, d, ?_⟩
        rw [h, bRun_warm _ _ _ fs]
        generalize calls (RC.MCStepKState acc c K) fs _ = r
        cases r <;> rfl

/-- **C134**.  The scores of the recommender with its own warm-up are distributions. -/
theorem C134_distribution {b : BP.Bi} (h : b.OK) {K : ℕ} (hr : b.Rated K) (hK : 0 < K) (h1 : 0 < b.n1) (h2 : 0 < b.n2)
    {mi1 mi2 : RC.View → RC.View → ℝ} {solver : Solver} (hM : Moderate solver) (acc : ℝ → ℚ → Bool) (qs : List (ℕ × ℕ)) {nIter : ℕ}
    (hn : 0 < nIter) (decor fuel : ℕ) (t : Tape) :
    (MultiLinkScoreKState mi1 mi2 solver acc b K qs nIter decor fuel t).Holds fun score =>
      ∀ q : ℕ × ℕ, q.1 < b.n1 → q.2 < b.n2 → KS.Distribution K fun k => score k q := by
  rcases C134_recommend_many (mi1 := mi1) (mi2 := mi2) hM acc b K qs nIter decor fuel t with e | ⟨warm, d, e⟩
  · rw [e]; trivial
  · rw [e]; exact RC.C50_distribution h hr hK h1 h2 acc qs hn warm d fuel t

/-- **C134**.  The scores of `LinkScore` with its own warm-up are those of C31, if the scratch array starts at 0. -/
theorem C134_scores {net : GP.Net} (h : net.Simple) (hn : 0 < net.n) {mi : LS.St → LS.St → ℝ} {solver : Solver} (hM : Moderate solver)
    (acc : ℝ → ℚ → Bool) (linC : ℝ) {nIter : ℕ} (hI : 0 < nIter) (fuel : ℕ) {scratch : ℕ → Int} (hz : ∀ g < net.n, scratch g = 0) (t : Tape) :
    (LinkScore mi solver acc net linC nIter fuel scratch t).Holds fun r => LS.ScoresOK net linC nIter r.1 r.2 := by
  rcases C134_link_score (mi := mi) hM acc net linC nIter fuel scratch t with e | ⟨warm, d, e⟩
  · rw [e]; trivial
  · rw [e]; exact LS.C31_scores_partial h hn acc linC hI warm d hz t

/-- **C134**.  The same for networks with several kinds of links. -/
theorem C134_k_distribution {net : GP.Net} (h : net.Simple) {K : ℕ} (hr : KS.Rated net K) (hK : 0 < K) {mi : KS.KSt → KS.KSt → ℝ}
    {solver : Solver} (hM : Moderate solver) (acc : ℝ → ℚ → Bool) {nIter : ℕ} (hI : 0 < nIter) (decor : ℕ) (reset : Bool) (fuel : ℕ) (t : Tape) :
    (LSMultiLinkScoreKState mi solver acc net K nIter decor reset fuel t).Holds fun score =>
      ∀ q ∈ KS.queries net.n, KS.Distribution K fun k => score k q := by
  rcases C134_k_state (mi := mi) hM acc net K nIter decor reset fuel t with e | ⟨warm, d, e⟩
  · rw [e]; trivial
  · rw [e]; exact KS.C32_distribution h hr hK acc hI warm d reset fuel t

/-- **C134**.  The same for ratings 0 and 1: scores strictly between 0 and 1. -/
theorem C134_two_scores {b : BP.Bi} (h : b.OK) (hr : b.Rated 2) (h1 : 0 < b.n1) (h2 : 0 < b.n2) {mi1 mi2 : RC.View → RC.View → ℝ}
    {solver : Solver} (hM : Moderate solver) (acc : ℝ → ℚ → Bool) (qs : List (ℕ × ℕ)) {nIter : ℕ} (hn : 0 < nIter) (decor : ℕ) (reset : Bool)
    (fuel : ℕ) (t : Tape) :
    (MultiLinkScore2State mi1 mi2 solver acc b qs nIter decor reset fuel t).Holds fun score =>
      ∀ q : ℕ × ℕ, q.1 < b.n1 → q.2 < b.n2 → ∃ x, score q = some x ∧ 0 < x ∧ x < 1 := by
  rcases C134_recommend_two (mi1 := mi1) (mi2 := mi2) hM acc b qs nIter decor reset fuel t with e | ⟨warm, d, e⟩
  · rw [e]; trivial
  · rw [e]
    refine (RC.C50_score2 h hr h1 h2 acc qs hn warm d reset fuel t).mono ?_
    rintro score ⟨c, _, S, _, _, hs⟩ q hq1 hq2
    obtain ⟨x, hx, _, h0, h1⟩ := hs q hq1 hq2
    exact ⟨x, hx, h0, h1⟩

/-- A solver that finds the time 3 at once where a curve with that time and value `y2` at infinity fits. -/
example : Moderate fun _ _ _ _ y2 i => if i = 0 then some (y2, 3) else none := by
  intro nnod x1 y1 x2 y2
  rcases C133_decay (fun _ _ _ _ y2 i => if i = 0 then some (y2, 3) else none) nnod x1 y1 x2 y2 with e | ⟨j, _, a, b, h, _, _, e⟩
  · rw [e]; norm_num
  · rw [e]
    split_ifs at h
    cases h
    norm_num

end WU
