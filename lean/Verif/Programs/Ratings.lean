import Verif.Programs.RatingModel
import Verif.Programs.RatingSpec
import Verif.Programs.BiMod
import Verif.Recommend.Query
import Verif.Recommend.GibbsScore
import Verif.Warm.Refine
import Verif.Tools.Props

/-! # C159, C160: the programs that predict ratings, in terms of labels -/

set_option linter.unusedSimpArgs false
set_option linter.unusedSectionVars false

namespace PG

open RG Finset BP

theorem told_eq (ls : List (String × String × ℚ)) (a b : String) : told ls a b = fileLink false ls a b := by
  unfold told fileLink
  rw [← List.head?_filter]
  cases (ls.filter fun l => l.1 = a ∧ l.2.1 = b) <;> simp

/-! ## Counting ratings -/

/-- The network has the ratings of the file whose pair is not in a query. -/
structure Told (c : Bi) (l1 l2 : ℕ → String) (ls : List (String × String × ℚ)) (qs : List (String × String)) : Prop where
  labels1 : (List.range c.n1).map l1 = persons ls qs
  labels2 : (List.range c.n2).map l2 = things ls qs
  link : ∀ i < c.n1, ∀ j < c.n2, ∀ w, (j, w) ∈ c.neig1 i ↔ told ls (l1 i) (l2 j) = some w ∧ (l1 i, l2 j) ∉ qs

theorem persons_nodup (ls : List (String × String × ℚ)) (qs : List (String × String)) : (persons ls qs).Nodup := RC.nodup_firstOf _

theorem things_nodup (ls : List (String × String × ℚ)) (qs : List (String × String)) : (things ls qs).Nodup := RC.nodup_firstOf _

section
variable {c : Bi} {l1 l2 : ℕ → String} {ls : List (String × String × ℚ)} {qs : List (String × String)} (T : Told c l1 l2 ls qs)
include T

theorem Told.inj1 {i j : ℕ} (hi : i < c.n1) (hj : j < c.n1) (e : l1 i = l1 j) : i = j :=
  inj_of_nodup (by rw [T.labels1]; exact persons_nodup ls qs) hi hj e

theorem Told.inj2 {i j : ℕ} (hi : i < c.n2) (hj : j < c.n2) (e : l2 i = l2 j) : i = j :=
  inj_of_nodup (by rw [T.labels2]; exact things_nodup ls qs) hi hj e

theorem Told.node1 {a : String} (h : a ∈ persons ls qs) : ∃ i < c.n1, l1 i = a := by
  rw [← T.labels1] at h
  obtain ⟨i, hi, e⟩ := List.mem_map.1 h
  exact ⟨i, List.mem_range.1 hi, e⟩

theorem Told.node2 {a : String} (h : a ∈ things ls qs) : ∃ i < c.n2, l2 i = a := by
  rw [← T.labels2] at h
  obtain ⟨i, hi, e⟩ := List.mem_map.1 h
  exact ⟨i, List.mem_range.1 hi, e⟩

theorem Told.len1 : (persons ls qs).length = c.n1 := by rw [← T.labels1]; simp

theorem Told.len2 : (things ls qs).length = c.n2 := by rw [← T.labels2]; simp

theorem Told.cnt {f1 f2 : ℕ → Option ℕ} {F : Division} (h1 : ∀ i < c.n1, f1 i = some (F.1 (l1 i))) (h2 : ∀ j < c.n2, f2 j = some (F.2 (l2 j)))
    (k g g' : ℕ) : RC.cnt c f1 f2 k g g' = (ratingsOf ls qs F k g g' : Int) := by
  unfold RC.cnt RC.ra ratingsOf
  rw [← sum_product', sum_boole]
  congr 1
  refine card_bij (fun p _ => (l1 p.1, l2 p.2)) ?_ ?_ ?_
  · rintro ⟨i, j⟩ h
    simp only [RC.blk, mem_filter, mem_product, mem_range] at h ⊢
    obtain ⟨⟨⟨hi, e1⟩, hj, e2⟩, hm⟩ := h
    obtain ⟨ht, hq⟩ := (T.link i hi j hj _).1 hm
    have hl : Line ls (l1 i) (l2 j) := (line_iff _ _).2 ⟨_, by rw [← told_eq]; exact ht⟩
    obtain ⟨l, hl, hl1, hl2⟩ := hl
    refine ⟨⟨?_, ?_⟩, ht, hq, ?_, ?_⟩
    · unfold column1
      rw [List.mem_toFinset]
      exact List.mem_map.2 ⟨l, hl, hl1⟩
    · unfold column2
      rw [List.mem_toFinset]
      exact List.mem_map.2 ⟨l, hl, hl2⟩
    · rw [h1 i hi] at e1; exact Option.some.inj e1
    · rw [h2 j hj] at e2; exact Option.some.inj e2
  · rintro ⟨i, j⟩ h ⟨i', j'⟩ h' e
    simp only [RC.blk, mem_filter, mem_product, mem_range] at h h'
    simp only [Prod.mk.injEq] at e ⊢
    exact ⟨T.inj1 h.1.1.1 h'.1.1.1 e.1, T.inj2 h.1.2.1 h'.1.2.1 e.2⟩
  · rintro ⟨a, b⟩ h
    simp only [mem_filter, mem_product] at h
    obtain ⟨⟨ha, hb⟩, ht, hq, e1, e2⟩ := h
    obtain ⟨i, hi, rfl⟩ := T.node1 (a := a) (by
      unfold column1 at ha
      rw [List.mem_toFinset] at ha
      exact RC.mem_firstOf.2 (List.mem_append_left _ ha))
    obtain ⟨j, hj, rfl⟩ := T.node2 (a := b) (by
      unfold column2 at hb
      rw [List.mem_toFinset] at hb
      exact RC.mem_firstOf.2 (List.mem_append_left _ hb))
    refine ⟨(i, j), ?_, rfl⟩
    simp only [RC.blk, mem_filter, mem_product, mem_range]
    exact ⟨⟨⟨hi, by rw [h1 i hi, e1]⟩, hj, by rw [h2 j hj, e2]⟩, (T.link i hi j hj _).2 ⟨ht, hq⟩⟩

theorem Told.estimate {f : (ℕ → Option ℕ) × (ℕ → Option ℕ)} {F : Division} (h1 : ∀ i < c.n1, f.1 i = some (F.1 (l1 i)))
    (h2 : ∀ j < c.n2, f.2 j = some (F.2 (l2 j))) (K k : ℕ) {i j : ℕ} (hi : i < c.n1) (hj : j < c.n2) :
    RC.estimate c K f k (i, j) = forecast ls qs K F k (l1 i) (l2 j) := by
  unfold RC.estimate forecast
  simp only [h1 i hi, h2 j hj, Option.getD_some, T.cnt h1 h2]
  push_cast
  rfl

/-- Groups of nodes as groups of labels. -/
theorem label_groups {n : ℕ} {l : ℕ → String} (hl : ((List.range n).map l).Nodup) {f : ℕ → Option ℕ} (hf : ∀ v < n, ∃ g < n, f v = some g) :
    ∃ F : String → ℕ, (∀ i < n, f i = some (F (l i))) ∧ ∀ a ∈ (List.range n).map l, F a < n := by
  have key : ∀ i < n, ((List.range n).map l).idxOf (l i) = i := by
    intro i hi
    have : ((List.range n).map l)[i]'(by simpa using hi) = l i := by simp
    rw [← this]
    exact hl.idxOf_getElem i _
  refine ⟨fun a => (f (((List.range n).map l).idxOf a)).getD 0, ?_, ?_⟩
  · intro i hi
    obtain ⟨g, _, e⟩ := hf i hi
    dsimp only
    rw [key i hi, e]; rfl
  · intro a ha
    obtain ⟨i, hi, rfl⟩ := List.mem_map.1 ha
    have hi := List.mem_range.1 hi
    obtain ⟨g, hg, e⟩ := hf i hi
    dsimp only
    rw [key i hi, e]; exact hg

theorem Told.divisions (K : ℕ) : ∀ S : List ((ℕ → Option ℕ) × (ℕ → Option ℕ)), (∀ f ∈ S, RC.Assigned c f) → ∃ Fs : List Division,
    Fs.length = S.length ∧
    (∀ F ∈ Fs, (∀ a ∈ persons ls qs, F.1 a < (persons ls qs).length) ∧ ∀ b ∈ things ls qs, F.2 b < (things ls qs).length) ∧
    ∀ k i j, i < c.n1 → j < c.n2 →
      (S.map fun f => RC.estimate c K f k (i, j)).sum = (Fs.map fun F => forecast ls qs K F k (l1 i) (l2 j)).sum
  | [], _ => ⟨[], rfl, by simp, by simp⟩
  | f :: S, h => by
    obtain ⟨Fs, e, hb, hs⟩ := Told.divisions K S fun f hf => h f (by simp [hf])
    obtain ⟨a1, a2⟩ := h f (by simp)
    obtain ⟨F1, b1, b2⟩ := label_groups T (l := l1) (by rw [T.labels1]; exact persons_nodup ls qs) a1
    obtain ⟨F2, d1, d2⟩ := label_groups T (l := l2) (by rw [T.labels2]; exact things_nodup ls qs) a2
    refine ⟨(F1, F2) :: Fs, by simp [e], ?_, ?_⟩
    · intro F hF
      rcases List.mem_cons.1 hF with rfl | hF
      · rw [T.labels1] at b2
        rw [T.labels2] at d2
        rw [T.len1, T.len2]
        exact ⟨b2, d2⟩
      · exact hb F hF
    · intro k i j hi hj
      rw [List.map_cons, List.map_cons, List.sum_cons, List.sum_cons, hs k i j hi hj, T.estimate (F := (F1, F2)) b1 d1 K k hi hj]

theorem swap_sums {α : Type} (s : Finset ℕ) (v : ℕ → α → ℚ) (Fs : List α) : ∑ k ∈ s, (Fs.map (v k)).sum = (Fs.map fun F => ∑ k ∈ s, v k F).sum := by
  induction Fs with
  | nil => simp
  | cons F Fs ih => simp [sum_add_distrib, ih]

theorem forecast_pos {K : ℕ} (hK : 0 < K) (F : Division) (k : ℕ) (a b : String) : 0 < forecast ls qs K F k a b := by
  unfold forecast
  have : (0 : ℚ) < K := by exact_mod_cast hK
  positivity

theorem forecast_total {K : ℕ} (hK : 0 < K) (F : Division) (a b : String) : ∑ k ∈ range K, forecast ls qs K F k a b = 1 := by
  unfold forecast
  have : (0 : ℚ) < K := by exact_mod_cast hK
  rw [← sum_div, sum_add_distrib]
  simp only [sum_const, card_range, nsmul_eq_mul, mul_one]
  exact div_self (by positivity)

/-- Means over samples are forecasts. -/
theorem Told.forecasts {K : ℕ} (hK : 0 < K) {S : List ((ℕ → Option ℕ) × (ℕ → Option ℕ))} (hS : S.length = 10000)
    (hA : ∀ f ∈ S, RC.Assigned c f) : ∃ v, Forecasts ls qs K v ∧
      ∀ k i j, i < c.n1 → j < c.n2 → RC.Means c K 10000 S k (i, j) = v k (l1 i) (l2 j) := by
  obtain ⟨Fs, e, hb, hs⟩ := T.divisions K S hA
  rw [hS] at e
  refine ⟨fun k a b => (Fs.map fun F => forecast ls qs K F k a b).sum / 10000, ⟨⟨Fs, e, hb, fun _ _ _ => rfl⟩, ?_, ?_⟩, ?_⟩
  · intro k a b
    refine div_pos (List.sum_pos _ ?_ ?_) (by norm_num)
    · intro x hx
      obtain ⟨F, _, rfl⟩ := List.mem_map.1 hx
      exact forecast_pos T hK F k a b
    · intro h
      rw [List.map_eq_nil_iff] at h
      rw [h] at e
      simp at e
  · intro a b
    rw [← sum_div, swap_sums T]
    simp only [forecast_total T hK, List.map_const', List.sum_replicate, e]
    norm_num
  · intro k i j hi hj
    unfold RC.Means
    rw [hs k i j hi hj]
    norm_num

end

/-! ## Files -/

theorem scanAll_eq : ∀ (n : ℕ) (s : List Char), (wordsOf s).length ≤ n → scanAll n s = (wordsOf s).map String.ofList
  | 0, s, h => by
    have : wordsOf s = [] := List.length_eq_zero_iff.1 (by omega)
    rw [this]; rfl
  | n + 1, s, h => by
    unfold scanAll
    cases hw : wordsOf s with
    | nil => rw [scan_nil hw]; rfl
    | cons w ws =>
      obtain ⟨r, h1, h2, _⟩ := scan_cons hw
      rw [h1]
      simp only [List.map_cons]
      rw [scanAll_eq n r (by rw [h2]; rw [hw] at h; simp at h; omega), h2]

theorem asked {text : List Char} {qs : List (String × String)} (h : Asks text qs) :
    scanAll text.length text = RC.wordsOf qs ∧ Tools.CountLinesInFile text = qs.length := by
  refine ⟨?_, by rw [Tools.C43_count_lines_partial text h.short, h.lines]⟩
  rw [scanAll_eq _ _ (words_le text), h.words]
  unfold RC.wordsOf
  rw [List.map_flatMap]
  congr 1
  funext q
  simp

/-- The ratings have values among `0 … K-1`. -/
theorem ratings_ok {K : ℕ} {strtod : String → Option ℚ} {files : String → Option (List Char)} {o q : String} {ro rq : List Char}
    {ls : List (String × String × ℚ)} {qs : List (String × String)} (ho : files o = some ro)
    (hs : List.Forall₂ (GR.LineSays true strtod) (GR.fileFields ro) ls) (hr : RC.RatedFile K ls) (hq : files q = some rq) (ha : Asks rq qs)
    (hne : ls ≠ [] ∨ qs ≠ []) : ∃ b d r, loadBi files true strtod o = .ok b ∧ readQueries files q b = .ok (d, r) ∧ d.bi.OK ∧ d.bi.Rated K ∧
      0 < d.bi.n1 ∧ 0 < d.bi.n2 ∧ r.map (fun q => (d.label1 q.1, d.label2 q.2)) = qs ∧ (∀ q ∈ r, q.1 < d.bi.n1 ∧ q.2 < d.bi.n2) ∧
      ∀ c, RC.Unqueried d.bi c r → Told c d.label1 d.label2 ls qs := by
  obtain ⟨b, d, r, hb, hr, hd, hrated, p1, p2, hl1, hl2, hlink, hlab, hrange⟩ := RC.files_ok hs hr qs
    (fun q hq => by simpa [GR.fits] using ha.fit q hq) hne
  refine ⟨b, d, r, ?_, ?_, hd, hrated, p1, p2, hlab, hrange, ?_⟩
  · unfold loadBi
    simp only [ho, hb]
  · unfold readQueries
    simp only [hq, (asked ha).1, (asked ha).2, hr, Res.ofOption_some]
  · rintro c ⟨hc, e1, e2, hn⟩
    have hn1 : d.labels1.Nodup := by rw [hl1]; exact RC.nodup_firstOf _
    have hn2 : d.labels2.Nodup := by rw [hl2]; exact RC.nodup_firstOf _
    refine ⟨by rw [e1]; exact hl1, by rw [e2]; exact hl2, ?_⟩
    intro i hi j hj w
    rw [e1] at hi
    rw [e2] at hj
    rw [hn, List.mem_filter, hlink i j hi hj w, told_eq]
    simp only [decide_eq_true_eq]
    refine and_congr_right fun _ => not_congr ?_
    rw [← hlab]
    constructor
    · intro h
      exact List.mem_map.2 ⟨(i, j), h, rfl⟩
    · intro h
      obtain ⟨⟨i', j'⟩, h, e⟩ := List.mem_map.1 h
      obtain ⟨hi', hj'⟩ := hrange _ h
      obtain ⟨e1, e2⟩ := Prod.mk.inj e
      rw [← inj_of_nodup hn1 hi' hi e1, ← inj_of_nodup hn2 hj' hj e2]
      exact h

/-! ## The recommenders -/

section
variable {strtod : String → Option ℚ} {atoi : String → Int} {files : String → Option (List Char)} {o q : String} {ro rq : List Char}
    {ls : List (String × String × ℚ)} {qs : List (String × String)} (ho : files o = some ro)
    (hs : List.Forall₂ (GR.LineSays true strtod) (GR.fileFields ro) ls) (hq : files q = some rq) (ha : Asks rq qs)
    (hne : ls ≠ [] ∨ qs ≠ []) {mi1 mi2 : RC.View → RC.View → ℝ} {solver : WU.Solver}
    (acc : ℝ → ℚ → Bool) (fuel : ℕ) (x : String) (rest : List String)
include ho hs hq ha hne

/-- **C159** Full statement: `multi_recommend_2` always ends with the output below. It need not end (`C159_never_ends_2`, see C132). What holds for
well-formed files with ratings 0 and 1, if the solver for the waiting time is moderate: the program is never undefined; when it ends, it has
printed the queries in their order, each with a number strictly between 0 and 1, the average over 10000 divisions of persons and things of the
fraction `(n₁ + 1) / (n + 2)`, the ratings of the pairs in queries not being used. -/
theorem C159_multi_recommend_2_partial (hr : ∀ l ∈ ls, l.2.2 = 0 ∨ l.2.2 = 1) (hM : WU.Moderate solver) (t : Tape) :
    (multi_recommend_2 mi1 mi2 solver acc fuel strtod files (o :: q :: x :: rest) t).Holds fun r => ∃ v, Forecasts ls qs 2 v ∧
      r = some (qs.map fun q => (q.1, q.2, some (v 1 q.1 q.2))) := by
  obtain ⟨b, d, r, e1, e2, hd, hrated, p1, p2, hlab, hrange, hT⟩ := ratings_ok (K := 2) ho hs (fun l hl => by
    rcases hr l hl with h | h
    · exact ⟨0, by norm_num, by rw [h]; norm_num⟩
    · exact ⟨1, by norm_num, by rw [h]; norm_num⟩) hq ha hne
  unfold multi_recommend_2
  simp only [e1, e2, Res.bind_ok]
  rcases WU.C134_recommend_two (mi1 := mi1) (mi2 := mi2) hM acc d.bi r 10000 0 true fuel t with h | ⟨warm, dd, h⟩
  · rw [h]; trivial
  · rw [h]
    refine (RC.C50_score2 hd hrated p1 p2 acc r (by norm_num) warm dd true fuel t).bind ?_
    rintro score ⟨c, hc, S, hS, hA, hsc⟩
    obtain ⟨v, hv, hm⟩ := (hT c hc).forecasts (K := 2) (by norm_num) hS hA
    refine ⟨v, hv, ?_⟩
    rw [← hlab, List.map_map]
    congr 1
    refine List.map_congr_left ?_
    rintro ⟨i, j⟩ hq
    obtain ⟨hi, hj⟩ := hrange _ hq
    obtain ⟨y, hy, e, _⟩ := hsc (i, j) hi hj
    simp only [Function.comp]
    rw [hy, e, hm 1 i j (by rw [hc.2.1]; exact hi) (by rw [hc.2.2.1]; exact hj)]

/-- **C159** The same for `multi_recommend_k`, with the number `K` of ratings as first argument: the K numbers of every query are positive and
add up to 1. -/
theorem C159_multi_recommend_k_partial {kw : String} {K : ℕ} (hk : atoi kw = K) (hK : 0 < K) (hr : ∀ l ∈ ls, ∃ k < K, l.2.2 = ((k : ℕ) : ℚ))
    (hM : WU.Moderate solver) (t : Tape) :
    (multi_recommend_k mi1 mi2 solver acc fuel strtod atoi files (kw :: o :: q :: x :: rest) t).Holds fun r => ∃ v, Forecasts ls qs K v ∧
      r = some (forecastLines qs K v) := by
  obtain ⟨b, d, r, e1, e2, hd, hrated, p1, p2, hlab, hrange, hT⟩ := ratings_ok (K := K) ho hs hr hq ha hne
  unfold multi_recommend_k
  simp only [e1, e2, Res.bind_ok, hk, Nat.cast_pos, hK, if_true, Res.ofOption_some, Int.toNat_natCast]
  rcases WU.C134_recommend_many (mi1 := mi1) (mi2 := mi2) hM acc d.bi K r 10000 0 fuel t with h | ⟨warm, dd, h⟩
  · rw [h]; trivial
  · rw [h]
    refine (RC.C50_means hd hrated hK p1 p2 acc r (by norm_num) warm dd fuel t).bind ?_
    rintro score ⟨c, hc, S, hS, hA, hsc⟩
    obtain ⟨v, hv, hm⟩ := (hT c hc).forecasts hK hS hA
    refine ⟨v, hv, ?_⟩
    unfold forecastLines
    rw [← hlab, List.map_map]
    congr 1
    refine List.map_congr_left ?_
    rintro ⟨i, j⟩ hq
    obtain ⟨hi, hj⟩ := hrange _ hq
    simp only [Function.comp, Prod.mk.injEq, true_and]
    refine List.map_congr_left ?_
    intro k hk
    rw [hsc k (List.mem_range.1 hk) (i, j) hi hj, hm k i j (by rw [hc.2.1]; exact hi) (by rw [hc.2.2.1]; exact hj)]

omit ho hs hq ha hne in
theorem calls_iter {σ : Type} (step : σ → Res σ) : ∀ (fs : List ℕ) (s : σ), WU.calls (fun _ => step) fs s = GP.iter step fs.length s
  | [], s => rfl
  | f :: fs, s => by simp only [List.length_cons, GP.iter, WU.calls, calls_iter step fs]

omit ho hs hq ha hne in
/-- **C134** (heat-bath recommender). -/
theorem C134_gibbs_recommend (b : Bi) (K : ℕ) (r : List (ℕ × ℕ)) (nIter : ℕ) (t : Tape) :
    GibbsMultiLinkScoreKState fuel b K r nIter t = .starved ∨
      ∃ warm, GibbsMultiLinkScoreKState fuel b K r nIter t = RC.GibbsMultiLinkScoreKState b K r nIter warm fuel t := by
  unfold GibbsMultiLinkScoreKState RC.GibbsMultiLinkScoreKState
  cases Res.ofOption (RC.clean b r) with
  | starved => exact Or.inl rfl
  | ub => exact Or.inr ⟨0, rfl⟩
  | ok c =>
    simp only [Res.bind_ok]
    cases Res.ofOption (RC.HKState c K (RC.ownGroups c.n1) (RC.ownGroups c.n2)) with
    | starved => exact Or.inl rfl
    | ub => exact Or.inr ⟨0, rfl⟩
    | ok H =>
      simp only [Res.bind_ok]
      have h := WU.therm_follows (step := fun _ => RC.GibbsStepKState c K) .strict (fun s => s.H) 0 fuel (10 ^ 10) (1 / 10 ^ 10) 0
        (RC.startView c (RC.ownGroups c.n1) (RC.ownGroups c.n2) H t)
      unfold WU.Thermalize
      cases e : WU.thermLoop .strict (fun _ => RC.GibbsStepKState c K) (fun s => s.H) 0 fuel (10 ^ 10) (1 / 10 ^ 10) 0
          (RC.startView c (RC.ownGroups c.n1) (RC.ownGroups c.n2) H t) with
      | starved => exact Or.inl rfl
      | ub =>
        rw [e] at h
        rcases h with ⟨_, _, _, h, _⟩ | h | ⟨_, fs, h⟩
        · cases h
        · cases h
        · exact Or.inr ⟨fs.length, by rw [← calls_iter, h]⟩
      | ok s2 =>
        rw [e] at h
        rcases h with ⟨_, _, fs, h, _, hc⟩ | h | ⟨h, _⟩
        · cases h
          exact Or.inr ⟨fs.length, by rw [← calls_iter, hc]⟩
        · cases h
        · cases h

/-- **C159** The same for `multi_recommend_k_gibbs`, if no random number is 0. -/
theorem C159_gibbs_partial {kw : String} {K : ℕ} (hk : atoi kw = K) (hK : 0 < K) (hr : ∀ l ∈ ls, ∃ k < K, l.2.2 = ((k : ℕ) : ℚ))
    {t : Tape} (ht : RC.NonZero t) :
    (multi_recommend_k_gibbs fuel strtod atoi files (kw :: o :: q :: x :: rest) t).Holds fun r => ∃ v, Forecasts ls qs K v ∧
      r = some (forecastLines qs K v) := by
  obtain ⟨b, d, r, e1, e2, hd, hrated, p1, p2, hlab, hrange, hT⟩ := ratings_ok (K := K) ho hs hr hq ha hne
  unfold multi_recommend_k_gibbs
  simp only [e1, e2, Res.bind_ok, hk, Nat.cast_pos, hK, if_true, Res.ofOption_some, Int.toNat_natCast]
  rcases C134_gibbs_recommend fuel d.bi K r 10000 t with h | ⟨warm, h⟩
  · rw [h]; trivial
  · rw [h]
    refine (RC.C115_means_partial hd hrated hK r (by norm_num) warm fuel ht).bind ?_
    rintro score ⟨c, hc, S, hS, hA, hsc⟩
    obtain ⟨v, hv, hm⟩ := (hT c hc).forecasts hK hS hA
    refine ⟨v, hv, ?_⟩
    unfold forecastLines
    rw [← hlab, List.map_map]
    congr 1
    refine List.map_congr_left ?_
    rintro ⟨i, j⟩ hq
    obtain ⟨hi, hj⟩ := hrange _ hq
    simp only [Function.comp, Prod.mk.injEq, true_and]
    refine List.map_congr_left ?_
    intro k hk
    rw [hsc k (List.mem_range.1 hk) (i, j) hi hj, hm k i j (by rw [hc.2.1]; exact hi) (by rw [hc.2.2.1]; exact hj)]

end

theorem loadBi_ub {strtod : String → Option ℚ} {files : String → Option (List Char)} {o : String} (h : files o = none ∨
    (∃ text lines toks rest ls, files o = some text ∧ GR.fileFields text = lines ++ toks :: rest ∧
      List.Forall₂ (GR.LineSays true strtod) lines ls ∧ GR.LineBad true strtod toks)) : loadBi files true strtod o = .ub := by
  rcases h with h | ⟨text, lines, toks, rest, ls, h1, h2, h3, h4⟩
  · unfold loadBi; rw [h]
  · unfold loadBi; simp only [h1, h2, C90_bad_line true false strtod lines rest ls h3 toks h4]

/-- **C159** What the programs do otherwise: print the usage, or undefined behaviour for a missing argument, a file that cannot be opened, a
line that is not `person thing rating`, or a number of ratings less than 1. -/
theorem C159_crash (mi1 mi2 : RC.View → RC.View → ℝ) (solver : WU.Solver) (acc : ℝ → ℚ → Bool) (fuel : ℕ) (strtod : String → Option ℚ)
    (atoi : String → Int) (files : String → Option (List Char)) (k o q x : String) (rest : List String) (t : Tape) :
    (∀ argv : List String, argv.length < 2 → multi_recommend_2 mi1 mi2 solver acc fuel strtod files argv t = .ok none) ∧
    (∀ argv : List String, argv.length < 3 → multi_recommend_k mi1 mi2 solver acc fuel strtod atoi files argv t = .ok none ∧
      multi_recommend_k_gibbs fuel strtod atoi files argv t = .ok none) ∧
    multi_recommend_2 mi1 mi2 solver acc fuel strtod files [o, q] t = .ub ∧
    multi_recommend_k mi1 mi2 solver acc fuel strtod atoi files [k, o, q] t = .ub ∧
    multi_recommend_k_gibbs fuel strtod atoi files [k, o, q] t = .ub ∧
    (files o = none ∨ (∃ text lines toks rest ls, files o = some text ∧ GR.fileFields text = lines ++ toks :: rest ∧
        List.Forall₂ (GR.LineSays true strtod) lines ls ∧ GR.LineBad true strtod toks) →
      multi_recommend_2 mi1 mi2 solver acc fuel strtod files (o :: q :: x :: rest) t = .ub ∧
      multi_recommend_k mi1 mi2 solver acc fuel strtod atoi files (k :: o :: q :: x :: rest) t = .ub ∧
      multi_recommend_k_gibbs fuel strtod atoi files (k :: o :: q :: x :: rest) t = .ub) ∧
    (∀ ro ls, files o = some ro → List.Forall₂ (GR.LineSays true strtod) (GR.fileFields ro) ls → files q = none →
      multi_recommend_2 mi1 mi2 solver acc fuel strtod files (o :: q :: x :: rest) t = .ub ∧
      multi_recommend_k mi1 mi2 solver acc fuel strtod atoi files (k :: o :: q :: x :: rest) t = .ub ∧
      multi_recommend_k_gibbs fuel strtod atoi files (k :: o :: q :: x :: rest) t = .ub) ∧
    (atoi k < 1 → ∀ ro ls, files o = some ro → List.Forall₂ (GR.LineSays true strtod) (GR.fileFields ro) ls →
      multi_recommend_k mi1 mi2 solver acc fuel strtod atoi files (k :: o :: q :: x :: rest) t = .ub ∧
      multi_recommend_k_gibbs fuel strtod atoi files (k :: o :: q :: x :: rest) t = .ub) := by
  refine ⟨?_, ?_, rfl, rfl, rfl, ?_, ?_, ?_⟩
  · rintro (_ | ⟨a, _ | ⟨b, _⟩⟩) h
    · rfl
    · rfl
    · simp at h
  · rintro (_ | ⟨a, _ | ⟨b, _ | ⟨c, _⟩⟩⟩) h
    · exact ⟨rfl, rfl⟩
    · exact ⟨rfl, rfl⟩
    · exact ⟨rfl, rfl⟩
    · simp at h; omega
  · intro h
    have e : loadBi files true strtod o = .ub := loadBi_ub h
    unfold multi_recommend_2 multi_recommend_k multi_recommend_k_gibbs
    simp only [e, Res.bind_ub, and_self]
  · intro ro ls ho hs hq
    obtain ⟨b, e, -⟩ := loadBi_ok ho hs
    have e' : readQueries files q b = .ub := by unfold readQueries; rw [hq]
    unfold multi_recommend_2 multi_recommend_k multi_recommend_k_gibbs
    simp only [e, e', Res.bind_ok, Res.bind_ub, and_self]
  · intro hk ro ls ho hs
    obtain ⟨b, e, -⟩ := loadBi_ok ho hs
    unfold multi_recommend_k multi_recommend_k_gibbs
    cases e' : readQueries files q b with
    | ub => simp only [e, e', Res.bind_ok, Res.bind_ub, and_self]
    | starved =>
      unfold readQueries at e'
      cases h : files q with
      | none => rw [h] at e'; cases e'
      | some text =>
        rw [h] at e'
        dsimp only at e'
        cases h2 : RC.ReadQueries (scanAll text.length text) (Tools.CountLinesInFile text) b with
        | none => rw [h2] at e'; cases e'
        | some p => rw [h2] at e'; cases e'
    | ok p => simp only [e, e', Res.bind_ok, if_neg (show ¬ 0 < atoi k by omega), Res.ofOption_none, Res.bind_ub, and_self]

/-! ## conflict -/

/-- **C134** (src/conflict.c). -/
theorem C134_conflict {mi1 mi2 : RC.View → RC.View → ℝ} {solver : WU.Solver} (hM : WU.Moderate solver) (acc : ℝ → ℚ → Bool) (b : BP.Bi)
    (nIter decor : ℕ) (reset : Bool) (fuel : ℕ) (t : Tape) :
    AllLinkScore2State mi1 mi2 solver acc fuel b nIter decor reset t = .starved ∨
      ∃ warm decorStep, AllLinkScore2State mi1 mi2 solver acc fuel b nIter decor reset t =
        RC.AllLinkScore2State acc b nIter warm decorStep reset fuel t := by
  unfold AllLinkScore2State RC.AllLinkScore2State
  dsimp only
  cases Res.ofOption (RC.H2State b (RC.ownGroups b.n1) (RC.ownGroups b.n2)) with
  | starved => exact Or.inl rfl
  | ub => exact Or.inr ⟨[], 0, rfl⟩
  | ok H =>
    simp only [Res.bind_ok]
    unfold WU.warmup2
    rcases WU.warmup_cases (step := RC.MCStep2State acc b) .strict (fun s => s.H)
      (fun s => WU.given_or_estimated (fun s => WU.decor2_follows (mi1 := mi1) (mi2 := mi2) hM b.n1 b.n2 fuel s) decor s) fuel
      (RC.startView b (RC.ownGroups b.n1) (RC.ownGroups b.n2) H t) with h | ⟨d, fs, h⟩
    · left; rw [h]; rfl
    · right
      refine ⟨fs, d, ?_⟩
      rw [h, WU.bRun_warm _ _ _ fs]
      generalize WU.calls (RC.MCStep2State acc b) fs _ = r
      cases r <;> rfl

theorem allPairs_labels {c : Bi} {l1 l2 : ℕ → String} {ls : List (String × String × ℚ)} (T : Told c l1 l2 ls []) :
    (RC.allPairs c).map (fun q => (l1 q.1, l2 q.2)) = everyPair ls := by
  unfold everyPair RC.allPairs
  rw [← T.labels1, ← T.labels2]
  simp only [SProd.sprod, List.product, List.map_flatMap, List.flatMap_map, List.map_map]
  rfl

/-- **C160** Full statement: `conflict` always ends with the output below. It need not end (`C160_never_ends`). What holds for a file with ratings 0 and
1, if the solver for the waiting time is moderate and the number of pairs is at most 2147483647: the program is never undefined; when it ends, the
file of scores has one line for each pair of a person and a thing with different labels, those of the first person first, with a number strictly
between 0 and 1, the average over 10000 divisions of the fraction `(n₁ + 1) / (n + 2)`. -/
theorem C160_conflict_partial {strtod : String → Option ℚ} {files : String → Option (List Char)} {o : String} {ro : List Char}
    {ls : List (String × String × ℚ)} (ho : files o = some ro) (hs : List.Forall₂ (GR.LineSays true strtod) (GR.fileFields ro) ls)
    (hne : ls ≠ []) (hr : ∀ l ∈ ls, l.2.2 = 0 ∨ l.2.2 = 1) (hmax : (everyPair ls).length ≤ 2147483647)
    {mi1 mi2 : RC.View → RC.View → ℝ} {solver : WU.Solver} (hM : WU.Moderate solver) (acc : ℝ → ℚ → Bool) (fuel : ℕ) (x : String)
    (rest : List String) (t : Tape) :
    (conflict mi1 mi2 solver acc fuel strtod files (o :: x :: rest) t).Holds fun r => ∃ v, Forecasts ls [] 2 v ∧
      r = some (((everyPair ls).filter fun p => p.1 ≠ p.2).map fun p => (p.1, p.2, some (v 1 p.1 p.2))) := by
  obtain ⟨b, d, r, hb, hrq, hd, hrated, p1, p2, hl1, hl2, hlink, hlab, hrange⟩ := RC.files_ok (K := 2) hs (fun l hl => by
    rcases hr l hl with h | h
    · exact ⟨0, by norm_num, by rw [h]; norm_num⟩
    · exact ⟨1, by norm_num, by rw [h]; norm_num⟩) [] (by simp) (Or.inl hne)
  have hbd : b = d := by
    have : RC.ReadQueries (RC.wordsOf []) ([] : List (String × String)).length b = some (b, []) := rfl
    rw [this] at hrq
    exact (Prod.mk.inj (Option.some.inj hrq)).1
  subst hbd
  have T : Told b.bi b.label1 b.label2 ls [] := by
    refine ⟨hl1, hl2, fun i hi j hj w => ?_⟩
    rw [hlink i j hi hj w, told_eq]
    simp
  have hlen : (everyPair ls).length = b.bi.n1 * b.bi.n2 := by
    rw [← allPairs_labels T, List.length_map, RC.allPairs_length]
  unfold conflict
  have e : loadBi files true strtod o = .ok b := by unfold loadBi; simp only [ho, hb]
  rw [hlen] at hmax
  simp only [e, Res.bind_ok, if_pos hmax, Res.ofOption_some]
  rcases C134_conflict (mi1 := mi1) (mi2 := mi2) hM acc b.bi 10000 0 true fuel t with h | ⟨warm, dd, h⟩
  · rw [h]; trivial
  · rw [h]
    refine (RC.C116_scores hd hrated p1 p2 acc (by norm_num) warm dd true fuel t).bind ?_
    rintro r ⟨-, hp, S, hS, hA, hsc⟩
    obtain ⟨v, hv, hm⟩ := T.forecasts (K := 2) (by norm_num) hS hA
    refine ⟨v, hv, ?_⟩
    have hnd : (r.map (·.1)).Nodup := by rw [hp]; exact RC.allPairs_nodup _
    have hreq : r = (RC.allPairs b.bi).map fun q => (q, some (v 1 (b.label1 q.1) (b.label2 q.2))) := by
      rw [← hp, List.map_map]
      conv_lhs => rw [← List.map_id r]
      refine List.map_congr_left ?_
      rintro ⟨⟨i, j⟩, y⟩ hx
      have hx' : (i, j) ∈ RC.allPairs b.bi := by rw [← hp]; exact List.mem_map.2 ⟨_, hx, rfl⟩
      obtain ⟨hi, hj⟩ := RC.allPairs_mem.1 hx'
      obtain ⟨z, hz, ez, _⟩ := hsc i hi j hj
      have hz := List.mem_of_getElem? hz
      have := List.inj_on_of_nodup_map hnd hx hz rfl
      simp only [id, Function.comp]
      rw [this, ez, hm 1 i j hi hj]
    unfold RC.conflictLines
    rw [← allPairs_labels T, hreq]
    simp only [List.filter_map, List.map_map]
    rfl

/-- **C160** What the program does otherwise. -/
theorem C160_crash (mi1 mi2 : RC.View → RC.View → ℝ) (solver : WU.Solver) (acc : ℝ → ℚ → Bool) (fuel : ℕ) (strtod : String → Option ℚ)
    (files : String → Option (List Char)) (o x : String) (rest : List String) (t : Tape) :
    (∀ argv : List String, argv.length < 2 → conflict mi1 mi2 solver acc fuel strtod files argv t = .ok none) ∧
    (files o = none ∨ (∃ text lines toks rest ls, files o = some text ∧ GR.fileFields text = lines ++ toks :: rest ∧
        List.Forall₂ (GR.LineSays true strtod) lines ls ∧ GR.LineBad true strtod toks) →
      conflict mi1 mi2 solver acc fuel strtod files (o :: x :: rest) t = .ub) ∧
    (∀ ro ls, files o = some ro → List.Forall₂ (GR.LineSays true strtod) (GR.fileFields ro) ls → 2147483647 < (everyPair ls).length →
      conflict mi1 mi2 solver acc fuel strtod files (o :: x :: rest) t = .ub) := by
  refine ⟨?_, ?_, ?_⟩
  · rintro (_ | ⟨a, _ | ⟨b, _⟩⟩) h
    · rfl
    · rfl
    · simp at h
  · intro h
    have e : loadBi files true strtod o = .ub := loadBi_ub h
    unfold conflict
    simp only [e, Res.bind_ub]
  · intro ro ls ho hs hlen
    obtain ⟨b, hb, -, hb1, hb2, -⟩ := C90_build true false strtod _ ls hs
    have e : loadBi files true strtod o = .ok b := by unfold loadBi; simp only [ho, hb]
    have h1 : (persons ls []).length = b.bi.n1 := by
      have : persons ls [] = b.labels1 := by rw [hb1]; unfold persons; rw [List.map_nil, List.append_nil]; rfl
      rw [this]; simp [LBi.labels1]
    have h2 : (things ls []).length = b.bi.n2 := by
      have : things ls [] = b.labels2 := by rw [hb2]; unfold things; rw [List.map_nil, List.append_nil]; rfl
      rw [this]; simp [LBi.labels2]
    have : ¬ b.bi.n1 * b.bi.n2 ≤ 2147483647 := by
      unfold everyPair at hlen
      rw [List.length_product, h1, h2] at hlen
      omega
    unfold conflict
    simp only [e, Res.bind_ok, if_neg this, Res.ofOption_none, Res.bind_ub]

/-! ## Non-vacuity -/

/-- Files: ratings of three pairs, one query of a pair with a rating and one with a person and a thing without ratings. -/
def movieFiles (name : String) : Option (List Char) :=
  if name = "R" then some "ann up 1\nann jaws 0\nbob up 1\n".toList
  else if name = "Q" then some "ann up\nzoe alien\n".toList
  else if name = "bad" then some "ann up 1\nann up\n".toList
  else none

theorem saysM : List.Forall₂ (GR.LineSays true RC.digit) (GR.fileFields "ann up 1\nann jaws 0\nbob up 1\n".toList)
    [("ann", "up", 1), ("ann", "jaws", 0), ("bob", "up", 1)] := by
  have e : GR.fileFields "ann up 1\nann jaws 0\nbob up 1\n".toList = [["ann", "up", "1"], ["ann", "jaws", "0"], ["bob", "up", "1"]] := by
    decide +kernel
  rw [e]
  refine .cons ⟨by decide +kernel, by decide +kernel, "1", [], rfl, ?_⟩ (.cons ⟨by decide +kernel, by decide +kernel, "0", [], rfl, ?_⟩
    (.cons ⟨by decide +kernel, by decide +kernel, "1", [], rfl, ?_⟩ .nil)) <;> simp [RC.digit]

theorem asksM : Asks "ann up\nzoe alien\n".toList [("ann", "up"), ("zoe", "alien")] := by
  refine ⟨by decide +kernel, by decide +kernel, ?_, by decide +kernel⟩
  intro a b c e _
  have h := congrArg List.length e
  have h2 : "ann up\nzoe alien\n".toList.length = 17 := by decide +kernel
  rw [h2] at h
  simp only [List.length_append] at h
  omega

example {solver : WU.Solver} (hM : WU.Moderate solver) (t : Tape) := C159_multi_recommend_2_partial (files := movieFiles) (o := "R") (q := "Q")
  (mi1 := fun _ _ => 0) (mi2 := fun _ _ => 0) rfl saysM rfl asksM (Or.inl (by simp)) (fun _ _ => true) 9 "1" [] (by simp) hM t

theorem ratesM : ∀ l ∈ [("ann", "up", (1 : ℚ)), ("ann", "jaws", 0), ("bob", "up", 1)], ∃ k < 3, l.2.2 = ((k : ℕ) : ℚ) := by
  intro l hl
  simp only [List.mem_cons, List.not_mem_nil, or_false] at hl
  rcases hl with rfl | rfl | rfl
  exacts [⟨1, by decide, by norm_num⟩, ⟨0, by decide, by norm_num⟩, ⟨1, by decide, by norm_num⟩]

example {solver : WU.Solver} (hM : WU.Moderate solver) (t : Tape) := C159_multi_recommend_k_partial (files := movieFiles) (o := "R") (q := "Q")
  (atoi := fun _ => 3) (kw := "3") (K := 3) (mi1 := fun _ _ => 0) (mi2 := fun _ _ => 0) rfl saysM rfl asksM (Or.inl (by simp)) (fun _ _ => true) 9
  "1" [] rfl (by decide) ratesM hM t

example {t : Tape} (ht : RC.NonZero t) := C159_gibbs_partial (files := movieFiles) (o := "R") (q := "Q")
  (atoi := fun _ => 3) (kw := "3") (K := 3) rfl saysM rfl asksM (Or.inl (by simp)) 9 "1" [] rfl (by decide) ratesM ht

/-- The people and the things, with those of the queries at the end. -/
example : persons [("ann", "up", 1), ("ann", "jaws", 0), ("bob", "up", 1)] [("ann", "up"), ("zoe", "alien")] = ["ann", "bob", "zoe"] ∧
    things [("ann", "up", 1), ("ann", "jaws", 0), ("bob", "up", 1)] [("ann", "up"), ("zoe", "alien")] = ["up", "jaws", "alien"] := by
  decide +kernel

/-- One group of each kind: the rating of the first query does not count, so there are one 1 and one 0 left. -/
example : forecast [("ann", "up", 1), ("ann", "jaws", 0), ("bob", "up", 1)] [("ann", "up"), ("zoe", "alien")] 3 (fun _ => 0, fun _ => 0) 1
    "zoe" "alien" = 2 / 5 := by
  decide +kernel

example : everyPair [("ann", "up", 1), ("ann", "jaws", 0), ("up", "up", 1)] = [("ann", "up"), ("ann", "jaws"), ("up", "up"), ("up", "jaws")] := by
  decide +kernel

example {solver : WU.Solver} (hM : WU.Moderate solver) (t : Tape) := C160_conflict_partial (files := movieFiles) (o := "R")
  (mi1 := fun _ _ => 0) (mi2 := fun _ _ => 0) rfl saysM (by simp) (by simp) (by decide +kernel) hM (fun _ _ => true) 9 "1" [] t

example (mi : RC.View → RC.View → ℝ) (solver : WU.Solver) (t : Tape) :
    conflict mi mi solver (fun _ _ => true) 9 RC.digit movieFiles ["bad", "1"] t = .ub := by
  have e : GR.fileFields "ann up 1\nann up\n".toList = [["ann", "up", "1"], ["ann", "up"]] := by decide +kernel
  exact (C160_crash mi mi solver _ 9 RC.digit movieFiles "bad" "1" [] t).2.1 (Or.inr ⟨_, [["ann", "up", "1"]], ["ann", "up"], [],
    [("ann", "up", 1)], rfl, e, .cons ⟨by decide +kernel, by decide +kernel, "1", [], rfl, by simp [RC.digit]⟩ .nil, by decide +kernel, Or.inl (by decide)⟩)

example (mi : RC.View → RC.View → ℝ) (solver : WU.Solver) (t : Tape) :
    multi_recommend_2 mi mi solver (fun _ _ => true) 9 RC.digit movieFiles ["R", "Q"] t = .ub :=
  (C159_crash mi mi solver _ 9 RC.digit (fun _ => 0) movieFiles "0" "R" "Q" "1" [] t).2.2.1

end PG
