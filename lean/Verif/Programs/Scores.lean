import Verif.Programs.Counts
import Verif.Warm.Refine
import Verif.Block.SparseProps
import Verif.Utils.Count

/-!
# C150 to C153: the programs that score links
-/

set_option linter.unusedSimpArgs false
set_option linter.unusedSectionVars false

namespace PG

open UT RG
open LS (Safe)

/-! ## From samples to divisions of the labels -/

section
variable {ps : List (String × String)} {net : GR.Net} (L : Loaded ps net)
include L

/-- A sampled state and a division of the labels that say the same. -/
def Same (net : GR.Net) (s : LS.St) (F : String → ℕ) : Prop := ∀ i < net.n, s.part.inGroup i = some (F (net.label i))

theorem divisions : ∀ (tr : List LS.St), (∀ s ∈ tr, GP.PartOK (toNet net) (toNet net).n s.part ∧ GP.Full (toNet net) s.part) →
    ∃ Fs, List.Forall₂ (Same net) tr Fs ∧ ∀ F ∈ Fs, ∀ a ∈ names ps, F a < (names ps).length
  | [], _ => ⟨[], .nil, by simp⟩
  | s :: tr, h => by
    obtain ⟨Fs, h1, h2⟩ := divisions tr fun s hs => h s (by simp [hs])
    obtain ⟨hp, hf⟩ := h s (by simp)
    obtain ⟨F, hF⟩ := division L (f := s.part.inGroup) (fun v hv => hf v hv)
    refine ⟨F :: Fs, .cons hF h1, ?_⟩
    intro F' hF' a ha
    rcases List.mem_cons.1 hF' with rfl | hF'
    · obtain ⟨i, hi, rfl⟩ := L.node_of ha
      have := (hp.range i _ (hF i hi)).2
      rw [← L.len]
      exact this
    · exact h2 F' hF' a ha

theorem sums {R : Type} [AddCommMonoid R] {A : LS.St → R} {B : (String → ℕ) → R} (h : ∀ s F, Same net s F → A s = B F) :
    ∀ {tr : List LS.St} {Fs : List (String → ℕ)}, List.Forall₂ (Same net) tr Fs → (tr.map A).sum = (Fs.map B).sum
  | _, _, .nil => rfl
  | _, _, .cons h1 h2 => by
    rw [List.map_cons, List.map_cons, List.sum_cons, List.sum_cons, h _ _ h1, sums h h2]

theorem score_eq {s : LS.St} {F : String → ℕ} (h : Same net s F) {i j : ℕ} (hi : i < net.n) (hj : j < net.n) :
    LS.score (toNet net) s.part.inGroup i j = reliability ps F (net.label i) (net.label j) := by
  unfold LS.score reliability seen
  rw [h i hi, h j hj]
  dsimp only
  rw [links_eq L h, pairs_eq L h]
  push_cast
  rfl

theorem predict_eq (K : ℕ → ℕ → ℝ) {s : LS.St} {F : String → ℕ} (h : Same net s F) {i j : ℕ} (hi : i < net.n) (hj : j < net.n) :
    BK.score (BK.predict K) (toNet net) s.part.inGroup i j = chance K ps F (net.label i) (net.label j) := by
  unfold BK.score BK.predict chance seen
  rw [h i hi, h j hj]
  dsimp only
  rw [links_eq L h, pairs_eq L h]
  simp only [Int.toNat_natCast]

/-- A matrix of averages over samples gives averages over divisions. -/
theorem averaged {R : Type} [Field R] [LinearOrder R] {M : ℕ → ℕ → R} {tr : List LS.St} {A : LS.St → ℕ → ℕ → R}
    {val : (String → ℕ) → String → String → R}
    (hl : tr.length = 10000) (hok : ∀ s ∈ tr, GP.PartOK (toNet net) (toNet net).n s.part ∧ GP.Full (toNet net) s.part)
    (hA : ∀ s F, Same net s F → ∀ i < net.n, ∀ j < net.n, A s i j = val F (net.label i) (net.label j))
    (hM : ∀ i < net.n, ∀ j < net.n, i ≠ j → M i j = (tr.map fun s => A s i j).sum / ((10000 : ℕ) : R))
    (hb : ∀ i < net.n, ∀ j < net.n, i ≠ j → 0 < M i j ∧ M i j < 1) :
    ∃ v, Averaged ps val v ∧ ∀ i < net.n, ∀ j < net.n, i ≠ j → M i j = v (net.label i) (net.label j) := by
  obtain ⟨Fs, h1, h2⟩ := divisions L tr hok
  have key : ∀ i < net.n, ∀ j < net.n, i ≠ j → M i j = average Fs fun F => val F (net.label i) (net.label j) := by
    intro i hi j hj hij
    rw [hM i hi j hj hij, sums L (B := fun F => val F (net.label i) (net.label j)) (fun s F h => hA s F h i hi j hj) h1]
    unfold average
    norm_num
  refine ⟨fun a b => average Fs fun F => val F a b, ⟨⟨Fs, ⟨?_, h2⟩, fun a b => rfl⟩, ?_⟩, key⟩
  · rw [← h1.length_eq, hl]
  · intro p hp
    rw [ordered_eq L] at hp
    obtain ⟨q, hq, rfl⟩ := List.mem_map.1 hp
    have h3 := pairsOf_mem hq
    have h4 : q.1 ≠ q.2 := by
      rw [pairsOf_eq List.nodup_range] at hq
      intro e
      simp [e] at hq
    have := hb _ (List.mem_range.1 h3.1) _ (List.mem_range.1 h3.2) h4
    rw [key _ (List.mem_range.1 h3.1) _ (List.mem_range.1 h3.2) h4] at this
    exact this

theorem averaged_scores {linC : ℝ} {M : ℕ → ℕ → ℚ} {tr : List LS.St} (h : LS.ScoresOK (toNet net) linC 10000 M tr) :
    ∃ v, Averaged ps (reliability ps) v ∧ ∀ i < net.n, ∀ j < net.n, i ≠ j → M i j = v (net.label i) (net.label j) :=
  averaged L (A := fun s i j => LS.score (toNet net) s.part.inGroup i j) h.sampled
    (fun s hs => ⟨(h.exact_states s hs).part, (h.exact_states s hs).full⟩)
    (fun _ _ hs _ hi _ hj => score_eq L hs hi hj) (fun i hi j hj hij => h.average i hi j hj hij) (fun i hi j hj hij => h.bounds i hi j hj hij)

theorem averaged_predict {linC c : ℝ} {K : ℕ → ℕ → ℝ} {E : Int → Int → ℝ} {D : ℕ → ℝ} {M : ℕ → ℕ → ℝ} {tr : List LS.St}
    (h : BK.ScoresOK E D (BK.predict K) (toNet net) linC c 10000 M tr) :
    ∃ v, Averaged ps (chance K ps) v ∧ ∀ i < net.n, ∀ j < net.n, i ≠ j → M i j = v (net.label i) (net.label j) :=
  averaged L (A := fun s i j => BK.score (BK.predict K) (toNet net) s.part.inGroup i j) h.sampled
    (fun s hs => ⟨(h.exact_states s hs).part, (h.exact_states s hs).full⟩)
    (fun _ _ hs _ hi _ hj => predict_eq L K hs hi hj) (fun i hi j hj hij => h.average i hi j hj hij)
    (fun i hi j hj hij => h.bounds i hi j hj hij)

theorem averaged_or {linC c : ℝ} {M : ℕ → ℕ → ℝ} {tr : List LS.St} (h : BK.OrOK (toNet net) linC c 10000 M tr) :
    ∃ v, Averaged ps (chance BK.likeOr ps) v ∧ ∀ i < net.n, ∀ j < net.n, i ≠ j → M i j = v (net.label i) (net.label j) :=
  averaged L (A := fun s i j => BK.score (BK.predict BK.likeOr) (toNet net) s.part.inGroup i j) h.sampled
    (fun s hs => ⟨(h.exact_states s hs).part, (h.exact_states s hs).full⟩)
    (fun _ _ hs _ hi _ hj => predict_eq L _ hs hi hj) (fun i hi j hj hij => h.average i hi j hj hij)
    (fun i hi j hj hij => h.bounds i hi j hj hij)

theorem some_nodes (h : ps ≠ []) : 0 < net.n := by
  rw [L.len, List.length_pos_iff]
  obtain ⟨p, hp⟩ := List.exists_mem_of_ne_nil _ h
  exact List.ne_nil_of_mem (mem_names.2 ⟨p, hp, Or.inl rfl⟩)

end

variable {files : String → Option (List Char)} {f : String} {text : List Char} {ps : List (String × String)}

/-! ## The programs that score by one block model -/

open Classical in
/-- **C150** Full statement: given a file with pairs of labels and a seed, `reliability_links` always finishes with files `missing.dat` and
`spurious.dat` as below. That is false: what it does depends on memory that was never set (C31, C38); and the waiting time is taken from a solver
that may fail or give huge values (C132). What holds when that memory is 0 and the solver is moderate: the program is never undefined; when it ends,
the two files list, in the order of the labels, the pairs that are not linked and the pairs that are, each pair once, with the average over 10000 divisions of the
nodes of `(l + 1) / (r + 2)`, `l` of the `r` pairs between the two groups being linked; all values are strictly between 0 and 1. -/
theorem C150_reliability_links_partial (hf : files f = some text) (hs : Says text ps) (hne : ps ≠ []) {mi : LS.St → LS.St → ℝ} {solver : WU.Solver}
    (hM : WU.Moderate solver) (acc : ℝ → ℚ → Bool) (fuel : ℕ) {scratch : ℕ → Int} (hz : ∀ g, scratch g = 0) (x : String) (rest : List String)
    (t : Tape) :
    (reliability_links mi solver acc fuel scratch files (f :: x :: rest) t).Holds fun r => ∃ v, Averaged ps (reliability ps) v ∧
      r = some (lines v ((ordered ps).filter fun p => ¬ (graph ps).Adj p.1 p.2), lines v ((ordered ps).filter fun p => (graph ps).Adj p.1 p.2)) := by
  obtain ⟨net, e, L⟩ := load_ok hf hs
  unfold reliability_links
  simp only [e, Res.bind_ok]
  refine (WU.C134_scores (toNet_simple L) (some_nodes L hne) hM acc 0 (by norm_num) fuel (fun g _ => hz g) t).bind ?_
  rintro ⟨M, tr⟩ h
  obtain ⟨v, h1, h2⟩ := averaged_scores L h
  exact ⟨v, h1, by rw [split_eq L h2]⟩

/-- **C150** Whatever `reliability_links_gibbs` prints is, for all pairs of labels in their order, the average over 10000 divisions of
`(l + 1) / (r + 2)`. -/
theorem C150_gibbs (hf : files f = some text) (hs : Says text ps) (fuel : ℕ) (scratch : ℕ → Int) (x : String) (rest : List String) (t : Tape) :
    Safe (fun r => ∃ v, Averaged ps (reliability ps) v ∧ r = some (lines v (ordered ps)))
      (reliability_links_gibbs fuel scratch files (f :: x :: rest) t) := by
  obtain ⟨net, e, L⟩ := load_ok hf hs
  unfold reliability_links_gibbs allScores
  simp only [e, Res.bind_ok]
  rcases WU.C134_gibbs (toNet net) 0 10000 fuel scratch t with h | ⟨warm, h⟩
  · rw [h]; trivial
  · rw [h]
    refine (LS.C31_gibbs_scores (toNet_simple L) 0 (by norm_num) warm scratch t).bind ?_
    rintro ⟨M, tr⟩ h
    obtain ⟨v, h1, h2⟩ := averaged_scores L h
    exact ⟨v, h1, by rw [lines_eq L h2]⟩

/-- **C150** All programs that score links crash when the seed is not given, when the file cannot be opened, and when a line has fewer than two
fields; without arguments they end at once. -/
theorem C150_crash {R : Type} (score : GP.Net → Tape → Res ((ℕ → ℕ → R) × List LS.St)) (score' : GP.Net → Tape → Res ((ℕ → ℕ → ℝ) × List LS.St))
    (suffix : String) (mi : LS.St → LS.St → ℝ) (solver : WU.Solver) (acc : ℝ → ℚ → Bool) (fuel : ℕ) (scratch : ℕ → Int) (t : Tape) :
    (reliability_links mi solver acc fuel scratch files [] t = .ok none ∧ allScores score files [] t = .ok none ∧
      scoreFile suffix score' files [] t = .ok none) ∧
    (∀ f, reliability_links mi solver acc fuel scratch files [f] t = .ub ∧ allScores score files [f] t = .ub ∧
      scoreFile suffix score' files [f] t = .ub) ∧
    ∀ f x rest, (files f = none ∨ ∃ text, files f = some text ∧ Malformed text) →
      reliability_links mi solver acc fuel scratch files (f :: x :: rest) t = .ub ∧ allScores score files (f :: x :: rest) t = .ub ∧
        scoreFile suffix score' files (f :: x :: rest) t = .ub := by
  refine ⟨⟨rfl, rfl, rfl⟩, fun f => ⟨rfl, rfl, rfl⟩, ?_⟩
  intro f x rest h
  have e : load files f = .ub := by
    rcases h with h | ⟨text, h1, h2⟩
    · exact load_missing h
    · exact load_malformed h1 h2
  unfold reliability_links allScores scoreFile
  simp only [e, Res.bind_ub, and_self]

/-! ## The sparse model -/

theorem edges_between (G : SimpleGraph String) : G.edgeSet.ncard = between G (fun _ => 0) 0 0 := by
  unfold between
  congr 1
  ext e
  simp only [Set.mem_sep_iff]
  constructor
  · intro h
    refine ⟨h, ?_⟩
    induction e with | _ a b => exact ⟨a, b, rfl, trivial, trivial⟩
  · exact fun h => h.1

theorem linked_eq {net : GR.Net} (L : Loaded ps net) : (BK.linked (toNet net)).card = (graph ps).edgeSet.ncard ∧
    (BK.nodePairs (toNet net).n).card = (allPairs ps).edgeSet.ncard := by
  have hF : ∀ i < net.n, (if i < net.n then some 0 else none : Option ℕ) = some 0 := fun i hi => if_pos hi
  have hblock : LS.block (toNet net) (fun v => if v < net.n then some 0 else none) 0 = Finset.range net.n := by
    ext v
    simp [LS.block, toNet]
  constructor
  · have h1 := links_eq L (F := fun _ => 0) (f := fun v => if v < net.n then some 0 else none) hF 0 0
    rw [← edges_between] at h1
    unfold LS.links at h1
    rw [hblock, if_pos rfl] at h1
    have h := toNet_simple L
    have h2 := BK.pairs_twice net.n (toNet net).a (fun i j => by unfold GP.Net.a; rw [h.sym]) (fun i => by simp [GP.Net.a, h.irrefl])
    have h3 : ∑ x ∈ BK.nodePairs net.n, (toNet net).a x.1 x.2 = (BK.linked (toNet net)).card := by
      unfold BK.linked
      rw [Finset.card_filter]
      push_cast
      apply Finset.sum_congr rfl
      intro x _
      unfold GP.Net.a
      split_ifs <;> simp_all
    omega
  · have h1 := pairs_eq L (F := fun _ => 0) (f := fun v => if v < net.n then some 0 else none) hF 0 0
    rw [← edges_between] at h1
    unfold LS.pairs at h1
    rw [hblock, if_pos rfl, Finset.card_range] at h1
    have h2 := BK.card_nodePairs net.n
    have h3 : ((net.n * (net.n - 1) : ℕ) : Int) = (net.n : Int) * (net.n - 1) := by
      rcases Nat.eq_zero_or_pos net.n with h | h
      · simp [h]
      · rw [Nat.cast_mul, Nat.cast_sub h]; rfl
    change (BK.nodePairs net.n).card = _
    omega

theorem seen_le (F : String → ℕ) (a b : String) : (seen ps F a b).2 ≤ (seen ps F a b).1 := by
  unfold seen between
  apply Set.ncard_le_ncard
  · rintro e ⟨he, a, b, rfl, h1, h2⟩
    rw [SimpleGraph.mem_edgeSet] at he
    refine ⟨?_, a, b, rfl, h1, h2⟩
    rw [SimpleGraph.mem_edgeSet]
    exact ⟨he.1, (adj_names he).1, (adj_names he).2⟩
  · apply Set.Finite.subset (s := ↑((names ps).toFinset.sym2))
    · exact Finset.finite_toSet _
    · rintro e ⟨he, -⟩
      induction e with | _ a b =>
      rw [SimpleGraph.mem_edgeSet] at he
      rw [Finset.mem_coe, Finset.mk_mem_sym2_iff, List.mem_toFinset, List.mem_toFinset]
      exact he.2

/-- **C151** Whatever `reliability_links_gibbs_sparse` prints, for a file in which some but not all pairs of labels are linked, is for all pairs of
labels the average over 10000 divisions of `(l + α) / (r + α + 1/2)`, where `α / (α + 1/2)` is the fraction of pairs that are linked. -/
theorem C151_sparse (hf : files f = some text) (hs : Says text ps) (h0 : 0 < (graph ps).edgeSet.ncard)
    (h1 : (graph ps).edgeSet.ncard < (allPairs ps).edgeSet.ncard) (warm : ℕ) (scratch : ℕ → Int) (x : String) (rest : List String) (t : Tape) :
    ∃ α : ℝ, 0 < α ∧ α / (α + 1 / 2) = (graph ps).edgeSet.ncard / (allPairs ps).edgeSet.ncard ∧
      Safe (fun r => ∃ v, Averaged ps (fun F a b => ((seen ps F a b).2 + α) / ((seen ps F a b).1 + α + 1 / 2)) v ∧ r = some (lines v (ordered ps)))
        (reliability_links_gibbs_sparse warm scratch files (f :: x :: rest) t) := by
  obtain ⟨net, e, L⟩ := load_ok hf hs
  have hc := linked_eq L
  obtain ⟨α, ha, hm, hS⟩ := BK.C69_scores (toNet_simple L) (Finset.card_pos.1 (by rw [hc.1]; exact h0)) (by rw [hc.1, hc.2]; exact h1)
    (show 0 < 10000 by norm_num) warm scratch t
  refine ⟨α, ha, ?_, ?_⟩
  · rw [hm]
    unfold BK.density
    rw [hc.1, hc.2]
  · unfold reliability_links_gibbs_sparse allScores
    simp only [e, Res.bind_ok]
    refine hS.bind ?_
    rintro ⟨M, tr⟩ h
    obtain ⟨v, h1, h2⟩ := averaged_predict L h
    refine ⟨v, ?_, by rw [lines_eq L h2]⟩
    obtain ⟨⟨Fs, hF, hv⟩, hb⟩ := h1
    refine ⟨⟨Fs, hF, fun a b => ?_⟩, hb⟩
    rw [hv a b]
    congr 1
    funext F
    exact (BK.C69_predict ha (by norm_num) (seen_le F a b)).1

/-- **C151** With no link, or with all pairs of labels linked, `reliability_links_gibbs_sparse` is undefined. -/
theorem C151_undefined (hf : files f = some text) (hs : Says text ps) (hne : ps ≠ [])
    (h : (graph ps).edgeSet.ncard = 0 ∨ (graph ps).edgeSet.ncard = (allPairs ps).edgeSet.ncard) (warm : ℕ) (scratch : ℕ → Int) (x : String)
    (rest : List String) (t : Tape) : reliability_links_gibbs_sparse warm scratch files (f :: x :: rest) t = .ub := by
  obtain ⟨net, e, L⟩ := load_ok hf hs
  have hc := linked_eq L
  unfold reliability_links_gibbs_sparse allScores
  simp only [e, Res.bind_ok]
  rw [BK.C70_undefined (toNet_simple L) (some_nodes L hne) (by rw [hc.1, hc.2]; exact h)]
  rfl

/-! ## Programs that write to a file -/

theorem scoreFile_safe {suffix : String} {score : GP.Net → Tape → Res ((ℕ → ℕ → ℝ) × List LS.St)} {net : GR.Net} (e : load files f = .ok net)
    (L : Loaded ps net) {val : (String → ℕ) → String → String → ℝ} {t : Tape}
    (h : Safe (fun r => ∃ v, Averaged ps val v ∧ ∀ i < net.n, ∀ j < net.n, i ≠ j → r.1 i j = v (net.label i) (net.label j)) (score (toNet net) t))
    (x : String) (rest : List String) :
    Safe (fun r => ∃ v, Averaged ps val v ∧ r = some (f ++ suffix, lines v (ordered ps))) (scoreFile suffix score files (f :: x :: rest) t) := by
  unfold scoreFile
  simp only [e, Res.bind_ok]
  refine h.bind ?_
  rintro ⟨M, tr⟩ ⟨v, h1, h2⟩
  dsimp only at h2 ⊢
  unfold outName
  split_ifs
  · simp only [Res.ofOption_some, Res.bind_ok, Res.pure_eq]
    exact ⟨v, h1, by rw [lines_eq L h2]⟩
  · trivial

theorem safe_mono {α : Type} {P Q : α → Prop} {x : Res α} (h : Safe P x) (hPQ : ∀ a, P a → Q a) : Safe Q x := by
  cases x with
  | ok a => exact hPQ a h
  | starved => trivial
  | ub => trivial

/-- **C152** Whatever `reliability_links_mb` and `reliability_links_mb_OR` write goes to the file with the suffix `.AND_scores` or `.OR_scores`, and
is, for all pairs of labels in their order, the average over 10000 divisions of the chance that one more pair of the two groups is linked, when a link is
seen if both (if one) of two layers has it. -/
theorem C152_multiblock (hf : files f = some text) (hs : Says text ps) (hne : ps ≠ []) {mi : LS.St → LS.St → ℝ} {solver : WU.Solver}
    (hM : WU.Moderate solver) (acc : ℝ → ℚ → Bool) (fuel : ℕ) (scratch : ℕ → Int) (x : String) (rest : List String) (t : Tape) :
    Safe (fun r => ∃ v, Averaged ps (chance BK.likeAnd ps) v ∧ r = some (f ++ ".AND_scores", lines v (ordered ps)))
      (reliability_links_mb mi solver acc fuel scratch files (f :: x :: rest) t) ∧
    Safe (fun r => ∃ v, Averaged ps (chance BK.likeOr ps) v ∧ r = some (f ++ ".OR_scores", lines v (ordered ps)))
      (reliability_links_mb_OR mi solver acc fuel scratch files (f :: x :: rest) t) := by
  obtain ⟨net, e, L⟩ := load_ok hf hs
  have hS := toNet_simple L
  have hn := some_nodes L hne
  constructor
  · apply scoreFile_safe e L
    rcases WU.C134_multiblock (mi := mi) hM (BK.AND (BK.codeTable (toNet net).n)) false acc (toNet net) 0 10000 fuel scratch t with h | ⟨warm, d, h⟩
    · rw [h]; trivial
    · rw [h]
      refine safe_mono (BK.C64_and_metropolis hS hn false acc 0 (by norm_num) warm d scratch t) ?_
      rintro r ⟨c, _, h⟩
      exact averaged_predict L h
  · apply scoreFile_safe e L
    rcases WU.C134_multiblock (mi := mi) hM (BK.OR (BK.codeTable (toNet net).n)) false acc (toNet net) 0 10000 fuel scratch t with h | ⟨warm, d, h⟩
    · rw [h]; trivial
    · rw [h]
      refine safe_mono (BK.C64_or_metropolis hS hn false acc 0 (by norm_num) warm d scratch t) ?_
      rintro r ⟨c, _, h⟩
      exact averaged_or L h

/-- **C152** The same for the programs with the Gibbs sampler. -/
theorem C152_multiblock_gibbs (hf : files f = some text) (hs : Says text ps) (warm : ℕ) (scratch : ℕ → Int) (x : String) (rest : List String)
    (t : Tape) :
    Safe (fun r => ∃ v, Averaged ps (chance BK.likeAnd ps) v ∧ r = some (f ++ ".AND_scores", lines v (ordered ps)))
      (reliability_links_mb_gibbs warm scratch files (f :: x :: rest) t) ∧
    Safe (fun r => ∃ v, Averaged ps (chance BK.likeOr ps) v ∧ r = some (f ++ ".OR_scores", lines v (ordered ps)))
      (reliability_links_mb_gibbs_OR warm scratch files (f :: x :: rest) t) := by
  obtain ⟨net, e, L⟩ := load_ok hf hs
  have hS := toNet_simple L
  constructor
  · apply scoreFile_safe e L
    refine safe_mono (BK.C64_and_gibbs hS 0 (by norm_num) warm scratch t) ?_
    intro r h
    exact averaged_predict L h
  · apply scoreFile_safe e L
    refine safe_mono (BK.C64_or_gibbs hS 0 (by norm_num) warm scratch t) ?_
    intro r h
    exact averaged_or L h

/-- **C152** A name of the input file that, with the suffix, has 200 bytes or more never gives a file: the buffer for the name of the output is too small. -/
theorem C152_long_name {suffix : String} (hl : 200 ≤ f.utf8ByteSize + suffix.utf8ByteSize)
    (score : GP.Net → Tape → Res ((ℕ → ℕ → ℝ) × List LS.St)) (x : String) (rest : List String) (t : Tape)
    (r : Option (String × List (ℝ × String × String))) : scoreFile suffix score files (f :: x :: rest) t ≠ .ok r := by
  unfold scoreFile
  dsimp only
  cases load files f with
  | starved => simp
  | ub => simp
  | ok net =>
    simp only [Res.bind_ok]
    cases score (toNet net) t with
    | starved => simp
    | ub => simp
    | ok a =>
      simp only [Res.bind_ok]
      unfold outName
      rw [if_neg (by omega)]
      simp [Res.ofOption]

/-- **C152** With one or two labels no run of `reliability_links_mb` or `reliability_links_mb_OR` gives a file; nor does any run in which as many draws
as there are labels are 0 at the beginning: the programs read outside the table of harmonic numbers. -/
theorem C152_no_file (hf : files f = some text) (hs : Says text ps) (hne : ps ≠ []) {mi : LS.St → LS.St → ℝ} {solver : WU.Solver}
    (hM : WU.Moderate solver) (acc : ℝ → ℚ → Bool) (fuel : ℕ) (scratch : ℕ → Int) (x : String) (rest : List String) (t : Tape)
    (h : (names ps).length < 3 ∨ ∃ t', t = List.replicate (names ps).length 0 ++ t') (r : Option (String × List (ℝ × String × String))) :
    reliability_links_mb mi solver acc fuel scratch files (f :: x :: rest) t ≠ .ok r ∧
      reliability_links_mb_OR mi solver acc fuel scratch files (f :: x :: rest) t ≠ .ok r := by
  obtain ⟨net, e, L⟩ := load_ok hf hs
  have hS := toNet_simple L
  have hn := some_nodes L hne
  rw [← L.len] at h
  have key : ∀ warm d r,
      BK.LinkScoreMB (BK.AND (BK.codeTable (toNet net).n)) false acc (toNet net) 0 10000 warm d scratch t ≠ .ok r ∧
      BK.LinkScoreMB (BK.OR (BK.codeTable (toNet net).n)) false acc (toNet net) 0 10000 warm d scratch t ≠ .ok r := by
    intro warm d r
    rcases h with h | ⟨t', rfl⟩
    · exact BK.C65_small hS hn h false acc 0 10000 warm d scratch t r
    · have := BK.C65_undefined hS hn false acc 0 10000 warm d scratch t'
      rw [show (toNet net).n = net.n from rfl] at this ⊢
      rw [this.1, this.2]
      simp
  unfold reliability_links_mb reliability_links_mb_OR scoreFile
  simp only [e, Res.bind_ok]
  constructor
  · rcases WU.C134_multiblock (mi := mi) hM (BK.AND (BK.codeTable (toNet net).n)) false acc (toNet net) 0 10000 fuel scratch t with h | ⟨warm, d, h⟩
    · rw [h]; simp
    · rw [h]
      cases hr : BK.LinkScoreMB (BK.AND (BK.codeTable (toNet net).n)) false acc (toNet net) 0 10000 warm d scratch t with
      | ok a => exact absurd hr (key warm d a).1
      | starved => simp
      | ub => simp
  · rcases WU.C134_multiblock (mi := mi) hM (BK.OR (BK.codeTable (toNet net).n)) false acc (toNet net) 0 10000 fuel scratch t with h | ⟨warm, d, h⟩
    · rw [h]; simp [BK.orFinal]
    · rw [h]
      cases hr : BK.LinkScoreMB (BK.OR (BK.codeTable (toNet net).n)) false acc (toNet net) 0 10000 warm d scratch t with
      | ok a => exact absurd hr (key warm d a).2
      | starved => simp [BK.orFinal]
      | ub => simp [BK.orFinal]

/-- **C153** `only_degeneration_mb` is never undefined for names of files short enough; it writes, for all pairs of labels in their order, the average
over 10000 divisions of the chance of one more link. -/
theorem C153_only_degeneration (hf : files f = some text) (hs : Says text ps) (hne : ps ≠ []) (hl : f.utf8ByteSize < 193) {mi : LS.St → LS.St → ℝ}
    {solver : WU.Solver} (hM : WU.Moderate solver) (acc : ℝ → ℚ → Bool) (fuel : ℕ) (scratch : ℕ → Int) (x : String) (rest : List String) (t : Tape) :
    (only_degeneration_mb mi solver acc fuel scratch files (f :: x :: rest) t).Holds fun r =>
      ∃ v, Averaged ps (chance BK.like1 ps) v ∧ r = some (f ++ ".scores", lines v (ordered ps)) := by
  obtain ⟨net, e, L⟩ := load_ok hf hs
  have hS := toNet_simple L
  have hn := some_nodes L hne
  unfold only_degeneration_mb scoreFile
  simp only [e, Res.bind_ok]
  rcases WU.C134_multiblock (mi := mi) hM BK.OD false acc (toNet net) 0 10000 fuel scratch t with h | ⟨warm, d, h⟩
  · rw [h]; trivial
  · rw [h]
    refine (BK.C68_metropolis hS hn false acc 0 (by norm_num) warm d scratch t).bind ?_
    rintro ⟨M, tr⟩ ⟨c, _, h⟩
    obtain ⟨v, h1, h2⟩ := averaged_predict L h
    have hsz : (".scores" : String).utf8ByteSize = 7 := by decide
    unfold outName
    rw [if_pos (by omega)]
    simp only [Res.ofOption_some, Res.bind_ok, Res.pure_eq]
    exact ⟨v, h1, by rw [lines_eq L h2]⟩

/-- **C153** The same for whatever `only_degeneration_mb_gibbs` writes. -/
theorem C153_gibbs (hf : files f = some text) (hs : Says text ps) (warm : ℕ) (scratch : ℕ → Int) (x : String) (rest : List String) (t : Tape) :
    Safe (fun r => ∃ v, Averaged ps (chance BK.like1 ps) v ∧ r = some (f ++ ".scores", lines v (ordered ps)))
      (only_degeneration_mb_gibbs warm scratch files (f :: x :: rest) t) := by
  obtain ⟨net, e, L⟩ := load_ok hf hs
  apply scoreFile_safe e L
  refine safe_mono (BK.C68_gibbs_partial (toNet_simple L) 0 (by norm_num) warm scratch t) ?_
  intro r h
  exact averaged_predict L h

/-- **C153** The chance of the one-layer model is the reliability. -/
theorem C153_same (F : String → ℕ) (a b : String) : chance BK.like1 ps F a b = reliability ps F a b := by
  have h := seen_le (ps := ps) F a b
  have := BK.predict_one (r := (seen ps F a b).1) (l := (seen ps F a b).2) (by omega) (by exact_mod_cast h)
  unfold BK.predict at this
  rw [Int.toNat_natCast, Int.toNat_natCast] at this
  unfold chance reliability
  rw [← this]
  push_cast
  rfl

/-! ## Examples -/

/-- The pairs of the file `A`, in order. -/
example : ordered [("a", "b"), ("b", "c"), ("c", "b"), ("d", "d")] =
    [("a", "b"), ("a", "c"), ("a", "d"), ("b", "c"), ("b", "d"), ("c", "d")] := by decide +kernel

/-- Two of its six pairs are linked. -/
theorem edgesA : (graph [("a", "b"), ("b", "c"), ("c", "b"), ("d", "d")]).edgeSet.ncard = 2 ∧
    (allPairs [("a", "b"), ("b", "c"), ("c", "b"), ("d", "d")]).edgeSet.ncard = 6 := by
  obtain ⟨net, e, L⟩ := load_ok (files := someFiles) (f := "A") rfl saysA
  have h : (match load someFiles "A" with
      | .ok net => decide ((BK.linked (toNet net)).card = 2 ∧ (BK.nodePairs (toNet net).n).card = 6) | _ => false) = true := by decide +kernel
  rw [e] at h
  have h := of_decide_eq_true h
  rw [(linked_eq L).1, (linked_eq L).2] at h
  exact h

example (t : Tape) := C151_sparse (files := someFiles) (f := "A") rfl saysA (by rw [edgesA.1]; decide) (by rw [edgesA.1, edgesA.2]; decide) 0
  (fun _ => 0) "1" [] t

example {solver : WU.Solver} (hM : WU.Moderate solver) (t : Tape) := C150_reliability_links_partial (files := someFiles) (f := "A") rfl saysA (by simp)
  (mi := fun _ _ => 0) hM (fun _ _ => true) 9 (scratch := fun _ => 0) (fun _ => rfl) "1" [] t

/-- All labels in one group: two links on six pairs. -/
example : reliability [("a", "b"), ("b", "c"), ("c", "b"), ("d", "d")] (fun _ => 0) "a" "d" = 3 / 8 := by
  have h1 := edges_between (graph [("a", "b"), ("b", "c"), ("c", "b"), ("d", "d")])
  have h2 := edges_between (allPairs [("a", "b"), ("b", "c"), ("c", "b"), ("d", "d")])
  rw [edgesA.1] at h1
  rw [edgesA.2] at h2
  unfold reliability seen
  rw [← h1, ← h2]
  norm_num

example : 200 ≤ (String.ofList (List.replicate 189 'a')).utf8ByteSize + (".AND_scores" : String).utf8ByteSize := by decide +kernel

/-- Two labels. -/
example : Says (tex "a b") [("a", "b")] ∧ (names [("a", "b")]).length < 3 ∧ (graph [("a", "b")]).edgeSet.ncard = (allPairs [("a", "b")]).edgeSet.ncard := by
  refine ⟨?_, by decide +kernel, ?_⟩
  · have : GR.fileFields (tex "a b") = [["a", "b"]] := by decide +kernel
    unfold Says
    rw [this]
    exact .cons ⟨by decide +kernel, by decide +kernel, [], rfl⟩ .nil
  · congr 2
    ext a b
    have : names [("a", "b")] = ["a", "b"] := by decide +kernel
    simp only [graph, allPairs, this, List.mem_singleton, Prod.mk.injEq, List.mem_cons, List.not_mem_nil, or_false]
    constructor
    · rintro ⟨h, ⟨rfl, rfl⟩ | ⟨rfl, rfl⟩⟩ <;> simp
    · rintro ⟨h, rfl | rfl, rfl | rfl⟩ <;> simp_all

end PG
