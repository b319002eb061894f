import Verif.Programs.RecModel
import Verif.Programs.RecSpec
import Verif.Programs.Counts
import Verif.Missing.NetScore
import Verif.Missing.Reconstruct
import Verif.Warm.Refine
import Verif.Utils.Output

/-!
# C158: the program reliability_reconstruct
-/

set_option linter.unusedSimpArgs false
set_option linter.unusedSectionVars false

namespace PG

open UT GR RG NR
open scoped BigOperators

/-! ## NetworkScore after some warm-up -/

/-- **C134** for `NetworkScore`: it gives what the sampler gives after some warm-up, or does not return. -/
theorem C134_network_score {mi : LS.St → LS.St → ℝ} {solver : WU.Solver} (hM : WU.Moderate solver) (acc : ℝ → ℚ → Bool) (tar obs : GP.Net)
    (linC : ℝ) (nIter fuel : ℕ) (scratch : ℕ → Int) (t : Tape) :
    NetworkScore mi solver acc tar obs linC nIter fuel scratch t = .starved ∨
      ∃ warm decorStep, NetworkScore mi solver acc tar obs linC nIter fuel scratch t =
        LS.NetworkScore acc tar obs linC nIter warm decorStep scratch t := by
  unfold NetworkScore LS.NetworkScore LS.prepare
  cases GP.randomInit obs obs.n (List.range obs.n) GP.Part.empty t with
  | starved => exact Or.inl rfl
  | ub => exact Or.inr ⟨[], 0, rfl⟩
  | ok r =>
    obtain ⟨p, t'⟩ := r
    simp only [Res.bind_ok]
    cases Res.ofOption (LS.PartitionH obs obs.n linC p) with
    | starved => exact Or.inl rfl
    | ub => exact Or.inr ⟨[], 0, rfl⟩
    | ok H =>
      simp only [Res.bind_ok]
      rcases WU.warmup_cases (step := LS.LinkScoreMCStep acc obs linC) .epsilon (fun s => s.H)
        (fun s => WU.decor_follows (mi := mi) hM obs.n 0 false fuel s) fuel
        { part := p, G2G := LS.initG2G obs p, n2g := scratch, H := H, slg := [], tape := t' } with h | ⟨d, fs, h⟩
      · left; rw [h]; rfl
      · right
        refine ⟨fs, d, ?_⟩
        rw [h, WU.steps_calls]
        cases WU.calls (LS.LinkScoreMCStep acc obs linC) fs
          { part := p, G2G := LS.initG2G obs p, n2g := scratch, H := H, slg := [], tape := t' } <;> rfl

/-! ## Networks of the procedure as the samplers see them -/

section
variable {n : ℕ} {label : ℕ → String} {net : GR.Net} {g : WG} (S : NR.Simple n label net g)
include S

theorem nodes_mem {i : ℕ} {x : ℕ × ℚ} : x ∈ (nodesOf net).neig i ↔ g i x.1 = some x.2 := by
  unfold nodesOf
  by_cases hi : i < net.n
  · simp only [hi, if_true]
    rw [List.mem_filterMap]
    constructor
    · rintro ⟨l, hl, e⟩
      obtain ⟨j, _, e2, e3⟩ := (S.rep.1 i hi).2.1 l hl
      rw [e2] at e
      simp only [Option.map_some, Option.some.injEq] at e
      subst e
      exact e3
    · intro h
      obtain ⟨l, hl, e1, e2⟩ := (S.rep.1 i hi).2.2 _ _ h
      exact ⟨l, hl, by rw [e1, e2]; rfl⟩
  · simp only [hi, if_false, List.not_mem_nil, false_iff]
    intro h
    have := (S.simple.supp i x.1 (by rw [h]; rfl)).1
    rw [← S.nodes] at this
    exact hi this

theorem nodes_nodup (i : ℕ) : (((nodesOf net).neig i).map (·.1)).Nodup := by
  unfold nodesOf
  by_cases hi : i < net.n
  · simp only [hi, if_true]
    have e : ((net.neig i).filterMap fun l => l.ref.map fun j => (j, l.weight)).map (·.1) = ((net.neig i).map Link.ref).filterMap id := by
      rw [List.map_filterMap, List.filterMap_map]
      congr 1
      funext l
      cases h : l.ref <;> simp [h]
    rw [e]
    refine List.Nodup.filterMap ?_ (S.rep.1 i hi).1
    intro a a' b hb hb'
    rw [Option.mem_def] at hb hb'
    exact hb.trans hb'.symm
  · simp [hi]

theorem nodes_link (i j : ℕ) : (nodesOf net).link i j = g i j := by
  unfold GP.Net.link
  cases hf : ((nodesOf net).neig i).find? fun x => x.1 = j with
  | none =>
    rw [Option.map_none]
    cases hw : g i j with
    | none => rfl
    | some w =>
      have := List.find?_eq_none.1 hf (j, w) ((nodes_mem S).2 hw)
      simp at this
  | some x =>
    have h1 := List.mem_of_find?_eq_some hf
    have h2 := List.find?_some hf
    simp only [decide_eq_true_eq] at h2
    rw [Option.map_some, ← h2]
    exact ((nodes_mem S).1 h1).symm

theorem nodes_simple : (nodesOf net).Simple where
  nodup i := nodes_nodup S i
  range i x hx := by
    have := (nodes_mem S).1 hx
    have := (S.simple.supp i x.1 (by rw [this]; rfl)).2
    rw [← S.nodes] at this
    exact this
  sym i j := by rw [nodes_link S, nodes_link S, S.simple.sym]
  irrefl i := by rw [nodes_link S, S.simple.loop]

theorem nodes_links {G : SimpleGraph String} (inj : ∀ i < n, ∀ j < n, label i = label j → i = j)
    (hG : ∀ a b, G.Adj a b → (∃ i < n, label i = a) ∧ ∃ j < n, label j = b)
    (hadj : ∀ i < n, ∀ j < n, (g i j).isSome ↔ G.Adj (label i) (label j)) {F : String → ℕ} {f : ℕ → Option ℕ}
    (hF : ∀ i < n, f i = some (F (label i))) (a b : ℕ) : LS.links (nodesOf net) f a b = between G F a b := by
  classical
  rw [between_eq inj hG hF (fun i j => (g i j).isSome = true) hadj]
  unfold LS.links LS.block GP.Net.a
  simp only [nodes_link S]
  have : (nodesOf net).n = n := S.nodes
  rw [this]

end

/-! ## The scores -/

section
variable {ps : List (String × String)} {obs : GR.Net} (L : Loaded ps obs)
include L

theorem Loaded.obsSimple : NR.Simple obs.n obs.label obs (weights ps obs) := ⟨rfl, fun _ _ => rfl, ⟨L.holds, L.caches⟩, L.symSimple⟩

variable {mi : LS.St → LS.St → ℝ} {solver : WU.Solver} (hM : WU.Moderate solver) (acc : ℝ → ℚ → Bool) (fuel : ℕ) {scratch : Tape → ℕ → Int}
  (hz : ∀ t g, scratch t g = 0) (h0 : 0 < obs.n)
include hM hz h0

theorem netScore_holds {net : GR.Net} {g : WG} (S : NR.Simple obs.n obs.label net g) (t : Tape) :
    (netScore mi solver acc fuel scratch obs net t).Holds fun r => ∃ tr : List LS.St, tr.length = 100 ∧
      (∀ s ∈ tr, LS.Divides (nodesOf obs) s.part.inGroup) ∧
      r.1 = (tr.map fun s => ((LS.reliability (nodesOf obs) (nodesOf net) s.part.inGroup : ℚ) : ℝ)).sum /
        (tr.map fun s => ((LS.reliability (nodesOf obs) (nodesOf obs) s.part.inGroup : ℚ) : ℝ)).sum := by
  unfold netScore
  rcases C134_network_score (mi := mi) hM acc (nodesOf net) (nodesOf obs) 0 100 fuel (scratch t) t with h | ⟨warm, d, h⟩
  · rw [h]; trivial
  · rw [h]
    refine (LS.C106_score_partial (nodes_simple (Loaded.obsSimple L)) (nodes_simple S) S.nodes h0 acc 0 100 warm d (fun g _ => hz t g) t).bind ?_
    rintro ⟨x, tr⟩ ⟨h1, h2, h3⟩
    rw [if_neg (by norm_num)] at h3
    obtain ⟨y, rfl, -, h3⟩ := h3
    exact ⟨tr, h1, h2, h3⟩

theorem scoring : NR.Scoring obs.n obs.label (netScore mi solver acc fuel scratch obs) (linkScore mi solver acc fuel scratch) where
  net net g t S := (netScore_holds L hM acc fuel hz h0 S t).mono fun _ _ => trivial
  link net g t S := by
    unfold linkScore
    have hn : 0 < (nodesOf net).n := by
      change 0 < net.n
      rw [S.nodes]; exact h0
    refine (WU.C134_scores (mi := mi) (nodes_simple S) hn hM acc 0 (by norm_num) fuel (fun g _ => hz t g) t).bind ?_
    rintro ⟨M, tr⟩ h
    intro i j hij hj
    have e : (nodesOf net).n = obs.n := S.nodes
    exact h.bounds i (by rw [e]; omega) j (by rw [e]; exact hj) (by omega)

end

/-! ## In terms of labels -/

theorem predictive_eq (r a b : ℕ) : LS.predictive r a b = nextChance r a b := rfl

section
variable {ps : List (String × String)} {obs : GR.Net} (L : Loaded ps obs)
include L

theorem guess_eq {net : GR.Net} {g : WG} (S : NR.Simple obs.n obs.label net g) {qs : List (String × String)}
    (hG : ∀ a b, (graph qs).Adj a b → (∃ i < obs.n, obs.label i = a) ∧ ∃ j < obs.n, obs.label j = b)
    (hadj : ∀ i < obs.n, ∀ j < obs.n, (g i j).isSome ↔ (graph qs).Adj (obs.label i) (obs.label j)) {F : String → ℕ} {f : ℕ → Option ℕ}
    (hF : ∀ i < obs.n, f i = some (F (obs.label i))) : LS.reliability (nodesOf obs) (nodesOf net) f = guess ps qs F := by
  unfold LS.reliability guess
  have e : (nodesOf obs).n = (names ps).length := L.len
  rw [e]
  refine Finset.prod_congr rfl fun e _ => ?_
  have h1 : LS.pairs (nodesOf obs) f e.1 e.2 = between (allPairs ps) F e.1 e.2 := pairs_eq L hF e.1 e.2
  have h2 : LS.links (nodesOf obs) f e.1 e.2 = between (graph ps) F e.1 e.2 :=
    nodes_links (Loaded.obsSimple L) (fun i hi j hj => L.distinct i j hi hj)
      (fun a b h => ⟨L.node_of (adj_names h).1, L.node_of (adj_names h).2⟩)
      (fun i hi j hj => by rw [L.weights_isSome]; simp [hi, hj]) hF e.1 e.2
  have h3 : LS.links (nodesOf net) f e.1 e.2 = between (graph qs) F e.1 e.2 :=
    nodes_links S (fun i hi j hj => L.distinct i j hi hj) hG hadj hF e.1 e.2
  rw [h1, h2, h3, Int.toNat_natCast, Int.toNat_natCast, Int.toNat_natCast, predictive_eq]

theorem guesses {net : GR.Net} {g : WG} (S : NR.Simple obs.n obs.label net g) {qs : List (String × String)}
    (hG : ∀ a b, (graph qs).Adj a b → (∃ i < obs.n, obs.label i = a) ∧ ∃ j < obs.n, obs.label j = b)
    (hadj : ∀ i < obs.n, ∀ j < obs.n, (g i j).isSome ↔ (graph qs).Adj (obs.label i) (obs.label j)) :
    ∀ tr : List LS.St, (∀ s ∈ tr, LS.Divides (nodesOf obs) s.part.inGroup) →
    ∃ Fs : List (String → ℕ), Fs.length = tr.length ∧ (∀ F ∈ Fs, ∀ a ∈ names ps, F a < (names ps).length) ∧
      (tr.map fun s => ((LS.reliability (nodesOf obs) (nodesOf net) s.part.inGroup : ℚ) : ℝ)).sum = (((Fs.map (guess ps qs)).sum : ℚ) : ℝ) ∧
      (tr.map fun s => ((LS.reliability (nodesOf obs) (nodesOf obs) s.part.inGroup : ℚ) : ℝ)).sum = (((Fs.map (guess ps ps)).sum : ℚ) : ℝ)
  | [], _ => ⟨[], rfl, by simp, by simp, by simp⟩
  | s :: tr, h => by
    obtain ⟨Fs, h1, h2, h3, h4⟩ := guesses S hG hadj tr fun s hs => h s (by simp [hs])
    have hs := h s (by simp)
    obtain ⟨F, hF⟩ := division L (f := s.part.inGroup) (fun v hv => by
      obtain ⟨g, _, e⟩ := hs v hv
      rw [e]; simp)
    refine ⟨F :: Fs, by simp [h1], ?_, ?_, ?_⟩
    · intro F' hF' a ha
      rcases List.mem_cons.1 hF' with rfl | hF'
      · obtain ⟨i, hi, rfl⟩ := L.node_of ha
        obtain ⟨g, hg, e⟩ := hs i hi
        rw [hF i hi] at e
        rw [Option.some.inj e, ← L.len]
        exact hg
      · exact h2 F' hF' a ha
    · rw [List.map_cons, List.map_cons, List.sum_cons, List.sum_cons, h3, guess_eq L S hG hadj hF]
      push_cast
      rfl
    · rw [List.map_cons, List.map_cons, List.sum_cons, List.sum_cons, h4,
        guess_eq L (Loaded.obsSimple L) (qs := ps) (fun a b h => ⟨L.node_of (adj_names h).1, L.node_of (adj_names h).2⟩)
          (fun i hi j hj => by rw [L.weights_isSome]; simp [hi, hj]) hF]
      push_cast
      rfl

end

theorem nextChance_pos (r a b : ℕ) : 0 < nextChance r a b := by
  unfold nextChance
  apply div_pos <;> exact_mod_cast (by positivity)

theorem guess_pos (ps qs : List (String × String)) (F : String → ℕ) : 0 < guess ps qs F :=
  Finset.prod_pos fun _ _ => nextChance_pos _ _ _

theorem card_edges {α : Type} {G : SimpleGraph String} (S : Finset α) (φ : α → Sym2 String) (hinj : Set.InjOn φ S)
    (h : ∀ e, e ∈ G.edgeSet ↔ ∃ x ∈ S, φ x = e) : S.card = G.edgeSet.ncard := by
  have : G.edgeSet = φ '' (S : Set α) := by
    ext e
    rw [h]
    simp
  rw [this, Set.InjOn.ncard_image hinj, Set.ncard_coe_finset]

/-- The graph of a list of sorted pairs has as many edges as the list. -/
theorem length_edges {qs : List (String × String)} (hn : qs.Nodup) (hs : ∀ p ∈ qs, p.1 < p.2) : qs.length = (graph qs).edgeSet.ncard := by
  classical
  rw [← List.toFinset_card_of_nodup hn]
  refine card_edges _ (fun p => s(p.1, p.2)) ?_ ?_
  · rintro ⟨a, b⟩ h1 ⟨c, d⟩ h2 e
    have h1 := hs _ (List.mem_toFinset.1 h1)
    have h2 := hs _ (List.mem_toFinset.1 h2)
    rcases Sym2.eq_iff.1 e with ⟨rfl, rfl⟩ | ⟨e1, e2⟩
    · rfl
    · simp only at h1 h2 e1 e2
      subst e1 e2
      exact absurd h1 (String.lt_asymm h2)
  · intro e
    induction e with
    | _ a b =>
      rw [SimpleGraph.mem_edgeSet]
      constructor
      · rintro ⟨_, h | h⟩
        · exact ⟨(a, b), List.mem_toFinset.2 h, rfl⟩
        · exact ⟨(b, a), List.mem_toFinset.2 h, Sym2.eq_swap⟩
      · rintro ⟨⟨c, d⟩, h, e⟩
        have h := List.mem_toFinset.1 h
        have hne : c ≠ d := by
          rintro rfl
          exact String.lt_irrefl _ (hs _ h)
        rcases Sym2.eq_iff.1 e with ⟨rfl, rfl⟩ | ⟨rfl, rfl⟩
        · exact ⟨hne, Or.inl h⟩
        · exact ⟨hne.symm, Or.inr h⟩

section
variable {n : ℕ} {label : ℕ → String} (inj : ∀ i < n, ∀ j < n, label i = label j → i = j) {g : WG} (hg : SymSimple n g)
  {G : SimpleGraph String} (hG : ∀ a b, G.Adj a b ↔ ∃ i j, i < n ∧ j < n ∧ label i = a ∧ label j = b ∧ (g i j).isSome)
include inj hg hG

theorem edges_ncard : (edges n g).card = G.edgeSet.ncard := by
  refine card_edges _ (fun e => s(label e.1, label e.2)) ?_ ?_
  · rintro ⟨a, b⟩ h1 ⟨c, d⟩ h2 e
    obtain ⟨k1, k2, _⟩ := mem_edges.1 (Finset.mem_coe.1 h1)
    obtain ⟨k3, k4, _⟩ := mem_edges.1 (Finset.mem_coe.1 h2)
    rcases Sym2.eq_iff.1 e with ⟨e1, e2⟩ | ⟨e1, e2⟩
    · rw [inj a (by omega) c (by omega) e1, inj b (by omega) d (by omega) e2]
    · have := inj a (by omega) d (by omega) e1
      have := inj b (by omega) c (by omega) e2
      omega
  · intro e
    induction e with
    | _ a b =>
      rw [SimpleGraph.mem_edgeSet, hG]
      constructor
      · rintro ⟨i, j, hi, hj, rfl, rfl, h⟩
        rcases lt_trichotomy i j with h1 | h1 | h1
        · exact ⟨(i, j), mem_edges.2 ⟨h1, hj, h⟩, rfl⟩
        · subst h1
          rw [hg.loop] at h
          simp at h
        · exact ⟨(j, i), mem_edges.2 ⟨h1, hi, by rw [hg.sym]; exact h⟩, Sym2.eq_swap⟩
      · rintro ⟨⟨i, j⟩, h, e⟩
        obtain ⟨h1, h2, h3⟩ := mem_edges.1 h
        rcases Sym2.eq_iff.1 e with ⟨rfl, rfl⟩ | ⟨rfl, rfl⟩
        · exact ⟨i, j, by omega, h2, rfl, rfl, h3⟩
        · exact ⟨j, i, h2, by omega, rfl, rfl, by rw [hg.sym]; exact h3⟩

end

theorem isSome_of_edges {n : ℕ} {g g' : WG} (hg : SymSimple n g) (hg' : SymSimple n g') (h : edges n g = edges n g') {i j : ℕ} (hi : i < n)
    (hj : j < n) : (g i j).isSome ↔ (g' i j).isSome := by
  rcases lt_trichotomy i j with h1 | h1 | h1
  · have a := mem_edges (n := n) (g := g) (i := i) (j := j)
    have b := mem_edges (n := n) (g := g') (i := i) (j := j)
    rw [h] at a
    have := a.symm.trans b
    simpa [h1, hj] using this
  · subst h1
    rw [hg.loop, hg'.loop]
  · have a := mem_edges (n := n) (g := g) (i := j) (j := i)
    have b := mem_edges (n := n) (g := g') (i := j) (j := i)
    rw [h] at a
    have := a.symm.trans b
    rw [hg.sym i j, hg'.sym i j]
    simpa [h1, hi] using this

/-! ## The program -/

variable {files : String → Option (List Char)} {f : String} {text : List Char} {ps : List (String × String)}

/-- **C158** Full statement: given a file with pairs of labels and a seed, `reliability_reconstruct` always ends with a file
`net_reconstructed.dat` as below. That is false: networks without links or with all links are not handled (`C158_complete`), what it does
depends on memory that was never set (C31), and the waiting time is taken from a solver that may fail (C132). What holds when that memory is 0,
the solver is moderate, and some pair of labels is linked and some is not: nothing undefined is done; the file written lists, without
repetition and smaller label first, as many links between labels of the file as were given; and these are the links that were given, or
links that are more likely given those, added up over 100 divisions of the labels. -/
theorem C158_reliability_reconstruct_partial (hf : files f = some text) (hs : Says text ps) (hlink : ∃ a b, (graph ps).Adj a b)
    (hmiss : ∃ a b, (allPairs ps).Adj a b ∧ ¬ (graph ps).Adj a b) {mi : LS.St → LS.St → ℝ} {solver : WU.Solver} (hM : WU.Moderate solver)
    (acc : ℝ → ℚ → Bool) (fuel : ℕ) {scratch : Tape → ℕ → Int} (hz : ∀ t g, scratch t g = 0) (inner outer : ℕ) (seed : String)
    (rest : List String) (t : Tape) :
    (reliability_reconstruct mi solver acc fuel scratch inner outer files (f :: seed :: rest) t).Holds fun r => ∃ s qs, r = some s ∧
      Lists s qs ∧ qs.Nodup ∧ (∀ p ∈ qs, p.1 < p.2 ∧ p.1 ∈ names ps ∧ p.2 ∈ names ps) ∧ qs.length = (graph ps).edgeSet.ncard ∧
      (graph qs = graph ps ∨ Better ps qs) := by
  classical
  obtain ⟨obs, e, L⟩ := load_ok hf hs
  have hne : 0 < obs.n := by
    obtain ⟨a, b, h⟩ := hlink
    obtain ⟨i, hi, _⟩ := L.node_of (adj_names h).1
    omega
  have inj : ∀ i < obs.n, ∀ j < obs.n, obs.label i = obs.label j → i = j := fun i hi j hj => L.distinct i j hi hj
  have hw : ∀ i j, i < obs.n → j < obs.n → ((weights ps obs i j).isSome ↔ (graph ps).Adj (obs.label i) (obs.label j)) := by
    intro i j hi hj
    rw [L.weights_isSome]; simp [hi, hj]
  have hlk : ∃ e, NR.Linked obs.n (weights ps obs) e := by
    obtain ⟨a, b, h⟩ := hlink
    obtain ⟨i, hi, rfl⟩ := L.node_of (adj_names h).1
    obtain ⟨j, hj, rfl⟩ := L.node_of (adj_names h).2
    rcases lt_trichotomy i j with h1 | h1 | h1
    · exact ⟨(i, j), h1, hj, (hw i j hi hj).2 h⟩
    · subst h1; exact absurd rfl h.1
    · exact ⟨(j, i), h1, hi, (hw j i hj hi).2 h.symm⟩
  have hms : ∃ e, NR.Missing obs.n (weights ps obs) e := by
    obtain ⟨a, b, h, h'⟩ := hmiss
    obtain ⟨i, hi, rfl⟩ := L.node_of h.2.1
    obtain ⟨j, hj, rfl⟩ := L.node_of h.2.2
    rcases lt_trichotomy i j with h1 | h1 | h1
    · exact ⟨(i, j), h1, hj, Option.not_isSome_iff_eq_none.1 fun k => h' ((hw i j hi hj).1 k)⟩
    · subst h1; exact absurd rfl h.1
    · exact ⟨(j, i), h1, hi, Option.not_isSome_iff_eq_none.1 fun k => h' ((hw j i hj hi).1 k).symm⟩
  unfold reliability_reconstruct
  simp only [e, Res.bind_ok]
  refine (C108_reconstruct_partial L.holds L.symSimple L.link_labels L.fit (fun i k hi hk => L.distinct i k hi hk)
    (scoring L hM acc fuel hz hne) hlk hms inner outer t).bind ?_
  rintro s ⟨score0, t0, ⟨net0, S0, e0⟩, hle, g', S', hcard, hsame, net1, g1, t1, t1', S1, hedges, e1⟩
  obtain ⟨w, qs, e2, k1, k2, k3⟩ := print_pairs S'.rep.1
    (by
      intro i j hi hj h
      have h1 : i < obs.n := by rw [← S'.nodes]; exact hi
      have h2 : j < obs.n := by rw [← S'.nodes]; exact hj
      rw [S'.labels i h1, S'.labels j h2] at h
      exact inj i h1 j h2 h)
    (by
      intro i hi
      have h1 : i < obs.n := by rw [← S'.nodes]; exact hi
      rw [S'.labels i h1]
      exact L.words i h1) S'.simple.loop
  have k3 : ∀ a b, (a, b) ∈ qs ↔ a < b ∧ ∃ i j, i < obs.n ∧ j < obs.n ∧ obs.label i = a ∧ obs.label j = b ∧ (g' i j).isSome := by
    intro a b
    rw [k3, S'.nodes]
    refine and_congr_right fun _ => exists_congr fun i => exists_congr fun j => and_congr_right fun hi => and_congr_right fun hj => ?_
    rw [S'.labels i hi, S'.labels j hj]
  have hadj : ∀ a b, (graph qs).Adj a b ↔ ∃ i j, i < obs.n ∧ j < obs.n ∧ obs.label i = a ∧ obs.label j = b ∧ (g' i j).isSome := by
    intro a b
    constructor
    · rintro ⟨_, h | h⟩
      · exact ((k3 a b).1 h).2
      · obtain ⟨_, i, j, hi, hj, ha, hb, hg⟩ := (k3 b a).1 h
        exact ⟨j, i, hj, hi, hb, ha, by rw [S'.simple.sym]; exact hg⟩
    · rintro ⟨i, j, hi, hj, rfl, rfl, hg⟩
      have hne : obs.label i ≠ obs.label j := by
        intro h
        obtain rfl := inj i hi j hj h
        rw [S'.simple.loop] at hg
        simp at hg
      refine ⟨hne, ?_⟩
      rcases str_cases hne with h | h
      · exact Or.inl ((k3 _ _).2 ⟨h, i, j, hi, hj, rfl, rfl, hg⟩)
      · exact Or.inr ((k3 _ _).2 ⟨h, j, i, hj, hi, rfl, rfl, by rw [S'.simple.sym]; exact hg⟩)
  have hadj' : ∀ i < obs.n, ∀ j < obs.n, (g' i j).isSome ↔ (graph qs).Adj (obs.label i) (obs.label j) := by
    intro i hi j hj
    rw [hadj]
    constructor
    · intro h
      exact ⟨i, j, hi, hj, rfl, rfl, h⟩
    · rintro ⟨i', j', hi', hj', e1, e2, h⟩
      rw [inj i hi i' hi' e1.symm, inj j hj j' hj' e2.symm]
      exact h
  have hps : ∀ a b, (graph ps).Adj a b ↔ ∃ i j, i < obs.n ∧ j < obs.n ∧ obs.label i = a ∧ obs.label j = b ∧ (weights ps obs i j).isSome := by
    intro a b
    constructor
    · intro h
      obtain ⟨i, hi, rfl⟩ := L.node_of (adj_names h).1
      obtain ⟨j, hj, rfl⟩ := L.node_of (adj_names h).2
      exact ⟨i, j, hi, hj, rfl, rfl, (hw i j hi hj).2 h⟩
    · rintro ⟨i, j, hi, hj, rfl, rfl, h⟩
      exact (hw i j hi hj).1 h
  have hsorted : ∀ p ∈ qs, p.1 < p.2 ∧ p.1 ∈ names ps ∧ p.2 ∈ names ps := by
    rintro ⟨a, b⟩ hp
    obtain ⟨hlt, i, j, hi, hj, rfl, rfl, _⟩ := (k3 a b).1 hp
    exact ⟨hlt, L.label_mem hi, L.label_mem hj⟩
  simp only [e2, Res.ofOption, Res.bind_ok, Res.pure_eq, Res.holds_ok]
  refine ⟨w, qs, rfl, k1, k2, hsorted, ?_, ?_⟩
  · rw [length_edges k2 fun p hp => (hsorted p hp).1, ← edges_ncard inj S'.simple hadj, hcard, edges_ncard inj L.symSimple hps]
  · by_cases hsc : s.score = score0
    · left
      ext a b
      rw [hadj, hps]
      refine exists_congr fun i => exists_congr fun j => and_congr_right fun hi => and_congr_right fun hj => ?_
      rw [isSome_of_edges S'.simple L.symSimple (hsame hsc) hi hj]
    · right
      have hlt : score0 < s.score := lt_of_le_of_ne hle (Ne.symm hsc)
      have v0 := netScore_holds L hM acc fuel hz hne (mi := mi) S0 t
      rw [e0] at v0
      obtain ⟨tr0, l0, d0, x0⟩ := v0
      have v1 := netScore_holds L hM acc fuel hz hne (mi := mi) S1 t1
      rw [e1] at v1
      obtain ⟨tr1, l1, d1, x1⟩ := v1
      dsimp only at x0 x1
      have inside : ∀ a b, (graph ps).Adj a b → (∃ i < obs.n, obs.label i = a) ∧ ∃ j < obs.n, obs.label j = b :=
        fun a b h => ⟨L.node_of (adj_names h).1, L.node_of (adj_names h).2⟩
      have pos : ∀ {Fs : List (String → ℕ)} {tr : List LS.St}, Fs.length = tr.length → tr.length = 100 → (0 : ℝ) < (((Fs.map (guess ps ps)).sum : ℚ) : ℝ) := by
        intro Fs tr h1 h2
        have : 0 < (Fs.map (guess ps ps)).sum := by
          apply List.sum_pos
          · intro x hx
            obtain ⟨F, _, rfl⟩ := List.mem_map.1 hx
            exact guess_pos ps ps F
          · intro h
            rw [List.map_eq_nil_iff] at h
            rw [h, h2] at h1
            simp at h1
        exact_mod_cast this
      obtain ⟨Fs0, m1, m2, m3, m4⟩ := guesses L S0 (qs := ps) inside (fun i hi j hj => hw i j hi hj) tr0 d0
      obtain ⟨Fs1, n1, n2, n3, n4⟩ := guesses L S1 (qs := qs)
        (fun a b h => by
          obtain ⟨i, j, hi, hj, rfl, rfl, _⟩ := (hadj a b).1 h
          exact ⟨⟨i, hi, rfl⟩, ⟨j, hj, rfl⟩⟩)
        (fun i hi j hj => by rw [isSome_of_edges S1.simple S'.simple hedges hi hj]; exact hadj' i hi j hj) tr1 d1
      rw [m3, m4, div_self (pos m1 l0).ne'] at x0
      rw [n3, n4] at x1
      rw [x0, x1, one_lt_div (pos n1 l1)] at hlt
      exact ⟨Fs1, by rw [n1, l1], n2, by exact_mod_cast hlt⟩

/-- **C158** A network in which no labels, or all labels, are linked: the program never writes its result; it uses pointers that were never
set, unless it hangs or fails before. -/
theorem C158_complete (hf : files f = some text) (hs : Says text ps)
    (hno : (∀ a b, ¬ (graph ps).Adj a b) ∨ ∀ a b, (allPairs ps).Adj a b → (graph ps).Adj a b) (mi : LS.St → LS.St → ℝ) (solver : WU.Solver)
    (acc : ℝ → ℚ → Bool) (fuel : ℕ) (scratch : Tape → ℕ → Int) (inner outer : ℕ) (seed : String) (rest : List String) (t : Tape)
    (r : Option (List Char)) :
    reliability_reconstruct mi solver acc fuel scratch inner outer files (f :: seed :: rest) t ≠ .ok r := by
  obtain ⟨obs, e, L⟩ := load_ok hf hs
  have hno' : (∀ e, ¬ NR.Linked obs.n (weights ps obs) e) ∨ ∀ e, ¬ NR.Missing obs.n (weights ps obs) e := by
    rcases hno with h | h
    · left
      rintro e ⟨h1, h2, h3⟩
      exact h _ _ (L.weights_isSome.1 h3).2.2
    · right
      rintro ⟨i, j⟩ ⟨h1, h2, h3⟩
      dsimp only at h1 h2 h3
      have : (weights ps obs i j).isSome := L.weights_isSome.2 ⟨by omega, h2, h _ _ ⟨fun e => by
        have := L.distinct i j (by omega) h2 e
        omega, L.label_mem (by omega), L.label_mem h2⟩⟩
      rw [h3] at this
      simp at this
  obtain ⟨net, h1, h2⟩ := copy_simple L.holds L.symSimple L.link_labels L.fit (fun i k hi hk => L.distinct i k hi hk)
  unfold reliability_reconstruct NR.NetReconstruct
  simp only [e, Res.bind_ok, h1, Res.ofOption_some]
  cases hv : netScore mi solver acc fuel scratch obs net t with
  | ub => simp
  | starved => simp
  | ok v =>
    obtain ⟨sc, t1⟩ := v
    simp only [Res.bind_ok]
    cases outer with
    | zero => simp [recOuter]
    | succ outer =>
      unfold recOuter
      dsimp only
      cases hw : linkScore mi solver acc fuel scratch net t1 with
      | ub => simp
      | starved => simp
      | ok v =>
        obtain ⟨M, t2⟩ := v
        simp only [Res.bind_ok]
        cases inner with
        | zero => simp [recInner]
        | succ inner =>
          obtain ⟨p1, p2⟩ := pick_none (M := M) h2.rep.1
          rw [h2.nodes] at p1 p2
          unfold recInner recStep
          dsimp only
          rcases hno' with hno | hno
          · rw [p2 hno]
            simp
          · rw [p1 hno]
            simp

/-- **C158** With fewer than two arguments the program ends at once; a file that cannot be opened or a line with fewer than two fields makes
it crash. -/
theorem C158_crash (mi : LS.St → LS.St → ℝ) (solver : WU.Solver) (acc : ℝ → ℚ → Bool) (fuel : ℕ) (scratch : Tape → ℕ → Int) (inner outer : ℕ)
    (t : Tape) :
    (∀ argv : List String, argv.length < 2 → reliability_reconstruct mi solver acc fuel scratch inner outer files argv t = .ok none) ∧
    ∀ f x rest, (files f = none ∨ ∃ text, files f = some text ∧ Malformed text) →
      reliability_reconstruct mi solver acc fuel scratch inner outer files (f :: x :: rest) t = .ub := by
  refine ⟨?_, ?_⟩
  · rintro (_ | ⟨a, _ | ⟨b, l⟩⟩) h
    · rfl
    · rfl
    · simp at h
  · intro f x rest h
    have e : load files f = .ub := by
      rcases h with h | ⟨text, h1, h2⟩
      · exact load_missing h
      · exact load_malformed h1 h2
    unfold reliability_reconstruct
    simp only [e, Res.bind_ub]

/-! ## Examples -/

example {solver : WU.Solver} (hM : WU.Moderate solver) (t : Tape) := C158_reliability_reconstruct_partial (files := someFiles) (f := "A") rfl saysA
  ⟨"a", "b", by decide, by decide⟩ ⟨"a", "c", ⟨by decide, by decide +kernel, by decide +kernel⟩, fun h => by
    rcases h.2 with h | h <;> revert h <;> decide⟩
  (mi := fun _ _ => 0) hM (fun _ _ => true) 9 (scratch := fun _ _ => 0) (fun _ _ => rfl) 9 9 "1" [] t

/-- A complete network. -/
example : (∀ a b, (allPairs [("a", "b")]).Adj a b → (graph [("a", "b")]).Adj a b) := by
  have : names [("a", "b")] = ["a", "b"] := by decide +kernel
  rintro a b ⟨h, h1, h2⟩
  rw [this] at h1 h2
  simp only [List.mem_cons, List.not_mem_nil, or_false] at h1 h2
  refine ⟨h, ?_⟩
  rcases h1 with rfl | rfl <;> rcases h2 with rfl | rfl <;> simp_all

/-- One pair, linked: that it is linked again has chance 2 / 3. -/
example : nextChance 1 1 1 = 2 / 3 ∧ nextChance 1 1 0 = 1 / 3 := by
  unfold nextChance
  constructor <;> norm_num [Nat.factorial]

end PG
