import Verif.Programs.KModel
import Verif.Programs.KSpec
import Verif.Programs.Counts
import Verif.KState.Average
import Verif.Warm.Refine
import Verif.Utils.Count
import Mathlib.Tactic.Positivity

/-!
# C157: the program reliability_links_k
-/

set_option linter.unusedSimpArgs false
set_option linter.unusedSectionVars false

namespace PG

open UT GR RG LS
open scoped BigOperators

variable {ls : List (String × String × ℚ)}

/-! ## The network of a file of ratings -/

/-- Weights of the network. -/
def weightsW (ls : List (String × String × ℚ)) (net : GR.Net) : WG := fun i j =>
  if i < net.n ∧ j < net.n ∧ net.label i ≠ net.label j then stated ls (net.label i) (net.label j) else none

/-- The network loaded from a file that says `ls`. -/
structure LoadedW (ls : List (String × String × ℚ)) (net : GR.Net) : Prop where
  labels : (List.range net.n).map net.label = names (ends ls)
  holds : Holds net (weightsW ls net)
  outside : ∀ i, net.n ≤ i → net.neig i = []

theorem head_stated {a b : String} (hab : a ≠ b) : ∀ ls : List (String × String × ℚ), (statedWeights true ls a b).head? = stated ls a b
  | [] => rfl
  | (x, y, w) :: ls => by
    have ih := head_stated hab ls
    unfold statedWeights stated at ih ⊢
    rw [List.flatMap_cons, List.find?_cons]
    dsimp only
    by_cases h1 : x = a ∧ y = b
    · simp [h1]
    · by_cases h2 : x = b ∧ y = a
      · obtain ⟨rfl, rfl⟩ := h2
        simp [hab, hab.symm]
      · rw [if_neg h1, if_neg (by rintro ⟨_, _, h3, h4⟩; exact h2 ⟨h4, h3⟩)]
        simp only [h1, h2, or_self, decide_false, List.nil_append]
        simpa using ih

theorem fileWeight_eq {a b : String} (hab : a ≠ b) (ls : List (String × String × ℚ)) : fileWeight false false true ls a b = stated ls a b := by
  unfold fileWeight
  rw [if_neg (by rintro ⟨h, _⟩; exact hab h), ← head_stated hab]
  cases statedWeights true ls a b <;> simp

theorem loadW_ok {strtod : String → Option ℚ} {files : String → Option (List Char)} {f : String} {text : List Char}
    (hf : files f = some text) (hs : List.Forall₂ (LineSays true strtod) (fileFields text) ls) :
    ∃ net, loadW strtod files f = .ok net ∧ LoadedW ls net := by
  obtain ⟨net, e, h1, h2, -, -, -⟩ := C16_build true false false true strtod _ _ hs
  refine ⟨net, ?_, ?_, ?_, build_out _ _ _ net ⟨fun _ _ => rfl, by simp⟩ e⟩
  · unfold loadW
    rw [hf]
    simp only [e]
  · rw [h1]
    unfold firstLabels names ends
    rw [List.flatMap_map]
  · have : (fun i j => if i < net.n ∧ j < net.n then fileWeight false false true ls (net.label i) (net.label j) else none) =
        weightsW ls net := by
      funext i j
      unfold weightsW
      by_cases hij : i < net.n ∧ j < net.n
      · by_cases hl : net.label i = net.label j
        · rw [if_pos hij, if_neg (by tauto)]
          unfold fileWeight
          rw [if_pos ⟨hl, rfl⟩]
        · rw [if_pos hij, if_pos ⟨hij.1, hij.2, hl⟩, fileWeight_eq hl]
      · rw [if_neg hij, if_neg (by tauto)]
    rw [← this]
    exact h2

theorem stated_mem {a b : String} {w : ℚ} (h : stated ls a b = some w) : (a, b) ∈ ends ls ∨ (b, a) ∈ ends ls := by
  unfold stated at h
  obtain ⟨l, hl, _⟩ := Option.map_eq_some_iff.1 h
  have h1 := List.mem_of_find?_eq_some hl
  have h2 := List.find?_some hl
  simp only [decide_eq_true_eq] at h2
  unfold ends
  rcases h2 with ⟨e1, e2⟩ | ⟨e1, e2⟩
  · exact Or.inl (List.mem_map.2 ⟨l, h1, by rw [e1, e2]⟩)
  · exact Or.inr (List.mem_map.2 ⟨l, h1, by rw [e1, e2]⟩)

theorem stated_isSome {a b : String} : (stated ls a b).isSome ↔ (a, b) ∈ ends ls ∨ (b, a) ∈ ends ls := by
  constructor
  · intro h
    obtain ⟨w, h⟩ := Option.isSome_iff_exists.1 h
    exact stated_mem h
  · intro h
    unfold stated ends at *
    rw [Option.isSome_map, List.find?_isSome]
    rcases h with h | h
    · obtain ⟨l, h1, h2⟩ := List.mem_map.1 h
      exact ⟨l, h1, by simp [(Prod.mk.inj h2).1, (Prod.mk.inj h2).2]⟩
    · obtain ⟨l, h1, h2⟩ := List.mem_map.1 h
      exact ⟨l, h1, by simp [(Prod.mk.inj h2).1, (Prod.mk.inj h2).2]⟩

theorem stated_comm (a b : String) : stated ls a b = stated ls b a := by
  unfold stated
  congr 2
  funext l
  simp only [or_comm]

section
variable {net : GR.Net} (L : LoadedW ls net)
include L

theorem LoadedW.distinct {i j : ℕ} (hi : i < net.n) (hj : j < net.n) (e : net.label i = net.label j) : i = j := by
  have hn := names_nodup (ends ls)
  rw [← L.labels] at hn
  exact List.inj_on_of_nodup_map hn (List.mem_range.2 hi) (List.mem_range.2 hj) e

theorem LoadedW.len : net.n = (names (ends ls)).length := by rw [← L.labels]; simp

theorem LoadedW.node_of {a : String} (ha : a ∈ names (ends ls)) : ∃ i, i < net.n ∧ net.label i = a := by
  rw [← L.labels] at ha
  obtain ⟨i, hi, e⟩ := List.mem_map.1 ha
  exact ⟨i, List.mem_range.1 hi, e⟩

theorem LoadedW.nodup (i : ℕ) : (((toNet net).neig i).map (·.1)).Nodup := by
  have e : ((toNet net).neig i).map (·.1) = ((net.neig i).map Link.ref).filterMap id := by
    unfold toNet
    rw [List.map_filterMap, List.filterMap_map]
    congr 1
    funext l
    cases h : l.ref <;> simp [h]
  rw [e]
  by_cases hi : i < net.n
  · refine List.Nodup.filterMap ?_ (L.holds i hi).1
    intro a a' b hb hb'
    rw [Option.mem_def] at hb hb'
    exact hb.trans hb'.symm
  · simp [L.outside i (by omega)]

theorem LoadedW.mem {i : ℕ} {x : ℕ × ℚ} : x ∈ (toNet net).neig i ↔ weightsW ls net i x.1 = some x.2 := by
  by_cases hi : i < net.n
  · unfold toNet
    rw [List.mem_filterMap]
    constructor
    · rintro ⟨l, hl, e⟩
      obtain ⟨j, _, e2, e3⟩ := (L.holds i hi).2.1 l hl
      rw [e2] at e
      simp only [Option.map_some, Option.some.injEq] at e
      subst e
      exact e3
    · intro h
      obtain ⟨l, hl, e1, e2⟩ := (L.holds i hi).2.2 _ _ h
      exact ⟨l, hl, by rw [e1, e2]; rfl⟩
  · have h0 : (toNet net).neig i = [] := by simp [toNet, L.outside i (by omega)]
    rw [h0]
    unfold weightsW
    rw [if_neg (by tauto)]
    simp

theorem LoadedW.link (i j : ℕ) : (toNet net).link i j = weightsW ls net i j := by
  unfold GP.Net.link
  cases hf : ((toNet net).neig i).find? fun x => x.1 = j with
  | none =>
    rw [Option.map_none]
    cases hw : weightsW ls net i j with
    | none => rfl
    | some w =>
      have := List.find?_eq_none.1 hf (j, w) (L.mem.2 hw)
      simp at this
  | some x =>
    have h1 := List.mem_of_find?_eq_some hf
    have h2 := List.find?_some hf
    simp only [decide_eq_true_eq] at h2
    rw [Option.map_some, ← h2]
    exact (L.mem.1 h1).symm

theorem LoadedW.simple : (toNet net).Simple where
  nodup i := L.nodup i
  range i x hx := by
    have := L.mem.1 hx
    unfold weightsW at this
    split_ifs at this with h
    exact h.2.1
  sym i j := by
    rw [L.link, L.link]
    unfold weightsW
    rw [stated_comm]
    exact if_congr (by rw [ne_comm]; tauto) rfl rfl
  irrefl i := by rw [L.link]; unfold weightsW; rw [if_neg (by simp)]

theorem LoadedW.isThereLink {i j : ℕ} (hi : i < net.n) (hj : j < net.n) :
    IsThereLink net i j = true ↔ (graph (ends ls)).Adj (net.label i) (net.label j) := by
  have : IsThereLink net i j = true ↔ (weightsW ls net i j).isSome := by
    unfold IsThereLink
    rw [List.any_eq_true]
    constructor
    · rintro ⟨l, hl, e⟩
      obtain ⟨k, _, e2, e3⟩ := (L.holds i hi).2.1 l hl
      rw [e2] at e
      simp only [decide_eq_true_eq, Option.some.injEq] at e
      subst e
      rw [e3]; rfl
    · intro h
      obtain ⟨w, h⟩ := Option.isSome_iff_exists.1 h
      obtain ⟨l, hl, e1, e2⟩ := (L.holds i hi).2.2 _ _ h
      exact ⟨l, hl, by simp [e1]⟩
  rw [this]
  unfold weightsW
  constructor
  · intro h
    split_ifs at h with h1
    · exact ⟨h1.2.2, stated_isSome.1 h⟩
    · simp at h
  · rintro ⟨h1, h2⟩
    rw [if_pos ⟨hi, hj, h1⟩]
    exact stated_isSome.2 h2

theorem LoadedW.rated {K : ℕ} (hr : ∀ l ∈ ls, ∃ k < K, l.2.2 = (k : ℚ)) : KS.Rated (toNet net) K := by
  intro i j w h
  rw [L.link] at h
  unfold weightsW at h
  split_ifs at h with h1
  unfold stated at h
  obtain ⟨l, hl, rfl⟩ := Option.map_eq_some_iff.1 h
  exact hr l (List.mem_of_find?_eq_some hl)

theorem LoadedW.ratings {F : String → ℕ} {f : ℕ → Option ℕ} (hF : ∀ i < net.n, f i = some (F (net.label i))) (k g g' : ℕ) :
    KS.ratings (toNet net) f k g g' = between (PG.rated ls k) F g g' := by
  classical
  rw [between_eq (n := net.n) (label := net.label) (fun i hi j hj => L.distinct hi hj) (G := PG.rated ls k)
    (fun a b h => by
      have h1 : (graph (ends ls)).Adj a b := ⟨h.1, stated_mem h.2⟩
      exact ⟨L.node_of (adj_names h1).1, L.node_of (adj_names h1).2⟩) hF
    (fun i j => weightsW ls net i j = some (k : ℚ)) (fun i hi j hj => by
      unfold weightsW
      constructor
      · intro h
        split_ifs at h with h1
        exact ⟨h1.2.2, h⟩
      · rintro ⟨h1, h2⟩
        rw [if_pos ⟨hi, hj, h1⟩]
        exact h2)]
  unfold KS.ratings LS.block KS.ra
  simp only [L.link]
  rfl

theorem LoadedW.division {f : ℕ → Option ℕ} (hf : ∀ v < net.n, f v ≠ none) : ∃ F : String → ℕ, ∀ i < net.n, f i = some (F (net.label i)) := by
  refine ⟨fun a => (f ((names (ends ls)).idxOf a)).getD 0, fun i hi => ?_⟩
  have : (names (ends ls)).idxOf (net.label i) = i := by
    have h1 : (names (ends ls))[i]? = some (net.label i) := by
      rw [← L.labels, List.getElem?_map, List.getElem?_range hi]
      rfl
    obtain ⟨h2, h3⟩ := List.getElem?_eq_some_iff.1 h1
    rw [← h3, (names_nodup (ends ls)).idxOf_getElem]
  dsimp only
  rw [this]
  cases h : f i with
  | none => exact absurd h (hf i hi)
  | some g => rfl

theorem LoadedW.score {K : ℕ} {F : String → ℕ} {f : ℕ → Option ℕ} (hF : ∀ i < net.n, f i = some (F (net.label i))) (k : ℕ) {i j : ℕ}
    (hi : i < net.n) (hj : j < net.n) : KS.pairScore (toNet net) K f k i j = opinion ls K F k (net.label i) (net.label j) := by
  unfold KS.pairScore opinion
  rw [hF i hi, hF j hj]
  dsimp only
  rw [L.ratings hF]
  congr 1
  congr 1
  exact Finset.sum_congr rfl fun k _ => by rw [L.ratings hF]; rfl

theorem LoadedW.averages {K : ℕ} : ∀ (tr : List GP.Part), (∀ p ∈ tr, GP.PartOK (toNet net) (toNet net).n p ∧ GP.Full (toNet net) p) →
    ∃ Fs : List (String → ℕ), Fs.length = tr.length ∧ (∀ F ∈ Fs, ∀ a ∈ names (ends ls), F a < (names (ends ls)).length) ∧
      ∀ k, ∀ i < net.n, ∀ j < net.n, (tr.map fun p => KS.pairScore (toNet net) K p.inGroup k i j).sum =
        (Fs.map fun F => opinion ls K F k (net.label i) (net.label j)).sum
  | [], _ => ⟨[], rfl, by simp, by simp⟩
  | p :: tr, h => by
    obtain ⟨Fs, h1, h2, h3⟩ := LoadedW.averages (K := K) tr fun p hp => h p (by simp [hp])
    obtain ⟨hp, hf⟩ := h p (by simp)
    obtain ⟨F, hF⟩ := L.division (f := p.inGroup) (fun v hv => hf v hv)
    refine ⟨F :: Fs, by simp [h1], ?_, ?_⟩
    · intro F' hF' a ha
      rcases List.mem_cons.1 hF' with rfl | hF'
      · obtain ⟨i, hi, rfl⟩ := L.node_of ha
        rw [← L.len]
        exact (hp.range i _ (hF i hi)).2
      · exact h2 F' hF' a ha
    · intro k i hi j hj
      rw [List.map_cons, List.map_cons, List.sum_cons, List.sum_cons, h3 k i hi j hj, L.score hF k hi hj]

theorem LoadedW.ordered : ordered (ends ls) = (pairsOf (List.range net.n)).map (Prod.map net.label net.label) := by
  unfold PG.ordered
  rw [← pairsOf_eq (names_nodup (ends ls)), ← L.labels, pairsOf_map]

end

/-! ## Values -/

theorem opinion_pos (K : ℕ) (hK : 0 < K) (F : String → ℕ) (k : ℕ) (a b : String) : 0 < opinion ls K F k a b := by
  unfold opinion
  have : (0 : ℚ) < K := by exact_mod_cast hK
  positivity

theorem opinion_total (K : ℕ) (hK : 0 < K) (F : String → ℕ) (a b : String) : ∑ k ∈ Finset.range K, opinion ls K F k a b = 1 := by
  unfold opinion
  have : (0 : ℚ) < K := by exact_mod_cast hK
  rw [← Finset.sum_div, Finset.sum_add_distrib]
  simp only [Finset.sum_const, Finset.card_range, nsmul_eq_mul, mul_one]
  exact div_self (by positivity)

theorem opinions {K : ℕ} (hK : 0 < K) {Fs : List (String → ℕ)} (h : Divisions (ends ls) Fs) :
    Opinions ls K fun k a b => average Fs fun F => opinion ls K F k a b where
  averages := ⟨Fs, h, fun _ _ _ => rfl⟩
  positive := by
    intro k _ a b
    unfold average
    apply div_pos _ (by norm_num)
    apply List.sum_pos
    · intro x hx
      obtain ⟨F, _, rfl⟩ := List.mem_map.1 hx
      exact opinion_pos K hK F k a b
    · have := h.count
      intro e
      rw [List.map_eq_nil_iff] at e
      simp [e] at this
  total := by
    intro a b
    unfold average
    rw [← Finset.sum_div]
    have : ∀ l : List (String → ℕ), ∑ k ∈ Finset.range K, (l.map fun F => opinion ls K F k a b).sum = l.length := by
      intro l
      induction l with
      | nil => simp
      | cons F l ih =>
        simp only [List.map_cons, List.sum_cons, Finset.sum_add_distrib, ih, opinion_total K hK, List.length_cons]
        push_cast
        ring
    rw [this, h.count]
    norm_num

/-! ## Lines -/

theorem queries_eq (n : ℕ) : KS.queries n = pairsOf (List.range n) := by
  have : ∀ m k, (List.range' k m).flatMap (fun i => (List.range' (i + 1) (k + m - (i + 1))).map fun j => (i, j)) = pairsOf (List.range' k m) := by
    intro m
    induction m with
    | zero => intro k; rfl
    | succ m ih =>
      intro k
      have := ih (k + 1)
      rw [List.range'_succ, List.flatMap_cons, pairsOf, ← this]
      congr 2
      · congr 1; omega
      · funext i
        congr 2; omega
  have h := this n 0
  rw [← List.range_eq_range', zero_add] at h
  exact h

theorem kLines_eq (net : GR.Net) (K : ℕ) (score : ℕ → ℕ × ℕ → Option ℚ) : ∀ l : List (ℕ × ℕ), kLines net K score l =
    ((l.filter fun q => IsThereLink net q.1 q.2 = false).map fun q => (net.label q.1, net.label q.2, (List.range K).map fun k => score k q),
      (l.filter fun q => IsThereLink net q.1 q.2).map fun q => (net.label q.1, net.label q.2, (List.range K).map fun k => score k q))
  | [] => rfl
  | q :: l => by
    rw [kLines, kLines_eq net K score l]
    dsimp only
    cases h : IsThereLink net q.1 q.2 <;> simp [h]

open Classical in
theorem LoadedW.table {net : GR.Net} (L : LoadedW ls net) {K : ℕ} {score : ℕ → ℕ × ℕ → Option ℚ} {v : ℕ → String → String → ℚ}
    (h : ∀ i < net.n, ∀ j < net.n, ∀ k < K, score k (i, j) = some (v k (net.label i) (net.label j))) :
    kLines net K score (KS.queries net.n) =
      (kTable K v ((PG.ordered (ends ls)).filter fun p => ¬ (graph (ends ls)).Adj p.1 p.2),
        kTable K v ((PG.ordered (ends ls)).filter fun p => (graph (ends ls)).Adj p.1 p.2)) := by
  have key : ∀ p ∈ pairsOf (List.range net.n), ((net.label p.1, net.label p.2, (List.range K).map fun k => score k p) : KLine) =
      (net.label p.1, net.label p.2, (List.range K).map fun k => some (v k (net.label p.1) (net.label p.2))) ∧
      (IsThereLink net p.1 p.2 = true ↔ (graph (ends ls)).Adj (net.label p.1) (net.label p.2)) := by
    intro p hp
    have h1 := pairsOf_mem hp
    have hi := List.mem_range.1 h1.1
    have hj := List.mem_range.1 h1.2
    refine ⟨?_, L.isThereLink hi hj⟩
    congr 2
    exact List.map_congr_left fun k hk => h _ hi _ hj k (List.mem_range.1 hk)
  rw [kLines_eq, queries_eq, L.ordered, kTable, kTable, List.filter_map, List.filter_map, List.map_map, List.map_map]
  have e0 : (pairsOf (List.range net.n)).filter (fun p => decide (IsThereLink net p.1 p.2 = false)) =
      (pairsOf (List.range net.n)).filter ((fun p => decide (¬ (graph (ends ls)).Adj p.1 p.2)) ∘ Prod.map net.label net.label) := by
    apply List.filter_congr
    intro p hp
    simp only [Function.comp, Prod.map, ← (key p hp).2]
    simp
  have e1 : (pairsOf (List.range net.n)).filter (fun p => IsThereLink net p.1 p.2) =
      (pairsOf (List.range net.n)).filter ((fun p => decide ((graph (ends ls)).Adj p.1 p.2)) ∘ Prod.map net.label net.label) := by
    apply List.filter_congr
    intro p hp
    simp only [Function.comp, Prod.map, ← (key p hp).2]
    simp
  rw [e0, e1]
  congr 1
  · apply List.map_congr_left
    intro p hp
    exact (key p (List.mem_filter.1 hp).1).1
  · apply List.map_congr_left
    intro p hp
    exact (key p (List.mem_filter.1 hp).1).1

/-! ## The program -/

variable {strtod : String → Option ℚ} {atoi : String → Int} {files : String → Option (List Char)} {f : String} {text : List Char}

open Classical in
/-- **C157** Full statement: `reliability_links_k` always ends with files as below. It need not end (`C157_never_ends`), and the waiting time is taken from a
solver that may fail or give huge values (C132). What holds when the solver is moderate and all ratings are among 0 … K-1: the program is never
undefined; when it ends, the two files list, in the order of the labels, the pairs that are not rated and the pairs that are, each once, with
K values that are averages over 10000 divisions of the labels of `(nₖ + 1) / (n + K)`, positive and with sum 1. -/
theorem C157_reliability_links_k_partial (hf : files f = some text) (hs : List.Forall₂ (LineSays true strtod) (fileFields text) ls) {kw : String}
    {K : ℕ} (hk : atoi kw = K) (hK : 0 < K) (hr : ∀ l ∈ ls, ∃ k < K, l.2.2 = (k : ℚ)) {mi : KS.KSt → KS.KSt → ℝ} {solver : WU.Solver}
    (hM : WU.Moderate solver) (acc : ℝ → ℚ → Bool) (fuel : ℕ) (x : String) (rest : List String) (t : Tape) :
    (reliability_links_k mi solver acc fuel strtod atoi files (kw :: f :: x :: rest) t).Holds fun r => ∃ v, Opinions ls K v ∧
      r = some (kTable K v ((ordered (ends ls)).filter fun p => ¬ (graph (ends ls)).Adj p.1 p.2),
        kTable K v ((ordered (ends ls)).filter fun p => (graph (ends ls)).Adj p.1 p.2)) := by
  obtain ⟨net, e, L⟩ := loadW_ok hf hs
  unfold reliability_links_k
  simp only [e, Res.bind_ok, hk, Nat.cast_nonneg, if_true, Res.ofOption_some, Int.toNat_natCast]
  rcases WU.C134_k_state (mi := mi) hM acc (toNet net) K 10000 0 true fuel t with h | ⟨warm, d, h⟩
  · rw [h]; trivial
  · rw [h]
    refine (KS.C32_average L.simple (L.rated hr) hK acc (by norm_num) warm d true fuel t).bind ?_
    rintro score ⟨tr, hl, hp, hsc⟩
    obtain ⟨Fs, h1, h2, h3⟩ := L.averages (K := K) tr hp
    refine ⟨_, opinions hK ⟨by rw [h1, hl], h2⟩, ?_⟩
    rw [L.table (v := fun k a b => average Fs fun F => opinion ls K F k a b)]
    intro i hi j hj k hk
    rw [hsc i hi j hj k hk, h3 k i hi j hj]
    unfold average
    norm_num

/-- **C157** The crashes: without the seed, with a file that cannot be opened, and with a line with fewer than three fields or a weight that is
not a number. With fewer than two arguments the program ends at once. -/
theorem C157_crash (mi : KS.KSt → KS.KSt → ℝ) (solver : WU.Solver) (acc : ℝ → ℚ → Bool) (fuel : ℕ) (t : Tape) :
    (∀ argv : List String, argv.length < 2 → reliability_links_k mi solver acc fuel strtod atoi files argv t = .ok none) ∧
    (∀ kw f, reliability_links_k mi solver acc fuel strtod atoi files [kw, f] t = .ub) ∧
    ∀ kw f x rest, (files f = none ∨ ∃ text lines bad tail ls, files f = some text ∧ fileFields text = lines ++ bad :: tail ∧
        List.Forall₂ (LineSays true strtod) lines ls ∧ LineBad true strtod bad) →
      reliability_links_k mi solver acc fuel strtod atoi files (kw :: f :: x :: rest) t = .ub := by
  refine ⟨?_, fun _ _ => rfl, ?_⟩
  · rintro (_ | ⟨a, _ | ⟨b, l⟩⟩) h
    · rfl
    · rfl
    · simp at h
  · intro kw f x rest h
    have e : loadW strtod files f = .ub := by
      unfold loadW
      rcases h with h | ⟨text, lines, bad, tail, ls, h1, h2, h3, h4⟩
      · rw [h]
      · rw [h1]
        simp only [h2, C16_malformed true false false true strtod lines tail ls bad h3 h4]
    unfold reliability_links_k
    simp only [e, Res.bind_ub]

theorem no_ratings {net : GP.Net} (h : net.Simple) (hn : 0 < net.n) :
    KS.LSHKState net 0 ((List.range net.n).foldl (fun p v => GP.AddNodeToGroup net v v p) GP.Part.empty) = none := by
  obtain ⟨hp, hi⟩ := own_groups h net.n (le_refl _)
  set p := (List.range net.n).foldl (fun p v => GP.AddNodeToGroup net v v p) GP.Part.empty with hpdef
  have hb : LS.block net p.inGroup 0 = {0} := by
    unfold LS.block
    ext v
    simp only [Finset.mem_filter, Finset.mem_range, Finset.mem_singleton, hi]
    constructor
    · rintro ⟨h1, h2⟩
      rw [if_pos h1] at h2
      exact Option.some.inj h2
    · rintro rfl
      exact ⟨hn, by rw [if_pos hn]⟩
  have h0 : KS.pairH net 0 p 0 0 = none := by
    unfold KS.pairH
    rw [KS.ng2g_any h rfl hp hn]
    have : LS.links net p.inGroup 0 0 = 0 := by
      unfold LS.links
      rw [hb, if_pos rfl, Finset.sum_singleton, Finset.sum_singleton]
      unfold GP.Net.a
      rw [h.irrefl]
      rfl
    rw [this]
    rfl
  obtain ⟨m, hm⟩ : ∃ m, net.n = m + 1 := ⟨net.n - 1, by omega⟩
  unfold KS.LSHKState
  have e : (List.range net.n).foldlM (fun H g1 => (List.range' g1 (net.n - g1)).foldlM (fun H g2 => do
      let a ← KS.pairH net 0 p g1 g2
      some (H + a)) H) (0 : ℝ) = none := by
    rw [hm, List.range_succ_eq_map, List.foldlM_cons, Nat.sub_zero, List.range'_succ, List.foldlM_cons, h0]
    rfl
  rw [e]
  rfl

/-- **C157** With `K` zero (or anything that is not a number) or negative the program crashes on every network with nodes. -/
theorem C157_no_ratings (hf : files f = some text) (hs : List.Forall₂ (LineSays true strtod) (fileFields text) ls) (hne : ls ≠ []) {kw : String}
    (hk : atoi kw ≤ 0) (mi : KS.KSt → KS.KSt → ℝ) (solver : WU.Solver) (acc : ℝ → ℚ → Bool) (fuel : ℕ) (x : String) (rest : List String)
    (t : Tape) : reliability_links_k mi solver acc fuel strtod atoi files (kw :: f :: x :: rest) t = .ub := by
  obtain ⟨net, e, L⟩ := loadW_ok hf hs
  have hn : 0 < net.n := by
    rw [L.len, List.length_pos_iff]
    obtain ⟨l, hl⟩ := List.exists_mem_of_ne_nil _ hne
    exact List.ne_nil_of_mem (mem_names.2 ⟨(l.1, l.2.1), List.mem_map.2 ⟨l, hl, rfl⟩, Or.inl rfl⟩)
  unfold reliability_links_k
  simp only [e, Res.bind_ok]
  by_cases h0 : atoi kw = 0
  · rw [h0]
    unfold WU.LSMultiLinkScoreKState
    simp only [le_refl, if_true, Res.ofOption_some, Res.bind_ok, Int.toNat_zero, no_ratings L.simple hn, Res.ofOption_none, Res.bind_ub]
  · rw [if_neg (by omega)]
    rfl

/-! ## Examples -/

/-- Digits, for the examples. -/
def digit (s : String) : Option ℚ := if s = "0" then some 0 else if s = "1" then some 1 else if s = "2" then some 2 else none

def ratingFiles : String → Option (List Char) := fun f =>
  if f = "R" then some (tex "a b 2\nb c 0\nc b 1\nd d 1\n") else if f = "bad" then some (tex "a b 1\nc d\n") else none

/-- The second rating of `b` and `c` does not count. -/
theorem saysR : List.Forall₂ (LineSays true digit) (fileFields (tex "a b 2\nb c 0\nc b 1\nd d 1\n"))
    [("a", "b", 2), ("b", "c", 0), ("c", "b", 1), ("d", "d", 1)] := by
  have : fileFields (tex "a b 2\nb c 0\nc b 1\nd d 1\n") = [["a", "b", "2"], ["b", "c", "0"], ["c", "b", "1"], ["d", "d", "1"]] := by
    decide +kernel
  rw [this]
  refine .cons ⟨by decide +kernel, by decide +kernel, "2", [], rfl, rfl⟩ (.cons ⟨by decide +kernel, by decide +kernel, "0", [], rfl, rfl⟩
    (.cons ⟨by decide +kernel, by decide +kernel, "1", [], rfl, rfl⟩ (.cons ⟨by decide +kernel, by decide +kernel, "1", [], rfl, rfl⟩ .nil)))

example : stated [("a", "b", 2), ("b", "c", 0), ("c", "b", 1), ("d", "d", 1)] "c" "b" = some 0 := by decide +kernel

example : ordered (ends [("a", "b", 2), ("b", "c", 0), ("c", "b", 1), ("d", "d", 1)]) =
    [("a", "b"), ("a", "c"), ("a", "d"), ("b", "c"), ("b", "d"), ("c", "d")] := by decide +kernel

example {solver : WU.Solver} (hM : WU.Moderate solver) (t : Tape) := C157_reliability_links_k_partial (files := ratingFiles) (f := "R")
  (atoi := fun _ => 3) (kw := "3") (K := 3) rfl saysR rfl (by decide) (by
    intro l hl
    simp only [List.mem_cons, List.not_mem_nil, or_false] at hl
    rcases hl with rfl | rfl | rfl | rfl
    exacts [⟨2, by decide, rfl⟩, ⟨0, by decide, by norm_num⟩, ⟨1, by decide, by norm_num⟩, ⟨1, by decide, by norm_num⟩])
  (mi := fun _ _ => 0) hM (fun _ _ => true) 9 "1" [] t

example (mi : KS.KSt → KS.KSt → ℝ) (solver : WU.Solver) (t : Tape) :
    reliability_links_k mi solver (fun _ _ => true) 9 digit (fun _ => 0) ratingFiles ["no", "R", "1"] t = .ub :=
  C157_no_ratings rfl saysR (by simp) le_rfl mi solver _ 9 "1" [] t

example (mi : KS.KSt → KS.KSt → ℝ) (solver : WU.Solver) (t : Tape) :
    reliability_links_k mi solver (fun _ _ => true) 9 digit (fun _ => 3) ratingFiles ["3", "bad", "1"] t = .ub := by
  have e : fileFields (tex "a b 1\nc d\n") = [["a", "b", "1"], ["c", "d"]] := by decide +kernel
  exact (C157_crash mi solver _ 9 t).2.2 "3" "bad" "1" [] (Or.inr ⟨_, [["a", "b", "1"]], ["c", "d"], [], [("a", "b", 1)], rfl, e,
    .cons ⟨by decide +kernel, by decide +kernel, "1", [], rfl, rfl⟩ .nil, by decide +kernel, Or.inl (by decide)⟩)

/-- One group: one rating 2 and one rating 0; the value of rating 2 for each pair is 2 / 5. -/
example : opinion [("a", "b", 2), ("b", "c", 0)] 3 (fun _ => 0) 2 "a" "c" = 2 / 5 := by
  have key : ∀ (w : ℚ) (x y : String), x ≠ y → (∀ a b, stated [("a", "b", 2), ("b", "c", 0)] a b = some w → s(a, b) = s(x, y)) →
      stated [("a", "b", 2), ("b", "c", 0)] x y = some w → between (rated [("a", "b", 2), ("b", "c", 0)] w) (fun _ => 0) 0 0 = 1 := by
    intro w x y hxy h1 h2
    unfold between
    rw [Set.ncard_eq_one]
    refine ⟨s(x, y), ?_⟩
    ext e
    induction e with
    | _ a b =>
      simp only [Set.mem_ofPred_eq, Set.mem_singleton_iff, SimpleGraph.mem_edgeSet]
      constructor
      · rintro ⟨h3, _⟩
        exact h1 a b h3.2
      · intro h3
        refine ⟨?_, a, b, rfl, by simp⟩
        have : (rated [("a", "b", 2), ("b", "c", 0)] w).Adj x y := ⟨hxy, h2⟩
        rw [← SimpleGraph.mem_edgeSet, h3, SimpleGraph.mem_edgeSet]
        exact this
  have st : ∀ a b w, stated [("a", "b", 2), ("b", "c", 0)] a b = some w → (s(a, b) = s("a", "b") ∧ w = 2) ∨ (s(a, b) = s("b", "c") ∧ w = 0) := by
    intro a b w h
    unfold stated at h
    obtain ⟨l, hl, rfl⟩ := Option.map_eq_some_iff.1 h
    have h1 := List.mem_of_find?_eq_some hl
    have h2 := List.find?_some hl
    simp only [decide_eq_true_eq] at h2
    simp only [List.mem_cons, List.not_mem_nil, or_false] at h1
    rcases h1 with rfl | rfl
    · left
      refine ⟨?_, rfl⟩
      rcases h2 with ⟨rfl, rfl⟩ | ⟨rfl, rfl⟩
      exacts [rfl, Sym2.eq_swap]
    · right
      refine ⟨?_, rfl⟩
      rcases h2 with ⟨rfl, rfl⟩ | ⟨rfl, rfl⟩
      exacts [rfl, Sym2.eq_swap]
  have c2 : between (rated [("a", "b", 2), ("b", "c", 0)] ((2 : ℕ) : ℚ)) (fun _ => 0) 0 0 = 1 := by
    refine key _ "a" "b" (by decide) (fun a b h => ?_) (by decide +kernel)
    rcases st a b _ h with ⟨e, _⟩ | ⟨_, e⟩
    · exact e
    · norm_num at e
  have c0 : between (rated [("a", "b", 2), ("b", "c", 0)] ((0 : ℕ) : ℚ)) (fun _ => 0) 0 0 = 1 := by
    refine key _ "b" "c" (by decide) (fun a b h => ?_) (by decide +kernel)
    rcases st a b _ h with ⟨_, e⟩ | ⟨e, _⟩
    · norm_num at e
    · exact e
  have c1 : between (rated [("a", "b", 2), ("b", "c", 0)] ((1 : ℕ) : ℚ)) (fun _ => 0) 0 0 = 0 := by
    unfold between
    convert Set.ncard_empty (Sym2 String)
    ext e
    induction e with
    | _ a b =>
      simp only [Set.mem_ofPred_eq, SimpleGraph.mem_edgeSet, Set.mem_empty_iff_false, iff_false]
      rintro ⟨h, _⟩
      rcases st a b _ h.2 with ⟨_, e⟩ | ⟨_, e⟩ <;> norm_num at e
  unfold opinion
  rw [Finset.sum_range_succ, Finset.sum_range_succ, Finset.sum_range_one, c0, c1, c2]
  norm_num

end PG
