import Verif.Utils.Model
import Verif.Utils.Spec
import Verif.Graph.Props
import Verif.Graph.RandomProps
import Verif.Graph.Sets
import Verif.BFS.Indices
import Verif.BFS.CorrSpec

/-!
# What the programs load
-/

set_option linter.unusedSimpArgs false
set_option linter.unusedSectionVars false

namespace UT

open GR RG

/-! ## Fields of a file -/

theorem wordsFrom_word : ∀ (s cur : List Char), (∀ c ∈ cur, FIO.isSpace c = false) → ∀ w ∈ wordsFrom cur s,
    w ≠ [] ∧ ∀ c ∈ w, FIO.isSpace c = false
  | [], cur, h, w, hw => by
    unfold wordsFrom at hw
    split_ifs at hw with h0
    · simp at hw
    · rw [List.mem_singleton] at hw
      subst hw
      exact ⟨h0, h⟩
  | c :: s, cur, h, w, hw => by
    unfold wordsFrom at hw
    split_ifs at hw with h1 h0
    · exact wordsFrom_word s [] (by simp) w hw
    · rcases List.mem_cons.1 hw with rfl | hw
      · exact ⟨h0, h⟩
      · exact wordsFrom_word s [] (by simp) w hw
    · refine wordsFrom_word s (cur ++ [c]) ?_ w hw
      intro d hd
      rcases List.mem_append.1 hd with hd | hd
      · exact h d hd
      · rw [List.mem_singleton] at hd
        subst hd
        simpa using h1

theorem field_word {text : List Char} : ∀ toks ∈ fileFields text, ∀ s ∈ toks, Word s := by
  intro toks ht s hs
  obtain ⟨l, _, rfl⟩ := List.mem_map.1 ht
  obtain ⟨w, hw, rfl⟩ := List.mem_map.1 hs
  have := wordsFrom_word l [] (by simp) w hw
  simpa [Word] using this

/-! ## The network of a file -/

open Classical in
/-- Weights of the network of a file. -/
noncomputable def weights (ps : List (String × String)) (net : Net) : WG := fun i j =>
  if i < net.n ∧ j < net.n ∧ (graph ps).Adj (net.label i) (net.label j) then some 1 else none

/-- The network that the programs load from a file that says `ps`. -/
structure Loaded (ps : List (String × String)) (net : Net) : Prop where
  labels : (List.range net.n).map net.label = names ps
  holds : Holds net (weights ps net)
  link_labels : LabelsOK net
  caches : CachesOK net
  fit : Fit net
  words : ∀ i < net.n, Word (net.label i)
  outside : ∀ i, net.n ≤ i → net.neig i = []

/-- Slots that no node uses are empty. -/
def Out (net : Net) (dict : List (String × ℕ)) : Prop :=
  (∀ i, net.n ≤ i → net.neig i = []) ∧ ∀ a i, dict.lookup a = some i → i < net.n

theorem getNode_out {net net' : Net} {dict dict' : List (String × ℕ)} {a : String} {i : ℕ} (h : Out net dict)
    (e : getNode net dict a = some (i, net', dict')) : Out net' dict' ∧ i < net'.n ∧ net.n ≤ net'.n := by
  unfold getNode at e
  cases hl : dict.lookup a with
  | some k =>
    rw [hl] at e
    obtain ⟨rfl, rfl, rfl⟩ : k = i ∧ net = net' ∧ dict = dict' := by simpa using e
    exact ⟨h, h.2 _ _ hl, le_rfl⟩
  | none =>
    rw [hl] at e
    unfold CreateNodeGraph at e
    split_ifs at e
    · simp only [Option.bind_eq_bind, Option.bind_some, Option.pure_def, Option.some.injEq, Prod.mk.injEq] at e
      obtain ⟨rfl, rfl, rfl⟩ := e
      refine ⟨⟨?_, ?_⟩, Nat.lt_succ_self _, Nat.le_succ _⟩
      · intro i hi
        simp only at hi ⊢
        rw [Function.update_of_ne (by omega)]
        exact h.1 i (by omega)
      · intro b k hk
        rw [List.lookup_cons] at hk
        simp only
        split at hk
        · cases hk; omega
        · have := h.2 b k hk; omega
    · simp at e

theorem add_out {net : Net} {dict : List (String × ℕ)} (h : Out net dict) {i : ℕ} (hi : i < net.n) (j : ℕ) (auto add : Bool) (w : ℚ) :
    Out (AddAdjacency net i j auto add w).2 dict ∧ (AddAdjacency net i j auto add w).2.n = net.n := by
  unfold AddAdjacency
  split_ifs
  · exact ⟨h, rfl⟩
  · refine ⟨⟨?_, h.2⟩, rfl⟩
    intro k hk
    simp only [resetCaches] at hk ⊢
    rw [Function.update_of_ne (by omega)]
    exact h.1 k hk

theorem build_out {weighted auto add sym : Bool} {strtod : String → Option ℚ} : ∀ (lines : List (List String)) (net : Net)
    (dict : List (String × ℕ)) (net' : Net), Out net dict → buildLoop weighted auto add sym strtod lines net dict = some (some net') →
    ∀ i, net'.n ≤ i → net'.neig i = []
  | [], net, dict, net', h, e => by
    simp only [buildLoop, Option.some.injEq] at e
    subst e
    exact h.1
  | toks :: lines, net, dict, net', h, e => by
    rw [buildLoop] at e
    simp only [Option.bind_eq_bind, Option.bind_eq_some_iff] at e
    obtain ⟨r, _, e⟩ := e
    cases r with
    | none => simp at e
    | some r =>
      obtain ⟨a, b, w⟩ := r
      simp only [Option.bind_eq_some_iff] at e
      obtain ⟨⟨n1, net1, dict1⟩, e1, ⟨n2, net2, dict2⟩, e2, e⟩ := e
      obtain ⟨h1, l1, _⟩ := getNode_out h e1
      obtain ⟨h2, l2, l3⟩ := getNode_out h1 e2
      obtain ⟨h3, l4⟩ := add_out h2 (i := n1) (by omega) n2 auto add w
      obtain ⟨h4, _⟩ := add_out h3 (i := n2) (by omega) n1 auto add w
      simp only at e
      split_ifs at e
      · exact build_out lines _ _ net' h4 e
      · exact build_out lines _ _ net' h3 e

theorem names_nodup (ps : List (String × String)) : (names ps).Nodup := by
  unfold names
  rw [List.nodup_reverse]
  exact List.nodup_dedup _

theorem mem_names {ps : List (String × String)} {a : String} : a ∈ names ps ↔ ∃ p ∈ ps, a = p.1 ∨ a = p.2 := by
  simp [names]

theorem adj_names {ps : List (String × String)} {a b : String} (h : (graph ps).Adj a b) : a ∈ names ps ∧ b ∈ names ps := by
  rw [mem_names, mem_names]
  rcases h.2 with h | h
  · exact ⟨⟨_, h, Or.inl rfl⟩, ⟨_, h, Or.inr rfl⟩⟩
  · exact ⟨⟨_, h, Or.inr rfl⟩, ⟨_, h, Or.inl rfl⟩⟩

namespace Loaded

variable {ps : List (String × String)} {net : Net} (L : Loaded ps net)
include L

theorem len : net.n = (names ps).length := by rw [← L.labels]; simp

theorem distinct : Distinct net := by
  intro i j hi hj e
  have hn := names_nodup ps
  rw [← L.labels] at hn
  exact List.inj_on_of_nodup_map hn (List.mem_range.2 hi) (List.mem_range.2 hj) e

theorem label_mem {i : ℕ} (hi : i < net.n) : net.label i ∈ names ps := by
  rw [← L.labels]; exact List.mem_map.2 ⟨i, List.mem_range.2 hi, rfl⟩

theorem label_get {i : ℕ} (hi : i < net.n) : (names ps)[i]? = some (net.label i) := by
  rw [← L.labels, List.getElem?_map, List.getElem?_range hi]
  rfl

theorem node_of {a : String} (ha : a ∈ names ps) : ∃ i, i < net.n ∧ net.label i = a := by
  rw [← L.labels] at ha
  obtain ⟨i, hi, e⟩ := List.mem_map.1 ha
  exact ⟨i, List.mem_range.1 hi, e⟩

theorem symSimple : SymSimple net.n (weights ps net) := by
  refine ⟨?_, ?_, ?_⟩
  · intro i j
    unfold weights
    have : (i < net.n ∧ j < net.n ∧ (graph ps).Adj (net.label i) (net.label j)) ↔
        (j < net.n ∧ i < net.n ∧ (graph ps).Adj (net.label j) (net.label i)) := by
      rw [(graph ps).adj_comm]; tauto
    classical exact if_congr this rfl rfl
  · intro i
    unfold weights
    rw [if_neg (by simp)]
  · intro i j h
    unfold weights at h
    split_ifs at h with h1
    · exact ⟨h1.1, h1.2.1⟩
    · simp at h

theorem weights_isSome {i j : ℕ} : (weights ps net i j).isSome ↔ i < net.n ∧ j < net.n ∧ (graph ps).Adj (net.label i) (net.label j) := by
  unfold weights
  split_ifs with h <;> simp [h]

theorem weights_one {i j : ℕ} {w : ℚ} (h : weights ps net i j = some w) : w = 1 := by
  unfold weights at h
  split_ifs at h with h1
  exact (Option.some.inj h).symm

theorem sym (i j : ℕ) : (weights ps net i j).isSome = (weights ps net j i).isSome := by rw [L.symSimple.sym]

theorem mem_targets' (i j : ℕ) : j ∈ targets net i ↔ i < net.n ∧ j < net.n ∧ (graph ps).Adj (net.label i) (net.label j) := by
  by_cases hi : i < net.n
  · rw [targets_mem L.holds hi, L.weights_isSome]
  · simp [targets, L.outside i (by omega), hi]

theorem range : BFS.InRange (targets net) net.n := fun i _ j hj => ((L.mem_targets' i j).1 hj).2.1

theorem nodup (i : ℕ) : (targets net i).Nodup := by
  by_cases hi : i < net.n
  · have h := (L.holds i hi).1
    have e : targets net i = ((net.neig i).map Link.ref).filterMap id := by
      unfold targets; rw [List.filterMap_map]; rfl
    rw [e]
    refine List.Nodup.filterMap ?_ h
    intro a a' b hb hb'
    rw [Option.mem_def] at hb hb'
    exact hb.trans hb'.symm
  · simp [targets, L.outside i (by omega)]

theorem simple : BFS.Simple (targets net) net.n := by
  refine ⟨L.range, ?_, L.nodup, ?_⟩
  · intro i j h
    rw [L.mem_targets'] at h ⊢
    exact ⟨h.2.1, h.1, h.2.2.symm⟩
  · intro i h
    rw [L.mem_targets'] at h
    exact h.2.2.1 rfl

theorem mem_targets {i : ℕ} (hi : i < net.n) (j : ℕ) : j ∈ targets net i ↔ j < net.n ∧ (graph ps).Adj (net.label i) (net.label j) := by
  rw [targets_mem L.holds hi, L.weights_isSome]
  simp [hi]

end Loaded

theorem stated_ne_nil {ps : List (String × String)} {a b : String} (hab : a ≠ b) :
    statedWeights true (ps.map fun p => (p.1, p.2, (1 : ℚ))) a b ≠ [] ↔ (a, b) ∈ ps ∨ (b, a) ∈ ps := by
  unfold statedWeights
  rw [Ne, List.flatMap_eq_nil_iff]
  push Not
  constructor
  · rintro ⟨l, hl, hne⟩
    obtain ⟨⟨x, y⟩, hp, rfl⟩ := List.mem_map.1 hl
    simp only at hne
    by_cases h1 : x = a ∧ y = b
    · obtain ⟨rfl, rfl⟩ := h1; exact Or.inl hp
    · rw [if_neg h1, List.nil_append] at hne
      split_ifs at hne with h2
      · obtain ⟨_, _, rfl, rfl⟩ := h2; exact Or.inr hp
      · exact (hne rfl).elim
  · rintro (h | h)
    · exact ⟨_, List.mem_map.2 ⟨_, h, rfl⟩, by simp⟩
    · exact ⟨_, List.mem_map.2 ⟨_, h, rfl⟩, by simp [hab.symm]⟩

theorem stated_one {ps : List (String × String)} {a b : String} :
    ∀ w ∈ statedWeights true (ps.map fun p => (p.1, p.2, (1 : ℚ))) a b, w = 1 := by
  intro w hw
  unfold statedWeights at hw
  obtain ⟨l, hl, hw⟩ := List.mem_flatMap.1 hw
  obtain ⟨p, _, rfl⟩ := List.mem_map.1 hl
  rcases List.mem_append.1 hw with hw | hw
  · split_ifs at hw <;> simp at hw; exact hw
  · split_ifs at hw <;> simp at hw; exact hw

/-- Loading a well-formed file. -/
theorem load_ok {files : String → Option (List Char)} {f : String} {text : List Char} {ps : List (String × String)}
    (hf : files f = some text) (hs : Says text ps) : ∃ net, load files f = .ok net ∧ Loaded ps net := by
  classical
  have hsays : List.Forall₂ (LineSays false (fun _ => none)) (fileFields text) (ps.map fun p => (p.1, p.2, (1 : ℚ))) := by
    rw [List.forall₂_map_right_iff]
    refine List.Forall₂.imp ?_ hs
    rintro toks p ⟨h1, h2, h3⟩
    exact ⟨h1, h2, by simpa using h3⟩
  obtain ⟨net, e, h1, h2, h3, h4, h5⟩ := C16_build false false false true (fun _ => none) _ _ hsays
  have hlab : (List.range net.n).map net.label = names ps := by
    rw [h1]
    unfold firstLabels names
    rw [List.flatMap_map]
  refine ⟨net, ?_, hlab, ?_, h3, h4, h5, ?_, build_out _ _ _ net ⟨fun _ _ => rfl, by simp⟩ e⟩
  · unfold load
    rw [hf]
    simp only [e]
  · have hg : (fun i j => if i < net.n ∧ j < net.n then
        fileWeight false false true (ps.map fun p => (p.1, p.2, (1 : ℚ))) (net.label i) (net.label j) else none) = weights ps net := by
      funext i j
      unfold weights
      by_cases hij : i < net.n ∧ j < net.n
      · rw [if_pos hij]
        unfold fileWeight
        by_cases e : net.label i = net.label j
        · rw [if_pos ⟨e, rfl⟩, if_neg (by rintro ⟨_, _, h⟩; exact h.1 e)]
        · rw [if_neg (by rintro ⟨h, _⟩; exact e h)]
          have hne := stated_ne_nil (ps := ps) e
          have h1 := stated_one (ps := ps) (a := net.label i) (b := net.label j)
          cases hst : statedWeights true (ps.map fun p => (p.1, p.2, (1 : ℚ))) (net.label i) (net.label j) with
          | nil =>
            rw [if_neg]
            rintro ⟨_, _, h⟩
            exact hne.2 h.2 hst
          | cons w ws =>
            rw [if_pos ⟨hij.1, hij.2, e, hne.1 (by rw [hst]; simp)⟩]
            rw [hst] at h1
            simp [h1 w (by simp)]
      · rw [if_neg hij, if_neg (by rintro ⟨h, h', _⟩; exact hij ⟨h, h'⟩)]
    rw [← hg]
    exact h2
  · intro i hi
    have : net.label i ∈ names ps := by
      rw [← hlab]; exact List.mem_map.2 ⟨i, List.mem_range.2 hi, rfl⟩
    obtain ⟨p, hp, hip⟩ := mem_names.1 this
    obtain ⟨toks, ht, hpt⟩ : ∃ toks ∈ fileFields text, ∃ rest, toks = p.1 :: p.2 :: rest := by
      have := List.forall₂_iff_get.1 hs
      obtain ⟨k, hk⟩ := List.get_of_mem hp
      refine ⟨_, List.get_mem (fileFields text) ⟨k, by rw [this.1]; exact k.2⟩, ?_⟩
      have h := (this.2 k (by rw [this.1]; exact k.2) k.2).2.2
      obtain ⟨rest, hr⟩ := h
      refine ⟨rest, ?_⟩
      rw [hr]
      have : ps.get ⟨k, k.2⟩ = p := hk
      rw [this]
    obtain ⟨rest, rfl⟩ := hpt
    rcases hip with e | e <;> rw [e] <;> exact field_word _ ht _ (by simp)

/-- A file that is not there, or with a line of fewer than two fields, crashes every program. -/
theorem load_missing {files : String → Option (List Char)} {f : String} (hf : files f = none) : load files f = .ub := by
  unfold load; rw [hf]

theorem split_first {α : Type} {p : α → Prop} : ∀ {l : List α}, (∃ x ∈ l, p x) →
    ∃ a x b, l = a ++ x :: b ∧ p x ∧ ∀ y ∈ a, ¬ p y
  | [], h => by simp at h
  | y :: l, h => by
    by_cases hy : p y
    · exact ⟨[], y, l, rfl, hy, by simp⟩
    · obtain ⟨x, hx, hp⟩ := h
      rcases List.mem_cons.1 hx with rfl | hx
      · exact (hy hp).elim
      · obtain ⟨a, x, b, e, h1, h2⟩ := split_first ⟨x, hx, hp⟩
        refine ⟨y :: a, x, b, by rw [e]; rfl, h1, ?_⟩
        intro z hz
        rcases List.mem_cons.1 hz with rfl | hz
        · exact hy
        · exact h2 z hz

theorem load_malformed {files : String → Option (List Char)} {f : String} {text : List Char} (hf : files f = some text)
    (hm : Malformed text) : load files f = .ub := by
  obtain ⟨hfit, hbad⟩ := hm
  obtain ⟨a, x, b, e, hx, ha⟩ := split_first (p := fun toks : List String => toks.length < 2) hbad
  have hs : ∃ ls, List.Forall₂ (LineSays false (fun _ => none)) a ls := by
    have ha' : ∀ toks ∈ a, (∀ s ∈ toks, fits s = true) ∧ 2 ≤ toks.length := fun toks ht =>
      ⟨hfit toks (by rw [e]; simp [ht]), not_lt.1 (ha toks ht)⟩
    clear e ha
    induction a with
    | nil => exact ⟨[], .nil⟩
    | cons t a ih =>
      obtain ⟨ls, hls⟩ := ih fun toks ht => ha' toks (by simp [ht])
      obtain ⟨h1, h2⟩ := ha' t (by simp)
      obtain _ | ⟨u, _ | ⟨v, rest⟩⟩ := t
      · simp at h2
      · simp at h2
      · exact ⟨(u, v, 1) :: ls, .cons ⟨h1 u (by simp), h1 v (by simp), by simp⟩ hls⟩
  obtain ⟨ls, hls⟩ := hs
  have := C16_malformed false false false true (fun _ => none) a b ls x hls
    ⟨hfit x (by rw [e]; simp), by simpa using hx⟩
  unfold load
  rw [hf]
  simp only [e, this]

end UT
