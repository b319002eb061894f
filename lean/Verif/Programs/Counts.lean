import Verif.Programs.Model
import Verif.Programs.Spec
import Verif.Utils.Load
import Verif.Missing.Spec
import Mathlib.Tactic.Linarith

/-!
# The counts of the samplers in terms of labels
-/

set_option linter.unusedSimpArgs false
set_option linter.unusedSectionVars false

namespace PG

open UT GR
open scoped BigOperators

/-! ## The network of the samplers -/

section
variable {ps : List (String × String)} {net : GR.Net} (L : Loaded ps net)
include L

theorem toNet_fst (i : ℕ) : ((toNet net).neig i).map (·.1) = targets net i := by
  unfold toNet targets
  rw [List.map_filterMap]
  congr 1
  funext l
  cases l.ref <;> rfl

theorem toNet_one {i : ℕ} {x : ℕ × ℚ} (hx : x ∈ (toNet net).neig i) : x.2 = 1 := by
  obtain ⟨l, hl, e⟩ := List.mem_filterMap.1 hx
  by_cases hi : i < net.n
  · obtain ⟨j, _, e2, e3⟩ := (L.holds i hi).2.1 l hl
    rw [e2] at e
    simp only [Option.map_some, Option.some.injEq] at e
    subst e
    exact L.weights_one e3
  · rw [L.outside i (by omega)] at hl
    simp at hl

open Classical in
theorem toNet_link (i j : ℕ) : (toNet net).link i j =
    if i < net.n ∧ j < net.n ∧ (graph ps).Adj (net.label i) (net.label j) then some 1 else none := by
  unfold GP.Net.link
  have hm := L.mem_targets' i j
  rw [← toNet_fst L, List.mem_map] at hm
  cases hf : ((toNet net).neig i).find? fun x => x.1 = j with
  | none =>
    rw [if_neg, Option.map_none]
    intro h
    obtain ⟨x, hx, e⟩ := hm.2 h
    have := List.find?_eq_none.1 hf x hx
    simp [e] at this
  | some x =>
    have h1 := List.mem_of_find?_eq_some hf
    have h2 := List.find?_some hf
    rw [if_pos (hm.1 ⟨x, h1, by simpa using h2⟩), Option.map_some, toNet_one L h1]

theorem toNet_simple : (toNet net).Simple where
  nodup i := by rw [toNet_fst L]; exact L.nodup i
  range i x hx := by
    have : x.1 ∈ targets net i := by rw [← toNet_fst L]; exact List.mem_map.2 ⟨x, hx, rfl⟩
    exact ((L.mem_targets' i x.1).1 this).2.1
  sym i j := by
    rw [toNet_link L, toNet_link L]
    have : (i < net.n ∧ j < net.n ∧ (graph ps).Adj (net.label i) (net.label j)) ↔
        (j < net.n ∧ i < net.n ∧ (graph ps).Adj (net.label j) (net.label i)) := by
      rw [(graph ps).adj_comm]; tauto
    classical exact if_congr this rfl rfl
  irrefl i := by rw [toNet_link L, if_neg (by simp)]

open Classical in
theorem toNet_a (i j : ℕ) : (toNet net).a i j = if i < net.n ∧ j < net.n ∧ (graph ps).Adj (net.label i) (net.label j) then 1 else 0 := by
  unfold GP.Net.a
  rw [toNet_link L]
  split_ifs <;> simp_all

end

/-! ## Counting edges between groups -/

/-- Edges between groups, counted by numbers of nodes. -/
theorem between_eq {n : ℕ} {label : ℕ → String} (inj : ∀ i < n, ∀ j < n, label i = label j → i = j) {G : SimpleGraph String}
    (hG : ∀ a b, G.Adj a b → (∃ i < n, label i = a) ∧ ∃ j < n, label j = b) {F : String → ℕ} {f : ℕ → Option ℕ}
    (hF : ∀ i < n, f i = some (F (label i))) (adj : ℕ → ℕ → Prop) [DecidableRel adj]
    (hadj : ∀ i < n, ∀ j < n, adj i j ↔ G.Adj (label i) (label j)) (g g' : ℕ) :
    (between G F g g' : Int) =
      if g = g' then
        (∑ i ∈ (Finset.range n).filter (fun v => f v = some g), ∑ j ∈ (Finset.range n).filter (fun v => f v = some g'),
          if adj i j then 1 else 0) / 2
      else ∑ i ∈ (Finset.range n).filter (fun v => f v = some g), ∑ j ∈ (Finset.range n).filter (fun v => f v = some g'),
          if adj i j then 1 else 0 := by
  classical
  set A := (Finset.range n).filter (fun v => f v = some g) with hA
  set B := (Finset.range n).filter (fun v => f v = some g') with hB
  have mA : ∀ i, i ∈ A ↔ i < n ∧ F (label i) = g := by
    intro i
    simp only [hA, Finset.mem_filter, Finset.mem_range]
    constructor
    · rintro ⟨h1, h2⟩
      rw [hF i h1] at h2
      exact ⟨h1, by simpa using h2⟩
    · rintro ⟨h1, h2⟩
      exact ⟨h1, by rw [hF i h1, h2]⟩
  have mB : ∀ i, i ∈ B ↔ i < n ∧ F (label i) = g' := by
    intro i
    simp only [hB, Finset.mem_filter, Finset.mem_range]
    constructor
    · rintro ⟨h1, h2⟩
      rw [hF i h1] at h2
      exact ⟨h1, by simpa using h2⟩
    · rintro ⟨h1, h2⟩
      exact ⟨h1, by rw [hF i h1, h2]⟩
  set S := (A ×ˢ B).filter (fun p => adj p.1 p.2) with hS
  have hsum : (∑ i ∈ A, ∑ j ∈ B, if adj i j then (1 : Int) else 0) = S.card := by
    rw [hS, Finset.card_filter, Finset.sum_product]
    push_cast
    rfl
  rw [hsum]
  set m : ℕ × ℕ → Sym2 String := fun p => s(label p.1, label p.2) with hm
  have hset : {e ∈ G.edgeSet | ∃ a b, e = s(a, b) ∧ F a = g ∧ F b = g'} = ↑(S.image m) := by
    ext e
    simp only [Set.mem_sep_iff, Finset.coe_image, Set.mem_image, Finset.mem_coe, hS, Finset.mem_filter, Finset.mem_product, mA, mB]
    constructor
    · rintro ⟨h1, a, b, rfl, h2, h3⟩
      rw [SimpleGraph.mem_edgeSet] at h1
      obtain ⟨⟨i, hi, rfl⟩, j, hj, rfl⟩ := hG a b h1
      exact ⟨(i, j), ⟨⟨⟨hi, h2⟩, hj, h3⟩, (hadj i hi j hj).2 h1⟩, rfl⟩
    · rintro ⟨⟨i, j⟩, ⟨⟨⟨hi, h2⟩, hj, h3⟩, h4⟩, rfl⟩
      exact ⟨by rw [SimpleGraph.mem_edgeSet]; exact (hadj i hi j hj).1 h4, _, _, rfl, h2, h3⟩
  unfold between
  rw [hset, Set.ncard_coe_finset]
  have same : ∀ p q : ℕ × ℕ, p.1 < n → p.2 < n → q.1 < n → q.2 < n → m p = m q → p = q ∨ p = q.swap := by
    rintro ⟨i, j⟩ ⟨k, l⟩ h1 h2 h3 h4 h
    simp only [hm, Sym2.eq_iff] at h
    dsimp only at h1 h2 h3 h4
    rcases h with ⟨h, h'⟩ | ⟨h, h'⟩
    · exact Or.inl (by rw [inj _ h1 _ h3 h, inj _ h2 _ h4 h'])
    · exact Or.inr (by rw [inj _ h1 _ h4 h, inj _ h2 _ h3 h']; rfl)
  have mS : ∀ p, p ∈ S ↔ (p.1 < n ∧ F (label p.1) = g) ∧ (p.2 < n ∧ F (label p.2) = g') ∧ adj p.1 p.2 := by
    intro p
    simp only [hS, Finset.mem_filter, Finset.mem_product, mA, mB]
    tauto
  by_cases hg : g = g'
  · rw [if_pos hg]
    subst hg
    have irr : ∀ p ∈ S, p.1 ≠ p.2 := by
      intro p hp e
      have := (mS p).1 hp
      have h := (hadj p.1 this.1.1 p.2 this.2.1.1).1 this.2.2
      rw [e] at h
      exact G.loopless.irrefl _ h
    have sw : ∀ p ∈ S, p.swap ∈ S := by
      intro p hp
      have := (mS p).1 hp
      refine (mS _).2 ⟨this.2.1, this.1, ?_⟩
      rw [Prod.fst_swap, Prod.snd_swap, hadj _ this.2.1.1 _ this.1.1, G.adj_comm, ← hadj _ this.1.1 _ this.2.1.1]
      exact this.2.2
    set T := S.filter (fun p => p.1 < p.2) with hT
    have h1 : (S.filter (fun p => ¬ p.1 < p.2)).card = T.card := by
      refine Finset.card_bij' (fun p _ => p.swap) (fun p _ => p.swap) ?_ ?_ (fun p _ => p.swap_swap) (fun p _ => p.swap_swap)
      · intro p hp
        rw [Finset.mem_filter] at hp
        rw [hT, Finset.mem_filter]
        have := irr p hp.1
        exact ⟨sw p hp.1, by simp only [Prod.fst_swap, Prod.snd_swap]; omega⟩
      · intro p hp
        rw [hT, Finset.mem_filter] at hp
        rw [Finset.mem_filter]
        exact ⟨sw p hp.1, by simp only [Prod.fst_swap, Prod.snd_swap]; omega⟩
    have h2 := Finset.card_filter_add_card_filter_not (s := S) (fun p : ℕ × ℕ => p.1 < p.2)
    rw [h1, ← hT] at h2
    have h3 : S.image m = T.image m := by
      apply Finset.Subset.antisymm
      · intro e he
        obtain ⟨p, hp, rfl⟩ := Finset.mem_image.1 he
        by_cases hlt : p.1 < p.2
        · exact Finset.mem_image.2 ⟨p, by rw [hT, Finset.mem_filter]; exact ⟨hp, hlt⟩, rfl⟩
        · have := irr p hp
          refine Finset.mem_image.2 ⟨p.swap, ?_, Sym2.eq_swap⟩
          rw [hT, Finset.mem_filter]
          exact ⟨sw p hp, by simp only [Prod.fst_swap, Prod.snd_swap]; omega⟩
      · exact Finset.image_subset_image (Finset.filter_subset _ _)
    rw [h3, Finset.card_image_of_injOn]
    · omega
    · intro p hp q hq e
      rw [Finset.mem_coe, hT, Finset.mem_filter] at hp hq
      have := (mS p).1 hp.1
      have := (mS q).1 hq.1
      rcases same p q (by tauto) (by tauto) (by tauto) (by tauto) e with h | h
      · exact h
      · have h1 := hp.2
        have h2 := hq.2
        rw [h, Prod.fst_swap, Prod.snd_swap] at h1
        omega
  · rw [if_neg hg, Finset.card_image_of_injOn]
    intro p hp q hq e
    rw [Finset.mem_coe] at hp hq
    have h1 := (mS p).1 hp
    have h2 := (mS q).1 hq
    rcases same p q (by tauto) (by tauto) (by tauto) (by tauto) e with h | h
    · exact h
    · rw [h, Prod.fst_swap] at h1
      exact absurd (h1.1.2.symm.trans h2.2.1.2) hg

section
variable {ps : List (String × String)} {net : GR.Net} (L : Loaded ps net)
include L

theorem links_eq {F : String → ℕ} {f : ℕ → Option ℕ} (hF : ∀ i < net.n, f i = some (F (net.label i))) (g g' : ℕ) :
    LS.links (toNet net) f g g' = between (graph ps) F g g' := by
  classical
  rw [between_eq (n := net.n) (label := net.label) (fun i hi j hj => L.distinct i j hi hj)
    (fun a b h => ⟨L.node_of (adj_names h).1, L.node_of (adj_names h).2⟩) hF
    (fun i j => i < net.n ∧ j < net.n ∧ (graph ps).Adj (net.label i) (net.label j)) (fun i hi j hj => by simp [hi, hj])]
  unfold LS.links LS.block
  simp only [toNet_a L]
  rfl

theorem pairs_eq {F : String → ℕ} {f : ℕ → Option ℕ} (hF : ∀ i < net.n, f i = some (F (net.label i))) (g g' : ℕ) :
    LS.pairs (toNet net) f g g' = between (allPairs ps) F g g' := by
  classical
  rw [between_eq (n := net.n) (label := net.label) (fun i hi j hj => L.distinct i j hi hj)
    (G := allPairs ps) (fun a b h => ⟨L.node_of h.2.1, L.node_of h.2.2⟩) hF
    (fun i j => i ≠ j) (fun i hi j hj => by
      constructor
      · intro h
        exact ⟨fun e => h (L.distinct i j hi hj e), L.label_mem hi, L.label_mem hj⟩
      · rintro ⟨h, _⟩ rfl
        exact h rfl)]
  unfold LS.pairs LS.block
  change (if g = g' then _ else _) = _
  have hn : (toNet net).n = net.n := rfl
  rw [hn]
  by_cases hg : g = g'
  · rw [if_pos hg, if_pos hg]
    subst hg
    congr 1
    set A := (Finset.range net.n).filter (fun v => f v = some g)
    have : ∀ i ∈ A, (∑ j ∈ A, if i ≠ j then (1 : Int) else 0) = A.card - 1 := by
      intro i hi
      have e : ∀ j, (if i ≠ j then (1 : Int) else 0) = 1 - if i = j then 1 else 0 := by intro j; split_ifs <;> simp_all
      simp only [e, Finset.sum_sub_distrib, Finset.sum_ite_eq, if_pos hi]
      simp
    rw [Finset.sum_congr rfl this, Finset.sum_const, nsmul_eq_mul]
  · rw [if_neg hg, if_neg hg]
    set A := (Finset.range net.n).filter (fun v => f v = some g) with hA
    set B := (Finset.range net.n).filter (fun v => f v = some g') with hB
    have : ∀ i ∈ A, (∑ j ∈ B, if i ≠ j then (1 : Int) else 0) = B.card := by
      intro i hi
      rw [Finset.sum_congr rfl (g := fun _ => (1 : Int))]
      · simp
      · intro j hj
        rw [if_pos]
        rintro rfl
        rw [hA, Finset.mem_filter] at hi
        rw [hB, Finset.mem_filter] at hj
        exact hg (Option.some.inj (hi.2.symm.trans hj.2))
    rw [Finset.sum_congr rfl this]
    simp

/-- The division of the labels that a division of the nodes is. -/
theorem division {f : ℕ → Option ℕ} (hf : ∀ v < net.n, f v ≠ none) : ∃ F : String → ℕ, ∀ i < net.n, f i = some (F (net.label i)) := by
  refine ⟨fun a => (f ((names ps).idxOf a)).getD 0, fun i hi => ?_⟩
  have : (names ps).idxOf (net.label i) = i := by
    have h1 := L.label_get hi
    obtain ⟨h2, h3⟩ := List.getElem?_eq_some_iff.1 h1
    rw [← h3, (names_nodup ps).idxOf_getElem]
  dsimp only
  rw [this]
  cases h : f i with
  | none => exact absurd h (hf i hi)
  | some g => rfl

theorem isThereLink {i j : ℕ} (hi : i < net.n) (hj : j < net.n) : IsThereLink net i j = true ↔ (graph ps).Adj (net.label i) (net.label j) := by
  have := L.mem_targets hi j
  rw [show (graph ps).Adj (net.label i) (net.label j) ↔ j < net.n ∧ (graph ps).Adj (net.label i) (net.label j) by simp [hj], ← this]
  unfold IsThereLink targets
  rw [List.any_eq_true, List.mem_filterMap]
  simp

end

/-! ## Order of the lines -/

/-- Pairs of elements of a list, one after the other. -/
def pairsOf {α : Type} : List α → List (α × α)
  | [] => []
  | a :: l => l.map (fun b => (a, b)) ++ pairsOf l

theorem pairsOf_map {α β : Type} (f : α → β) : ∀ l : List α, pairsOf (l.map f) = (pairsOf l).map (Prod.map f f)
  | [] => rfl
  | a :: l => by simp [pairsOf, pairsOf_map f l]

theorem pairsOf_mem {α : Type} {p : α × α} : ∀ {l : List α}, p ∈ pairsOf l → p.1 ∈ l ∧ p.2 ∈ l
  | [], h => by simp [pairsOf] at h
  | a :: l, h => by
    rcases List.mem_append.1 h with h | h
    · obtain ⟨b, hb, rfl⟩ := List.mem_map.1 h
      simp [hb]
    · have := pairsOf_mem h
      simp [this.1, this.2]

theorem pairsOf_eq {α : Type} [DecidableEq α] : ∀ {l : List α}, l.Nodup →
    pairsOf l = (l ×ˢ l).filter fun p => l.idxOf p.1 < l.idxOf p.2
  | [], _ => rfl
  | a :: l, h => by
    obtain ⟨ha, hl⟩ := List.nodup_cons.1 h
    rw [pairsOf, pairsOf_eq hl]
    have hne : ∀ b ∈ l, a ≠ b := fun b hb e => ha (e ▸ hb)
    change _ = List.filter _ ((a :: l).flatMap fun x => (a :: l).map (Prod.mk x))
    rw [List.flatMap_cons, List.filter_append]
    congr 1
    · rw [List.map_cons, List.filter_cons, if_neg (by simp), List.filter_eq_self.2]
      intro p hp
      obtain ⟨b, hb, rfl⟩ := List.mem_map.1 hp
      simp [List.idxOf_cons_ne _ (hne b hb)]
    · change List.filter _ (l.flatMap fun x => l.map (Prod.mk x)) = _
      rw [List.filter_flatMap, List.filter_flatMap]
      have key : ∀ x ∈ l, (List.map (Prod.mk x) l).filter (fun p => decide (l.idxOf p.1 < l.idxOf p.2)) =
          (List.map (Prod.mk x) (a :: l)).filter (fun p => decide ((a :: l).idxOf p.1 < (a :: l).idxOf p.2)) := by
        intro x hx
        rw [List.map_cons, List.filter_cons, if_neg (by simp [List.idxOf_cons_ne _ (hne x hx)])]
        apply List.filter_congr
        intro p hp
        obtain ⟨b, hb, rfl⟩ := List.mem_map.1 hp
        simp [List.idxOf_cons_ne _ (hne x hx), List.idxOf_cons_ne _ (hne b hb)]
      exact List.flatMap_congr key

variable {R : Type}

theorem scoreLines_eq (net : GR.Net) (M : ℕ → ℕ → R) : ∀ l, scoreLines net M l =
    (pairsOf l).map fun p => (M p.1 p.2, net.label p.1, net.label p.2)
  | [] => rfl
  | i :: l => by simp [scoreLines, pairsOf, scoreLines_eq net M l]

theorem splitLines_eq (net : GR.Net) (M : ℕ → ℕ → R) : ∀ l, splitLines net M l =
    (((pairsOf l).filter fun p => IsThereLink net p.1 p.2 = false).map fun p => (M p.1 p.2, net.label p.1, net.label p.2),
      ((pairsOf l).filter fun p => IsThereLink net p.1 p.2).map fun p => (M p.1 p.2, net.label p.1, net.label p.2))
  | [] => rfl
  | i :: l => by
    rw [splitLines, splitLines_eq net M l]
    simp [pairsOf, List.filter_map, Function.comp_def]

section
variable {ps : List (String × String)} {net : GR.Net} (L : Loaded ps net)
include L

theorem ordered_eq : ordered ps = (pairsOf (List.range net.n)).map (Prod.map net.label net.label) := by
  unfold ordered
  rw [← pairsOf_eq (names_nodup ps), ← L.labels, pairsOf_map]

theorem lines_eq {M : ℕ → ℕ → R} {v : String → String → R}
    (h : ∀ i < net.n, ∀ j < net.n, i ≠ j → M i j = v (net.label i) (net.label j)) :
    scoreLines net M (List.range net.n) = lines v (ordered ps) := by
  rw [scoreLines_eq, ordered_eq L, lines, List.map_map]
  apply List.map_congr_left
  intro p hp
  have h1 := pairsOf_mem hp
  have h2 : p.1 ≠ p.2 := by
    rw [pairsOf_eq List.nodup_range] at hp
    intro e
    simp [e] at hp
  simp only [Function.comp, Prod.map]
  rw [h _ (List.mem_range.1 h1.1) _ (List.mem_range.1 h1.2) h2]

open Classical in
theorem split_eq {M : ℕ → ℕ → R} {v : String → String → R}
    (h : ∀ i < net.n, ∀ j < net.n, i ≠ j → M i j = v (net.label i) (net.label j)) :
    splitLines net M (List.range net.n) =
      (lines v ((ordered ps).filter fun p => ¬ (graph ps).Adj p.1 p.2), lines v ((ordered ps).filter fun p => (graph ps).Adj p.1 p.2)) := by
  rw [splitLines_eq, ordered_eq L, lines, lines, List.filter_map, List.filter_map, List.map_map, List.map_map]
  have key : ∀ p ∈ pairsOf (List.range net.n), (M p.1 p.2, net.label p.1, net.label p.2) =
      (v (net.label p.1) (net.label p.2), net.label p.1, net.label p.2) ∧
      (IsThereLink net p.1 p.2 = true ↔ (graph ps).Adj (net.label p.1) (net.label p.2)) := by
    intro p hp
    have h1 := pairsOf_mem hp
    have h2 : p.1 ≠ p.2 := by
      rw [pairsOf_eq List.nodup_range] at hp
      intro e
      simp [e] at hp
    rw [h _ (List.mem_range.1 h1.1) _ (List.mem_range.1 h1.2) h2]
    exact ⟨rfl, isThereLink L (List.mem_range.1 h1.1) (List.mem_range.1 h1.2)⟩
  congr 1
  · have e : (pairsOf (List.range net.n)).filter (fun p => decide (IsThereLink net p.1 p.2 = false)) =
        (pairsOf (List.range net.n)).filter ((fun p => decide (¬ (graph ps).Adj p.1 p.2)) ∘ Prod.map net.label net.label) := by
      apply List.filter_congr
      intro p hp
      simp only [Function.comp, Prod.map, ← (key p hp).2]
      simp
    rw [e]
    apply List.map_congr_left
    intro p hp
    exact (key p (List.mem_filter.1 hp).1).1
  · have e : (pairsOf (List.range net.n)).filter (fun p => IsThereLink net p.1 p.2) =
        (pairsOf (List.range net.n)).filter ((fun p => decide ((graph ps).Adj p.1 p.2)) ∘ Prod.map net.label net.label) := by
      apply List.filter_congr
      intro p hp
      simp only [Function.comp, Prod.map, ← (key p hp).2]
      simp
    rw [e]
    apply List.map_congr_left
    intro p hp
    exact (key p (List.mem_filter.1 hp).1).1

end

end PG
