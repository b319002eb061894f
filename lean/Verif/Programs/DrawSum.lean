import Verif.Programs.DrawModel
import Verif.Graph.SumOrder
import Verif.Utils.Count

/-!
# Sums of networks that were read from files
-/

namespace PG

open RG UT
open GR (AddTwoNetworks HasLink Tail labs hasLink_iff)

/-- Labels of two files one after the other. -/
theorem names_append (ps qs : List (String × String)) : names (ps ++ qs) = names ps ++ (names qs).filter (fun a => a ∉ names ps) := by
  have key : ∀ (l m : List String), ((l ++ m).reverse.dedup).reverse =
      (l.reverse.dedup).reverse ++ ((m.reverse.dedup).reverse).filter (fun a => a ∉ (l.reverse.dedup).reverse) := by
    intro l m
    induction m using List.reverseRecOn with
    | nil => simp
    | append_singleton m a ih =>
      have e1 : (l ++ (m ++ [a])).reverse = a :: (l ++ m).reverse := by simp
      have e2 : (m ++ [a]).reverse = a :: m.reverse := by simp
      rw [e1, e2]
      by_cases ham : a ∈ m
      · rw [List.dedup_cons_of_mem (by simp [ham]), List.dedup_cons_of_mem (by simp [ham]), ih]
      · by_cases hal : a ∈ l
        · rw [List.dedup_cons_of_mem (by simp [hal]), List.dedup_cons_of_notMem (by simpa using ham), List.reverse_cons, ih,
            List.filter_append]
          simp [hal]
        · rw [List.dedup_cons_of_notMem (by simp [hal, ham]), List.dedup_cons_of_notMem (by simpa using ham), List.reverse_cons,
            List.reverse_cons, ih, List.filter_append, List.append_assoc]
          simp [hal]
  unfold names
  rw [List.flatMap_append]
  exact key _ _

theorem hasLink_graph {ps : List (String × String)} {net : GR.Net} (L : Loaded ps net) (a b : String) (w : ℚ) :
    HasLink net a b w ↔ (graph ps).Adj a b ∧ w = 1 := by
  rw [hasLink_iff L.holds]
  constructor
  · rintro ⟨i, j, hi, hj, rfl, rfl, h⟩
    exact ⟨(L.weights_isSome.1 (by rw [h]; rfl)).2.2, L.weights_one h⟩
  · rintro ⟨h, rfl⟩
    obtain ⟨i, hi, rfl⟩ := L.node_of (adj_names h).1
    obtain ⟨j, hj, rfl⟩ := L.node_of (adj_names h).2
    refine ⟨i, j, hi, hj, rfl, rfl, ?_⟩
    unfold weights
    rw [if_pos ⟨hi, hj, h⟩]

theorem graph_append {ps qs : List (String × String)} {a b : String} :
    (graph (ps ++ qs)).Adj a b ↔ (graph ps).Adj a b ∨ (graph qs).Adj a b := by
  simp only [graph, List.mem_append]
  tauto

/-- The sum of the networks of two files is the network of the two files one after the other. -/
theorem sum_loaded {ps qs : List (String × String)} {A B : GR.Net} (LA : Loaded ps A) (LB : Loaded qs B) :
    ∃ S, AddTwoNetworks A B = some S ∧ Loaded (ps ++ qs) S := by
  obtain ⟨S, e, -, -, dS, nS, lS, ⟨g, hg⟩, labS, cS⟩ := GR.C71_union LA.holds LA.link_labels LA.fit LA.distinct LB.holds LB.fit LB.distinct
  obtain ⟨S', e', oS, tS⟩ := GR.C71_order LA.holds LA.link_labels LA.fit LA.distinct LB.holds LB.fit LB.distinct
  rw [e] at e'
  obtain rfl := Option.some.inj e'
  have hlab : (List.range S.n).map S.label = names (ps ++ qs) := by
    rw [oS, LA.labels, LB.labels, names_append]
  have hlink : ∀ a b w, HasLink S a b w ↔ (graph (ps ++ qs)).Adj a b ∧ w = 1 := by
    intro a b w
    rw [lS, graph_append, hasLink_graph LA]
    simp only [hasLink_graph LA, hasLink_graph LB]
    constructor
    · rintro (⟨h, rfl⟩ | ⟨-, ⟨v, h, -⟩, rfl⟩)
      · exact ⟨Or.inl h, rfl⟩
      · exact ⟨Or.inr h, rfl⟩
    · rintro ⟨h, rfl⟩
      by_cases ha : (graph ps).Adj a b
      · exact Or.inl ⟨ha, rfl⟩
      · exact Or.inr ⟨fun ⟨v, hv, _⟩ => ha hv, ⟨1, h.resolve_left ha, rfl⟩, rfl⟩
  have hgw : ∀ i < S.n, ∀ j w, g i j = some w ↔ weights (ps ++ qs) S i j = some w := by
    intro i hi j w
    constructor
    · intro h
      obtain ⟨l, hl, er, ew⟩ := (hg i hi).2.2 j w h
      obtain ⟨k, hk, ek, -⟩ := (hg i hi).2.1 l hl
      rw [er] at ek
      obtain rfl := Option.some.inj ek
      obtain ⟨h1, rfl⟩ := (hlink _ _ w).1 ⟨i, j, l, hi, hk, rfl, rfl, hl, er, ew⟩
      unfold weights
      rw [if_pos ⟨hi, hk, h1⟩]
    · intro h
      unfold weights at h
      split_ifs at h with h1
      obtain rfl := Option.some.inj h
      obtain ⟨i', j', hi', hj', ei, ej, eg⟩ := (hasLink_iff hg _ _ _).1 ((hlink (S.label i) (S.label j) 1).2 ⟨h1.2.2, rfl⟩)
      obtain rfl := dS i' i hi' hi ei
      obtain rfl := dS j' j hj' h1.2.1 ej
      exact eg
  refine ⟨S, e, hlab, ?_, labS, cS, ?_, ?_, tS⟩
  · intro i hi
    obtain ⟨h1, h2, h3⟩ := hg i hi
    refine ⟨h1, ?_, ?_⟩
    · intro l hl
      obtain ⟨j, hj, er, eg⟩ := h2 l hl
      exact ⟨j, hj, er, (hgw i hi j _).1 eg⟩
    · intro j w h
      exact h3 j w ((hgw i hi j w).2 h)
  · intro i hi
    rcases (nS (S.label i)).1 ⟨i, hi, rfl⟩ with ⟨k, hk, e⟩ | ⟨k, hk, e⟩
    · rw [← e]; exact LA.fit k hk
    · rw [← e]; exact LB.fit k hk
  · intro i hi
    rcases (nS (S.label i)).1 ⟨i, hi, rfl⟩ with ⟨k, hk, e⟩ | ⟨k, hk, e⟩
    · rw [← e]; exact LA.words k hk
    · rw [← e]; exact LB.words k hk

/-- The same for any number of files. -/
theorem fold_loaded : ∀ (nets : List GR.Net) (qss : List (List (String × String))) (ps : List (String × String)) (A : GR.Net),
    Loaded ps A → List.Forall₂ Loaded qss nets → ∃ S, nets.foldlM AddTwoNetworks A = some S ∧ Loaded (ps ++ qss.flatten) S
  | [], _, ps, A, LA, h => by
    cases h
    exact ⟨A, rfl, by simpa using LA⟩
  | B :: nets, qss, ps, A, LA, h => by
    obtain ⟨qs, qss, hB, hr, rfl⟩ := List.forall₂_cons_right_iff.1 h
    obtain ⟨S1, e1, L1⟩ := sum_loaded LA hB
    obtain ⟨S, e, L⟩ := fold_loaded nets qss _ S1 L1 hr
    refine ⟨S, ?_, by simpa using L⟩
    rw [List.foldlM_cons, e1]
    exact e

theorem loadAll_ok {files : String → Option (List Char)} : ∀ (fs : List String) (pss : List (List (String × String))),
    List.Forall₂ (fun f ps => ∃ text, files f = some text ∧ Says text ps) fs pss →
    ∃ nets, loadAll files fs = .ok nets ∧ List.Forall₂ Loaded pss nets
  | [], _, h => by cases h; exact ⟨[], rfl, .nil⟩
  | f :: fs, _, h => by
    cases h with
    | cons h1 h2 =>
      obtain ⟨text, hf, hs⟩ := h1
      obtain ⟨net, e, L⟩ := load_ok hf hs
      obtain ⟨nets, e', L'⟩ := loadAll_ok fs _ h2
      exact ⟨net :: nets, by simp [loadAll, e, e'], .cons L L'⟩

theorem loadAll_bad {files : String → Option (List Char)} {f : String} (hbad : load files f = .ub) : ∀ (fs : List String),
    (∀ g ∈ fs, load files g = .ub ∨ ∃ net, load files g = .ok net) → f ∈ fs → loadAll files fs = .ub
  | [], _, h => by simp at h
  | g :: fs, hd, h => by
    unfold loadAll
    rcases hd g (by simp) with hg | ⟨net, hg⟩
    · rw [hg]; rfl
    · rw [hg]
      have hf : f ∈ fs := by
        rcases List.mem_cons.1 h with rfl | h
        · rw [hbad] at hg; cases hg
        · exact h
      rw [Res.bind_ok, loadAll_bad hbad fs (fun g hg => hd g (by simp [hg])) hf]
      rfl

theorem load_total (files : String → Option (List Char)) (g : String) : load files g = .ub ∨ ∃ net, load files g = .ok net := by
  unfold load
  split
  · exact Or.inl rfl
  · split
    · exact Or.inr ⟨_, rfl⟩
    · exact Or.inl rfl

end PG
