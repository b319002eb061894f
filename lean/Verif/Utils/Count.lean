import Verif.Utils.Load
import Verif.Graph.CompareProps

/-!
# C143, C144: the programs countlinks and netcompare
-/

set_option linter.unusedSimpArgs false
set_option linter.unusedSectionVars false

namespace UT

open GR RG

namespace Loaded

variable {ps : List (String × String)} {net : Net} (L : Loaded ps net)
include L

theorem degree_eq {i : ℕ} (hi : i < net.n) : (weights ps net).degree net.n i = degree ps (net.label i) := by
  classical
  unfold WG.degree degree
  have : (graph ps).neighborSet (net.label i) =
      ↑(((Finset.range net.n).filter fun j => (weights ps net i j).isSome).image net.label) := by
    ext b
    simp only [SimpleGraph.mem_neighborSet, Finset.coe_image, Set.mem_image, Finset.coe_filter, Finset.mem_range, Set.mem_ofPred_eq,
      L.weights_isSome]
    constructor
    · intro h
      obtain ⟨j, hj, rfl⟩ := L.node_of (adj_names h).2
      exact ⟨j, ⟨hj, hi, hj, h⟩, rfl⟩
    · rintro ⟨j, ⟨_, _, _, h⟩, rfl⟩
      exact h
  rw [this, Set.ncard_coe_finset, Finset.card_image_of_injOn]
  intro j hj k hk e
  have hj := (Finset.mem_filter.1 (Finset.mem_coe.1 hj)).1
  have hk := (Finset.mem_filter.1 (Finset.mem_coe.1 hk)).1
  exact L.distinct j k (Finset.mem_range.1 hj) (Finset.mem_range.1 hk) e

theorem links_eq : (↑(linksOf net) : Set (Sym2 String)) = (graph ps).edgeSet := by
  ext e
  rw [Finset.mem_coe, mem_linksOf L.holds]
  constructor
  · rintro ⟨i, j, hi, hj, h, rfl⟩
    rw [L.weights_isSome] at h
    exact h.2.2
  · induction e with
    | _ a b =>
      intro h
      rw [SimpleGraph.mem_edgeSet] at h
      obtain ⟨i, hi, rfl⟩ := L.node_of (adj_names h).1
      obtain ⟨j, hj, rfl⟩ := L.node_of (adj_names h).2
      exact ⟨i, j, hi, hj, L.weights_isSome.2 ⟨hi, hj, h⟩, rfl⟩

theorem nodes_eq : (↑(nodeLabels net) : Set String) = {a | a ∈ names ps} := by
  ext a
  rw [Finset.mem_coe, mem_nodeLabels]
  exact ⟨fun ⟨i, hi, e⟩ => e ▸ L.label_mem hi, fun h => L.node_of h⟩

theorem undirected : GR.Undirected net (weights ps net) :=
  ⟨fun i j _ _ h => by rw [L.symSimple.sym]; exact h, fun i _ => L.symSimple.loop i⟩

theorem totalLinks : (TotalNLinks net true).1 = (graph ps).edgeSet.ncard ∧ (TotalNLinks net true).2.n = net.n ∧
    Loaded ps (TotalNLinks net true).2 := by
  classical
  obtain ⟨h1, h2, h3, h4, h5, h6⟩ := C45_total_links L.holds L.caches true fun _ => ⟨L.sym, L.symSimple.loop⟩
  refine ⟨?_, h4, ?_⟩
  · rw [h1]
    have : (graph ps).edgeSet = ↑(((Finset.range net.n ×ˢ Finset.range net.n).filter fun p =>
        (weights ps net p.1 p.2).isSome ∧ (true = true → p.2 < p.1)).image fun p => s(net.label p.1, net.label p.2)) := by
      ext e
      rw [Finset.mem_coe, Finset.mem_image]
      simp only [Finset.mem_filter, Finset.mem_product, Finset.mem_range, true_implies]
      constructor
      · induction e with
        | _ a b =>
          intro h
          rw [SimpleGraph.mem_edgeSet] at h
          obtain ⟨i, hi, rfl⟩ := L.node_of (adj_names h).1
          obtain ⟨j, hj, rfl⟩ := L.node_of (adj_names h).2
          have hij : i ≠ j := by rintro rfl; exact h.1 rfl
          rcases lt_or_gt_of_ne hij with hlt | hlt
          · exact ⟨(j, i), ⟨⟨hj, hi⟩, L.weights_isSome.2 ⟨hj, hi, h.symm⟩, hlt⟩, Sym2.eq_swap⟩
          · exact ⟨(i, j), ⟨⟨hi, hj⟩, L.weights_isSome.2 ⟨hi, hj, h⟩, hlt⟩, rfl⟩
      · rintro ⟨⟨i, j⟩, ⟨_, h, _⟩, rfl⟩
        exact (L.weights_isSome.1 h).2.2
    rw [this, Set.ncard_coe_finset, Finset.card_image_of_injOn]
    rintro ⟨i, j⟩ hx ⟨k, l⟩ hy e
    simp only [Finset.coe_filter, Finset.mem_product, Finset.mem_range, true_implies, Set.mem_ofPred_eq] at hx hy
    simp only [Sym2.eq_iff] at e
    rcases e with ⟨e1, e2⟩ | ⟨e1, e2⟩
    · have := L.distinct i k hx.1.1 hy.1.1 e1
      have := L.distinct j l hx.1.2 hy.1.2 e2
      simp_all
    · have := L.distinct i l hx.1.1 hy.1.2 e1
      have := L.distinct j k hx.1.2 hy.1.1 e2
      omega
  · have hw : weights ps (TotalNLinks net true).2 = weights ps net := by
      unfold weights; rw [h3, h4]
    refine ⟨by rw [h4, h3]; exact L.labels, by rw [hw]; exact h5, ?_, h6, ?_, ?_, ?_⟩
    · intro i hi l hl j hj
      rw [h4] at hi
      rw [h2] at hl
      rw [h3]
      exact L.link_labels i hi l hl j hj
    · intro i hi; rw [h3]; exact L.fit i (h4 ▸ hi)
    · intro i hi; rw [h3]; exact L.words i (h4 ▸ hi)
    · intro i hi; rw [h2]; exact L.outside i (h4 ▸ hi)

end Loaded

/-! ## countlinks -/

/-- **C143**: for a well-formed file `countlinks` prints the number of labels, the number of links (unordered pairs of different labels
on some line) and the average number of links of a label. -/
theorem C143_countlinks {files : String → Option (List Char)} {f : String} {text : List Char} {ps : List (String × String)}
    (hf : files f = some text) (hs : Says text ps) (more : List String) :
    countlinks files (f :: more) = .ok (some ((names ps).length, (graph ps).edgeSet.ncard,
      if ps = [] then none else some ((((names ps).map fun a => (degree ps a : ℚ)).sum) / (names ps).length))) := by
  obtain ⟨net, e, L⟩ := load_ok hf hs
  have hn := L.len
  have h0 : net.n = 0 ↔ ps = [] := by
    rw [hn, List.length_eq_zero_iff]
    constructor
    · intro h
      by_contra hne
      obtain ⟨p, hp⟩ := List.exists_mem_of_ne_nil _ hne
      have : p.1 ∈ names ps := mem_names.2 ⟨p, hp, Or.inl rfl⟩
      rw [h] at this
      simp at this
    · rintro rfl; rfl
  have hsum : ((2 * (graph ps).edgeSet.ncard : ℕ) : ℚ) = ((names ps).map fun a => (degree ps a : ℚ)).sum := by
    rw [← L.totalLinks.1, ← L.labels, List.map_map]
    have h1 := C45_total_links L.holds L.caches false (by simp)
    have h2 := (C45_total_links L.holds L.caches true fun _ => ⟨L.sym, L.symSimple.loop⟩).1
    have e1 : ((List.range net.n).map ((fun a => (degree ps a : ℚ)) ∘ net.label)).sum =
        ∑ i ∈ Finset.range net.n, ((weights ps net).degree net.n i : ℚ) := by
      rw [← List.sum_toFinset _ List.nodup_range, List.toFinset_range]
      refine Finset.sum_congr rfl fun i hi => ?_
      rw [L.degree_eq (Finset.mem_range.1 hi)]
      rfl
    rw [e1]
    by_cases hz : 0 < net.n
    · obtain ⟨_, h3⟩ := C45_average_degree L.holds L.caches true (fun _ => ⟨L.sym, L.symSimple.loop⟩) hz
      unfold AverageDegree at h3
      simp only [if_neg (by omega : ¬ net.n = 0)] at h3
      have h4 := (Prod.mk.inj (Option.some.inj h3)).1
      have hz' : (net.n : ℚ) ≠ 0 := by exact_mod_cast hz.ne'
      simp only [if_true] at h4
      rw [div_left_inj' hz'] at h4
      rw [← h4]
    · have : net.n = 0 := by omega
      have h5 := h2
      rw [this] at h5
      simp at h5
      rw [this, h5]
      rfl
  rw [countlinks, e]
  simp only [Res.bind_ok, Res.pure_eq, CountNodes, L.totalLinks.1]
  rw [hsum, hn]
  by_cases hz : ps = []
  · have := h0.2 hz
    rw [hn] at this
    simp [hz, this]
    rfl
  · have : (names ps).length ≠ 0 := by rw [← hn]; exact fun h => hz (h0.1 h)
    simp [hz, this]

/-- **C143**, limits: a file that does not exist or that has a line with fewer than two fields crashes every one of these programs. -/
theorem C143_crash {files : String → Option (List Char)} {f : String} {more : List String}
    (h : files f = none ∨ ∃ text, files f = some text ∧ Malformed text) :
    countlinks files (f :: more) = .ub ∧ nodeprop files (f :: more) = .ub ∧ getgiant files (f :: more) = .ub ∧
      lapspec files (f :: more) = .ub := by
  have : load files f = .ub := by
    rcases h with h | ⟨text, h, hm⟩
    · exact load_missing h
    · exact load_malformed h hm
  unfold countlinks nodeprop getgiant lapspec
  simp [this]

/-! ## netcompare -/

open Classical in
/-- **C144**: for two well-formed files `netcompare` prints the numbers of labels of each and of common labels; the numbers of links of
each between common labels and of common links; and the fractions `p(A|B)`, `p(B|A)` for labels and for links between common labels. -/
theorem C144_netcompare {files : String → Option (List Char)} {fA fB : String} {tA tB : List Char} {A B : List (String × String)}
    (hfA : files fA = some tA) (hsA : Says tA A) (hfB : files fB = some tB) (hsB : Says tB B) (more : List String) :
    let nA := (names A).length
    let nB := (names B).length
    let nAB := ((names A).filter fun a => a ∈ names B).length
    let lA := {e ∈ (graph A).edgeSet | ∀ a ∈ e, a ∈ names B}.ncard
    let lB := {e ∈ (graph B).edgeSet | ∀ a ∈ e, a ∈ names A}.ncard
    let lAB := ((graph A).edgeSet ∩ (graph B).edgeSet).ncard
    netcompare files (fA :: fB :: more) = .ok (some
      { nA_nod := nA, nB_nod := nB, ncom_nod := nAB, p_nAB := frac nAB nB, p_nBA := frac nAB nA
        nA_lin := lA, nB_lin := lB, ncom_lin := lAB, p_lAB := frac lAB lB, p_lBA := frac lAB lA }) := by
  intro nA nB nAB lA lB lAB
  obtain ⟨a, ea, LA⟩ := load_ok hfA hsA
  obtain ⟨b, eb, LB⟩ := load_ok hfB hsB
  have key := C73_compare LA.holds LA.distinct LA.undirected LB.holds LB.distinct LB.undirected
  have h1 : (nodeLabels a).card = nA := by rw [card_nodeLabels LA.distinct, LA.len]
  have h2 : (nodeLabels b).card = nB := by rw [card_nodeLabels LB.distinct, LB.len]
  have h3 : (nodeLabels a ∩ nodeLabels b).card = nAB := by
    have : nodeLabels a ∩ nodeLabels b = ((names A).filter fun x => x ∈ names B).toFinset := by
      ext x
      have e1 : x ∈ nodeLabels a ↔ x ∈ names A := by
        have := Set.ext_iff.1 LA.nodes_eq x; simpa using this
      have e2 : x ∈ nodeLabels b ↔ x ∈ names B := by
        have := Set.ext_iff.1 LB.nodes_eq x; simpa using this
      simp [e1, e2]
    rw [this, List.toFinset_card_of_nodup ((names_nodup A).filter _)]
  have hw : ∀ {P Q : List (String × String)} {x y : Net}, Loaded P x → Loaded Q y →
      (within x y).card = {e ∈ (graph P).edgeSet | ∀ a ∈ e, a ∈ names Q}.ncard := by
    intro P Q x y LP LQ
    rw [← Set.ncard_coe_finset]
    congr 1
    ext e
    rw [Finset.mem_coe, mem_within]
    have e1 : e ∈ linksOf x ↔ e ∈ (graph P).edgeSet := by
      have := Set.ext_iff.1 LP.links_eq e; simpa using this
    have e2 : ∀ z, z ∈ nodeLabels y ↔ z ∈ names Q := by
      intro z; have := Set.ext_iff.1 LQ.nodes_eq z; simpa using this
    rw [e1]
    simp only [e2]
    rfl
  have h4 : (within a b).card = lA := hw LA LB
  have h5 : (within b a).card = lB := hw LB LA
  have h6 : (linksOf a ∩ linksOf b).card = lAB := by
    rw [← Set.ncard_coe_finset, Finset.coe_inter, LA.links_eq, LB.links_eq]
  rw [netcompare, ea]
  simp only [Res.bind_ok]
  rw [eb]
  simp only [Res.bind_ok]
  rw [key, h1, h2, h3, h4, h5, h6]
  rfl

/-- **C144**, limits: either file missing or malformed crashes the program. -/
theorem C144_crash {files : String → Option (List Char)} {fA fB : String} {more : List String}
    (h : (files fA = none ∨ ∃ text, files fA = some text ∧ Malformed text) ∨
      (∃ tA A, files fA = some tA ∧ Says tA A) ∧ (files fB = none ∨ ∃ text, files fB = some text ∧ Malformed text)) :
    netcompare files (fA :: fB :: more) = .ub := by
  have bad : ∀ f, (files f = none ∨ ∃ text, files f = some text ∧ Malformed text) → load files f = .ub := by
    rintro f (h | ⟨text, h, hm⟩)
    · exact load_missing h
    · exact load_malformed h hm
  unfold netcompare
  rcases h with h | ⟨⟨tA, A, h, hs⟩, h'⟩
  · simp [bad _ h]
  · obtain ⟨a, ea, _⟩ := load_ok h hs
    simp [ea, bad _ h']

/-! ## Examples -/

/-- Text of a file, as a list of characters. -/
def tex (s : String) : List Char := s.toList

/-- Two files; links stated twice, in both orders, and a self link. -/
def someFiles : String → Option (List Char) := fun f =>
  if f = "A" then some (tex "a b\nb c 7\nc b\nd d\n") else if f = "B" then some (tex "b c\nc d\nd e")
  else if f = "bad" then some (tex "a b\nc\n") else none

theorem saysA : Says (tex "a b\nb c 7\nc b\nd d\n") [("a", "b"), ("b", "c"), ("c", "b"), ("d", "d")] := by
  have : fileFields (tex "a b\nb c 7\nc b\nd d\n") = [["a", "b"], ["b", "c", "7"], ["c", "b"], ["d", "d"]] := by decide +kernel
  unfold Says
  rw [this]
  refine .cons ⟨by decide +kernel, by decide +kernel, [], rfl⟩ (.cons ⟨by decide +kernel, by decide +kernel, ["7"], rfl⟩
    (.cons ⟨by decide +kernel, by decide +kernel, [], rfl⟩ (.cons ⟨by decide +kernel, by decide +kernel, [], rfl⟩ .nil)))

example : names [("a", "b"), ("b", "c"), ("c", "b"), ("d", "d")] = ["a", "b", "c", "d"] := by decide +kernel

example : countlinks someFiles ["A"] = .ok (some ((names [("a", "b"), ("b", "c"), ("c", "b"), ("d", "d")]).length,
    (graph [("a", "b"), ("b", "c"), ("c", "b"), ("d", "d")]).edgeSet.ncard,
    some ((((names [("a", "b"), ("b", "c"), ("c", "b"), ("d", "d")]).map fun a =>
      (degree [("a", "b"), ("b", "c"), ("c", "b"), ("d", "d")] a : ℚ)).sum) /
        (names [("a", "b"), ("b", "c"), ("c", "b"), ("d", "d")]).length))) := by
  have := C143_countlinks (files := someFiles) (f := "A") rfl saysA []
  simpa using this

/-- Four labels, two links, one link per label on average. -/
example : (match countlinks someFiles ["A"] with | .ok r => r | _ => none) = some (4, 2, some 1) := by decide +kernel

example : (match netcompare someFiles ["A", "B"] with | .ok r => r | _ => none) = some
    { nA_nod := 4, nB_nod := 4, ncom_nod := 3, p_nAB := some (3 / 4), p_nBA := some (3 / 4)
      nA_lin := 1, nB_lin := 2, ncom_lin := 1, p_lAB := some (1 / 2), p_lBA := some 1 } := by decide +kernel

example : countlinks someFiles ["none"] = .ub ∧ countlinks someFiles ["bad"] = .ub := by
  refine ⟨(C143_crash (Or.inl rfl)).1, (C143_crash (Or.inr ⟨_, rfl, ?_⟩)).1⟩
  have : fileFields (tex "a b\nc\n") = [["a", "b"], ["c"]] := by decide +kernel
  unfold Malformed
  rw [this]
  refine ⟨by decide +kernel, ["c"], by simp, by simp⟩

end UT
