import Verif.Netcarto.Model
import Verif.Netcarto.Spec
import Verif.IO.Clustering
import Verif.IO.EdgeList
import Verif.SA.Props
import Verif.Roles.Props
import Verif.Project.Props

/-! # Lemmas about the program `netcarto` -/

set_option linter.unusedSimpArgs false

namespace NCP

open NC RG FIO Finset

/-- The label with a number. -/
def nm (labels : List String) (i : ℕ) : String := labels.getD i ""

theorem nm_eq {labels : List String} {i : ℕ} (h : i < labels.length) : labels[i]? = some (nm labels i) := by
  simp [nm, List.getD_eq_getElem?_getD, h]

theorem nm_inj {labels : List String} (hn : labels.Nodup) {i j : ℕ} (hi : i < labels.length) (hj : j < labels.length) :
    nm labels i = nm labels j ↔ i = j := by
  constructor
  · intro h
    have h1 := nm_eq hi
    have h2 := nm_eq hj
    rw [h, ← h2, List.getElem?_eq_getElem hi, List.getElem?_eq_getElem hj] at h1
    exact (List.Nodup.getElem_inj_iff hn).1 (Option.some.inj h1)
  · rintro rfl; rfl

theorem nm_mem {labels : List String} {i : ℕ} (hi : i < labels.length) : nm labels i ∈ labels := List.mem_of_getElem? (nm_eq hi)

theorem exists_nm {labels : List String} {x : String} (h : x ∈ labels) : ∃ i < labels.length, nm labels i = x := by
  obtain ⟨i, hi, e⟩ := List.getElem_of_mem h
  refine ⟨i, hi, ?_⟩
  have := nm_eq hi
  rw [List.getElem?_eq_getElem hi, e] at this
  exact (Option.some.inj this).symm

theorem sum_labels {labels : List String} (hn : labels.Nodup) (f : String → ℚ) :
    ∑ x ∈ labels.toFinset, f x = ∑ i ∈ range labels.length, f (nm labels i) := by
  have : labels.toFinset = (range labels.length).image (nm labels) := by
    ext x
    simp only [List.mem_toFinset, mem_image, mem_range]
    constructor
    · intro h; obtain ⟨i, hi, e⟩ := exists_nm h; exact ⟨i, hi, e⟩
    · rintro ⟨i, hi, rfl⟩; exact nm_mem hi
  rw [this, sum_image]
  intro i hi j hj e
  exact (nm_inj hn (mem_range.1 hi) (mem_range.1 hj)).1 e

/-- The text printed for a partition, and what it says. -/
theorem report_spec {labels : List String} (hn : labels.Nodup) {p : Partition} {a : Adj} {A' : ℕ → ℕ → ℚ} (hp : Consistent p)
    (hN : p.N = labels.length) (hfull : ∀ m < p.M, ∃ i < p.N, labelOf p i = m) (ha : Represents a p.N A')
    {A : String → String → ℚ} {k : String → ℚ}
    (hA : ∀ i < p.N, ∀ j < p.N, i ≠ j → A' i j = A (nm labels i) (nm labels j))
    (hk : ∀ i < p.N, strengthOf p i = k (nm labels i)) :
    ∃ G, Clustering labels.toFinset G ∧ G.length = p.M ∧
      (∀ i < p.N, ∀ m, nm labels i ∈ G.getD m [] ↔ labelOf p i = m) ∧
      report labels p a = some ⟨newman labels.toFinset A k G, newman labels.toFinset A k G - ∑ x ∈ labels.toFinset, k x * k x,
        clusterLines G⟩ := by
  obtain ⟨seq, hw⟩ := hp.wf
  set G := (List.range p.M).map fun m => (seq m).map (nm labels) with hG
  have hget : ∀ m, G.getD m [] = if m < p.M then (seq m).map (nm labels) else [] := by
    intro m
    rw [hG]
    by_cases hm : m < p.M
    · simp [List.getD_eq_getElem?_getD, hm]
    · simp [List.getD_eq_getElem?_getD, hm]
  have hseq : ∀ m < p.M, ∀ i ∈ seq m, i < p.N := fun m hm i hi => ((hw.mem m hm i).1 hi).1
  have hin : ∀ i < p.N, ∀ m, nm labels i ∈ G.getD m [] ↔ labelOf p i = m := by
    intro i hi m
    rw [hget]
    split_ifs with hm
    · rw [List.mem_map]
      constructor
      · rintro ⟨j, hj, e⟩
        rw [nm_inj hn (by rw [← hN]; exact hseq m hm j hj) (by rw [← hN]; exact hi)] at e
        subst e
        exact ((hw.mem m hm j).1 hj).2
      · intro e; exact ⟨i, (hw.mem m hm i).2 ⟨hi, e⟩, rfl⟩
    · simp only [List.not_mem_nil, false_iff]
      intro e
      exact hm (e ▸ hw.label i hi)
  have hgrp : ∀ g, g ∈ G ↔ ∃ m < p.M, g = (seq m).map (nm labels) := by
    intro g; rw [hG]; simp [eq_comm]
  have hcl : Clustering labels.toFinset G := by
    refine ⟨?_, ?_, ?_⟩
    · intro g hg
      obtain ⟨m, hm, rfl⟩ := (hgrp g).1 hg
      obtain ⟨i, hi, e⟩ := hfull m hm
      intro h0
      have : i ∈ seq m := (hw.mem m hm i).2 ⟨hi, e⟩
      simp only [List.map_eq_nil_iff] at h0
      rw [h0] at this
      simp at this
    · rw [List.nodup_flatten]
      refine ⟨?_, ?_⟩
      · intro g hg
        obtain ⟨m, hm, rfl⟩ := (hgrp g).1 hg
        apply List.Nodup.map_on _ (hw.nodup m hm)
        intro i hi j hj e
        exact (nm_inj hn (by rw [← hN]; exact hseq m hm i hi) (by rw [← hN]; exact hseq m hm j hj)).1 e
      · rw [hG, List.pairwise_map]
        refine List.Pairwise.imp_of_mem ?_ List.nodup_range
        intro m m' hm hm' hne x hx hx'
        rw [List.mem_range] at hm hm'
        obtain ⟨i, hi, rfl⟩ := List.mem_map.1 hx
        obtain ⟨j, hj, e⟩ := List.mem_map.1 hx'
        rw [nm_inj hn (by rw [← hN]; exact hseq m' hm' j hj) (by rw [← hN]; exact hseq m hm i hi)] at e
        subst e
        exact hne (((hw.mem m hm j).1 hi).2.symm.trans ((hw.mem m' hm' j).1 hj).2)
    · intro x
      rw [List.mem_toFinset, List.mem_flatten]
      constructor
      · rintro ⟨g, hg, hx⟩
        obtain ⟨m, hm, rfl⟩ := (hgrp g).1 hg
        obtain ⟨i, hi, rfl⟩ := List.mem_map.1 hx
        exact nm_mem (by rw [← hN]; exact hseq m hm i hi)
      · intro hx
        obtain ⟨i, hi, rfl⟩ := exists_nm hx
        rw [← hN] at hi
        exact ⟨_, (hgrp _).2 ⟨_, hw.label i hi, rfl⟩, List.mem_map.2 ⟨i, (hw.mem _ (hw.label i hi) i).2 ⟨hi, rfl⟩, rfl⟩⟩
  have hsame : ∀ i < p.N, ∀ j < p.N, (∃ g ∈ G, nm labels i ∈ g ∧ nm labels j ∈ g) ↔ labelOf p i = labelOf p j := by
    intro i hi j hj
    constructor
    · rintro ⟨g, hg, h1, h2⟩
      obtain ⟨m, hm, rfl⟩ := (hgrp g).1 hg
      have e := hget m
      rw [if_pos hm] at e
      rw [← e] at h1 h2
      rw [(hin i hi m).1 h1, (hin j hj m).1 h2]
    · intro e
      refine ⟨_, (hgrp _).2 ⟨labelOf p i, hw.label i hi, rfl⟩, ?_, ?_⟩
      · exact List.mem_map.2 ⟨i, (hw.mem _ (hw.label i hi) i).2 ⟨hi, rfl⟩, rfl⟩
      · exact List.mem_map.2 ⟨j, (hw.mem _ (hw.label i hi) j).2 ⟨hj, e.symm⟩, rfl⟩
  have hmod : modularity p.N A' (strengthOf p) (labelOf p) = newman labels.toFinset A k G := by
    unfold modularity newman
    rw [sum_labels hn, hN]
    apply sum_congr rfl
    intro i hi
    rw [sum_labels hn]
    apply sum_congr rfl
    intro j hj
    rw [mem_range, ← hN] at hi hj
    have e : (nm labels i ≠ nm labels j) ↔ i ≠ j := not_congr (nm_inj hn (hN ▸ hi) (hN ▸ hj))
    by_cases c : i ≠ j ∧ labelOf p i = labelOf p j
    · rw [if_pos c, if_pos ⟨e.2 c.1, (hsame i hi j hj).2 c.2⟩, hA i hi j hj c.1, hk i hi, hk j hj]
    · rw [if_neg c, if_neg]
      rintro ⟨h1, h2⟩
      exact c ⟨e.1 h1, (hsame i hi j hj).1 h2⟩
  have hdiag : diagonal p.N (strengthOf p) = ∑ x ∈ labels.toFinset, k x * k x := by
    unfold diagonal
    rw [sum_labels hn, hN]
    apply sum_congr rfl
    intro i hi
    rw [hk i (by rw [hN]; exact mem_range.1 hi)]
  refine ⟨G, hcl, by simp [hG], hin, ?_⟩
  unfold report
  rw [C04_modularity hp ha false, C04_modularity hp ha true, output_eq hw, hmod, hdiag]
  have : clusterText (label labels) ((List.range p.M).map seq) = clusterLines G := by
    unfold clusterText clusterLines
    rw [hG, List.flatMap_map, List.flatMap_map]
    congr 1
    funext m
    rw [List.flatMap_map]
    rfl
  rw [this]
  simp

/-! ## From the file to the network -/

theorem numbering_map {occ : List String} {ids : List ℕ} {labels : List String} (h : Numbering occ ids labels) :
    occ = ids.map (nm labels) ∧ (∀ i ∈ ids, i < labels.length) ∧ labels.toFinset = occ.toFinset := by
  have key : ∀ k, k < occ.length → ∃ i, ids[k]? = some i ∧ i < labels.length ∧ occ[k]? = some (nm labels i) := by
    intro k hk
    obtain ⟨i, h1, h2, h3⟩ := h.label k hk
    exact ⟨i, h1, h2, by rw [← h3, nm_eq h2]⟩
  have e : occ = ids.map (nm labels) := by
    apply List.ext_getElem?
    intro k
    by_cases hk : k < occ.length
    · obtain ⟨i, h1, _, h3⟩ := key k hk
      rw [h3, List.getElem?_map, h1]; rfl
    · rw [List.getElem?_eq_none (by omega), List.getElem?_eq_none (by rw [List.length_map, h.length]; omega)]
  refine ⟨e, ?_, ?_⟩
  · intro i hi
    obtain ⟨k, hk, rfl⟩ := List.getElem_of_mem hi
    obtain ⟨j, h1, h2, _⟩ := key k (by rw [← h.length]; exact hk)
    rw [List.getElem?_eq_getElem hk] at h1
    rw [Option.some.inj h1]; exact h2
  · ext x
    rw [List.mem_toFinset, List.mem_toFinset]
    refine ⟨h.used x, fun hx => ?_⟩
    obtain ⟨k, hk, rfl⟩ := List.getElem_of_mem hx
    obtain ⟨i, _, h2, h3⟩ := key k hk
    rw [List.getElem?_eq_getElem hk] at h3
    rw [Option.some.inj h3]
    exact nm_mem h2

/-- The records are the edges with the labels for the numbers. -/
def recOf (f g : ℕ → String) (e : Edge) : Rec := (f e.u, g e.v, e.w)

theorem recs_uni (L : ℕ → String) : ∀ (recs : List Rec) (edges : List (ℕ × ℕ × ℚ)), edges.map (·.2.2) = recs.map (·.2.2) →
    (recs.flatMap fun r => [r.1, r.2.1]) = (edges.flatMap fun e => [e.1, e.2.1]).map L → recs = (edges.map toEdge).map (recOf L L)
  | [], [], _, _ => rfl
  | [], _ :: _, h, _ => by simp at h
  | _ :: _, [], h, _ => by simp at h
  | r :: recs, e :: edges, h, h' => by
    simp only [List.map_cons, List.cons.injEq, List.flatMap_cons, List.cons_append, List.nil_append] at h h'
    rw [List.map_cons, List.map_cons, ← recs_uni L recs edges h.2 h'.2.2]
    congr 1
    obtain ⟨a, b, c⟩ := r
    simp only at h h'
    simp [recOf, toEdge, h.1, h'.1, h'.2.1]

theorem recs_bi (L M : ℕ → String) : ∀ (recs : List Rec) (edges : List (ℕ × ℕ × ℚ)), edges.map (·.2.2) = recs.map (·.2.2) →
    recs.map (·.1) = (edges.map (·.1)).map L → recs.map (·.2.1) = (edges.map (·.2.1)).map M → recs = (edges.map toEdge).map (recOf L M)
  | [], [], _, _, _ => rfl
  | [], _ :: _, h, _, _ => by simp at h
  | _ :: _, [], h, _, _ => by simp at h
  | r :: recs, e :: edges, h, h1, h2 => by
    simp only [List.map_cons, List.cons.injEq] at h h1 h2
    rw [List.map_cons, List.map_cons, ← recs_bi L M recs edges h.2 h1.2 h2.2]
    congr 1
    obtain ⟨a, b, c⟩ := r
    simp only at h h1 h2
    simp [recOf, toEdge, h.1, h1.1, h2.1]

theorem incident_sum (W : ℚ) (i : ℕ) : ∀ es : List Edge,
    ((incident W i es).map Prod.snd).sum = (es.map fun e => if e.u = i ∨ e.v = i then e.w else 0).sum / W
  | [] => by simp [incident]
  | e :: es => by
    have ih := incident_sum W i es
    rw [incident, List.map_cons, List.sum_cons, add_div, ← ih]
    by_cases h1 : e.u = i
    · simp [h1]
    · by_cases h2 : e.v = i
      · simp [h1, h2]
      · simp [h1, h2]

theorem weight_div (W : ℚ) (es : List Edge) (i j : ℕ) :
    weightMatrix W es i j = (es.map fun e => if (e.u = i ∧ e.v = j) ∨ (e.u = j ∧ e.v = i) then e.w else 0).sum / W := by
  unfold weightMatrix
  induction es with
  | nil => simp
  | cons e es ih =>
    rw [List.map_cons, List.sum_cons, ih, List.map_cons, List.sum_cons, add_div]
    congr 1
    split_ifs <;> simp

theorem total_map (f g : ℕ → String) (es : List Edge) : total (es.map (recOf f g)) = totalWeight es := by
  unfold total totalWeight
  rw [List.map_map]; rfl

end NCP
