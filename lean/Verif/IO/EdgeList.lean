import Verif.IO.Model
import Verif.IO.Spec
import Mathlib.Tactic.Common
import Mathlib.Data.List.Nodup

/-! # C13: identifiers of the labels of an edge list -/

set_option linter.unusedSimpArgs false

namespace FIO

theorem numbering_nil : Numbering [] [] [] := ⟨by simp, rfl, by simp, by simp, by simp⟩

/-- The tree holds the identifiers of the labels. -/
def Tree (t : List (String × ℕ)) (labels : List String) : Prop := ∀ (l : String) (i : ℕ), t.lookup l = some i ↔ labels[i]? = some l

theorem tree_nil : Tree [] [] := by intro l i; simp

theorem numbering_old {occ ids labels} (h : Numbering occ ids labels) {l : String} {i : ℕ} (hl : labels[i]? = some l) :
    Numbering (occ ++ [l]) (ids ++ [i]) labels := by
  have hlt : i < labels.length := (List.getElem?_eq_some_iff.1 hl).1
  refine ⟨h.nodup, by simp [h.length], ?_, fun a ha => by simp [h.used a ha], ?_⟩
  · intro k hk
    by_cases h1 : k < occ.length
    · obtain ⟨j, a, b, c⟩ := h.label k h1
      refine ⟨j, ?_, b, ?_⟩
      · rw [List.getElem?_append_left (by rw [h.length]; exact h1)]; exact a
      · rw [List.getElem?_append_left h1]; exact c
    · have : k = occ.length := by simp at hk; omega
      subst this
      refine ⟨i, ?_, hlt, ?_⟩
      · rw [← h.length]; simp
      · simpa using hl
  · intro a b x y ha hb hab
    have hx := h.used x (List.mem_of_getElem? ha)
    have hy := h.used y (List.mem_of_getElem? hb)
    rw [List.idxOf_append_of_mem hx, List.idxOf_append_of_mem hy]
    exact h.order a b x y ha hb hab

theorem numbering_new {occ ids labels} (h : Numbering occ ids labels) {l : String} (hl : l ∉ labels) (hall : ∀ x ∈ occ, x ∈ labels) :
    Numbering (occ ++ [l]) (ids ++ [labels.length]) (labels ++ [l]) := by
  have hocc : l ∉ occ := fun hh => hl (hall l hh)
  refine ⟨?_, by simp [h.length], ?_, ?_, ?_⟩
  · rw [List.nodup_append]
    refine ⟨h.nodup, by simp, ?_⟩
    intro a ha b hb
    simp at hb
    rintro rfl
    exact hl (hb ▸ ha)
  · intro k hk
    by_cases h1 : k < occ.length
    · obtain ⟨j, a, b, c⟩ := h.label k h1
      refine ⟨j, ?_, by simp; omega, ?_⟩
      · rw [List.getElem?_append_left (by rw [h.length]; exact h1)]; exact a
      · rw [List.getElem?_append_left h1, List.getElem?_append_left b]; exact c
    · have : k = occ.length := by simp at hk; omega
      subst this
      refine ⟨labels.length, ?_, by simp, ?_⟩
      · rw [← h.length]; simp
      · simp
  · intro a ha
    simp only [List.mem_append, List.mem_singleton] at ha ⊢
    exact ha.imp (h.used a) id
  · intro i j a b ha hb hij
    have hj : j < (labels ++ [l]).length := (List.getElem?_eq_some_iff.1 hb).1
    simp at hj
    have hi : i < labels.length := by omega
    rw [List.getElem?_append_left hi] at ha
    have hx := h.used a (List.mem_of_getElem? ha)
    rw [List.idxOf_append_of_mem hx]
    by_cases h1 : j < labels.length
    · rw [List.getElem?_append_left h1] at hb
      rw [List.idxOf_append_of_mem (h.used b (List.mem_of_getElem? hb))]
      exact h.order i j a b ha hb hij
    · have : j = labels.length := by omega
      subst this
      simp at hb
      subst hb
      rw [List.idxOf_append_of_notMem hocc]
      have := List.idxOf_lt_length_of_mem hx
      simp; omega

theorem numbering_all {occ ids labels} (h : Numbering occ ids labels) : ∀ x ∈ occ, x ∈ labels := by
  intro x hx
  obtain ⟨k, hk, e⟩ := List.mem_iff_getElem.1 hx
  obtain ⟨i, _, _, c⟩ := h.label k hk
  rw [List.getElem?_eq_getElem hk, e] at c
  exact List.mem_of_getElem? c

theorem tree_new {t labels} (h : Tree t labels) {l : String} (hl : t.lookup l = none) :
    Tree ((l, labels.length) :: t) (labels ++ [l]) ∧ l ∉ labels := by
  have hn : l ∉ labels := by
    intro hh
    obtain ⟨k, hk, e⟩ := List.mem_iff_getElem.1 hh
    have := (h l k).2 (by rw [List.getElem?_eq_getElem hk, e])
    rw [hl] at this; simp at this
  refine ⟨?_, hn⟩
  intro a i
  rw [List.lookup_cons]
  by_cases ha : a = l
  · subst ha
    simp only [beq_self_eq_true]
    constructor
    · intro e
      have : labels.length = i := by simpa using e
      subst this; simp
    · intro e
      by_cases hi : i < labels.length
      · rw [List.getElem?_append_left hi] at e
        exact absurd (List.mem_of_getElem? e) hn
      · have : i < (labels ++ [a]).length := (List.getElem?_eq_some_iff.1 e).1
        simp at this
        have : i = labels.length := by omega
        rw [this]
  · rw [show (a == l) = false by simpa using ha]
    rw [h a i]
    by_cases hi : i < labels.length
    · rw [List.getElem?_append_left hi]
    · rw [List.getElem?_eq_none (by omega)]
      constructor
      · intro e; simp at e
      · intro e
        have : i < (labels ++ [l]).length := (List.getElem?_eq_some_iff.1 e).1
        simp at this
        have : i = labels.length := by omega
        subst this
        simp at e
        exact absurd e.symm ha

/-- Capacities. -/
structure Room (st : ESt) : Prop where
  n : st.labels.length + 2 < st.Nmax
  e : st.edges.length + 1 < st.Emax

theorem node1_spec {st : ESt} {occ : List String} {ids : List ℕ} (hn : Numbering occ ids st.labels) (ht : Tree st.tree1 st.labels)
    (hr : st.labels.length < st.Nmax + 1) (l : String) : ∃ i st', node1 st l = some (i, st') ∧
    Numbering (occ ++ [l]) (ids ++ [i]) st'.labels ∧ Tree st'.tree1 st'.labels ∧ st'.labels.length ≤ st.labels.length + 1 ∧
    st'.tree2 = st.tree2 ∧ st'.nOther = st.nOther ∧ st'.edges = st.edges ∧ st'.Nmax = st.Nmax ∧ st'.Emax = st.Emax := by
  unfold node1
  cases hl : st.tree1.lookup l with
  | some i =>
    exact ⟨i, st, rfl, numbering_old hn ((ht l i).1 hl), ht, by omega, rfl, rfl, rfl, rfl, rfl⟩
  | none =>
    obtain ⟨h1, h2⟩ := tree_new ht hl
    dsimp only
    rw [if_pos hr]
    exact ⟨_, _, rfl, numbering_new hn h2 (numbering_all hn), h1, by simp, rfl, rfl, rfl, rfl, rfl⟩

theorem node2_spec {st : ESt} {occ : List String} {ids : List ℕ} {other : List String} (hn : Numbering occ ids other)
    (ht : Tree st.tree2 other) (ho : st.nOther = other.length) (l : String) : ∃ other', 
    Numbering (occ ++ [l]) (ids ++ [(node2 st l).1]) other' ∧ Tree (node2 st l).2.tree2 other' ∧
    (node2 st l).2.nOther = other'.length ∧ (node2 st l).2.labels = st.labels ∧ (node2 st l).2.tree1 = st.tree1 ∧
    (node2 st l).2.edges = st.edges ∧ (node2 st l).2.Nmax = st.Nmax ∧ (node2 st l).2.Emax = st.Emax := by
  unfold node2
  cases hl : st.tree2.lookup l with
  | some i =>
    exact ⟨other, numbering_old hn ((ht l i).1 hl), ht, ho, rfl, rfl, rfl, rfl, rfl⟩
  | none =>
    obtain ⟨h1, h2⟩ := tree_new ht hl
    refine ⟨other ++ [l], ?_, ?_, ?_, rfl, rfl, rfl, rfl, rfl⟩
    · dsimp only; rw [ho]; exact numbering_new hn h2 (numbering_all hn)
    · dsimp only; rw [ho]; exact h1
    · simp [ho]

theorem grow_room {st : ESt} (h1 : st.labels.length < st.Nmax) (h2 : st.edges.length < st.Emax) (h3 : 10 ≤ st.Nmax)
    (h4 : 10 ≤ st.Emax) : Room (growArrays st) ∧ 10 ≤ (growArrays st).Nmax ∧ 10 ≤ (growArrays st).Emax := by
  unfold growArrays
  refine ⟨⟨?_, ?_⟩, ?_, ?_⟩ <;> dsimp only <;> split_ifs <;> omega

/-- The fields a reader uses, in the order of the two classes. -/
def pairOf (bipartite : ℕ) (r : String × String × ℚ) : String × String := if 1 < bipartite then (r.2.1, r.1) else (r.1, r.2.1)

/-- State after the lines with the contents `recs`. -/
structure Inv (bipartite : ℕ) (recs : List (String × String × ℚ)) (st : ESt) : Prop where
  room : Room st
  n10 : 10 ≤ st.Nmax
  e10 : 10 ≤ st.Emax
  weights : st.edges.map (·.2.2) = recs.map (·.2.2)
  tree1 : Tree st.tree1 st.labels
  uni : bipartite = 0 → Numbering (recs.flatMap fun r => [r.1, r.2.1]) (st.edges.flatMap fun e => [e.1, e.2.1]) st.labels
  bi1 : bipartite ≠ 0 → Numbering (recs.map fun r => (pairOf bipartite r).1) (st.edges.map (·.1)) st.labels
  bi2 : bipartite ≠ 0 → ∃ other, Numbering (recs.map fun r => (pairOf bipartite r).2) (st.edges.map (·.2.1)) other ∧
    Tree st.tree2 other ∧ st.nOther = other.length

theorem inv_start (bipartite : ℕ) : Inv bipartite [] { tree1 := [], tree2 := [], labels := [], nOther := 0, edges := [], Nmax := 10, Emax := 100 } :=
  ⟨⟨by simp, by simp⟩, by simp, by simp, rfl, tree_nil, fun _ => numbering_nil, fun _ => numbering_nil, fun _ => ⟨[], numbering_nil, tree_nil, rfl⟩⟩

theorem readFields_line {weighted strtod toks r} (h : Line weighted strtod toks r) : readFields weighted strtod toks = some (some r) := by
  cases h with
  | plain a b rest hw ha hb => simp [readFields, hw, ha, hb]
  | weight a b c rest w hw ha hb hc => simp [readFields, hw, ha, hb, hc]

theorem readFields_bad {weighted strtod toks} (h : Bad weighted strtod toks) : readFields weighted strtod toks = some none := by
  cases h with
  | blank => rfl
  | one a ha => simp [readFields, ha]
  | two a b hw ha hb => simp [readFields, hw, ha, hb]
  | number a b c rest hw ha hb hc => simp [readFields, hw, ha, hb, hc]

theorem readEdge_spec {bipartite : ℕ} {recs : List (String × String × ℚ)} {st : ESt} (h : Inv bipartite recs st) {weighted strtod toks}
    {r : String × String × ℚ} (hl : Line weighted strtod toks r) : ∃ st', readEdge weighted bipartite strtod st toks = some (some st') ∧
    Inv bipartite (recs ++ [r]) st' := by
  have he := h.room.e
  have hN := h.room.n
  obtain ⟨a, b, w⟩ := r
  unfold readEdge
  rw [if_neg (by simp; omega), readFields_line hl]
  simp only [Option.bind_eq_bind, Option.bind_some, Option.pure_def]
  by_cases hb : bipartite = 0
  · subst hb
    simp only [Nat.not_lt_zero, if_false, if_true]
    obtain ⟨i, s1, e1, n1, t1, l1, _, _, q1, q2, q3⟩ := node1_spec (h.uni rfl) h.tree1 (by omega) a
    rw [e1]
    simp only [Option.bind_some]
    obtain ⟨j, s2, e2, n2, t2, l2, _, _, p1, p2, p3⟩ := node1_spec n1 t1 (by omega) b
    rw [e2]
    simp only [Option.bind_some]
    have hg := grow_room (st := { s2 with edges := s2.edges ++ [(i, j, w)] }) (by dsimp only; rw [p2, q2]; omega)
      (by dsimp only; rw [p1, p3, q1, q3]; simp; omega) (by dsimp only; rw [p2, q2]; exact h.n10) (by dsimp only; rw [p3, q3]; exact h.e10)
    refine ⟨_, rfl, hg.1, hg.2.1, hg.2.2, ?_, t2, ?_, fun hh => absurd rfl hh, fun hh => absurd rfl hh⟩
    · simp only [growArrays, p1, q1]; simp [h.weights]
    · intro _
      simp only [growArrays, p1, q1]
      simpa using n2
  · obtain ⟨other, no, tr, ho⟩ := h.bi2 hb
    obtain ⟨i, s1, e1, n1, t1, l1, c1, c2, q1, q2, q3⟩ := node1_spec (h.bi1 hb) h.tree1 (by omega) (if 1 < bipartite then b else a)
    rw [e1]
    simp only [Option.bind_some, if_neg hb]
    obtain ⟨other', n2, t2, o2, r1, r2, r3, r4, r5⟩ := node2_spec (st := s1) no (by rw [c1]; exact tr) (by rw [c2]; exact ho)
      (if 1 < bipartite then a else b)
    have hg := grow_room (st := { (node2 s1 (if 1 < bipartite then a else b)).2 with
      edges := (node2 s1 (if 1 < bipartite then a else b)).2.edges ++ [(i, (node2 s1 (if 1 < bipartite then a else b)).1, w)] })
      (by dsimp only; rw [r1, r4, q2]; omega)
      (by dsimp only; rw [r3, r5, q1, q3]; simp; omega) (by dsimp only; rw [r4, q2]; exact h.n10) (by dsimp only; rw [r5, q3]; exact h.e10)
    refine ⟨_, rfl, hg.1, hg.2.1, hg.2.2, ?_, ?_, fun hh => absurd hh hb, fun _ => ?_, fun _ => ⟨other', ?_, t2, o2⟩⟩
    · simp only [growArrays, r3, q1]; simp [h.weights]
    · simp only [growArrays, r1, r2]; exact t1
    · simp only [growArrays, r1, r3, q1]
      simp only [List.map_append, List.map_cons, List.map_nil]
      rw [show (pairOf bipartite (a, b, w)).1 = if 1 < bipartite then b else a by unfold pairOf; split_ifs <;> rfl]
      exact n1
    · simp only [growArrays, r3, q1]
      simp only [List.map_append, List.map_cons, List.map_nil]
      rw [show (pairOf bipartite (a, b, w)).2 = if 1 < bipartite then a else b by unfold pairOf; split_ifs <;> rfl]
      exact n2

theorem readEdges_spec {bipartite : ℕ} {weighted strtod} : ∀ (lines : List (List String)) (new recs : List (String × String × ℚ)) (st : ESt)
    (post : List (List String)),
    Inv bipartite recs st → List.Forall₂ (Line weighted strtod) lines new → ∃ st', readEdges weighted bipartite strtod st (lines ++ post) =
      readEdges weighted bipartite strtod st' post ∧ Inv bipartite (recs ++ new) st'
  | [], new, recs, st, post, h, hl => by
    cases hl
    exact ⟨st, rfl, by simpa using h⟩
  | l :: ls, new, recs, st, post, h, hl => by
    cases hl with
    | cons h1 h2 =>
      rename_i r rs
      obtain ⟨s1, e1, i1⟩ := readEdge_spec h h1
      obtain ⟨st', e2, i2⟩ := readEdges_spec ls rs _ s1 post i1 h2
      refine ⟨st', ?_, by simpa using i2⟩
      rw [List.cons_append, readEdges, e1]
      exact e2

/-- **C13**: a file all of whose lines have the fields expected is read completely; the weights are those of the lines. In
unipartite mode the ends of the edges are numbered together in the order of first appearance, in bipartite mode the
two columns separately, and only the labels of one of them (the second one in mode 2) are returned. No array is left. -/
theorem C13_read {lines : List (List String)} {recs : List (String × String × ℚ)} {weighted : Bool} {strtod : String → Option ℚ}
    (h : List.Forall₂ (Line weighted strtod) lines recs) {bipartite : ℕ} (hb : bipartite ≤ 2) :
    ∃ edges labels, EdgeListFileInput lines weighted bipartite strtod = some (.ok edges labels) ∧
      edges.map (·.2.2) = recs.map (·.2.2) ∧
      (bipartite = 0 → Numbering (recs.flatMap fun r => [r.1, r.2.1]) (edges.flatMap fun e => [e.1, e.2.1]) labels) ∧
      (bipartite = 1 → Numbering (recs.map (·.1)) (edges.map (·.1)) labels ∧
        ∃ other, Numbering (recs.map (·.2.1)) (edges.map (·.2.1)) other) ∧
      (bipartite = 2 → Numbering (recs.map (·.2.1)) (edges.map (·.1)) labels ∧
        ∃ other, Numbering (recs.map (·.1)) (edges.map (·.2.1)) other) := by
  obtain ⟨st, e, i⟩ := readEdges_spec lines recs [] _ [] (inv_start bipartite) h
  rw [List.append_nil] at e
  refine ⟨st.edges, st.labels, ?_, i.weights, i.uni, ?_, ?_⟩
  · unfold EdgeListFileInput
    rw [if_neg (by omega), e]
    rfl
  · rintro rfl
    obtain ⟨other, ho, _⟩ := i.bi2 (by omega)
    exact ⟨i.bi1 (by omega), other, ho⟩
  · rintro rfl
    obtain ⟨other, ho, _⟩ := i.bi2 (by omega)
    exact ⟨i.bi1 (by omega), other, ho⟩

/-- **C13**: a line with too few fields, or with a weight that is not a number, makes the function return 1. -/
theorem C13_error {pre post : List (List String)} {bad : List String} {recs : List (String × String × ℚ)} {weighted : Bool}
    {strtod : String → Option ℚ} (h : List.Forall₂ (Line weighted strtod) pre recs) (hbad : Bad weighted strtod bad)
    {bipartite : ℕ} (hb : bipartite ≤ 2) :
    ∃ o, EdgeListFileInput (pre ++ bad :: post) weighted bipartite strtod = some o ∧ o = .error 1 := by
  obtain ⟨st, e, i⟩ := readEdges_spec pre recs [] _ (bad :: post) (inv_start bipartite) h
  refine ⟨_, ?_, rfl⟩
  unfold EdgeListFileInput
  rw [if_neg (by omega), e]
  have : readEdge weighted bipartite strtod st bad = some none := by
    unfold readEdge
    have := i.room.e
    rw [if_neg (by simp; omega), readFields_bad hbad]
    rfl
  rw [readEdges, this]
  rfl

/-- **C13**: another mode is refused. -/
theorem C13_mode (lines : List (List String)) (weighted : Bool) (strtod : String → Option ℚ) {bipartite : ℕ} (hb : 2 < bipartite) :
    EdgeListFileInput lines weighted bipartite strtod = some (.error 2) := by
  unfold EdgeListFileInput; rw [if_pos hb]

/-- In a numbering equal labels have equal identifiers and different labels different ones. -/
theorem C13_same {occ : List String} {ids : List ℕ} {labels : List String} (h : Numbering occ ids labels) {k k' : ℕ}
    (hk : k < occ.length) (hk' : k' < occ.length) : (ids[k]? = ids[k']? ↔ occ[k]? = occ[k']?) := by
  obtain ⟨i, a, b, c⟩ := h.label k hk
  obtain ⟨i', a', b', c'⟩ := h.label k' hk'
  rw [a, a', ← c, ← c']
  constructor
  · intro e; rw [Option.some.inj e]
  · intro e
    rw [List.getElem?_eq_getElem b, List.getElem?_eq_getElem b'] at e
    rw [(List.Nodup.getElem_inj_iff h.nodup).1 (Option.some.inj e)]

/-- Finding: a label of 100 bytes or more is written after the end of its buffer. -/
theorem C13_long_label (a b : String) (rest : List String) (lines : List (List String)) (ha : 100 ≤ a.utf8ByteSize) (weighted : Bool)
    (strtod : String → Option ℚ) {bipartite : ℕ} (hb : bipartite ≤ 2) :
    (EdgeListFileInput ((a :: b :: rest) :: lines) weighted bipartite strtod).isNone := by
  unfold EdgeListFileInput
  rw [if_neg (by omega), readEdges, readEdge, if_neg (by simp)]
  simp [readFields, show ¬ a.utf8ByteSize < 100 by omega]

example : List.Forall₂ (Line true fun _ => some 2) [["x", "y", "2"], ["y", "x", "2", "more"]] [("x", "y", 2), ("y", "x", 2)] :=
  .cons (.weight "x" "y" "2" [] 2 rfl (by decide) (by decide) rfl) (.cons (.weight "y" "x" "2" ["more"] 2 rfl (by decide) (by decide) rfl) .nil)

/-- The edges and labels, for a concrete file in the three modes. -/
def run (bipartite : ℕ) : Option (List (ℕ × ℕ × ℚ) × List String) :=
  match EdgeListFileInput [["a", "b"], ["c", "a"], ["b", "b"]] false bipartite (fun _ => none) with
  | some (.ok e l) => some (e, l)
  | _ => none

example : run 0 = some ([(0, 1, 1), (2, 0, 1), (1, 1, 1)], ["a", "b", "c"]) := by decide +kernel
example : run 1 = some ([(0, 0, 1), (1, 1, 1), (2, 0, 1)], ["a", "c", "b"]) := by decide +kernel
example : run 2 = some ([(0, 0, 1), (1, 1, 1), (0, 2, 1)], ["b", "a"]) := by decide +kernel

end FIO
