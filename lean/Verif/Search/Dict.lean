import Verif.Search.DictModel
import Verif.Search.Insert

/-!
# Properties of label dictionaries
-/

namespace TS

/-- After the first `m` nodes. -/
structure DictOK (net : GR.Net) (m : ℕ) (d : Dict) : Prop where
  valid : Valid Prod.snd d.tree
  keys : ∀ k ∈ d.tree.keys, k.1 < m ∧ net.label k.1 = k.2
  all : ∀ i < m, ∃ k ∈ d.tree.keys, k.2 = net.label i
  ref : ∀ k ∈ d.tree.keys, d.ref k.1 = (List.range m).reverse.find? fun i => net.label i = k.2

theorem dictStep_ok {net : GR.Net} {m : ℕ} {d : Dict} (h : DictOK net m d) : ∃ d', dictStep net d m = some d' ∧ DictOK net (m + 1) d' := by
  obtain ⟨k, t', e, v, w⟩ := C110_insert (m, net.label m) h.valid
  have hr : (List.range (m + 1)).reverse = m :: (List.range m).reverse := by rw [List.range_succ]; simp
  refine ⟨_, by unfold dictStep; rw [e]; rfl, ?_⟩
  rcases w with ⟨w1, w2, w3⟩ | ⟨w1, rfl, l, r, w3, w4⟩
  · dsimp only at w2
    refine ⟨v, ?_, ?_, ?_⟩ <;> dsimp only <;> rw [w3]
    · exact fun k' hk' => ⟨by have := (h.keys k' hk').1; omega, (h.keys k' hk').2⟩
    · intro i hi
      rcases Nat.lt_succ_iff_lt_or_eq.1 hi with hi | rfl
      · exact h.all i hi
      · exact ⟨k, w1, w2⟩
    · intro k' hk'
      rw [hr, List.find?_cons]
      by_cases hlab : net.label m = k'.2
      · have : k = k' := by
          have h1 := (C110_find k'.2 h.valid.sorted k).2 ⟨w1, w2.trans hlab⟩
          rw [(C110_find k'.2 h.valid.sorted k').2 ⟨hk', rfl⟩] at h1
          exact (Option.some.inj h1).symm
        subst this
        simp [hlab]
      · have hne : k'.1 ≠ k.1 := by
          intro hc
          have h1 := (h.keys k w1).2
          have h2 := (h.keys k' hk').2
          rw [hc, h1, w2] at h2
          exact hlab h2
        rw [Function.update_of_ne hne, decide_eq_false hlab]
        exact h.ref k' hk'
  · have hmem : ∀ k', k' ∈ t'.keys ↔ k' = (m, net.label m) ∨ k' ∈ d.tree.keys := by
      intro k'
      rw [w4, w3]
      simp only [List.mem_append, List.mem_cons]
      exact or_left_comm
    refine ⟨v, ?_, ?_, ?_⟩
    · intro k' hk'
      rcases (hmem k').1 hk' with rfl | hk'
      · exact ⟨by simp, rfl⟩
      · exact ⟨by have := (h.keys k' hk').1; omega, (h.keys k' hk').2⟩
    · intro i hi
      rcases Nat.lt_succ_iff_lt_or_eq.1 hi with hi | rfl
      · obtain ⟨k', h1, h2⟩ := h.all i hi
        exact ⟨k', (hmem k').2 (Or.inr h1), h2⟩
      · exact ⟨_, (hmem _).2 (Or.inl rfl), rfl⟩
    · intro k' hk'
      rw [hr, List.find?_cons]
      rcases (hmem k').1 hk' with rfl | hk'
      · simp
      · have h1 := (h.keys k' hk').1
        dsimp only
        rw [Function.update_of_ne (by omega), decide_eq_false (fun hc => w1 k' hk' hc.symm)]
        exact h.ref k' hk'

/-- **C113**: a label dictionary finds the last node with the label asked for, and none if there is no such
node. -/
theorem C113_dict (net : GR.Net) : ∃ d, MakeLabelDict net = some d ∧ ∀ label, GetNodeDict label d = GR.dictFind net label := by
  have key : ∀ m, ∃ d, (List.range m).foldlM (dictStep net) .empty = some d ∧ DictOK net m d := by
    intro m
    induction m with
    | zero => exact ⟨_, rfl, ⟨by simp [Dict.empty, Tree.keys], _, _, .nil⟩, by simp [Dict.empty, Tree.keys], by simp, by simp [Dict.empty, Tree.keys]⟩
    | succ m ih =>
      obtain ⟨d, h1, h2⟩ := ih
      obtain ⟨d', h3, h4⟩ := dictStep_ok h2
      exact ⟨d', by rw [List.range_succ, List.foldlM_append, h1]; simp [h3], h4⟩
  obtain ⟨d, h1, h2⟩ := key net.n
  refine ⟨d, h1, fun label => ?_⟩
  unfold GetNodeDict GR.dictFind
  cases hf : tfind Prod.snd label d.tree with
  | some k =>
    obtain ⟨h3, rfl⟩ := (C110_find label h2.valid.sorted k).1 hf
    exact h2.ref k h3
  | none =>
    symm
    rw [List.find?_eq_none]
    intro i hi
    simp only [List.mem_reverse, List.mem_range] at hi
    obtain ⟨k, h3, h4⟩ := h2.all i hi
    simp only [decide_eq_true_eq]
    intro hc
    have := (C110_find label h2.valid.sorted k).2 ⟨h3, h4.trans hc⟩
    rw [hf] at this
    cases this

/-- If no label is repeated, the dictionary finds every node by its label. -/
theorem C113_distinct {net : GR.Net} (hinj : ∀ i < net.n, ∀ j < net.n, net.label i = net.label j → i = j) :
    ∃ d, MakeLabelDict net = some d ∧ ∀ i < net.n, GetNodeDict (net.label i) d = some i := by
  obtain ⟨d, h1, h2⟩ := C113_dict net
  refine ⟨d, h1, fun i hi => ?_⟩
  rw [h2]
  unfold GR.dictFind
  cases hf : (List.range net.n).reverse.find? fun j => net.label j = net.label i with
  | none =>
    rw [List.find?_eq_none] at hf
    exact absurd (hf i (by simpa using hi)) (by simp)
  | some j =>
    have h3 := List.find?_some hf
    have h4 := List.mem_of_find?_eq_some hf
    simp only [decide_eq_true_eq] at h3
    simp only [List.mem_reverse, List.mem_range] at h4
    rw [hinj j h4 i hi h3]

/-- Three nodes, two of them with the same label. -/
def three : GR.Net := ⟨3, fun i => if i = 1 then "b" else "a", fun _ => [], fun _ => 0, fun _ => 0⟩

example : ∃ d, MakeLabelDict three = some d ∧ GetNodeDict "a" d = some 2 ∧ GetNodeDict "b" d = some 1 ∧ GetNodeDict "c" d = none := by
  obtain ⟨d, h1, h2⟩ := C113_dict three
  refine ⟨d, h1, ?_, ?_, ?_⟩ <;> rw [h2] <;> decide +kernel

/-- The labels of a reader. -/
structure ReaderOK (s : Reader) : Prop where
  valid : Valid Prod.snd s.dict.tree
  nodup : s.nodes.Nodup
  keys : ∀ k ∈ s.dict.tree.keys, k.1 < s.next ∧ k.2 ∈ s.nodes ∧ s.dict.ref k.1 = some (s.nodes.idxOf k.2)
  all : ∀ l ∈ s.nodes, ∃ k ∈ s.dict.tree.keys, k.2 = l
  fresh : ∀ a, s.next ≤ a → s.dict.ref a = none

theorem intern_ok {s : Reader} (h : ReaderOK s) (label : String) : ∃ s', intern s label = some (s'.nodes.idxOf label, s') ∧ ReaderOK s' ∧
    label ∈ s'.nodes ∧ s'.nodes = if label ∈ s.nodes then s.nodes else s.nodes ++ [label] := by
  obtain ⟨k, t', e, v, w⟩ := C110_insert (s.next, label) h.valid
  unfold intern
  rw [e]
  rcases w with ⟨w1, w2, w3⟩ | ⟨w1, rfl, l, r, w3, w4⟩
  · obtain ⟨h1, h2, h3⟩ := h.keys k w1
    dsimp only at w2
    subst w2
    refine ⟨{ dict := { tree := t', ref := s.dict.ref }, nodes := s.nodes, next := s.next + 1 }, by simp [h3], ⟨v, h.nodup, ?_, ?_, ?_⟩, h2,
      by rw [if_pos h2]⟩
    · dsimp only
      rw [w3]
      exact fun k' hk' => ⟨by have := (h.keys k' hk').1; omega, (h.keys k' hk').2⟩
    · dsimp only
      rw [w3]
      exact h.all
    · exact fun a ha => h.fresh a (by dsimp only at ha; omega)
  · have hmem : ∀ k', k' ∈ t'.keys ↔ k' = (s.next, label) ∨ k' ∈ s.dict.tree.keys := by
      intro k'
      rw [w4, w3]
      simp only [List.mem_append, List.mem_cons]
      exact or_left_comm
    have hnew : label ∉ s.nodes := by
      intro hc
      obtain ⟨k', h1, h2⟩ := h.all label hc
      exact w1 k' h1 h2
    have hidx : (s.nodes ++ [label]).idxOf label = s.nodes.length := by
      rw [List.idxOf_append_of_notMem hnew]
      simp
    refine ⟨⟨⟨t', Function.update s.dict.ref s.next (some s.nodes.length)⟩, s.nodes ++ [label], s.next + 1⟩, by simp [h.fresh s.next le_rfl, List.idxOf_append_of_notMem hnew], ⟨v, ?_, ?_, ?_, ?_⟩, by simp, by rw [if_neg hnew]⟩
    · exact List.nodup_append.2 ⟨h.nodup, by simp, by
        intro a ha b hb
        rw [List.mem_singleton] at hb
        rintro rfl
        exact hnew (hb ▸ ha)⟩
    · intro k' hk'
      rcases (hmem k').1 hk' with rfl | hk'
      · exact ⟨by simp, by simp, by simp [List.idxOf_append_of_notMem hnew]⟩
      · obtain ⟨h1, h2, h3⟩ := h.keys k' hk'
        refine ⟨by dsimp only; omega, by simp [h2], ?_⟩
        dsimp only
        rw [Function.update_of_ne (by omega), h3, List.idxOf_append_of_mem h2]
    · intro l' hl'
      rcases List.mem_append.1 hl' with hl' | hl'
      · obtain ⟨k', h1, h2⟩ := h.all l' hl'
        exact ⟨k', (hmem k').2 (Or.inr h1), h2⟩
      · rw [List.mem_singleton] at hl'
        exact ⟨_, (hmem _).2 (Or.inl rfl), hl'.symm⟩
    · intro a ha
      dsimp only at ha ⊢
      rw [Function.update_of_ne (by omega)]
      exact h.fresh a (by omega)

/-- The different labels, in order of first appearance. -/
def firsts (seen : List String) : List String → List String
  | [] => seen
  | l :: ls => firsts (if l ∈ seen then seen else seen ++ [l]) ls

theorem idxOf_firsts : ∀ (ls seen : List String) (l : String), l ∈ seen → (firsts seen ls).idxOf l = seen.idxOf l ∧ l ∈ firsts seen ls
  | [], _, _, h => ⟨rfl, h⟩
  | l' :: ls, seen, l, h => by
    rw [firsts]
    split_ifs with hc
    · exact idxOf_firsts ls seen l h
    · have := idxOf_firsts ls (seen ++ [l']) l (by simp [h])
      rw [List.idxOf_append_of_mem h] at this
      exact this

theorem internAll_ok : ∀ (ls : List String) {s : Reader}, ReaderOK s → ∃ s', internAll s ls =
    some (ls.map fun l => (firsts s.nodes ls).idxOf l, s') ∧ ReaderOK s' ∧ s'.nodes = firsts s.nodes ls
  | [], s, h => ⟨s, rfl, h, rfl⟩
  | l :: ls, s, h => by
    obtain ⟨s1, e1, h1, m1, n1⟩ := intern_ok h l
    obtain ⟨s2, e2, h2, n2⟩ := internAll_ok ls h1
    refine ⟨s2, ?_, h2, by rw [n2, n1, firsts]⟩
    simp only [internAll, e1, e2, Option.bind_eq_bind, Option.bind_some, List.map_cons, firsts]
    rw [← n1, (idxOf_firsts ls s1.nodes l m1).1]
    rfl

/-- **C113**: while a file is read, equal labels get the same node, different labels different nodes, and the
nodes are numbered in the order in which their labels first appear. -/
theorem C113_reader (ls : List String) : ∃ s, internAll { dict := .empty, nodes := [], next := 0 } ls =
    some (ls.map fun l => (firsts [] ls).idxOf l, s) ∧ s.nodes = firsts [] ls ∧ (firsts [] ls).Nodup ∧ ∀ l, l ∈ firsts [] ls ↔ l ∈ ls := by
  obtain ⟨s, e, h, n⟩ := internAll_ok ls (s := { dict := .empty, nodes := [], next := 0 })
    ⟨⟨by simp [Dict.empty, Tree.keys], _, _, .nil⟩, by simp, by simp [Dict.empty, Tree.keys], by simp, by simp [Dict.empty]⟩
  refine ⟨s, e, n, n ▸ h.nodup, ?_⟩
  have key : ∀ (ls seen : List String) (l : String), l ∈ firsts seen ls ↔ l ∈ seen ∨ l ∈ ls := by
    intro ls
    induction ls with
    | nil => intro seen l; simp [firsts]
    | cons l' ls ih =>
      intro seen l
      rw [firsts, ih]
      split_ifs with hc
      · simp only [List.mem_cons]
        constructor
        · rintro (h | h)
          · exact Or.inl h
          · exact Or.inr (Or.inr h)
        · rintro (h | rfl | h)
          · exact Or.inl h
          · exact Or.inl hc
          · exact Or.inr h
      · simp only [List.mem_append, List.mem_cons, List.not_mem_nil, or_false, or_assoc]
  intro l
  simpa using key ls [] l

/-- Two lines `a b` and `b a`, one line `c a`. -/
example : (internAll { dict := .empty, nodes := [], next := 0 } ["a", "b", "b", "a", "c", "a"]).map (fun p => (p.1, p.2.nodes)) =
    some ([0, 1, 1, 0, 2, 0], ["a", "b", "c"]) := by
  obtain ⟨s, h1, h2, -⟩ := C113_reader ["a", "b", "b", "a", "c", "a"]
  rw [h1]
  simp only [Option.map_some, h2]
  decide +kernel

end TS
