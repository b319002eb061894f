import Verif.Graph.SumProps

/-!
# C71: the order of the nodes of a sum
-/

namespace GR

/-- The labels of a network in the order of its nodes. -/
def labs (net : Net) : List String := (List.range net.n).map net.label

/-- No links outside the network. -/
def Tail (net : Net) : Prop := ∀ i, net.n ≤ i → net.neig i = []

theorem dictFind_none_iff {net : Net} {a : String} : dictFind net a = none ↔ a ∉ labs net := by
  unfold dictFind labs
  rw [List.find?_eq_none]
  simp only [List.mem_reverse, List.mem_range, decide_eq_true_eq, List.mem_map, not_exists, not_and]

theorem create_labs {net net' : Net} {a : String} {i : ℕ} (h : CreateNodeGraph net a = some (i, net')) :
    i = net.n ∧ net'.n = net.n + 1 ∧ labs net' = labs net ++ [a] ∧ (Tail net → Tail net') := by
  unfold CreateNodeGraph at h
  split_ifs at h with hf
  simp only [Option.some.injEq, Prod.mk.injEq] at h
  obtain ⟨rfl, rfl⟩ := h
  refine ⟨rfl, rfl, ?_, ?_⟩
  · unfold labs
    simp only
    rw [List.range_succ, List.map_append]
    congr 1
    · apply List.map_congr_left
      intro i hi
      rw [List.mem_range] at hi
      rw [Function.update_of_ne (by omega)]
    · simp
  · intro ht i hi
    simp only at hi ⊢
    rw [Function.update_of_ne (by omega)]
    exact ht i (by omega)

theorem addMissing_labs {A B : Net} : ∀ (ps : List ℕ) (sum sum' : Net), addMissingNodes A B ps sum = some sum' →
    labs sum' = labs sum ++ (ps.map B.label).filter (fun a => a ∉ labs A) ∧ (Tail sum → Tail sum')
  | [], sum, sum', h => by
    obtain rfl : sum = sum' := by simpa [addMissingNodes] using h
    simp
  | p :: ps, sum, sum', h => by
    unfold addMissingNodes at h
    rw [List.foldlM_cons] at h
    simp only [Option.bind_eq_bind, Option.bind_eq_some_iff] at h
    obtain ⟨s1, e1, e2⟩ := h
    obtain ⟨h1, h2⟩ := addMissing_labs ps s1 sum' e2
    by_cases hp : dictFind A (B.label p) = none
    · rw [if_pos hp] at e1
      obtain ⟨⟨k, s⟩, hc, rfl⟩ := Option.map_eq_some_iff.1 e1
      obtain ⟨-, -, h3, h4⟩ := create_labs hc
      have := dictFind_none_iff.1 hp
      refine ⟨?_, fun h => h2 (h4 h)⟩
      simp only at h1
      rw [h1, h3, List.map_cons, List.filter_cons, if_pos (by simpa using this)]
      simp
    · rw [if_neg hp] at e1
      obtain rfl := Option.some.inj e1
      have : B.label p ∈ labs A := by
        by_contra hc
        exact hp (dictFind_none_iff.2 hc)
      refine ⟨?_, h2⟩
      rw [h1, List.map_cons, List.filter_cons, if_neg (by simpa using this)]

theorem adj_labs (net : Net) (i j : ℕ) (hi : i < net.n) (auto add : Bool) (w : ℚ) :
    (AddAdjacency net i j auto add w).2.n = net.n ∧ (AddAdjacency net i j auto add w).2.label = net.label ∧
      (Tail net → Tail (AddAdjacency net i j auto add w).2) := by
  unfold AddAdjacency
  split_ifs
  · exact ⟨rfl, rfl, id⟩
  · refine ⟨rfl, rfl, fun h k hk => ?_⟩
    simp only [resetCaches] at hk ⊢
    rw [Function.update_of_ne (by omega)]
    exact h k hk

theorem dictFind_lt {net : Net} {a : String} {i : ℕ} (h : dictFind net a = some i) : i < net.n := by
  unfold dictFind at h
  have := List.mem_of_find?_eq_some h
  simpa using this

theorem addOne_labs {B sum sum' : Net} {p : ℕ} {l : Link} (h : addOneLink B p sum l = some sum') :
    labs sum' = labs sum ∧ (Tail sum → Tail sum') := by
  unfold addOneLink at h
  simp only [Option.bind_eq_bind, Option.bind_eq_some_iff, Option.pure_def, Option.some.injEq] at h
  obtain ⟨q, -, i, hi, j, -, rfl⟩ := h
  obtain ⟨h1, h2, h3⟩ := adj_labs sum i j (dictFind_lt hi) true false 1
  exact ⟨by unfold labs; rw [h1, h2], h3⟩

theorem foldlM_keeps {α β : Type} {f : α → β → Option α} {R : α → α → Prop} (hr : ∀ a, R a a) (ht : ∀ a b c, R a b → R b c → R a c)
    (hf : ∀ a b a', f a b = some a' → R a a') : ∀ (l : List β) (a a' : α), l.foldlM f a = some a' → R a a'
  | [], a, a', h => by
    obtain rfl : a = a' := by simpa using h
    exact hr a
  | b :: l, a, a', h => by
    rw [List.foldlM_cons] at h
    simp only [Option.bind_eq_bind, Option.bind_eq_some_iff] at h
    obtain ⟨c, h1, h2⟩ := h
    exact ht a c a' (hf a b c h1) (foldlM_keeps hr ht hf l c a' h2)

theorem addLinks_labs {B sum sum' : Net} {ps : List ℕ} (h : addLinksOf B ps sum = some sum') :
    labs sum' = labs sum ∧ (Tail sum → Tail sum') := by
  have hr : ∀ a : Net, labs a = labs a ∧ (Tail a → Tail a) := fun a => ⟨rfl, id⟩
  have ht : ∀ a b c : Net, (labs b = labs a ∧ (Tail a → Tail b)) → (labs c = labs b ∧ (Tail b → Tail c)) →
      labs c = labs a ∧ (Tail a → Tail c) := fun a b c h1 h2 => ⟨h2.1.trans h1.1, fun h => h2.2 (h1.2 h)⟩
  exact foldlM_keeps (R := fun a b => labs b = labs a ∧ (Tail a → Tail b)) hr ht
    (fun a p a' h => foldlM_keeps (R := fun a b => labs b = labs a ∧ (Tail a → Tail b)) hr ht (fun _ _ _ h => addOne_labs h) _ _ _ h) _ _ _ h

theorem soft_tail (net : Net) (i : ℕ) (hi : i < net.n) (lab : String) (auto add : Bool) (w : ℚ) :
    (AddAdjacencySoft net i lab auto add w).2.n = net.n ∧ (Tail net → Tail (AddAdjacencySoft net i lab auto add w).2) := by
  unfold AddAdjacencySoft
  split_ifs
  · exact ⟨rfl, id⟩
  · refine ⟨rfl, fun h k hk => ?_⟩
    simp only at hk ⊢
    rw [Function.update_of_ne (by omega)]
    exact h k hk

theorem copyList_tail (i : ℕ) : ∀ (ls : List Link) (net : Net), i < net.n →
    (CopyAdjacencyList ls net i).n = net.n ∧ (Tail net → Tail (CopyAdjacencyList ls net i))
  | [], net, _ => ⟨rfl, id⟩
  | l :: ls, net, hi => by
    obtain ⟨h1, h2⟩ := soft_tail net i hi l.nodeLabel true false l.weight
    obtain ⟨h3, h4⟩ := copyList_tail i ls (AddAdjacencySoft net i l.nodeLabel true false l.weight).2 (by omega)
    unfold CopyAdjacencyList at h3 h4 ⊢
    rw [List.foldl_cons]
    exact ⟨h3.trans h1, fun h => h4 (h2 h)⟩

theorem copyNodes_tail (src : Net) : ∀ (todo k : ℕ) (net net' : Net), copyNodes src todo k net = some net' → Tail net → Tail net'
  | 0, k, net, net', h, ht => by
    obtain rfl : net = net' := by simpa [copyNodes] using h
    exact ht
  | todo + 1, k, net, net', h, ht => by
    rw [copyNodes] at h
    simp only [Option.bind_eq_bind, Option.bind_eq_some_iff] at h
    obtain ⟨⟨i, n1⟩, e1, e2⟩ := h
    obtain ⟨rfl, h2, -, h4⟩ := create_labs e1
    exact copyNodes_tail src todo (k + 1) _ net' e2 ((copyList_tail _ _ n1 (by omega)).2 (h4 ht))

theorem copy_tail {src net : Net} (h : CopyNetwork src = some net) : Tail net := by
  unfold CopyNetwork at h
  simp only [Option.bind_eq_bind, Option.bind_eq_some_iff] at h
  obtain ⟨n1, e1, e2⟩ := h
  have ht := copyNodes_tail src _ _ _ _ e1 (by intro i _; rfl)
  unfold RewireAdjacencyByLabel at e2
  simp only [Option.bind_eq_bind, Option.bind_eq_some_iff, Option.pure_def, Option.some.injEq] at e2
  obtain ⟨rows, -, rfl⟩ := e2
  intro i hi
  simp only at hi ⊢
  rw [if_neg (by omega)]
  exact ht i hi

/-- C71. The nodes of the sum, in order: those of `A`, then those of `B` whose label is not in `A`. -/
theorem C71_order {A B : Net} {gA gB : WG} (hA : Holds A gA) (lA : LabelsOK A) (fA : Fit A)
    (dA : Distinct A) (hB : Holds B gB) (fB : Fit B) (dB : Distinct B) :
    ∃ S, AddTwoNetworks A B = some S ∧ (List.range S.n).map S.label = (List.range A.n).map A.label ++
      ((List.range B.n).map B.label).filter (fun a => a ∉ (List.range A.n).map A.label) ∧ ∀ i, S.n ≤ i → S.neig i = [] := by
  obtain ⟨S, e, -⟩ := C71_union hA lA fA dA hB fB dB
  refine ⟨S, e, ?_⟩
  unfold AddTwoNetworks at e
  simp only [Option.bind_eq_bind, Option.bind_eq_some_iff] at e
  obtain ⟨S0, e0, S1, e1, e2⟩ := e
  obtain ⟨S0', e0', n0, c0, -⟩ := C44_copy hA lA fA dA
  rw [e0] at e0'
  obtain rfl := Option.some.inj e0'
  have hl : labs S0 = labs A := by
    unfold labs
    rw [n0]
    apply List.map_congr_left
    intro i hi
    exact (c0 i (List.mem_range.1 hi)).1
  obtain ⟨h1, h2⟩ := addMissing_labs _ _ _ e1
  obtain ⟨h3, h4⟩ := addLinks_labs e2
  refine ⟨?_, h4 (h2 (copy_tail e0))⟩
  rw [hl] at h1
  exact h3.trans h1

example : ∃ S, AddTwoNetworks sumA sumB = some S ∧ (List.range S.n).map S.label = ["x", "y", "z"] := by
  obtain ⟨h1, h2, h3, h4⟩ := sumA_good
  obtain ⟨k1, k2, k3⟩ := sumB_good
  obtain ⟨S, e, h, -⟩ := C71_order h1 h2 h3 h4 k1 k2 k3
  exact ⟨S, e, h.trans (by decide +kernel)⟩

end GR
