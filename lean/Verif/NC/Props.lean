import Verif.NC.Energy
import Mathlib.Tactic.IntervalCases
import Mathlib.Tactic.NormNum

/-!
# Properties C01 - C05: the array based partition
-/

namespace NC

/-! ## Histories of edits -/

/-- A public edit of a partition. -/
inductive Op
  | move (node module : ℕ)
  | merge (module1 module2 : ℕ)
  | copy
  | compress

/-- The model function called by an edit. -/
def exec : Op → Partition → Option Partition
  | .move i m => ChangeModule i m
  | .merge a b => MergeModules a b
  | .copy => CopyPartitionStruct
  | .compress => CompressPartition

/-- Arguments of an edit are legal: indices in range, the merged modules distinct. -/
def Valid (p : Partition) : Op → Prop
  | .move i m => i < p.N ∧ m < p.M
  | .merge a b => a < p.M ∧ b < p.M ∧ a ≠ b
  | .copy => True
  | .compress => 0 < p.N

/-- What an edit must do to the assignment `g` of `N` nodes to `M` modules
(independent of the linked lists). -/
def Effect (N M : ℕ) (g : ℕ → ℕ) (M' : ℕ) (g' : ℕ → ℕ) : Op → Prop
  | .move i m => M' = M ∧ ∀ j < N, g' j = if j = i then m else g j
  | .merge a b => M' = M ∧
      (∀ j < N, g j ≠ a → g j ≠ b → g' j = g j) ∧
      (∀ j < N, g j = a ∨ g j = b → g' j = a ∨ g' j = b) ∧
      (∀ j < N, ∀ k < N, (g j = a ∨ g j = b) → (g k = a ∨ g k = b) → g' j = g' k)
  | .copy => M' = M ∧ ∀ j < N, g' j = g j
  | .compress => M' ≤ M ∧ (∀ m < M', ∃ j < N, g' j = m) ∧
      (∀ j < N, ∀ k < N, (g' j = g' k ↔ g j = g k))

/-- Every legal edit of a consistent partition succeeds (no NULL dereference, no wrap-around, no
endless list), keeps the partition consistent and has the intended effect on the assignment;
node strengths are untouched. -/
theorem C01_step {p : Partition} (h : Consistent p) (hMN : p.M ≤ p.N) {op : Op} (hv : Valid p op) :
    ∃ p', exec op p = some p' ∧ Consistent p' ∧ p'.M ≤ p'.N ∧ p'.N = p.N ∧
      (∀ i < p.N, strengthOf p' i = strengthOf p i) ∧
      Effect p.N p.M (labelOf p) p'.M (labelOf p') op := by
  obtain ⟨seq, hw⟩ := h.wf
  cases op with
  | move i m =>
    obtain ⟨hi, hm⟩ := hv
    obtain ⟨p', seq', hr, hw', hrel⟩ := ChangeModule_spec hw hi hm
    refine ⟨p', hr, hw'.consistent, by rw [hrel.M, hrel.N]; exact hMN, hrel.N,
      fun i _ => hrel.strength i, hrel.M, ?_⟩
    intro j hj
    simp only [labelOf]
    rw [hrel.label j hj, Function.update_apply]; rfl
  | merge a b =>
    obtain ⟨ha, hb, hne⟩ := hv
    obtain ⟨p', seq', s, l, hr, hw', hsl, hrel⟩ := MergeModules_spec hw ha hb hne
    have hlab : ∀ j < p.N, labelOf p' j = _ := hrel.label
    have hmema := hw.mem a ha
    have hmemb := hw.mem b hb
    refine ⟨p', hr, hw'.consistent, by rw [hrel.M, hrel.N]; exact hMN, hrel.N,
      fun i _ => hrel.strength i, hrel.M, ?_, ?_, ?_⟩
    · intro j hj h1 h2
      rw [hlab j hj]
      simp only [labelOf] at h1 h2 ⊢
      rcases hsl with ⟨rfl, rfl⟩ | ⟨rfl, rfl⟩ <;> split_ifs <;> simp_all
    · intro j hj h1
      rw [hlab j hj]
      simp only [labelOf] at h1
      rcases hsl with ⟨rfl, rfl⟩ | ⟨rfl, rfl⟩ <;> split_ifs <;> simp_all
    · intro j hj k hk h1 h2
      rw [hlab j hj, hlab k hk]
      simp only [labelOf] at h1 h2
      by_cases hz : seq a = [] ∨ seq b = []
      · simp only [hz, if_true]
        rcases hz with hz | hz
        · have : ∀ x < p.N, (p.nodes x).module ≠ a := by
            intro x hx hxa; have := (hmema x).2 ⟨hx, hxa⟩; rw [hz] at this; simp at this
          rw [h1.resolve_left (this j hj), h2.resolve_left (this k hk)]
        · have : ∀ x < p.N, (p.nodes x).module ≠ b := by
            intro x hx hxa; have := (hmemb x).2 ⟨hx, hxa⟩; rw [hz] at this; simp at this
          rw [h1.resolve_right (this j hj), h2.resolve_right (this k hk)]
      · simp only [hz, if_false]
        rcases hsl with ⟨rfl, rfl⟩ | ⟨rfl, rfl⟩ <;> rcases h1 with h1 | h1 <;>
          rcases h2 with h2 | h2 <;> simp [h1, h2]
  | copy =>
    obtain ⟨c, hr, hN, hM, hE, hn, hm⟩ := CopyPartitionStruct_spec hw hMN
    refine ⟨c, hr, (hw.congr hN hM hE hn hm).consistent, by rw [hN, hM]; exact hMN, hN, ?_, hM, ?_⟩
    · intro i hi; simp only [strengthOf, hn i hi]
    · intro j hj; simp only [labelOf, hn j hj]
  | compress =>
    obtain ⟨p', seq', hr, hw', hN, hM, hE, hs, hsame, hkeep⟩ := CompressPartition_spec hw hv
    refine ⟨p', hr, hw'.consistent, by rw [hN, hM]; omega, hN, fun i _ => hs i, by rw [hM]; omega,
      ?_, hsame⟩
    intro m hm
    have he := hw'.consistent.empty
    rw [hE] at he
    have := (Finset.card_eq_zero.1 he.symm)
    rw [Finset.filter_eq_empty_iff] at this
    have := this (Finset.mem_range.2 hm)
    push Not at this
    rw [hN] at this
    exact this

/-- Run a list of edits. -/
def execAll : List Op → Partition → Option Partition
  | [], p => some p
  | op :: ops, p => (exec op p).bind (execAll ops)

/-- Every edit of the list has legal arguments at the moment it is executed. -/
def AllValid : List Op → Partition → Prop
  | [], _ => True
  | op :: ops, p => Valid p op ∧ ∀ p', exec op p = some p' → AllValid ops p'

/-- C01, initial state: creating a partition (`M ≤ N`), storing any strengths and dispatching the
nodes with any values of the random generator gives a consistent partition with the drawn
assignment. -/
theorem C01_init (N M : ℕ) (hMN : M ≤ N) (k : ℕ → ℚ) (draws : ℕ → ℕ)
    (hd : ∀ i, draws i < M ∨ N = M) :
    ∃ p0 p, CreatePartition N M = some p0 ∧
      AssignNodesToModules
        { p0 with nodes := fun i => { p0.nodes i with strength := k i } } draws = some p ∧
      Consistent p ∧ p.N = N ∧ p.M = M ∧ (∀ i < N, strengthOf p i = k i) ∧
      (∀ i < N, labelOf p i = if N = M then i else draws i) := by
  have hc : CreatePartition N M = some
      { N := N, M := M, nempty := M
        nodes := fun i => { id := i, strength := 0, module := 0, prev := none, next := none }
        modules := fun m => { id := m, size := 0, strength := 0, first := none, last := none } } := by
    simp [CreatePartition, not_lt.2 hMN]
  obtain ⟨p, seq, hr, hw, hrel⟩ := @AssignNodesToModules_spec
    { N := N, M := M, nempty := M
      nodes := fun i => { id := i, strength := k i, module := 0, prev := none, next := none }
      modules := fun m => { id := m, size := 0, strength := 0, first := none, last := none } }
    draws ⟨hMN, rfl, fun _ _ => rfl, fun _ _ => rfl, fun _ _ => rfl, fun _ _ => rfl,
      fun _ _ => rfl, fun _ _ => rfl, fun _ _ => rfl, fun _ _ => rfl⟩ hd
  exact ⟨_, p, hc, hr, hw.consistent, hrel.N, hrel.M, fun i _ => hrel.strength i, hrel.label⟩

/-- C01: after any history of legal moves, merges, copies and compressions the partition is
consistent, and node strengths are the initial ones. -/
theorem C01_history : ∀ (ops : List Op) {p : Partition}, Consistent p → p.M ≤ p.N → AllValid ops p →
    ∃ p', execAll ops p = some p' ∧ Consistent p' ∧ p'.N = p.N ∧
      ∀ i < p.N, strengthOf p' i = strengthOf p i
  | [], p, h, _, _ => ⟨p, rfl, h, rfl, fun _ _ => rfl⟩
  | op :: ops, p, h, hMN, hv => by
    obtain ⟨p1, hr, hc, hMN1, hN, hs, _⟩ := C01_step h hMN hv.1
    obtain ⟨p2, hr2, hc2, hN2, hs2⟩ := C01_history ops hc hMN1 (hv.2 p1 hr)
    refine ⟨p2, ?_, hc2, hN2.trans hN, ?_⟩
    · simp [execAll, hr, hr2]
    · intro i hi; rw [hs2 i (hN ▸ hi), hs i hi]

/-- Non-vacuity of C01: five nodes in three modules, then two moves (one emptying a module), a
merge, a copy and a compression are all legal. -/
example : ∃ p, Consistent p ∧ p.M ≤ p.N ∧
    AllValid [.move 0 1, .move 0 1, .merge 0 1, .copy, .compress] p := by
  obtain ⟨p0, p, _, _, hc, hN, hM, _, _⟩ := C01_init 5 3 (by omega) (fun i => i + 1)
    (fun i => i % 3) (fun i => Or.inl (Nat.mod_lt _ (by omega)))
  refine ⟨p, hc, by omega, ?_⟩
  have hMN : p.M ≤ p.N := by omega
  refine ⟨⟨by omega, by omega⟩, fun p1 h1 => ?_⟩
  obtain ⟨q1, e1, c1, l1, n1, _, M1, _⟩ := C01_step hc hMN (op := .move 0 1) ⟨by omega, by omega⟩
  rw [h1] at e1; cases e1
  refine ⟨⟨by omega, by omega⟩, fun p2 h2 => ?_⟩
  obtain ⟨q2, e2, c2, l2, n2, _, M2, _⟩ := C01_step c1 l1 (op := .move 0 1) ⟨by omega, by omega⟩
  rw [h2] at e2; cases e2
  refine ⟨⟨by omega, by omega, by omega⟩, fun p3 h3 => ?_⟩
  obtain ⟨q3, e3, c3, l3, n3, _, M3, _⟩ := C01_step c2 l2 (op := .merge 0 1)
    ⟨by omega, by omega, by omega⟩
  rw [h3] at e3; cases e3
  refine ⟨trivial, fun p4 h4 => ?_⟩
  obtain ⟨q4, e4, c4, l4, n4, _, M4, _⟩ := C01_step c3 l3 (op := .copy) trivial
  rw [h4] at e4; cases e4
  exact ⟨show 0 < p4.N by omega, fun _ _ => trivial⟩

/-- Finding: asking for more modules than nodes writes outside the module array. -/
theorem C01_more_modules_than_nodes_overflows (N M : ℕ) (h : N < M) : CreatePartition N M = none := by
  simp [CreatePartition, h]

/-- Finding: merging a non-empty module with itself silently destroys the partition. -/
theorem C01_self_merge_breaks {p : Partition} (h : Consistent p) {m : ℕ} (hm : m < p.M)
    (hne : ∃ i < p.N, labelOf p i = m) :
    ∃ p', MergeModules m m p = some p' ∧ ¬ Consistent p' := by
  obtain ⟨seq, hw⟩ := h.wf
  obtain ⟨i, hi, hl⟩ := hne
  have himem := (hw.mem m hm i).2 ⟨hi, hl⟩
  have hsz : (p.modules m).size ≠ 0 := by
    rw [hw.size m hm]; intro h0; rw [List.length_eq_zero_iff.1 h0] at himem; simp at himem
  have hseg := hw.seg m hm
  obtain ⟨f, hf⟩ : ∃ f, (p.modules m).first = some f := by
    cases hc : seq m with
    | nil => rw [hc] at himem; simp at himem
    | cons c l => rw [hc] at hseg; exact ⟨c, hseg.1⟩
  obtain ⟨la, hla⟩ : ∃ la, (p.modules m).last = some la := by
    rcases List.eq_nil_or_concat (seq m) with h0 | ⟨l, b, hb⟩
    · rw [h0] at himem; simp at himem
    · rw [List.concat_eq_append] at hb
      rw [hb, Seg.snoc] at hseg
      obtain ⟨_, _, _, _, h4⟩ := hseg
      exact ⟨b, h4⟩
  have key : ∃ p', MergeModules m m p = some p' ∧ (p'.modules m).size = 0 ∧ p'.N = p.N ∧
      p'.M = p.M ∧ (p'.nodes i).module = m := by
    rw [MergeModules_eq hm hm]
    simp only [hsz, or_self, if_false, gt_iff_lt, lt_self_iff_false]
    unfold mergeBody
    rw [hw.moduleNodes hm]
    simp only [Option.bind_eq_bind, Option.bind_some, setModule_modules, relabel_modules,
      if_true, hf, setNode_modules, hla, hw.moduleId m hm]
    refine ⟨_, rfl, ?_, ?_, ?_, ?_⟩
    · simp [setModule_modules]
    · simp [relabel_sizes]
    · simp [relabel_sizes]
    · simp only [setModule_nodes, setNode_nodes, relabel_nodes]
      split_ifs <;> simp_all
  obtain ⟨p', hr, h1, h2, h3, h4⟩ := key
  refine ⟨p', hr, fun hc => ?_⟩
  have := hc.size m (by omega)
  rw [h1] at this
  have h0 := Finset.card_eq_zero.1 this.symm
  have : i ∈ (Finset.range p'.N).filter (fun i => (p'.nodes i).module = m) := by
    simp [h2, hi, h4]
  rw [h0] at this; simp at this

/-! ## A concrete adjacency array for the non-vacuity examples: the path 0 - 1 - 2 -/

/-- The weighted path `0 -(2)- 1 -(3)- 2` in CSR form. -/
def pathAdj : Adj where
  N := 3
  E := 2
  idx := fun i => [0, 1, 3, 4].getD i 4
  neighbors := fun s => [1, 0, 2, 1].getD s 0
  strength := fun s => [2, 2, 3, 3].getD s 0

/-- Its weight matrix. -/
def pathA (i j : ℕ) : ℚ :=
  if (i, j) = (0, 1) ∨ (i, j) = (1, 0) then 2 else
  if (i, j) = (1, 2) ∨ (i, j) = (2, 1) then 3 else 0

theorem path_represents : Represents pathAdj 3 pathA := by
  have hb : ∀ i < 3, ∀ s, s < pathAdj.idx (i + 1) → s < 4 := by
    intro i hi s hs
    have : ∀ i < 3, pathAdj.idx (i + 1) ≤ 4 := by decide
    exact lt_of_lt_of_le hs (this i hi)
  refine ⟨by decide, by decide, ?_, ?_, ?_, ?_, ?_, by decide⟩
  · intro i hi s h1 h2
    have : ∀ i < 3, ∀ s < 4, pathAdj.idx i ≤ s → s < pathAdj.idx (i + 1) →
      pathAdj.neighbors s < 3 := by decide
    exact this i hi s (hb i hi s h2) h1 h2
  · intro i hi s h1 h2
    have : ∀ i < 3, ∀ s < 4, pathAdj.idx i ≤ s → s < pathAdj.idx (i + 1) →
      pathAdj.neighbors s ≠ i := by decide
    exact this i hi s (hb i hi s h2) h1 h2
  · intro i hi s t h1 h2 h3 h4
    have : ∀ i < 3, ∀ s < 4, ∀ t < 4, (pathAdj.idx i ≤ s ∧ s < pathAdj.idx (i + 1) ∧
      pathAdj.idx i ≤ t ∧ t < pathAdj.idx (i + 1) ∧
      pathAdj.neighbors s = pathAdj.neighbors t) → s = t := by decide
    exact fun h5 => this i hi s (hb i hi s h2) t (hb i hi t h4) ⟨h1, h2, h3, h4, h5⟩
  · intro i hi s h1 h2
    have : ∀ i < 3, ∀ s < 4, pathAdj.idx i ≤ s → s < pathAdj.idx (i + 1) →
      pathAdj.strength s = pathA i (pathAdj.neighbors s) := by decide
    exact this i hi s (hb i hi s h2) h1 h2
  · intro i hi j hj h
    have : ∀ i < 3, ∀ j < 3, (∀ s < 4, (pathAdj.idx i ≤ s ∧ s < pathAdj.idx (i + 1)) →
      pathAdj.neighbors s ≠ j) → pathA i j = 0 := by decide
    exact this i hi j hj (fun s _ hs => h s hs.1 hs.2)

/-- a partition of the path with node 0 alone and nodes 1, 2 together -/
theorem path_partition : ∃ p, Consistent p ∧ p.N = 3 ∧ p.M = 2 ∧
    (∀ i < 3, labelOf p i = if i = 0 then 0 else 1) := by
  obtain ⟨p0, p, _, _, hc, hN, hM, _, hl⟩ := C01_init 3 2 (by omega) (fun i => i + 1)
    (fun i => if i = 0 then 0 else 1) (fun i => by left; split_ifs <;> omega)
  exact ⟨p, hc, hN, hM, by simpa using hl⟩

/-! ## C04: modularity -/

/-- C04: `PartitionModularity` is the textbook sum over ordered pairs of distinct nodes of the same
module, minus the diagonal null-model term if requested; it always terminates. -/
theorem C04_modularity {p : Partition} {adj : Adj} {A : ℕ → ℕ → ℚ} (h : Consistent p)
    (ha : Represents adj p.N A) (d : Bool) :
    PartitionModularity p adj d = some (modularity p.N A (strengthOf p) (labelOf p)
      - if d then diagonal p.N (strengthOf p) else 0) := by
  obtain ⟨seq, hw⟩ := h.wf
  exact PartitionModularity_eq hw ha d

example : ∃ p, Consistent p ∧ Represents pathAdj p.N pathA := by
  obtain ⟨p, hc, hN, _⟩ := path_partition
  exact ⟨p, hc, hN ▸ path_represents⟩

/-! ## C02, C03: energy differences -/

/-- C02: for every consistent partition, stored graph, node and other module, the value announced
by `dEChangeModule` is exactly the change of `PartitionModularity` produced by `ChangeModule`. -/
theorem C02_dEChangeModule_exact {p : Partition} {adj : Adj} {A : ℕ → ℕ → ℚ} (h : Consistent p)
    (ha : Represents adj p.N A) {i new : ℕ} (hi : i < p.N) (hnew : new < p.M)
    (hne : new ≠ labelOf p i) (d : Bool) :
    ∃ p' dE q q', ChangeModule i new p = some p' ∧ dEChangeModule i new p adj = some dE ∧
      PartitionModularity p adj d = some q ∧ PartitionModularity p' adj d = some q' ∧
      dE = q' - q := by
  obtain ⟨seq, hw⟩ := h.wf
  obtain ⟨p', seq', hr, hw', hrel⟩ := ChangeModule_spec hw hi hnew
  refine ⟨p', _, _, _, hr, dEChangeModule_eq hw ha hi hnew hne, PartitionModularity_eq hw ha d,
    PartitionModularity_eq hw' (hrel.N ▸ ha) d, ?_⟩
  have hs : strengthOf p' = strengthOf p := funext hrel.strength
  rw [hs, hrel.N, modularity_congr_eq (g' := labelOf p') (g := Function.update (labelOf p) i new) hrel.label]
  ring

example : ∃ p i new, Consistent p ∧ Represents pathAdj p.N pathA ∧ i < p.N ∧ new < p.M ∧
    new ≠ labelOf p i := by
  obtain ⟨p, hc, hN, hM, hl⟩ := path_partition
  exact ⟨p, 1, 0, hc, hN ▸ path_represents, by omega, by omega, by rw [hl 1 (by omega)]; simp⟩

/-- C03: for every consistent partition, stored graph and pair of distinct modules (empty or not,
in either order), the value announced by `dEMergeModules` is exactly the change of
`PartitionModularity` produced by `MergeModules`. -/
theorem C03_dEMergeModules_exact {p : Partition} {adj : Adj} {A : ℕ → ℕ → ℚ} (h : Consistent p)
    (ha : Represents adj p.N A) {m1 m2 : ℕ} (h1 : m1 < p.M) (h2 : m2 < p.M) (hne : m1 ≠ m2)
    (d : Bool) :
    ∃ p' dE q q', MergeModules m1 m2 p = some p' ∧ dEMergeModules m1 m2 p adj = some dE ∧
      PartitionModularity p adj d = some q ∧ PartitionModularity p' adj d = some q' ∧
      dE = q' - q := by
  obtain ⟨seq, hw⟩ := h.wf
  obtain ⟨p', seq', s, l, hr, hw', hsl, hrel⟩ := MergeModules_spec hw h1 h2 hne
  refine ⟨p', _, _, _, hr, dEMergeModules_eq hw ha h1 h2 hne
    (g := fun i => if labelOf p i = m1 then m2 else labelOf p i) (fun _ _ => rfl),
    PartitionModularity_eq hw ha d, PartitionModularity_eq hw' (hrel.N ▸ ha) d, ?_⟩
  have hs : strengthOf p' = strengthOf p := funext hrel.strength
  rw [hs, hrel.N]
  have hcong : modularity p.N A (strengthOf p) (labelOf p') = modularity p.N A (strengthOf p)
      (fun i => if labelOf p i = m1 then m2 else labelOf p i) := by
    refine modularity_congr fun i hi j hj => ?_
    have e : ∀ x < p.N, labelOf p' x = if seq m1 = [] ∨ seq m2 = [] then labelOf p x else
      if labelOf p x = s then l else labelOf p x := hrel.label
    rw [e i hi, e j hj]
    by_cases hz : seq m1 = [] ∨ seq m2 = []
    · simp only [hz, if_true]
      have key : (∀ x < p.N, labelOf p x ≠ m1) ∨ (∀ x < p.N, labelOf p x ≠ m2) := by
        rcases hz with hz | hz
        · left; intro x hx hxa
          have := (hw.mem m1 h1 x).2 ⟨hx, hxa⟩; rw [hz] at this; simp at this
        · right; intro x hx hxa
          have := (hw.mem m2 h2 x).2 ⟨hx, hxa⟩; rw [hz] at this; simp at this
      rcases key with key | key
      · simp [key i hi, key j hj]
      · have ki := key i hi
        have kj := key j hj
        by_cases c1 : labelOf p i = m1 <;> by_cases c2 : labelOf p j = m1
        · simp [c1, c2]
        · rw [if_pos c1, if_neg c2]
          exact ⟨fun hh => absurd (hh ▸ c1) c2, fun hh => absurd hh.symm kj⟩
        · rw [if_neg c1, if_pos c2]
          exact ⟨fun hh => absurd (hh.trans c2) c1, fun hh => absurd hh ki⟩
        · simp [c1, c2]
    · simp only [hz, if_false]
      rcases hsl with ⟨rfl, rfl⟩ | ⟨rfl, rfl⟩
      · rfl
      · by_cases c1 : labelOf p i = s <;> by_cases c2 : labelOf p j = s <;>
          by_cases c3 : labelOf p i = l <;> by_cases c4 : labelOf p j = l <;>
          simp_all <;> tauto
  rw [hcong]; ring

example : ∃ p m1 m2, Consistent p ∧ Represents pathAdj p.N pathA ∧ m1 < p.M ∧ m2 < p.M ∧
    m1 ≠ m2 ∧ (∃ i < p.N, labelOf p i = m1) ∧ (∃ i < p.N, labelOf p i = m2) := by
  obtain ⟨p, hc, hN, hM, hl⟩ := path_partition
  exact ⟨p, 0, 1, hc, hN ▸ path_represents, by omega, by omega, by omega,
    ⟨0, by omega, by rw [hl 0 (by omega)]; simp⟩, ⟨1, by omega, by rw [hl 1 (by omega)]; simp⟩⟩

/-! ## C05: compression -/

/-- C05: compressing a consistent partition of a non-empty network removes exactly the empty
modules: the result is consistent, every module has a node, two nodes share a module iff they did
before, modules that already had a small enough index keep it, and the modularity is unchanged. -/
theorem C05_compress {p : Partition} (h : Consistent p) (hN : 0 < p.N) :
    ∃ p', CompressPartition p = some p' ∧ Consistent p' ∧ p'.N = p.N ∧
      p'.M + p.nempty = p.M ∧ p'.nempty = 0 ∧
      (∀ m < p'.M, ∃ i < p.N, labelOf p' i = m) ∧
      (∀ i < p.N, ∀ j < p.N, (labelOf p' i = labelOf p' j ↔ labelOf p i = labelOf p j)) ∧
      (∀ i < p.N, labelOf p i < p'.M → labelOf p' i = labelOf p i) ∧
      (∀ i < p.N, strengthOf p' i = strengthOf p i) ∧
      (∀ adj A, Represents adj p.N A → ∀ d,
        PartitionModularity p' adj d = PartitionModularity p adj d) := by
  obtain ⟨seq, hw⟩ := h.wf
  obtain ⟨p', seq', hr, hw', hN', hM, hE, hs, hsame, hkeep⟩ := CompressPartition_spec hw hN
  have hle : p.nempty ≤ p.M := by rw [hw.empty]; exact emptyCount_le _ _
  refine ⟨p', hr, hw'.consistent, hN', by omega, hE, ?_, hsame, ?_, fun i _ => hs i, ?_⟩
  · intro m hm
    have he := hw'.consistent.empty
    rw [hE] at he
    have := (Finset.card_eq_zero.1 he.symm)
    rw [Finset.filter_eq_empty_iff] at this
    have := this (Finset.mem_range.2 hm)
    push Not at this
    rw [hN'] at this
    exact this
  · rw [hM]; exact hkeep
  · intro adj A ha d
    have e : strengthOf p' = strengthOf p := funext hs
    rw [PartitionModularity_eq hw ha d, PartitionModularity_eq hw' (hN' ▸ ha) d, hN', e,
      modularity_congr (g' := labelOf p') (g := labelOf p) hsame]

/-- Non-vacuity: a consistent partition with an empty module in the middle. -/
example : ∃ p, Consistent p ∧ 0 < p.N ∧ p.nempty ≠ 0 := by
  obtain ⟨p0, p, _, _, hc, hN, hM, _, hl⟩ := C01_init 4 3 (by omega) (fun i => i + 1)
    (fun i => if i = 0 then 0 else 2) (fun i => by left; split_ifs <;> omega)
  refine ⟨p, hc, by omega, ?_⟩
  rw [hc.empty]
  intro h0
  have := Finset.card_eq_zero.1 h0
  rw [Finset.filter_eq_empty_iff] at this
  refine this (Finset.mem_range.2 (show 1 < p.M by omega)) ?_
  intro i hi
  have : labelOf p i = _ := hl i (by omega)
  simp only [labelOf] at this
  rw [this]; split_ifs <;> omega

end NC
