import Verif.NC.Compress
import Mathlib.Algebra.BigOperators.Intervals

/-! # Modularity sums (helper lemmas) -/

set_option linter.unusedSimpArgs false

namespace NC

open Finset

theorem mem_slots {adj : Adj} {i s : ℕ} :
    s ∈ slots adj i ↔ adj.idx i ≤ s ∧ s < adj.idx (i + 1) := by
  simp only [slots, List.mem_range'_1]; omega

theorem nodup_slots (adj : Adj) (i : ℕ) : (slots adj i).Nodup := List.nodup_range'

theorem Represents.diag {adj n A} (h : Represents adj n A) {i} (hi : i < n) : A i i = 0 :=
  h.absent i hi i hi (h.noloop i hi)

theorem edgeValue_eq {adj n A} (h : Represents adj n A) {a b} (ha : a < n) (hb : b < n) :
    edgeValue adj a b = A a b := by
  unfold edgeValue
  cases hf : (slots adj a).find? (fun i => decide (adj.neighbors i = b)) with
  | some s =>
    have h1 := List.mem_of_find?_eq_some hf
    have h2 := List.find?_some hf
    simp only [decide_eq_true_eq] at h2
    rw [mem_slots] at h1
    simp only
    rw [h.value a ha s h1.1 h1.2, h2]
  | none =>
    simp only
    rw [List.find?_eq_none] at hf
    refine (h.absent a ha b hb ?_).symm
    intro s h1 h2 h3
    exact hf s (mem_slots.2 ⟨h1, h2⟩) (by simpa using h3)

/-- A weighted sum over the slots of a node is a weighted sum over all nodes. -/
theorem slots_sum {adj n A} (h : Represents adj n A) {i} (hi : i < n) (w : ℕ → ℚ) :
    ((slots adj i).map (fun s => adj.strength s * w (adj.neighbors s))).sum =
      ∑ j ∈ range n, A i j * w j := by
  rw [← List.sum_toFinset _ (nodup_slots adj i)]
  have h1 : ∑ s ∈ (slots adj i).toFinset, adj.strength s * w (adj.neighbors s) =
      ∑ s ∈ (slots adj i).toFinset, (fun j => A i j * w j) (adj.neighbors s) := by
    refine sum_congr rfl fun s hs => ?_
    rw [List.mem_toFinset, mem_slots] at hs
    simp only
    rw [h.value i hi s hs.1 hs.2]
  rw [h1, ← sum_image (f := fun j => A i j * w j) (g := adj.neighbors)]
  · refine sum_subset ?_ ?_
    · intro j hj
      simp only [mem_image, List.mem_toFinset, mem_slots] at hj
      obtain ⟨s, hs, rfl⟩ := hj
      exact mem_range.2 (h.range i hi s hs.1 hs.2)
    · intro j hj hnot
      rw [h.absent i hi j (mem_range.1 hj), zero_mul]
      intro s h1 h2 h3
      exact hnot (mem_image.2 ⟨s, List.mem_toFinset.2 (mem_slots.2 ⟨h1, h2⟩), h3⟩)
  · intro s hs t ht hst
    simp only [List.coe_toFinset, Set.mem_ofPred_eq, mem_slots] at hs ht
    exact h.once i hi s t hs.1 hs.2 ht.1 ht.2 hst

theorem foldl_add (l : List ℕ) (f : ℕ → ℚ) (q : ℚ) :
    l.foldl (fun q b => q + f b) q = q + (l.map f).sum := by
  induction l generalizing q with
  | nil => simp
  | cons a l ih => simp only [List.foldl_cons, ih, List.map_cons, List.sum_cons]; ring

/-- pair loop = sum over ordered pairs of distinct list elements -/
theorem modularityPairs_eq (p : Partition) (adj : Adj) (c : ℕ → ℕ → ℚ) :
    ∀ (l : List ℕ) (q : ℚ), l.Nodup →
      (∀ a ∈ l, ∀ b ∈ l, edgeValue adj (p.nodes a).id (p.nodes b).id
        - (p.nodes a).strength * (p.nodes b).strength = c a b) →
      (∀ a ∈ l, ∀ b ∈ l, c a b = c b a) →
      modularityPairs p adj l q = q +
        ∑ a ∈ l.toFinset, ∑ b ∈ l.toFinset, if a ≠ b then c a b else 0 := by
  intro l
  induction l with
  | nil => intro q _ _ _; simp [modularityPairs]
  | cons a l ih =>
    intro q hnd hc hsym
    rw [List.nodup_cons] at hnd
    rw [modularityPairs, foldl_add, ih _ hnd.2
      (fun x hx y hy => hc x (by simp [hx]) y (by simp [hy]))
      (fun x hx y hy => hsym x (by simp [hx]) y (by simp [hy]))]
    have hna : a ∉ l.toFinset := by simpa using hnd.1
    rw [List.toFinset_cons, sum_insert hna, sum_insert hna]
    have h1 : (l.map (fun b => 2 * (edgeValue adj (p.nodes a).id (p.nodes b).id
        - (p.nodes a).strength * (p.nodes b).strength))).sum = 2 * ∑ b ∈ l.toFinset, c a b := by
      rw [mul_sum, List.sum_toFinset _ hnd.2]
      congr 1
      refine List.map_congr_left fun b hb => ?_
      rw [hc a (by simp) b (by simp [hb])]
    have h2 : ∑ b ∈ l.toFinset, (if a ≠ b then c a b else 0) = ∑ b ∈ l.toFinset, c a b := by
      refine sum_congr rfl fun b hb => ?_
      rw [if_pos]; rintro rfl; exact hna hb
    have h3 : ∑ x ∈ l.toFinset, ∑ b ∈ insert a l.toFinset, (if x ≠ b then c x b else 0) =
        ∑ x ∈ l.toFinset, c a x +
          ∑ x ∈ l.toFinset, ∑ b ∈ l.toFinset, (if x ≠ b then c x b else 0) := by
      rw [← sum_add_distrib]
      refine sum_congr rfl fun x hx => ?_
      rw [sum_insert hna, if_pos, hsym x (by simp at hx; simp [hx]) a (by simp)]
      rintro rfl; exact hna hx
    rw [h1, h2, h3]
    simp only [ne_eq, not_true_eq_false, if_false]
    ring

theorem foldlM_some_sum {p : Partition} {adj : Adj} (seq : ℕ → List ℕ) (f : ℕ → ℚ) :
    ∀ (n : ℕ) (q : ℚ), (∀ m < n, moduleNodes p m = some (seq m)) →
      (∀ m < n, ∀ q, modularityPairs p adj (seq m) q = q + f m) →
      (List.range n).foldlM (fun q m => do
        let l ← moduleNodes p m
        return modularityPairs p adj l q) q = some (q + ∑ m ∈ range n, f m) := by
  intro n
  induction n with
  | zero => intro q _ _; simp
  | succ n ih =>
    intro q h1 h2
    rw [List.range_succ, List.foldlM_append, ih q (fun m hm => h1 m (by omega))
      (fun m hm => h2 m (by omega))]
    simp [h1 n (by omega), h2 n (by omega), sum_range_succ, add_assoc]

theorem PartitionModularity_eq {p seq adj A} (h : WF p seq) (ha : Represents adj p.N A) (d : Bool) :
    PartitionModularity p adj d = some (modularity p.N A (strengthOf p) (labelOf p)
      - if d then diagonal p.N (strengthOf p) else 0) := by
  set c : ℕ → ℕ → ℚ := fun i j => A i j - (p.nodes i).strength * (p.nodes j).strength with hc
  have hf : ∀ m < p.M, ∀ q, modularityPairs p adj (seq m) q =
      q + ∑ i ∈ range p.N, ∑ j ∈ range p.N,
        if labelOf p i = m ∧ labelOf p j = m ∧ i ≠ j then c i j else 0 := by
    intro m hm q
    have hlt : ∀ x ∈ seq m, x < p.N := fun x hx => ((h.mem m hm x).1 hx).1
    rw [modularityPairs_eq p adj c (seq m) q (h.nodup m hm)]
    · rw [toFinset_eq (h.mem m hm)]
      simp only [sum_filter]
      congr 1
      refine sum_congr rfl fun i _ => ?_
      by_cases h1 : (p.nodes i).module = m
      · simp only [h1, if_true, labelOf, true_and]
        refine sum_congr rfl fun j _ => ?_
        by_cases h2 : (p.nodes j).module = m <;> simp [h2]
      · simp [h1, labelOf]
    · intro a haa b hb
      rw [h.nodeId a (hlt a haa), h.nodeId b (hlt b hb), edgeValue_eq ha (hlt a haa) (hlt b hb)]
    · intro a haa b hb
      simp only [hc]
      rw [ha.symm a (hlt a haa) b (hlt b hb)]; ring
  unfold PartitionModularity
  rw [foldlM_some_sum seq _ p.M 0 (fun m hm => h.moduleNodes hm) hf]
  have hsum : ∑ m ∈ range p.M, ∑ i ∈ range p.N, ∑ j ∈ range p.N,
      (if labelOf p i = m ∧ labelOf p j = m ∧ i ≠ j then c i j else 0) =
      modularity p.N A (strengthOf p) (labelOf p) := by
    unfold modularity
    rw [sum_comm]
    refine sum_congr rfl fun i hi => ?_
    rw [sum_comm]
    refine sum_congr rfl fun j hj => ?_
    have hli : labelOf p i ∈ range p.M := mem_range.2 (h.label i (mem_range.1 hi))
    rw [sum_eq_single (labelOf p i)]
    · by_cases h1 : i = j
      · simp [h1]
      · by_cases h2 : labelOf p i = labelOf p j
        · simp [h1, h2, hc, strengthOf]
        · simp [h1, h2]; intro h3; exact absurd h3.symm h2
    · intro m _ hm
      rw [if_neg]; rintro ⟨h1, _⟩; exact hm h1.symm
    · intro hh; exact absurd hli hh
  have hdiag : ∀ (n : ℕ) (q : ℚ), (List.range n).foldl
      (fun q i => q - (p.nodes i).strength * (p.nodes i).strength) q = q - diagonal n (strengthOf p) := by
    intro n
    induction n with
    | zero => intro q; simp [diagonal]
    | succ n ih =>
      intro q
      rw [List.range_succ, List.foldl_append, ih]
      simp only [List.foldl_cons, List.foldl_nil, diagonal, sum_range_succ, strengthOf]
      ring
  simp only [Option.bind_eq_bind, Option.bind_some, zero_add, hsum]
  cases d
  · simp
  · simp [hdiag]

/-- isolating one node in the modularity sum -/
theorem modularity_isolate {n A k g} (hA : ∀ i < n, ∀ j < n, A i j = A j i) {i : ℕ} (hi : i < n) :
    modularity n A k g =
      2 * (∑ j ∈ (range n).erase i, if g i = g j then A i j - k i * k j else 0) +
      ∑ a ∈ (range n).erase i, ∑ b ∈ (range n).erase i,
        if a ≠ b ∧ g a = g b then A a b - k a * k b else 0 := by
  unfold modularity
  have him : i ∈ range n := mem_range.2 hi
  rw [← add_sum_erase _ _ him, ← add_sum_erase _ _ him]
  simp only [ne_eq, not_true_eq_false, false_and, if_false, zero_add]
  have h1 : ∑ x ∈ (range n).erase i, (if ¬i = x ∧ g i = g x then A i x - k i * k x else 0) =
      ∑ x ∈ (range n).erase i, (if g i = g x then A i x - k i * k x else 0) := by
    refine sum_congr rfl fun x hx => ?_
    have : ¬ i = x := fun hh => (ne_of_mem_erase hx) hh.symm
    simp [this]
  have h2 : ∑ x ∈ (range n).erase i, ∑ j ∈ range n,
        (if ¬x = j ∧ g x = g j then A x j - k x * k j else 0) =
      ∑ x ∈ (range n).erase i, (if g i = g x then A i x - k i * k x else 0) +
      ∑ a ∈ (range n).erase i, ∑ b ∈ (range n).erase i,
        (if ¬a = b ∧ g a = g b then A a b - k a * k b else 0) := by
    rw [← sum_add_distrib]
    refine sum_congr rfl fun x hx => ?_
    rw [← add_sum_erase _ _ him]
    congr 1
    have hxi : ¬ x = i := ne_of_mem_erase hx
    simp only [hxi, not_false_eq_true, true_and]
    rw [hA x (mem_range.1 (mem_of_mem_erase hx)) i hi]
    by_cases hg : g i = g x
    · rw [if_pos hg, if_pos hg.symm]; ring
    · rw [if_neg hg, if_neg (fun hh => hg hh.symm)]
  rw [h1, h2]; ring

theorem modularity_move {n A k g} (hA : ∀ i < n, ∀ j < n, A i j = A j i) {i : ℕ} (hi : i < n)
    (new : ℕ) :
    modularity n A k (Function.update g i new) - modularity n A k g =
      2 * ∑ j ∈ (range n).erase i, (A i j - k i * k j) *
        ((if g j = new then 1 else 0) - (if g j = g i then 1 else 0)) := by
  rw [modularity_isolate hA hi, modularity_isolate (g := g) hA hi]
  have h2 : ∑ a ∈ (range n).erase i, ∑ b ∈ (range n).erase i,
        (if a ≠ b ∧ Function.update g i new a = Function.update g i new b then A a b - k a * k b else 0) =
      ∑ a ∈ (range n).erase i, ∑ b ∈ (range n).erase i,
        (if a ≠ b ∧ g a = g b then A a b - k a * k b else 0) := by
    refine sum_congr rfl fun a ha => sum_congr rfl fun b hb => ?_
    rw [Function.update_of_ne (ne_of_mem_erase ha), Function.update_of_ne (ne_of_mem_erase hb)]
  rw [h2]
  have h3 : ∑ j ∈ (range n).erase i, (A i j - k i * k j) *
        ((if g j = new then 1 else 0) - (if g j = g i then (1 : ℚ) else 0)) =
      ∑ j ∈ (range n).erase i, (if Function.update g i new i = Function.update g i new j
          then A i j - k i * k j else 0) -
      ∑ j ∈ (range n).erase i, (if g i = g j then A i j - k i * k j else 0) := by
    rw [← sum_sub_distrib]
    refine sum_congr rfl fun j hj => ?_
    rw [Function.update_self, Function.update_of_ne (ne_of_mem_erase hj)]
    have e1 : (new = g j) = (g j = new) := propext ⟨Eq.symm, Eq.symm⟩
    have e2 : (g i = g j) = (g j = g i) := propext ⟨Eq.symm, Eq.symm⟩
    simp only [e1, e2]
    split_ifs <;> ring
  rw [h3]; ring

theorem dEChangeModule_eq {p seq adj A i new} (h : WF p seq) (ha : Represents adj p.N A)
    (hi : i < p.N) (hnew : new < p.M) (hne : new ≠ (p.nodes i).module) :
    dEChangeModule i new p adj = some (modularity p.N A (strengthOf p)
      (Function.update (labelOf p) i new) - modularity p.N A (strengthOf p) (labelOf p)) := by
  have hold := h.label i hi
  unfold dEChangeModule
  simp only [hi, hold, hnew, not_true_eq_false, if_false]
  obtain ⟨w, hw⟩ : ∃ w : ℕ → ℚ, ∀ j, w j =
      (if labelOf p j = new then 1 else 0) - (if labelOf p j = labelOf p i then (1 : ℚ) else 0) :=
    ⟨_, fun _ => rfl⟩
  have hfun : (fun dE s => if (p.nodes (adj.neighbors s)).module = (p.nodes i).module
        then dE - adj.strength s else if (p.nodes (adj.neighbors s)).module = new
        then dE + adj.strength s else dE) =
      fun (dE : ℚ) s => dE + (fun s => adj.strength s * w (adj.neighbors s)) s := by
    funext dE s
    simp only [hw, labelOf]
    by_cases h1 : (p.nodes (adj.neighbors s)).module = (p.nodes i).module
    · have : ¬ (p.nodes (adj.neighbors s)).module = new := by rw [h1]; exact fun hh => hne hh.symm
      simp [h1, this, hne.symm]; ring
    · by_cases h2 : (p.nodes (adj.neighbors s)).module = new
      · simp [h2, hne]
      · simp [h1, h2]
  rw [hfun, foldl_add, slots_sum ha hi, modularity_move ha.symm hi, zero_add]
  simp only [hw]
  have hin : i ∈ range p.N := mem_range.2 hi
  rw [← add_sum_erase _ _ hin, ha.diag hi, zero_mul, zero_add]
  have hS : ∀ m < p.M, (p.modules m).strength =
      ∑ j ∈ range p.N, strengthOf p j * (if labelOf p j = m then 1 else 0) := by
    intro m hm
    rw [h.consistent.strength m hm, sum_filter]
    refine sum_congr rfl fun j _ => ?_
    change (if labelOf p j = m then strengthOf p j else 0) = _
    split_ifs <;> simp
  rw [hS _ hold, hS _ hnew, ← add_sum_erase _ _ hin,
    ← add_sum_erase (range p.N) (fun j => strengthOf p j * (if labelOf p j = new then 1 else 0)) hin]
  have hl : ¬ labelOf p i = new := fun hh => hne hh.symm
  have hl2 : labelOf p i = (p.nodes i).module := rfl
  rw [if_neg hl, if_pos hl2]
  have : (p.nodes i).strength = strengthOf p i := rfl
  rw [this, ← hl2]
  simp only [sub_mul, sum_sub_distrib, mul_sub, mul_assoc, ← mul_sum]
  change some _ = some _
  congr 1
  ring

theorem modularity_merge {n A k g g'} (hA : ∀ i < n, ∀ j < n, A i j = A j i) {s l : ℕ} (hsl : s ≠ l)
    (hg : ∀ i < n, g' i = if g i = s then l else g i) :
    modularity n A k g' - modularity n A k g =
      2 * ∑ a ∈ (range n).filter (fun a => g a = s), ∑ b ∈ (range n).filter (fun b => g b = l),
        (A a b - k a * k b) := by
  have hpt : ∀ i ∈ range n, ∀ j ∈ range n, (if i ≠ j ∧ g' i = g' j then A i j - k i * k j else 0) =
      (if i ≠ j ∧ g i = g j then A i j - k i * k j else 0) +
      ((if g i = s then (if g j = l then A i j - k i * k j else 0) else 0) +
       (if g j = s then (if g i = l then A j i - k j * k i else 0) else 0)) := by
    intro i hi j hj
    rw [hg i (mem_range.1 hi), hg j (mem_range.1 hj), hA j (mem_range.1 hj) i (mem_range.1 hi)]
    by_cases hij : i = j
    · subst hij
      simp only [ne_eq, not_true_eq_false, false_and, if_false, zero_add]
      split_ifs <;> simp_all
    · simp only [ne_eq, hij, not_false_eq_true, true_and]
      by_cases h1 : g i = s <;> by_cases h2 : g j = s
      · simp [h1, h2, hsl]
      · simp only [h1, h2, if_true, if_false, add_zero]
        by_cases h3 : g j = l
        · simp [h3, hsl]
        · have e1 : ¬ l = g j := fun hh => h3 hh.symm
          have e2 : ¬ s = g j := fun hh => h2 hh.symm
          simp [h3, e1, e2]
      · simp only [h1, h2, if_true, if_false, zero_add]
        by_cases h3 : g i = l
        · simp [h3, hsl.symm]; ring
        · simp [h3]
      · simp [h1, h2]
  unfold modularity
  rw [sum_congr rfl fun i hi => sum_congr rfl fun j hj => hpt i hi j hj]
  simp only [sum_add_distrib]
  rw [sum_comm (f := fun i j => if g j = s then (if g i = l then A j i - k j * k i else 0) else 0)]
  simp only [sum_filter]
  have : ∀ a, (if g a = s then ∑ b ∈ range n, (if g b = l then A a b - k a * k b else 0) else 0) =
      ∑ b ∈ range n, (if g a = s then (if g b = l then A a b - k a * k b else 0) else 0) := by
    intro a; split_ifs <;> simp
  simp only [this]
  ring

theorem foldl_foldl_add (l : List ℕ) (s : ℕ → List ℕ) (f : ℕ → ℕ → ℚ) (q : ℚ) :
    l.foldl (fun q a => (s a).foldl (fun q b => q + f a b) q) q =
      q + (l.map (fun a => ((s a).map (f a)).sum)).sum := by
  induction l generalizing q with
  | nil => simp
  | cons a l ih =>
    simp only [List.foldl_cons, List.map_cons, List.sum_cons]
    rw [ih, foldl_add]; ring

theorem dEMergeModules_eq {p seq adj A id1 id2} (h : WF p seq) (ha : Represents adj p.N A)
    (h1 : id1 < p.M) (h2 : id2 < p.M) (hne : id1 ≠ id2) {g : ℕ → ℕ}
    (hg : ∀ i < p.N, g i = if labelOf p i = id1 then id2 else labelOf p i) :
    dEMergeModules id1 id2 p adj = some (modularity p.N A (strengthOf p) g
      - modularity p.N A (strengthOf p) (labelOf p)) := by
  -- the sum is symmetric in the two modules
  have hstr : ∀ m < p.M, (p.modules m).strength =
      ∑ a ∈ (range p.N).filter (fun a => labelOf p a = m), strengthOf p a := h.consistent.strength
  have core : ∀ s < p.M, ∀ l < p.M,
      (seq s).foldl (fun dE a => (slots adj (p.nodes a).id).foldl (fun dE i =>
        if (p.nodes (adj.neighbors i)).module = l then dE + adj.strength i else dE) dE) 0
      = ∑ a ∈ (range p.N).filter (fun a => labelOf p a = s),
          ∑ b ∈ (range p.N).filter (fun b => labelOf p b = l), A a b := by
    intro s hs l hl
    obtain ⟨w, hw⟩ : ∃ w : ℕ → ℚ, ∀ j, w j = if labelOf p j = l then (1 : ℚ) else 0 :=
      ⟨_, fun _ => rfl⟩
    have hfun : (fun (dE : ℚ) a => (slots adj (p.nodes a).id).foldl (fun dE i =>
          if (p.nodes (adj.neighbors i)).module = l then dE + adj.strength i else dE) dE) =
        fun dE a => (slots adj (p.nodes a).id).foldl (fun dE i => dE +
          (fun (_ : ℕ) i => adj.strength i * w (adj.neighbors i)) a i) dE := by
      funext dE a
      congr 1
      funext dE i
      simp only [hw, labelOf]
      split_ifs with hh <;> simp [hh]
    rw [hfun, foldl_foldl_add, zero_add]
    have hx : (range p.N).filter (fun a => labelOf p a = s) = (seq s).toFinset :=
      (toFinset_eq (h.mem s hs)).symm
    rw [hx, List.sum_toFinset _ (h.nodup s hs)]
    congr 1
    refine List.map_congr_left fun a haa => ?_
    have halt := ((h.mem s hs a).1 haa).1
    rw [h.nodeId a halt, slots_sum ha halt, sum_filter]
    refine sum_congr rfl fun j _ => ?_
    rw [hw]
    split_ifs <;> simp
  have fin : ∀ s < p.M, ∀ l < p.M, s ≠ l → 
      2 * (∑ a ∈ (range p.N).filter (fun a => labelOf p a = s),
          ∑ b ∈ (range p.N).filter (fun b => labelOf p b = l), A a b
        - (p.modules s).strength * (p.modules l).strength) =
      2 * ∑ a ∈ (range p.N).filter (fun a => labelOf p a = s),
        ∑ b ∈ (range p.N).filter (fun b => labelOf p b = l),
          (A a b - strengthOf p a * strengthOf p b) := by
    intro s hs l hl _
    rw [hstr s hs, hstr l hl, sum_mul_sum]
    simp only [sum_sub_distrib]
  have hfinal := modularity_merge (k := strengthOf p) ha.symm hne hg
  unfold dEMergeModules
  simp only [h1, h2, not_true_eq_false, if_false]
  by_cases hgt : (p.modules id1).size > (p.modules id2).size
  · simp only [hgt, if_true, h.moduleNodes h2, Option.bind_eq_bind, Option.bind_some]
    rw [core id2 h2 id1 h1, mul_comm (p.modules id1).strength, fin id2 h2 id1 h1 hne.symm, hfinal]
    congr 2
    rw [sum_comm]
    refine sum_congr rfl fun a haa => sum_congr rfl fun b hb => ?_
    rw [ha.symm a (by simp at haa; exact haa.1) b (by simp at hb; exact hb.1)]; ring
  · simp only [hgt, if_false, h.moduleNodes h1, Option.bind_eq_bind, Option.bind_some]
    rw [core id1 h1 id2 h2, fin id1 h1 id2 h2 hne, hfinal]
    rfl

/-- modularity only depends on which nodes share a label -/
theorem modularity_congr {n A k g g'} (h : ∀ i < n, ∀ j < n, (g' i = g' j ↔ g i = g j)) :
    modularity n A k g' = modularity n A k g := by
  unfold modularity
  refine sum_congr rfl fun i hi => sum_congr rfl fun j hj => ?_
  simp only [h i (mem_range.1 hi) j (mem_range.1 hj)]

theorem modularity_congr_eq {n A k g g'} (h : ∀ i < n, g' i = g i) :
    modularity n A k g' = modularity n A k g :=
  modularity_congr fun i hi j hj => by rw [h i hi, h j hj]

end NC
