import Verif.Group.CopyModel
import Verif.Group.Map
import Verif.Group.Props

/-!
# C85, C86, C87: copies of partitions and partitions made from a network
-/

set_option linter.unusedSimpArgs false

namespace GP

variable {net : Net} {m : ℕ} {p : Part}

/-! ## Adding nodes that are already marked -/

/-- The counters of a group filled with nodes that the network already had in a group of the same label:
the inner links are counted twice, and taken away from the total twice. -/
structure Doubled (net : Net) (S : Finset ℕ) (G : Grp) : Prop where
  nodup : G.nodes.Nodup
  mem : G.nodes.toFinset = S
  size : G.size = S.card
  links : ∃ tot inn out, CountOK net.n net.a S tot inn out ∧ G.inlinks = 2 * inn ∧
    G.totlinks = tot - inn ∧ G.outlinks = out - 2 * inn
  weights : ∃ tot inn out, CountOK net.n net.w S tot inn out ∧ G.inlinksW = 2 * inn ∧
    G.totlinksW = tot - inn ∧ G.outlinksW = out - 2 * inn

/-- The counters as sums over the list of the group. -/
structure Summed (net : Net) (p : Part) (g : ℕ) (vs : List ℕ) (G : Grp) : Prop where
  nodes : G.nodes = vs
  size : G.size = vs.length
  inl : G.inlinks = (vs.map fun v => NLinksToGroup net p v g).sum
  tot : G.totlinks = (vs.map fun v => NodeDegree net v - NLinksToGroup net p v g).sum
  out : G.outlinks = G.totlinks - G.inlinks
  inlW : G.inlinksW = (vs.map fun v => StrengthToGroup net p v g).sum
  totW : G.totlinksW = (vs.map fun v => NodeStrength net v - StrengthToGroup net p v g).sum
  outW : G.outlinksW = G.totlinksW - G.inlinksW

theorem summed_empty (net : Net) (p : Part) (g : ℕ) : Summed net p g [] Grp.empty := by
  constructor <;> simp [Grp.empty]

theorem links_congr {q : Part} (h : q.inGroup = p.inGroup) (v g : ℕ) :
    NLinksToGroup net q v g = NLinksToGroup net p v g ∧ StrengthToGroup net q v g = StrengthToGroup net p v g := by
  unfold NLinksToGroup StrengthToGroup
  rw [h]
  exact ⟨rfl, rfl⟩

theorem Summed.step {q : Part} {g v : ℕ} {vs : List ℕ} (hq : q.inGroup = p.inGroup)
    (h : Summed net p g vs (q.grp g)) :
    Summed net p g (vs ++ [v]) ((AddNodeToGroup net g v q).grp g) := by
  obtain ⟨e1, e2⟩ := links_congr (net := net) hq v g
  simp only [AddNodeToGroup, Function.update_self, e1, e2]
  constructor
  · simp [h.nodes]
  · simp [h.size]
  · simp [h.inl]
  · simp [h.tot]
  · simp
  · simp [h.inlW]
  · simp [h.totW]
  · simp

theorem add_marked {q : Part} {g v : ℕ} (hv : q.inGroup v = some g) :
    (AddNodeToGroup net g v q).inGroup = q.inGroup := by
  simp only [AddNodeToGroup]
  rw [← hv, Function.update_eq_self]

theorem add_other {q : Part} {g g' v : ℕ} (h : g' ≠ g) : (AddNodeToGroup net g v q).grp g' = q.grp g' := by
  simp [AddNodeToGroup, Function.update_of_ne h]

theorem addAllTo_marked {g : ℕ} : ∀ (vs us : List ℕ) (q : Part), q.inGroup = p.inGroup →
    (∀ v ∈ vs, p.inGroup v = some g) → Summed net p g us (q.grp g) →
    (addAllTo net g vs q).inGroup = p.inGroup ∧ (∀ g' ≠ g, (addAllTo net g vs q).grp g' = q.grp g') ∧
      Summed net p g (us ++ vs) ((addAllTo net g vs q).grp g)
  | [], us, q, hq, _, h => ⟨hq, fun _ _ => rfl, by simpa [addAllTo] using h⟩
  | v :: vs, us, q, hq, hv, h => by
    have e : addAllTo net g (v :: vs) q = addAllTo net g vs (AddNodeToGroup net g v q) := rfl
    have hm := add_marked (net := net) (q := q) (g := g) (v := v) (by rw [hq]; exact hv v (by simp))
    obtain ⟨h1, h2, h3⟩ := addAllTo_marked vs (us ++ [v]) (AddNodeToGroup net g v q) (hm.trans hq)
      (fun w hw => hv w (by simp [hw])) (h.step hq)
    rw [e]
    exact ⟨h1, fun g' hg' => by rw [h2 g' hg', add_other hg'], by simpa using h3⟩

/-- What the sums amount to. -/
theorem Summed.doubled (h : net.Simple) {g : ℕ} {vs : List ℕ} {G : Grp} (hs : Summed net p g vs G)
    (hnd : vs.Nodup) (hmem : vs.toFinset = members net p g) : Doubled net (members net p g) G := by
  set S := members net p g with hS
  have hsub : S ⊆ Finset.range net.n := members_subset _ _ _
  have hsumI : ∀ f : ℕ → Int, (vs.map f).sum = ∑ v ∈ S, f v := by
    intro f; rw [← hmem, List.sum_toFinset _ hnd]
  have hsumQ : ∀ f : ℕ → ℚ, (vs.map f).sum = ∑ v ∈ S, f v := by
    intro f; rw [← hmem, List.sum_toFinset _ hnd]
  refine ⟨by rw [hs.nodes]; exact hnd, by rw [hs.nodes]; exact hmem, ?_, ?_, ?_⟩
  · rw [hs.size, ← hmem, List.toFinset_card_of_nodup hnd]
  · obtain ⟨k, hk⟩ := even_sq (n := net.n) (a_sym h) (a_self h) S
    have hin : G.inlinks = 2 * k := by
      rw [hs.inl, hsumI, ← hk]
      exact Finset.sum_congr rfl fun v _ => NLinksToGroup_eq h p v g
    have htot : G.totlinks = ∑ v ∈ S, ∑ j ∈ Finset.range net.n, net.a v j - 2 * k := by
      rw [hs.tot, hsumI, Finset.sum_sub_distrib, ← hk]
      congr 1
      · exact Finset.sum_congr rfl fun v _ => NodeDegree_eq h v
      · exact Finset.sum_congr rfl fun v _ => NLinksToGroup_eq h p v g
    refine ⟨∑ v ∈ S, ∑ j ∈ Finset.range net.n, net.a v j - k, k,
      ∑ v ∈ S, ∑ j ∈ Finset.range net.n, net.a v j - k - k, ?_, hin, by rw [htot]; ring, ?_⟩
    · rw [countOK_iff hsub]
      exact ⟨hk.symm, by ring, rfl⟩
    · rw [hs.out, hin, htot]; ring
  · set k : ℚ := (∑ i ∈ S, ∑ j ∈ S, net.w i j) / 2 with hkd
    have hk : ∑ i ∈ S, ∑ j ∈ S, net.w i j = 2 * k := by rw [hkd]; ring
    have hin : G.inlinksW = 2 * k := by
      rw [hs.inlW, hsumQ, ← hk]
      exact Finset.sum_congr rfl fun v _ => StrengthToGroup_eq h p v g
    have htot : G.totlinksW = ∑ v ∈ S, ∑ j ∈ Finset.range net.n, net.w v j - 2 * k := by
      rw [hs.totW, hsumQ, Finset.sum_sub_distrib, ← hk]
      congr 1
      · exact Finset.sum_congr rfl fun v _ => NodeStrength_eq h v
      · exact Finset.sum_congr rfl fun v _ => StrengthToGroup_eq h p v g
    refine ⟨∑ v ∈ S, ∑ j ∈ Finset.range net.n, net.w v j - k, k,
      ∑ v ∈ S, ∑ j ∈ Finset.range net.n, net.w v j - k - k, ?_, hin, by rw [htot]; ring, ?_⟩
    · rw [countOK_iff hsub]
      exact ⟨hk.symm, by ring, rfl⟩
    · rw [hs.outW, hin, htot]; ring

/-! ## Copies -/

theorem addAllTo_lists {g : ℕ} : ∀ (vs : List ℕ) (q : Part),
    ((addAllTo net g vs q).grp g).nodes = (q.grp g).nodes ++ vs ∧
      ((addAllTo net g vs q).grp g).size = (q.grp g).size + vs.length ∧
      ∀ g' ≠ g, (addAllTo net g vs q).grp g' = q.grp g'
  | [], q => by simp [addAllTo]
  | v :: vs, q => by
    have e : addAllTo net g (v :: vs) q = addAllTo net g vs (AddNodeToGroup net g v q) := rfl
    obtain ⟨h1, h2, h3⟩ := addAllTo_lists vs (AddNodeToGroup net g v q)
    rw [e]
    refine ⟨?_, ?_, fun g' hg' => by rw [h3 g' hg', add_other hg']⟩
    · rw [h1]; simp [AddNodeToGroup]
    · rw [h2]; simp [AddNodeToGroup]; ring

theorem copy_fold (m' : ℕ) (q0 : Part) (h0 : ∀ g, q0.grp g = Grp.empty) :
    ∀ g, ((List.range m').foldl (fun q g => addAllTo net g (p.grp g).nodes q) q0).grp g =
        (if g < m' then ((List.range m').foldl (fun q g => addAllTo net g (p.grp g).nodes q) q0).grp g
          else Grp.empty) ∧
      (g < m' → (((List.range m').foldl (fun q g => addAllTo net g (p.grp g).nodes q) q0).grp g).nodes
          = (p.grp g).nodes ∧
        (((List.range m').foldl (fun q g => addAllTo net g (p.grp g).nodes q) q0).grp g).size
          = (p.grp g).nodes.length) := by
  induction m' with
  | zero => intro g; simp [h0]
  | succ m' ih =>
    intro g
    rw [List.range_succ, List.foldl_append, List.foldl_cons, List.foldl_nil]
    set q := (List.range m').foldl (fun q g => addAllTo net g (p.grp g).nodes q) q0
    obtain ⟨h1, h2, h3⟩ := addAllTo_lists (net := net) (g := m') (p.grp m').nodes q
    have hq : q.grp m' = Grp.empty := by have := (ih m').1; simpa using this
    by_cases hg : g = m'
    · subst hg
      refine ⟨by simp, fun _ => ⟨by rw [h1, hq]; simp [Grp.empty], by rw [h2, hq]; simp [Grp.empty]⟩⟩
    · rw [h3 g hg]
      obtain ⟨i1, i2⟩ := ih g
      refine ⟨?_, fun hlt => i2 (by omega)⟩
      by_cases hlt : g < m' + 1
      · rw [if_pos hlt]
      · rw [if_neg hlt, i1, if_neg (by omega)]

theorem copy_summed {net : Net} (m' : ℕ) (hin : ∀ g < m', ∀ v ∈ (p.grp g).nodes, p.inGroup v = some g)
    (q0 : Part) (h0 : ∀ g, q0.grp g = Grp.empty) (hi : q0.inGroup = p.inGroup) :
    ((List.range m').foldl (fun q g => addAllTo net g (p.grp g).nodes q) q0).inGroup = p.inGroup ∧
    ∀ g, (m' ≤ g → ((List.range m').foldl (fun q g => addAllTo net g (p.grp g).nodes q) q0).grp g = Grp.empty) ∧
      (g < m' → Summed net p g (p.grp g).nodes
        (((List.range m').foldl (fun q g => addAllTo net g (p.grp g).nodes q) q0).grp g)) := by
  induction m' with
  | zero => exact ⟨hi, fun g => ⟨fun _ => h0 g, fun h => by omega⟩⟩
  | succ m' ih =>
    obtain ⟨i1, i2⟩ := ih fun g hg => hin g (by omega)
    rw [List.range_succ, List.foldl_append, List.foldl_cons, List.foldl_nil]
    set q := (List.range m').foldl (fun q g => addAllTo net g (p.grp g).nodes q) q0
    have hq : q.grp m' = Grp.empty := (i2 m').1 (le_refl _)
    obtain ⟨h1, h2, h3⟩ := addAllTo_marked (net := net) (p := p) (g := m') (p.grp m').nodes [] q i1
      (hin m' (by omega)) (by rw [hq]; exact summed_empty _ _ _)
    refine ⟨h1, fun g => ⟨fun hg => ?_, fun hg => ?_⟩⟩
    · rw [h2 g (by omega)]; exact (i2 g).1 (by omega)
    · by_cases e : g = m'
      · subst e; simpa using h3
      · rw [h2 g e]; exact (i2 g).2 (by omega)

/-- **C85**: `CopyPartition` copies the groups with their nodes, in order, and after `MapPartToNet`, as its
comment asks for, the copy equals the original mapped to the network, whatever the counters and the
`inGroup` fields were before. -/
theorem C85_copy_map (net : Net) (m : ℕ) (p : Part) (hp : ∀ g < m, (p.grp g).size = (p.grp g).nodes.length) :
    (∀ g < m, ((CopyPartition net m p.grp p.inGroup).grp g).nodes = (p.grp g).nodes ∧
      ((CopyPartition net m p.grp p.inGroup).grp g).size = (p.grp g).size) ∧
    (MapPartToNet net m (CopyPartition net m p.grp p.inGroup)).inGroup = (MapPartToNet net m p).inGroup ∧
    ∀ g < m, (MapPartToNet net m (CopyPartition net m p.grp p.inGroup)).grp g = (MapPartToNet net m p).grp g := by
  have hl : ∀ g < m, ((CopyPartition net m p.grp p.inGroup).grp g).nodes = (p.grp g).nodes ∧
      ((CopyPartition net m p.grp p.inGroup).grp g).size = (p.grp g).size := by
    intro g hg
    have := (copy_fold (net := net) (p := p) m { grp := fun _ => Grp.empty, inGroup := p.inGroup }
      (fun _ => rfl) g).2 hg
    rw [hp g hg]
    exact this
  have hmap : mapInGroup m (CopyPartition net m p.grp p.inGroup) = mapInGroup m p := by
    unfold mapInGroup
    apply List.foldl_ext
    intro f g hg
    rw [(hl g (by simpa using hg)).1]
  refine ⟨hl, hmap, ?_⟩
  intro g hg
  simp only [MapPartToNet, if_pos hg, mapCounts, (hl g hg).1, hmap, NLinksToGroup, StrengthToGroup]
  obtain ⟨e1, e2⟩ := hl g hg
  generalize (CopyPartition net m p.grp p.inGroup).grp g = A at e1 e2
  generalize p.grp g = B at e1 e2 ⊢
  cases A; cases B
  simp at e1 e2
  simp [e1, e2]

/-- **C85**: a copy of a consistent partition leaves the network alone, but until `MapPartToNet` is called
its counters are wrong: inner links are counted twice. -/
theorem C85_copy_counters (h : net.Simple) (hp : PartOK net m p) :
    (CopyPartition net m p.grp p.inGroup).inGroup = p.inGroup ∧
    ∀ g < m, ((CopyPartition net m p.grp p.inGroup).grp g).nodes = (p.grp g).nodes ∧
      ((CopyPartition net m p.grp p.inGroup).grp g).inlinks = 2 * (p.grp g).inlinks ∧
      ((CopyPartition net m p.grp p.inGroup).grp g).totlinks = (p.grp g).totlinks - (p.grp g).inlinks ∧
      ((CopyPartition net m p.grp p.inGroup).grp g).inlinksW = 2 * (p.grp g).inlinksW ∧
      ((CopyPartition net m p.grp p.inGroup).grp g).totlinksW = (p.grp g).totlinksW - (p.grp g).inlinksW := by
  have hmem : ∀ g < m, ∀ v, v ∈ (p.grp g).nodes ↔ v < net.n ∧ p.inGroup v = some g := by
    intro g hg v
    rw [← List.mem_toFinset, (hp.groups g hg).mem, mem_members]
  obtain ⟨h1, h2⟩ := copy_summed (net := net) (p := p) m (fun g hg v hv => ((hmem g hg v).1 hv).2)
    { grp := fun _ => Grp.empty, inGroup := p.inGroup } (fun _ => rfl) rfl
  refine ⟨h1, fun g hg => ?_⟩
  have hs : Summed net p g (p.grp g).nodes ((CopyPartition net m p.grp p.inGroup).grp g) := (h2 g).2 hg
  have hG := hp.groups g hg
  have hd := hs.doubled h hG.nodup hG.mem
  obtain ⟨t1, i1, o1, c1, a1, b1, _⟩ := hd.links
  obtain ⟨t2, i2, o2, c2, a2, b2, _⟩ := hd.weights
  have e1 : i1 = (p.grp g).inlinks := by have := c1.1; have := hG.links.1; omega
  have e2 : i2 = (p.grp g).inlinksW := by have := c2.1; have := hG.weights.1; linarith
  have f1 : t1 = (p.grp g).totlinks := by rw [c1.2.2, hG.links.2.2, e1, c1.2.1, hG.links.2.1]
  have f2 : t2 = (p.grp g).totlinksW := by rw [c2.2.2, hG.weights.2.2, e2, c2.2.1, hG.weights.2.1]
  exact ⟨hs.nodes, by rw [a1, e1], by rw [b1, e1, f1], by rw [a2, e2], by rw [b2, e2, f2]⟩

/-! ## Groups of equal size -/

theorem equiRow_spec (net : Net) (g : ℕ) : ∀ (j k : ℕ) (p : Part), k ≤ net.n →
    (k + j ≤ net.n → equiRow net g j (some k, p) = some (some (k + j), addAllTo net g (List.range' k j) p)) ∧
    (k + j = net.n + 1 → equiRow net g j (some k, p)
      = some (none, addAllTo net g (List.range' k (net.n - k)) p)) ∧
    (net.n + 2 ≤ k + j → equiRow net g j (some k, p) = none)
  | 0, k, p, hk => ⟨fun _ => rfl, fun h => by omega, fun h => by omega⟩
  | j + 1, k, p, hk => by
    by_cases hlt : k < net.n
    · obtain ⟨h1, h2, h3⟩ := equiRow_spec net g j (k + 1) (AddNodeToGroup net g k p) (by omega)
      have e : equiRow net g (j + 1) (some k, p) = equiRow net g j (some (k + 1), AddNodeToGroup net g k p) := by
        simp [equiRow, equiStep, hlt]
      rw [e]
      refine ⟨fun h => ?_, fun h => ?_, fun h => h3 (by omega)⟩
      · rw [h1 (by omega)]
        simp only [List.range'_succ, addAllTo, List.foldl_cons]
        rw [show k + 1 + j = k + (j + 1) by omega]
      · rw [h2 (by omega)]
        rw [show net.n - k = (net.n - (k + 1)) + 1 by omega]
        simp only [List.range'_succ, addAllTo, List.foldl_cons]
    · obtain rfl : k = net.n := by omega
      have e : equiRow net g (j + 1) (some net.n, p) = equiRow net g j (none, p) := by
        simp [equiRow, equiStep]
      rw [e]
      refine ⟨fun h => by omega, fun h => ?_, fun h => ?_⟩
      · obtain rfl : j = 0 := by omega
        simp [equiRow, addAllTo]
      · obtain ⟨j', rfl⟩ : ∃ j', j = j' + 1 := ⟨j - 1, by omega⟩
        simp [equiRow, equiStep]

/-- Adding fresh nodes keeps a consistent partition consistent. -/
theorem addAllTo_ok (h : net.Simple) {g : ℕ} (hg : g < m) : ∀ (vs : List ℕ) (p : Part), PartOK net m p →
    vs.Nodup → (∀ v ∈ vs, v < net.n ∧ p.inGroup v = none) →
    PartOK net m (addAllTo net g vs p) ∧
      (∀ v, (addAllTo net g vs p).inGroup v = if v ∈ vs then some g else p.inGroup v)
  | [], p, hp, _, _ => ⟨hp, by simp [addAllTo]⟩
  | v :: vs, p, hp, hnd, hv => by
    rw [List.nodup_cons] at hnd
    have e : addAllTo net g (v :: vs) p = addAllTo net g vs (AddNodeToGroup net g v p) := rfl
    have hne : ∀ w ∈ vs, w ≠ v := fun w hw e => hnd.1 (e ▸ hw)
    obtain ⟨h1, h2⟩ := addAllTo_ok h hg vs (AddNodeToGroup net g v p)
      (add_ok h hp (hv v (by simp)).1 hg (hv v (by simp)).2) hnd.2
      (fun w hw => ⟨(hv w (by simp [hw])).1, by
        simp only [AddNodeToGroup, Function.update_of_ne (hne w hw)]
        exact (hv w (by simp [hw])).2⟩)
    rw [e]
    refine ⟨h1, fun w => ?_⟩
    rw [h2 w]
    by_cases hw : w ∈ vs
    · simp [hw]
    · by_cases hwv : w = v
      · subst hwv; simp [hw, AddNodeToGroup]
      · simp [hw, hwv, AddNodeToGroup]

/-- The partition after the nodes `0 … k-1` have been placed. -/
structure EquiInv (net : Net) (gsize m k : ℕ) (p : Part) : Prop where
  ok : PartOK net m p
  place : ∀ v, p.inGroup v = if v < k then some (v / gsize) else none
  lists : ∀ i, (p.grp i).nodes = (List.range k).filter fun v => v / gsize = i

theorem EquiInv.row {gsize i c : ℕ} (h : net.Simple) (hi : i < m) (hc : c ≤ gsize)
    (hn : i * gsize + c ≤ net.n) (hp : EquiInv net gsize m (i * gsize) p) :
    EquiInv net gsize m (i * gsize + c) (addAllTo net i (List.range' (i * gsize) c) p) := by
  have hdiv : ∀ v ∈ List.range' (i * gsize) c, v / gsize = i := by
    intro v hv
    rw [List.mem_range'_1] at hv
    refine Nat.div_eq_of_lt_le hv.1 ?_
    rw [Nat.add_mul, one_mul]
    omega
  obtain ⟨h1, h2⟩ := addAllTo_ok h hi (List.range' (i * gsize) c) p hp.ok List.nodup_range' (by
    intro v hv
    rw [hp.place v]
    rw [List.mem_range'_1] at hv
    exact ⟨by omega, if_neg (by omega)⟩)
  obtain ⟨l1, l2, l3⟩ := addAllTo_lists (net := net) (g := i) (List.range' (i * gsize) c) p
  refine ⟨h1, fun v => ?_, fun i' => ?_⟩
  · rw [h2 v, hp.place v]
    by_cases hv : v ∈ List.range' (i * gsize) c
    · rw [if_pos hv]
      have := List.mem_range'_1.1 hv
      rw [if_pos (by omega), hdiv v hv]
    · rw [if_neg hv]
      rw [List.mem_range'_1] at hv
      by_cases hlt : v < i * gsize
      · rw [if_pos hlt, if_pos (by omega)]
      · rw [if_neg hlt, if_neg (by omega)]
  · have hr : List.range (i * gsize + c) = List.range (i * gsize) ++ List.range' (i * gsize) c := by
      rw [List.range_add, List.range'_eq_map_range]
    rw [hr, List.filter_append]
    by_cases e : i' = i
    · subst e
      rw [l1, hp.lists]
      congr 1
      rw [List.filter_eq_self.2]
      intro v hv
      simp [hdiv v hv]
    · rw [l3 i' e, hp.lists]
      have : (List.range' (i * gsize) c).filter (fun v => decide (v / gsize = i')) = [] := by
        rw [List.filter_eq_nil_iff]
        intro v hv
        simp [hdiv v hv, Ne.symm e]
      rw [this, List.append_nil]

/-- The walk runs past the end of the list unless the size divides the number of nodes plus one. -/
theorem equiRows_none (net : Net) {gsize : ℕ} (hg : 0 < gsize) (hnd : ¬ gsize ∣ net.n + 1) :
    ∀ (todo i : ℕ) (p : Part), i + todo = net.n / gsize →
      equiRows net gsize (todo + 1) i (some (i * gsize), p) = none
  | 0, i, p, hi => by
    have h1 : i * gsize ≤ net.n := by
      rw [show i = net.n / gsize by omega]; exact Nat.div_mul_le_self _ _
    have h2 : net.n < i * gsize + gsize := by
      rw [show i = net.n / gsize by omega]
      have := Nat.lt_div_mul_add (a := net.n) hg
      omega
    have h3 : i * gsize + gsize ≠ net.n + 1 := by
      intro e
      exact hnd ⟨i + 1, by rw [← e]; ring⟩
    have := (equiRow_spec net i gsize (i * gsize) p h1).2.2 (by omega)
    simp [equiRows, this]
  | todo + 1, i, p, hi => by
    have h1 : i * gsize + gsize ≤ net.n := by
      have : (i + 1) * gsize ≤ net.n := by
        calc (i + 1) * gsize ≤ (net.n / gsize) * gsize := Nat.mul_le_mul_right _ (by omega)
          _ ≤ net.n := Nat.div_mul_le_self _ _
      rw [Nat.add_mul, one_mul] at this
      exact this
    have := (equiRow_spec net i gsize (i * gsize) p (by omega)).1 h1
    rw [equiRows, this]
    simp only [Option.bind_eq_bind, Option.bind_some]
    have e : i * gsize + gsize = (i + 1) * gsize := by ring
    rw [e]
    exact equiRows_none net hg hnd todo (i + 1) _ (by omega)

theorem equiRows_ok (h : net.Simple) {gsize : ℕ} (hg : 0 < gsize) (hdv : gsize ∣ net.n + 1)
    (hm : net.n / gsize < m) : ∀ (todo i : ℕ) (p : Part), i + todo = net.n / gsize →
      EquiInv net gsize m (i * gsize) p →
      ∃ p', equiRows net gsize (todo + 1) i (some (i * gsize), p) = some (none, p') ∧
        EquiInv net gsize m net.n p'
  | 0, i, p, hi, hp => by
    have h1 : i * gsize ≤ net.n := by
      rw [show i = net.n / gsize by omega]; exact Nat.div_mul_le_self _ _
    have h2 : net.n < i * gsize + gsize := by
      rw [show i = net.n / gsize by omega]
      have := Nat.lt_div_mul_add (a := net.n) hg
      omega
    have h3 : i * gsize + gsize = net.n + 1 := by
      obtain ⟨c, hc⟩ := hdv
      have : i * gsize < gsize * c ∧ gsize * c ≤ (i + 1) * gsize := by
        rw [← hc, Nat.add_mul, one_mul]; omega
      have hci : i < c := by
        by_contra hh
        have := Nat.mul_le_mul_left gsize (show c ≤ i by omega)
        rw [Nat.mul_comm gsize i] at this
        omega
      have := Nat.mul_le_mul_left gsize (show i + 1 ≤ c by omega)
      rw [Nat.mul_comm gsize (i + 1), Nat.add_mul, one_mul] at this
      omega
    have := (equiRow_spec net i gsize (i * gsize) p h1).2.1 h3
    refine ⟨addAllTo net i (List.range' (i * gsize) (net.n - i * gsize)) p, by simp [equiRows, this], ?_⟩
    have := EquiInv.row (i := i) (c := net.n - i * gsize) h (by omega) (by omega) (by omega) hp
    rwa [Nat.add_sub_cancel' h1] at this
  | todo + 1, i, p, hi, hp => by
    have h1 : i * gsize + gsize ≤ net.n := by
      have : (i + 1) * gsize ≤ net.n := by
        calc (i + 1) * gsize ≤ (net.n / gsize) * gsize := Nat.mul_le_mul_right _ (by omega)
          _ ≤ net.n := Nat.div_mul_le_self _ _
      rw [Nat.add_mul, one_mul] at this
      exact this
    have hrow := (equiRow_spec net i gsize (i * gsize) p (by omega)).1 h1
    have e : i * gsize + gsize = (i + 1) * gsize := by ring
    have hp' := EquiInv.row (i := i) (c := gsize) h (by omega) (le_refl _) h1 hp
    rw [e] at hrow hp'
    obtain ⟨p', e1, e2⟩ := equiRows_ok h hg hdv hm todo (i + 1) _ (by omega) hp'
    refine ⟨p', ?_, e2⟩
    rw [equiRows, hrow]
    exact e1

/-- **C86 (crash)**: `CreateEquiNPartition` dereferences NULL exactly when the size does not divide the number
of nodes plus one. -/
theorem C86_crash (net : Net) (f : ℕ → Option ℕ) {gsize : ℕ} (hg : 0 < gsize) (hnd : ¬ gsize ∣ net.n + 1) :
    CreateEquiNPartition net f gsize = none := by
  unfold CreateEquiNPartition
  rw [if_neg (by omega)]
  have := equiRows_none net hg hnd (net.n / gsize) 0 { Part.empty with inGroup := f } (by omega)
  rw [zero_mul] at this
  simp only [this]
  rfl

/-- **C86 (what holds)**: when the size divides the number of nodes plus one, the nodes, in order, are in
groups of `gsize` nodes (the last one may be smaller), and all counters are right. -/
theorem C86_groups_partial (h : net.Simple) {gsize : ℕ} (hg : 0 < gsize) (hdv : gsize ∣ net.n + 1) :
    ∃ p, CreateEquiNPartition net (fun _ => none) gsize
        = some (List.range ((net.n + gsize - 1) / gsize), p) ∧
      (∀ i, (p.grp i).nodes = (List.range net.n).filter fun v => v / gsize = i) ∧
      PartOK net (net.n / gsize + 1) p ∧ ∀ v < net.n, p.inGroup v = some (v / gsize) := by
  have h0 : EquiInv net gsize (net.n / gsize + 1) (0 * gsize) { Part.empty with inGroup := fun _ => none } := by
    refine ⟨empty_ok net _, by simp, fun i => ?_⟩
    simp [Part.empty, Grp.empty]
  obtain ⟨p, e, hp⟩ := equiRows_ok h hg hdv (by omega) (net.n / gsize) 0 _ (by omega) h0
  rw [zero_mul] at e
  refine ⟨p, ?_, hp.lists, hp.ok, fun v hv => by rw [hp.place v, if_pos hv]⟩
  unfold CreateEquiNPartition
  rw [if_neg (by omega)]
  simp only [e]
  simp only [Option.bind_eq_bind, Option.bind_some, pure, Option.some.injEq, Prod.mk.injEq, and_true]
  -- the groups that are not empty
  have hsize : ∀ i < net.n / gsize + 1, ((p.grp i).size ≠ 0 ↔ i * gsize < net.n) := by
    intro i hi
    rw [(hp.ok.lists).size i hi, hp.lists i]
    rw [Ne, Int.natCast_eq_zero, List.length_eq_zero_iff, List.filter_eq_nil_iff]
    constructor
    · intro hne
      by_contra hge
      apply hne
      intro v hv
      rw [List.mem_range] at hv
      simp only [decide_eq_true_eq]
      intro hvi
      have := Nat.div_mul_le_self v gsize
      rw [hvi] at this
      omega
    · intro hlt hall
      have := hall (i * gsize) (List.mem_range.2 hlt)
      simp [Nat.mul_div_cancel _ hg] at this
  have hk : ∀ i, i * gsize < net.n ↔ i < (net.n + gsize - 1) / gsize := by
    intro i
    rw [Nat.lt_iff_add_one_le, Nat.lt_iff_add_one_le, Nat.le_div_iff_mul_le hg, Nat.add_mul, one_mul]
    omega
  have hfil : ((List.range (net.n / gsize + 1)).filter fun g => decide ((p.grp g).size ≠ 0))
      = (List.range (net.n / gsize + 1)).filter fun g => decide (g < (net.n + gsize - 1) / gsize) := by
    apply List.filter_congr
    intro i hi
    rw [List.mem_range] at hi
    simp only [decide_eq_decide]
    rw [hsize i hi, hk i]
  rw [hfil]
  have hle : (net.n + gsize - 1) / gsize ≤ net.n / gsize + 1 := by
    have : (net.n + gsize - 1) / gsize ≤ (net.n + gsize) / gsize := Nat.div_le_div_right (by omega)
    rwa [Nat.add_div_right _ hg] at this
  generalize (net.n + gsize - 1) / gsize = c at hle
  generalize net.n / gsize + 1 = d at hle
  obtain ⟨t, rfl⟩ : ∃ t, d = c + t := ⟨d - c, by omega⟩
  rw [List.range_add, List.filter_append, List.filter_eq_self.2, List.filter_eq_nil_iff.2, List.append_nil]
  · intro v hv
    obtain ⟨x, _, rfl⟩ := List.mem_map.1 hv
    simp
  · intro v hv
    simpa using hv

/-- **C86 (refuted)**: not every network can be put in groups of two nodes: a network of two nodes crashes. -/
theorem C86_refuted : ¬ ∀ (net : Net), net.Simple → ∀ gsize, 0 < gsize →
    ∃ p, CreateEquiNPartition net (fun _ => none) gsize
        = some (List.range ((net.n + gsize - 1) / gsize), p) := by
  intro hall
  obtain ⟨p, hp⟩ := hall { n := 2, neig := fun _ => [] }
    ⟨by simp, by simp, by simp [Net.link], by simp [Net.link]⟩ 2 (by norm_num)
  rw [C86_crash _ _ (by norm_num) (by show ¬ 2 ∣ 3; decide)] at hp
  simp at hp

/-! ## From the fields of the nodes -/

/-- The state of the loop after `k` nodes. -/
structure FromInv (net : Net) (f : ℕ → Option ℕ) (k : ℕ) (s : FG) : Prop where
  inGroup : s.part.inGroup = f
  summed : ∀ g, Summed net { grp := fun _ => Grp.empty, inGroup := f } g
    ((List.range k).filter fun v => f v = some g) (s.part.grp g)
  nodup : s.made.Nodup
  made : ∀ g, g ∈ s.made ↔ ∃ v < k, f v = some g

theorem fromStep_ok {f : ℕ → Option ℕ} {k g : ℕ} {s : FG} (h : FromInv net f k s) (hf : f k = some g) :
    ∃ s', fromStep net k s = some s' ∧ FromInv net f (k + 1) s' := by
  have hfil : ∀ g', (List.range (k + 1)).filter (fun v => decide (f v = some g'))
      = (List.range k).filter (fun v => decide (f v = some g')) ++ if g' = g then [k] else [] := by
    intro g'
    rw [List.range_succ, List.filter_append]
    congr 1
    by_cases e : g' = g
    · subst e; simp [hf]
    · simp [hf, e, Ne.symm e]
  let made' := if s.made.contains g then s.made else s.made ++ [g]
  refine ⟨{ made := made', part := AddNodeToGroup net g k s.part }, ?_, ?_, ?_, ?_, ?_⟩
  · unfold fromStep
    rw [h.inGroup, hf]
    simp only [Option.bind_eq_bind, Option.bind_some, made']
    by_cases hc : g ∈ s.made
    · simp [hc]
    · simp [hc]
  · show (AddNodeToGroup net g k s.part).inGroup = f
    rw [add_marked (by rw [h.inGroup]; exact hf), h.inGroup]
  · intro g'
    rw [hfil g']
    by_cases e : g' = g
    · subst e
      rw [if_pos rfl]
      exact (h.summed g').step h.inGroup
    · rw [if_neg e, List.append_nil]
      show Summed net _ g' _ ((AddNodeToGroup net g k s.part).grp g')
      rw [add_other e]
      exact h.summed g'
  · show made'.Nodup
    simp only [made']
    by_cases hc : g ∈ s.made
    · simpa [hc] using h.nodup
    · simp only [List.contains_iff_mem, hc, if_false]
      rw [List.nodup_append]
      refine ⟨h.nodup, by simp, ?_⟩
      intro a ha b hb
      simp at hb
      subst hb
      exact fun e => hc (e ▸ ha)
  · intro g'
    show g' ∈ made' ↔ _
    have hm : g' ∈ made' ↔ g' ∈ s.made ∨ g' = g := by
      simp only [made']
      by_cases hc : g ∈ s.made
      · simp only [List.contains_iff_mem, hc, if_true]
        constructor
        · exact Or.inl
        · rintro (hh | rfl)
          · exact hh
          · exact hc
      · simp [hc]
    rw [hm, h.made g']
    constructor
    · rintro (⟨v, hv, e⟩ | rfl)
      · exact ⟨v, by omega, e⟩
      · exact ⟨k, by omega, hf⟩
    · rintro ⟨v, hv, e⟩
      by_cases hvk : v = k
      · subst hvk
        rw [hf] at e
        exact Or.inr (Option.some.inj e).symm
      · exact Or.inl ⟨v, by omega, e⟩

theorem from_inv (f : ℕ → Option ℕ) : ∀ k, (∀ v < k, (f v).isSome) →
    ∃ s, (List.range k).foldlM (fun s v => fromStep net v s)
        { made := [], part := { grp := fun _ => Grp.empty, inGroup := f } } = some s ∧ FromInv net f k s := by
  intro k
  induction k with
  | zero =>
    intro _
    exact ⟨_, rfl, rfl, fun g => by simpa using summed_empty net _ g, by simp, by simp⟩
  | succ k ih =>
    intro hf
    obtain ⟨s, e, hs⟩ := ih fun v hv => hf v (by omega)
    obtain ⟨g, hg⟩ := Option.isSome_iff_exists.1 (hf k (by omega))
    obtain ⟨s', e', hs'⟩ := fromStep_ok hs hg
    refine ⟨s', ?_, hs'⟩
    rw [List.range_succ, List.foldlM_append, e]
    simp [e']

/-- **C87 (what holds)**: `CreatePartitionFromInGroup` makes one group per value of the fields, with the
nodes of that value in order, and leaves the fields alone; but inner links are counted twice. -/
theorem C87_groups_partial (h : net.Simple) (f : ℕ → Option ℕ) (hf : ∀ v < net.n, (f v).isSome) :
    ∃ s, CreatePartitionFromInGroup net f = some s ∧ s.part.inGroup = f ∧ s.made.Nodup ∧
      (∀ g, g ∈ s.made ↔ ∃ v < net.n, f v = some g) ∧
      ∀ g, (s.part.grp g).nodes = ((List.range net.n).filter fun v => f v = some g) ∧
        Doubled net ((Finset.range net.n).filter fun v => f v = some g) (s.part.grp g) := by
  obtain ⟨s, e, hs⟩ := from_inv (net := net) f net.n hf
  refine ⟨s, e, hs.inGroup, hs.nodup, hs.made, fun g => ⟨(hs.summed g).nodes, ?_⟩⟩
  refine (hs.summed g).doubled h (List.nodup_range.filter _) ?_
  ext v
  simp [members]

/-- **C87 (crash)**: a node in no group (-1) reads before the start of a table. -/
theorem C87_unassigned (net : Net) (f : ℕ → Option ℕ) {v : ℕ} (hv : v < net.n) (hf : f v = none) :
    CreatePartitionFromInGroup net f = none := by
  -- the first unassigned node
  classical
  obtain ⟨k, ⟨hk1, hk2⟩, hmin⟩ : ∃ k, (k < net.n ∧ f k = none) ∧ ∀ j < k, ¬ (j < net.n ∧ f j = none) :=
    ⟨Nat.find ⟨v, hv, hf⟩, Nat.find_spec (⟨v, hv, hf⟩ : ∃ k, k < net.n ∧ f k = none),
      fun j hj => Nat.find_min _ hj⟩
  obtain ⟨s, e, hs⟩ := from_inv (net := net) f k (fun j hj => by
    have := hmin j hj
    rw [Option.isSome_iff_ne_none]
    exact fun hn => this ⟨by omega, hn⟩)
  unfold CreatePartitionFromInGroup
  obtain ⟨t, ht⟩ : ∃ t, net.n = k + (t + 1) := ⟨net.n - k - 1, by omega⟩
  rw [ht, List.range_add, List.foldlM_append, e]
  simp only [Option.bind_eq_bind, Option.bind_some]
  rw [List.range_succ_eq_map, List.map_cons, List.foldlM_cons]
  simp [fromStep, hs.inGroup, hk2]

/-- **C87 (refuted)**: the counters are not those of the groups: a single link in one group counts two. -/
theorem C87_refuted : ¬ ∀ (net : Net), net.Simple → ∀ f : ℕ → Option ℕ, (∀ v < net.n, (f v).isSome) →
    ∃ s, CreatePartitionFromInGroup net f = some s ∧
      ∀ g, GroupOK net ((Finset.range net.n).filter fun v => f v = some g) (s.part.grp g) := by
  intro hall
  obtain ⟨s, e, hs⟩ := hall tailed tailed_simple (fun _ => some 0) (by simp)
  have hrun : (CreatePartitionFromInGroup tailed (fun _ => some 0)).map (fun s => (s.part.grp 0).inlinks)
      = some 8 := by decide +kernel
  rw [e] at hrun
  have h8 : (s.part.grp 0).inlinks = 8 := by simpa using hrun
  have h1 := (hs 0).links.1
  obtain ⟨s', e', _, _, _, hd⟩ := C87_groups_partial tailed_simple (fun _ => some 0) (by simp)
  rw [e] at e'
  cases e'
  obtain ⟨t, i, o, hc, hi, _⟩ := (hd 0).2.links
  have := hc.1
  omega

example : (CreateEquiNPartition tailed (fun _ => none) 5).map (fun r => (r.1, (r.2.grp 0).nodes, (r.2.grp 0).inlinks))
    = some ([0], [0, 1, 2, 3], 4) := by decide +kernel
example : (CreateEquiNPartition tailed (fun _ => none) 1).map (fun r => (r.1, (r.2.grp 3).nodes))
    = some ([0, 1, 2, 3], [3]) := by decide +kernel
example : (CreateEquiNPartition tailed (fun _ => none) 2).isNone = true := by decide +kernel

/-- A copy counts the triangle with its tail twice; after mapping it is right. -/
example : ((CopyPartition tailed 1 (addAllTo tailed 0 [0, 1, 2, 3] Part.empty).grp
      (addAllTo tailed 0 [0, 1, 2, 3] Part.empty).inGroup).grp 0).inlinks = 8 ∧
    ((MapPartToNet tailed 1 (CopyPartition tailed 1 (addAllTo tailed 0 [0, 1, 2, 3] Part.empty).grp
      (addAllTo tailed 0 [0, 1, 2, 3] Part.empty).inGroup)).grp 0).inlinks = 4 := by
  decide +kernel

end GP
