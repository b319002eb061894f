import Verif.Group.SoftModel
import Verif.Group.Energy
import Verif.Group.RoleProps
import Verif.Tools.Props
import Verif.Models.Lemmas
import Mathlib.Tactic.NormNum

/-! # C122, C123, C124, C125 -/

set_option linter.unusedSimpArgs false

namespace GP

open scoped BigOperators

variable {net : Net} {m : ℕ} {p : Part}

/-! ## C122: removal of links by group -/

theorem cells_back (row : List (ℕ × ℚ)) : (cells row).map (fun c => (c.ref, c.weight)) = row := by
  unfold cells
  rw [List.map_map]
  have : ((fun c : Cell => (c.ref, c.weight)) ∘ fun x : (ℕ × ℚ) × ℕ => (⟨x.2, x.1.1, x.1.2⟩ : Cell)) = Prod.fst := by
    funext x; rfl
  rw [this, List.zipIdx_map_fst]

theorem cells_addr (row : List (ℕ × ℚ)) : ((cells row).map Cell.addr).Nodup := by
  unfold cells
  rw [List.map_map]
  have : (Cell.addr ∘ fun x : (ℕ × ℚ) × ℕ => (⟨x.2, x.1.1, x.1.2⟩ : Cell)) = Prod.snd := by
    funext x; rfl
  rw [this, List.zipIdx_map_snd]
  exact List.nodup_range'

theorem dropWhile_at {pre suf : List Cell} {c : Cell} (h : ((pre ++ c :: suf).map Cell.addr).Nodup) :
    (pre ++ c :: suf).dropWhile (fun d => d.addr ≠ c.addr) = c :: suf := by
  induction pre with
  | nil => simp [List.dropWhile]
  | cons d ds ih =>
    have h' := h
    simp only [List.cons_append, List.map_cons, List.nodup_cons] at h'
    have hne : d.addr ≠ c.addr := by
      intro e
      apply h'.1
      rw [e]
      simp
    rw [List.cons_append, List.dropWhile_cons_of_pos (by simpa using hne)]
    exact ih h'.2

theorem dropWhile_gone {l : List Cell} {k : ℕ} (h : k ∉ l.map Cell.addr) :
    l.dropWhile (fun d => d.addr ≠ k) = [] := by
  induction l with
  | nil => rfl
  | cons d ds ih =>
    simp only [List.map_cons, List.mem_cons, not_or] at h
    rw [List.dropWhile_cons_of_pos (by simpa using fun e => h.1 (e.symm))]
    exact ih h.2

/-- The pointer after the prefix `pre`. -/
def lastAddr (pre : List Cell) : Option ℕ := pre.getLast?.map Cell.addr

theorem nextCell_at {pre suf : List Cell} (h : ((pre ++ suf).map Cell.addr).Nodup) :
    nextCell (pre ++ suf) (lastAddr pre) = some suf.head? := by
  rcases List.eq_nil_or_concat pre with rfl | ⟨q, c, rfl⟩
  · rfl
  · have e : q ++ [c] ++ suf = q ++ c :: suf := by simp
    rw [List.concat_eq_append] at h ⊢
    rw [e] at h ⊢
    simp only [lastAddr, List.getLast?_append, List.getLast?_singleton, Option.some_or, Option.map_some,
      nextCell]
    rw [dropWhile_at h]

theorem removeWalk_iff (rm : ℕ → Bool) (fuel : ℕ) : ∀ (pre suf : List Cell),
    ((pre ++ suf).map Cell.addr).Nodup → (∀ c ∈ pre, rm c.ref = false) → suf.length < fuel →
    removeWalk rm fuel (pre ++ suf) (lastAddr pre) =
      if ∀ c ∈ suf, rm c.ref = false then some (pre ++ suf) else none := by
  induction fuel with
  | zero => intro pre suf _ _ h; omega
  | succ fuel ih =>
    intro pre suf hn hpre hl
    rw [removeWalk, nextCell_at hn]
    cases suf with
    | nil => simp
    | cons c cs =>
      simp only [Option.bind_eq_bind, Option.bind_some, List.head?_cons]
      have e : pre ++ c :: cs = (pre ++ [c]) ++ cs := by simp
      have hlast : lastAddr (pre ++ [c]) = some c.addr := by
        simp [lastAddr, List.getLast?_append]
      by_cases hc : rm c.ref = true
      · rw [if_pos hc, if_neg (fun h => by have := h c (by simp); rw [hc] at this; simp at this)]
        have he : (pre ++ c :: cs).eraseP (fun d => d.ref = c.ref) = pre ++ cs := by
          rw [List.eraseP_append_right _ (fun d hd => by
            simp only [decide_eq_true_eq]
            intro ed
            have := hpre d hd
            rw [ed, hc] at this
            simp at this)]
          simp
        rw [he]
        cases fuel with
        | zero => rfl
        | succ fuel =>
          have hgone : c.addr ∉ (pre ++ cs).map Cell.addr := by
            intro hmem
            have hn' := hn
            rw [List.map_append, List.map_cons] at hn'
            have := (List.nodup_middle.1 hn')
            rw [List.nodup_cons] at this
            apply this.1
            rwa [List.map_append] at hmem
          rw [removeWalk]
          simp only [nextCell, dropWhile_gone hgone]
          rfl
      · have hc' : rm c.ref = false := by simpa using hc
        rw [if_neg hc, e, ← hlast, ih (pre ++ [c]) cs (by rw [← e]; exact hn) (by
          intro d hd
          rcases List.mem_append.1 hd with hd | hd
          · exact hpre d hd
          · simp only [List.mem_singleton] at hd; rw [hd]; exact hc') (by simp at hl; omega)]
        congr 1
        simp [hc']

theorem removeRow_iff (rm : ℕ → ℕ → Bool) (v : ℕ) (net : Net) :
    removeRow rm v net = if ∀ x ∈ net.neig v, rm v x.1 = false then some net else none := by
  have hw := removeWalk_iff (rm v) ((net.neig v).length + 1) [] (cells (net.neig v)) (cells_addr _)
    (by simp) (by simp [cells])
  simp only [List.nil_append] at hw
  have hl : lastAddr [] = none := rfl
  rw [hl] at hw
  unfold removeRow
  rw [hw]
  have hiff : (∀ c ∈ cells (net.neig v), rm v c.ref = false) ↔ ∀ x ∈ net.neig v, rm v x.1 = false := by
    conv_rhs => rw [← cells_back (net.neig v)]
    simp
  by_cases h : ∀ x ∈ net.neig v, rm v x.1 = false
  · rw [if_pos (hiff.2 h), if_pos h]
    simp only [Option.bind_eq_bind, Option.bind_some, Option.pure_def, cells_back, Function.update_eq_self]
  · rw [if_neg (fun k => h (hiff.1 k)), if_neg h]
    rfl

theorem removeRows_iff (rm : ℕ → ℕ → Bool) (vs : List ℕ) (net : Net) :
    removeRows rm vs net = if ∀ v ∈ vs, ∀ x ∈ net.neig v, rm v x.1 = false then some net else none := by
  unfold removeRows
  induction vs with
  | nil => simp
  | cons v vs ih =>
    rw [List.foldlM_cons, removeRow_iff]
    by_cases h : ∀ x ∈ net.neig v, rm v x.1 = false
    · rw [if_pos h]
      simp only [Option.bind_eq_bind, Option.bind_some]
      rw [ih]
      congr 1
      simp only [List.mem_cons, forall_eq_or_imp, eq_iff_iff]
      tauto
    · rw [if_neg h, if_neg (fun k => h (k v (by simp)))]
      rfl

/-- **C122** (partial: the claim holds only for networks in which there is nothing to remove).  Full
claim: the functions remove the links of the nodes of a group, or all links between groups.

After the first removal the loop reads `nei->next` from the cell that `RemoveLink` has just freed.
Hence each of the three functions is defined exactly when no link is to be removed, and then leaves
the network as it is. -/
theorem C122_only_nothing_partial (net : Net) (m : ℕ) (p : Part) :
    (∀ g, RemoveWithinGroupLinks p g net =
      if ∀ v ∈ (p.grp g).nodes, net.neig v = [] then some net else none) ∧
    (RemoveBetweenGroupLinks m p net =
      if ∀ g < m, ∀ v ∈ (p.grp g).nodes, ∀ x ∈ net.neig v, p.inGroup v = p.inGroup x.1
      then some net else none) ∧
    (RemoveInterGroupLinks p net =
      if ∀ v < net.n, ∀ x ∈ net.neig v, p.inGroup v = p.inGroup x.1 then some net else none) := by
  refine ⟨?_, ?_, ?_⟩
  · intro g
    rw [RemoveWithinGroupLinks, removeRows_iff]
    congr 1
    simp only [Bool.true_eq_false, imp_false, eq_iff_iff]
    constructor
    · intro h v hv
      exact List.eq_nil_iff_forall_not_mem.2 fun x => h v hv x
    · intro h v hv x hx
      rw [h v hv] at hx
      simp at hx
  · rw [RemoveBetweenGroupLinks, removeRows_iff]
    congr 1
    simp only [List.mem_flatMap, List.mem_range, ne_eq, decide_not, Bool.not_eq_eq_eq_not, Bool.not_false,
      decide_eq_true_eq, eq_iff_iff]
    constructor
    · intro h g hg v hv x hx
      exact h v ⟨g, hg, hv⟩ x hx
    · rintro h v ⟨g, hg, hv⟩ x hx
      exact h g hg v hv x hx
  · rw [RemoveInterGroupLinks, removeRows_iff]
    congr 1
    simp only [List.mem_range, ne_eq, decide_not, Bool.not_eq_eq_eq_not, Bool.not_false,
      decide_eq_true_eq]

/-- **C122, refutation**: a network of four nodes in two groups with two links between them. -/
theorem C122_use_after_free : RemoveInterGroupLinks halves tailed = none ∧
    RemoveBetweenGroupLinks 2 halves tailed = none ∧ RemoveWithinGroupLinks halves 0 tailed = none := by
  decide +kernel

/-! ## C123: statistics of the sizes of groups -/

theorem groupSizes_ne (hp : PartOK net m p) (hf : Full net p) (hn : net.n ≠ 0) : groupSizes m p ≠ [] := by
  obtain ⟨g, hg⟩ := Option.ne_none_iff_exists'.1 (hf 0 (by omega))
  have hgm := (hp.range 0 g hg).2
  have hs := (hp.groups g hgm).size
  have : 0 < (members net p g).card := Finset.card_pos.2 ⟨0, mem_members.2 ⟨by omega, hg⟩⟩
  intro e
  have : g ∈ (List.range m).filter fun g => decide (0 < (p.grp g).size) := by
    rw [List.mem_filter]
    exact ⟨List.mem_range.2 hgm, by simp; omega⟩
  unfold groupSizes at e
  rw [List.map_eq_nil_iff] at e
  rw [e] at this
  simp at this

theorem sum_range_list (f : ℕ → ℚ) : ∀ k, ((List.range k).map f).sum = ∑ g ∈ Finset.range k, f g := by
  intro k
  induction k with
  | zero => rfl
  | succ k ih => rw [List.range_succ, List.map_append, List.sum_append, ih, Finset.sum_range_succ]; simp

theorem sum_cast (l : List ℚ) : (l.map (fun x : ℚ => (x : ℝ))).sum = ((l.sum : ℚ) : ℝ) := by
  induction l with
  | nil => simp
  | cons x xs ih => rw [List.map_cons, List.sum_cons, ih, List.sum_cons]; push_cast; rfl

theorem groupSizes_sum (hp : PartOK net m p) (hf : Full net p) : (groupSizes m p).sum = net.n := by
  have h1 : ∀ l : List ℕ, ((l.filter fun g => decide (0 < (p.grp g).size)).map
      fun g => ((p.grp g).size : ℚ)).sum = (l.map fun g => if 0 < (p.grp g).size then ((p.grp g).size : ℚ) else 0).sum := by
    intro l
    induction l with
    | nil => rfl
    | cons g gs ih =>
      by_cases hg : 0 < (p.grp g).size
      · simp [List.filter_cons, hg, ih]
      · simp [List.filter_cons, hg, ih]
  unfold groupSizes
  rw [h1]
  have h2 : ((List.range m).map fun g => if 0 < (p.grp g).size then ((p.grp g).size : ℚ) else 0).sum =
      ∑ g ∈ Finset.range m, if 0 < (p.grp g).size then ((p.grp g).size : ℚ) else 0 := by
    exact sum_range_list _ m
  rw [h2]
  have h3 : ∀ g ∈ Finset.range m, (if 0 < (p.grp g).size then ((p.grp g).size : ℚ) else 0) =
      ∑ v ∈ members net p g, (1 : ℚ) := by
    intro g hg
    have hs := (hp.groups g (Finset.mem_range.1 hg)).size
    rw [Finset.sum_const, nsmul_eq_mul, mul_one]
    split_ifs with h
    · rw [hs]; simp
    · have : (members net p g).card = 0 := by omega
      rw [this]; simp
  rw [Finset.sum_congr rfl h3, sum_members hp hf]
  simp

theorem mem_groupSizes (hp : PartOK net m p) (x : ℚ) : x ∈ groupSizes m p ↔
    ∃ g < m, (members net p g).Nonempty ∧ x = (members net p g).card := by
  unfold groupSizes
  simp only [List.mem_map, List.mem_filter, List.mem_range, decide_eq_true_eq]
  constructor
  · rintro ⟨g, ⟨hg, hs⟩, rfl⟩
    have e := (hp.groups g hg).size
    refine ⟨g, hg, Finset.card_pos.1 (by omega), by rw [e]; simp⟩
  · rintro ⟨g, hg, hne, rfl⟩
    have e := (hp.groups g hg).size
    have := Finset.card_pos.2 hne
    exact ⟨g, ⟨hg, by omega⟩, by rw [e]; simp⟩

/-- **C123**.  For a full partition of a network with nodes: the mean size times the number of
non-empty groups is the number of nodes; minimum and maximum are attained by non-empty groups and bound
the sizes of all of them; the standard deviation is the root of the mean squared deviation, and is 0
exactly when all non-empty groups have the same size as the mean. -/
theorem C123_sizes (hp : PartOK net m p) (hf : Full net p) (hn : net.n ≠ 0) :
    ∃ a s l u, GroupSizeStatistics m p = some (a, s, l, u) ∧
      a * ((List.range m).filter fun g => (members net p g).Nonempty).length = net.n ∧
      (∃ g < m, (members net p g).Nonempty ∧ l = (members net p g).card) ∧
      (∃ g < m, (members net p g).Nonempty ∧ u = (members net p g).card) ∧
      (∀ g < m, (members net p g).Nonempty → l ≤ (members net p g).card ∧ (members net p g).card ≤ u) ∧
      0 ≤ s ∧ s ^ 2 * ((List.range m).filter fun g => (members net p g).Nonempty).length =
        (((List.range m).filter fun g => (members net p g).Nonempty).map
          fun g => (((members net p g).card : ℝ) - a) ^ 2).sum ∧
      (s = 0 ↔ ∀ g < m, (members net p g).Nonempty → ((members net p g).card : ℝ) = a) := by
  have hne := groupSizes_ne hp hf hn
  have hne' : (groupSizes m p).map (fun x : ℚ => (x : ℝ)) ≠ [] := by simpa using hne
  obtain ⟨a, s, ha, hs, h0, hsq, hz⟩ := Tools.C41_stddev _ hne'
  obtain ⟨a', ha', hmul, _⟩ := Tools.C41_mean _ hne'
  obtain ⟨⟨u, hu, eu, bu⟩, ⟨l, hl, el, bl⟩⟩ := Tools.C41_max_min _ hne
  rw [ha] at ha'
  cases ha'
  have hfil : ((List.range m).filter fun g => decide (members net p g).Nonempty) =
      (List.range m).filter fun g => decide (0 < (p.grp g).size) := by
    apply List.filter_congr
    intro g hg
    have e := (hp.groups g (List.mem_range.1 hg)).size
    rw [decide_eq_decide, ← Finset.card_pos]
    omega
  have hlen : (((groupSizes m p).map (fun x : ℚ => (x : ℝ))).length : ℝ) =
      ((List.range m).filter fun g => decide (members net p g).Nonempty).length := by
    rw [hfil]; simp [groupSizes]
  refine ⟨a, s, l, u, ?_, ?_, (mem_groupSizes hp l).1 hl, (mem_groupSizes hp u).1 hu, ?_, h0, ?_, ?_⟩
  · unfold GroupSizeStatistics
    rw [ha, hs, el, eu]
    rfl
  · rw [← hlen, hmul]
    rw [sum_cast, groupSizes_sum hp hf]
    simp
  · intro g hg hge
    have hm := (mem_groupSizes hp ((members net p g).card : ℚ)).2 ⟨g, hg, hge, rfl⟩
    exact ⟨bl _ hm, bu _ hm⟩
  · rw [← hlen, hsq, hfil]
    unfold groupSizes
    rw [List.map_map, List.map_map]
    congr 1
    apply List.map_congr_left
    intro g hg
    have hg' := List.mem_range.1 (List.mem_filter.1 hg).1
    simp only [Function.comp]
    rw [(hp.groups g hg').size]
    simp
  · rw [hz]
    constructor
    · intro h g hg hge
      have hm := (mem_groupSizes hp ((members net p g).card : ℚ)).2 ⟨g, hg, hge, rfl⟩
      have := h _ (List.mem_map.2 ⟨_, hm, rfl⟩)
      simpa using this
    · intro h x hx
      obtain ⟨y, hy, rfl⟩ := List.mem_map.1 hx
      obtain ⟨g, hg, hge, rfl⟩ := (mem_groupSizes hp y).1 hy
      have := h g hg hge
      simpa using this

example : groupSizes 2 halves = [2, 2] ∧ ∃ a s l u, GroupSizeStatistics 2 halves = some (a, s, l, u) ∧
    a * 2 = 4 ∧ l = 2 ∧ u = 2 := by
  have hf : Full tailed halves := by
    intro v hv
    exact (show ∀ v < 4, halves.inGroup v ≠ none by decide +kernel) v hv
  obtain ⟨a, s, l, u, e, h1, ⟨g, hg, _, h2⟩, ⟨g', hg', _, h3⟩, _⟩ := C123_sizes halves_ok hf (by decide)
  have hlen : ((List.range 2).filter fun g => decide (members tailed halves g).Nonempty).length = 2 := by
    decide +kernel
  have hc : ∀ g < 2, (members tailed halves g).card = 2 := by decide +kernel
  refine ⟨by decide +kernel, a, s, l, u, e, ?_, ?_, ?_⟩
  · rw [hlen] at h1; simpa [tailed] using h1
  · rw [h2, hc g hg]; rfl
  · rw [h3, hc g' hg']; rfl

/-! ## C124: soft mapping -/

/-- **C124** (partial).  Full claim (comment of the function): only the network is updated, and the
network may be a subset of the one the partition was made for.  Proved: if all nodes of the
(disjoint) lists are in the network, every node gets the group of the list it is in, and no group if
it is in none; lists and sizes stay. -/
theorem C124_soft_map_partial {n : ℕ} (h : ListsOK net m p) (hn : net.n = n) :
    ∃ q, MapPartToNetSoft n m p = some q ∧
      (∀ v g, q.inGroup v = some g ↔ g < m ∧ v ∈ (p.grp g).nodes) ∧
      (∀ g, (q.grp g).nodes = (p.grp g).nodes ∧ (q.grp g).size = (p.grp g).size) := by
  refine ⟨_, if_pos (hn ▸ h.range), fun v g => mapInGroup_iff m h.disj v g, ?_⟩
  intro g
  by_cases hg : g < m
  · simp only [if_pos hg]; exact ⟨trivial, trivial⟩
  · simp only [if_neg hg]; exact ⟨trivial, trivial⟩

/-- **C124, refutation** ("only the network is updated"): the counters of all groups become 0. -/
theorem C124_counters_lost {n : ℕ} {q : Part} (h : MapPartToNetSoft n m p = some q) :
    ∀ g < m, (q.grp g).totlinks = 0 ∧ (q.grp g).inlinks = 0 ∧ (q.grp g).outlinks = 0 ∧
      (q.grp g).totlinksW = 0 ∧ (q.grp g).inlinksW = 0 ∧ (q.grp g).outlinksW = 0 := by
  unfold MapPartToNetSoft at h
  split_ifs at h
  cases h
  intro g hg
  simp only [if_pos hg, Grp.empty]
  exact ⟨trivial, trivial, trivial, trivial, trivial, trivial⟩

/-- **C124, refutation** ("networks that are a subset"): one node of the partition that is not in
the network suffices for a NULL pointer to be dereferenced. -/
theorem C124_subset_crashes {n : ℕ} {g v : ℕ} (hg : g < m) (hv : v ∈ (p.grp g).nodes) (hn : n ≤ v) :
    MapPartToNetSoft n m p = none := by
  unfold MapPartToNetSoft
  rw [if_neg]
  intro h
  have := h g hg v hv
  omega

example : (halves.grp 0).inlinks = 1 ∧
    (MapPartToNetSoft 4 2 halves).map (fun q => (q.grp 0).inlinks) = some 0 ∧
    (MapPartToNetSoft 3 2 halves).isNone = true := by decide +kernel

/-! ## C125: partitions without network -/

theorem foldl_soft (f : ℕ → String) : ∀ (l : List ℕ) (g : SoftGrp),
    l.foldl (fun g j => AddNodeToGroupSoft g (f j)) g = ⟨g.labels ++ l.map f, g.size + l.length⟩ := by
  intro l
  induction l with
  | nil => intro g; simp
  | cons j js ih =>
    intro g
    rw [List.foldl_cons, ih]
    simp [AddNodeToGroupSoft]
    omega

/-- **C125**.  With at most `2^31 - 1` nodes the call returns the given number of groups, each of the
given size and with that many labels; read one after the other the labels are the decimal numbers from 1
to `ngroups * gsize`; no label occurs twice; and every label fits its buffer. -/
theorem C125_equal_groups (ngroups gsize : ℕ) (h : ngroups * gsize ≤ 2147483647) :
    ∃ part, CreateEquiNPartitionSoft ngroups gsize = some part ∧ part.length = ngroups ∧
      (∀ g ∈ part, g.size = gsize ∧ g.labels.length = gsize) ∧
      part.flatMap (·.labels) = (List.range (ngroups * gsize)).map (fun k => toString (k + 1)) ∧
      (part.flatMap (·.labels)).Nodup ∧ ∀ l ∈ part.flatMap (·.labels), l.utf8ByteSize < 100 := by
  have hflat : ∀ k, ((List.range k).map fun i => (List.range gsize).foldl
      (fun g j => AddNodeToGroupSoft g (toString (j + i * gsize + 1))) ⟨[], 0⟩).flatMap (·.labels) =
      (List.range (k * gsize)).map (fun k => toString (k + 1)) := by
    intro k
    induction k with
    | zero => simp
    | succ k ih =>
      rw [List.range_succ, List.map_append, List.flatMap_append, ih, Nat.succ_mul, List.range_add,
        List.map_append]
      congr 1
      simp only [List.map_cons, List.map_nil, List.flatMap_cons, List.flatMap_nil, List.append_nil,
        foldl_soft, List.nil_append, List.map_map]
      apply List.map_congr_left
      intro j _
      simp only [Function.comp]
      rw [Nat.add_comm j]
  refine ⟨_, if_pos h, by simp, ?_, hflat ngroups, ?_, ?_⟩
  · intro g hg
    obtain ⟨i, _, rfl⟩ := List.mem_map.1 hg
    rw [foldl_soft]
    simp
  · rw [hflat]
    refine List.Nodup.map ?_ List.nodup_range
    intro a b e
    exact MD.numLabel_inj e
  · rw [hflat]
    intro l hl
    obtain ⟨k, hk, rfl⟩ := List.mem_map.1 hl
    have := MD.numLabel_fits (i := k) (by have := List.mem_range.1 hk; omega)
    simpa [GR.fits, MD.numLabel] using this

example : CreateEquiNPartitionSoft 2 3 =
    some [⟨["1", "2", "3"], 3⟩, ⟨["4", "5", "6"], 3⟩] := by decide +kernel

end GP
