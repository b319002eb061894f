import Verif.Project.Fill
import Verif.NC.Build

/-! # C12: the projection is the weighted co-membership graph -/

set_option linter.unusedSimpArgs false

namespace NC

theorem count_nodes (edges : List Edge) : ∀ (n : ℕ),
    let N := edges.foldl (fun N e => if N < e.u + 1 then e.u + 1 else N) n
    n ≤ N ∧ (∀ e ∈ edges, e.u < N) ∧ (N = n ∨ ∃ e ∈ edges, e.u + 1 = N) := by
  induction edges with
  | nil => intro n; simp
  | cons e es ih =>
    intro n
    obtain ⟨h1, h2, h3⟩ := ih (if n < e.u + 1 then e.u + 1 else n)
    simp only [List.foldl_cons] at h1 h2 h3 ⊢
    refine ⟨?_, ?_, ?_⟩
    · refine le_trans ?_ h1; split_ifs <;> omega
    · intro f hf
      rcases List.mem_cons.1 hf with rfl | hf
      · refine lt_of_lt_of_le ?_ h1; split_ifs <;> omega
      · exact h2 f hf
    · rcases h3 with h3 | ⟨f, hf, h3⟩
      · rw [h3]
        split_ifs with hn
        · exact Or.inr ⟨e, by simp, rfl⟩
        · exact Or.inl rfl
      · exact Or.inr ⟨f, by simp [hf], h3⟩

theorem mem_incident_iff {W : ℚ} {i j : ℕ} {es : List Edge} (h : ∀ e ∈ es, e.u ≠ e.v) :
    j ∈ (incident W i es).map Prod.fst ↔ ∃ e ∈ es, (e.u = i ∧ e.v = j) ∨ (e.v = i ∧ e.u = j) := by
  induction es with
  | nil => simp [incident]
  | cons e es ih =>
    have ih := ih fun f hf => h f (by simp [hf])
    have hne := h e (by simp)
    simp only [incident]
    split_ifs with c1 c2
    · rw [List.map_cons, List.mem_cons, ih]
      constructor
      · rintro (rfl | ⟨f, hf, hh⟩)
        · exact ⟨e, by simp, Or.inl ⟨c1, rfl⟩⟩
        · exact ⟨f, by simp [hf], hh⟩
      · rintro ⟨f, hf, hh⟩
        rcases List.mem_cons.1 hf with rfl | hf
        · rcases hh with hh | hh
          · exact Or.inl hh.2.symm
          · exact absurd (c1.trans hh.1.symm) hne
        · exact Or.inr ⟨f, hf, hh⟩
    · rw [List.map_cons, List.mem_cons, ih]
      constructor
      · rintro (rfl | ⟨f, hf, hh⟩)
        · exact ⟨e, by simp, Or.inr ⟨c2, rfl⟩⟩
        · exact ⟨f, by simp [hf], hh⟩
      · rintro ⟨f, hf, hh⟩
        rcases List.mem_cons.1 hf with rfl | hf
        · rcases hh with hh | hh
          · exact absurd hh.1 c1
          · exact Or.inl hh.2.symm
        · exact Or.inr ⟨f, hf, hh⟩
    · rw [ih]
      constructor
      · rintro ⟨f, hf, hh⟩; exact ⟨f, by simp [hf], hh⟩
      · rintro ⟨f, hf, hh⟩
        rcases List.mem_cons.1 hf with rfl | hf
        · rcases hh with hh | hh
          · exact absurd hh.1 c1
          · exact absurd hh.1 c2
        · exact ⟨f, hf, hh⟩

theorem msum_runs {i j : ℕ} : ∀ (L : List (List Edge)), (∀ g ∈ L, g ≠ []) → (∀ g ∈ L, ∀ x ∈ g, ∀ y ∈ g, pkey x = pkey y) →
    msum (L.map merge) i j = msum L.flatten i j
  | [], _, _ => by simp [msum]
  | g :: L, hn, hc => by
    rw [List.map_cons, ← List.singleton_append, msum_append, msum_runs L (fun k hk => hn k (by simp [hk])) (fun k hk => hc k (by simp [hk])),
      List.flatten_cons, msum_append]
    congr 1
    obtain ⟨a, ha⟩ := List.exists_mem_of_ne_nil g (hn g (by simp))
    rw [merge_eq ha (fun x hx => hc g (by simp) x hx a ha)]
    have : g.map (fun e : Edge => if (e.u = i ∧ e.v = j) ∨ (e.u = j ∧ e.v = i) then e.w else 0) =
        g.map (fun e : Edge => if (a.u = i ∧ a.v = j) ∨ (a.u = j ∧ a.v = i) then e.w else 0) := by
      refine List.map_congr_left fun e he => ?_
      have := pkey_eq.1 (hc g (by simp) e he a ha)
      rw [this.1, this.2]
    simp only [msum, this, List.map_cons, List.map_nil, List.sum_cons, List.sum_nil, add_zero]
    by_cases c : (a.u = i ∧ a.v = j) ∨ (a.u = j ∧ a.v = i)
    · simp only [if_pos c]; rfl
    · simp only [if_neg c]; simp

/-- **C12**, partial: the full claim is about every execution, but the code reads memory it has not written and the result
depends on it (`C12_last_pair_lost`, `C12_strength_not_set`). When the variable `strength` happens to be 0 and the memory after the
projected edges does not hold the end points of a projected edge, then for every list of different edges the function
succeeds within its arrays, and gives
* the adjacency array of the co-membership weights divided by `Σ_a m_a (m_a - m_a / size)`, symmetric and with one slot for each
  pair of actors with a common team;
* a fresh partition of the actors, whose strengths are the shares of the actors in the total weight. -/
theorem C12_projection_partial {edges : List Edge} (hd : DistinctEdges edges) {junk : Junk} (hj0 : junk.strength = 0)
    (hj : ∀ e ∈ edges, ∀ f ∈ edges, e.v = f.v → ¬ (e.u = junk.edge.u ∧ f.u = junk.edge.v)) :
    ∃ E p a, ProjectBipartEdgeList junk edges = some (E, p, a) ∧ a.E = E ∧ a.N = p.N ∧
      (∀ e ∈ edges, e.u < p.N) ∧ (edges ≠ [] → ∃ e ∈ edges, e.u + 1 = p.N) ∧
      (∀ i < p.N, ∀ j, (∃ s, a.idx i ≤ s ∧ s < a.idx (i + 1) ∧ a.neighbors s = j) ↔ Linked edges i j) ∧
      Represents a p.N (fun i j => if i = j then 0 else comembership edges i j / projectionNorm edges) ∧
      p.M = p.N ∧ Fresh p ∧ (∀ i < p.N, strengthOf p i = actorWeight edges i / totalWeight edges) := by
  -- first loops
  obtain ⟨_, hN1, hN2⟩ := count_nodes edges 0
  set N := edges.foldl (fun N e => if N < e.u + 1 then e.u + 1 else N) 0 with hN
  set p0 : Partition := { N := N, M := N, nempty := N
                          nodes := fun i => { id := i, strength := 0, module := 0, prev := none, next := none }
                          modules := fun m => { id := m, size := 0, strength := 0, first := none, last := none } } with hp0
  have hcp : CreatePartition N N = some p0 := by unfold CreatePartition; simp [hp0]
  have hteam := teamLoop_spec junk (sortEdges edges) []
    { p := p0, degree := 0, strength := junk.strength, Emax := 0, fac1 := 0, fac2 := 0 } rfl (by simp [hj0, wsum])
  set t := teamLoop junk { p := p0, degree := 0, strength := junk.strength, Emax := 0, fac1 := 0, fac2 := 0 } (sortEdges edges) with ht
  simp only [zero_add] at hteam
  obtain ⟨hEmax, hf2, hf1, tN, tM, tE, tm, tn⟩ := hteam
  rw [norm_groups] at hf1
  rw [total_groups] at hf2
  have hproj := projLoop_spec junk (sortEdges edges) [] []
  rw [List.nil_append] at hproj
  set raw := (teams [] (sortEdges edges)).flatMap (pairsFrom []) with hraw
  set proj := sortEdges raw with hproj'
  have hpp : proj.Perm raw := sortEdges_perm raw
  have hmem : ∀ x, x ∈ proj ↔ ∃ e ∈ edges, ∃ f ∈ edges, e.v = f.v ∧ f.u < e.u ∧ x = ⟨e.u, f.u, e.w * f.w⟩ := by
    intro x; rw [hpp.mem_iff, hraw, mem_projected hd]
  have hlt : ∀ x ∈ proj, x.v < x.u ∧ x.u < N := by
    intro x hx
    obtain ⟨e, he, f, hf, _, hu, rfl⟩ := (hmem x).1 hx
    exact ⟨hu, hN1 e he⟩
  -- merged edges
  set G := pruns [] proj with hG
  have Gconst : ∀ g ∈ G, ∀ x ∈ g, ∀ y ∈ g, pkey x = pkey y := runs_const _ _ _ (by simp)
  have Gne : ∀ g ∈ G, g ≠ [] := runs_ne _ _ _
  have Gsorted : G.Pairwise (fun g h => ∀ x ∈ g, ∀ y ∈ h, pkey x < pkey y) := runs_sorted _ _ _ (by simp) (sortEdges_sorted raw)
  have Gflat : G.flatten = proj := runs_flatten' _ _
  set ue := G.map merge with hue
  have hmerge : ∀ g ∈ G, ∃ x ∈ g, x ∈ proj ∧ (merge g).u = x.u ∧ (merge g).v = x.v := by
    intro g hg
    obtain ⟨x, hx⟩ := List.exists_mem_of_ne_nil g (Gne g hg)
    refine ⟨x, hx, by rw [← Gflat]; exact List.mem_flatten.2 ⟨g, hg, hx⟩, ?_⟩
    rw [merge_eq hx (fun y hy => Gconst g hg y hy x hx)]
    exact ⟨rfl, rfl⟩
  have ue_lt : ∀ e ∈ ue, e.v < e.u ∧ e.u < N := by
    intro e he
    obtain ⟨g, hg, rfl⟩ := List.mem_map.1 he
    obtain ⟨x, _, hx, h1, h2⟩ := hmerge g hg
    rw [h1, h2]; exact hlt x hx
  have ue_loop : LoopFree N ue := by
    intro e he
    have := ue_lt e he
    exact ⟨this.2, by omega, by omega⟩
  have ue_nodup : NoDuplicates ue := by
    unfold NoDuplicates
    rw [hue, List.pairwise_map]
    refine Gsorted.imp_of_mem ?_
    intro g h hg hh hlt'
    obtain ⟨x, hx, hxp, x1, x2⟩ := hmerge g hg
    obtain ⟨y, hy, hyp, y1, y2⟩ := hmerge h hh
    rw [x1, x2, y1, y2]
    have h1 := (hlt' x hx y hy).ne
    have h2 := hlt x hxp
    have h3 := hlt y hyp
    refine ⟨fun hh => h1 (pkey_eq.2 hh), fun hh => by omega⟩
  have ue_mem : ∀ u v, (∃ e ∈ ue, e.u = u ∧ e.v = v) ↔ (∃ e ∈ edges, ∃ f ∈ edges, e.v = f.v ∧ f.u < e.u ∧ e.u = u ∧ f.u = v) := by
    intro u v
    constructor
    · rintro ⟨e, he, rfl, rfl⟩
      obtain ⟨g, hg, rfl⟩ := List.mem_map.1 he
      obtain ⟨x, _, hx, h1, h2⟩ := hmerge g hg
      obtain ⟨e, he, f, hf, hv, hu, rfl⟩ := (hmem x).1 hx
      exact ⟨e, he, f, hf, hv, hu, h1.symm, h2.symm⟩
    · rintro ⟨e, he, f, hf, hv, hu, rfl, rfl⟩
      have hx := (hmem ⟨e.u, f.u, e.w * f.w⟩).2 ⟨e, he, f, hf, hv, hu, rfl⟩
      rw [← Gflat] at hx
      obtain ⟨g, hg, hxg⟩ := List.mem_flatten.1 hx
      refine ⟨merge g, List.mem_map.2 ⟨g, hg, rfl⟩, ?_⟩
      rw [merge_eq hxg (fun y hy => Gconst g hg y hy _ hxg)]
      exact ⟨rfl, rfl⟩
  -- counting
  obtain ⟨hc1, hc2⟩ := countLoop_spec junk proj [] proj.length (fun _ => 0) (by simp)
    (fun e he => by have := hlt e he; omega) le_rfl
  set c := countLoop junk (proj.length, fun _ => 0) proj with hc
  rw [← hG] at hc1 hc2
  rw [← hue] at hc2
  simp only [zero_add] at hc2
  have hE : c.1 = ue.length := by rw [hue, List.length_map]; omega
  -- positions
  have hidx := projIdx_loop c.2 { adj := CreateAdjaArray N c.1, idx := fun _ => 0 } N
  set s0 := (List.range N).foldl (projIdx c.2) ({ adj := CreateAdjaArray N c.1, idx := fun _ => 0 }, 0) with hs0
  simp only at hidx
  obtain ⟨_, i2, i3, i4, i5, i6, i7⟩ := hidx
  have htot : ∑ k ∈ Finset.range N, c.2 k = 2 * c.1 := by
    rw [Finset.sum_congr rfl fun k _ => hc2 k, degree_sum ue ue_loop, hE]
  have hlast : (CreateAdjaArray N c.1).idx N = 2 * c.1 := by simp [CreateAdjaArray]
  have hsucc : ∀ i < N, s0.1.adj.idx (i + 1) = s0.1.adj.idx i + (incident 1 i ue).length := by
    intro i hi
    rw [i2 i, if_pos hi, i2 (i + 1)]
    by_cases hlt : i + 1 < N
    · rw [if_pos hlt, Finset.sum_range_succ, hc2]
    · have he : i + 1 = N := by omega
      rw [if_neg hlt, he, hlast, ← htot, ← he, Finset.sum_range_succ, hc2]
  have hbound : ∀ i ≤ N, s0.1.adj.idx i ≤ 2 * c.1 := by
    intro i hi
    rw [i2]
    split_ifs with hlt
    · rw [← htot]
      exact Finset.sum_le_sum_of_subset_of_nonneg (Finset.range_subset_range.2 hi) (fun _ _ _ => Nat.zero_le _)
    · have : i = N := by omega
      rw [this, hlast]
  have hidxN : s0.1.adj.idx N = 2 * c.1 := by rw [i2, if_neg (by omega), hlast]
  have hinit : ProjInv N ue [] s0.1.adj.idx c.1 s0.1 := by
    refine ⟨rfl, i5, ?_, ?_, ?_⟩
    · intro i hi; rw [i3, i2, if_pos hi, if_pos hi]; simp [incident]
    · intro i _ k hk; simp [incident] at hk
    · intro i _ k _ _; rw [i7]; rfl
  obtain ⟨f, hf, hfi, hfN⟩ := put_loop ue_loop hsucc hbound ue [] s0.1 rfl hinit
  have hfill : projFill junk s0.1 proj = some f := by
    cases hpc : proj with
    | nil =>
      have : ue = [] := by rw [hue, hG, hpc]; rfl
      rw [this] at hf
      rw [projFill]; exact hf
    | cons a l =>
      have := projFill_spec junk l [] a s0.1 f (by simp) (by
        intro e he hcmp
        rw [← hpc] at he
        obtain ⟨e', he', f', hf', hv', _, rfl⟩ := (hmem e).1 he
        exact hj e' he' f' hf' hv' (pkey_eq.1 ((compare_zero _ _).1 hcmp))) (by rw [← hpc]; exact hf)
      rw [show wsum [] = 0 from rfl, addSlots_zero] at this
      exact this
  -- scaling
  have hscale := scale_loop (1 / t.fac1) (1 / t.fac2) t.p f.adj N
    (fun i hi => by rw [hfi.hidx, hsucc i hi]; omega) (by
      rw [hfi.hidx, i2]
      split_ifs with h0
      · simp
      · have : N = 0 := by omega
        have h2 : (CreateAdjaArray N c.1).idx 0 = 2 * c.1 := by rw [this]; simp [CreateAdjaArray]
        rw [h2, ← htot, this]; simp)
  set r := (List.range N).foldl (projScale (1 / t.fac1) (1 / t.fac2)) (t.p, f.adj) with hr
  simp only at hscale
  obtain ⟨r1, r2, r3, r4, r5, r6, r7, r8, r9, r10⟩ := hscale
  have rN : r.1.N = N := r1.trans (tN.trans rfl)
  have rM : r.1.M = N := r2.trans (tM.trans rfl)
  have aN : r.2.N = N := by rw [r6, hfN, i4]; rfl
  have aE : r.2.E = c.1 := r7.trans hfi.hE
  have aidx : r.2.idx = s0.1.adj.idx := r8.trans hfi.hidx
  have hrows : ∀ i < N, rowOf r.2 i = incident (projectionNorm edges) i ue := by
    intro i hi
    unfold rowOf
    rw [aidx, hsucc i hi, Nat.add_sub_cancel_left]
    refine List.ext_getElem (by simp [incident_length 1 (projectionNorm edges)]) ?_
    intro k h1 h2
    simp only [List.getElem_map, List.getElem_range', one_mul]
    have hk : k < (incident 1 i ue).length := by simpa using h1
    have hrow := hfi.row i hi k hk
    rw [r9, r10, if_pos (by
      rw [hfi.hidx, hidxN]
      have := hbound (i + 1) (by omega)
      rw [hsucc i hi] at this; omega)]
    have hsc : ∀ (W : ℚ) (l : List Edge), incident W i l = (incident 1 i l).map fun x => (x.1, x.2 * (1 / W)) := by
      intro W l
      induction l with
      | nil => rfl
      | cons e l ih => simp only [incident]; split_ifs <;> simp [ih] <;> ring
    have : (incident (projectionNorm edges) i ue)[k] = (((incident 1 i ue)[k]).1, ((incident 1 i ue)[k]).2 * (1 / projectionNorm edges)) := by
      simp only [hsc (projectionNorm edges) ue, List.getElem_map]
    rw [this, ← hrow, hf1]
  have hmono : ∀ i < N, r.2.idx i ≤ r.2.idx (i + 1) := by intro i hi; rw [aidx, hsucc i hi]; omega
  have hrep := represents_of_rows ue_loop ue_nodup hmono (by rw [aidx, aE]; exact hbound) hrows
  have hwm : ∀ i j, weightMatrix (projectionNorm edges) ue i j = if i = j then 0 else comembership edges i j / projectionNorm edges := by
    intro i j
    have h1 : weightMatrix (projectionNorm edges) ue i j = msum ue i j / projectionNorm edges := by
      unfold weightMatrix msum
      generalize ue = l
      induction l with
      | nil => simp
      | cons e l ih =>
        simp only [List.map_cons, List.sum_cons, ih]
        split_ifs <;> ring
    rw [h1]
    split_ifs with hij
    · subst hij
      have : msum ue i i = 0 := by
        apply List.sum_eq_zero
        intro x hx
        obtain ⟨e, he, rfl⟩ := List.mem_map.1 hx
        have := ue_lt e he
        rw [if_neg]; rintro (⟨h1, h2⟩ | ⟨h1, h2⟩) <;> omega
      rw [this, zero_div]
    · congr 1
      rw [hue, msum_runs G Gne Gconst, Gflat, ← msum_projected edges hij]
      exact (hpp.map _).sum_eq
  refine ⟨c.1, r.1, r.2, ?_, aE, aN.trans rN.symm, by rw [rN]; exact hN1, ?_, ?_, ?_, rM.trans rN.symm, ?_, ?_⟩
  · unfold ProjectBipartEdgeList
    rw [← hN]
    simp only [hcp, Option.bind_eq_bind, Option.bind_some, hproj, ← ht, ← hproj', ← hc, ← hs0]
    rw [if_neg (by rw [hEmax, hraw, proj_length]; omega)]
    simp only [hfill, Option.bind_some, ← hr]
    rfl
  · intro hne
    rw [rN]
    rcases hN2 with h | h
    · obtain ⟨e, he⟩ := List.exists_mem_of_ne_nil _ hne
      have := hN1 e he
      omega
    · exact h
  · intro i hi j
    rw [rN] at hi
    have h1 : (∃ s, r.2.idx i ≤ s ∧ s < r.2.idx (i + 1) ∧ r.2.neighbors s = j) ↔ j ∈ (rowOf r.2 i).map Prod.fst := by
      simp only [rowOf, List.map_map, List.mem_map, List.mem_range'_1, Function.comp_apply]
      constructor
      · rintro ⟨s, a, b, rfl⟩; exact ⟨s, ⟨a, by omega⟩, rfl⟩
      · rintro ⟨s, ⟨a, b⟩, rfl⟩; exact ⟨s, a, by omega, rfl⟩
    rw [h1, hrows i hi, mem_incident_iff (fun e he => (ue_loop e he).2.2)]
    have h2 : (∃ e ∈ ue, (e.u = i ∧ e.v = j) ∨ (e.v = i ∧ e.u = j)) ↔ (∃ e ∈ ue, e.u = i ∧ e.v = j) ∨ (∃ e ∈ ue, e.u = j ∧ e.v = i) := by
      constructor
      · rintro ⟨e, he, h | h⟩
        · exact Or.inl ⟨e, he, h⟩
        · exact Or.inr ⟨e, he, h.2, h.1⟩
      · rintro (⟨e, he, h⟩ | ⟨e, he, h⟩)
        · exact ⟨e, he, Or.inl h⟩
        · exact ⟨e, he, Or.inr ⟨h.2, h.1⟩⟩
    rw [h2, ue_mem, ue_mem]
    constructor
    · rintro (⟨e, he, f, hf, hv, hu, rfl, rfl⟩ | ⟨e, he, f, hf, hv, hu, rfl, rfl⟩)
      · exact ⟨by omega, e, he, f, hf, rfl, rfl, hv⟩
      · exact ⟨by omega, f, hf, e, he, rfl, rfl, hv.symm⟩
    · rintro ⟨hij, e, he, f, hf, rfl, rfl, hv⟩
      rcases Nat.lt_or_gt_of_ne hij with h | h
      · exact Or.inr ⟨f, hf, e, he, hv.symm, h, rfl, rfl⟩
      · exact Or.inl ⟨e, he, f, hf, hv, h, rfl, rfl⟩
  · rw [rN]
    have : (fun i j => if i = j then 0 else comembership edges i j / projectionNorm edges) = weightMatrix (projectionNorm edges) ue := by
      funext i j; rw [hwm]
    rw [this]; exact hrep
  · have hnode : ∀ i < N, r.1.nodes i = { p0.nodes i with strength := (r.1.nodes i).strength } := by
      intro i hi; rw [r5, if_pos hi, tn]
    refine ⟨by omega, ?_, ?_, ?_, ?_, ?_, ?_, ?_, ?_, ?_⟩
    · rw [r3, tE, rM]
    · intro i hi; rw [hnode i (by omega)]
    · intro i hi; rw [hnode i (by omega)]
    · intro i hi; rw [hnode i (by omega)]
    all_goals intro m _; rw [r4, tm]
  · intro i hi
    rw [rN] at hi
    unfold strengthOf
    rw [r5, if_pos hi, tn, hf2]
    simp only [hp0, zero_add]
    rw [show actorWeight (sortEdges edges) i = actorWeight edges i from ((sortEdges_perm edges).map _).sum_eq]
    ring

/-! ## What goes wrong -/

/-- Three actors, teams {0, 1} and {1, 2}. -/
def path : List Edge := [⟨0, 0, 1⟩, ⟨1, 0, 2⟩, ⟨1, 1, 3⟩, ⟨2, 1, 4⟩]

example : DistinctEdges path := by unfold DistinctEdges path; decide

example : comembership path 1 2 = 12 ∧ comembership path 0 1 = 2 ∧ comembership path 0 2 = 0 := by
  refine ⟨?_, ?_, ?_⟩ <;> decide +kernel

example : projectionNorm path = 29 := by decide +kernel

/-- Hypotheses of the theorem for this list. -/
example : ∀ e ∈ path, ∀ f ∈ path, e.v = f.v → ¬ (e.u = (⟨0, 0, ⟨7, 7, 0⟩⟩ : Junk).edge.u ∧ f.u = (⟨0, 0, ⟨7, 7, 0⟩⟩ : Junk).edge.v) := by
  unfold path; decide

/-- Rows of the array and strengths of the nodes. -/
def projRows (junk : Junk) (edges : List Edge) : Option (List (List (ℕ × ℚ)) × List ℚ) :=
  (ProjectBipartEdgeList junk edges).map fun r => ((List.range r.2.1.N).map (rowOf r.2.2), (List.range r.2.1.N).map fun i => (r.2.1.nodes i).strength)

example : projRows ⟨0, 0, ⟨7, 7, 0⟩⟩ path =
    some ([[(1, 2 / 29)], [(0, 2 / 29), (2, 12 / 29)], [(1, 12 / 29)]], [1 / 10, 5 / 10, 4 / 10]) := by decide +kernel

/-- **C12**, refuted: when the memory after the projected edges holds the end points of the last one, the targets of its
two slots are not written: actor 2 is linked to actor 0 instead of actor 1, and actor 1 twice to actor 0. -/
theorem C12_last_pair_lost : ∃ (junk : Junk) (edges : List Edge), DistinctEdges edges ∧ junk.strength = 0 ∧
    ∃ E p a, ProjectBipartEdgeList junk edges = some (E, p, a) ∧
      (∃ s, a.idx 2 ≤ s ∧ s < a.idx 3 ∧ a.neighbors s = 0) ∧ ¬ Linked edges 2 0 ∧
      Linked edges 2 1 ∧ ¬ (∃ s, a.idx 2 ≤ s ∧ s < a.idx 3 ∧ a.neighbors s = 1) := by
  refine ⟨⟨0, 0, ⟨2, 1, 0⟩⟩, path, by unfold DistinctEdges path; decide, rfl, _, _, _, rfl, ?_, ?_, ?_, ?_⟩
  · exact ⟨3, by decide +kernel, by decide +kernel, by decide +kernel⟩
  · rintro ⟨_, e, he, f, hf, h⟩
    revert e f
    unfold path; decide
  · exact ⟨by decide, ⟨2, 1, 4⟩, by simp [path], ⟨1, 1, 3⟩, by simp [path], rfl, rfl, rfl⟩
  · rintro ⟨s, h1, h2, h3⟩
    have e1 : s = 3 := by
      have a1 : 3 ≤ s := h1
      have a2 : s < 4 := h2
      omega
    subst e1
    revert h3
    decide +kernel

/-- **C12**, refuted: a value left in the variable `strength` changes the strengths of the nodes, which no longer add up to 1. -/
theorem C12_strength_not_set : ∃ (junk : Junk) (edges : List Edge), DistinctEdges edges ∧
    (∀ e ∈ edges, ∀ f ∈ edges, e.v = f.v → ¬ (e.u = junk.edge.u ∧ f.u = junk.edge.v)) ∧
    ∃ E p a, ProjectBipartEdgeList junk edges = some (E, p, a) ∧
      (p.nodes 0).strength + (p.nodes 1).strength + (p.nodes 2).strength ≠ 1 ∧ p.N = 3 := by
  refine ⟨⟨10, 0, ⟨7, 7, 0⟩⟩, path, by unfold DistinctEdges path; decide, by unfold path; decide, _, _, _, rfl, ?_, rfl⟩
  decide +kernel

end NC
