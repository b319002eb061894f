import Verif.Netcarto.File

/-! # C139: the table of roles -/

set_option linter.unusedSimpArgs false

namespace NCP

open NC RG FIO Finset Roles

variable {labels : List String} {p : Partition} {a : Adj} {V : Finset String} {A : String → String → ℚ} {k : String → ℚ}

theorem sum_groups (f : List String → ℚ) (G : List (List String)) :
    (G.map f).sum = ∑ m ∈ range G.length, f (G.getD m []) := by
  induction G with
  | nil => simp
  | cons g G ih => rw [List.map_cons, List.sum_cons, ih, List.length_cons, sum_range_succ']; simp [add_comm]

theorem erase_filter (s : Finset String) (x : String) : s.erase x = s.filter (· ≠ x) := by
  ext y; simp [and_comm]

theorem group_image (hN : p.N = labels.length) {G : List (List String)} (hG : Clustering labels.toFinset G)
    (hin : ∀ i < p.N, ∀ m, nm labels i ∈ G.getD m [] ↔ labelOf p i = m) (m : ℕ) :
    (G.getD m []).toFinset = (nodesOf p m).image (nm labels) := by
  ext x
  rw [List.mem_toFinset, mem_image]
  constructor
  · intro hx
    have hxV : x ∈ labels := by
      rw [← List.mem_toFinset, ← hG.mem]
      by_cases hm : m < G.length
      · refine List.mem_flatten.2 ⟨_, List.getElem_mem hm, ?_⟩
        simpa [List.getD_eq_getElem?_getD, hm] using hx
      · simp [List.getD_eq_getElem?_getD, hm] at hx
    obtain ⟨i, hi, rfl⟩ := exists_nm hxV
    rw [← hN] at hi
    exact ⟨i, mem_filter.2 ⟨mem_range.2 hi, (hin i hi m).1 hx⟩, rfl⟩
  · rintro ⟨i, hi, rfl⟩
    obtain ⟨h1, h2⟩ := mem_filter.1 hi
    exact (hin i (mem_range.1 h1) m).2 h2

theorem sum_image_nm (hn : labels.Nodup) (hN : p.N = labels.length) (f : String → ℚ) (m : ℕ) :
    ∑ y ∈ (nodesOf p m).image (nm labels), f y = ∑ i ∈ nodesOf p m, f (nm labels i) := by
  apply sum_image
  intro i hi j hj e
  exact (nm_inj hn (by rw [← hN]; exact mem_range.1 (mem_filter.1 hi).1) (by rw [← hN]; exact mem_range.1 (mem_filter.1 hj).1)).1 e

/-- The table printed for a partition, and what it says. -/
theorem table_spec (hn : labels.Nodup) {A' : ℕ → ℕ → ℚ} (hp : Consistent p) (hN : p.N = labels.length) (haN : a.N = p.N)
    (ha : Represents a p.N A') (hA : ∀ i < p.N, ∀ j < p.N, i ≠ j → A' i j = A (nm labels i) (nm labels j)) (hA0 : ∀ i < p.N, A' i i = 0)
    {G : List (List String)} (hG : Clustering labels.toFinset G) (hlen : G.length = p.M)
    (hin : ∀ i < p.N, ∀ m, nm labels i ∈ G.getD m [] ↔ labelOf p i = m) :
    ∃ rows : List Row, table labels p a = some rows ∧ rows.length = labels.length ∧ ∀ (i : ℕ) (x : String), labels[i]? = some x → ∃ row : Row, rows[i]? = some row ∧
      row.label = x.toList ∧ x ∈ G.getD row.module [] ∧ row.connectivity = zscore A (G.getD row.module []).toFinset x ∧
      (toGroup A x labels.toFinset ≠ 0 → row.participation = some (participation labels.toFinset A G x) ∧
        row.role = GetRole (participation labels.toFinset A G x : ℚ) row.connectivity + 1) := by
  obtain ⟨r, e, -, r2, r3⟩ := C11_values hp haN ha (fun _ => 0)
  have himg := group_image hN hG hin
  have hlt : ∀ m, ∀ i ∈ nodesOf p m, i < p.N := fun m i hi => mem_range.1 (mem_filter.1 hi).1
  -- weights towards the groups
  have hto : ∀ i < p.N, ∀ m, toModule p.N A' (labelOf p) i m = toGroup A (nm labels i) (G.getD m []).toFinset := by
    intro i hi m
    have h1 : toModule p.N A' (labelOf p) i m = ∑ j ∈ nodesOf p m, A' i j := by
      unfold toModule nodesOf
      rw [sum_filter]
    rw [h1, toGroup, himg m, erase_filter, sum_filter, sum_image_nm hn hN]
    apply sum_congr rfl
    intro j hj
    have hj' := hlt m j hj
    have e1 : (nm labels j ≠ nm labels i) ↔ j ≠ i := not_congr (nm_inj hn (by omega) (by omega))
    by_cases c : j = i
    · subst c; rw [if_neg (by simp), hA0 j hi]
    · rw [if_pos (e1.2 c), hA i hi j hj' (Ne.symm c)]
  have hall : ∀ i < p.N, ∑ j ∈ range p.N, A' i j = toGroup A (nm labels i) labels.toFinset := by
    intro i hi
    rw [toGroup, erase_filter, sum_filter, sum_labels hn, hN]
    apply sum_congr rfl
    intro j hj
    have hj' := mem_range.1 hj
    have e1 : (nm labels j ≠ nm labels i) ↔ j ≠ i := not_congr (nm_inj hn (by omega) (by omega))
    by_cases c : j = i
    · subst c; rw [if_neg (by simp), hA0 j hi]
    · rw [if_pos (e1.2 c), hA i hi j (by omega) (Ne.symm c)]
  have hmean : ∀ m, meanOf p A' m = meanWithin A (G.getD m []).toFinset := by
    intro m
    unfold meanOf meanWithin
    rw [himg m, sum_image_nm hn hN, card_image_of_injOn (fun i hi j hj e =>
      (nm_inj hn (by rw [← hN]; exact hlt m i hi) (by rw [← hN]; exact hlt m j hj)).1 e)]
    congr 1
    apply sum_congr rfl
    intro i hi
    rw [within, hto i (hlt m i hi), (mem_filter.1 hi).2, himg m]
  have hwith : ∀ m, ∀ i ∈ nodesOf p m, within p A' i = toGroup A (nm labels i) (G.getD m []).toFinset := by
    intro m i hi
    rw [within, hto i (hlt m i hi), (mem_filter.1 hi).2]
  have hz : ∀ i < p.N, r.connectivity i = zscore A (G.getD (labelOf p i) []).toFinset (nm labels i) := by
    intro i hi
    have hi' : i ∈ nodesOf p (labelOf p i) := mem_filter.2 ⟨mem_range.2 hi, rfl⟩
    rw [r3 i hi, zscore]
    have hc : (∀ j ∈ nodesOf p (labelOf p i), within p A' j = meanOf p A' (labelOf p i)) ↔
        ∀ y ∈ (G.getD (labelOf p i) []).toFinset, toGroup A y (G.getD (labelOf p i) []).toFinset = meanWithin A (G.getD (labelOf p i) []).toFinset := by
      constructor
      · intro h y hy
        have hy' := hy
        rw [himg (labelOf p i), mem_image] at hy'
        obtain ⟨j, hj, rfl⟩ := hy'
        rw [← hwith _ j hj, h j hj, hmean]
      · intro h j hj
        rw [hwith _ j hj, hmean]
        exact h _ (by rw [himg (labelOf p i)]; exact mem_image_of_mem _ hj)
    have hd : (∑ j ∈ nodesOf p (labelOf p i), (within p A' j - meanOf p A' (labelOf p i)) ^ 2) / (nodesOf p (labelOf p i)).card =
        devWithin A (G.getD (labelOf p i) []).toFinset / (G.getD (labelOf p i) []).toFinset.card := by
      have hcard : (G.getD (labelOf p i) []).toFinset.card = (nodesOf p (labelOf p i)).card := by
        rw [himg (labelOf p i)]
        exact card_image_of_injOn (fun i' hi j hj e => (nm_inj hn (by rw [← hN]; exact hlt _ i' hi) (by rw [← hN]; exact hlt _ j hj)).1 e)
      rw [hcard]
      congr 1
      unfold devWithin
      have e2 : ∑ y ∈ (G.getD (labelOf p i) []).toFinset, (toGroup A y (G.getD (labelOf p i) []).toFinset - meanWithin A (G.getD (labelOf p i) []).toFinset) ^ 2 =
          ∑ j ∈ nodesOf p (labelOf p i), (toGroup A (nm labels j) (G.getD (labelOf p i) []).toFinset - meanWithin A (G.getD (labelOf p i) []).toFinset) ^ 2 := by
        conv_lhs => rw [himg (labelOf p i)]
        rw [sum_image_nm hn hN]
        rw [← himg (labelOf p i)]
      rw [e2]
      apply sum_congr rfl
      intro j hj
      rw [hwith _ j hj, hmean]
    rw [hd, if_congr hc rfl rfl, hwith _ i hi', hmean]
  have hpart : ∀ i < p.N, toGroup A (nm labels i) labels.toFinset ≠ 0 →
      r.participation i = some (participation labels.toFinset A G (nm labels i)) := by
    intro i hi hne
    have hs := hall i hi
    have hidx : a.idx i ≠ a.idx (i + 1) := by
      intro h0
      apply hne
      rw [← hs]
      apply sum_eq_zero
      intro j hj
      exact ha.absent i hi j (mem_range.1 hj) (fun s h1 h2 => by omega)
    rw [r2 i hi hidx rfl (by rw [hs]; exact hne), participation, sum_groups, hlen]
    congr 2
    apply sum_congr rfl
    intro m _
    rw [hto i hi, hs]
  refine ⟨_, by unfold table; rw [e]; rfl, by simp [hN], ?_⟩
  intro i x hx
  have hi : i < labels.length := by
    by_contra h
    rw [List.getElem?_eq_none (by omega)] at hx
    simp at hx
  have hx' : nm labels i = x := by rw [nm_eq hi] at hx; exact Option.some.inj hx
  have hi' : i < p.N := by omega
  refine ⟨_, by rw [List.getElem?_map, List.getElem?_range hi', Option.map_some], ?_, ?_, ?_, ?_⟩
  · rw [← hx']; rfl
  · rw [← hx']; exact (hin i hi' _).2 rfl
  · rw [← hx']; exact hz i hi'
  · intro hne
    rw [← hx'] at hne ⊢
    refine ⟨hpart i hi' hne, ?_⟩
    show roleOf (r.participation i) (r.connectivity i) + 1 = _
    rw [hpart i hi' hne]
    rfl

theorem roles_spec {o : Options} {junk : Junk} {strtod : String → Option ℚ} {lns : List (List String)}
    (hl : load o junk strtod lns = some (labels, p, a)) (hL : Loaded labels p a V A k) {t : Tape} {q qd : ℚ} {rows : List Row}
    (h : netcartoRoles o junk strtod lns t = .ok (q, qd, rows)) :
    ∃ (G : List (List String)) (names : List String), Clustering V G ∧ q = newman V A k G ∧ qd = newman V A k G - ∑ x ∈ V, k x * k x ∧
      names.Nodup ∧ names.toFinset = V ∧ rows.length = names.length ∧
      ∀ (i : ℕ) (x : String), names[i]? = some x → ∃ row : Row, rows[i]? = some row ∧
        row.label = x.toList ∧ x ∈ G.getD row.module [] ∧ row.connectivity = zscore A (G.getD row.module []).toFinset x ∧
        (toGroup A x V ≠ 0 → row.participation = some (participation V A G x) ∧
          row.role = GetRole (participation V A G x : ℚ) row.connectivity + 1) := by
  unfold netcartoRoles at h
  rw [hl] at h
  simp only [Res.ofOption_some, Res.bind_ok] at h
  cases hc : cluster o labels.length p a t with
  | starved => rw [hc] at h; simp at h
  | ub => rw [hc] at h; simp at h
  | ok p' =>
    rw [hc] at h
    simp only [Res.bind_ok] at h
    obtain ⟨g1, g2, g3, g4⟩ := (cluster_spec hL o t).1 p' hc
    obtain ⟨A', ha, hA, hA0⟩ := hL.repr
    rw [← g2] at ha hA hA0
    obtain ⟨G, r1, r2, r3, r4⟩ := report_spec hL.nodup g1 (by rw [g2, hL.N]) g3 ha (A := A) (k := k) hA
      (fun i hi => by rw [g4 i hi]; exact hL.strength i (g2 ▸ hi))
    obtain ⟨rows', t1, t2, t3⟩ := table_spec hL.nodup g1 (by rw [g2, hL.N]) (by rw [g2]; exact hL.aN) ha hA hA0 r1 r2 r3
    rw [hL.set] at r1 r4 t3
    unfold report at r4
    rw [t1] at h
    cases h1 : PartitionModularity p' a false with
    | none => rw [h1] at h; simp at h
    | some x =>
      cases h2 : PartitionModularity p' a true with
      | none => rw [h1, h2] at h; simp at h
      | some y =>
        rw [h1, h2] at h r4
        simp only [Res.ofOption_some, Res.bind_ok, Res.pure_eq, Res.ok.injEq, Prod.mk.injEq] at h
        obtain ⟨rfl, rfl, rfl⟩ := h
        simp only [Option.bind_eq_bind, Option.bind_some, Option.bind_eq_some_iff, Option.pure_def, Option.some.injEq,
          Printed.mk.injEq] at r4
        obtain ⟨_, _, e1, e2, _⟩ := r4
        exact ⟨G, labels, r1, e1, e2, hL.nodup, hL.set, t2, t3⟩

/-- **C139**, partial: with `-r` the program prints, for the modules of one clustering `G` of the labels whose modularity it prints, a line
for each label with the number of its module, the within-module z-score, the participation coefficient, and the role of the
published table. Missing: that it prints at all (`C137_crash`), and labels whose weights add up to 0. -/
theorem C139_roles_partial {o : Options} (hb : o.bipartite = false) (hi : o.invert = false) {junk : Junk} {strtod : String → Option ℚ}
    {lns : List (List String)} {recs : List Rec} (h : List.Forall₂ (Line o.weighted strtod) lns recs) (hs : Simple recs)
    (ht : total recs ≠ 0) {t : Tape} {q qd : ℚ} {rows : List Row} (hr : netcartoRoles o junk strtod lns t = .ok (q, qd, rows)) :
    ∃ (G : List (List String)) (names : List String), Clustering (nodes recs) G ∧ q = newman (nodes recs) (link recs) (strength recs) G ∧
      qd = newman (nodes recs) (link recs) (strength recs) G - ∑ x ∈ nodes recs, strength recs x * strength recs x ∧
      names.Nodup ∧ names.toFinset = nodes recs ∧ rows.length = names.length ∧
      ∀ (i : ℕ) (x : String), names[i]? = some x → ∃ row : Row, rows[i]? = some row ∧
        row.label = x.toList ∧ x ∈ G.getD row.module [] ∧ row.connectivity = zscore (link recs) (G.getD row.module []).toFinset x ∧
        (toGroup (link recs) x (nodes recs) ≠ 0 → row.participation = some (participation (nodes recs) (link recs) G x) ∧
          row.role = GetRole (participation (nodes recs) (link recs) G x : ℚ) row.connectivity + 1) := by
  have hne : recs ≠ [] := by rintro rfl; simp [total] at ht
  obtain ⟨labels, p, a, hl, hL⟩ := load_uni hb hi (junk := junk) h hs hne
  exact roles_spec hl hL hr

/-- **C139**, partial (bipartite networks): the same for the projected network. -/
theorem C139_bipartite_partial {o : Options} (hb : o.bipartite = true) {junk : Junk} {strtod : String → Option ℚ}
    {lns : List (List String)} {recs : List Rec} (h : List.Forall₂ (Line o.weighted strtod) lns recs)
    (hs : Distinct (columns o.invert recs)) (ht : total recs ≠ 0) (hj0 : junk.strength = 0)
    (hj : (actors (columns o.invert recs)).card ≤ junk.edge.u) {t : Tape} {q qd : ℚ} {rows : List Row}
    (hr : netcartoRoles o junk strtod lns t = .ok (q, qd, rows)) :
    let R := columns o.invert recs
    ∃ (G : List (List String)) (names : List String), Clustering (actors R) G ∧ q = newman (actors R) (coLink R) (actorShare R) G ∧
      qd = newman (actors R) (coLink R) (actorShare R) G - ∑ x ∈ actors R, actorShare R x * actorShare R x ∧
      names.Nodup ∧ names.toFinset = actors R ∧ rows.length = names.length ∧
      ∀ (i : ℕ) (x : String), names[i]? = some x → ∃ row : Row, rows[i]? = some row ∧
        row.label = x.toList ∧ x ∈ G.getD row.module [] ∧ row.connectivity = zscore (coLink R) (G.getD row.module []).toFinset x ∧
        (toGroup (coLink R) x (actors R) ≠ 0 → row.participation = some (participation (actors R) (coLink R) G x) ∧
          row.role = GetRole (participation (actors R) (coLink R) G x : ℚ) row.connectivity + 1) := by
  have hne : recs ≠ [] := by rintro rfl; simp [total] at ht
  obtain ⟨labels, p, a, hl, hL⟩ := load_bi hb h hs hne hj0 hj
  exact roles_spec hl hL hr

/-- **C139**: with `-r` the program prints whenever it prints without, and the same modularities. -/
theorem C139_prints {o : Options} (hb : o.bipartite = false) (hi : o.invert = false) {junk : Junk} {strtod : String → Option ℚ}
    {lns : List (List String)} {recs : List Rec} (h : List.Forall₂ (Line o.weighted strtod) lns recs) (hs : Simple recs)
    (ht : total recs ≠ 0) {t : Tape} {out : Printed} (hr : netcarto o junk strtod lns t = .ok out) :
    ∃ rows, netcartoRoles o junk strtod lns t = .ok (out.modularity, out.modularityDiag, rows) := by
  have hne : recs ≠ [] := by rintro rfl; simp [total] at ht
  obtain ⟨labels, p, a, hl, hL⟩ := load_uni hb hi (junk := junk) h hs hne
  unfold netcarto at hr
  unfold netcartoRoles
  rw [hl] at hr ⊢
  simp only [Res.ofOption_some, Res.bind_ok] at hr ⊢
  cases hc : cluster o labels.length p a t with
  | starved => rw [hc] at hr; simp at hr
  | ub => rw [hc] at hr; simp at hr
  | ok p' =>
    rw [hc] at hr
    simp only [Res.bind_ok] at hr ⊢
    obtain ⟨g1, g2, g3, g4⟩ := (cluster_spec hL o t).1 p' hc
    obtain ⟨A', ha, hA, hA0⟩ := hL.repr
    rw [← g2] at ha hA hA0
    obtain ⟨r, e, -⟩ := C11_values g1 (by rw [g2]; exact hL.aN) ha (fun _ => 0)
    have e1 := C04_modularity g1 ha false
    have e2 := C04_modularity g1 ha true
    obtain ⟨seq, hw⟩ := g1.wf
    have e4 := output_eq hw (label labels)
    unfold report at hr
    unfold table
    simp only [e1, e2, e4, e, Option.bind_eq_bind, Option.bind_some, Option.pure_def, Res.ofOption_some, Res.ok.injEq,
      Res.bind_ok, Res.pure_eq, Prod.mk.injEq] at hr ⊢
    rw [← hr]
    exact ⟨_, rfl, rfl, rfl⟩

/-- The label `c` of the triangle with a pendant node: two thirds of its weight goes to the group of `a` and `b`. -/
example : participation (nodes triangle) (link triangle) [["c", "d"], ["b", "a"]] "c" = 4 / 9 ∧
    toGroup (link triangle) "c" (nodes triangle) ≠ 0 := by
  have h1 : toGroup (link triangle) "c" (nodes triangle) = 3 / 8 := by decide +kernel
  have h2 : toGroup (link triangle) "c" ["c", "d"].toFinset = 1 / 8 := by decide +kernel
  have h3 : toGroup (link triangle) "c" ["b", "a"].toFinset = 2 / 8 := by decide +kernel
  constructor
  · simp only [participation, List.map_cons, List.map_nil, List.sum_cons, List.sum_nil, h1, h2, h3]; norm_num
  · rw [h1]; norm_num

end NCP
