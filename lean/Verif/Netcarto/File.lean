import Verif.Netcarto.Props

/-! # C138, C139: `netcarto` with a partition file and with roles -/

set_option linter.unusedSimpArgs false

namespace NCP

open NC RG FIO Finset

variable {labels : List String} {p : Partition} {a : Adj} {V : Finset String} {A : String → String → ℚ} {k : String → ℚ}

theorem newman_congr {G G' : List (List String)} (h : ∀ m x, x ∈ V → (x ∈ G'.getD m [] ↔ x ∈ G.getD m [])) :
    newman V A k G' = newman V A k G := by
  have key : ∀ (G : List (List String)) (x y : String), (∃ g ∈ G, x ∈ g ∧ y ∈ g) ↔ ∃ m, x ∈ G.getD m [] ∧ y ∈ G.getD m [] := by
    intro G x y
    constructor
    · rintro ⟨g, hg, h1, h2⟩
      obtain ⟨m, hm, rfl⟩ := List.getElem_of_mem hg
      exact ⟨m, by simpa [List.getD_eq_getElem?_getD, hm] using h1, by simpa [List.getD_eq_getElem?_getD, hm] using h2⟩
    · rintro ⟨m, h1, h2⟩
      by_cases hm : m < G.length
      · refine ⟨G[m], List.getElem_mem hm, ?_, ?_⟩
        · simpa [List.getD_eq_getElem?_getD, hm] using h1
        · simpa [List.getD_eq_getElem?_getD, hm] using h2
      · simp [List.getD_eq_getElem?_getD, hm] at h1
  unfold newman
  refine sum_congr rfl fun x hx => sum_congr rfl fun y hy => ?_
  have : (∃ g ∈ G', x ∈ g ∧ y ∈ g) ↔ ∃ g ∈ G, x ∈ g ∧ y ∈ g := by
    rw [key, key]
    exact exists_congr fun m => by rw [h m x hx, h m y hy]
  by_cases c : x ≠ y ∧ ∃ g ∈ G, x ∈ g ∧ y ∈ g
  · rw [if_pos c, if_pos ⟨c.1, this.2 c.2⟩]
  · rw [if_neg c, if_neg fun h' => c ⟨h'.1, this.1 h'.2⟩]

theorem file_spec {o : Options} {junk : Junk} {strtod : String → Option ℚ} {lns : List (List String)}
    (hl : load o junk strtod lns = some (labels, p, a)) (hL : Loaded labels p a V A k) {G : List (List String)} (hG : Clustering V G)
    (hgood : ∀ x ∈ V, GoodLabel x.toList) :
    ∃ G', Clustering V G' ∧ G'.length = G.length ∧ (∀ m x, x ∈ G'.getD m [] ↔ x ∈ G.getD m []) ∧
      netcartoFile o junk strtod lns (FIO.lines (G.map (·.map String.toList))) = .ok (0, G.length,
        ⟨newman V A k G, newman V A k G - ∑ x ∈ V, k x * k x, clusterLines G'⟩) := by
  have hV : ∀ x, x ∈ V ↔ x ∈ labels := fun x => by rw [← hL.set, List.mem_toFinset]
  have hn := hL.nodup
  have hidx : ∀ x ∈ V, labels.idxOf x < labels.length ∧ nm labels (labels.idxOf x) = x := by
    intro x hx
    have h1 := List.idxOf_lt_length_iff.2 ((hV x).1 hx)
    refine ⟨h1, ?_⟩
    have h2 := nm_eq h1
    rw [List.getElem?_eq_getElem h1, List.getElem_idxOf] at h2
    exact (Option.some.inj h2).symm
  have hmemV : ∀ g ∈ G, ∀ x ∈ g, x ∈ V := fun g hg x hx => (hG.mem x).1 (List.mem_flatten.2 ⟨g, hg, hx⟩)
  set I := G.map (·.map fun x => labels.idxOf x) with hI
  have hflat : I.flatten = G.flatten.map fun x => labels.idxOf x := by rw [hI, List.map_flatten]
  have hlab : ∀ x ∈ V, label labels (labels.idxOf x) = x.toList := fun x hx => by
    have := (hidx x hx).2
    unfold label
    unfold nm at this
    rw [this]
  have hback : I.map (·.map (label labels)) = G.map (·.map String.toList) := by
    rw [hI, List.map_map]
    apply List.map_congr_left
    intro g hg
    simp only [Function.comp, List.map_map]
    apply List.map_congr_left
    intro x hx
    exact hlab x (hmemV g hg x hx)
  have hGV : ∀ x ∈ G.flatten, x ∈ V := fun x hx => (hG.mem x).1 hx
  obtain ⟨p', e1, e2, e3, e4, e5, e6⟩ := C14_read_partial (labels := label labels) (p := p) hL.fresh hL.pos (by
      intro i hi j hj e
      rw [hL.N] at hi hj
      exact (nm_inj hn hi hj).1 (String.toList_injective e)) (by
      intro i hi
      rw [hL.N] at hi
      exact hgood (nm labels i) ((hV _).2 (nm_mem hi))) (G := I) (by
      intro g hg
      obtain ⟨g', hg', rfl⟩ := List.mem_map.1 hg
      simpa using hG.nonempty g' hg') (by
      rw [hflat]
      apply List.Nodup.map_on _ hG.nodup
      intro x hx y hy e
      have h1 := (hidx x (hGV x hx)).2
      rw [e, (hidx y (hGV y hy)).2] at h1
      exact h1.symm) (by
      intro i
      rw [hflat, List.mem_map]
      constructor
      · rintro ⟨x, hx, rfl⟩
        rw [hL.N]; exact (hidx x (hGV x hx)).1
      · intro hi
        rw [hL.N] at hi
        have hx : nm labels i ∈ V := (hV _).2 (nm_mem hi)
        refine ⟨nm labels i, (hG.mem _).2 hx, ?_⟩
        exact (nm_inj hn (hidx _ hx).1 hi).1 (hidx _ hx).2) (by
      rw [hI, List.length_map, hL.M]
      have hcard : G.flatten.length = p.N := by
        have : G.flatten.toFinset = labels.toFinset := by
          ext x; rw [List.mem_toFinset, hG.mem, hL.set]
        have h2 := List.toFinset_card_of_nodup hG.nodup
        rw [this, List.toFinset_card_of_nodup hn] at h2
        rw [hL.N, ← h2]
      rw [← hcard, List.length_flatten]
      have : ∀ G : List (List String), (∀ g ∈ G, g ≠ []) → G.length ≤ (G.map List.length).sum := by
        intro G
        induction G with
        | nil => simp
        | cons g G ih =>
          intro h
          have h1 := ih fun g' hg' => h g' (by simp [hg'])
          have h2 := List.length_pos_iff.2 (h g (by simp))
          simp only [List.length_cons, List.map_cons, List.sum_cons]
          omega
      exact this G hG.nonempty)
  rw [hback] at e1
  have hIlen : I.length = G.length := by rw [hI, List.length_map]
  have hline : ∀ m x, x ∈ G.getD m [] → labelOf p' (labels.idxOf x) = m := by
    intro m x hx
    by_cases hm : m < G.length
    · refine e5 m ((G[m]).map fun x => labels.idxOf x) (by simp [hI, hm]) _ (List.mem_map.2 ⟨x, ?_, rfl⟩)
      simpa [List.getD_eq_getElem?_getD, hm] using hx
    · simp [List.getD_eq_getElem?_getD, hm] at hx
  have hGm : ∀ m x, x ∈ G.getD m [] → x ∈ V := by
    intro m x hx
    by_cases hm : m < G.length
    · exact hmemV _ (List.getElem_mem hm) x (by simpa [List.getD_eq_getElem?_getD, hm] using hx)
    · simp [List.getD_eq_getElem?_getD, hm] at hx
  obtain ⟨A', ha, hA, -⟩ := hL.repr
  obtain ⟨G', r1, r2, r3, r4⟩ := report_spec hn e2 (by rw [e3, hL.N]) (by
      intro m hm
      rw [e4, hIlen] at hm
      obtain ⟨x, hx⟩ := List.exists_mem_of_ne_nil _ (hG.nonempty _ (List.getElem_mem hm))
      have hxV := hmemV _ (List.getElem_mem hm) x hx
      refine ⟨labels.idxOf x, by rw [e3, hL.N]; exact (hidx x hxV).1, hline m x ?_⟩
      simpa [List.getD_eq_getElem?_getD, hm] using hx) (e3.symm ▸ ha) (A := A) (k := k) (by rw [e3]; exact hA)
      (fun i hi => by rw [e6 i (e3 ▸ hi)]; exact hL.strength i (e3 ▸ hi))
  rw [hL.set] at r1 r4
  have hsame : ∀ m x, x ∈ G'.getD m [] ↔ x ∈ G.getD m [] := by
    intro m x
    have hfwd : ∀ x ∈ V, (x ∈ G'.getD m [] ↔ labelOf p' (labels.idxOf x) = m) := by
      intro x hx
      have := r3 (labels.idxOf x) (by rw [e3, hL.N]; exact (hidx x hx).1) m
      rwa [(hidx x hx).2] at this
    constructor
    · intro hx
      have hxV : x ∈ V := by
        by_cases hm : m < G'.length
        · refine (r1.mem x).1 (List.mem_flatten.2 ⟨_, List.getElem_mem hm, ?_⟩)
          simpa [List.getD_eq_getElem?_getD, hm] using hx
        · simp [List.getD_eq_getElem?_getD, hm] at hx
      have h1 := (hfwd x hxV).1 hx
      obtain ⟨g, hg, hxg⟩ := List.mem_flatten.1 ((hG.mem x).2 hxV)
      obtain ⟨m', hm', rfl⟩ := List.getElem_of_mem hg
      have h2 := hline m' x (by simpa [List.getD_eq_getElem?_getD, hm'] using hxg)
      rw [h1] at h2
      subst h2
      simpa [List.getD_eq_getElem?_getD, hm'] using hxg
    · intro hx
      exact (hfwd x (hGm m x hx)).2 (hline m x hx)
  refine ⟨G', r1, by rw [r2, e4, hIlen], hsame, ?_⟩
  have hq : newman V A k G' = newman V A k G := newman_congr fun m x _ => hsame m x
  unfold netcartoFile
  rw [hl]
  simp only [Rd.ofOption, Rd.bind, e1, r4, hq]
  rw [e4, hIlen]

/-- **C138**, partial: the full claim is that `-p` reads every clustering file, in particular the clusterings that the program
writes; those it cannot read (`C138_own_output`). For every clean file (labels separated by tabulations, no separator at the end of the
lines) with a clustering `G` of the labels of a simple network, the program reports no missing node, the number of groups, and the modularity
of `G`; and prints the groups in the same order. -/
theorem C138_file_partial {o : Options} (hb : o.bipartite = false) (hi : o.invert = false) (junk : Junk) {strtod : String → Option ℚ}
    {lns : List (List String)} {recs : List Rec} (h : List.Forall₂ (Line o.weighted strtod) lns recs) (hs : Simple recs)
    (ht : total recs ≠ 0) {G : List (List String)} (hG : Clustering (nodes recs) G) (hgood : ∀ x ∈ nodes recs, GoodLabel x.toList) :
    ∃ out G', netcartoFile o junk strtod lns (FIO.lines (G.map (·.map String.toList))) = .ok (0, G.length, out) ∧
      out.modularity = newman (nodes recs) (link recs) (strength recs) G ∧
      out.modularityDiag = newman (nodes recs) (link recs) (strength recs) G - ∑ x ∈ nodes recs, strength recs x ^ 2 ∧
      out.text = clusterLines G' ∧ Clustering (nodes recs) G' ∧ G'.length = G.length ∧ ∀ m x, x ∈ G'.getD m [] ↔ x ∈ G.getD m [] := by
  have hne : recs ≠ [] := by rintro rfl; simp [total] at ht
  obtain ⟨labels, p, a, hl, hL⟩ := load_uni hb hi (junk := junk) h hs hne
  obtain ⟨G', g1, g2, g3, g4⟩ := file_spec hl hL hG hgood
  exact ⟨_, G', g4, rfl, by simp only [sq], rfl, g1, g2, g3⟩

/-- **C138**, partial (bipartite networks): the same for the projected network. -/
theorem C138_bipartite_partial {o : Options} (hb : o.bipartite = true) {junk : Junk} {strtod : String → Option ℚ}
    {lns : List (List String)} {recs : List Rec} (h : List.Forall₂ (Line o.weighted strtod) lns recs)
    (hs : Distinct (columns o.invert recs)) (ht : total recs ≠ 0) (hj0 : junk.strength = 0)
    (hj : (actors (columns o.invert recs)).card ≤ junk.edge.u) {G : List (List String)}
    (hG : Clustering (actors (columns o.invert recs)) G) (hgood : ∀ x ∈ actors (columns o.invert recs), GoodLabel x.toList) :
    ∃ out G', netcartoFile o junk strtod lns (FIO.lines (G.map (·.map String.toList))) = .ok (0, G.length, out) ∧
      out.modularity = newman (actors (columns o.invert recs)) (coLink (columns o.invert recs)) (actorShare (columns o.invert recs)) G ∧
      out.modularityDiag = newman (actors (columns o.invert recs)) (coLink (columns o.invert recs)) (actorShare (columns o.invert recs)) G -
        ∑ x ∈ actors (columns o.invert recs), actorShare (columns o.invert recs) x ^ 2 ∧
      out.text = clusterLines G' ∧ Clustering (actors (columns o.invert recs)) G' ∧ G'.length = G.length ∧
      ∀ m x, x ∈ G'.getD m [] ↔ x ∈ G.getD m [] := by
  have hne : recs ≠ [] := by rintro rfl; simp [total] at ht
  obtain ⟨labels, p, a, hl, hL⟩ := load_bi hb h hs hne hj0 hj
  obtain ⟨G', g1, g2, g3, g4⟩ := file_spec hl hL hG hgood
  exact ⟨_, G', g4, rfl, by simp only [sq], rfl, g1, g2, g3⟩

/-- **C138**, refuted: the clustering that the program has printed for a simple network, given to the program with `-p`, crashes
it, for the same or any other network that can be loaded. -/
theorem C138_own_output {o : Options} (hb : o.bipartite = false) (hi : o.invert = false) (junk : Junk) {strtod : String → Option ℚ}
    {lns : List (List String)} {recs : List Rec} (h : List.Forall₂ (Line o.weighted strtod) lns recs) (hs : Simple recs)
    (ht : total recs ≠ 0) (hgood : ∀ x ∈ nodes recs, GoodLabel x.toList) {t : Tape} {out : Printed}
    (hout : netcarto o junk strtod lns t = .ok out) (o' : Options) (junk' : Junk) (strtod' : String → Option ℚ)
    (lns' : List (List String)) : netcartoFile o' junk' strtod' lns' out.text = .ub := by
  have hne : recs ≠ [] := by rintro rfl; simp [total] at ht
  obtain ⟨labels, p, a, hl, hL⟩ := load_uni hb hi (junk := junk) h hs hne
  unfold netcarto at hout
  rw [hl] at hout
  simp only [Res.ofOption_some, Res.bind_ok] at hout
  cases hc : cluster o labels.length p a t with
  | starved => rw [hc] at hout; simp at hout
  | ub => rw [hc] at hout; simp at hout
  | ok p' =>
    rw [hc] at hout
    obtain ⟨g1, g2, g3, -⟩ := (cluster_spec hL o t).1 p' hc
    have hM : 0 < p'.M := by have := g1.label 0 (by rw [g2]; exact hL.pos); omega
    have key : ∀ q labels', AssignNodesToModulesFromFile out.text q labels' = .ub := by
      intro q labels'
      obtain ⟨s, e1, e2, -⟩ := C14_round_trip_fails g1 (by rw [g2]; exact hL.pos) (labels := label labels) (by
        intro i hi
        rw [g2, hL.N] at hi
        exact hgood (nm labels i) (by rw [← hL.set, List.mem_toFinset]; exact nm_mem hi)) q labels'
      have : out.text = s := by
        simp only [Res.bind_ok] at hout
        unfold report at hout
        rw [e1] at hout
        cases h1 : PartitionModularity p' a false with
        | none => rw [h1] at hout; simp at hout
        | some x =>
          cases h2 : PartitionModularity p' a true with
          | none => rw [h1, h2] at hout; simp at hout
          | some y =>
            rw [h1, h2] at hout
            simp at hout
            rw [← hout]
      rw [this]
      exact e2 (g3 0 hM)
    unfold netcartoFile
    cases load o' junk' strtod' lns' with
    | none => rfl
    | some r => simp only [Rd.ofOption, Rd.bind, key]

/-- A clustering of the triangle read from a file. -/
example : (match netcartoFile quick ⟨0, 0, ⟨9, 9, 0⟩⟩ (fun _ => none) [["a", "b"], ["b", "c"], ["a", "c"], ["c", "d"]]
    ['d', '\n', 'a', '\t', 'c', '\t', 'b', '\n'] with
    | .ok (n, m, out) => some (n, m, out.modularity, out.text)
    | _ => none) = some (0, 2, 1 / 4, ['d', '\t', '\n', 'a', '\t', 'c', '\t', 'b', '\t', '\n']) := by decide +kernel

end NCP
