import Verif.Utils.NetPropLemmas

/-!
# C149: the program netprop
-/

set_option linter.unusedSimpArgs false

namespace UT

open GR RG Polynomial

/-- The file has more than zero labels as soon as it has a line. -/
theorem names_pos {ps : List (String × String)} {net : Net} (L : Loaded ps net) (hlink : (graph ps).edgeSet.Nonempty) : net.n ≠ 0 := by
  obtain ⟨x, hx⟩ := hlink
  induction x with
  | _ a b =>
    obtain ⟨i, hi, _⟩ := L.node_of (adj_names hx).1
    omega

/-- The sets found are the components. -/
theorem sets_ok {ps : List (String × String)} {net : Net} (L : Loaded ps net) (hn : net.n ≠ 0) (hmax : net.n ≤ 10001) :
    ∃ r, GetAllConnectedSets net = some r ∧ r.length = (components ps).card ∧
      (sizes (r.map Prod.snd) (0, 0)).2 = (names ps).length ∧
      ∃ G ∈ components ps, (sizes (r.map Prod.snd) (0, 0)).1 = G.ncard ∧ ∀ X ∈ components ps, X.ncard ≤ G.ncard := by
  obtain ⟨r, e, hlen, hperm, hr⟩ := C84_all_sets_partial L.holds L.link_labels L.distinct L.fit (by omega) hmax L.sym
  have hnd : ∀ c ∈ r, c.1.Nodup := by
    intro c hc
    have : (r.map Prod.fst).flatten.Nodup := hperm.nodup_iff.2 List.nodup_range
    exact (List.nodup_flatten.1 this).1 _ (List.mem_map.2 ⟨c, hc, rfl⟩)
  have hcn : ∀ c ∈ r, c.2.n = c.1.length := by
    intro c hc
    have := congrArg List.length (hr c hc).2.1
    simpa using this
  have hcomp : ∀ c ∈ r, ∃ X ∈ components ps, CountNodes c.2 = X.ncard := by
    intro c hc
    obtain ⟨⟨p, hp, hS⟩, _⟩ := hr c hc
    exact ⟨_, L.mem_components.2 ⟨p, hp, rfl⟩, by rw [L.comp_ncard hp hS (hnd c hc)]; exact hcn c hc⟩
  have hall : ∀ X ∈ components ps, ∃ c ∈ r, CountNodes c.2 = X.ncard := by
    intro X hX
    obtain ⟨p, hp, rfl⟩ := L.mem_components.1 hX
    have : p ∈ (r.map Prod.fst).flatten := hperm.mem_iff.2 (List.mem_range.2 hp)
    obtain ⟨S, hS, hpS⟩ := List.mem_flatten.1 this
    obtain ⟨c, hc, rfl⟩ := List.mem_map.1 hS
    obtain ⟨⟨q, hq, hcq⟩, _⟩ := hr c hc
    have hqp := (hcq p).1 hpS
    have hcp : ∀ v, v ∈ c.1 ↔ BFS.Reach (targets net) p v := fun v =>
      (hcq v).trans ⟨fun h => (L.reach_comm hq hqp).trans h, fun h => hqp.trans h⟩
    exact ⟨c, hc, by rw [L.comp_ncard hp hcp (hnd c hc)]; exact hcn c hc⟩
  obtain ⟨k1, _, k3, k4⟩ := sizes_eq (r.map Prod.snd) 0 0
  refine ⟨r, e, by rw [hlen, L.components_card], ?_, ?_⟩
  · rw [k1, zero_add, List.map_map, ← L.len]
    have h1 : r.map (CountNodes ∘ Prod.snd) = (r.map Prod.fst).map List.length := by
      rw [List.map_map]
      exact List.map_congr_left fun c hc => hcn c hc
    rw [h1, ← List.length_flatten, hperm.length_eq, List.length_range]
  · obtain ⟨c0, hc0, _⟩ := hall _ (L.mem_components.2 ⟨0, by omega, rfl⟩)
    obtain ⟨c, hc, hbig⟩ : ∃ c ∈ r, (sizes (r.map Prod.snd) (0, 0)).1 = CountNodes c.2 := by
      rcases k4 with k4 | ⟨d, hd, k4⟩
      · refine ⟨c0, hc0, ?_⟩
        have := k3 c0.2 (List.mem_map.2 ⟨c0, hc0, rfl⟩)
        omega
      · obtain ⟨c, hc, rfl⟩ := List.mem_map.1 hd
        exact ⟨c, hc, k4⟩
    obtain ⟨G, hG, hGc⟩ := hcomp c hc
    refine ⟨G, hG, hbig.trans hGc, fun X hX => ?_⟩
    obtain ⟨d, hd, hdX⟩ := hall X hX
    have := k3 d.2 (List.mem_map.2 ⟨d, hd, rfl⟩)
    omega

open Classical in
/-- **C149**, what holds: for a well-formed file with a link, of at most 10000 labels and 1000 components, and whose numbers of shortest
paths and cubes of degrees fit in an `int`, `netprop` prints: the number of components; the size of a largest one, `G`; the mean size of
the others; the numbers of labels and links; the mean degree; the mean inverse distance over ordered pairs of different labels; the mean
clustering over the labels with two neighbours or more (`nan` if none); Pearson's correlation of the degrees at the ends of the links
(`nan` if all links end in labels of the same degree); mean, standard deviation, minimum and maximum of the betweenness; and the
quotient of the largest and the smallest eigenvalue of the Laplacian that is not 0. The full statement would be that `K_K2` is the mean
degree over the mean squared degree; in fact the latter is rounded down (see `C149_ratio`). -/
theorem C149_netprop_partial {files : String → Option (List Char)} {f : String} {text : List Char} {ps : List (String × String)}
    (hf : files f = some text) (hs : Says text ps) (hlink : (graph ps).edgeSet.Nonempty) (hn : (names ps).length ≤ 10000)
    (hcomp : (components ps).card ≤ 1000)
    (hmax : ∀ s ∈ names ps, ∀ t ∈ names ps, (shortest ps s t).ncard ≤ 2147483647)
    (hdeg : 2 * ((names ps).map fun a => degree ps a ^ 3).sum ≤ 2147483647) (more : List String) :
    ∃ r, netprop files (f :: more) = .ok (some r) ∧ r.ncomponents = (components ps).card ∧
      (∃ G ∈ components ps, (∀ X ∈ components ps, X.ncard ≤ G.ncard) ∧ r.sizeGC = G.ncard ∧
        r.avOther = if components ps = {G} then 0
          else ((∑ X ∈ (components ps).erase G, X.ncard : ℕ) : ℚ) / ((components ps).erase G).card) ∧
      r.nodes = (names ps).length ∧ r.links = (graph ps).edgeSet.ncard ∧
      r.avDegree = ((names ps).map fun a => (degree ps a : ℚ)).sum / (names ps).length ∧
      r.inversePath = ((names ps).map fun a => ((names ps).map fun b => if a ≠ b then invDist ps a b else 0).sum).sum /
        ((names ps).length * (((names ps).length : ℚ) - 1)) ∧
      r.clustering = (if twoLinks ps = [] then none else some (((twoLinks ps).map (clusterOf ps)).sum / (twoLinks ps).length)) ∧
      (r.assortativity = none ↔ ∃ c, ∀ x ∈ linkEnds ps, degree ps x.1 = c) ∧
      (∀ x, r.assortativity = some x → -1 ≤ x ∧ x ≤ 1 ∧
        (x : ℝ) = BFS.pearson (linkEnds ps) (fun y => (degree ps y.1 : ℝ)) fun y => degree ps y.2) ∧
      r.betMean = (((names ps).map (betweenness ps)).sum : ℚ) / (names ps).length ∧
      0 ≤ r.betStddev ∧
      r.betStddev ^ 2 = ((names ps).map fun v => ((betweenness ps v : ℝ) - r.betMean) ^ 2).sum / (names ps).length ∧
      r.betMin ∈ (names ps).map (betweenness ps) ∧ r.betMax ∈ (names ps).map (betweenness ps) ∧
      (∀ v ∈ names ps, r.betMin ≤ betweenness ps v ∧ betweenness ps v ≤ r.betMax) ∧
      (∃ (ev : List ℝ) (lN l2 : ℝ), ((labelGraph ps).lapMatrix ℝ).charpoly = (ev.map fun x => X - C x).prod ∧
        lN ∈ ev ∧ (∀ x ∈ ev, x ≤ lN) ∧ l2 ∈ ev ∧ l2 ≠ 0 ∧ (∀ x ∈ ev, x ≠ 0 → l2 ≤ x) ∧ r.synchronizability = lN / l2) ∧
      r.kk2 = (let q := (⌊((((names ps).map fun a => degree ps a ^ 2).sum : ℕ) : ℚ) / (names ps).length⌋ : ℚ)
        if q = 0 then none else some (r.avDegree / q)) := by
  obtain ⟨net, e, L⟩ := load_ok hf hs
  have h0 := names_pos L hlink
  have hN : net.n ≤ 10000 := by rw [L.len]; exact hn
  obtain ⟨cs, ecs, hclen, hothers, G, hG, hgc, hGmax⟩ := sets_ok L h0 (by omega)
  obtain ⟨t1, t2, L1⟩ := L.totalLinks
  obtain ⟨net2, ed, L2, n2⟩ := L1.avDegree_ok (by omega)
  have n2' : net2.n = net.n := by omega
  obtain ⟨as, eas, has1, has2⟩ := L2.assort_ok hdeg
  obtain ⟨a, d, l, u, est, st1, st2, st3, st4, st5, st6⟩ := L2.stats_ok hmax (by omega)
  obtain ⟨i, j, hij⟩ : ∃ i j, (weights ps net2 i j).isSome := by
    obtain ⟨x, hx⟩ := hlink
    induction x with
    | _ a b =>
      rw [SimpleGraph.mem_edgeSet] at hx
      obtain ⟨i, hi, rfl⟩ := L2.node_of (adj_names hx).1
      obtain ⟨j, hj, rfl⟩ := L2.node_of (adj_names hx).2
      exact ⟨i, j, L2.weights_isSome.2 ⟨hi, hj, hx⟩⟩
  obtain ⟨ev, net3, lN, l2, esp, esy, y1, y2, y3, y4, y5, _⟩ := C142_synchronizability L2.holds L2.caches L2.symSimple ⟨i, j, hij⟩ (by omega)
  obtain ⟨L3, n3⟩ := L2.spectrum_net esp
  obtain ⟨net4, ed4, L4, n4⟩ := L3.avDegree_ok (by omega)
  obtain ⟨net5, eq5, n5⟩ := L4.sqDegree_ok (by omega)
  have hchar : ((labelGraph ps).lapMatrix ℝ).charpoly = (ev.map fun x => X - C x).prod := by
    obtain ⟨ev', net', e', _, _, hp, _⟩ := C141_spectrum L2.holds L2.caches L2.symSimple (by omega)
    rw [esp] at e'
    obtain ⟨rfl, rfl⟩ : ev = ev' ∧ net3 = net' := by simpa using e'
    rw [← hp]
    convert lap_iso L2.iso
  refine ⟨{ ncomponents := cs.length, sizeGC := (sizes (cs.map Prod.snd) (0, 0)).1
            avOther := if 1 < cs.length then (((sizes (cs.map Prod.snd) (0, 0)).2 : ℚ) - (sizes (cs.map Prod.snd) (0, 0)).1) /
              ((cs.length : ℚ) - 1) else 0
            nodes := CountNodes net5, links := (TotalNLinks net true).1
            avDegree := ((names ps).map fun a => (degree ps a : ℚ)).sum / (names ps).length
            inversePath := ((names ps).map fun a => ((names ps).map fun b => if a ≠ b then invDist ps a b else 0).sum).sum /
              ((names ps).length * (((names ps).length : ℚ) - 1))
            clustering := if twoLinks ps = [] then none else some (((twoLinks ps).map (clusterOf ps)).sum / (twoLinks ps).length)
            assortativity := as, betMean := a, betStddev := d, betMin := l, betMax := u, synchronizability := lN / l2
            kk2 := if (⌊((((names ps).map fun a => degree ps a ^ 2).sum : ℕ) : ℚ) / (names ps).length⌋ : ℚ) = 0 then none else
              some ((((names ps).map fun a => (degree ps a : ℚ)).sum / (names ps).length) /
                (⌊((((names ps).map fun a => degree ps a ^ 2).sum : ℕ) : ℚ) / (names ps).length⌋ : ℚ)) },
    ?_, hclen, ⟨G, hG, hGmax, hgc, ?_⟩, ?_, t1, rfl, rfl, rfl, has1, has2, st1, st2, st3, st4, st5, st6,
    ⟨ev, lN, l2, hchar, y1, y2, y3, y4, y5, rfl⟩, rfl⟩
  · rw [netprop, e]
    simp only [Res.bind_ok]
    unfold properties
    rw [ecs]
    simp only [Option.bind_eq_bind, Option.bind_some]
    rw [if_neg (by omega), ed]
    simp only [Option.bind_some, L2.inverse_ok (by omega : net2.n ≤ 10000), L2.clustering_ok, eas, est, esy, ed4, eq5]
    rfl
  · simp only
    rw [hclen, hothers, hgc]
    have hsum := Finset.add_sum_erase (components ps) (fun X => X.ncard) hG
    rw [components_sum] at hsum
    have hcard := Finset.card_erase_of_mem hG
    by_cases h1 : components ps = {G}
    · rw [if_pos h1, if_neg]
      rw [h1]; simp
    · have hgt : 1 < (components ps).card := by
        have hpos : 0 < (components ps).card := Finset.card_pos.2 ⟨G, hG⟩
        by_contra hle
        have : (components ps).card = 1 := by omega
        obtain ⟨H, hH⟩ := Finset.card_eq_one.1 this
        rw [hH, Finset.mem_singleton] at hG
        exact h1 (hG ▸ hH)
      rw [if_neg h1, if_pos hgt, hcard, ← hsum]
      rw [Nat.cast_sub (by omega)]
      push_cast
      congr 1
      ring
  · show net5.n = _
    rw [n5, n4, n3, n2', L.len]

/-! ## Limits -/

theorem properties_sync {net : Net} {r : NetProp} (h : properties net = some r) :
    ∃ net', AverageDegree (TotalNLinks net true).2 true = some (r.avDegree, net') ∧ Synchronizability net' ≠ none := by
  unfold properties at h
  simp only [Option.bind_eq_bind, Option.bind_eq_some_iff] at h
  obtain ⟨cs, _, h⟩ := h
  by_cases hc : 1000 < cs.length
  · rw [if_pos hc] at h
    simp at h
  rw [if_neg hc] at h
  simp only [Option.bind_eq_some_iff] at h
  obtain ⟨⟨d, net'⟩, h1, _, _, _, _, _, _, _, _, ⟨s, net''⟩, h2, _, _, ⟨_, _⟩, _, h⟩ := h
  simp only [Option.pure_def, Option.some.injEq] at h
  subst h
  exact ⟨net', h1, by rw [h2]; simp⟩

/-- **C149**, limits: `netprop` is undefined for a file that is missing or malformed, for a file without links, for more than 10001
labels, and for more than 1000 components. -/
theorem C149_crash {files : String → Option (List Char)} {f : String} {more : List String}
    (h : (files f = none ∨ ∃ text, files f = some text ∧ Malformed text) ∨
      ∃ text ps, files f = some text ∧ Says text ps ∧
        ((graph ps).edgeSet = ∅ ∨ 10001 < (names ps).length ∨ 1000 < (components ps).card)) :
    netprop files (f :: more) = .ub := by
  rw [netprop]
  rcases h with (h | ⟨text, h, hm⟩) | ⟨text, ps, hf, hs, h⟩
  · rw [load_missing h]; rfl
  · rw [load_malformed h hm]; rfl
  · obtain ⟨net, e, L⟩ := load_ok hf hs
    rw [e]
    simp only [Res.bind_ok]
    suffices properties net = none by rw [this]; rfl
    by_cases hbig : 10001 < net.n
    · unfold properties GetAllConnectedSets
      rw [if_pos hbig]
      rfl
    rcases h with h | h | h
    · by_contra hne
      obtain ⟨r, hr⟩ := Option.ne_none_iff_exists'.1 hne
      obtain ⟨net', h1, h2⟩ := properties_sync hr
      obtain ⟨_, k2, L1⟩ := L.totalLinks
      by_cases h0 : net.n = 0
      · unfold AverageDegree at h1
        rw [if_pos (by omega)] at h1
        simp at h1
      · obtain ⟨net2, e2, L2, n2⟩ := L1.avDegree_ok (by omega)
        rw [h1] at e2
        obtain ⟨_, rfl⟩ := Prod.mk.inj (Option.some.inj e2)
        refine h2 (C142_no_links L2.holds L2.caches L2.symSimple fun i j => ?_)
        by_contra hw
        have := (L2.weights_isSome (i := i) (j := j)).1 (Option.ne_none_iff_isSome.1 hw)
        have hx : s(net'.label i, net'.label j) ∈ (graph ps).edgeSet := this.2.2
        rw [h] at hx
        exact hx
    · exact (hbig (by rw [L.len]; exact h)).elim
    · have h0 : net.n ≠ 0 := by
        intro h0
        have hnil : names ps = [] := by rw [← List.length_eq_zero_iff, ← L.len]; exact h0
        have : components ps = ∅ := by unfold components; rw [hnil]; simp
        rw [this] at h
        simp at h
      obtain ⟨r, er, hl, _⟩ := sets_ok L h0 (by omega)
      unfold properties
      rw [er]
      simp only [Option.bind_eq_bind, Option.bind_some]
      rw [if_pos (by omega)]

/-! ## Example and refutation -/

/-- A path of four labels. -/
def pathFile : String → Option (List Char) := fun f => if f = "P" then some (tex "a b\nb c\nc d\n") else none

def pathLines : List (String × String) := [("a", "b"), ("b", "c"), ("c", "d")]

theorem saysP : Says (tex "a b\nb c\nc d\n") pathLines := by
  have : fileFields (tex "a b\nb c\nc d\n") = [["a", "b"], ["b", "c"], ["c", "d"]] := by decide +kernel
  unfold Says pathLines
  rw [this]
  exact .cons ⟨by decide +kernel, by decide +kernel, [], rfl⟩ (.cons ⟨by decide +kernel, by decide +kernel, [], rfl⟩
    (.cons ⟨by decide +kernel, by decide +kernel, [], rfl⟩ .nil))

theorem path_names : names pathLines = ["a", "b", "c", "d"] := by decide +kernel

theorem path_degrees : (names pathLines).map (degree pathLines) = [1, 2, 2, 1] := by
  obtain ⟨net, e, L⟩ := load_ok (files := pathFile) (f := "P") rfl saysP
  have hc : (match load pathFile "P" with
    | .ok net => (List.range net.n).map fun i => (NodeDegree net i).1
    | _ => []) = [1, 2, 2, 1] := by decide +kernel
  rw [e] at hc
  rw [← hc, ← L.labels, List.map_map]
  exact List.map_congr_left fun i hi => (L.node_degree (List.mem_range.1 hi)).symm

theorem path_paths : ∀ s ∈ names pathLines, ∀ t ∈ names pathLines, (shortest pathLines s t).ncard ≤ 2147483647 := by
  obtain ⟨net, e, L⟩ := load_ok (files := pathFile) (f := "P") rfl saysP
  have hn : net.n = 4 := by rw [L.len, path_names]; rfl
  have hc : (match load pathFile "P" with
    | .ok net => (List.range 4).all fun s => (List.range 4).all fun t => ((List.range 4).any fun k => 0 < BT.W (targets net) k s t) &&
        (List.range 4).all fun k => ((BT.walks (targets net) k s).filter fun l => l.getLast? = some t).length ≤ 100
    | _ => false) = true := by decide +kernel
  rw [e] at hc
  simp only [List.all_eq_true, List.any_eq_true, Bool.and_eq_true, decide_eq_true_eq, List.mem_range] at hc
  intro s hs t ht
  obtain ⟨i, hi, rfl⟩ := L.node_of hs
  obtain ⟨j, hj, rfl⟩ := L.node_of ht
  rw [← L.shortest_length hi hj]
  have hd : BT.dist (targets net) i j < 4 := by
    obtain ⟨⟨k, hk, hw⟩, _⟩ := hc i (by omega) j (by omega)
    exact lt_of_le_of_lt (Nat.sInf_le (BT.W_pos.1 hw)) hk
  unfold BT.shortest
  exact ((hc i (by omega) j (by omega)).2 _ hd).trans (by norm_num)

/-- **C149**, the property refuted: for a path of four labels, degrees 1, 2, 2, 1, the mean degree over the mean squared degree is
3/5, and `netprop` prints 3/4. -/
theorem C149_ratio : ∃ r, netprop pathFile ["P"] = .ok (some r) ∧ r.kk2 = some (3 / 4) ∧
    ((((names pathLines).map fun a => (degree pathLines a : ℚ)).sum) / (names pathLines).length) /
      ((((names pathLines).map fun a => (degree pathLines a : ℚ) ^ 2).sum) / (names pathLines).length) = 3 / 5 := by
  have hd := path_degrees
  have h1 : (names pathLines).map (fun a => (degree pathLines a : ℚ)) = [1, 2, 2, 1] := by
    have := congrArg (List.map (fun k : ℕ => (k : ℚ))) hd
    rw [List.map_map] at this
    refine Eq.trans this ?_
    norm_num
  have h2 : (names pathLines).map (fun a => (degree pathLines a : ℚ) ^ 2) = [1, 4, 4, 1] := by
    have := congrArg (List.map (fun k : ℕ => (k : ℚ) ^ 2)) hd
    rw [List.map_map] at this
    refine Eq.trans this ?_
    norm_num
  have h2' : (names pathLines).map (fun a => degree pathLines a ^ 2) = [1, 4, 4, 1] := by
    have := congrArg (List.map (fun k : ℕ => k ^ 2)) hd
    rw [List.map_map] at this
    exact this
  have h3 : (names pathLines).map (fun a => degree pathLines a ^ 3) = [1, 8, 8, 1] := by
    have := congrArg (List.map (fun k : ℕ => k ^ 3)) hd
    rw [List.map_map] at this
    exact this
  have hlen : (names pathLines).length = 4 := by rw [path_names]; rfl
  obtain ⟨r, e, _, _, _, _, hdeg, _, _, _, _, _, _, _, _, _, _, _, hk⟩ := C149_netprop_partial (files := pathFile) (f := "P") rfl saysP
    ⟨s("a", "b"), by rw [SimpleGraph.mem_edgeSet]; exact ⟨by decide, Or.inl (by simp [pathLines])⟩⟩ (by rw [hlen]; norm_num)
    (by
      classical
      unfold components
      refine Finset.card_image_le.trans ?_
      refine (List.toFinset_card_le _).trans ?_
      rw [hlen]; norm_num)
    path_paths (by rw [h3]; norm_num) []
  refine ⟨r, e, ?_, ?_⟩
  · rw [hk, hdeg, h1, h2', hlen]
    have : (⌊(([1, 4, 4, 1] : List ℕ).sum : ℚ) / ((4 : ℕ) : ℚ)⌋ : ℤ) = 2 := by
      rw [Int.floor_eq_iff]; norm_num
    simp only [this]
    norm_num
  · rw [h1, h2, hlen]; norm_num

end UT
