import Verif.Netcarto.Lemmas

/-! # What `netcarto` loads -/

set_option linter.unusedSimpArgs false

namespace NCP

open NC RG FIO Finset

/-- The partition and the array hold the network with nodes `V`, weights `A` and strengths `k`; the names are `labels`. -/
structure Loaded (labels : List String) (p : Partition) (a : Adj) (V : Finset String) (A : String → String → ℚ)
    (k : String → ℚ) : Prop where
  nodup : labels.Nodup
  set : labels.toFinset = V
  N : p.N = labels.length
  M : p.M = p.N
  pos : 0 < p.N
  fresh : Fresh p
  aN : a.N = p.N
  repr : ∃ A', Represents a p.N A' ∧ (∀ i < p.N, ∀ j < p.N, i ≠ j → A' i j = A (nm labels i) (nm labels j)) ∧ ∀ i < p.N, A' i i = 0
  symm : ∀ x y, Nbr p.N a x y → Nbr p.N a y x
  strength : ∀ i < p.N, strengthOf p i = k (nm labels i)

theorem load_uni {o : Options} (hb : o.bipartite = false) (hi : o.invert = false) {junk : Junk} {strtod : String → Option ℚ}
    {lines : List (List String)} {recs : List Rec} (h : List.Forall₂ (Line o.weighted strtod) lines recs) (hs : Simple recs)
    (hne : recs ≠ []) :
    ∃ labels p a, load o junk strtod lines = some (labels, p, a) ∧ Loaded labels p a (nodes recs) (link recs) (strength recs) := by
  obtain ⟨edges, labels, e, hw, hnum, -, -⟩ := C13_read h (bipartite := 0) (by omega)
  have hnum := hnum rfl
  obtain ⟨hocc, hlt, hset⟩ := numbering_map hnum
  have hrec := recs_uni (nm labels) recs edges hw hocc
  set es := edges.map toEdge with hes
  have hn := hnum.nodup
  have hid : ∀ x ∈ es, x.u < labels.length ∧ x.v < labels.length := by
    intro x hx
    obtain ⟨y, hy, rfl⟩ := List.mem_map.1 hx
    constructor
    · exact hlt _ (List.mem_flatMap.2 ⟨y, hy, by simp [toEdge]⟩)
    · exact hlt _ (List.mem_flatMap.2 ⟨y, hy, by simp [toEdge]⟩)
  clear_value es
  have hl : LoopFree labels.length es := by
    intro x hx
    refine ⟨(hid x hx).1, (hid x hx).2, fun hh => ?_⟩
    apply hs.loop (recOf (nm labels) (nm labels) x) (by rw [hrec]; exact List.mem_map_of_mem hx)
    simp [recOf, hh]
  have hd : NoDuplicates es := by
    have := hs.once
    rw [hrec, List.pairwise_map] at this
    refine List.Pairwise.imp ?_ this
    intro x y hxy
    refine ⟨fun hh => hxy.1 (by simp [recOf, hh.1, hh.2]), fun hh => hxy.2 (by simp [recOf, hh.1, hh.2])⟩
  have hpos : 0 < labels.length := by
    obtain ⟨r, hr⟩ := List.exists_mem_of_ne_nil _ hne
    rw [hrec] at hr
    obtain ⟨x, hx, _⟩ := List.mem_map.1 hr
    have := (hid x hx).1
    omega
  obtain ⟨p0, a, p1, p, c0, c1, c2, c3, c4⟩ := C07_loader_meets_hypotheses es labels.length labels.length true (fun _ => 0) hpos (le_refl _) hl hd
    (fun _ => Or.inr rfl)
  have hp0 : p0 = { N := labels.length, M := labels.length, nempty := labels.length
                    nodes := fun i => { id := i, strength := 0, module := 0, prev := none, next := none }
                    modules := fun m => { id := m, size := 0, strength := 0, first := none, last := none } } := by
    unfold CreatePartition at c0
    simpa [eq_comm] using c0
  have e0 : p0.N = labels.length := by rw [hp0]
  have e1 : p0.M = labels.length := by rw [hp0]
  have e2 : p0.nempty = labels.length := by rw [hp0]
  have e00 : ∀ i < labels.length, (p0.nodes i).strength = 0 := by intro i _; rw [hp0]
  obtain ⟨a', q, d1, d2, d3, d4, d5, d6, d7, d8, d9, d10, d11, d12⟩ := C06_rows es labels.length p0 true e0 hl e00
  obtain ⟨rfl, rfl⟩ : a = a' ∧ p1 = q := by rw [c1] at d1; simpa using d1
  have hq : p1.N = labels.length := by rw [d8, e0]
  have hf : Fresh p1 := by
    refine ⟨by rw [d9, d8, e0, e1], by rw [d10, d9, e1, e2], ?_, ?_, ?_, ?_, ?_, ?_, ?_, ?_⟩
    · intro i hi; rw [d12 i (by omega), hp0]
    · intro i hi; rw [d12 i (by omega), hp0]
    · intro i hi; rw [d12 i (by omega), hp0]
    all_goals intro m _; rw [d11, hp0]
  have htot : total recs = totalWeight es := by rw [hrec, total_map]
  refine ⟨labels, p1, a, ?_, ?_⟩
  · unfold load
    simp only [hb, hi, Bool.toNat_false, Nat.add_zero, e, Option.bind_eq_bind, Option.bind_some, Bool.false_eq_true, if_false,
      Option.pure_def, ← hes, c0, c1]
  · refine ⟨hn, ?_, hq, by rw [d9, d8, e1, e0], by omega, hf, by rw [d2, hq], ?_, ?_, ?_⟩
    · exact hset
    · refine ⟨_, by rw [hq]; exact C06_represents es labels.length p0 true a p1 e0 hl hd e00 c1, ?_, ?_⟩
      · intro i hi j hj hij
        rw [hq] at hi hj
        rw [if_pos rfl, weight_div, link, htot]
        congr 1
        rw [hrec, List.map_map]
        congr 1
        apply List.map_congr_left
        intro x hx
        obtain ⟨h1, h2⟩ := hid x hx
        simp only [Function.comp, recOf, nm_inj hn h1 hi, nm_inj hn h2 hj, nm_inj hn h1 hj, nm_inj hn h2 hi]
      · intro i _
        unfold weightMatrix
        apply List.sum_eq_zero
        intro y hy
        obtain ⟨x, hx, rfl⟩ := List.mem_map.1 hy
        rw [if_neg]
        have := (hl x hx).2.2
        omega
    · have := c3.symm
      rw [c4] at this
      rw [hq]
      exact this
    · intro i hi
      rw [hq] at hi
      rw [strengthOf, d7 i hi, d4 i hi, incident_sum, if_pos rfl, NCP.strength, htot]
      congr 1
      rw [hrec, List.map_map]
      congr 1
      apply List.map_congr_left
      intro x hx
      obtain ⟨h1, h2⟩ := hid x hx
      simp only [Function.comp, recOf, nm_inj hn h1 hi, nm_inj hn h2 hi]

/-- The columns in the order in which `-t` asks for them. -/
def columns (invert : Bool) (recs : List Rec) : List Rec := if invert then recs.map fun r => (r.2.1, r.1, r.2.2) else recs

theorem load_bi {o : Options} (hb : o.bipartite = true) {junk : Junk} {strtod : String → Option ℚ}
    {lines : List (List String)} {recs : List Rec} (h : List.Forall₂ (Line o.weighted strtod) lines recs)
    (hs : Distinct (columns o.invert recs)) (hne : recs ≠ []) (hj0 : junk.strength = 0)
    (hj : (actors (columns o.invert recs)).card ≤ junk.edge.u) :
    ∃ labels p a, load o junk strtod lines = some (labels, p, a) ∧
      Loaded labels p a (actors (columns o.invert recs)) (coLink (columns o.invert recs)) (actorShare (columns o.invert recs)) := by
  set recs' := columns o.invert recs with hrecs'
  have hne' : recs' ≠ [] := by rw [hrecs']; unfold columns; split_ifs <;> simp [hne]
  obtain ⟨edges, labels, e, hw, n1, n2⟩ : ∃ edges labels, EdgeListFileInput lines o.weighted (1 + o.invert.toNat) strtod = some (.ok edges labels) ∧
      edges.map (·.2.2) = recs'.map (·.2.2) ∧ Numbering (recs'.map (·.1)) (edges.map (·.1)) labels ∧
        ∃ other, Numbering (recs'.map (·.2.1)) (edges.map (·.2.1)) other := by
    cases hi : o.invert with
    | false =>
      obtain ⟨edges, labels, e, hw, -, hnum, -⟩ := C13_read h (bipartite := 1) (by omega)
      obtain ⟨n1, n2⟩ := hnum rfl
      refine ⟨edges, labels, e, ?_, ?_, ?_⟩ <;> simp only [hrecs', hi, columns, Bool.false_eq_true, if_false]
      · exact hw
      · exact n1
      · exact n2
    | true =>
      obtain ⟨edges, labels, e, hw, -, -, hnum⟩ := C13_read h (bipartite := 2) (by omega)
      obtain ⟨n1, n2⟩ := hnum rfl
      refine ⟨edges, labels, e, ?_, ?_, ?_⟩ <;> simp only [hrecs', hi, columns, if_true, List.map_map]
      · exact hw
      · exact n1
      · exact n2
  obtain ⟨other, n2⟩ := n2
  obtain ⟨hocc, hlt, hset⟩ := numbering_map n1
  obtain ⟨hocc2, hlt2, hset2⟩ := numbering_map n2
  have hrec := recs_bi (nm labels) (nm other) recs' edges hw hocc hocc2
  set es := edges.map toEdge with hes
  have hn := n1.nodup
  have hn2 := n2.nodup
  have hid : ∀ x ∈ es, x.u < labels.length ∧ x.v < other.length := by
    intro x hx
    obtain ⟨y, hy, rfl⟩ := List.mem_map.1 hx
    exact ⟨hlt _ (List.mem_map.2 ⟨y, hy, rfl⟩), hlt2 _ (List.mem_map.2 ⟨y, hy, rfl⟩)⟩
  clear_value es
  have hd : DistinctEdges es := by
    have := hs
    unfold Distinct at this
    rw [hrec, List.pairwise_map] at this
    refine List.Pairwise.imp ?_ this
    intro x y hxy hh
    exact hxy (by simp [recOf, hh.1, hh.2])
  have hcard : (actors recs').card = labels.length := by
    unfold actors
    rw [← hset, List.toFinset_card_of_nodup hn]
  obtain ⟨E, p, a, c1, c2, c3, c4, c5, c6, c7, c8, c9, c10⟩ := C12_projection_partial hd hj0 (by
    intro x hx y _ _ hh
    have := (hid x hx).1
    omega)
  have hesne : es ≠ [] := by
    intro h0
    rw [h0] at hrec
    exact hne' (by simpa using hrec)
  obtain ⟨y, hy, hyN⟩ := c5 hesne
  have hN : p.N = labels.length := by
    have h1 := (hid y hy).1
    apply le_antisymm (by omega)
    by_contra hlt'
    have hmem : nm labels (labels.length - 1) ∈ recs'.map (·.1) := n1.used _ (nm_mem (by omega))
    rw [hocc] at hmem
    obtain ⟨i, hi, e'⟩ := List.mem_map.1 hmem
    rw [nm_inj hn (hlt i hi) (by omega)] at e'
    obtain ⟨z, hz, rfl⟩ := List.mem_map.1 hi
    have := c4 (toEdge z) (by rw [hes]; exact List.mem_map_of_mem hz)
    simp only [toEdge] at this
    omega
  have htot : total recs' = totalWeight es := by rw [hrec, total_map]
  refine ⟨labels, p, a, ?_, hn, ?_, hN, c8, by omega, c9, c3, ⟨_, c7, ?_, ?_⟩, ?_, ?_⟩
  · unfold load
    simp only [hb, Bool.toNat_true, e, Option.bind_eq_bind, Option.bind_some, if_true, Option.pure_def, ← hes, c1]
  · exact hset
  · intro i hi j hj hij
    rw [hN] at hi hj
    rw [if_neg hij, coLink]
    congr 1
    · unfold comembership
      rw [hrec, List.map_map]
      congr 1
      apply List.map_congr_left
      intro x hx
      simp only [Function.comp, List.map_map]
      congr 1
      apply List.map_congr_left
      intro z hz
      obtain ⟨h1, h2⟩ := hid x hx
      obtain ⟨h3, h4⟩ := hid z hz
      simp only [Function.comp, recOf, nm_inj hn h1 hi, nm_inj hn h3 hj, nm_inj hn2 h2 h4]
    · unfold projectionNorm
      have him : (recs'.map (·.2.1)).toFinset = ((es.map (·.v)).toFinset).image (nm other) := by
        ext x
        rw [hrec, List.map_map]
        simp only [List.mem_toFinset, mem_image, List.mem_map, Function.comp, recOf]
        constructor
        · rintro ⟨z, hz, rfl⟩; exact ⟨z.v, ⟨z, hz, rfl⟩, rfl⟩
        · rintro ⟨_, ⟨z, hz, rfl⟩, rfl⟩; exact ⟨z, hz, rfl⟩
      have hv : ∀ t ∈ (es.map (·.v)).toFinset, t < other.length := by
        intro t ht
        obtain ⟨z, hz, rfl⟩ := List.mem_map.1 (List.mem_toFinset.1 ht)
        exact (hid z hz).2
      rw [him, sum_image (fun s hs t ht e => (nm_inj hn2 (hv s hs) (hv t ht)).1 e)]
      apply sum_congr rfl
      intro t ht
      have h1 : teamTotal recs' (nm other t) = teamWeight es t := by
        unfold teamTotal teamWeight
        rw [hrec, List.map_map]
        congr 1
        apply List.map_congr_left
        intro z hz
        simp only [Function.comp, recOf, nm_inj hn2 (hid z hz).2 (hv t ht)]
      have h2 : teamCount recs' (nm other t) = teamSize es t := by
        unfold teamCount teamSize
        rw [hrec, List.countP_map]
        apply List.countP_congr
        intro z hz
        simp only [Function.comp, recOf, decide_eq_true_eq, nm_inj hn2 (hid z hz).2 (hv t ht)]
      rw [h1, h2]
  · intro i _; exact if_pos rfl
  · rintro x z ⟨hx, hnb⟩
    obtain ⟨l1, f, hf, g, hg, r1, r2, r3⟩ := (c6 x hx z).1 hnb
    have hz : z < p.N := by rw [← r2]; exact c4 g hg
    exact ⟨hz, (c6 z hz x).2 ⟨Ne.symm l1, g, hg, f, hf, r2, r1, r3.symm⟩⟩
  · intro i hi
    rw [c10 i hi]
    rw [hN] at hi
    unfold actorWeight actorShare
    rw [htot]
    congr 1
    rw [hrec, List.map_map]
    congr 1
    apply List.map_congr_left
    intro z hz
    simp only [Function.comp, recOf, nm_inj hn (hid z hz).1 hi]

end NCP
