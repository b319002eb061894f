import Verif.Utils.Paths
import Verif.Graph.Giant
import Verif.Spectrum.Props

/-!
# C146, C147, C148: the programs getgiant, netrandomize and lapspec
-/

set_option linter.unusedSimpArgs false
set_option linter.unusedSectionVars false

namespace UT

open GR RG

theorem str_lt {a b : String} (h : a ≤ b) (hne : a ≠ b) : a < b := by
  by_contra hn
  exact hne (String.le_antisymm h (String.not_lt.1 hn))

theorem str_le {a b : String} (h : a < b) : a ≤ b := by
  rcases String.le_total a b with h' | h'
  · exact h'
  · exact (String.not_lt.2 h' h).elim

theorem str_cases {a b : String} (h : a ≠ b) : a < b ∨ b < a := by
  rcases String.le_total a b with h' | h'
  · exact Or.inl (str_lt h' h)
  · exact Or.inr (str_lt h' h.symm)

/-- The text has one line for each of the pairs, with the two labels. -/
def Lists (text : List Char) (qs : List (String × String)) : Prop := fileFields text = qs.map fun p => [p.1, p.2]

theorem entries_ends {net : Net} {g : WG} (h : Holds net g) {a b : String} :
    (a, b) ∈ (entries net).map ends2 ↔ ∃ i j, i < net.n ∧ j < net.n ∧ net.label i = a ∧ net.label j = b ∧ (g i j).isSome := by
  rw [List.mem_map]
  constructor
  · rintro ⟨⟨x, y, w⟩, he, e⟩
    obtain ⟨rfl, rfl⟩ := Prod.mk.inj e
    rw [mem_entries h, hasLink_iff h] at he
    obtain ⟨i, j, hi, hj, h1, h2, h3⟩ := he
    exact ⟨i, j, hi, hj, h1, h2, by rw [h3]; rfl⟩
  · rintro ⟨i, j, hi, hj, h1, h2, h3⟩
    obtain ⟨w, hw⟩ := Option.isSome_iff_exists.1 h3
    exact ⟨(a, b, w), by rw [mem_entries h, hasLink_iff h]; exact ⟨i, j, hi, hj, h1, h2, hw⟩, rfl⟩

/-- What `FPrintNetAdjacencyList(stdout, net, 0, 1)` prints: each link once, smaller label first. -/
theorem print_pairs {net : Net} {g : WG} (h : Holds net g) (hd : Distinct net) (hw : ∀ i < net.n, Word (net.label i))
    (hloop : ∀ i, g i i = none) :
    ∃ s qs, FPrintNetAdjacencyList (fun _ => "") net false true = some s ∧ Lists s qs ∧ qs.Nodup ∧
      ∀ a b, (a, b) ∈ qs ↔ a < b ∧ ∃ i j, i < net.n ∧ j < net.n ∧ net.label i = a ∧ net.label j = b ∧ (g i j).isSome := by
  obtain ⟨s, e, hs⟩ := printRows_fields (showG := fun _ => "") h (weighted := false) (sym := true) (by simp) hw (List.range net.n)
    fun i hi => List.mem_range.1 hi
  refine ⟨s, ((entries net).filter (printed true)).map ends2, e, ?_, ?_, ?_⟩
  · unfold Lists
    rw [hs, List.map_map]
    rfl
  · have := entries_nodup h hd
    exact this.sublist (List.filter_sublist.map _)
  · intro a b
    have : (a, b) ∈ ((entries net).filter (printed true)).map ends2 ↔ a ≤ b ∧ (a, b) ∈ (entries net).map ends2 := by
      simp only [List.mem_map, List.mem_filter, printed, ends2]
      constructor
      · rintro ⟨⟨x, y, w⟩, ⟨h1, h2⟩, e⟩
        obtain ⟨rfl, rfl⟩ := Prod.mk.inj e
        exact ⟨by simpa using h2, _, h1, rfl⟩
      · rintro ⟨h1, ⟨x, y, w⟩, h2, e⟩
        obtain ⟨rfl, rfl⟩ := Prod.mk.inj e
        exact ⟨_, ⟨h2, by simpa using h1⟩, rfl⟩
    rw [this, entries_ends h]
    constructor
    · rintro ⟨hle, i, j, hi, hj, rfl, rfl, hg⟩
      refine ⟨?_, i, j, hi, hj, rfl, rfl, hg⟩
      refine str_lt hle fun he => ?_
      obtain rfl := hd i j hi hj he
      rw [hloop] at hg
      simp at hg
    · rintro ⟨hlt, hx⟩
      exact ⟨str_le hlt, hx⟩

/-! ## getgiant -/

/-- **C146**: for a well-formed file with lines, `getgiant` prints the links of a connected component of the network, all of them, each
once; no component has more labels, unless this one has more than ten million. -/
theorem C146_getgiant {files : String → Option (List Char)} {f : String} {text : List Char} {ps : List (String × String)}
    (hf : files f = some text) (hs : Says text ps) (hne : ps ≠ []) (more : List String) :
    ∃ s qs, getgiant files (f :: more) = .ok (some s) ∧ Lists s qs ∧ qs.Nodup ∧
      ∃ c ∈ names ps, (∀ a b, (a, b) ∈ qs ↔ a < b ∧ (graph ps).Adj a b ∧ (graph ps).Reachable c a) ∧
        (10000000 < {a | (graph ps).Reachable c a}.ncard ∨
          ∀ d ∈ names ps, {a | (graph ps).Reachable d a}.ncard ≤ {a | (graph ps).Reachable c a}.ncard) := by
  classical
  obtain ⟨src, e, L⟩ := load_ok hf hs
  have hn : 0 < src.n := by
    rw [L.len]
    obtain ⟨p, hp⟩ := List.exists_mem_of_ne_nil _ hne
    exact List.length_pos_of_mem (mem_names.2 ⟨p, hp, Or.inl rfl⟩)
  obtain ⟨S, net, e1, hSn, ⟨p, hp, hS⟩, hbig, hsub, hclosed⟩ := C140_network L.holds L.link_labels L.distinct L.fit L.sym hn 10000000
  have hSr : ∀ v ∈ S, v < src.n := fun v hv => ((hS v).1 hv).lt (targets_range L.holds) hp
  have hlen : net.n = S.length := by
    have := congrArg List.length hsub.labels
    simpa using this
  have hlab : ∀ i (hi : i < net.n), net.label i = src.label (S[i]'(hlen ▸ hi)) := by
    intro i hi
    have := congrArg (fun l => l[i]?) hsub.labels
    simp only [List.getElem?_map] at this
    rw [List.getElem?_range hi, List.getElem?_eq_getElem (hlen ▸ hi)] at this
    simpa using this
  have hdist : Distinct net := by
    intro i j hi hj h
    rw [hlab i hi, hlab j hj] at h
    have := L.distinct _ _ (hSr _ (List.getElem_mem _)) (hSr _ (List.getElem_mem _)) h
    exact (List.Nodup.getElem_inj_iff hSn).1 this
  have hcomp : ∀ q < src.n, {v | BFS.Reach (targets src) q v}.ncard = {a | (graph ps).Reachable (src.label q) a}.ncard := by
    intro q hq
    have : {a | (graph ps).Reachable (src.label q) a} = src.label '' {v | BFS.Reach (targets src) q v} := by
      ext a
      constructor
      · intro ha
        have ha' : (graph ps).Reachable (src.label q) a := ha
        have hmem : a ∈ names ps := by
          obtain ⟨w⟩ := ha'.symm
          cases w with
          | nil => exact L.label_mem hq
          | cons hadj _ => exact (adj_names hadj).1
        obtain ⟨v, hv, rfl⟩ := L.node_of hmem
        exact ⟨v, (L.reach_iff hq hv).2 ha', rfl⟩
      · rintro ⟨v, hv, rfl⟩
        have hv' : BFS.Reach (targets src) q v := hv
        exact (L.reach_iff hq (hv'.lt L.range hq)).1 hv'
    rw [this, Set.InjOn.ncard_image]
    intro u hu v hv h
    have hu' : BFS.Reach (targets src) q u := hu
    have hv' : BFS.Reach (targets src) q v := hv
    exact L.distinct u v (hu'.lt L.range hq) (hv'.lt L.range hq) h
  have hcard : S.length = {a | (graph ps).Reachable (src.label p) a}.ncard := by
    rw [← hcomp p hp]
    have : {v | BFS.Reach (targets src) p v} = ↑S.toFinset := by
      ext v; rw [Finset.mem_coe, List.mem_toFinset, hS]; rfl
    rw [this, Set.ncard_coe_finset, List.toFinset_card_of_nodup hSn]
  obtain ⟨s, qs, e2, h1, h2, h3⟩ := print_pairs hsub.links hdist
    (by intro i hi; rw [hlab i hi]; exact L.words _ (hSr _ (List.getElem_mem _)))
    (by
      intro i
      unfold induced
      cases S[i]? with
      | none => rfl
      | some u => exact L.symSimple.loop u)
  refine ⟨s, qs, ?_, h1, h2, src.label p, L.label_mem hp, ?_, ?_⟩
  · rw [getgiant, e]
    simp only [Res.bind_ok, e1, e2, Res.ofOption, Res.pure_eq]
  · intro a b
    rw [h3]
    constructor
    · rintro ⟨hlt, i, j, hi, hj, rfl, rfl, hg⟩
      unfold induced at hg
      rw [List.getElem?_eq_getElem (hlen ▸ hi), List.getElem?_eq_getElem (hlen ▸ hj)] at hg
      simp only [Option.bind_some] at hg
      rw [hlab i hi, hlab j hj] at hlt ⊢
      have hm : S[i]'(hlen ▸ hi) ∈ S := List.getElem_mem _
      exact ⟨hlt, (L.weights_isSome.1 hg).2.2, (L.reach_iff hp (hSr _ hm)).1 ((hS _).1 hm)⟩
    · rintro ⟨hlt, hadj, hr⟩
      obtain ⟨u, hu, rfl⟩ := L.node_of (adj_names hadj).1
      obtain ⟨v, hv, rfl⟩ := L.node_of (adj_names hadj).2
      have hg := L.weights_isSome.2 ⟨hu, hv, hadj⟩
      have huS : u ∈ S := (hS u).2 ((L.reach_iff hp hu).2 hr)
      have hvS : v ∈ S := hclosed u huS v hg
      obtain ⟨i, hi, rfl⟩ := List.getElem_of_mem huS
      obtain ⟨j, hj, rfl⟩ := List.getElem_of_mem hvS
      refine ⟨hlt, i, j, hlen ▸ hi, hlen ▸ hj, hlab i (hlen ▸ hi), hlab j (hlen ▸ hj), ?_⟩
      unfold induced
      rw [List.getElem?_eq_getElem hi, List.getElem?_eq_getElem hj]
      exact hg
  · rcases hbig with hbig | hbig
    · left
      rw [← hcard]
      exact_mod_cast hbig
    · right
      intro d hd
      obtain ⟨q, hq, rfl⟩ := L.node_of hd
      rw [← hcomp q hq, ← hcard]
      exact hbig q hq

/-- **C146**, limit: on an empty file `getgiant` dereferences NULL. -/
theorem C146_empty {files : String → Option (List Char)} {f : String} (hf : files f = some []) (more : List String) :
    getgiant files (f :: more) = .ub := by
  obtain ⟨net, e, L⟩ := load_ok (ps := []) hf (by unfold Says; rw [fields_nil]; exact .nil)
  have hn : net.n = 0 := by rw [L.len]; rfl
  rw [getgiant, e]
  have : GetLargestWeaklyConnectedSet net 10000000 = none := by
    unfold GetLargestWeaklyConnectedSet
    rw [hn, BFS.C140_empty]
    rfl
  simp only [Res.bind_ok, this, Res.ofOption, Res.bind_ub]

/-! ## netrandomize -/

/-- **C147**: for a well-formed file with a link, whatever the random numbers, `netrandomize` does nothing undefined, and what it prints
is a list of links without repetitions between different labels of the file, in which every label has as many links as in the file. -/
theorem C147_netrandomize {files : String → Option (List Char)} {f : String} {text : List Char} {ps : List (String × String)}
    (hf : files f = some text) (hs : Says text ps) (hlink : (graph ps).edgeSet.Nonempty) (seed : String) (more : List String) (t : Tape) :
    (netrandomize files (f :: seed :: more) t).Holds fun r => ∃ s qs, r = some s ∧ Lists s qs ∧ qs.Nodup ∧
      (∀ p ∈ qs, p.1 < p.2 ∧ p.1 ∈ names ps ∧ p.2 ∈ names ps) ∧ ∀ a, degree qs a = degree ps a := by
  classical
  obtain ⟨net, e, L⟩ := load_ok hf hs
  rw [netrandomize, e]
  simp only [Res.bind_ok]
  have hl : ∃ i j, (weights ps net i j).isSome := by
    obtain ⟨x, hx⟩ := hlink
    induction x with
    | _ a b =>
      rw [SimpleGraph.mem_edgeSet] at hx
      obtain ⟨i, hi, rfl⟩ := L.node_of (adj_names hx).1
      obtain ⟨j, hj, rfl⟩ := L.node_of (adj_names hx).2
      exact ⟨i, j, L.weights_isSome.2 ⟨hi, hj, hx⟩⟩
  refine (C17_degrees_preserved L.holds L.caches L.symSimple hl 100 t).bind ?_
  rintro ⟨net', t'⟩ ⟨h1, h2, h3, g', h4, h5, h6, h7⟩
  simp only at h1 h2 h3 h4 h5 h6 h7
  have hdist : Distinct net' := by
    intro i j hi hj h
    rw [h2] at h
    exact L.distinct i j (h1 ▸ hi) (h1 ▸ hj) h
  obtain ⟨s, qs, e2, k1, k2, k3⟩ := print_pairs h4 hdist (by intro i hi; rw [h2]; exact L.words i (h1 ▸ hi)) h5.loop
  simp only [e2, Res.ofOption, Res.bind_ok, Res.pure_eq, Res.holds_ok]
  refine ⟨s, qs, rfl, k1, k2, ?_, ?_⟩
  · rintro ⟨a, b⟩ hp
    obtain ⟨hlt, i, j, hi, hj, rfl, rfl, _⟩ := (k3 a b).1 hp
    rw [h2] at hlt ⊢
    exact ⟨hlt, L.label_mem (h1 ▸ hi), L.label_mem (h1 ▸ hj)⟩
  · have hadj : ∀ a b, (graph qs).Adj a b ↔ ∃ i j, i < net.n ∧ j < net.n ∧ net.label i = a ∧ net.label j = b ∧ (g' i j).isSome := by
      intro a b
      constructor
      · rintro ⟨_, h | h⟩
        · obtain ⟨_, i, j, hi, hj, ha, hb, hg⟩ := (k3 a b).1 h
          rw [h2] at ha hb
          exact ⟨i, j, h1 ▸ hi, h1 ▸ hj, ha, hb, hg⟩
        · obtain ⟨_, i, j, hi, hj, ha, hb, hg⟩ := (k3 b a).1 h
          rw [h2] at ha hb
          exact ⟨j, i, h1 ▸ hj, h1 ▸ hi, hb, ha, by rw [h5.sym]; exact hg⟩
      · rintro ⟨i, j, hi, hj, rfl, rfl, hg⟩
        have hne : net.label i ≠ net.label j := by
          intro h
          obtain rfl := L.distinct i j hi hj h
          rw [h5.loop] at hg
          simp at hg
        refine ⟨hne, ?_⟩
        rw [k3, k3]
        rcases str_cases hne with hlt | hlt
        · exact Or.inl ⟨hlt, i, j, h1 ▸ hi, h1 ▸ hj, by rw [h2], by rw [h2], hg⟩
        · exact Or.inr ⟨hlt, j, i, h1 ▸ hj, h1 ▸ hi, by rw [h2], by rw [h2], by rw [h5.sym]; exact hg⟩
    intro a
    by_cases ha : a ∈ names ps
    · obtain ⟨i, hi, rfl⟩ := L.node_of ha
      rw [← L.degree_eq hi, ← h6]
      unfold degree WG.degree
      have : (graph qs).neighborSet (net.label i) =
          ↑(((Finset.range net.n).filter fun j => (g' i j).isSome).image net.label) := by
        ext b
        rw [SimpleGraph.mem_neighborSet, hadj, Finset.mem_coe, Finset.mem_image]
        simp only [Finset.mem_filter, Finset.mem_range]
        constructor
        · rintro ⟨k, j, hk, hj, ek, rfl, hg⟩
          obtain rfl := L.distinct k i hk hi ek
          exact ⟨j, ⟨hj, hg⟩, rfl⟩
        · rintro ⟨j, ⟨hj, hg⟩, rfl⟩
          exact ⟨i, j, hi, hj, rfl, rfl, hg⟩
      rw [this, Set.ncard_coe_finset, Finset.card_image_of_injOn]
      intro j hj k hk h
      have hj := (Finset.mem_filter.1 (Finset.mem_coe.1 hj)).1
      have hk := (Finset.mem_filter.1 (Finset.mem_coe.1 hk)).1
      exact L.distinct j k (Finset.mem_range.1 hj) (Finset.mem_range.1 hk) h
    · have z1 : (graph qs).neighborSet a = ∅ := by
        ext b
        rw [SimpleGraph.mem_neighborSet, hadj]
        simp only [Set.mem_empty_iff_false, iff_false]
        rintro ⟨i, _, hi, _, rfl, _⟩
        exact ha (L.label_mem hi)
      have z2 : (graph ps).neighborSet a = ∅ := by
        ext b
        simp only [SimpleGraph.mem_neighborSet, Set.mem_empty_iff_false, iff_false]
        exact fun h => ha (adj_names h).1
      unfold degree
      rw [z1, z2]

/-- **C147**, limits: without the seed the program passes NULL to `atoi`, although it says that it checks its arguments; and for a file
without links it reads beyond its arrays as soon as it draws. -/
theorem C147_crash {files : String → Option (List Char)} {f : String} (t : Tape) :
    netrandomize files [f] t = .ub ∧
    ∀ text ps, files f = some text → Says text ps → (graph ps).edgeSet = ∅ → ∀ seed more u u1 u2 u3, (0 < u ∧ u < 1) →
      (0 ≤ u1 ∧ u1 < 1) → (0 ≤ u2 ∧ u2 < 1) → (0 ≤ u3 ∧ u3 < 1) →
      netrandomize files (f :: seed :: more) (u :: u1 :: u2 :: u3 :: t) = .ub := by
  refine ⟨rfl, ?_⟩
  intro text ps hf hs hno seed more u u1 u2 u3 hu h1 h2 h3
  obtain ⟨net, e, L⟩ := load_ok hf hs
  obtain ⟨k1, k2, L'⟩ := L.totalLinks
  rw [hno, Set.ncard_empty] at k1
  have hll : linkList (TotalNLinks net true).2 = [] := by
    unfold linkList
    rw [List.flatMap_eq_nil_iff]
    intro i hi
    have hi := List.mem_range.1 hi
    have : (TotalNLinks net true).2.neig i = [] := by
      rw [List.eq_nil_iff_forall_not_mem]
      intro l hl
      obtain ⟨j, hj, _, hg⟩ := (L'.holds i hi).2.1 l hl
      have := (L'.weights_isSome.1 (by rw [hg]; rfl)).2.2
      rw [← SimpleGraph.mem_edgeSet, hno] at this
      exact this
    rw [this]
    rfl
  have hceil : ⌈(100 : ℚ) * ((0 : ℕ) : ℚ) + u⌉.toNat = 1 := by
    have : ⌈(100 : ℚ) * ((0 : ℕ) : ℚ) + u⌉ = 1 := by
      rw [Int.ceil_eq_iff]; constructor <;> push_cast <;> linarith
    rw [this]; rfl
  have hr : RandomizeSymmetricNetwork net 100 (u :: u1 :: u2 :: u3 :: t) = .ub := by
    unfold RandomizeSymmetricNetwork
    generalize TotalNLinks net true = T at *
    obtain ⟨nl, net1⟩ := T
    simp only at k1 hll
    subst k1
    simp only [draw, hu.1.le, hu.2, and_self, if_true, Res.bind_ok, hceil]
    simp [linkArray, hll, randomizeLoop, pickFour, h1, h2, h3]
  rw [netrandomize, e]
  simp only [Res.bind_ok, hr, Res.bind_ub]

/-- **C147**, limits: `netrandomize` never ends if no two links without a common label can be switched, whatever the random numbers; for
instance if every two links have a common label (stars, a single link), or if all labels are linked. -/
theorem C147_never_ends {files : String → Option (List Char)} {f : String} {text : List Char} {ps : List (String × String)}
    (hf : files f = some text) (hs : Says text ps) (hlink : (graph ps).edgeSet.Nonempty)
    (hno : ∀ a b c d, (graph ps).Adj a b → (graph ps).Adj c d → c ≠ a → c ≠ b → d ≠ a → d ≠ b → (graph ps).Adj a d ∨ (graph ps).Adj b c)
    (seed : String) (more : List String) (t : Tape) : netrandomize files (f :: seed :: more) t = .starved := by
  obtain ⟨net, e, L⟩ := load_ok hf hs
  have hl : ∃ i j, (weights ps net i j).isSome := by
    obtain ⟨x, hx⟩ := hlink
    induction x with
    | _ a b =>
      rw [SimpleGraph.mem_edgeSet] at hx
      obtain ⟨i, hi, rfl⟩ := L.node_of (adj_names hx).1
      obtain ⟨j, hj, rfl⟩ := L.node_of (adj_names hx).2
      exact ⟨i, j, L.weights_isSome.2 ⟨hi, hj, hx⟩⟩
  have hr : RandomizeSymmetricNetwork net 100 t = .starved := by
    refine C17_never_ends L.holds L.caches L.symSimple hl ?_ (by norm_num) t
    intro i j k l h1 h2 d1 d2 d3 d4
    obtain ⟨hi, hj, a1⟩ := L.weights_isSome.1 h1
    obtain ⟨hk, hl, a2⟩ := L.weights_isSome.1 h2
    have ne : ∀ {x y}, x < net.n → y < net.n → x ≠ y → net.label x ≠ net.label y := fun hx hy h e => h (L.distinct _ _ hx hy e)
    rcases hno _ _ _ _ a1 a2 (ne hk hi d1) (ne hk hj d2) (ne hl hi d3) (ne hl hj d4) with h | h
    · exact Or.inl (L.weights_isSome.2 ⟨hi, hl, h⟩)
    · exact Or.inr (L.weights_isSome.2 ⟨hj, hk, h⟩)
  rw [netrandomize, e]
  simp only [Res.bind_ok, hr, Res.bind_starved]

/-- The file `a b`: the program never ends. -/
example (t : Tape) : netrandomize (fun _ => some (tex "a b\n")) ["G", "1"] t = .starved := by
  refine C147_never_ends (ps := [("a", "b")]) rfl ?_ ?_ ?_ _ _ t
  · have e : fileFields (tex "a b\n") = [["a", "b"]] := by decide +kernel
    rw [Says, e]
    exact .cons ⟨by decide +kernel, by decide +kernel, [], rfl⟩ .nil
  · exact ⟨s("a", "b"), by simp [SimpleGraph.mem_edgeSet, graph]⟩
  · intro a b c d h1 h2 d1 d2 d3 d4
    simp only [graph, List.mem_singleton, Prod.mk.injEq] at h1 h2
    rcases h1 with ⟨_, ⟨rfl, rfl⟩ | ⟨rfl, rfl⟩⟩ <;> rcases h2 with ⟨_, ⟨rfl, rfl⟩ | ⟨rfl, rfl⟩⟩ <;> simp at d1 d2

/-! ## lapspec -/

open Polynomial

/-- The network of the labels of the file. -/
abbrev labelGraph (ps : List (String × String)) : SimpleGraph {a // a ∈ names ps} := (graph ps).comap Subtype.val

/-- Nodes and labels. -/
noncomputable def Loaded.equiv {ps : List (String × String)} {net : Net} (L : Loaded ps net) : Fin net.n ≃ {a // a ∈ names ps} :=
  Equiv.ofBijective (fun i => ⟨net.label i, L.label_mem i.2⟩) (by
    constructor
    · intro i j h
      exact Fin.ext (L.distinct i j i.2 j.2 (congrArg Subtype.val h))
    · rintro ⟨a, ha⟩
      obtain ⟨i, hi, rfl⟩ := L.node_of ha
      exact ⟨⟨i, hi⟩, rfl⟩)

/-- The two networks are the same. -/
noncomputable def Loaded.iso {ps : List (String × String)} {net : Net} (L : Loaded ps net) :
    graphOf net.n (weights ps net) ≃g labelGraph ps where
  toEquiv := L.equiv
  map_rel_iff' := by
    intro i j
    show (graph ps).Adj (net.label i) (net.label j) ↔ i ≠ j ∧ ((weights ps net i j).isSome ∨ (weights ps net j i).isSome)
    rw [L.weights_isSome, L.weights_isSome]
    constructor
    · intro h
      refine ⟨?_, Or.inl ⟨i.2, j.2, h⟩⟩
      rintro rfl
      exact h.1 rfl
    · rintro ⟨_, h | h⟩
      · exact h.2.2
      · exact h.2.2.symm

open Classical in
theorem lap_iso {V W : Type} [Fintype V] [Fintype W] [DecidableEq V] [DecidableEq W] {G : SimpleGraph V} {H : SimpleGraph W} (e : G ≃g H) :
    (H.lapMatrix ℝ).charpoly = (G.lapMatrix ℝ).charpoly := by
  have : H.lapMatrix ℝ = Matrix.reindex e.toEquiv e.toEquiv (G.lapMatrix ℝ) := by
    ext i j
    simp only [Matrix.reindex_apply, Matrix.submatrix_apply]
    simp only [SimpleGraph.lapMatrix, SimpleGraph.degMatrix, Matrix.sub_apply, Matrix.diagonal_apply, SimpleGraph.adjMatrix_apply]
    obtain ⟨x, rfl⟩ := e.toEquiv.surjective i
    obtain ⟨y, rfl⟩ := e.toEquiv.surjective j
    rw [Equiv.symm_apply_apply, Equiv.symm_apply_apply]
    have hd : H.degree (e.toEquiv x) = G.degree x := e.degree_eq x
    have ha : H.Adj (e.toEquiv x) (e.toEquiv y) ↔ G.Adj x y := e.map_adj_iff
    rw [hd]
    simp only [EmbeddingLike.apply_eq_iff_eq, ha]
  rw [this, Matrix.charpoly_reindex]

open Classical in
/-- **C148**: for a well-formed file with lines, `lapspec` prints the eigenvalues of the Laplacian of the network, in increasing order
and with their multiplicities, numbered from 1. There are as many zeros as connected components. -/
theorem C148_lapspec {files : String → Option (List Char)} {f : String} {text : List Char} {ps : List (String × String)}
    (hf : files f = some text) (hs : Says text ps) (hne : ps ≠ []) (more : List String) :
    ∃ ev : List ℝ, lapspec files (f :: more) = .ok (some ((List.range' 1 (names ps).length).zip ev)) ∧
      ev.length = (names ps).length ∧ ev.Pairwise (· ≤ ·) ∧ ((labelGraph ps).lapMatrix ℝ).charpoly = (ev.map fun x => X - C x).prod ∧
      ev.count 0 = Nat.card (labelGraph ps).ConnectedComponent := by
  obtain ⟨net, e, L⟩ := load_ok hf hs
  have hn : 0 < net.n := by
    rw [L.len]
    obtain ⟨p, hp⟩ := List.exists_mem_of_ne_nil _ hne
    exact List.length_pos_of_mem (mem_names.2 ⟨p, hp, Or.inl rfl⟩)
  obtain ⟨ev, net', e1, h1, h2, h3, _, h5, _⟩ := C141_spectrum L.holds L.caches L.symSimple hn
  refine ⟨ev, ?_, by rw [h1, L.len], h2, ?_, ?_⟩
  · have key : ∀ (k : ℕ) (pre l : List ℝ), pre.length = k →
        (List.range' k l.length).mapM (fun i => (((pre ++ l)[i]?).map fun x => (i + 1, x))) =
          some ((List.range' (k + 1) l.length).zip l) := by
      intro k pre l
      induction l generalizing k pre with
      | nil => intro _; rfl
      | cons x l ih =>
        intro hk
        have := ih (k + 1) (pre ++ [x]) (by simp [hk])
        simp only [List.append_assoc, List.singleton_append] at this
        rw [List.length_cons, List.range'_succ, List.mapM_cons, this]
        have hx : (pre ++ x :: l)[k]? = some x := by
          rw [List.getElem?_append_right (by omega)]
          simp [hk]
        rw [hx]
        rfl
    have := key 0 [] ev rfl
    rw [lapspec, e]
    simp only [Res.bind_ok, e1, Res.ofOption, CountNodes]
    rw [List.range_eq_range', ← h1]
    simp only [List.nil_append] at this
    rw [this]
    simp only [Res.bind_ok, Res.pure_eq]
    rw [← L.len, h1]
  · rw [← h3]
    exact lap_iso L.iso
  · rw [h5]
    exact Nat.card_congr L.iso.connectedComponentEquiv

/-! ## Examples -/

example : (match getgiant someFiles ["A"] with | .ok r => r.map String.ofList | _ => none) = some "a b\nb c\n" := by decide +kernel

example : ∃ s qs, getgiant someFiles ["A"] = .ok (some s) ∧ Lists s qs ∧ qs.Nodup := by
  obtain ⟨s, qs, h1, h2, h3, _⟩ := C146_getgiant (files := someFiles) (f := "A") rfl saysA (by simp) []
  exact ⟨s, qs, h1, h2, h3⟩

example : ∃ ev : List ℝ, ev.length = 4 ∧ lapspec someFiles ["A"] = .ok (some ([1, 2, 3, 4].zip ev)) := by
  obtain ⟨ev, h1, h2, _⟩ := C148_lapspec (files := someFiles) (f := "A") rfl saysA (by simp) []
  have hl : (names [("a", "b"), ("b", "c"), ("c", "b"), ("d", "d")]).length = 4 := by decide +kernel
  rw [hl] at h1 h2
  exact ⟨ev, h2, h1⟩

example (t : Tape) : netrandomize someFiles ["A"] t = .ub := (C147_crash t).1

end UT
