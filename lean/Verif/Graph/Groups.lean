import Verif.Graph.Sets

/-!
# C88, C89: networks of groups
-/

set_option linter.unusedSimpArgs false

namespace GR

/-- **C88**: `BuildNetFromGroup` returns the nodes of the group, in order, with their labels, and exactly the
links of the network among them, with their weights; all queries on it are right. -/
theorem C88_group_net {src : Net} {g : WG} (h : Holds src g) (hl : LabelsOK src) (hd : Distinct src)
    (hf : Fit src) {group : List ℕ} (hr : ∀ v ∈ group, v < src.n) (hnd : group.Nodup) :
    ∃ net, BuildNetFromGroup src group = some net ∧ IsSub src g group net :=
  cleanNet_ok h hl hd hf hr hnd

/-- Links whose target has not been set go to the first node. -/
theorem rewireNum_soft {net : Net} (hs : ∀ i, i < net.n → ∀ l ∈ net.neig i, l.ref = none) :
    RewireAdjacencyByNum net = some { net with
      neig := fun i => if i < net.n then (net.neig i).map fun l =>
        { l with ref := some 0, nodeLabel := net.label 0 } else net.neig i
      degree := fun i => if i < net.n then 0 else net.degree i
      strength := fun i => if i < net.n then 0 else net.strength i } := by
  unfold RewireAdjacencyByNum
  have hrows : (List.range net.n).mapM (fun i => (net.neig i).mapM (fun l : Link =>
      if nodeField l < net.n then some { l with ref := some (nodeField l), nodeLabel := net.label (nodeField l) }
      else none)) = some ((List.range net.n).map fun i => (net.neig i).map fun l =>
        ({ l with ref := some 0, nodeLabel := net.label 0 } : Link)) := by
    apply mapM_some
    intro i hi
    rw [List.mem_range] at hi
    apply mapM_some
    intro l hlm
    have : nodeField l = 0 := by simp [nodeField, hs i hi l hlm]
    rw [this, if_pos (by omega)]
  simp only [Option.bind_eq_bind] at hrows ⊢
  rw [hrows]
  simp only [Option.bind_some]
  congr 2
  funext i
  split_ifs with hi
  · simp [hi]
  · rfl

/-- **C89 (what holds)**: `BuildNetFromGroupNeig` returns, for each node of the group, the node and after it its
neighbours in other groups (again for each node of the group they are linked with); each node has as
many links as the network has from it to nodes in the list, but every link points to the first node. -/
theorem C89_first_node_partial {src : Net} {g : WG} (h : Holds src g) (hl : LabelsOK src) (hd : Distinct src)
    (hf : Fit src) (inGroup : ℕ → Option ℕ) {group : List ℕ} (hr : ∀ v ∈ group, v < src.n) :
    ∃ net, BuildNetFromGroupNeig src inGroup group = some net ∧
      (List.range net.n).map net.label = (neigNodes src inGroup group).map src.label ∧
      ∀ k v, (neigNodes src inGroup group)[k]? = some v →
        (net.neig k).length = ((src.neig v).filter fun l =>
          l.ref.any fun j => (neigNodes src inGroup group).contains j).length ∧
        ∀ l ∈ net.neig k, l.ref = some 0 ∧ l.nodeLabel = net.label 0 := by
  set S := neigNodes src inGroup group with hS
  have hSr : ∀ v ∈ S, v < src.n := by
    intro v hv
    rw [hS, neigNodes, List.mem_flatMap] at hv
    obtain ⟨u, hu, hv⟩ := hv
    rcases List.mem_cons.1 hv with rfl | hv
    · exact hr v hu
    · exact targets_range h u (hr u hu) v (List.mem_filter.1 hv).1
  obtain ⟨net, e, hb⟩ := setNodes_ok src hf (labels_nodup h hl hd) S [] CreateHeaderGraph hSr (empty_built src)
  simp only [List.nil_append] at hb
  have hlt : ∀ {k v : ℕ}, S[k]? = some v → k < S.length := by
    intro k v hk
    by_contra hc
    rw [List.getElem?_eq_none (by omega)] at hk
    simp at hk
  have hdict : ∀ v < src.n, (dictFind net (src.label v)).isSome = S.contains v := by
    intro v hv
    rw [Bool.eq_iff_iff, List.contains_iff_mem]
    unfold dictFind
    rw [List.find?_isSome]
    constructor
    · rintro ⟨i, hi, hlab⟩
      simp only [List.mem_reverse, List.mem_range, decide_eq_true_eq, hb.n] at hi hlab
      rw [hb.label i _ (List.getElem?_eq_getElem hi)] at hlab
      exact hd _ _ (hSr _ (List.getElem_mem hi)) hv hlab ▸ List.getElem_mem hi
    · intro hm
      refine ⟨S.idxOf v, ?_, ?_⟩
      · simp [hb.n, List.idxOf_lt_length_iff, hm]
      · simp [hb.label _ v (getElem_idxOf hm)]
  have hrow : ∀ k v, S[k]? = some v → (CleanAdjacencies net).neig k
      = ((src.neig v).filter fun l => l.ref.any fun j => S.contains j).map soft := by
    intro k v hk
    have hkl := hlt hk
    have hvn : v < src.n := hSr v (List.mem_of_getElem? hk)
    simp only [CleanAdjacencies, hb.n, hkl, if_true, hb.neig k v hk, List.filter_map]
    congr 1
    apply List.filter_congr
    intro l hlm
    obtain ⟨j, hj, ej, _⟩ := (h v hvn).2.1 l hlm
    have el := hl v hvn l hlm j ej
    simp only [Function.comp, soft, el, ej, Option.any_some]
    exact hdict j hj
  have hrw := rewireNum_soft (net := CleanAdjacencies net) (by
    intro i hi l hlm
    have hi' : i < S.length := by simpa [CleanAdjacencies, hb.n] using hi
    rw [hrow i _ (List.getElem?_eq_getElem hi')] at hlm
    obtain ⟨x, _, rfl⟩ := List.mem_map.1 hlm
    rfl)
  refine ⟨_, by unfold BuildNetFromGroupNeig; rw [← hS, e]; exact hrw, ?_, ?_⟩
  · show (List.range net.n).map net.label = S.map src.label
    rw [hb.n]
    apply List.ext_getElem
    · simp
    · intro k h1 h2
      simp at h1
      simp [hb.label k _ (List.getElem?_eq_getElem h1)]
  · intro k v hk
    have hkl := hlt hk
    have hn : (CleanAdjacencies net).n = S.length := by simpa [CleanAdjacencies] using hb.n
    simp only [hn, hkl, if_true]
    refine ⟨?_, ?_⟩
    · rw [hrow k v hk]; simp
    · intro l hlm
      obtain ⟨x, _, rfl⟩ := List.mem_map.1 hlm
      exact ⟨rfl, rfl⟩

theorem targets_nodup {src : Net} {g : WG} (h : Holds src g) {u : ℕ} (hu : u < src.n) : (targets src u).Nodup := by
  unfold targets
  obtain ⟨h1, h2, -⟩ := h u hu
  have : ((src.neig u).filterMap Link.ref).map some = (src.neig u).map Link.ref := by
    have key : ∀ L : List Link, (∀ l ∈ L, ∃ j, l.ref = some j) → (L.filterMap Link.ref).map some = L.map Link.ref := by
      intro L
      induction L with
      | nil => intro _; rfl
      | cons l L ih =>
        intro hL
        obtain ⟨j, e⟩ := hL l (by simp)
        rw [List.filterMap_cons_some e, List.map_cons, ih fun l' hl' => hL l' (by simp [hl']), List.map_cons, e]
    exact key _ fun l hl => by obtain ⟨j, -, e, -⟩ := h2 l hl; exact ⟨j, e⟩
  rw [← this] at h1
  exact h1.of_map _

open Classical in
/-- **C89**: how often a node is in the network of `BuildNetFromGroupNeig`: once for its own place in the group, and once for every node of the
group that it is linked from and that is in another group. -/
theorem C89_copies {src : Net} {g : WG} (h : Holds src g) (hl : LabelsOK src) (hd : Distinct src) (hf : Fit src)
    (inGroup : ℕ → Option ℕ) {group : List ℕ} (hr : ∀ v ∈ group, v < src.n) :
    ∃ net, BuildNetFromGroupNeig src inGroup group = some net ∧ ∀ v < src.n,
      ((List.range net.n).map net.label).count (src.label v) =
        group.count v + group.countP fun u => decide ((g u v).isSome ∧ inGroup u ≠ inGroup v) := by
  obtain ⟨net, e, hlab, -⟩ := C89_first_node_partial h hl hd hf inGroup hr
  refine ⟨net, e, fun v hv => ?_⟩
  rw [hlab]
  have hcount : ∀ S : List ℕ, (∀ u ∈ S, u < src.n) → (S.map src.label).count (src.label v) = S.count v := by
    intro S
    induction S with
    | nil => intro _; rfl
    | cons u S ih =>
      intro hS
      rw [List.map_cons, List.count_cons, List.count_cons, ih fun w hw => hS w (by simp [hw])]
      congr 1
      have hu := hS u (by simp)
      by_cases huv : u = v
      · subst huv; simp
      · have : src.label u ≠ src.label v := fun h => huv (hd _ _ hu hv h)
        simp [huv, this]
  have hrow : ∀ u ∈ group, (u :: (targets src u).filter fun w => decide (inGroup w ≠ inGroup u)).count v =
      (if u = v then 1 else 0) + if (g u v).isSome ∧ inGroup u ≠ inGroup v then 1 else 0 := by
    intro u hu
    have hun := hr u hu
    rw [List.count_cons, add_comm]
    congr 1
    · simp
    · rw [((targets_nodup h hun).filter _).count]
      refine if_congr ?_ rfl rfl
      rw [List.mem_filter, targets_mem h hun, decide_eq_true_eq, ne_comm]
  have hmem : ∀ u ∈ neigNodes src inGroup group, u < src.n := by
    intro w hw
    rw [neigNodes, List.mem_flatMap] at hw
    obtain ⟨u, hu, hw⟩ := hw
    rcases List.mem_cons.1 hw with rfl | hw
    · exact hr _ hu
    · exact targets_range h u (hr u hu) w (List.mem_filter.1 hw).1
  rw [hcount _ hmem, neigNodes, List.count_flatMap]
  clear hlab hmem e
  induction group with
  | nil => rfl
  | cons u group ih =>
    rw [List.map_cons, List.sum_cons, ih (fun w hw => hr w (by simp [hw])) (fun w hw => hrow w (by simp [hw]))]
    have := hrow u (by simp)
    simp only [Function.comp] at this ⊢
    rw [this, List.count_cons, List.countP_cons]
    simp only [beq_iff_eq, decide_eq_true_eq]
    omega

/-- **C89 (refuted)**: the links are not those among the nodes: for the group of one end of a link, the first
node gets a link to itself. -/
theorem C89_refuted : ¬ ∀ (src : Net) (g : WG), Holds src g → LabelsOK src → Distinct src → Fit src →
    ∀ (inGroup : ℕ → Option ℕ) (group : List ℕ), (∀ v ∈ group, v < src.n) → group.Nodup →
    ∃ net S, BuildNetFromGroupNeig src inGroup group = some net ∧ S.Nodup ∧
      (∀ v, v ∈ S ↔ v ∈ group ∨ ∃ u ∈ group, (g u v).isSome) ∧ IsSub src g S net := by
  intro hall
  obtain ⟨net, S, e, hnd, hS, hsub⟩ := hall _ _ twoPairs_holds twoPairs_labels twoPairs_distinct twoPairs_fit
    (fun v => some v) [0] (by decide) (by decide)
  obtain ⟨net', e', hlab, hrows⟩ := C89_first_node_partial twoPairs_holds twoPairs_labels twoPairs_distinct
    twoPairs_fit (fun v => some v) (group := [0]) (by decide)
  rw [e] at e'
  obtain rfl := Option.some.inj e'
  have hnodes : neigNodes twoPairs (fun v => some v) [0] = [0, 1] := by decide +kernel
  rw [hnodes] at hlab hrows
  have hlen : net.n = 2 := by
    have := congrArg List.length hlab
    simpa using this
  obtain ⟨hl1, hl2⟩ := hrows 0 0 rfl
  have hone : (net.neig 0).length = 1 := by rw [hl1]; decide +kernel
  obtain ⟨l, hl⟩ := List.length_eq_one_iff.1 hone
  have hl0 := (hl2 l (by rw [hl]; simp)).1
  obtain ⟨j, _, ej, hg⟩ := (hsub.links 0 (by omega)).2.1 l (by rw [hl]; simp)
  rw [hl0] at ej
  obtain rfl := Option.some.inj ej
  -- no node is linked with itself
  unfold induced at hg
  cases hs : S[0]? with
  | none => rw [hs] at hg; simp at hg
  | some v =>
    rw [hs] at hg
    simp only [Option.bind_some] at hg
    have : twoPairsW v v = none := by unfold twoPairsW; rw [if_neg (by omega), if_neg (by omega)]
    rw [this] at hg
    simp at hg

example : (BuildNetFromGroup twoPairs [3, 0, 2]).map (fun net =>
    (net.n, (List.range net.n).map fun i => (net.label i, net.neig i)))
    = some (3, [("d", [⟨"c", some 2, 5⟩]), ("a", []), ("c", [⟨"d", some 0, 5⟩])]) := by
  decide +kernel

/-- The node 1 of a path 0 — 1 — 2, with group {0, 2}, is created twice. -/
example : neigNodes { twoPairs with n := 3, neig := fun i => match i with
    | 0 => [⟨"b", some 1, 1⟩] | 1 => [⟨"a", some 0, 1⟩, ⟨"c", some 2, 1⟩] | 2 => [⟨"b", some 1, 1⟩] | _ => [] }
    (fun v => if v = 1 then some 1 else some 0) [0, 2] = [0, 1, 2, 1] := by decide +kernel

end GR
