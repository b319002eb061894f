import Verif.Graph.SetsModel
import Verif.Graph.Sum
import Verif.BFS.Strong

/-!
# C83, C84: the networks of connected sets
-/

set_option linter.unusedSimpArgs false

namespace GR

/-- The links among the nodes in `S`, the nodes numbered by their position in `S`. -/
def induced (g : WG) (S : List ℕ) : WG := fun a b => S[a]?.bind fun u => S[b]?.bind fun v => g u v

/-- A network whose nodes are those in `S`, with the links of `src` among them. -/
structure IsSub (src : Net) (g : WG) (S : List ℕ) (net : Net) : Prop where
  labels : (List.range net.n).map net.label = S.map src.label
  links : Holds net (induced g S)
  link_labels : LabelsOK net
  caches : CachesOK net

/-! ## Building the nodes -/

/-- What `setNodes` leaves. -/
structure Built (src : Net) (S : List ℕ) (net : Net) : Prop where
  n : net.n = S.length
  label : ∀ k v, S[k]? = some v → net.label k = src.label v
  neig : ∀ k v, S[k]? = some v → net.neig k = (src.neig v).map soft
  deg : ∀ k, k < S.length → net.degree k = 0 ∧ net.strength k = 0

theorem get_append_one {S : List ℕ} {x k v : ℕ} (h : (S ++ [x])[k]? = some v) :
    (k < S.length ∧ S[k]? = some v) ∨ (k = S.length ∧ v = x) := by
  have hk : k < (S ++ [x]).length := by
    by_contra hc
    rw [List.getElem?_eq_none (by omega)] at h
    simp at h
  simp at hk
  by_cases hkl : k < S.length
  · left
    rw [List.getElem?_append_left hkl] at h
    exact ⟨hkl, h⟩
  · right
    obtain rfl : k = S.length := by omega
    simp at h
    exact ⟨rfl, h.symm⟩

theorem setNodes_ok (src : Net) (hf : Fit src)
    (hn : ∀ i, i < src.n → ((src.neig i).map Link.nodeLabel).Nodup) :
    ∀ (S T : List ℕ) (net : Net), (∀ v ∈ S, v < src.n) → Built src T net →
      ∃ net', setNodes src S net = some net' ∧ Built src (T ++ S) net'
  | [], T, net, _, h => ⟨net, rfl, by simpa using h⟩
  | v :: S, T, net, hS, h => by
    have hv := hS v (by simp)
    simp only [setNodes, CreateNodeGraph, hf v hv, if_true, Option.bind_eq_bind, Option.bind_some]
    rw [copyAdj_ok]
    · have hb : Built src (T ++ [v])
          { n := net.n + 1
            label := Function.update net.label net.n (src.label v)
            neig := Function.update (Function.update net.neig net.n []) net.n
              ((Function.update net.neig net.n []) net.n ++ (src.neig v).map soft)
            degree := Function.update net.degree net.n 0
            strength := Function.update net.strength net.n 0 } := by
        refine ⟨by simp [h.n], ?_, ?_, ?_⟩
        · intro k w hk
          rcases get_append_one hk with ⟨h1, h2⟩ | ⟨h1, h2⟩
          · simp only [h.n]
            rw [Function.update_of_ne (by omega)]
            exact h.label k w h2
          · subst h1 h2; simp [h.n]
        · intro k w hk
          rcases get_append_one hk with ⟨h1, h2⟩ | ⟨h1, h2⟩
          · simp only [h.n]
            rw [Function.update_of_ne (by omega), Function.update_of_ne (by omega)]
            exact h.neig k w h2
          · subst h1 h2; simp [h.n]
        · intro k hk
          simp only [h.n]
          by_cases hk' : k = T.length
          · subst hk'; simp
          · rw [Function.update_of_ne hk', Function.update_of_ne hk']
            exact h.deg k (by simp at hk; omega)
      obtain ⟨net', h1, h2⟩ := setNodes_ok src hf hn S (T ++ [v]) _
        (fun w hw => hS w (by simp [hw])) hb
      exact ⟨net', h1, by simpa using h2⟩
    · simpa using hn v hv

theorem labels_nodup {src : Net} {g : WG} (h : Holds src g) (hl : LabelsOK src) (hd : Distinct src) :
    ∀ i, i < src.n → ((src.neig i).map Link.nodeLabel).Nodup := by
  intro i hi
  obtain ⟨h1, h2, _⟩ := h i hi
  have e : (src.neig i).map Link.nodeLabel
      = ((src.neig i).map Link.ref).map fun r => src.label (r.getD 0) := by
    rw [List.map_map]
    apply List.map_congr_left
    intro l hlm
    obtain ⟨j, _, er, _⟩ := h2 l hlm
    simp [er, hl i hi l hlm j er]
  rw [e]
  refine List.Nodup.map_on ?_ h1
  intro x hx y hy exy
  obtain ⟨l, hlm, rfl⟩ := List.mem_map.1 hx
  obtain ⟨m, hmm, rfl⟩ := List.mem_map.1 hy
  obtain ⟨j, hj, ej, _⟩ := h2 l hlm
  obtain ⟨k, hk, ek, _⟩ := h2 m hmm
  rw [ej, ek] at exy ⊢
  rw [hd j k hj hk exy]

theorem getElem_idxOf {S : List ℕ} {v : ℕ} (h : v ∈ S) : S[S.idxOf v]? = some v := by
  have hlt : S.idxOf v < S.length := List.idxOf_lt_length_iff.2 h
  rw [List.getElem?_eq_getElem hlt, List.getElem_idxOf]

/-- The dictionary of the new network. -/
theorem dict_built {src net : Net} {S : List ℕ} (hd : Distinct src) (hS : ∀ v ∈ S, v < src.n)
    (hSn : S.Nodup) (hn : net.n = S.length) (hlab : ∀ k v, S[k]? = some v → net.label k = src.label v)
    {v : ℕ} (hv : v < src.n) :
    dictFind net (src.label v) = if v ∈ S then some (S.idxOf v) else none := by
  have hinj : ∀ i k, i < net.n → k < net.n → net.label i = net.label k → i = k := by
    intro i k hi hk e
    rw [hn] at hi hk
    rw [hlab i _ (List.getElem?_eq_getElem hi), hlab k _ (List.getElem?_eq_getElem hk)] at e
    have := hd _ _ (hS _ (List.getElem_mem hi)) (hS _ (List.getElem_mem hk)) e
    exact (List.Nodup.getElem_inj_iff hSn).1 this
  split_ifs with hm
  · have hlt : S.idxOf v < net.n := by rw [hn]; exact List.idxOf_lt_length_iff.2 hm
    have := dictFind_eq hlt hinj
    rwa [hlab _ v (getElem_idxOf hm)] at this
  · apply dictFind_none
    intro i hi e
    rw [hn] at hi
    rw [hlab i _ (List.getElem?_eq_getElem hi)] at e
    have := hd _ _ (hS _ (List.getElem_mem hi)) hv e
    exact hm (this ▸ List.getElem_mem hi)

/-! ## Rewiring -/

/-- A link to a node in `S`, renumbered. -/
def relink (S : List ℕ) (l : Link) : Link := { l with ref := l.ref.map fun j => S.idxOf j }

theorem rewire_built {src net : Net} {S : List ℕ} (hl : LabelsOK src)
    (hd : Distinct src) (hS : ∀ v ∈ S, v < src.n) (hSn : S.Nodup) (hn : net.n = S.length)
    (hlab : ∀ k v, S[k]? = some v → net.label k = src.label v) (L : ℕ → List Link)
    (hL : ∀ v ∈ S, ∀ l ∈ L v, l ∈ src.neig v ∧ ∃ j ∈ S, l.ref = some j)
    (hneig : ∀ k v, S[k]? = some v → net.neig k = (L v).map soft) :
    ∃ net', RewireAdjacencyByLabel net = some net' ∧ net'.n = S.length ∧
      (∀ k v, S[k]? = some v → net'.label k = src.label v ∧ net'.neig k = (L v).map (relink S)) ∧
      ∀ k, k < S.length → net'.degree k = 0 ∧ net'.strength k = 0 := by
  have hrw := rewire_ok (net := net) (rows := fun k => (L (S.getD k 0)).map (relink S)) (by
    intro k hk
    rw [hn] at hk
    have hget : S[k]? = some S[k] := List.getElem?_eq_getElem hk
    rw [hneig k _ hget]
    have hgd : S.getD k 0 = S[k] := by simp [List.getD, hget]
    simp only [hgd]
    have hmem : S[k] ∈ S := List.getElem_mem hk
    rw [mapM_some (h := fun l => { l with ref := some ((dictFind net l.nodeLabel).getD 0) })]
    · rw [List.map_map]
      congr 1
      apply List.map_congr_left
      intro l hlm
      obtain ⟨hls, j, hj, ej⟩ := hL _ hmem l hlm
      have el := hl _ (hS _ hmem) l hls j ej
      have := dict_built hd hS hSn hn hlab (hS j hj)
      rw [if_pos hj] at this
      simp [Function.comp, soft, relink, el, this, ej]
    · intro x hx
      obtain ⟨l, hlm, rfl⟩ := List.mem_map.1 hx
      obtain ⟨hls, j, hj, ej⟩ := hL _ hmem l hlm
      have el := hl _ (hS _ hmem) l hls j ej
      have := dict_built hd hS hSn hn hlab (hS j hj)
      rw [if_pos hj] at this
      simp [soft, el, this])
  refine ⟨_, hrw, hn, ?_, ?_⟩
  · intro k v hk
    have hkl : k < S.length := by
      by_contra hc
      rw [List.getElem?_eq_none (by omega)] at hk
      simp at hk
    refine ⟨hlab k v hk, ?_⟩
    have hgd : S.getD k 0 = v := by simp [List.getD, hk]
    simp only [hn, hkl, if_true, hgd]
  · intro k hk
    simp [hn, hk]

theorem mapM_none {α β : Type} {f : α → Option β} : ∀ {l : List α}, (∃ x ∈ l, f x = none) → l.mapM f = none
  | [], ⟨x, hx, _⟩ => by simp at hx
  | y :: l, ⟨x, hx, h⟩ => by
    rw [List.mapM_cons]
    cases hy : f y with
    | none => rfl
    | some b =>
      have : ∃ x ∈ l, f x = none := by
        rcases List.mem_cons.1 hx with rfl | hx
        · rw [hy] at h; simp at h
        · exact ⟨x, hx, h⟩
      rw [mapM_none this]
      rfl

/-- A link to a node that is not in the network: NULL pointer. -/
theorem rewire_none {net : Net} {i : ℕ} {l : Link} (hi : i < net.n) (hl : l ∈ net.neig i)
    (hd : dictFind net l.nodeLabel = none) : RewireAdjacencyByLabel net = none := by
  unfold RewireAdjacencyByLabel
  have : (List.range net.n).mapM (fun i => (net.neig i).mapM (fun l : Link =>
      (do let r ← dictFind net l.nodeLabel; return { l with ref := some r } : Option Link))) = none := by
    apply mapM_none
    refine ⟨i, by simpa using hi, mapM_none ⟨l, hl, ?_⟩⟩
    rw [hd]; rfl
  simp only [Option.bind_eq_bind] at this ⊢
  rw [this]
  rfl

/-- Rows of the links of `src` that end in `S`. -/
theorem sub_of_rows {src net : Net} {g : WG} {S : List ℕ} (h : Holds src g) (hl : LabelsOK src)
    (hS : ∀ v ∈ S, v < src.n) (hSn : S.Nodup) (hn : net.n = S.length) (L : ℕ → List Link)
    (hL : ∀ v ∈ S, (L v).Sublist (src.neig v) ∧
      ∀ l ∈ src.neig v, l ∈ L v ↔ ∃ j ∈ S, l.ref = some j)
    (hnet : ∀ k v, S[k]? = some v → net.label k = src.label v ∧ net.neig k = (L v).map (relink S))
    (hdeg : ∀ k, k < S.length → net.degree k = 0 ∧ net.strength k = 0) : IsSub src g S net := by
  constructor
  · rw [hn]
    apply List.ext_getElem
    · simp
    · intro k h1 h2
      simp at h1
      simp [(hnet k _ (List.getElem?_eq_getElem h1)).1]
  · intro k hk
    rw [hn] at hk ⊢
    have hget : S[k]? = some S[k] := List.getElem?_eq_getElem hk
    have hmem : S[k] ∈ S := List.getElem_mem hk
    obtain ⟨hsub, hiff⟩ := hL _ hmem
    obtain ⟨h1, h2, h3⟩ := h _ (hS _ hmem)
    rw [(hnet k _ hget).2]
    refine ⟨?_, ?_, ?_⟩
    · have e : (List.map (relink S) (L S[k])).map Link.ref
          = ((L S[k]).map Link.ref).map fun r => r.map fun j => S.idxOf j := by
        simp [List.map_map, relink, Function.comp_def]
      rw [e]
      refine List.Nodup.map_on ?_ (h1.sublist (hsub.map _))
      intro x hx y hy exy
      obtain ⟨l, hlm, rfl⟩ := List.mem_map.1 hx
      obtain ⟨m, hmm, rfl⟩ := List.mem_map.1 hy
      obtain ⟨j, hj, ej⟩ := (hiff l (hsub.subset hlm)).1 hlm
      obtain ⟨i, hi, ei⟩ := (hiff m (hsub.subset hmm)).1 hmm
      rw [ej, ei] at exy ⊢
      simp only [Option.map_some, Option.some.injEq] at exy ⊢
      exact (List.idxOf_inj hj).1 exy
    · intro x hx
      obtain ⟨l, hlm, rfl⟩ := List.mem_map.1 hx
      obtain ⟨j, hj, ej⟩ := (hiff l (hsub.subset hlm)).1 hlm
      obtain ⟨j', _, ej', hg⟩ := h2 l (hsub.subset hlm)
      rw [ej] at ej'
      obtain rfl := Option.some.inj ej'
      refine ⟨S.idxOf j, List.idxOf_lt_length_iff.2 hj, by simp [relink, ej], ?_⟩
      simp [induced, hget, getElem_idxOf hj, relink, hg]
    · intro b w hb
      simp only [induced, hget, Option.bind_some, Option.bind_eq_some_iff] at hb
      obtain ⟨v, hv, hgw⟩ := hb
      obtain ⟨l, hlm, er, ew⟩ := h3 v w hgw
      have hbl : b < S.length := by
        by_contra hc
        rw [List.getElem?_eq_none (by omega)] at hv
        simp at hv
      have hbv : S[b] = v := by
        rw [List.getElem?_eq_getElem hbl] at hv
        exact Option.some.inj hv
      have hvS : v ∈ S := hbv ▸ List.getElem_mem hbl
      refine ⟨relink S l, List.mem_map_of_mem ((hiff l hlm).2 ⟨v, hvS, er⟩), ?_, by simpa [relink] using ew⟩
      simp only [relink, er, Option.map_some, Option.some.injEq]
      rw [← hbv]
      exact hSn.idxOf_getElem b hbl
  · intro k hk x hx b hb
    rw [hn] at hk
    have hget : S[k]? = some S[k] := List.getElem?_eq_getElem hk
    have hmem : S[k] ∈ S := List.getElem_mem hk
    obtain ⟨hsub, hiff⟩ := hL _ hmem
    rw [(hnet k _ hget).2] at hx
    obtain ⟨l, hlm, rfl⟩ := List.mem_map.1 hx
    obtain ⟨j, hj, ej⟩ := (hiff l (hsub.subset hlm)).1 hlm
    simp only [relink, ej, Option.map_some, Option.some.injEq] at hb
    subst hb
    rw [(hnet _ j (getElem_idxOf hj)).1]
    exact hl _ (hS _ hmem) l (hsub.subset hlm) j ej
  · intro k hk
    rw [hn] at hk
    obtain ⟨h1, h2⟩ := hdeg k hk
    exact ⟨Or.inl h1, Or.inl h2⟩

theorem empty_built (src : Net) : Built src [] CreateHeaderGraph :=
  ⟨rfl, by simp, by simp, by simp⟩

/-! ## The largest strongly connected set -/

theorem cleanNet_ok {src : Net} {g : WG} {S : List ℕ} (h : Holds src g) (hl : LabelsOK src)
    (hd : Distinct src) (hf : Fit src) (hS : ∀ v ∈ S, v < src.n) (hSn : S.Nodup) :
    ∃ net, cleanNet src S = some net ∧ IsSub src g S net := by
  obtain ⟨net, e, hb⟩ := setNodes_ok src hf (labels_nodup h hl hd) S [] CreateHeaderGraph hS (empty_built src)
  simp only [List.nil_append] at hb
  let L : ℕ → List Link := fun v => (src.neig v).filter fun l => (dictFind net l.nodeLabel).isSome
  have hiff : ∀ v ∈ S, ∀ l ∈ src.neig v, l ∈ L v ↔ ∃ j ∈ S, l.ref = some j := by
    intro v hv l hlm
    obtain ⟨j, hj, ej, _⟩ := (h v (hS v hv)).2.1 l hlm
    have := dict_built hd hS hSn hb.n hb.label hj
    rw [← hl v (hS v hv) l hlm j ej] at this
    simp only [L, List.mem_filter, hlm, true_and, this, ej]
    by_cases hjS : j ∈ S
    · simp [hjS]
    · simp [hjS]
  have hsub : ∀ v ∈ S, (L v).Sublist (src.neig v) := fun v _ => List.filter_sublist
  obtain ⟨net', e', hn', h1, h2⟩ := rewire_built (net := CleanAdjacencies net) hl hd hS hSn
    (by simpa [CleanAdjacencies] using hb.n) hb.label L
    (fun v hv l hlm => ⟨(hsub v hv).subset hlm, (hiff v hv l ((hsub v hv).subset hlm)).1 hlm⟩) (by
      intro k v hk
      have hkl : k < S.length := by
        by_contra hc
        rw [List.getElem?_eq_none (by omega)] at hk
        simp at hk
      simp only [CleanAdjacencies, hb.n, hkl, if_true, L, hb.neig k v hk, List.filter_map]
      rfl)
  refine ⟨net', by unfold cleanNet; rw [e]; exact e', ?_⟩
  exact sub_of_rows h hl hS hSn hn' L (fun v hv => ⟨hsub v hv, hiff v hv⟩) h1 h2

theorem targets_mem {net : Net} {g : WG} (h : Holds net g) {i : ℕ} (hi : i < net.n) (j : ℕ) :
    j ∈ targets net i ↔ (g i j).isSome := by
  unfold targets
  rw [List.mem_filterMap]
  obtain ⟨_, h2, h3⟩ := h i hi
  constructor
  · rintro ⟨l, hl, e⟩
    obtain ⟨k, _, ek, hg⟩ := h2 l hl
    rw [e] at ek
    obtain rfl := Option.some.inj ek
    simp [hg]
  · intro hs
    obtain ⟨w, hw⟩ := Option.isSome_iff_exists.1 hs
    obtain ⟨l, hl, e, _⟩ := h3 j w hw
    exact ⟨l, hl, e⟩

theorem targets_range {net : Net} {g : WG} (h : Holds net g) : BFS.InRange (targets net) net.n := by
  intro u hu v hv
  unfold targets at hv
  obtain ⟨l, hl, e⟩ := List.mem_filterMap.1 hv
  obtain ⟨k, hk, ek, _⟩ := (h u hu).2.1 l hl
  rw [e] at ek
  obtain rfl := Option.some.inj ek
  exact hk

/-- **C83**: `GetLargestStronglyConnectedSet` of a network with distinct labels returns a network whose
nodes are those of a strongly connected component (a largest one, or one with more than `thres` nodes),
with their labels, and whose links are the links of the original network among them, with their weights;
all queries on it are right. -/
theorem C83_largest_net {src : Net} {g : WG} (h : Holds src g) (hl : LabelsOK src) (hd : Distinct src)
    (hf : Fit src) (hn : 0 < src.n) (thres : Int) :
    ∃ S net, GetLargestStronglyConnectedSet src thres = some net ∧ S.Nodup ∧
      (∃ p < src.n, ∀ v, v ∈ S ↔ BFS.Strong (targets src) p v) ∧
      (thres < S.length ∨ ∀ q < src.n, {v | BFS.Strong (targets src) q v}.ncard ≤ S.length) ∧
      IsSub src g S net := by
  obtain ⟨S, e, hSn, ⟨p, hp, hS⟩, hbig⟩ := BFS.C82_largest (targets_range h) hn thres
  obtain ⟨net, e', hsub⟩ := cleanNet_ok h hl hd hf (S := S)
    (fun v hv => ((hS v).1 hv).1.lt (targets_range h) hp) hSn
  exact ⟨S, net, by unfold GetLargestStronglyConnectedSet; rw [e]; exact e', hSn, ⟨p, hp, hS⟩, hbig, hsub⟩

/-! ## All connected sets -/

/-- Without the node 0 in the set: all links are lost. -/
theorem clearNet_other {src : Net} {g : WG} {S : List ℕ} (h : Holds src g) (hl : LabelsOK src)
    (hd : Distinct src) (hf : Fit src) (hS : ∀ v ∈ S, v < src.n) (hSn : S.Nodup) (h0 : 0 ∉ S) :
    ∃ net, clearNet src S = some net ∧ (List.range net.n).map net.label = S.map src.label ∧
      ∀ k, k < net.n → net.neig k = [] := by
  obtain ⟨net, e, hb⟩ := setNodes_ok src hf (labels_nodup h hl hd) S [] CreateHeaderGraph hS (empty_built src)
  simp only [List.nil_append] at hb
  obtain ⟨net', e', hn', h1, h2⟩ := rewire_built (net := ClearAdjacencies (fun v => S.contains v) net)
    hl hd hS hSn (by simpa [ClearAdjacencies] using hb.n) hb.label (fun _ => []) (by simp) (by
      intro k v hk
      have hkl : k < S.length := by
        by_contra hc
        rw [List.getElem?_eq_none (by omega)] at hk
        simp at hk
      simp only [ClearAdjacencies, hb.n, hkl, if_true, hb.neig k v hk, List.map_nil]
      rw [List.filter_eq_nil_iff]
      intro l hlm
      obtain ⟨m, _, rfl⟩ := List.mem_map.1 hlm
      simp [nodeField, soft, h0])
  refine ⟨net', by unfold clearNet; rw [e]; exact e', ?_, ?_⟩
  · rw [hn']
    apply List.ext_getElem
    · simp
    · intro k h3 h4
      simp at h3
      simp [(h1 k _ (List.getElem?_eq_getElem h3)).1]
  · intro k hk
    rw [hn'] at hk
    simpa using (h1 k _ (List.getElem?_eq_getElem hk)).2

/-- With the node 0 in the set, and no link that leaves it: all links are kept. -/
theorem clearNet_first {src : Net} {g : WG} {S : List ℕ} (h : Holds src g) (hl : LabelsOK src)
    (hd : Distinct src) (hf : Fit src) (hS : ∀ v ∈ S, v < src.n) (hSn : S.Nodup) (h0 : 0 ∈ S)
    (hclosed : ∀ u ∈ S, ∀ v, (g u v).isSome → v ∈ S) :
    ∃ net, clearNet src S = some net ∧ IsSub src g S net := by
  obtain ⟨net, e, hb⟩ := setNodes_ok src hf (labels_nodup h hl hd) S [] CreateHeaderGraph hS (empty_built src)
  simp only [List.nil_append] at hb
  have hiff : ∀ v ∈ S, ∀ l ∈ src.neig v, ∃ j ∈ S, l.ref = some j := by
    intro v hv l hlm
    obtain ⟨j, hj, ej, hg⟩ := (h v (hS v hv)).2.1 l hlm
    exact ⟨j, hclosed v hv j (by simp [hg]), ej⟩
  obtain ⟨net', e', hn', h1, h2⟩ := rewire_built (net := ClearAdjacencies (fun v => S.contains v) net)
    hl hd hS hSn (by simpa [ClearAdjacencies] using hb.n) hb.label src.neig
    (fun v hv l hlm => ⟨hlm, hiff v hv l hlm⟩) (by
      intro k v hk
      have hkl : k < S.length := by
        by_contra hc
        rw [List.getElem?_eq_none (by omega)] at hk
        simp at hk
      simp only [ClearAdjacencies, hb.n, hkl, if_true, hb.neig k v hk]
      rw [List.filter_eq_self]
      intro l hlm
      obtain ⟨m, _, rfl⟩ := List.mem_map.1 hlm
      simp [nodeField, soft, h0])
  refine ⟨net', by unfold clearNet; rw [e]; exact e', ?_⟩
  exact sub_of_rows h hl hS hSn hn' src.neig
    (fun v hv => ⟨List.Sublist.refl _, fun l hlm => ⟨fun _ => hiff v hv l hlm, fun _ => hlm⟩⟩) h1 h2

/-- With a link from the set of node 0 to another set: NULL pointer. -/
theorem clearNet_crash {src : Net} {g : WG} {S : List ℕ} (h : Holds src g) (hl : LabelsOK src)
    (hd : Distinct src) (hf : Fit src) (hS : ∀ v ∈ S, v < src.n) (hSn : S.Nodup) (h0 : 0 ∈ S)
    {u v : ℕ} (hu : u ∈ S) (huv : (g u v).isSome) (hv : v ∉ S) : clearNet src S = none := by
  obtain ⟨net, e, hb⟩ := setNodes_ok src hf (labels_nodup h hl hd) S [] CreateHeaderGraph hS (empty_built src)
  simp only [List.nil_append] at hb
  obtain ⟨w, hw⟩ := Option.isSome_iff_exists.1 huv
  obtain ⟨l, hlm, er, _⟩ := (h u (hS u hu)).2.2 v w hw
  obtain ⟨j, hj, ej, _⟩ := (h u (hS u hu)).2.1 l hlm
  rw [er] at ej
  obtain rfl := Option.some.inj ej
  have hk := getElem_idxOf hu
  have hkl : S.idxOf u < S.length := List.idxOf_lt_length_iff.2 hu
  unfold clearNet
  rw [e]
  refine rewire_none (i := S.idxOf u) (l := soft l) (by simpa [ClearAdjacencies, hb.n] using hkl) ?_ ?_
  · simp only [ClearAdjacencies, hb.n, hkl, if_true, hb.neig _ u hk, List.mem_filter]
    exact ⟨List.mem_map_of_mem hlm, by simp [nodeField, soft, h0]⟩
  · have := dict_built (net := net) hd hS hSn hb.n hb.label hj
    rw [if_neg hv, ← hl u (hS u hu) l hlm v er] at this
    exact this

/-- What the function is used for: the components of the network, each with all its links. -/
def AllComponents (src : Net) (g : WG) (r : List (List ℕ × Net)) : Prop :=
  (r.map Prod.fst).flatten.Perm (List.range src.n) ∧
  ∀ c ∈ r, (∃ p < src.n, ∀ v, v ∈ c.1 ↔ BFS.Strong (targets src) p v) ∧ IsSub src g c.1 c.2

theorem mapM_clear {src : Net} {Q : List ℕ → Net → Prop} : ∀ {sets : List (List ℕ)},
    (∀ S ∈ sets, ∃ net, clearNet src S = some net ∧ Q S net) →
    ∃ r, (sets.mapM fun S => do let net ← clearNet src S; return (S, net)) = some r ∧
      r.map Prod.fst = sets ∧ ∀ c ∈ r, Q c.1 c.2
  | [], _ => ⟨[], rfl, rfl, by simp⟩
  | S :: sets, h => by
    obtain ⟨net, e, hq⟩ := h S (by simp)
    obtain ⟨r, e', h1, h2⟩ := mapM_clear (sets := sets) fun T hT => h T (by simp [hT])
    refine ⟨(S, net) :: r, ?_, by simp [h1], ?_⟩
    · rw [List.mapM_cons, e, e']
      rfl
    · intro c hc
      rcases List.mem_cons.1 hc with rfl | hc
      · exact hq
      · exact h2 c hc

/-- In an undirected network nodes reach each other both ways. -/
theorem reach_symm {src : Net} {g : WG} (h : Holds src g) (hsym : ∀ i j, (g i j).isSome = (g j i).isSome)
    {u v : ℕ} (hu : u < src.n) (hr : BFS.Reach (targets src) u v) : BFS.Reach (targets src) v u := by
  obtain ⟨k, hw⟩ := hr
  induction k generalizing v with
  | zero => cases hw; exact .refl u
  | succ k ih =>
    cases hw with
    | @step _ _ x _ hw hm =>
      have hx : x < src.n := BFS.Reach.lt (targets_range h) hu ⟨k, hw⟩
      have hv := targets_range h x hx v hm
      rw [targets_mem h hx] at hm
      exact (BFS.Reach.one ((targets_mem h hv x).2 (by rw [hsym]; exact hm))).trans (ih hw)

theorem sets_of {src : Net} {g : WG} (h : Holds src g) (hn : 0 < src.n) :
    ∃ sets, BFS.strongSets (targets src) src.n (src.n + 1) (fun _ => false) 0 [] = some sets ∧
      sets.flatten.Perm (List.range src.n) ∧
      (∀ S ∈ sets, S.Nodup ∧ (∀ v ∈ S, v < src.n) ∧ ∃ p < src.n, ∀ v, v ∈ S ↔ BFS.Strong (targets src) p v) ∧
      sets.length = (BFS.strongComponents (targets src) src.n).ncard := by
  have hr := targets_range h
  have h0 : BFS.SetsInv (targets src) src.n (fun _ => false) 0 [] := ⟨by simp, by simp, by simp, by simp⟩
  obtain ⟨sets, sel, anod, h1, h2, h3⟩ := BFS.strongSets_spec hr (src.n + 1) _ _ _ h0 hn (by omega)
  refine ⟨sets, h1, ?_, ?_, ?_⟩
  · rw [List.perm_ext_iff_of_nodup h2.nodup List.nodup_range]
    intro v
    rw [List.mem_range]
    exact ⟨h2.lt hr v, h2.all hr h3 v⟩
  · intro S hS
    refine ⟨(List.nodup_flatten.1 h2.nodup).1 S hS, ?_, h2.strong S hS⟩
    intro v hv
    exact h2.lt hr v (List.mem_flatten.2 ⟨S, hS, hv⟩)
  · refine (BFS.sets_components hr h2 h3 ?_).symm
    intro S hS hS0
    obtain ⟨p, hp, hS'⟩ := h2.strong S hS
    have := (hS' p).2 (BFS.Strong.refl p)
    rw [hS0] at this
    simp at this

/-- **C84 (what holds)**: on an undirected network of at most 10001 nodes with distinct labels,
`GetAllConnectedSets` returns one network per connected component, with the right nodes; the network of
the component of node 0 has all its links, and every other network has no link at all. -/
theorem C84_all_sets_partial {src : Net} {g : WG} (h : Holds src g) (hl : LabelsOK src) (hd : Distinct src)
    (hf : Fit src) (hn : 0 < src.n) (hmax : src.n ≤ 10001)
    (hsym : ∀ i j, (g i j).isSome = (g j i).isSome) :
    ∃ r, GetAllConnectedSets src = some r ∧
      r.length = (BFS.strongComponents (targets src) src.n).ncard ∧
      (r.map Prod.fst).flatten.Perm (List.range src.n) ∧
      ∀ c ∈ r, (∃ p < src.n, ∀ v, v ∈ c.1 ↔ BFS.Reach (targets src) p v) ∧
        (List.range c.2.n).map c.2.label = c.1.map src.label ∧
        (0 ∈ c.1 → IsSub src g c.1 c.2) ∧ (0 ∉ c.1 → ∀ k, k < c.2.n → c.2.neig k = []) := by
  obtain ⟨sets, e, hperm, hsets, hlen⟩ := sets_of h hn
  have hreach : ∀ S ∈ sets, ∃ p < src.n, ∀ v, v ∈ S ↔ BFS.Reach (targets src) p v := by
    intro S hS
    obtain ⟨_, _, p, hp, hS'⟩ := hsets S hS
    exact ⟨p, hp, fun v => ⟨fun hv => ((hS' v).1 hv).1, fun hv => (hS' v).2 ⟨hv, reach_symm h hsym hp hv⟩⟩⟩
  obtain ⟨r, er, hfst, hr⟩ := mapM_clear (src := src)
    (Q := fun S net => (List.range net.n).map net.label = S.map src.label ∧
        (0 ∈ S → IsSub src g S net) ∧ (0 ∉ S → ∀ k, k < net.n → net.neig k = [])) (sets := sets) (by
      intro S hS
      obtain ⟨hSn, hSr, _⟩ := hsets S hS
      obtain ⟨p, hp, hS'⟩ := hreach S hS
      by_cases h0 : 0 ∈ S
      · obtain ⟨net, e1, e2⟩ := clearNet_first h hl hd hf hSr hSn h0 (by
          intro u hu v huv
          exact (hS' v).2 (((hS' u).1 hu).trans (BFS.Reach.one ((targets_mem h (hSr u hu) v).2 huv))))
        exact ⟨net, e1, e2.labels, fun _ => e2, fun hc => (hc h0).elim⟩
      · obtain ⟨net, e1, e2, e3⟩ := clearNet_other h hl hd hf hSr hSn h0
        exact ⟨net, e1, e2, fun hc => (h0 hc).elim, fun _ => e3⟩)
  refine ⟨r, ?_, ?_, by rw [hfst]; exact hperm, ?_⟩
  · unfold GetAllConnectedSets
    rw [if_neg (by omega), e]
    exact er
  · rw [← hlen, ← hfst, List.length_map]
  · intro c hc
    have hcs : c.1 ∈ sets := hfst ▸ List.mem_map_of_mem hc
    exact ⟨hreach c.1 hcs, hr c hc⟩

/-- **C84 (crash)**: in a directed network with a link that leaves the strongly connected component of
node 0, `GetAllConnectedSets` dereferences a NULL pointer. -/
theorem C84_directed_crash {src : Net} {g : WG} (h : Holds src g) (hl : LabelsOK src) (hd : Distinct src)
    (hf : Fit src) {u v : ℕ} (hu : u < src.n) (hu0 : BFS.Strong (targets src) 0 u)
    (huv : (g u v).isSome) (hv : ¬ BFS.Strong (targets src) 0 v) : GetAllConnectedSets src = none := by
  have hn : 0 < src.n := by omega
  obtain ⟨sets, e, hperm, hsets, _⟩ := sets_of h hn
  have h0 : 0 ∈ sets.flatten := hperm.mem_iff.2 (by simpa using hn)
  obtain ⟨S, hS, h0S⟩ := List.mem_flatten.1 h0
  obtain ⟨hSn, hSr, p, hp, hS'⟩ := hsets S hS
  have hp0 := (hS' 0).1 h0S
  have hcr := clearNet_crash h hl hd hf hSr hSn h0S ((hS' u).2 (hp0.trans hu0)) huv
    (fun hc => hv (hp0.symm.trans ((hS' v).1 hc)))
  unfold GetAllConnectedSets
  by_cases hm : 10001 < src.n
  · rw [if_pos hm]
  · rw [if_neg hm, e]
    exact mapM_none ⟨S, hS, by rw [hcr]; rfl⟩

/-! ## Witnesses -/

/-- Two separate undirected links 0 — 1 and 2 — 3. -/
def twoPairs : Net :=
  { n := 4
    label := fun i => ["a", "b", "c", "d"].getD i ""
    neig := fun i => match i with
      | 0 => [⟨"b", some 1, 2⟩] | 1 => [⟨"a", some 0, 2⟩]
      | 2 => [⟨"d", some 3, 5⟩] | 3 => [⟨"c", some 2, 5⟩] | _ => []
    degree := fun _ => 0, strength := fun _ => 0 }

/-- Its links. -/
def twoPairsW : WG := fun i j =>
  if (i = 0 ∧ j = 1) ∨ (i = 1 ∧ j = 0) then some 2
  else if (i = 2 ∧ j = 3) ∨ (i = 3 ∧ j = 2) then some 5 else none

theorem twoPairs_holds : Holds twoPairs twoPairsW := by
  intro i hi
  have hi : i < 4 := hi
  interval_cases i <;> refine ⟨by simp [twoPairs], by simp [twoPairs, twoPairsW], ?_⟩ <;>
    · intro j w hw
      match j, hw with
      | 0, hw => simp_all [twoPairs, twoPairsW]
      | 1, hw => simp_all [twoPairs, twoPairsW]
      | 2, hw => simp_all [twoPairs, twoPairsW]
      | 3, hw => simp_all [twoPairs, twoPairsW]
      | j + 4, hw => simp_all [twoPairs, twoPairsW]

theorem twoPairs_labels : LabelsOK twoPairs := by
  intro i hi
  have hi : i < 4 := hi
  interval_cases i <;> simp [twoPairs]

theorem twoPairs_distinct : Distinct twoPairs := by
  have : ∀ i < 4, ∀ k < 4, twoPairs.label i = twoPairs.label k → i = k := by decide +kernel
  exact fun i k hi hk e => this i hi k hk e

theorem twoPairs_fit : Fit twoPairs := by
  have : ∀ i < 4, fits (twoPairs.label i) = true := by decide +kernel
  exact fun i hi => this i hi

/-- **C84 (refuted)**: the second component of two separate links comes back without its link. -/
theorem C84_refuted : ¬ ∀ (src : Net) (g : WG), Holds src g → LabelsOK src → Distinct src → Fit src →
    0 < src.n → src.n ≤ 10001 → (∀ i j, (g i j).isSome = (g j i).isSome) →
    ∃ r, GetAllConnectedSets src = some r ∧ AllComponents src g r := by
  intro hall
  have hsym : ∀ i j, (twoPairsW i j).isSome = (twoPairsW j i).isSome := by
    intro i j
    unfold twoPairsW
    split_ifs <;> first | rfl | omega
  obtain ⟨r, e, hperm, hc⟩ := hall _ _ twoPairs_holds twoPairs_labels twoPairs_distinct twoPairs_fit
    (by decide) (by decide) hsym
  obtain ⟨r', e', _, _, hp⟩ := C84_all_sets_partial twoPairs_holds twoPairs_labels twoPairs_distinct
    twoPairs_fit (by decide) (by decide) hsym
  rw [e] at e'
  obtain rfl := Option.some.inj e'
  have h2 : 2 ∈ (r.map Prod.fst).flatten := hperm.mem_iff.2 (by decide)
  obtain ⟨S, hS, h2S⟩ := List.mem_flatten.1 h2
  obtain ⟨c, hcr, rfl⟩ := List.mem_map.1 hS
  obtain ⟨⟨p, hp1, hp2⟩, hlabs, _, hempty⟩ := hp c hcr
  have hreach : ∀ a b, (a = 2 ∨ a = 3) → BFS.Reach (targets twoPairs) a b → b = 2 ∨ b = 3 := by
    rintro a b ha ⟨k, hw⟩
    induction k generalizing b with
    | zero => cases hw; exact ha
    | succ k ih =>
      cases hw with
      | @step _ _ x _ hw hm =>
        rcases ih x hw with rfl | rfl
        · right; simpa [targets, twoPairs] using hm
        · left; simpa [targets, twoPairs] using hm
  have hst := reach_symm twoPairs_holds hsym hp1 ((hp2 2).1 h2S)
  have h0 : 0 ∉ c.1 := by
    intro h0
    have := hreach 2 0 (Or.inl rfl) (hst.trans ((hp2 0).1 h0))
    omega
  have h3S : 3 ∈ c.1 := (hp2 3).2 (((hp2 2).1 h2S).trans (BFS.Reach.one (by simp [targets, twoPairs])))
  have hsub := (hc c hcr).2
  have hlen : c.2.n = c.1.length := by
    have := congrArg List.length hsub.labels
    simpa using this
  have hk : c.1.idxOf 2 < c.2.n := by rw [hlen]; exact List.idxOf_lt_length_iff.2 h2S
  obtain ⟨l, hl, _⟩ := (hsub.links _ hk).2.2 (c.1.idxOf 3) 5 (by
    simp [induced, getElem_idxOf h2S, getElem_idxOf h3S, twoPairsW])
  rw [hempty h0 _ hk] at hl
  simp at hl

/-- The run itself: two networks of two nodes each, the second without links. -/
example : (GetAllConnectedSets twoPairs).map (fun r => r.map fun c =>
    (c.1, c.2.n, (List.range c.2.n).map fun i => c.2.neig i))
    = some [([0, 1], 2, [[⟨"b", some 1, 2⟩], [⟨"a", some 0, 2⟩]]), ([2, 3], 2, [[], []])] := by
  decide +kernel

/-- The function above it is right on the same network. -/
example : (GetLargestStronglyConnectedSet twoPairs 100).map (fun net =>
    (net.n, (List.range net.n).map fun i => (net.label i, net.neig i)))
    = some (2, [("a", [⟨"b", some 1, 2⟩]), ("b", [⟨"a", some 0, 2⟩])]) := by
  decide +kernel

/-- A directed link 0 → 1: crash. -/
example : GetAllConnectedSets { twoPairs with n := 2, neig := fun i => if i = 0 then [⟨"b", some 1, 2⟩] else [] }
    = none := by
  have : ((GetAllConnectedSets { twoPairs with n := 2, neig := fun i => if i = 0 then [⟨"b", some 1, 2⟩] else [] }).isNone) = true := by
    decide +kernel
  exact Option.isNone_iff_eq_none.1 this

end GR
