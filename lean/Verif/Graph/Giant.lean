import Verif.Graph.Sets
import Verif.BFS.WeakAll

/-!
# C140: the largest component as a network
-/

namespace GR

theorem targets_sym {src : Net} {g : WG} (h : Holds src g) (hsym : ∀ i j, (g i j).isSome = (g j i).isSome) :
    ∀ i < src.n, ∀ j ∈ targets src i, i ∈ targets src j := by
  intro i hi j hj
  have hjn := targets_range h i hi j hj
  rw [targets_mem h hi] at hj
  rw [targets_mem h hjn, ← hsym]
  exact hj

/-- **C140**: `GetLargestWeaklyConnectedSet` of an undirected network with distinct labels returns a network whose nodes are
those of a connected component (a largest one, or one with more than `thres` nodes) with their labels; its links are all the
links of these nodes, with their weights; all queries on it are right. -/
theorem C140_network {src : Net} {g : WG} (h : Holds src g) (hl : LabelsOK src) (hd : Distinct src)
    (hf : Fit src) (hsym : ∀ i j, (g i j).isSome = (g j i).isSome) (hn : 0 < src.n) (thres : Int) :
    ∃ S net, GetLargestWeaklyConnectedSet src thres = some net ∧ S.Nodup ∧
      (∃ p < src.n, ∀ v, v ∈ S ↔ BFS.Reach (targets src) p v) ∧
      (thres < S.length ∨ ∀ q < src.n, {v | BFS.Reach (targets src) q v}.ncard ≤ S.length) ∧
      IsSub src g S net ∧ ∀ u ∈ S, ∀ v, (g u v).isSome → v ∈ S := by
  obtain ⟨S, e, hSn, ⟨p, hp, hS⟩, hbig⟩ := BFS.C140_largest (targets_range h) (targets_sym h hsym) hn thres
  obtain ⟨net, e', hsub⟩ := cleanNet_ok h hl hd hf (S := S)
    (fun v hv => ((hS v).1 hv).lt (targets_range h) hp) hSn
  refine ⟨S, net, by unfold GetLargestWeaklyConnectedSet; rw [e]; exact e', hSn, ⟨p, hp, hS⟩, hbig, hsub, ?_⟩
  intro u hu v huv
  have hr := (hS u).1 hu
  exact (hS v).2 (hr.trans (BFS.Reach.one ((targets_mem h (hr.lt (targets_range h) hp) v).2 huv)))

/-- Of two separate links the first is kept, with its weight. -/
example : ∃ net, GetLargestWeaklyConnectedSet twoPairs 100 = some net ∧ net.n = 2 ∧
    (List.range 2).map net.label = ["a", "b"] ∧ net.neig 0 = [⟨"b", some 1, 2⟩] := by
  refine ⟨_, rfl, ?_, ?_, ?_⟩ <;> decide +kernel

example : ∃ S net, GetLargestWeaklyConnectedSet twoPairs 100 = some net ∧ IsSub twoPairs twoPairsW S net := by
  obtain ⟨S, net, e, _, _, _, h, _⟩ := C140_network twoPairs_holds twoPairs_labels twoPairs_distinct twoPairs_fit
    (by intro i j; unfold twoPairsW; split_ifs <;> first | rfl | omega) (by decide) 100
  exact ⟨S, net, e, h⟩

end GR
