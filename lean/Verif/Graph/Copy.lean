import Verif.Graph.Build
import Mathlib.Data.List.Range

set_option linter.unusedSimpArgs false

namespace GR

theorem mapM_some {α β : Type} {f : α → Option β} {h : α → β} :
    ∀ {l : List α}, (∀ x ∈ l, f x = some (h x)) → l.mapM f = some (l.map h)
  | [], _ => rfl
  | x :: l, hl => by
    rw [List.mapM_cons, hl x (by simp), mapM_some fun y hy => hl y (by simp [hy])]
    rfl

/-- The soft version of a link. -/
def soft (l : Link) : Link := { l with ref := none }

theorem addLinkSoft_absent {lab : String} {add : Bool} {w : ℚ} :
    ∀ {ls : List Link}, (∀ l ∈ ls, l.nodeLabel ≠ lab) →
      addLinkSoft lab add w ls = (1, ls ++ [{ nodeLabel := lab, ref := none, weight := w }])
  | [], _ => rfl
  | l :: ls, h => by
    simp only [addLinkSoft]
    rw [if_neg (h l (by simp)), addLinkSoft_absent fun x hx => h x (by simp [hx])]
    rfl

theorem copyAdj_ok (i : ℕ) : ∀ (links : List Link) (net : Net),
    ((net.neig i ++ links).map Link.nodeLabel).Nodup →
    CopyAdjacencyList links net i =
      { net with neig := Function.update net.neig i (net.neig i ++ links.map soft) }
  | [], net, _ => by
    simp [CopyAdjacencyList]
  | l :: links, net, h => by
    have h1 : (AddAdjacencySoft net i l.nodeLabel true false l.weight).2
        = { net with neig := Function.update net.neig i (net.neig i ++ [soft l]) } := by
      unfold AddAdjacencySoft
      rw [if_neg (by simp), addLinkSoft_absent]
      · rfl
      · intro x hx e
        simp only [List.map_append, List.map_cons] at h
        rw [List.nodup_append] at h
        exact h.2.2 x.nodeLabel (List.mem_map.2 ⟨x, hx, rfl⟩) l.nodeLabel (by simp) e
    have h2 : CopyAdjacencyList (l :: links) net i
        = CopyAdjacencyList links (AddAdjacencySoft net i l.nodeLabel true false l.weight).2 i := rfl
    rw [h2, h1, copyAdj_ok i links]
    · simp
    · simpa [soft] using h

structure Copied (src net : Net) (k : ℕ) : Prop where
  n : net.n = k
  label : ∀ i, i < k → net.label i = src.label i
  neig : ∀ i, i < k → net.neig i = (src.neig i).map soft
  deg : ∀ i, i < k → net.degree i = 0 ∧ net.strength i = 0

theorem copyNodes_ok (src : Net) (hf : ∀ i, i < src.n → fits (src.label i) = true)
    (hn : ∀ i, i < src.n → ((src.neig i).map Link.nodeLabel).Nodup) :
    ∀ (todo k : ℕ) (net : Net), todo + k = src.n → Copied src net k →
      ∃ net', copyNodes src todo k net = some net' ∧ Copied src net' src.n
  | 0, k, net, hk, h => by
    obtain rfl : k = src.n := by omega
    exact ⟨net, rfl, h⟩
  | todo + 1, k, net, hk, h => by
    simp only [copyNodes, CreateNodeGraph, hf k (by omega), if_true, Option.bind_eq_bind,
      Option.bind_some]
    rw [copyAdj_ok]
    · apply copyNodes_ok src hf hn todo (k + 1) _ (by omega)
      have hk' := h.n
      constructor
      · simp [h.n]
      · intro i hi
        simp only [h.n]
        by_cases hik : i = k
        · subst hik; simp
        · rw [Function.update_of_ne hik]; exact h.label i (by omega)
      · intro i hi
        simp only [h.n]
        by_cases hik : i = k
        · subst hik; simp
        · rw [Function.update_of_ne hik, Function.update_of_ne hik]; exact h.neig i (by omega)
      · intro i hi
        simp only [h.n]
        by_cases hik : i = k
        · subst hik; simp
        · rw [Function.update_of_ne hik, Function.update_of_ne hik]; exact h.deg i (by omega)
    · simpa using hn k (by omega)

theorem dictFind_eq {net : Net} {j : ℕ} (hj : j < net.n)
    (hd : ∀ i k, i < net.n → k < net.n → net.label i = net.label k → i = k) :
    dictFind net (net.label j) = some j := by
  unfold dictFind
  cases hf : (List.range net.n).reverse.find? fun i => net.label i = net.label j with
  | none =>
    rw [List.find?_eq_none] at hf
    exact (hf j (by simpa using hj) (by simp)).elim
  | some i =>
    have h1 := List.find?_some hf
    have h2 := List.mem_of_find?_eq_some hf
    simp only [List.mem_reverse, List.mem_range] at h2
    simp only [decide_eq_true_eq] at h1
    rw [hd i j h2 hj h1]

theorem dictFind_none {net : Net} {a : String} (h : ∀ i, i < net.n → net.label i ≠ a) :
    dictFind net a = none := by
  unfold dictFind
  rw [List.find?_eq_none]
  intro i hi
  simp only [List.mem_reverse, List.mem_range] at hi
  simpa using h i hi

theorem rewire_ok {net : Net} {rows : ℕ → List Link}
    (h : ∀ i, i < net.n → (net.neig i).mapM (fun l => (dictFind net l.nodeLabel).bind
        fun r => some { l with ref := some r }) = some (rows i)) :
    RewireAdjacencyByLabel net = some { net with
      neig := fun i => if i < net.n then rows i else net.neig i
      degree := fun i => if i < net.n then 0 else net.degree i
      strength := fun i => if i < net.n then 0 else net.strength i } := by
  unfold RewireAdjacencyByLabel
  have : (List.range net.n).mapM (fun i => (net.neig i).mapM (fun l : Link =>
      (do let r ← dictFind net l.nodeLabel; return { l with ref := some r } : Option Link)))
      = some ((List.range net.n).map rows) := by
    apply mapM_some
    intro i hi
    exact h i (by simpa using hi)
  simp only [Option.bind_eq_bind] at this ⊢
  rw [this]
  simp only [Option.bind_some]
  congr 2
  funext i
  split_ifs with hi
  · simp [hi]
  · rfl

/-- Copying a network with distinct labels. -/
theorem copy_ok {src : Net} {g : WG} (h : Holds src g) (hl : LabelsOK src)
    (hf : ∀ i, i < src.n → fits (src.label i) = true)
    (hd : ∀ i k, i < src.n → k < src.n → src.label i = src.label k → i = k) :
    ∃ net, CopyNetwork src = some net ∧ net.n = src.n ∧ (∀ i, i < src.n → net.label i = src.label i) ∧
      (∀ i, i < src.n → net.neig i = src.neig i) ∧
      ∀ i, i < src.n → net.degree i = 0 ∧ net.strength i = 0 := by
  have hnod : ∀ i, i < src.n → ((src.neig i).map Link.nodeLabel).Nodup := by
    intro i hi
    obtain ⟨h1, h2, _⟩ := h i hi
    have e : (src.neig i).map Link.nodeLabel
        = ((src.neig i).map Link.ref).map fun r => src.label (r.getD 0) := by
      rw [List.map_map]
      apply List.map_congr_left
      intro l hlm
      obtain ⟨j, _, er, _⟩ := h2 l hlm
      simp [er, hl i hi l hlm j er]
    rw [e]
    refine List.Nodup.map_on ?_ h1
    intro x hx y hy exy
    obtain ⟨l, hlm, rfl⟩ := List.mem_map.1 hx
    obtain ⟨m, hmm, rfl⟩ := List.mem_map.1 hy
    obtain ⟨j, hj, ej, _⟩ := h2 l hlm
    obtain ⟨k, hk, ek, _⟩ := h2 m hmm
    rw [ej, ek] at exy ⊢
    rw [hd j k hj hk exy]
  obtain ⟨net, e, hc⟩ := copyNodes_ok src hf hnod src.n 0 CreateHeaderGraph (by omega)
    ⟨rfl, by simp, by simp, by simp⟩
  have hrw := rewire_ok (net := net) (rows := src.neig) (by
    intro i hi
    rw [hc.n] at hi
    rw [hc.neig i hi]
    rw [mapM_some (h := fun l => { l with
        ref := some (((dictFind net l.nodeLabel)).getD 0) })]
    · rw [List.map_map]
      congr 1
      conv_rhs => rw [← List.map_id (src.neig i)]
      apply List.map_congr_left
      intro l hlm
      obtain ⟨j, hj, ej, _⟩ := (h i hi).2.1 l hlm
      have el : l.nodeLabel = net.label j := by rw [hl i hi l hlm j ej, hc.label j hj]
      have := dictFind_eq (net := net) (j := j) (by rw [hc.n]; exact hj) (by
        intro a b ha hb eab
        rw [hc.n] at ha hb
        rw [hc.label a ha, hc.label b hb] at eab
        exact hd a b ha hb eab)
      simp only [Function.comp, soft, el, this, Option.getD_some, id]
      rw [← ej, ← el]
    · intro x hx
      obtain ⟨l, hlm, rfl⟩ := List.mem_map.1 hx
      obtain ⟨j, hj, ej, _⟩ := (h i hi).2.1 l hlm
      have el : l.nodeLabel = net.label j := by rw [hl i hi l hlm j ej, hc.label j hj]
      have := dictFind_eq (net := net) (j := j) (by rw [hc.n]; exact hj) (by
        intro a b ha hb eab
        rw [hc.n] at ha hb
        rw [hc.label a ha, hc.label b hb] at eab
        exact hd a b ha hb eab)
      simp [soft, el, this])
  have hcopy : CopyNetwork src = RewireAdjacencyByLabel net := by unfold CopyNetwork; rw [e]; rfl
  rw [hrw] at hcopy
  refine ⟨_, hcopy, hc.n, ?_, ?_, ?_⟩
  · intro i hi; exact hc.label i hi
  · intro i hi; simp [hc.n, hi]
  · intro i hi; simp [hc.n, hi]

end GR
