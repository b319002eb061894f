import Verif.Group.Lemmas
import Mathlib.Algebra.BigOperators.Group.List.Basic
import Mathlib.Tactic.FieldSimp

/-! # Recounting: `MapPartToNet` -/

set_option linter.unusedSimpArgs false

namespace GP

/-- The node lists of the groups `0 … m-1` are disjoint lists of nodes of the network. -/
structure ListsOK (net : Net) (m : ℕ) (p : Part) : Prop where
  nodup : ∀ g < m, (p.grp g).nodes.Nodup
  range : ∀ g < m, ∀ v ∈ (p.grp g).nodes, v < net.n
  disj : ∀ g < m, ∀ g' < m, g ≠ g' → ∀ v ∈ (p.grp g).nodes, v ∉ (p.grp g').nodes
  size : ∀ g < m, (p.grp g).size = (p.grp g).nodes.length

theorem foldl_update (g : ℕ) : ∀ (l : List ℕ) (f : ℕ → Option ℕ) (v : ℕ),
    l.foldl (fun f v => Function.update f v (some g)) f v = if v ∈ l then some g else f v
  | [], f, v => by simp
  | a :: l, f, v => by
    rw [List.foldl_cons, foldl_update g l]
    by_cases h : v ∈ l
    · simp [h]
    · by_cases e : v = a
      · subst e; simp [h]
      · simp [h, e]

theorem mapInGroup_iff {p : Part} : ∀ (m : ℕ),
    (∀ g < m, ∀ g' < m, g ≠ g' → ∀ v ∈ (p.grp g).nodes, v ∉ (p.grp g').nodes) → ∀ v g,
    mapInGroup m p v = some g ↔ g < m ∧ v ∈ (p.grp g).nodes
  | 0, _, v, g => by simp [mapInGroup]
  | m + 1, hd, v, g => by
    have ih := mapInGroup_iff (p := p) m (fun a ha b hb => hd a (by omega) b (by omega)) v g
    unfold mapInGroup at ih ⊢
    rw [List.range_succ, List.foldl_append, List.foldl_cons, List.foldl_nil, foldl_update]
    by_cases h : v ∈ (p.grp m).nodes
    · rw [if_pos h]
      constructor
      · intro e
        cases e
        exact ⟨by omega, h⟩
      · rintro ⟨hg, hv⟩
        by_cases e : g = m
        · rw [e]
        · exact absurd h (hd g (by omega) m (by omega) e v hv)
    · rw [if_neg h, ih]
      constructor
      · rintro ⟨hg, hv⟩; exact ⟨by omega, hv⟩
      · rintro ⟨hg, hv⟩
        refine ⟨?_, hv⟩
        by_contra hc
        have : g = m := by omega
        subst this
        exact h hv

theorem even_sq {n : ℕ} {a : ℕ → ℕ → Int} (hsym : ∀ i j, a i j = a j i) (hself : ∀ i, a i i = 0)
    (S : Finset ℕ) : ∃ k : Int, ∑ i ∈ S, ∑ j ∈ S, a i j = 2 * k := by
  induction S using Finset.induction_on with
  | empty => exact ⟨0, by simp⟩
  | insert v S hv ih =>
    obtain ⟨k, hk⟩ := ih
    exact ⟨k + ∑ j ∈ S, a v j, by rw [sq_insert hsym hself hv, hk]; ring⟩

theorem foldl_nodes {R : Type} [CommRing R] (f : ℕ → R) {l : List ℕ} (hl : l.Nodup) :
    l.foldl (fun s v => s + f v) 0 = ∑ v ∈ l.toFinset, f v := by
  rw [foldl_sum, zero_add, List.sum_toFinset _ hl]

variable {net : Net} {m : ℕ} {p : Part}

theorem map_members (hp : ListsOK net m p) {g : ℕ} (hg : g < m) :
    members net (MapPartToNet net m p) g = (p.grp g).nodes.toFinset := by
  ext v
  rw [mem_members, List.mem_toFinset]
  simp only [MapPartToNet]
  rw [mapInGroup_iff m hp.disj]
  exact ⟨fun h => h.2.2, fun h => ⟨hp.range g hg v h, hg, h⟩⟩

/-- The partition is consistent after `MapPartToNet`. -/
theorem map_ok (h : net.Simple) (hp : ListsOK net m p) : PartOK net m (MapPartToNet net m p) := by
  constructor
  · intro g hg
    have hm := map_members hp hg
    rw [hm]
    have hm' : members net { p with inGroup := mapInGroup m p } g = (p.grp g).nodes.toFinset := hm
    have hnd := hp.nodup g hg
    have hsub : (p.grp g).nodes.toFinset ⊆ Finset.range net.n := by rw [← hm]; exact members_subset _ _ _
    simp only [MapPartToNet, if_pos hg]
    refine ⟨hnd, rfl, ?_, ?_, ?_⟩
    · simp only [mapCounts]
      rw [hp.size g hg, List.toFinset_card_of_nodup hnd]
    · rw [countOK_iff hsub]
      simp only [mapCounts]
      rw [foldl_nodes _ hnd, foldl_nodes _ hnd]
      obtain ⟨k, hk⟩ := even_sq (n := net.n) (a_sym h) (a_self h) (p.grp g).nodes.toFinset
      have e : ∑ v ∈ (p.grp g).nodes.toFinset, NLinksToGroup net { p with inGroup := mapInGroup m p } v g
          = 2 * k := by
        rw [← hk]
        apply Finset.sum_congr rfl
        intro v _
        rw [NLinksToGroup_eq h, hm']
      rw [e]
      refine ⟨?_, ?_, trivial⟩
      · rw [hk]; omega
      · rw [sub_add_cancel]
        exact Finset.sum_congr rfl fun v _ => NodeDegree_eq h v
    · rw [countOK_iff hsub]
      simp only [mapCounts]
      rw [foldl_nodes _ hnd, foldl_nodes _ hnd]
      refine ⟨?_, ?_, trivial⟩
      · rw [mul_div_cancel₀ _ (by norm_num : (2 : ℚ) ≠ 0)]
        apply Finset.sum_congr rfl
        intro v _
        rw [StrengthToGroup_eq h, hm']
      · rw [sub_add_cancel]
        exact Finset.sum_congr rfl fun v _ => NodeStrength_eq h v
  · intro v g hv
    simp only [MapPartToNet] at hv
    rw [mapInGroup_iff m hp.disj] at hv
    exact ⟨hp.range g hv.1 v hv.2, hv.1⟩

theorem PartOK.lists (hp : PartOK net m p) : ListsOK net m p := by
  have hmem : ∀ g < m, ∀ v, v ∈ (p.grp g).nodes ↔ v < net.n ∧ p.inGroup v = some g := by
    intro g hg v
    rw [← List.mem_toFinset, (hp.groups g hg).mem, mem_members]
  refine ⟨fun g hg => (hp.groups g hg).nodup, fun g hg v hv => ((hmem g hg v).1 hv).1, ?_, ?_⟩
  · intro g hg g' hg' hne v hv hv'
    have := ((hmem g hg v).1 hv).2.symm.trans ((hmem g' hg' v).1 hv').2
    exact hne (Option.some.inj this)
  · intro g hg
    rw [(hp.groups g hg).size, ← (hp.groups g hg).mem, List.toFinset_card_of_nodup (hp.groups g hg).nodup]

/-- The counters are determined by the members. -/
theorem GroupOK.unique {S : Finset ℕ} {G G' : Grp} (h : GroupOK net S G) (h' : GroupOK net S G')
    (hn : G.nodes = G'.nodes) : G = G' := by
  have i1 : G.inlinks = G'.inlinks := by have := h.links.1; have := h'.links.1; omega
  have o1 : G.outlinks = G'.outlinks := by rw [h.links.2.1, h'.links.2.1]
  have t1 : G.totlinks = G'.totlinks := by rw [h.links.2.2, h'.links.2.2, i1, o1]
  have i2 : G.inlinksW = G'.inlinksW := by have := h.weights.1; have := h'.weights.1; linarith
  have o2 : G.outlinksW = G'.outlinksW := by rw [h.weights.2.1, h'.weights.2.1]
  have t2 : G.totlinksW = G'.totlinksW := by rw [h.weights.2.2, h'.weights.2.2, i2, o2]
  have s := h.size.trans h'.size.symm
  cases G; cases G'
  simp_all

/-- On a consistent partition `MapPartToNet` changes nothing. -/
theorem map_id (h : net.Simple) (hp : PartOK net m p) :
    (MapPartToNet net m p).inGroup = p.inGroup ∧
      ∀ g < m, (MapPartToNet net m p).grp g = p.grp g := by
  have hl := hp.lists
  have hi : (MapPartToNet net m p).inGroup = p.inGroup := by
    funext v
    apply Option.ext
    intro g
    simp only [MapPartToNet]
    rw [mapInGroup_iff m hl.disj]
    constructor
    · rintro ⟨hg, hv⟩
      rw [← List.mem_toFinset, (hp.groups g hg).mem, mem_members] at hv
      exact hv.2
    · intro hv
      obtain ⟨hn, hg⟩ := hp.range v g hv
      refine ⟨hg, ?_⟩
      rw [← List.mem_toFinset, (hp.groups g hg).mem, mem_members]
      exact ⟨hn, hv⟩
  refine ⟨hi, fun g hg => ?_⟩
  have e : members net (MapPartToNet net m p) g = members net p g := by
    unfold members; rw [hi]
  have h1 := (map_ok h hl).groups g hg
  rw [e] at h1
  refine h1.unique (hp.groups g hg) ?_
  simp only [MapPartToNet, if_pos hg, mapCounts]

end GP
