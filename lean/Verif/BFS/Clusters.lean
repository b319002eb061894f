import Verif.BFS.Props

/-!
# C28: the partition into connected components
-/

set_option linter.unusedSimpArgs false

namespace BFS

variable {adj : ℕ → List ℕ}

/-- Links have no direction. -/
def Sym (adj : ℕ → List ℕ) : Prop := ∀ i j, j ∈ adj i → i ∈ adj j

theorem Walk.trans {k l a b c : ℕ} (h : Walk adj k a b) (h' : Walk adj l b c) :
    Walk adj (k + l) a c := by
  induction h' with
  | refl => exact h
  | step _ hm ih => exact .step (ih h) hm

theorem Reach.trans {a b c : ℕ} (h : Reach adj a b) (h' : Reach adj b c) : Reach adj a c := by
  obtain ⟨k, hk⟩ := h; obtain ⟨l, hl⟩ := h'; exact ⟨_, hk.trans hl⟩

theorem Reach.symm (hs : Sym adj) {a b : ℕ} (h : Reach adj a b) : Reach adj b a := by
  obtain ⟨k, hk⟩ := h
  induction hk with
  | refl => exact ⟨0, .refl _⟩
  | step _ hm ih => exact Reach.trans ⟨1, .step (.refl _) (hs _ _ hm)⟩ ih

theorem firstFree_spec {g : ℕ → Option ℕ} {n : ℕ} : ∀ (fuel p x : ℕ), p ≤ x → x < n →
    (g x) = none → n < fuel + p → ∃ y, firstFree g n fuel p = some y ∧ p ≤ y ∧ y < n ∧ g y = none ∧
      ∀ z, p ≤ z → z < y → (g z).isSome
  | 0, p, x, _, _, _, _ => by omega
  | fuel + 1, p, x, hpx, hx, hg, hf => by
    unfold firstFree
    rw [if_pos (by omega)]
    by_cases hp : (g p).isSome
    · rw [if_pos hp]
      have : p ≠ x := by rintro rfl; rw [hg] at hp; simp at hp
      obtain ⟨y, e, h1, h2, h3, h4⟩ := firstFree_spec fuel (p + 1) x (by omega) hx hg (by omega)
      refine ⟨y, e, by omega, h2, h3, fun z hz1 hz2 => ?_⟩
      rcases Nat.eq_or_lt_of_le hz1 with rfl | hz
      · exact hp
      · exact h4 z (by omega) hz2
    · rw [if_neg hp]
      exact ⟨p, rfl, le_rfl, by omega, by simpa using hp, fun z h1 h2 => by omega⟩

/-- Invariant of the outer loop. -/
structure CInv (adj : ℕ → List ℕ) (n : ℕ) (c : CP) : Prop where
  nodup : c.groups.flatten.Nodup
  lt : ∀ v ∈ c.groups.flatten, v < n
  cnt : c.anod = c.groups.flatten.length
  ne : ∀ g ∈ c.groups, g ≠ []
  comp : ∀ g ∈ c.groups, ∀ i ∈ g, ∀ j, j ∈ g ↔ Reach adj i j
  grp : ∀ v k, c.inGroup v = some k ↔ ∃ g, c.groups[k]? = some g ∧ v ∈ g
  before : ∀ v < c.last, (c.inGroup v).isSome

theorem foldl_update (k : ℕ) : ∀ (l : List ℕ) (g : ℕ → Option ℕ) (v : ℕ),
    l.foldl (fun g v => Function.update g v (some k)) g v = if v ∈ l then some k else g v
  | [], g, v => by simp
  | a :: l, g, v => by
    rw [List.foldl_cons, foldl_update k l]
    by_cases hv : v ∈ l
    · simp [hv]
    · by_cases ha : v = a
      · subst ha; simp [hv]
      · simp [hv, ha]

theorem clusterStep_inv {n : ℕ} (hadj : InRange adj n) (hsym : Sym adj) {c : CP}
    (h : CInv adj n c) (hlt : c.anod < n) :
    ∃ c', clusterStep adj n c = some c' ∧ CInv adj n c' ∧ c'.groups.length = c.groups.length + 1 := by
  -- a free node exists
  have hex : ∃ x < n, c.inGroup x = none := by
    by_contra hno
    push Not at hno
    have : Finset.range n ⊆ c.groups.flatten.toFinset := by
      intro x hx
      have := hno x (Finset.mem_range.1 hx)
      obtain ⟨k, hk⟩ := Option.ne_none_iff_exists'.1 this
      obtain ⟨g, hg, hv⟩ := (h.grp x k).1 hk
      exact List.mem_toFinset.2 (List.mem_flatten.2 ⟨g, List.mem_of_getElem? hg, hv⟩)
    have := Finset.card_le_card this
    rw [List.toFinset_card_of_nodup h.nodup, ← h.cnt] at this
    simp at this
    omega
  obtain ⟨x, hx, hxg⟩ := hex
  have hlx : c.last ≤ x := by
    by_contra hc
    have := h.before x (by omega)
    rw [hxg] at this
    simp at this
  obtain ⟨p, e, h1, h2, h3, h4⟩ := firstFree_spec (g := c.inGroup) (n + 1) c.last x hlx hx hxg (by omega)
  obtain ⟨D, hD⟩ := search_final hadj h2
  have hmem : ∀ v, v ∈ p :: (D.rounds.map Round.after).flatten ↔ Reach adj p v := by
    intro v; rw [← hD.nodes]; exact hD.final.reach v
  have hnd : (p :: (D.rounds.map Round.after).flatten).Nodup := by
    rw [← hD.nodes]; exact hD.final.nodup
  generalize hm : p :: (D.rounds.map Round.after).flatten = mem at hmem hnd
  have hfree : ∀ v ∈ mem, c.inGroup v = none := by
    intro v hv
    by_contra hc
    obtain ⟨k, hk⟩ := Option.ne_none_iff_exists'.1 hc
    obtain ⟨g, hg, hvg⟩ := (h.grp v k).1 hk
    have hpg : p ∈ g := (h.comp g (List.mem_of_getElem? hg) v hvg p).2 (((hmem v).1 hv).symm hsym)
    have := (h.grp p k).2 ⟨g, hg, hpg⟩
    rw [h3] at this
    simp at this
  refine ⟨_, by simp only [clusterStep, e, hD.run, Option.bind_eq_bind, Option.bind_some, hm]; rfl, ?_, by simp⟩
  constructor
  · simp only [List.flatten_append, List.flatten_cons, List.flatten_nil, List.append_nil,
      List.nodup_append]
    refine ⟨h.nodup, hnd, ?_⟩
    rintro a ha b hb rfl
    obtain ⟨g, hg, hag⟩ := List.mem_flatten.1 ha
    obtain ⟨k, hk⟩ := List.mem_iff_getElem?.1 hg
    have := (h.grp a k).2 ⟨g, hk, hag⟩
    rw [hfree a hb] at this
    simp at this
  · intro v hv
    simp only [List.flatten_append, List.flatten_cons, List.flatten_nil, List.append_nil,
      List.mem_append] at hv
    rcases hv with hv | hv
    · exact h.lt v hv
    · obtain ⟨k, hk⟩ := (hmem v).1 hv
      exact mem_bound hadj h2 hk
  · simp [h.cnt]
  · intro g hg
    rcases List.mem_append.1 hg with hg | hg
    · exact h.ne g hg
    · simp at hg; subst hg; rw [← hm]; simp
  · intro g hg
    rcases List.mem_append.1 hg with hg | hg
    · exact h.comp g hg
    · simp at hg; subst hg
      intro i hi j
      have hi' := (hmem i).1 hi
      rw [hmem j]
      exact ⟨fun hj => (hi'.symm hsym).trans hj, fun hj => hi'.trans hj⟩
  · intro v k
    simp only [foldl_update]
    by_cases hv : v ∈ mem
    · rw [if_pos hv]
      constructor
      · intro hk
        simp only [Option.some.injEq] at hk
        subst hk
        exact ⟨mem, by simp, hv⟩
      · rintro ⟨g, hg, hvg⟩
        rcases Nat.lt_or_ge k c.groups.length with hk | hk
        · rw [List.getElem?_append_left hk] at hg
          have := (h.grp v k).2 ⟨g, hg, hvg⟩
          rw [hfree v hv] at this
          simp at this
        · have : k = c.groups.length := by
            have := (List.getElem?_eq_some_iff.1 hg).1
            simp at this
            omega
          rw [this]
    · rw [if_neg hv, h.grp v k]
      constructor
      · rintro ⟨g, hg, hvg⟩
        have hk := (List.getElem?_eq_some_iff.1 hg).1
        exact ⟨g, by rw [List.getElem?_append_left hk]; exact hg, hvg⟩
      · rintro ⟨g, hg, hvg⟩
        rcases Nat.lt_or_ge k c.groups.length with hk | hk
        · rw [List.getElem?_append_left hk] at hg
          exact ⟨g, hg, hvg⟩
        · exfalso
          rw [List.getElem?_append_right hk] at hg
          have := List.mem_of_getElem? hg
          simp at this
          subst this
          exact hv hvg
  · intro v hv
    simp only [foldl_update]
    split_ifs with hvm
    · simp
    · rcases Nat.lt_or_ge v c.last with hl | hl
      · exact h.before v hl
      · rcases Nat.lt_or_ge v p with hp | hp
        · exact h4 v hl hp
        · have hvp : v = p := by simp only at hv; omega
          rw [hvp] at hvm
          exact (hvm (by rw [← hm]; simp)).elim

theorem groups_le {n : ℕ} {c : CP} (h : CInv adj n c) : c.groups.length ≤ c.anod := by
  rw [h.cnt]
  have := h.ne
  revert this
  generalize c.groups = gs
  induction gs with
  | nil => simp
  | cons g gs ih =>
    intro h
    have h1 := ih (fun g hg => h g (by simp [hg]))
    have h2 := List.length_pos_iff.2 (h g (by simp))
    simp only [List.length_cons, List.flatten_cons, List.length_append]
    omega

theorem clusterLoop_inv {n : ℕ} (hadj : InRange adj n) (hsym : Sym adj) : ∀ (fuel : ℕ) (c : CP),
    CInv adj n c → c.anod < n → n < fuel + c.groups.length →
    ∃ c', clusterLoop adj n fuel c = some c' ∧ CInv adj n c' ∧ n ≤ c'.anod
  | 0, c, h, hlt, hf => by have := groups_le h; omega
  | fuel + 1, c, h, hlt, hf => by
    obtain ⟨c1, e, h1, h2⟩ := clusterStep_inv hadj hsym h hlt
    unfold clusterLoop
    simp only [e, Option.bind_eq_bind, Option.bind_some]
    by_cases hc : c1.anod < n
    · rw [if_pos hc]
      exact clusterLoop_inv hadj hsym fuel c1 h1 hc (by omega)
    · rw [if_neg hc]
      exact ⟨c1, rfl, h1, by omega⟩

/-- **C28**: on a network whose links have no direction `ClustersPartition` ends and returns
non-empty groups; every node is in exactly one of them, once, its `inGroup` field tells which, and
two nodes are together exactly when a path joins them. -/
theorem C28_components {n : ℕ} (hn : 0 < n) (hadj : InRange adj n) (hsym : Sym adj) :
    ∃ c, ClustersPartition adj n = some c ∧
      (∀ g ∈ c.groups, g ≠ []) ∧
      (∀ v, c.groups.flatten.count v = if v < n then 1 else 0) ∧
      (∀ v k, c.inGroup v = some k ↔ ∃ g, c.groups[k]? = some g ∧ v ∈ g) ∧
      (∀ i < n, ∀ j < n, c.inGroup i = c.inGroup j ↔ Reach adj i j) := by
  obtain ⟨c, e, h, hfull⟩ := clusterLoop_inv hadj hsym (n + 1)
    { last := 0, anod := 0, groups := [], inGroup := fun _ => none }
    (by constructor <;> simp) hn (by simp)
  have hall : c.groups.flatten.toFinset = Finset.range n := by
    apply Finset.eq_of_subset_of_card_le
    · intro v hv; exact Finset.mem_range.2 (h.lt v (List.mem_toFinset.1 hv))
    · rw [List.toFinset_card_of_nodup h.nodup, ← h.cnt]; simpa using hfull
  have hmem : ∀ v, v ∈ c.groups.flatten ↔ v < n := by
    intro v; rw [← List.mem_toFinset, hall, Finset.mem_range]
  have hin : ∀ v < n, ∃ k g, c.inGroup v = some k ∧ c.groups[k]? = some g ∧ v ∈ g := by
    intro v hv
    obtain ⟨g, hg, hvg⟩ := List.mem_flatten.1 ((hmem v).2 hv)
    obtain ⟨k, hk⟩ := List.mem_iff_getElem?.1 hg
    exact ⟨k, g, (h.grp v k).2 ⟨g, hk, hvg⟩, hk, hvg⟩
  refine ⟨c, e, h.ne, ?_, h.grp, ?_⟩
  · intro v
    rw [h.nodup.count]
    simp only [hmem v]
  · intro i hi j hj
    obtain ⟨k, g, h1, h2, h3⟩ := hin i hi
    rw [← h.comp g (List.mem_of_getElem? h2) i h3 j]
    rw [h1]
    constructor
    · intro hk
      obtain ⟨g', hg', hj'⟩ := (h.grp j k).1 hk.symm
      rw [h2] at hg'
      cases hg'
      exact hj'
    · intro hjg
      exact ((h.grp j k).2 ⟨g, h2, hjg⟩).symm

/-- Links in one direction only: a node already classified is put into a second group. -/
theorem C28_directed_repeats_nodes :
    (ClustersPartition (fun i => if i = 1 then [0] else []) 3).map (fun c => (c.groups, c.inGroup 0, c.inGroup 2))
      = some ([[0], [1, 0]], some 1, none) := by decide +kernel

/-- The empty network dereferences NULL. -/
theorem C28_empty_network : (ClustersPartition (fun _ => []) 0).isNone = true := by decide +kernel

/-- Two paths and a single node. -/
def pieces : ℕ → List ℕ
  | 0 => [3] | 3 => [0, 5] | 5 => [3] | 1 => [4] | 4 => [1] | _ => []

theorem pieces_sym : Sym pieces := by
  intro i j h
  unfold pieces at h ⊢
  split at h <;> simp at h <;> (try rcases h with rfl | rfl) <;> subst_vars <;> simp

example : ∃ c, ClustersPartition pieces 6 = some c ∧ c.inGroup 0 = c.inGroup 5 := by
  obtain ⟨c, e, _, _, _, h⟩ := C28_components (adj := pieces) (n := 6) (by decide)
    (by unfold InRange; decide) pieces_sym
  exact ⟨c, e, (h 0 (by decide) 5 (by decide)).2
    ⟨2, .step (.step (.refl 0) (v := 3) (by decide)) (by decide)⟩⟩

example : (ClustersPartition pieces 6).map (·.groups) = some [[0, 3, 5], [1, 4], [2]] := by
  decide +kernel

end BFS
