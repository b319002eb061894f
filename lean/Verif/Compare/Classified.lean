import Verif.Compare.Mutual
import Mathlib.Algebra.Order.Field.Rat
import Mathlib.Data.Rat.Cast.Order
import Mathlib.Tactic.Linarith

/-! # C27: correctly classified nodes -/

set_option linter.unusedSimpArgs false

namespace CP

/-- A division of the nodes `0 … n-1` into groups with different labels below `n`. -/
structure Labelled (R : List Grp) (n : ℕ) : Prop where
  size : PartitionSize (R.map (·.nodes)) = n
  nodes : (R.map (·.nodes)).flatten.Nodup
  range : ∀ g ∈ R, ∀ v ∈ g.nodes, v < n
  labels : (R.map (·.label)).Nodup
  bound : ∀ g ∈ R, g.label < n

theorem get_nat {n : ℕ} {a : ℕ → Int} {i : ℕ} (h : i < n) : get n a i = some (a i) := by
  unfold get; rw [if_pos ⟨by omega, by omega⟩]; simp

theorem set_nat {n : ℕ} {a : ℕ → Int} {i : ℕ} (h : i < n) (x : Int) : set n a i x = some (Function.update a i x) := by
  unfold set; rw [if_pos ⟨by omega, by omega⟩]; simp

/-! ## Group of each node -/

theorem setNodes {n : ℕ} (l : ℕ) : ∀ (vs : List ℕ) (a : ℕ → Int), (∀ v ∈ vs, v < n) → ∃ a',
    vs.foldlM (fun a (v : ℕ) => set n a v l) a = some a' ∧ ∀ v, a' v = if v ∈ vs then (l : Int) else a v
  | [], a, _ => ⟨a, rfl, fun v => by simp⟩
  | v :: vs, a, h => by
    obtain ⟨a', e, h'⟩ := setNodes l vs (Function.update a v l) fun w hw => h w (by simp [hw])
    refine ⟨a', ?_, ?_⟩
    · rw [List.foldlM_cons, set_nat (h v (by simp))]
      exact e
    · intro w
      rw [h']
      by_cases hw : w ∈ vs
      · simp [hw]
      · by_cases ev : w = v
        · subst ev; simp [hw]
        · simp [hw, ev]

theorem refGroups_eq {n : ℕ} : ∀ (R : List Grp) (a : ℕ → Int), (∀ g ∈ R, ∀ v ∈ g.nodes, v < n) → (R.map (·.nodes)).flatten.Nodup →
    ∃ a', R.foldlM (fun a g => g.nodes.foldlM (fun a (v : ℕ) => set n a v g.label) a) a = some a' ∧
      (∀ g ∈ R, ∀ v ∈ g.nodes, a' v = g.label) ∧ ∀ v, v ∉ (R.map (·.nodes)).flatten → a' v = a v
  | [], a, _, _ => ⟨a, rfl, by simp, by simp⟩
  | g :: R, a, h, hnd => by
    rw [List.map_cons, List.flatten_cons, List.nodup_append] at hnd
    obtain ⟨a1, e1, h1⟩ := setNodes (n := n) g.label g.nodes a fun v hv => h g (by simp) v hv
    obtain ⟨a', e, h2, h3⟩ := refGroups_eq R a1 (fun g' hg' => h g' (by simp [hg'])) hnd.2.1
    refine ⟨a', ?_, ?_, ?_⟩
    · rw [List.foldlM_cons, e1]; exact e
    · intro g' hg' v hv
      rcases List.mem_cons.1 hg' with rfl | hg'
      · rw [h3 v (fun hh => hnd.2.2 v hv v hh rfl), h1, if_pos hv]
      · exact h2 g' hg' v hv
    · intro v hv
      simp only [List.map_cons, List.flatten_cons, List.mem_append, not_or] at hv
      rw [h3 v hv.2, h1, if_neg hv.1]

/-! ## Scores -/

theorem addScores_eq {n : ℕ} {group : ℕ → Int} {l : ℕ} (hl : l < n) : ∀ (vs : List ℕ) (s : ℕ → Int),
    (∀ v ∈ vs, v < n ∧ group v = l) → addScores n group vs s = some (Function.update s l (s l + vs.length))
  | [], s, _ => by simp [addScores]
  | v :: vs, s, h => by
    have ih := addScores_eq (group := group) hl vs (Function.update s l (s l + 1)) fun w hw => h w (by simp [hw])
    unfold addScores at ih ⊢
    rw [List.foldlM_cons, get_nat (h v (by simp)).1]
    simp only [Option.bind_eq_bind, Option.bind_some]
    rw [(h v (by simp)).2, get_nat hl]
    simp only [Option.bind_some]
    rw [set_nat hl]
    simp only [Option.bind_some]
    simp only [Option.bind_eq_bind] at ih
    rw [ih, Function.update_self, Function.update_idem]
    congr 2
    push_cast [List.length_cons]; ring

theorem pick_zero {n l : ℕ} (hl : l < n) : ∀ (R : List Grp) (m : Maps), (∀ g ∈ R, g.label < n) →
    (∀ g ∈ R, m.score g.label = 0) → 0 ≤ m.max l → ∃ m', R.foldlM (pickStep n l) m = some m' ∧ m'.score = m.score ∧
      m'.max = m.max ∧ m'.map = m.map
  | [], m, _, _, _ => ⟨m, rfl, rfl, rfl, rfl⟩
  | g :: R, m, hb, hs, h0 => by
    have e : pickStep n l m g = some m := by
      unfold pickStep
      rw [get_nat (hb g (by simp)), get_nat hl]
      simp only [Option.bind_eq_bind, Option.bind_some]
      rw [hs g (by simp), if_neg (by omega), set_nat (hb g (by simp))]
      simp only [Option.bind_some]
      congr 1
      cases m with
      | mk s x y =>
        dsimp only at hs ⊢
        congr 1
        rw [← hs g (by simp), Function.update_eq_self]
    obtain ⟨m', h1, h2, h3, h4⟩ := pick_zero hl R m (fun g' hg' => hb g' (by simp [hg'])) (fun g' hg' => hs g' (by simp [hg'])) h0
    refine ⟨m', ?_, h2, h3, h4⟩
    rw [List.foldlM_cons, e]; exact h1

/-- The reference group with the only positive score is found. -/
theorem pick_one {n l k : ℕ} (hl : l < n) : ∀ (R : List Grp) (m : Maps), (∀ g ∈ R, g.label < n) → (R.map (·.label)).Nodup →
    l ∈ R.map (·.label) → m.max l = 0 → m.score = Function.update (fun _ => 0) l (k : Int) → m.map l = -1 → ∃ m',
    R.foldlM (pickStep n l) m = some m' ∧ m'.score = (fun _ => 0) ∧ m'.max = Function.update m.max l (k : Int) ∧
      m'.map = Function.update m.map l (if 0 < k then (l : Int) else -1)
  | [], m, _, _, hm, _, _, _ => by simp at hm
  | g :: R, m, hb, hnd, hm, h0, hs, hmap => by
    rw [List.map_cons, List.nodup_cons] at hnd
    by_cases eg : g.label = l
    · have e : pickStep n l m g = some (Maps.mk (fun _ => 0) (Function.update m.max l (k : Int))
          (Function.update m.map l (if 0 < k then (l : Int) else -1))) := by
        unfold pickStep
        rw [eg, get_nat hl, get_nat hl]
        simp only [Option.bind_eq_bind, Option.bind_some]
        rw [hs, Function.update_self, h0]
        by_cases hk : 0 < k
        · rw [if_pos (by omega), if_pos hk, set_nat hl, set_nat hl, set_nat hl]
          simp only [Option.bind_some]
          rw [Function.update_idem, Function.update_eq_self (f := fun _ => (0 : Int))]
        · rw [if_neg (by omega), if_neg hk, set_nat hl]
          simp only [Option.bind_some]
          rw [Function.update_idem, Function.update_eq_self (f := fun _ => (0 : Int))]
          have hk0 : (k : Int) = m.max l := by rw [h0]; omega
          rw [hk0, ← hmap, Function.update_eq_self, Function.update_eq_self]
      obtain ⟨m', h1, h2, h3, h4⟩ := pick_zero hl R (Maps.mk (fun _ => 0) (Function.update m.max l (k : Int))
        (Function.update m.map l (if 0 < k then (l : Int) else -1))) (fun g' hg' => hb g' (by simp [hg'])) (fun _ _ => rfl) (by dsimp only; rw [Function.update_self]; omega)
      refine ⟨m', ?_, h2, h3, h4⟩
      rw [List.foldlM_cons, e]; exact h1
    · have e : pickStep n l m g = some m := by
        unfold pickStep
        rw [get_nat (hb g (by simp)), get_nat hl]
        simp only [Option.bind_eq_bind, Option.bind_some]
        have hz : m.score g.label = 0 := by rw [hs, Function.update_of_ne eg]
        rw [hz, if_neg (by omega), set_nat (hb g (by simp))]
        simp only [Option.bind_some]
        rw [← hz, Function.update_eq_self]
      rw [List.map_cons, List.mem_cons] at hm
      obtain ⟨m', h1, h2⟩ := pick_one hl R m (fun g' hg' => hb g' (by simp [hg'])) hnd.2 (hm.resolve_left fun h => eg h.symm) h0 hs hmap
      refine ⟨m', ?_, h2⟩
      rw [List.foldlM_cons, e]; exact h1

/-- Every non-empty group is mapped to itself. -/
theorem mapGroups_self {n : ℕ} {group : ℕ → Int} {R : List Grp} (hb : ∀ g ∈ R, g.label < n) (hnd : (R.map (·.label)).Nodup)
    (hr : ∀ g ∈ R, ∀ v ∈ g.nodes, v < n ∧ group v = g.label) : ∀ (A : List Grp) (m : Maps), (∀ g ∈ A, g ∈ R) →
    (A.map (·.label)).Nodup → m.score = (fun _ => 0) → (∀ g ∈ A, m.max g.label = 0 ∧ m.map g.label = -1) → ∃ m',
    A.foldlM (fun m (g2 : Grp) => do
      let score ← addScores n group g2.nodes m.score
      R.foldlM (pickStep n g2.label) (Maps.mk score m.max m.map)) m = some m' ∧
      (∀ g ∈ A, m'.map g.label = if 0 < g.nodes.length then (g.label : Int) else -1) ∧
      ∀ l, l ∉ A.map (·.label) → m'.map l = m.map l
  | [], m, _, _, _, _ => ⟨m, rfl, by simp, by simp⟩
  | g :: A, m, hA, hndA, hs, hz => by
    rw [List.map_cons, List.nodup_cons] at hndA
    have hg := hA g (by simp)
    have hl := hb g hg
    obtain ⟨m1, e1, s1, x1, p1⟩ := pick_one (k := g.nodes.length) hl R (Maps.mk (Function.update m.score g.label (m.score g.label + g.nodes.length)) m.max m.map)
      hb hnd (List.mem_map.2 ⟨g, hg, rfl⟩) (hz g (by simp)).1 (by dsimp only; rw [hs, zero_add]) (hz g (by simp)).2
    have hne : ∀ g' ∈ A, g'.label ≠ g.label := fun g' hg' e => hndA.1 (List.mem_map.2 ⟨g', hg', e⟩)
    obtain ⟨m', e2, h2, h3⟩ := mapGroups_self hb hnd hr A m1 (fun g' hg' => hA g' (by simp [hg'])) hndA.2 s1
      (fun g' hg' => by
        rw [x1, p1, Function.update_of_ne (hne g' hg'), Function.update_of_ne (hne g' hg')]
        exact hz g' (by simp [hg']))
    refine ⟨m', ?_, ?_, ?_⟩
    · rw [List.foldlM_cons, addScores_eq hl g.nodes m.score (hr g hg)]
      simp only [Option.bind_eq_bind, Option.bind_some]
      rw [e1]
      exact e2
    · intro g' hg'
      rcases List.mem_cons.1 hg' with rfl | hg'
      · rw [h3 _ hndA.1, p1, Function.update_self]
      · exact h2 g' hg'
    · intro l hl'
      rw [List.map_cons, List.mem_cons, not_or] at hl'
      rw [h3 l hl'.2, p1, Function.update_of_ne hl'.1]

/-! ## Duplicates -/

theorem dup_none {n : ℕ} {max : ℕ → Int} {map : ℕ → Int} {g1 : Grp} (h1 : g1.label < n)
    (v1 : map g1.label = g1.label ∨ map g1.label = -1) : ∀ (A : List Grp), (∀ g ∈ A, g.label < n) →
    (∀ g ∈ A, map g.label = g.label ∨ map g.label = -1) → (∀ g ∈ A, g.label ≠ g1.label) →
    A.foldlM (dupStep n max g1) map = some map
  | [], _, _, _ => rfl
  | g :: A, hb, hv, hne => by
    have e : dupStep n max g1 map g = some map := by
      have hg := hb g (by simp)
      have hgne := hne g (by simp)
      unfold dupStep
      rw [get_nat h1, get_nat hg]
      simp only [Option.bind_eq_bind, Option.bind_some]
      by_cases hc : map g1.label = map g.label
      · rw [if_pos hc, get_nat h1, get_nat hg]
        simp only [Option.bind_some]
        have m1 : map g1.label = -1 := by
          rcases v1 with v1 | v1
          · rcases hv g (by simp) with v2 | v2
            · omega
            · omega
          · exact v1
        have m2 : map g.label = -1 := by rw [← hc]; exact m1
        split_ifs
        · rw [set_nat hg, ← m2, Function.update_eq_self]
        · rw [set_nat h1, ← m1, Function.update_eq_self]
      · rw [if_neg hc]
    rw [List.foldlM_cons, e]
    exact dup_none h1 v1 A (fun g' hg' => hb g' (by simp [hg'])) (fun g' hg' => hv g' (by simp [hg'])) (fun g' hg' => hne g' (by simp [hg']))

theorem drop_none {n : ℕ} {max : ℕ → Int} {map : ℕ → Int} : ∀ (A : List Grp), (∀ g ∈ A, g.label < n) →
    (∀ g ∈ A, map g.label = g.label ∨ map g.label = -1) → (A.map (·.label)).Nodup → dropDuplicates n max A map = some map
  | [], _, _, _ => rfl
  | g :: A, hb, hv, hnd => by
    rw [List.map_cons, List.nodup_cons] at hnd
    unfold dropDuplicates
    rw [dup_none (hb g (by simp)) (hv g (by simp)) A (fun g' hg' => hb g' (by simp [hg'])) (fun g' hg' => hv g' (by simp [hg']))
      (fun g' hg' e => hnd.1 (List.mem_map.2 ⟨g', hg', e⟩))]
    exact drop_none A (fun g' hg' => hb g' (by simp [hg'])) (fun g' hg' => hv g' (by simp [hg'])) hnd.2

/-! ## Counting -/

theorem sizes_eq (A : List Grp) (s : ℕ) : A.foldl (fun s g2 => s + g2.nodes.length) s = s + PartitionSize (A.map (·.nodes)) := by
  rw [partitionSize_eq]
  induction A generalizing s with
  | nil => simp
  | cons g A ih => rw [List.foldl_cons, ih]; simp; ring

theorem countNodes_le {n : ℕ} {group : ℕ → Int} {m : Int} : ∀ (vs : List ℕ) (c c' : ℕ),
    vs.foldlM (fun c (v : ℕ) => do
      let x ← get n group v
      some (if x = m then c + 1 else c)) c = some c' → c' ≤ c + vs.length
  | [], c, c', h => by simp at h; omega
  | v :: vs, c, c', h => by
    rw [List.foldlM_cons] at h
    cases hx : get n group v with
    | none => rw [hx] at h; simp at h
    | some x =>
      rw [hx] at h
      simp only [Option.bind_eq_bind, Option.bind_some] at h
      have := countNodes_le vs _ c' (by simpa only [Option.bind_eq_bind] using h)
      simp only [List.length_cons]
      split_ifs at this <;> omega

theorem count_le {n : ℕ} {group map : ℕ → Int} : ∀ (A : List Grp) (c c' : ℕ),
    A.foldlM (fun c g2 => countGroup n group map g2 c) c = some c' → c' ≤ c + PartitionSize (A.map (·.nodes))
  | [], c, c', h => by simp at h; omega
  | g :: A, c, c', h => by
    rw [List.foldlM_cons] at h
    cases hx : countGroup n group map g c with
    | none => rw [hx] at h; simp at h
    | some c1 =>
      rw [hx] at h
      have := count_le A c1 c' h
      have h1 : c1 ≤ c + g.nodes.length := by
        unfold countGroup at hx
        cases hm : get n map g.label with
        | none => rw [hm] at hx; simp at hx
        | some m =>
          rw [hm] at hx
          simp only [Option.bind_eq_bind, Option.bind_some] at hx
          split_ifs at hx
          · exact countNodes_le g.nodes c c1 (by simpa only [Option.bind_eq_bind] using hx)
          · have := Option.some.inj hx; omega
      rw [partitionSize_eq] at this ⊢
      simp only [List.map_cons, List.flatten_cons, List.length_append]
      omega

theorem countNodes_all {n : ℕ} {group : ℕ → Int} {m : Int} : ∀ (vs : List ℕ) (c : ℕ), (∀ v ∈ vs, v < n ∧ group v = m) →
    vs.foldlM (fun c (v : ℕ) => do
      let x ← get n group v
      some (if x = m then c + 1 else c)) c = some (c + vs.length)
  | [], c, _ => rfl
  | v :: vs, c, h => by
    have hv := h v (by simp)
    rw [List.foldlM_cons, get_nat hv.1]
    simp only [Option.bind_eq_bind, Option.bind_some]
    rw [hv.2, if_pos rfl]
    have := countNodes_all (group := group) (m := m) vs (c + 1) fun w hw => h w (by simp [hw])
    simp only [Option.bind_eq_bind] at this
    rw [this]
    congr 1
    simp only [List.length_cons]; omega

theorem count_all {n : ℕ} {group map : ℕ → Int} : ∀ (A : List Grp) (c : ℕ), (∀ g ∈ A, g.label < n) →
    (∀ g ∈ A, ∀ v ∈ g.nodes, v < n ∧ group v = g.label) →
    (∀ g ∈ A, map g.label = if 0 < g.nodes.length then (g.label : Int) else -1) →
    A.foldlM (fun c g2 => countGroup n group map g2 c) c = some (c + PartitionSize (A.map (·.nodes)))
  | [], c, _, _, _ => rfl
  | g :: A, c, hb, hr, hm => by
    have e : countGroup n group map g c = some (c + g.nodes.length) := by
      unfold countGroup
      rw [get_nat (hb g (by simp)), hm g (by simp)]
      simp only [Option.bind_eq_bind, Option.bind_some]
      by_cases h0 : 0 < g.nodes.length
      · rw [if_pos h0, if_pos (by omega)]
        have := countNodes_all (n := n) (group := group) g.nodes c (hr g (by simp))
        simpa only [Option.bind_eq_bind] using this
      · rw [if_neg h0, if_neg (by omega)]
        congr 1; omega
    rw [List.foldlM_cons, e]
    have := count_all (n := n) (group := group) (map := map) A (c + g.nodes.length) (fun g' hg' => hb g' (by simp [hg']))
      (fun g' hg' => hr g' (by simp [hg'])) (fun g' hg' => hm g' (by simp [hg']))
    simp only [Option.bind_eq_bind, Option.bind_some]
    rw [this, partitionSize_eq, partitionSize_eq]
    congr 1
    simp only [List.map_cons, List.flatten_cons, List.length_append]
    omega

/-- **C27** fails (full statement: the result for a partition against itself is 1). It is exactly one half, for every
division of at least one node: the number of nodes is counted twice. Missing: the factor 2. -/
theorem C27_self_partial {R : List Grp} {n : ℕ} (h : Labelled R n) (hn : 0 < n) : CorrectlyClassified R R = some (1 / 2) := by
  unfold CorrectlyClassified
  rw [h.size]
  dsimp only
  obtain ⟨group, e1, h1, _⟩ := refGroups_eq (n := n) R (fun _ => -1) h.range h.nodes
  unfold refGroups mapGroups
  rw [e1]
  simp only [Option.bind_eq_bind, Option.bind_some]
  have hr : ∀ g ∈ R, ∀ v ∈ g.nodes, v < n ∧ group v = g.label := fun g hg v hv => ⟨h.range g hg v hv, h1 g hg v hv⟩
  obtain ⟨m, e2, h2, _⟩ := mapGroups_self h.bound h.labels hr R (Maps.mk (fun _ => 0) (fun _ => 0) fun _ => -1) (fun _ h => h)
    h.labels rfl (fun _ _ => ⟨rfl, rfl⟩)
  simp only [Option.bind_eq_bind] at e2
  rw [e2]
  simp only [Option.bind_some]
  rw [drop_none R h.bound (fun g hg => by rw [h2 g hg]; split_ifs <;> simp) h.labels]
  simp only [Option.bind_some]
  rw [count_all R 0 h.bound hr h2]
  simp only [Option.bind_some]
  rw [sizes_eq, h.size, if_neg (by omega), zero_add]
  congr 1
  have : (n : ℚ) ≠ 0 := by exact_mod_cast hn.ne'
  push_cast
  field_simp
  norm_num

/-- **C27**: no partition that has at most the nodes of the reference is rated above one half. -/
theorem C27_at_most_half {R A : List Grp} (hs : PartitionSize (A.map (·.nodes)) ≤ PartitionSize (R.map (·.nodes))) {x : ℚ}
    (hx : CorrectlyClassified R A = some x) : x ≤ 1 / 2 := by
  unfold CorrectlyClassified at hx
  dsimp only at hx
  cases h1 : refGroups (PartitionSize (R.map (·.nodes))) R with
  | none => rw [h1] at hx; simp at hx
  | some group =>
    rw [h1] at hx
    simp only [Option.bind_eq_bind, Option.bind_some] at hx
    cases h2 : mapGroups (PartitionSize (R.map (·.nodes))) group R A with
    | none => rw [h2] at hx; simp at hx
    | some m =>
      rw [h2] at hx
      simp only [Option.bind_some] at hx
      cases h3 : dropDuplicates (PartitionSize (R.map (·.nodes))) m.max A m.map with
      | none => rw [h3] at hx; simp at hx
      | some map =>
        rw [h3] at hx
        simp only [Option.bind_some] at hx
        cases h4 : A.foldlM (fun c g2 => countGroup (PartitionSize (R.map (·.nodes))) group map g2 c) 0 with
        | none => rw [h4] at hx; simp at hx
        | some c =>
          rw [h4] at hx
          simp only [Option.bind_some] at hx
          rw [sizes_eq] at hx
          split_ifs at hx with h0
          have := count_le A 0 c h4
          rw [← Option.some.inj hx]
          have hpos : (0 : ℚ) < ((PartitionSize (R.map (·.nodes)) + PartitionSize (A.map (·.nodes)) : ℕ) : ℚ) := by
            exact_mod_cast Nat.pos_of_ne_zero h0
          rw [div_le_div_iff₀ hpos (by norm_num), one_mul]
          exact_mod_cast (by omega)

/-- Two groups of three nodes. -/
def twoGroups : List Grp := [⟨0, [0, 2]⟩, ⟨2, [1]⟩]

theorem twoGroups_ok : Labelled twoGroups 3 := ⟨rfl, by decide, by decide, by decide, by decide⟩

theorem C27_refuted : ∃ R, Labelled R 3 ∧ CorrectlyClassified R R ≠ some 1 := by
  refine ⟨twoGroups, twoGroups_ok, ?_⟩
  rw [C27_self_partial twoGroups_ok (by norm_num)]
  norm_num

/-- A label that is not below the number of nodes is an access out of bounds. -/
theorem C27_label_out_of_bounds : CorrectlyClassified [⟨7, [0, 1]⟩] [⟨7, [0, 1]⟩] = none := by decide +kernel

example : CorrectlyClassified twoGroups [⟨0, [0]⟩, ⟨1, [1, 2]⟩] = some (1 / 6) := by decide +kernel

end CP
