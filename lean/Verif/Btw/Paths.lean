import Verif.Btw.Spec
import Verif.Btw.Search
import Verif.BFS.Lemmas
import Mathlib.Algebra.BigOperators.Ring.Finset
import Mathlib.Algebra.BigOperators.Field
import Mathlib.Algebra.Order.BigOperators.Group.List
import Mathlib.Algebra.BigOperators.Group.Finset.Sigma
import Mathlib.Tactic.Ring
import Mathlib.Tactic.FieldSimp
import Mathlib.Algebra.Order.Field.Rat

/-! # Counting walks -/

set_option linter.unusedSimpArgs false

namespace BT

open BFS

variable {adj : ℕ → List ℕ} {s : ℕ}

/-- Number of walks of `k` links from `s` to `t`. -/
def W (adj : ℕ → List ℕ) : ℕ → ℕ → ℕ → ℕ
  | 0, s, t => if s = t then 1 else 0
  | k + 1, s, t => ((adj s).map fun w => W adj k w t).sum

theorem Walk.cons {v t : ℕ} (hv : v ∈ adj s) : ∀ {k}, Walk adj k v t → Walk adj (k + 1) s t := by
  intro k h
  induction h with
  | refl => exact Walk.step (Walk.refl s) hv
  | step _ hx ih => exact Walk.step (ih hv) hx

theorem Walk.uncons : ∀ {k t : ℕ}, Walk adj (k + 1) s t → ∃ v ∈ adj s, Walk adj k v t
  | 0, t, h => by
    cases h with
    | step h hx => cases h; exact ⟨t, hx, Walk.refl t⟩
  | k + 1, t, h => by
    cases h with
    | step h hx =>
      obtain ⟨v, hv, h'⟩ := Walk.uncons h
      exact ⟨v, hv, Walk.step h' hx⟩

theorem Walk.append {a b u t : ℕ} (h : Walk adj a s u) (h' : Walk adj b u t) : Walk adj (a + b) s t := by
  induction h' with
  | refl => exact h
  | step _ hx ih => exact Walk.step (ih h) hx

theorem W_pos : ∀ {k s t : ℕ}, 0 < W adj k s t ↔ Walk adj k s t
  | 0, s, t => by
    unfold W
    constructor
    · intro h; split_ifs at h with hst
      · subst hst; exact Walk.refl s
      · omega
    · intro h; cases h; simp
  | k + 1, s, t => by
    unfold W
    constructor
    · intro h
      obtain ⟨x, hx, hx0⟩ := List.exists_mem_ne_zero_of_sum_ne_zero (by omega : ((adj s).map fun w => W adj k w t).sum ≠ 0)
      obtain ⟨v, hv, rfl⟩ := List.mem_map.1 hx
      exact Walk.cons hv (W_pos.1 (by omega))
    · intro h
      obtain ⟨v, hv, h'⟩ := Walk.uncons h
      exact lt_of_lt_of_le (W_pos.2 h') (List.single_le_sum (by simp) _ (List.mem_map.2 ⟨v, hv, rfl⟩))

theorem walks_ne : ∀ (k s : ℕ), ∀ l ∈ walks adj k s, l ≠ []
  | 0, s, l, hl => by simp [walks] at hl; simp [hl]
  | k + 1, s, l, hl => by
    simp only [walks, List.mem_flatMap, List.mem_map] at hl
    obtain ⟨_, _, _, _, rfl⟩ := hl; simp

theorem countP_last (t : ℕ) : ∀ (k s : ℕ), (walks adj k s).countP (fun l => l.getLast? = some t) = W adj k s t
  | 0, s => by simp only [walks, W, List.countP_singleton, List.getLast?_singleton]; simp
  | k + 1, s => by
    rw [walks, W, List.countP_flatMap]
    congr 1
    refine List.map_congr_left fun w _ => ?_
    rw [Function.comp_apply, List.countP_map, ← countP_last t k w]
    refine List.countP_congr fun l hl => ?_
    have := walks_ne k w l hl
    cases l with
    | nil => exact absurd rfl this
    | cons a l => simp [List.getLast?_cons_cons]

theorem countP_at (t v : ℕ) : ∀ (i k s : ℕ), i ≤ k →
    (walks adj k s).countP (fun l => decide (l[i]? = some v ∧ l.getLast? = some t)) = W adj i s v * W adj (k - i) v t
  | 0, k, s, _ => by
    have h0 : ∀ l ∈ walks adj k s, l[0]? = some s := by
      intro l hl
      cases k with
      | zero => simp [walks] at hl; simp [hl]
      | succ k =>
        simp only [walks, List.mem_flatMap, List.mem_map] at hl
        obtain ⟨_, _, _, _, rfl⟩ := hl; simp
    rw [List.countP_congr (q := fun l => decide (s = v ∧ l.getLast? = some t)) (by
      intro l hl; simp [h0 l hl])]
    simp only [W, Nat.sub_zero]
    by_cases hsv : s = v
    · subst hsv; simp only [true_and, if_pos, one_mul]; exact countP_last t k s
    · simp [hsv]
  | i + 1, 0, s, h => by omega
  | i + 1, k + 1, s, h => by
    rw [walks, W, List.countP_flatMap, ← List.sum_map_mul_right]
    congr 1
    refine List.map_congr_left fun w _ => ?_
    rw [Function.comp_apply, List.countP_map, show k + 1 - (i + 1) = k - i by omega, ← countP_at t v i k w (by omega)]
    refine List.countP_congr fun l hl => ?_
    have := walks_ne k w l hl
    cases l with
    | nil => exact absurd rfl this
    | cons a l => simp [List.getLast?_cons_cons]

/-- Parts of a walk. -/
theorem walk_parts : ∀ (k s : ℕ) (l : List ℕ), l ∈ walks adj k s → ∀ i v t, l[i]? = some v → l.getLast? = some t →
    Walk adj i s v ∧ i ≤ k ∧ Walk adj (k - i) v t
  | 0, s, l, hl, i, v, t, hi, ht => by
    simp [walks] at hl
    subst hl
    cases i with
    | zero => simp at hi ht; subst hi; subst ht; exact ⟨Walk.refl _, le_rfl, Walk.refl _⟩
    | succ i => simp at hi
  | k + 1, s, l, hl, i, v, t, hi, ht => by
    simp only [walks, List.mem_flatMap, List.mem_map] at hl
    obtain ⟨w, hw, l', hl', rfl⟩ := hl
    have hne := walks_ne k w l' hl'
    have ht' : l'.getLast? = some t := by
      cases l' with
      | nil => exact absurd rfl hne
      | cons a l' => simpa [List.getLast?_cons_cons] using ht
    cases i with
    | zero =>
      simp at hi; subst hi
      have hb : l'[0]? = some w := by
        cases k with
        | zero => simp [walks] at hl'; simp [hl']
        | succ k =>
          simp only [walks, List.mem_flatMap, List.mem_map] at hl'
          obtain ⟨_, _, _, _, rfl⟩ := hl'; simp
      have := walk_parts k w l' hl' 0 w t hb ht'
      exact ⟨Walk.refl _, by omega, by simpa using Walk.cons hw this.2.2⟩
    | succ i =>
      simp at hi
      obtain ⟨h1, h2, h3⟩ := walk_parts k w l' hl' i v t hi ht'
      exact ⟨Walk.cons hw h1, by omega, by rwa [show k + 1 - (i + 1) = k - i by omega]⟩

theorem dist_eq {t d : ℕ} (h : IsDist adj s t d) : dist adj s t = d := by
  unfold dist
  exact le_antisymm (Nat.sInf_le h.1) (h.2 _ (Nat.sInf_mem (⟨d, h.1⟩ : {k | Walk adj k s t}.Nonempty)))

theorem shortest_length {t d : ℕ} (h : IsDist adj s t d) : (shortest adj s t).length = W adj d s t := by
  unfold shortest
  rw [dist_eq h, ← List.countP_eq_length_filter]
  exact countP_last t d s

theorem shortest_unreachable {t : ℕ} (h : ¬ Reach adj s t) : shortest adj s t = [] := by
  unfold shortest
  have : {k | Walk adj k s t} = ∅ := by ext k; simp; exact fun hh => h ⟨k, hh⟩
  rw [dist, this, Nat.sInf_empty]
  have hst : s ≠ t := by rintro rfl; exact h ⟨0, Walk.refl _⟩
  simp [walks, hst]

theorem shortest_through {t v a b : ℕ} (hv : IsDist adj s v a) (ht : IsDist adj s t b) :
    (shortest adj s t).countP (fun l => decide (v ∈ l)) = if a ≤ b then W adj a s v * W adj (b - a) v t else 0 := by
  unfold shortest
  rw [dist_eq ht, List.countP_filter]
  have key : ∀ l ∈ walks adj b s, l.getLast? = some t → (v ∈ l ↔ l[a]? = some v ∧ a ≤ b) := by
    intro l hl hlast
    constructor
    · intro hm
      obtain ⟨i, hi⟩ := List.getElem?_of_mem hm
      obtain ⟨h1, h2, h3⟩ := walk_parts b s l hl i v t hi hlast
      have h4 := hv.2 i h1
      have h5 := ht.2 _ (Walk.append hv.1 h3)
      have : i = a := by omega
      subst this
      exact ⟨hi, h2⟩
    · rintro ⟨h1, _⟩; exact List.mem_of_getElem? h1
  split_ifs with hab
  · rw [← countP_at t v a b s hab]
    refine List.countP_congr fun l hl => ?_
    simp only [decide_eq_true_eq, Bool.and_eq_true]
    constructor
    · rintro ⟨h1, h2⟩; exact ⟨((key l hl h2).1 h1).1, h2⟩
    · rintro ⟨h1, h2⟩; exact ⟨(key l hl h2).2 ⟨h1, hab⟩, h2⟩
  · rw [List.countP_eq_zero]
    intro l hl hh
    simp only [decide_eq_true_eq, Bool.and_eq_true] at hh
    exact hab ((key l hl hh.2).1 hh.1).2

theorem shortest_through_unreachable {t v : ℕ} (hv : ¬ Reach adj s v) :
    (shortest adj s t).countP (fun l => decide (v ∈ l)) = 0 := by
  rw [List.countP_eq_zero]
  intro l hl hm
  simp only [decide_eq_true_eq] at hm
  unfold shortest at hl
  simp only [List.mem_filter, decide_eq_true_eq] at hl
  obtain ⟨i, hi⟩ := List.getElem?_of_mem hm
  exact hv ⟨i, (walk_parts _ s l hl.1 i v t hi hl.2).1⟩

/-- Last step of the walks, over a finite set of nodes. -/
theorem W_last {n : ℕ} (hadj : ∀ i < n, ∀ j ∈ adj i, j < n) (t : ℕ) : ∀ (k s : ℕ), s < n →
    W adj (k + 1) s t = ∑ u ∈ Finset.range n, W adj k s u * (adj u).count t
  | 0, s, hs => by
    simp only [W, ite_mul, one_mul, zero_mul]
    rw [Finset.sum_ite_eq, if_pos (Finset.mem_range.2 hs), List.count_eq_countP]
    generalize adj s = l
    induction l with
    | nil => rfl
    | cons a l ih => rw [List.map_cons, List.sum_cons, ih, List.countP_cons]; simp only [beq_iff_eq]; omega
  | k + 1, s, hs => by
    rw [W]
    have : ((adj s).map fun w => W adj (k + 1) w t) = (adj s).map fun w => ∑ u ∈ Finset.range n, W adj k w u * (adj u).count t :=
      List.map_congr_left fun w hw => W_last hadj t k w (hadj s hs w hw)
    rw [this]
    have h2 : ∀ l : List ℕ, (l.map fun w => ∑ u ∈ Finset.range n, W adj k w u * (adj u).count t).sum =
        ∑ u ∈ Finset.range n, ((l.map fun w => W adj k w u).sum) * (adj u).count t := by
      intro l
      induction l with
      | nil => simp
      | cons a l ih => simp only [List.map_cons, List.sum_cons, ih, ← Finset.sum_add_distrib, add_mul]
    rw [h2]
    rfl

/-! ## The dependency -/

/-- Dependency of `s` on `v`. -/
noncomputable def dep (adj : ℕ → List ℕ) (n s v : ℕ) : ℚ := ∑ t ∈ Finset.range n, if t ≠ v then share adj s t v else 0

variable {n : ℕ} {st : St} {dd : ℕ → ℕ}

theorem Found.walk (h : Found adj s st dd) {x k : ℕ} (hx : Walk adj k s x) : x ∈ st.S := h.reach x ⟨k, hx⟩

theorem Found.next (h : Found adj s st dd) {v w : ℕ} (hv : v ∈ st.S) (hw : w ∈ adj v) : w ∈ st.S ∧ dd w ≤ dd v + 1 := by
  have h1 := Walk.step (h.dist v hv).1 hw
  exact ⟨h.walk h1, (h.dist w (h.walk h1)).2 _ h1⟩

theorem Found.lt (h : Found adj s st dd) (hadj : ∀ i < n, ∀ j ∈ adj i, j < n) (hs : s < n) {x : ℕ} (hx : x ∈ st.S) : x < n := by
  have := (h.dist x hx).1
  exact mem_bound hadj hs this

theorem Found.mem_pred (h : Found adj s st dd) {w u : ℕ} (hw : w ∈ st.S) : u ∈ st.P w ↔ u ∈ st.S ∧ w ∈ adj u ∧ dd u + 1 = dd w := by
  rw [h.pred w hw]; simp

/-- `sigma` counts the shortest paths. -/
theorem Found.sigma_eq (h : Found adj s st dd) (hadj : ∀ i < n, ∀ j ∈ adj i, j < n) (hnd : ∀ i < n, (adj i).Nodup) (hs : s < n) :
    ∀ k, ∀ w ∈ st.S, dd w = k → st.sigma w = W adj k s w := by
  intro k
  induction k with
  | zero =>
    intro w hw hk
    have := (h.dist w hw).1
    rw [hk] at this
    cases this
    rw [h.sigma s hw]
    have : st.P s = [] := by
      rw [List.eq_nil_iff_forall_not_mem]
      intro u hu
      have := (h.mem_pred hw).1 hu
      omega
    simp [this, W]
  | succ k ih =>
    intro w hw hk
    rw [h.sigma w hw]
    have hws : w ≠ s := by
      rintro rfl
      have := (h.dist w hw).2 0 (Walk.refl _)
      omega
    rw [if_neg hws, zero_add, W_last hadj w k s hs]
    have hPnd : (st.P w).Nodup := by
      rw [h.pred w hw]; exact (List.nodup_reverse.2 h.nodup).filter _
    rw [List.map_congr_left (g := fun u => W adj k s u) (fun u hu => by
      have := (h.mem_pred hw).1 hu
      exact ih u this.1 (by omega))]
    rw [← List.sum_toFinset _ hPnd]
    have hsub : (st.P w).toFinset ⊆ Finset.range n := by
      intro u hu
      rw [List.mem_toFinset] at hu
      exact Finset.mem_range.2 (h.lt hadj hs ((h.mem_pred hw).1 hu).1)
    rw [← Finset.sum_subset hsub (f := fun u => W adj k s u * (adj u).count w)]
    · refine Finset.sum_congr rfl fun u hu => ?_
      rw [List.mem_toFinset] at hu
      have := (h.mem_pred hw).1 hu
      rw [List.count_eq_one_of_mem (hnd u (h.lt hadj hs this.1)) this.2.1, mul_one]
    · intro u _ hu
      rw [List.mem_toFinset] at hu
      by_contra hne
      have h1 : 0 < W adj k s u := Nat.pos_of_ne_zero fun hh => hne (by rw [hh, zero_mul])
      have h2 : w ∈ adj u := List.count_pos_iff.1 (Nat.pos_of_ne_zero fun hh => hne (by rw [hh, mul_zero]))
      have h3 := h.walk (W_pos.1 h1)
      have h4 := (h.dist u h3).2 k (W_pos.1 h1)
      have h5 := h.next h3 h2
      exact hu ((h.mem_pred hw).2 ⟨h3, h2, by omega⟩)

theorem Found.sigma_pos (h : Found adj s st dd) (hadj : ∀ i < n, ∀ j ∈ adj i, j < n) (hnd : ∀ i < n, (adj i).Nodup) (hs : s < n)
    {w : ℕ} (hw : w ∈ st.S) : 0 < st.sigma w := by
  rw [h.sigma_eq hadj hnd hs _ w hw rfl, W_pos]; exact (h.dist w hw).1

theorem Found.sigma_shortest (h : Found adj s st dd) (hadj : ∀ i < n, ∀ j ∈ adj i, j < n) (hnd : ∀ i < n, (adj i).Nodup) (hs : s < n)
    (w : ℕ) : st.sigma w = (shortest adj s w).length := by
  by_cases hw : w ∈ st.S
  · rw [h.sigma_eq hadj hnd hs _ w hw rfl, shortest_length (h.dist w hw)]
  · rw [h.other w hw, shortest_unreachable]
    · rfl
    · exact fun hh => hw (h.reach w hh)

/-- Share in terms of walks. -/
theorem Found.share_eq (h : Found adj s st dd) (hadj : ∀ i < n, ∀ j ∈ adj i, j < n) (hnd : ∀ i < n, (adj i).Nodup) (hs : s < n)
    {v t : ℕ} (hv : v ∈ st.S) (ht : t ∈ st.S) :
    share adj s t v = (st.sigma v : ℚ) * ((if dd v ≤ dd t then W adj (dd t - dd v) v t else 0 : ℕ) : ℚ) / st.sigma t := by
  unfold share
  rw [shortest_through (h.dist v hv) (h.dist t ht), ← h.sigma_shortest hadj hnd hs t, ← h.sigma_eq hadj hnd hs _ v hv rfl]
  congr 1
  split_ifs <;> simp

theorem share_zero_left {t v : ℕ} (h : ¬ Reach adj s t) : share adj s t v = 0 := by
  unfold share; rw [shortest_unreachable h]; simp

theorem share_zero_right {t v : ℕ} (h : ¬ Reach adj s v) : share adj s t v = 0 := by
  unfold share; rw [shortest_through_unreachable h]; simp

/-- First steps of the walks that go on from `v`. -/
theorem Found.split (h : Found adj s st dd) {v t : ℕ} (hnd : (adj v).Nodup) (hv : v ∈ st.S) (ht : t ∈ st.S) :
    (if t ≠ v then (if dd v ≤ dd t then W adj (dd t - dd v) v t else 0) else 0) =
    ∑ w ∈ st.S.toFinset, if v ∈ st.P w then (if dd w ≤ dd t then W adj (dd t - dd w) w t else 0) else 0 := by
  by_cases hlt : dd v < dd t
  · have htv : t ≠ v := by rintro rfl; omega
    rw [if_pos htv, if_pos hlt.le]
    obtain ⟨k, hk⟩ : ∃ k, dd t - dd v = k + 1 := ⟨dd t - dd v - 1, by omega⟩
    rw [hk, W, ← List.sum_toFinset _ hnd]
    have hsub : (adj v).toFinset ⊆ st.S.toFinset := by
      intro w hw
      rw [List.mem_toFinset] at hw ⊢
      exact (h.next hv hw).1
    rw [← Finset.sum_subset hsub (f := fun w => if v ∈ st.P w then (if dd w ≤ dd t then W adj (dd t - dd w) w t else 0) else 0)]
    · refine Finset.sum_congr rfl fun w hw => ?_
      rw [List.mem_toFinset] at hw
      obtain ⟨hwS, hwd⟩ := h.next hv hw
      by_cases hp : v ∈ st.P w
      · have := ((h.mem_pred hwS).1 hp).2.2
        rw [if_pos hp, if_pos (by omega), show dd t - dd w = k by omega]
      · rw [if_neg hp]
        by_contra hne
        have hw' := W_pos.1 (Nat.pos_of_ne_zero hne)
        have h1 := (h.dist t ht).2 _ (Walk.append (h.dist w hwS).1 hw')
        exact hp ((h.mem_pred hwS).2 ⟨hv, hw, by omega⟩)
    · intro w hw hn
      rw [List.mem_toFinset] at hw hn
      rw [if_neg]
      intro hp
      exact hn ((h.mem_pred hw).1 hp).2.1
  · have : (if t ≠ v then (if dd v ≤ dd t then W adj (dd t - dd v) v t else 0) else 0) = 0 := by
      split_ifs with h1 h2
      · rw [show dd t - dd v = 0 by omega, W, if_neg (Ne.symm h1)]
      · rfl
      · rfl
    rw [this]
    symm
    apply Finset.sum_eq_zero
    intro w hw
    rw [List.mem_toFinset] at hw
    split_ifs with h1 h2
    · have := ((h.mem_pred hw).1 h1).2.2; omega
    · rfl
    · rfl

theorem sum_reached (h : Found adj s st dd) (hadj : ∀ i < n, ∀ j ∈ adj i, j < n) (hs : s < n) (f : ℕ → ℚ)
    (hf : ∀ t, t ∉ st.S → f t = 0) : ∑ t ∈ Finset.range n, f t = ∑ t ∈ st.S.toFinset, f t := by
  symm
  apply Finset.sum_subset
  · intro t ht; rw [List.mem_toFinset] at ht; exact Finset.mem_range.2 (h.lt hadj hs ht)
  · intro t _ ht; rw [List.mem_toFinset] at ht; exact hf t ht

theorem Found.not_reach (h : Found adj s st dd) {t : ℕ} (ht : t ∉ st.S) : ¬ Reach adj s t := fun hh => ht (h.reach t hh)

/-- Brandes' recursion. -/
theorem Found.dep_rec (h : Found adj s st dd) (hadj : ∀ i < n, ∀ j ∈ adj i, j < n) (hnd : ∀ i < n, (adj i).Nodup) (hs : s < n)
    {v : ℕ} (hv : v ∈ st.S) :
    dep adj n s v = ∑ w ∈ st.S.toFinset, if v ∈ st.P w then (1 + dep adj n s w) * st.sigma v / st.sigma w else 0 := by
  have hvn := h.lt hadj hs hv
  have hσ : ∀ w ∈ st.S, (st.sigma w : ℚ) ≠ 0 := fun w hw => by
    have := h.sigma_pos hadj hnd hs hw
    exact_mod_cast (by omega : st.sigma w ≠ 0)
  -- the node itself
  have hone : ∀ w ∈ st.S, 1 + dep adj n s w =
      ∑ t ∈ st.S.toFinset, (st.sigma w : ℚ) * ((if dd w ≤ dd t then W adj (dd t - dd w) w t else 0 : ℕ) : ℚ) / st.sigma t := by
    intro w hw
    unfold dep
    rw [sum_reached h hadj hs _ (fun t ht => by rw [share_zero_left (h.not_reach ht)]; simp)]
    have hwf : w ∈ st.S.toFinset := List.mem_toFinset.2 hw
    rw [← Finset.add_sum_erase _ _ hwf, ← Finset.add_sum_erase _ (fun t => (st.sigma w : ℚ) * _ / st.sigma t) hwf]
    simp only [ne_eq, not_true_eq_false, if_false, le_refl, if_true, Nat.sub_self, W, zero_add]
    congr 1
    · rw [Nat.cast_one, mul_one, div_self (hσ w hw)]
    · refine Finset.sum_congr rfl fun t ht => ?_
      rw [Finset.mem_erase, List.mem_toFinset] at ht
      rw [if_pos ht.1, h.share_eq hadj hnd hs hw ht.2]
  have h1 : dep adj n s v = ∑ t ∈ st.S.toFinset, (st.sigma v : ℚ) *
      ((if t ≠ v then (if dd v ≤ dd t then W adj (dd t - dd v) v t else 0) else 0 : ℕ) : ℚ) / st.sigma t := by
    unfold dep
    rw [sum_reached h hadj hs _ (fun t ht => by rw [share_zero_left (h.not_reach ht)]; simp)]
    refine Finset.sum_congr rfl fun t ht => ?_
    rw [List.mem_toFinset] at ht
    by_cases htv : t ≠ v
    · rw [if_pos htv, if_pos htv, h.share_eq hadj hnd hs hv ht]
    · rw [if_neg htv, if_neg htv]; simp
  rw [h1]
  have h2 : ∀ t ∈ st.S.toFinset, (st.sigma v : ℚ) *
      ((if t ≠ v then (if dd v ≤ dd t then W adj (dd t - dd v) v t else 0) else 0 : ℕ) : ℚ) / st.sigma t =
      ∑ w ∈ st.S.toFinset, if v ∈ st.P w then
        (st.sigma v : ℚ) * ((if dd w ≤ dd t then W adj (dd t - dd w) w t else 0 : ℕ) : ℚ) / st.sigma t else 0 := by
    intro t ht
    rw [List.mem_toFinset] at ht
    rw [h.split (hnd v hvn) hv ht, Nat.cast_sum, Finset.mul_sum, Finset.sum_div]
    refine Finset.sum_congr rfl fun w _ => ?_
    by_cases hp : v ∈ st.P w
    · rw [if_pos hp, if_pos hp]
    · rw [if_neg hp, if_neg hp]; simp
  rw [Finset.sum_congr rfl h2, Finset.sum_comm]
  refine Finset.sum_congr rfl fun w hw => ?_
  rw [List.mem_toFinset] at hw
  by_cases hp : v ∈ st.P w
  · simp only [if_pos hp]
    rw [hone w hw, Finset.sum_mul, Finset.sum_div]
    refine Finset.sum_congr rfl fun t _ => ?_
    have := hσ w hw
    field_simp
  · simp [hp]

end BT
