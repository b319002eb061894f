import Verif.Btw.Model
import Verif.BFS.Spec
import Mathlib.Tactic.Common
import Mathlib.Data.List.Nodup
import Mathlib.Data.List.Perm.Subperm
import Mathlib.Algebra.BigOperators.Group.List.Basic
import Mathlib.Data.List.Range

/-! # Invariant of the search -/

set_option linter.unusedSimpArgs false

namespace BT

open BFS

variable {adj : ℕ → List ℕ} {s : ℕ}

/-- Nodes found so far, in order. -/
def St.order (st : St) : List ℕ := st.S.reverse ++ st.Q

/-- Predecessors that follow from the part `row` of the links. -/
def predOf (st : St) (row : ℕ → List ℕ) (w : ℕ) : List ℕ :=
  st.S.reverse.filter fun u => decide (w ∈ row u ∧ st.d u + 1 = st.d w)

/-- State after the links in `row` have been looked at; `b` is the largest distance of a node whose list was begun. -/
structure Inv (adj : ℕ → List ℕ) (s : ℕ) (row : ℕ → List ℕ) (b : ℤ) (st : St) : Prop where
  nodup : st.order.Nodup
  start : s ∈ st.order
  found : ∀ x, 0 ≤ st.d x ↔ x ∈ st.order
  dist : ∀ x ∈ st.order, IsDist adj s x (st.d x).toNat
  sorted : st.order.Pairwise fun x y => st.d x ≤ st.d y
  near : ∀ x ∈ st.order, st.d x ≤ b + 1
  old : ∀ x ∈ st.S, st.d x ≤ b
  sub : ∀ u, ∀ w ∈ row u, u ∈ st.S ∧ w ∈ st.order ∧ st.d w ≤ st.d u + 1
  pred : ∀ w, st.P w = predOf st row w
  sigma : ∀ w, st.sigma w = (if w = s then 1 else 0) + ((st.P w).map st.sigma).sum

theorem IsDist.unique {v a b : ℕ} (h1 : IsDist adj s v a) (h2 : IsDist adj s v b) : a = b :=
  le_antisymm (h1.2 _ h2.1) (h2.2 _ h1.1)

theorem Inv.mem_S {row b st} (h : Inv adj s row b st) {w : ℕ} (hw : w ∈ st.S) : w ∈ st.order := by
  simp [St.order, hw]

theorem Inv.pred_sub {row b st} (h : Inv adj s row b st) {w u : ℕ} (hu : u ∈ st.P w) :
    u ∈ st.S ∧ w ∈ row u ∧ st.d u + 1 = st.d w := by
  rw [h.pred] at hu; simpa [predOf] using hu

/-- Nodes with a walk of at most `d v` links have been found. -/
theorem Inv.close {row b st} (h : Inv adj s row b st) {v : ℕ} (hv : v ∈ st.S) (hfull : ∀ u ∈ st.S, u ≠ v → row u = adj u)
    (hQ : ∀ x ∈ st.Q, st.d v ≤ st.d x) : ∀ k x, Walk adj k s x → (k : ℤ) ≤ st.d v → x ∈ st.order := by
  intro k
  induction k with
  | zero => intro x hw _; cases hw; exact h.start
  | succ k ih =>
    intro x hw hk
    obtain ⟨u, hw, hx⟩ : ∃ u, Walk adj k s u ∧ x ∈ adj u := by cases hw with | step hw hx => exact ⟨_, hw, hx⟩
    have hu := ih u hw (by omega)
    have hdu : st.d u ≤ k := by
      have := (h.dist u hu).2 k hw
      have h0 := (h.found u).2 hu
      omega
    have huS : u ∈ st.S := by
      rcases List.mem_append.1 hu with hu | hu
      · simpa using hu
      · have := hQ u hu; omega
    have hne : u ≠ v := by rintro rfl; omega
    rw [← hfull u huS hne] at hx
    exact (h.sub u x hx).2.1

theorem discover_inv {row st} {v : ℕ} {rest : List ℕ} (hS : st.S = v :: rest) (h : Inv adj s row (st.d v) st)
    (hfull : ∀ u ∈ st.S, u ≠ v → row u = adj u) (hQ : ∀ x ∈ st.Q, st.d v ≤ st.d x) {w : ℕ} (hw : w ∈ adj v) :
    Inv adj s row ((discover v st w).d v) (discover v st w) ∧ w ∈ (discover v st w).order ∧
    (discover v st w).S = st.S ∧ (∀ u ∈ st.S, (discover v st w).d u = st.d u) ∧
    (∀ x ∈ (discover v st w).Q, (discover v st w).d v ≤ (discover v st w).d x) := by
  have hvS : v ∈ st.S := by simp [hS]
  unfold discover
  split_ifs with hd
  · have hwo : w ∉ st.order := by intro hh; have := (h.found w).2 hh; omega
    have hwS : w ∉ st.S := fun hh => hwo (h.mem_S hh)
    have hvw : v ≠ w := by rintro rfl; exact hwS hvS
    have hd' : ∀ x, x ≠ w → Function.update st.d w (st.d v + 1) x = st.d x := fun x hx => by simp [hx]
    have hdo : ∀ x ∈ st.order, Function.update st.d w (st.d v + 1) x = st.d x :=
      fun x hx => hd' x (by rintro rfl; exact hwo hx)
    have hdw : Function.update st.d w (st.d v + 1) w = st.d v + 1 := by simp
    have hv0 : 0 ≤ st.d v := (h.found v).2 (h.mem_S hvS)
    have hord : ({ st with Q := st.Q ++ [w], d := Function.update st.d w (st.d v + 1) } : St).order = st.order ++ [w] := by
      simp [St.order]
    refine ⟨⟨?_, ?_, ?_, ?_, ?_, ?_, ?_, ?_, ?_, ?_⟩, ?_, rfl, ?_, ?_⟩
    · rw [hord]; refine List.nodup_append.2 ⟨h.nodup, by simp, ?_⟩
      rintro a ha b hb rfl; simp at hb; subst hb; exact hwo ha
    · rw [hord]; simp [h.start]
    · intro x
      rw [hord]
      by_cases hx : x = w
      · subst hx; simp; omega
      · simp only [hd' x hx, List.mem_append, List.mem_singleton, hx, or_false]; exact h.found x
    · intro x hx
      rw [hord] at hx
      rcases List.mem_append.1 hx with hx | hx
      · simp only [hdo x hx]; exact h.dist x hx
      · simp at hx; subst hx
        simp only [hdw]
        have hto : (st.d v + 1).toNat = (st.d v).toNat + 1 := by omega
        rw [hto]
        refine ⟨Walk.step (h.dist v (h.mem_S hvS)).1 hw, ?_⟩
        intro k hk
        by_contra hlt
        exact hwo (h.close hvS hfull hQ k x hk (by omega))
    · rw [hord]
      refine List.pairwise_append.2 ⟨?_, by simp, ?_⟩
      · refine h.sorted.imp_of_mem ?_
        intro a b ha hb hab
        simp only [hdo a ha, hdo b hb]; exact hab
      · intro a ha b hb
        simp at hb; subst hb
        simp only [hdo a ha, hdw]
        exact h.near a ha
    · intro x hx
      rw [hord] at hx
      simp only [hd' v hvw]
      rcases List.mem_append.1 hx with hx | hx
      · simp only [hdo x hx]; exact h.near x hx
      · simp at hx; subst hx; simp only [hdw]; omega
    · intro x hx
      simp only [hd' v hvw, hdo x (h.mem_S hx)]; exact h.old x hx
    · intro u x hx
      obtain ⟨h1, h2, h3⟩ := h.sub u x hx
      refine ⟨h1, by rw [hord]; simp [h2], ?_⟩
      simp only [hdo u (h.mem_S h1), hdo x h2]; exact h3
    · intro x
      show st.P x = _
      rw [h.pred]
      unfold predOf
      apply List.filter_congr
      intro u hu
      have hu : u ∈ st.S := by simpa using hu
      simp only [hdo u (h.mem_S hu)]
      by_cases hx : x = w
      · subst hx
        have : x ∉ row u := fun hh => hwo (h.sub u x hh).2.1
        simp [this]
      · rw [hd' x hx]
    · exact h.sigma
    · rw [hord]; simp
    · intro u hu; exact hdo u (h.mem_S hu)
    · intro x hx
      simp only [hd' v hvw]
      rcases List.mem_append.1 hx with hx' | hx'
      · rw [hdo x (by simp [St.order, hx'])]; exact hQ x hx'
      · simp at hx'; subst hx'; simp only [hdw]; omega
  · refine ⟨h, ?_, rfl, fun _ _ => rfl, hQ⟩
    exact (h.found w).1 (by omega)

theorem count_inv {row st} {v : ℕ} {rest : List ℕ} (hS : st.S = v :: rest) (h : Inv adj s row (st.d v) st)
    {w : ℕ} (hw : w ∈ st.order) (hnew : w ∉ row v) :
    Inv adj s (Function.update row v (row v ++ [w])) (st.d v) (count v st w) ∧
    (count v st w).S = st.S ∧ (count v st w).d = st.d ∧ (count v st w).Q = st.Q := by
  have hvS : v ∈ st.S := by simp [hS]
  have hvo := h.mem_S hvS
  have hvrest : v ∉ rest.reverse := by
    have := h.nodup
    rw [St.order, hS] at this
    have := (List.nodup_append.1 this).1
    rw [List.nodup_reverse, List.nodup_cons] at this
    simpa using this.1
  have hrow : ∀ u, u ≠ v → Function.update row v (row v ++ [w]) u = row u := fun u hu => by simp [hu]
  have hrowv : Function.update row v (row v ++ [w]) v = row v ++ [w] := by simp
  have hsub : ∀ u, ∀ x ∈ Function.update row v (row v ++ [w]) u, u ∈ st.S ∧ x ∈ st.order ∧ st.d x ≤ st.d u + 1 := by
    intro u x hx
    by_cases hu : u = v
    · subst hu
      rw [hrowv] at hx
      rcases List.mem_append.1 hx with hx | hx
      · exact h.sub u x hx
      · simp at hx; subst hx; exact ⟨hvS, hw, h.near x hw⟩
    · rw [hrow u hu] at hx; exact h.sub u x hx
  have hpred_ne : ∀ x, x ≠ w → predOf st (Function.update row v (row v ++ [w])) x = predOf st row x := by
    intro x hx
    unfold predOf
    apply List.filter_congr
    intro u _
    by_cases hu : u = v
    · subst hu; rw [hrowv]; simp [hx]
    · rw [hrow u hu]
  have hrest : rest.reverse.filter (fun u => decide (w ∈ Function.update row v (row v ++ [w]) u ∧ st.d u + 1 = st.d w)) =
      rest.reverse.filter (fun u => decide (w ∈ row u ∧ st.d u + 1 = st.d w)) := by
    apply List.filter_congr
    intro u hu
    rw [hrow u (by rintro rfl; exact hvrest hu)]
  have hpred_w : predOf st (Function.update row v (row v ++ [w])) w = predOf st row w ++ (if st.d w = st.d v + 1 then [v] else []) := by
    unfold predOf
    rw [hS, List.reverse_cons, List.filter_append, List.filter_append, hrest, List.append_assoc]
    congr 1
    rw [List.filter_singleton, List.filter_singleton, hrowv]
    by_cases hc : st.d w = st.d v + 1
    · simp [hnew, hc]
    · simp [hnew, hc, Ne.symm hc]
  unfold count
  split_ifs with hd
  · refine ⟨⟨h.nodup, h.start, h.found, h.dist, h.sorted, h.near, h.old, hsub, ?_, ?_⟩, rfl, rfl, rfl⟩
    · intro x
      show Function.update st.P w (st.P w ++ [v]) x = predOf st _ x
      by_cases hx : x = w
      · subst hx
        rw [hpred_w, if_pos hd]; simp [h.pred]
      · rw [hpred_ne x hx]; simp [hx, h.pred]
    · intro x
      have hwS : w ∉ st.S := by intro hh; have := h.old w hh; omega
      have hkeep : ∀ l : List ℕ, (∀ u ∈ l, u ∈ st.S) → l.map (Function.update st.sigma w (st.sigma w + st.sigma v)) = l.map st.sigma := by
        intro l hl
        refine List.map_congr_left fun u hu => ?_
        rw [Function.update_of_ne]; rintro rfl; exact hwS (hl _ hu)
      show Function.update st.sigma w (st.sigma w + st.sigma v) x = _ + ((Function.update st.P w (st.P w ++ [v]) x).map _).sum
      by_cases hx : x = w
      · subst hx
        rw [Function.update_self, Function.update_self, hkeep _ (by
          intro u hu
          rcases List.mem_append.1 hu with hu | hu
          · exact (h.pred_sub hu).1
          · simp at hu; subst hu; exact hvS), List.map_append, List.sum_append, h.sigma x]
        simp; omega
      · rw [Function.update_of_ne hx, Function.update_of_ne hx, hkeep _ (fun u hu => (h.pred_sub hu).1)]
        exact h.sigma x
  · refine ⟨⟨h.nodup, h.start, h.found, h.dist, h.sorted, h.near, h.old, hsub, ?_, h.sigma⟩, rfl, rfl, rfl⟩
    intro x
    by_cases hx : x = w
    · subst hx; rw [hpred_w, if_neg hd, List.append_nil]; exact h.pred x
    · rw [hpred_ne x hx]; exact h.pred x

/-- One list of neighbours. -/
theorem row_inv {v : ℕ} {rest : List ℕ} : ∀ (todo done : List ℕ) (row : ℕ → List ℕ) (st : St), adj v = done ++ todo → (adj v).Nodup →
    row v = done → st.S = v :: rest → (∀ u ∈ st.S, u ≠ v → row u = adj u) → (∀ x ∈ st.Q, st.d v ≤ st.d x) →
    Inv adj s row (st.d v) st →
    let st' := todo.foldl (visit v) st
    Inv adj s (Function.update row v (adj v)) (st'.d v) st' ∧ st'.S = st.S ∧ st'.d v = st.d v ∧ (∀ x ∈ st'.Q, st'.d v ≤ st'.d x)
  | [], done, row, st, hadj, _, hrow, hS, hfull, hQ, h => by
    simp only [List.foldl_nil]
    rw [List.append_nil] at hadj
    rw [hadj, ← hrow, Function.update_eq_self]
    exact ⟨h, trivial, trivial, hQ⟩
  | w :: todo, done, row, st, hadj, hnd, hrow, hS, hfull, hQ, h => by
    have hvS : v ∈ st.S := by simp [hS]
    obtain ⟨d1, d2, d3, d4, d5⟩ := discover_inv hS h hfull hQ (w := w) (by rw [hadj]; simp)
    have hw : w ∉ row v := by
      rw [hrow]
      rw [hadj] at hnd
      intro hh
      exact (List.nodup_append.1 hnd).2.2 w hh w (by simp) rfl
    obtain ⟨c1, c2, c3, c4⟩ := count_inv (d3.trans hS) d1 d2 hw
    have hdv : (visit v st w).d v = st.d v := by unfold visit; rw [c3]; exact d4 v hvS
    have := row_inv todo (done ++ [w]) (Function.update row v (row v ++ [w])) (visit v st w) (by rw [hadj]; simp) hnd
      (by simp [hrow]) (by unfold visit; rw [c2, d3, hS])
      (by
        intro u hu hne
        unfold visit at hu
        rw [c2, d3] at hu
        rw [Function.update_of_ne hne]; exact hfull u hu hne)
      (by unfold visit; rw [c3, c4]; exact d5)
      (by unfold visit; rw [c3]; exact c1)
    simp only [List.foldl_cons] at this ⊢
    rw [Function.update_idem] at this
    obtain ⟨t1, t2, t3, t4⟩ := this
    refine ⟨t1, ?_, t3.trans hdv, t4⟩
    rw [t2]; unfold visit; rw [c2, d3]

/-- The links of the nodes on the stack. -/
def stackRows (adj : ℕ → List ℕ) (S : List ℕ) (u : ℕ) : List ℕ := if u ∈ S then adj u else []

/-- State between two rounds. -/
def Outer (adj : ℕ → List ℕ) (s : ℕ) (st : St) : Prop :=
  ∃ b, Inv adj s (stackRows adj st.S) b st ∧ ∀ x ∈ st.Q, b ≤ st.d x

theorem outer_init : Outer adj s (St.init s) := by
  refine ⟨0, ⟨?_, ?_, ?_, ?_, ?_, ?_, ?_, ?_, ?_, ?_⟩, ?_⟩
  · simp [St.init, St.order]
  · simp [St.init, St.order]
  · intro x
    by_cases hx : x = s <;> simp [St.init, St.order, hx]
  · intro x hx
    simp [St.init, St.order] at hx
    subst hx
    simp [St.init]
    exact ⟨Walk.refl _, fun _ _ => by omega⟩
  · simp [St.init, St.order]
  · intro x hx
    simp [St.init, St.order] at hx
    subst hx
    simp [St.init]
  · simp [St.init]
  · simp [St.init, stackRows]
  · simp [St.init, predOf]
  · intro w
    by_cases hw : w = s <;> simp [St.init, hw]
  · simp [St.init]

theorem outer_step {st : St} (h : Outer adj s st) {v : ℕ} {q : List ℕ} (hQ : st.Q = v :: q) (hnd : (adj v).Nodup) :
    Outer adj s ((adj v).foldl (visit v) { st with Q := q, S := v :: st.S }) ∧
    ((adj v).foldl (visit v) { st with Q := q, S := v :: st.S }).S = v :: st.S := by
  obtain ⟨b, h, hb⟩ := h
  have hord : ({ st with Q := q, S := v :: st.S } : St).order = st.order := by simp [St.order, hQ]
  have hvo : v ∈ st.order := by simp [St.order, hQ]
  have hvS : v ∉ st.S := by
    intro hh
    have := h.nodup
    rw [St.order, hQ] at this
    exact (List.nodup_append.1 this).2.2 v (by simpa using hh) v (by simp) rfl
  have hsort := h.sorted
  rw [St.order, hQ] at hsort
  have hQv : ∀ x ∈ q, st.d v ≤ st.d x := by
    intro x hx
    exact (List.pairwise_cons.1 (List.pairwise_append.1 hsort).2.1).1 x hx
  have hSv : ∀ x ∈ st.S, st.d x ≤ st.d v := by
    intro x hx
    exact (List.pairwise_append.1 hsort).2.2 x (by simpa using hx) v (by simp)
  have hbv : b ≤ st.d v := hb v (by simp [hQ])
  have hinv : Inv adj s (stackRows adj st.S) (st.d v) { st with Q := q, S := v :: st.S } := by
    refine ⟨by rw [hord]; exact h.nodup, by rw [hord]; exact h.start, by rw [hord]; exact h.found, by rw [hord]; exact h.dist,
      by rw [hord]; exact h.sorted, ?_, ?_, ?_, ?_, h.sigma⟩
    · rw [hord]; intro x hx; have := h.near x hx; show st.d x ≤ _; omega
    · intro x hx
      rcases List.mem_cons.1 hx with rfl | hx
      · exact le_rfl
      · exact hSv x hx
    · intro u w hw
      obtain ⟨h1, h2, h3⟩ := h.sub u w hw
      exact ⟨by simp [h1], by rw [hord]; exact h2, h3⟩
    · intro w
      show st.P w = _
      rw [h.pred]
      unfold predOf
      simp only [List.reverse_cons, List.filter_append, List.filter_singleton]
      have : stackRows adj st.S v = [] := by simp [stackRows, hvS]
      simp [this]
  have hrow := row_inv (adj v) [] (stackRows adj st.S) { st with Q := q, S := v :: st.S } rfl hnd (by simp [stackRows, hvS]) rfl
    (by
      intro u hu hne
      rcases List.mem_cons.1 hu with rfl | hu
      · exact absurd rfl hne
      · simp [stackRows, hu]) hQv hinv
  simp only at hrow
  obtain ⟨r1, r2, r3, r4⟩ := hrow
  refine ⟨⟨_, ?_, r4⟩, r2⟩
  have : Function.update (stackRows adj st.S) v (adj v) = stackRows adj (v :: st.S) := by
    funext u
    by_cases hu : u = v
    · subst hu; simp [stackRows]
    · simp [stackRows, hu]
  rw [r2, ← this]
  exact r1

/-! ## Without overflow -/

theorem visit_mono (v : ℕ) (st : St) (w x : ℕ) : st.sigma x ≤ (visit v st w).sigma x := by
  have h1 : (discover v st w).sigma = st.sigma := by unfold discover; split_ifs <;> rfl
  rw [← h1]
  unfold visit count
  split_ifs
  · simp only [Function.update_apply]; split_ifs with h
    · subst h; omega
    · exact le_rfl
  · exact le_rfl

theorem fold_mono (v : ℕ) : ∀ (l : List ℕ) (st : St) (x : ℕ), st.sigma x ≤ (l.foldl (visit v) st).sigma x
  | [], _, _ => le_rfl
  | w :: l, st, x => (visit_mono v st w x).trans (fold_mono v l (visit v st w) x)

theorem fold_visitC (v : ℕ) : ∀ (l : List ℕ) (st : St), (∀ x, (l.foldl (visit v) st).sigma x ≤ INT_MAX) →
    l.foldlM (visitC v) st = some (l.foldl (visit v) st)
  | [], st, _ => rfl
  | w :: l, st, h => by
    rw [List.foldlM_cons, visitC, if_pos ((fold_mono v l (visit v st w) w).trans (h w))]
    exact fold_visitC v l (visit v st w) h

/-- The search with unbounded numbers. -/
def freeLoop (adj : ℕ → List ℕ) : (fuel : ℕ) → St → Option St
  | 0, _ => none
  | fuel + 1, st =>
    match st.Q with
    | [] => some st
    | v :: q => freeLoop adj fuel ((adj v).foldl (visit v) { st with Q := q, S := v :: st.S })

theorem free_mono : ∀ (fuel : ℕ) (st r : St), freeLoop adj fuel st = some r → ∀ x, st.sigma x ≤ r.sigma x
  | 0, _, _, h => by simp [freeLoop] at h
  | fuel + 1, st, r, h => by
    intro x
    rw [freeLoop] at h
    split at h
    · cases h; exact le_rfl
    · rename_i v q _
      exact (fold_mono v (adj v) { st with Q := q, S := v :: st.S } x).trans (free_mono fuel _ r h x)

theorem search_of_free : ∀ (fuel : ℕ) (st r : St), freeLoop adj fuel st = some r → (∀ x, r.sigma x ≤ INT_MAX) →
    searchLoop adj fuel st = some r
  | 0, _, _, h, _ => by simp [freeLoop] at h
  | fuel + 1, st, r, h, hr => by
    rw [freeLoop] at h
    rw [searchLoop]
    split at h
    · rename_i hq; rw [hq]; exact h
    · rename_i v q hq
      rw [hq]
      simp only [Option.bind_eq_bind]
      rw [fold_visitC _ _ _ fun x => (free_mono fuel _ r h x).trans (hr x)]
      exact search_of_free fuel _ r h hr

/-- The free search ends. -/
theorem free_final {n : ℕ} (hadj : ∀ i < n, ∀ j ∈ adj i, j < n) (hnd : ∀ i < n, (adj i).Nodup) (hs : s < n) :
    ∀ (fuel : ℕ) (st : St), Outer adj s st → n + 1 ≤ fuel + st.S.length → ∃ r, freeLoop adj fuel st = some r ∧ Outer adj s r ∧ r.Q = []
  | fuel, st, h, hf => by
    have hlt : ∀ x ∈ st.order, x < n := by
      obtain ⟨b, h, _⟩ := h
      intro x hx
      have hw := (h.dist x hx).1
      revert hw
      generalize (st.d x).toNat = k
      intro hw
      clear h hx hf
      induction hw with
      | refl => exact hs
      | step _ hv ih => exact hadj _ (ih hs) _ hv
    have hlen : st.order.length ≤ n := by
      obtain ⟨b, h, _⟩ := h
      have : st.order ⊆ List.range n := fun x hx => List.mem_range.2 (hlt x hx)
      simpa using (List.Nodup.subperm h.nodup this).length_le
    have hlen' : st.S.length + st.Q.length ≤ n := by simpa [St.order] using hlen
    match fuel with
    | 0 => omega
    | fuel + 1 =>
      rw [freeLoop]
      cases hQ : st.Q with
      | nil => exact ⟨st, rfl, h, hQ⟩
      | cons v q =>
        have hv : v < n := hlt v (by simp [St.order, hQ])
        obtain ⟨h1, h2⟩ := outer_step h hQ (hnd v hv)
        exact free_final hadj hnd hs fuel _ h1 (by rw [h2]; simp; omega)

/-- What the search finds. -/
structure Found (adj : ℕ → List ℕ) (s : ℕ) (st : St) (dd : ℕ → ℕ) : Prop where
  nodup : st.S.Nodup
  dist : ∀ x ∈ st.S, IsDist adj s x (dd x)
  reach : ∀ x, Reach adj s x → x ∈ st.S
  sorted : st.S.Pairwise fun x y => dd y ≤ dd x
  pred : ∀ w ∈ st.S, st.P w = st.S.reverse.filter fun u => decide (w ∈ adj u ∧ dd u + 1 = dd w)
  sigma : ∀ w ∈ st.S, st.sigma w = (if w = s then 1 else 0) + ((st.P w).map st.sigma).sum
  other : ∀ w, w ∉ st.S → st.sigma w = 0

theorem found_of_outer {st : St} (h : Outer adj s st) (hQ : st.Q = []) : Found adj s st (fun x => (st.d x).toNat) := by
  obtain ⟨b, h, _⟩ := h
  have hord : st.order = st.S.reverse := by simp [St.order, hQ]
  have h0 : ∀ x ∈ st.S, 0 ≤ st.d x := fun x hx => (h.found x).2 (h.mem_S hx)
  have hcl : ∀ x, Reach adj s x → x ∈ st.S := by
    rintro x ⟨k, hk⟩
    induction k generalizing x with
    | zero => cases hk; have := h.start; rw [hord] at this; simpa using this
    | succ k ih =>
      obtain ⟨u, hk, hv⟩ : ∃ u, Walk adj k s u ∧ x ∈ adj u := by cases hk with | step hw hx => exact ⟨_, hw, hx⟩
      have := (h.sub u x (by rw [stackRows, if_pos (ih u hk)]; exact hv)).2.1
      rw [hord] at this; simpa using this
  refine ⟨?_, fun x hx => h.dist x (h.mem_S hx), hcl, ?_, ?_, fun w _ => h.sigma w, ?_⟩
  · have := h.nodup; rw [hord] at this; simpa using this
  · have := h.sorted
    rw [hord, List.pairwise_reverse] at this
    refine this.imp ?_
    intro a b hab; omega
  · intro w hw
    rw [h.pred]
    unfold predOf
    apply List.filter_congr
    intro u hu
    have hu : u ∈ st.S := by simpa using hu
    have h1 := h0 u hu
    have h2 := h0 w hw
    rw [stackRows, if_pos hu]
    by_cases hm : w ∈ adj u
    · simp only [hm, true_and, decide_eq_decide]; omega
    · simp [hm]
  · intro w hw
    rw [h.sigma w]
    have h1 : w ≠ s := by rintro rfl; exact hw (hcl w ⟨0, Walk.refl _⟩)
    have h2 : st.P w = [] := by
      rw [List.eq_nil_iff_forall_not_mem]
      intro u hu
      obtain ⟨a1, a2, a3⟩ := h.pred_sub hu
      have := (h.sub u w a2).2.1
      rw [hord] at this; exact hw (by simpa using this)
    simp [h1, h2]

end BT
