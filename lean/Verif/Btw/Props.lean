import Verif.Btw.Paths

/-! # C54: node betweenness -/

set_option linter.unusedSimpArgs false

namespace BT

open BFS

variable {adj : ℕ → List ℕ} {s n : ℕ} {st : St} {dd : ℕ → ℕ}

/-- Inner loop of the second phase. -/
theorem pred_fold (sigma : ℕ → ℕ) (w : ℕ) : ∀ (l : List ℕ) (delta : ℕ → ℚ), l.Nodup → w ∉ l → ∀ v,
    l.foldl (fun (delta : ℕ → ℚ) (v : ℕ) => Function.update delta v (delta v + (1 + delta w) * sigma v / sigma w)) delta v =
      delta v + if v ∈ l then (1 + delta w) * sigma v / sigma w else 0
  | [], delta, _, _, v => by simp
  | u :: l, delta, hnd, hw, v => by
    rw [List.nodup_cons] at hnd
    simp only [List.mem_cons, not_or] at hw
    rw [List.foldl_cons, pred_fold sigma w l _ hnd.2 hw.2 v, Function.update_of_ne hw.1]
    by_cases hv : v = u
    · subst hv; simp [hnd.1]
    · simp [hv]

/-- State of the second phase after the nodes `done`. -/
structure Unw (adj : ℕ → List ℕ) (n s : ℕ) (st : St) (btw : ℕ → ℚ) (done : List ℕ) (db : (ℕ → ℚ) × (ℕ → ℚ)) : Prop where
  delta : ∀ v, db.1 v = (done.map fun w => if v ∈ st.P w then (1 + dep adj n s w) * st.sigma v / st.sigma w else 0).sum
  btw : ∀ v, db.2 v = btw v + if v ∈ done ∧ v ≠ s then dep adj n s v else 0

theorem unwind (h : Found adj s st dd) (hadj : ∀ i < n, ∀ j ∈ adj i, j < n) (hnd : ∀ i < n, (adj i).Nodup) (hs : s < n) (btw : ℕ → ℚ) :
    ∀ (todo done : List ℕ) (db : (ℕ → ℚ) × (ℕ → ℚ)), st.S = done ++ todo → Unw adj n s st btw done db →
      Unw adj n s st btw st.S (todo.foldl (unwindStep s st) db)
  | [], done, db, hS, hu => by rw [List.append_nil] at hS; rw [hS]; exact hu
  | w :: todo, done, db, hS, hu => by
    have hw : w ∈ st.S := by rw [hS]; simp
    have hPnd : (st.P w).Nodup := by rw [h.pred w hw]; exact (List.nodup_reverse.2 h.nodup).filter _
    have hwP : w ∉ st.P w := by intro hh; have := (h.mem_pred hw).1 hh; omega
    have hd : db.1 w = dep adj n s w := by
      rw [hu.delta, h.dep_rec hadj hnd hs hw, List.sum_toFinset _ h.nodup, hS, List.map_append, List.sum_append]
      rw [List.sum_eq_zero (l := (w :: todo).map _), add_zero]
      intro x hx
      obtain ⟨u, hu', rfl⟩ := List.mem_map.1 hx
      rw [if_neg]
      intro hp
      have huS : u ∈ st.S := by rw [hS]; simp [List.mem_cons.1 hu']
      have h1 := ((h.mem_pred huS).1 hp).2.2
      have hso := h.sorted
      rw [hS] at hso
      have hso := (List.pairwise_append.1 hso).2.1
      rcases List.mem_cons.1 hu' with rfl | hu'
      · omega
      · have := (List.pairwise_cons.1 hso).1 u hu'; omega
    have hwdone : w ∉ done := by
      have := h.nodup
      rw [hS] at this
      intro hh
      exact (List.nodup_append.1 this).2.2 w hh w (by simp) rfl
    rw [List.foldl_cons]
    refine unwind h hadj hnd hs btw todo (done ++ [w]) _ (by rw [hS]; simp) ⟨?_, ?_⟩
    · intro v
      simp only [unwindStep]
      rw [pred_fold st.sigma w (st.P w) db.1 hPnd hwP v, hd, hu.delta]
      simp
    · intro v
      simp only [unwindStep]
      rw [pred_fold st.sigma w (st.P w) db.1 hPnd hwP w, if_neg hwP, add_zero, hd]
      by_cases hws : w ≠ s
      · rw [if_pos hws]
        by_cases hv : v = w
        · subst hv
          rw [Function.update_self, hu.btw, if_neg (by tauto), if_pos (by simp [hws])]
          ring
        · rw [Function.update_of_ne hv, hu.btw]
          simp [hv]
      · rw [if_neg hws, hu.btw]
        push Not at hws
        subst hws
        by_cases hv : v = w
        · simp [hv]
        · simp [hv]

/-- One source. -/
theorem source_eq (hadj : ∀ i < n, ∀ j ∈ adj i, j < n) (hnd : ∀ i < n, (adj i).Nodup) (hs : s < n)
    (hmax : ∀ t, (shortest adj s t).length ≤ INT_MAX) (btw : ℕ → ℚ) :
    ∃ r, source adj n btw s = some r ∧ ∀ v, r v = btw v + ∑ t ∈ Finset.range n, if s ≠ v ∧ t ≠ v ∧ s ≠ t then share adj s t v else 0 := by
  obtain ⟨st, hrun, hout, hQ⟩ := free_final hadj hnd hs (n + 1) (St.init s) outer_init (by simp [St.init])
  have hf := found_of_outer hout hQ
  have hrun' := search_of_free _ _ _ hrun fun x => by rw [hf.sigma_shortest hadj hnd hs]; exact hmax x
  have hu := unwind hf hadj hnd hs btw st.S [] (fun _ => 0, btw) rfl ⟨by simp, by simp⟩
  refine ⟨_, by unfold source; rw [hrun']; rfl, ?_⟩
  intro v
  rw [hu.btw]
  congr 1
  by_cases hv : v ∈ st.S
  · by_cases hvs : v = s
    · subst hvs; simp
    · rw [if_pos ⟨hv, hvs⟩]
      unfold dep
      refine Finset.sum_congr rfl fun t _ => ?_
      by_cases hts : s = t
      · subst hts
        have h0 : share adj s s v = 0 := by
          rw [hf.share_eq hadj hnd hs hv (hf.walk (Walk.refl _))]
          have h1 : (st.d s).toNat = 0 := by
            have := (hf.dist s (hf.walk (Walk.refl _))).2 0 (Walk.refl _)
            omega
          have h2 : (st.d v).toNat ≠ 0 := by
            intro hh
            have := (hf.dist v hv).1
            rw [hh] at this
            cases this
            exact hvs rfl
          rw [if_neg (by omega)]; simp
        simp [h0]
      · have : s ≠ v := Ne.symm hvs
        simp [this, hts]
  · rw [if_neg (by tauto)]
    symm
    apply Finset.sum_eq_zero
    intro t _
    rw [share_zero_right (hf.not_reach hv)]; simp

/-- **C54**: on every network without repeated links, directed or not, connected or not, in which no two nodes
are joined by more than `INT_MAX` shortest paths, `CalculateNodeBetweenness` ends and leaves in each node the sum, over the ordered pairs
of other nodes, of the share of shortest paths that go through it. -/
theorem C54_betweenness (hadj : ∀ i < n, ∀ j ∈ adj i, j < n) (hnd : ∀ i < n, (adj i).Nodup)
    (hmax : ∀ s < n, ∀ t, (shortest adj s t).length ≤ INT_MAX) :
    ∃ btw, CalculateNodeBetweenness adj n = some btw ∧ ∀ v, btw v = betweenness adj n v := by
  unfold CalculateNodeBetweenness betweenness
  suffices ∀ m, m ≤ n → ∃ r, (List.range m).foldlM (source adj n) (fun _ => 0) = some r ∧
      ∀ v, r v = ∑ s ∈ Finset.range m, ∑ t ∈ Finset.range n, if s ≠ v ∧ t ≠ v ∧ s ≠ t then share adj s t v else 0 from this n le_rfl
  intro m
  induction m with
  | zero => intro _; exact ⟨_, rfl, by simp⟩
  | succ m ih =>
    intro hm
    obtain ⟨r, hr, hv⟩ := ih (by omega)
    obtain ⟨r', hr', hv'⟩ := source_eq (s := m) hadj hnd (by omega) (hmax m (by omega)) r
    refine ⟨r', ?_, ?_⟩
    · rw [List.range_succ, List.foldlM_append, hr]
      simp only [Option.bind_eq_bind, Option.bind_some, List.foldlM_cons, List.foldlM_nil, hr']
      rfl
    · intro v; rw [hv', hv, Finset.sum_range_succ]

/-! ## Examples -/

/-- A square 0–1–3–2–0 with a tail 3–4. -/
def square : ℕ → List ℕ
  | 0 => [1, 2]
  | 1 => [0, 3]
  | 2 => [0, 3]
  | 3 => [1, 2, 4]
  | 4 => [3]
  | _ => []

example : (CalculateNodeBetweenness square 5).map (fun b => (List.range 5).map b) = some [1, 2, 2, 7, 0] := by decide +kernel

/-- The hypotheses on the links hold for it. -/
example : (∀ i < 5, ∀ j ∈ square i, j < 5) ∧ (∀ i < 5, (square i).Nodup) := by decide

/-- Two shortest paths from 0 to 3. -/
example : (walks square 2 0).filter (fun l => l.getLast? = some 3) = [[0, 1, 3], [0, 2, 3]] := by decide

/-- Layers of three nodes, each joined to all of the next one: `3 (i / 3)`, … -/
def layers (i : ℕ) : List ℕ := if i < 63 then [3 * (i / 3) + 3, 3 * (i / 3) + 4, 3 * (i / 3) + 5] else []

/-- **C54**, limit: with 22 layers of three nodes (links in one direction, none repeated) there are `3 ^ 20` paths to a node of the last
but one, the number does not fit an `int` and the behaviour is undefined. -/
theorem C54_overflow : ∃ (adj : ℕ → List ℕ) (n : ℕ), (∀ i < n, ∀ j ∈ adj i, j < n) ∧ (∀ i < n, (adj i).Nodup) ∧
    CalculateNodeBetweenness adj n = none := by
  refine ⟨layers, 66, ?_, ?_, ?_⟩
  · unfold layers; decide
  · unfold layers; decide
  · have h1 : searchLoop layers 67 (St.init 0) = none := by decide +kernel
    unfold CalculateNodeBetweenness
    rw [List.range_succ_eq_map, List.foldlM_cons]
    unfold source
    simp only [h1, Option.bind_eq_bind, Option.bind_none]

end BT
