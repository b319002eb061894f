import Verif.Btw.LinkModel
import Verif.Btw.Props
import Verif.BFS.Props

/-! # C55: link betweenness -/

set_option linter.unusedSimpArgs false

namespace BT

open BFS

variable {adj : ℕ → List ℕ} {s n : ℕ}

/-- Predecessors of an entry as nodes. -/
def preds (e : Entry) : List ℕ := e.pred.filterMap id

/-- What the list of a search looks like behind its first entry. -/
structure Tail (adj : ℕ → List ℕ) (T : List Entry) : Prop where
  nodup : (T.map Entry.node).Nodup
  pred : ∀ e ∈ T, e.pred = (preds e).map some ∧ (preds e).Nodup ∧ preds e ≠ []
  link : ∀ e ∈ T, ∀ u ∈ preds e, u ∈ adj e.node ∧ e.node ∈ adj u
  back : T.Pairwise fun a b => b.node ∉ preds a
  self : ∀ e ∈ T, e.node ∉ preds e

theorem count_some {e : Entry} (h : e.pred = (preds e).map some) : CountPredecessors e = (preds e).length := by
  unfold CountPredecessors
  rw [h]
  cases preds e <;> simp

theorem addBtw_apply (btw : ℕ → ℕ → ℚ) (i j : ℕ) (x : ℚ) (a b : ℕ) :
    addBtw btw i j x a b = btw a b + if a = i ∧ b = j then x else 0 := by
  unfold addBtw
  split_ifs <;> simp

theorem pred_loop (e : Entry) (c : ℚ) : ∀ (l : List ℕ) (st : LSt), l.Nodup → e.node ∉ l → (∀ u ∈ l, u ∈ adj e.node ∧ e.node ∈ adj u) →
    st.bet e.node / CountPredecessors e = c →
    ∃ r, (l.map some).foldlM (predStep adj e) st = some r ∧ (∀ v, r.bet v = st.bet v + if v ∈ l then c else 0) ∧
      ∀ a b, r.btw a b = st.btw a b + ((if a = e.node ∧ b ∈ l then c else 0) + if b = e.node ∧ a ∈ l then c else 0)
  | [], st, _, _, _, _ => ⟨st, rfl, by simp, by simp⟩
  | u :: l, st, hnd, he, hl, hc => by
    rw [List.nodup_cons] at hnd
    simp only [List.mem_cons, not_or] at he
    have hu := hl u (by simp)
    rw [List.map_cons, List.foldlM_cons]
    simp only [predStep, if_pos hu, hc, Function.update_of_ne he.1, Option.bind_eq_bind, Option.bind_some]
    obtain ⟨r, h1, h2, h3⟩ := pred_loop e c l
      { bet := Function.update st.bet u (st.bet u + c), btw := addBtw (addBtw st.btw e.node u c) u e.node c } hnd.2 he.2
      (fun w hw => hl w (by simp [hw])) (by simpa [Function.update_of_ne he.1] using hc)
    refine ⟨r, h1, ?_, ?_⟩
    · intro v
      rw [h2]
      by_cases hv : v = u
      · subst hv; simp [hnd.1]
      · simp [hv]
    · intro a b
      rw [h3]
      simp only [addBtw_apply]
      have e1 : ((if a = e.node ∧ b ∈ u :: l then c else 0) : ℚ) =
          (if a = e.node ∧ b = u then c else 0) + (if a = e.node ∧ b ∈ l then c else 0) := by
        by_cases h1 : a = e.node
        · by_cases h2 : b = u
          · subst h2; simp [h1, hnd.1]
          · simp [h1, h2]
        · simp [h1]
      have e2 : ((if b = e.node ∧ a ∈ u :: l then c else 0) : ℚ) =
          (if a = u ∧ b = e.node then c else 0) + (if b = e.node ∧ a ∈ l then c else 0) := by
        by_cases h1 : b = e.node
        · by_cases h2 : a = u
          · subst h2; simp [h1, hnd.1]
          · simp [h1, h2]
        · simp [h1]
      rw [e1, e2]; ring

/-- Result of the backward loop over the entries `T` behind the first one, `e0`. -/
theorem back_loop (e0 : Entry) (h0 : CountPredecessors e0 = 0) (btw : ℕ → ℕ → ℚ) : ∀ (T : List Entry), Tail adj T →
    ∀ (pre : List Entry), ∃ r : LSt, backLoop adj (T.reverse ++ pre) { bet := fun _ => 1, btw := btw } = backLoop adj pre r ∧
      (∀ v, r.bet v = 1 + (T.map fun e => if v ∈ preds e then r.bet e.node / (preds e).length else 0).sum) ∧
      ∀ a b, r.btw a b = btw a b + (T.map fun e => (if a = e.node ∧ b ∈ preds e then r.bet e.node / (preds e).length else 0) +
        (if b = e.node ∧ a ∈ preds e then r.bet e.node / (preds e).length else 0)).sum
  | [], _, pre => ⟨_, rfl, by simp, by simp⟩
  | e :: T, hT, pre => by
    have hT' : Tail adj T := ⟨(List.nodup_cons.1 hT.nodup).2, fun x hx => hT.pred x (by simp [hx]),
      fun x hx => hT.link x (by simp [hx]), (List.pairwise_cons.1 hT.back).2, fun x hx => hT.self x (by simp [hx])⟩
    obtain ⟨r, h1, h2, h3⟩ := back_loop e0 h0 btw T hT' (e :: pre)
    obtain ⟨p1, p2, p3⟩ := hT.pred e (by simp)
    have hself := hT.self e (by simp)
    have hback := (List.pairwise_cons.1 hT.back).1
    have hcnt := count_some p1
    obtain ⟨r', q1, q2, q3⟩ := pred_loop e (r.bet e.node / (preds e).length) (preds e) r p2 hself (hT.link e (by simp)) (by rw [hcnt])
    have hkeep : ∀ x ∈ T, r'.bet x.node = r.bet x.node := by
      intro x hx; rw [q2, if_neg (hback x hx), add_zero]
    have hkeep' : r'.bet e.node = r.bet e.node := by rw [q2, if_neg hself, add_zero]
    refine ⟨r', ?_, ?_, ?_⟩
    · rw [List.reverse_cons, List.append_assoc, List.singleton_append, h1, backLoop, if_pos (by
        rw [hcnt]; intro hh; exact p3 (List.length_eq_zero_iff.1 hh)), p1, q1]
      rfl
    · intro v
      rw [q2, h2, List.map_cons, List.sum_cons, hkeep']
      have : T.map (fun x : Entry => if v ∈ preds x then r'.bet x.node / ((preds x).length : ℚ) else 0) =
          T.map fun x : Entry => if v ∈ preds x then r.bet x.node / ((preds x).length : ℚ) else 0 :=
        List.map_congr_left fun x hx => by rw [hkeep x hx]
      rw [this]
      ring
    · intro a b
      rw [q3, h3, List.map_cons, List.sum_cons, hkeep']
      have : T.map (fun x : Entry => (if a = x.node ∧ b ∈ preds x then r'.bet x.node / ((preds x).length : ℚ) else 0) +
            (if b = x.node ∧ a ∈ preds x then r'.bet x.node / ((preds x).length : ℚ) else 0)) =
          T.map fun x : Entry => (if a = x.node ∧ b ∈ preds x then r.bet x.node / ((preds x).length : ℚ) else 0) +
            (if b = x.node ∧ a ∈ preds x then r.bet x.node / ((preds x).length : ℚ) else 0) :=
        List.map_congr_left fun x hx => by rw [hkeep x hx]
      rw [this]
      ring

/-- The links go both ways. -/
def Symmetric (adj : ℕ → List ℕ) : Prop := ∀ i j, j ∈ adj i → i ∈ adj j

/-- What one source adds. `B` are the final local values. -/
structure Flow (adj : ℕ → List ℕ) (s : ℕ) (E : List Entry) (B : ℕ → ℚ) : Prop where
  nodup : (E.map Entry.node).Nodup
  mem : ∀ v d, (∃ e ∈ E, e.node = v ∧ e.d = d) ↔ IsDist adj s v d
  notstart : ∀ e ∈ E, (e.node = s ↔ e.d = 0) ∧ (e.d = 0 → preds e = [])
  preds_nodup : ∀ e ∈ E, (preds e).Nodup
  preds_ne : ∀ e ∈ E, e.d ≠ 0 → preds e ≠ []
  preds_mem : ∀ e ∈ E, ∀ u, u ∈ preds e ↔ ∃ a ∈ E, a.node = u ∧ a.d + 1 = e.d ∧ e.node ∈ adj u
  bet : ∀ v, B v = 1 + (E.map fun e => if v ∈ preds e then B e.node / (preds e).length else 0).sum

theorem link_source (hadj : InRange adj n) (hnd : ∀ i, (adj i).Nodup) (hsym : Symmetric adj) (hs : s < n) (btw : ℕ → ℕ → ℚ) :
    ∃ r E B, linkSource adj n btw s = some r ∧ Flow adj s E B ∧
      ∀ a b, r a b = btw a b + (E.map fun e => (if a = e.node ∧ b ∈ preds e then B e.node / (preds e).length else 0) +
        (if b = e.node ∧ a ∈ preds e then B e.node / (preds e).length else 0)).sum := by
  obtain ⟨D, hrun, hmem, hnodup, hsorted, hp0, hpred⟩ := C18_layers hadj hs
  have hpred := hpred hnd
  have hd0 : ∀ e ∈ D.q.list, (e.node = s ↔ e.d = 0) := by
    intro e he
    have h := (hmem e.node e.d).1 ⟨e, he, rfl, rfl⟩
    constructor
    · intro hh
      rw [hh] at h
      have := h.2 0 (Walk.refl _); omega
    · intro hh
      have := h.1
      rw [hh] at this
      cases this; rfl
  obtain ⟨e0, he0, hn0, hdd0⟩ := (hmem s 0).2 ⟨Walk.refl _, fun _ _ => Nat.zero_le _⟩
  have hinj : ∀ a ∈ D.q.list, ∀ b ∈ D.q.list, a.node = b.node → a = b := fun a ha b hb => List.inj_on_of_nodup_map hnodup ha hb
  -- first entry
  obtain ⟨T, hE⟩ : ∃ T, D.q.list = e0 :: T := by
    cases hl : D.q.list with
    | nil => rw [hl] at he0; simp at he0
    | cons x T =>
      refine ⟨T, ?_⟩
      rw [hl] at he0 hsorted
      congr 1
      rcases List.mem_cons.1 he0 with rfl | h
      · rfl
      · have hx := (List.pairwise_cons.1 hsorted).1 e0 h
        refine hinj x (by rw [hl]; simp) e0 (by rw [hl]; simp [h]) ?_
        rw [hn0]; exact (hd0 x (by rw [hl]; simp)).2 (by omega)
  have hTd : ∀ e ∈ T, e.d ≠ 0 := by
    intro e he hz
    have h1 := (hd0 e (by rw [hE]; simp [he])).2 hz
    rw [hE, List.map_cons, List.nodup_cons] at hnodup
    exact hnodup.1 (by rw [hn0, ← h1]; exact List.mem_map.2 ⟨e, he, rfl⟩)
  have hTm : ∀ e ∈ T, e ∈ D.q.list := fun e he => by rw [hE]; simp [he]
  -- predecessors
  have hps : ∀ e ∈ T, e.pred = (preds e).map some := by
    intro e he
    have : ∀ x ∈ e.pred, ∃ u, x = some u := fun x hx => by
      obtain ⟨u, hu, _⟩ := ((hpred e (hTm e he) (hTd e he)).2 x).1 hx
      exact ⟨u, hu⟩
    unfold preds
    revert this
    generalize e.pred = l
    intro this
    induction l with
    | nil => rfl
    | cons x l ih =>
      obtain ⟨u, rfl⟩ := this x (by simp)
      simp only [List.filterMap_cons, id, List.map_cons]
      exact congrArg _ (ih fun y hy => this y (by simp [hy]))
  have hpm : ∀ e ∈ T, ∀ u, u ∈ preds e ↔ IsDist adj s u (e.d - 1) ∧ e.node ∈ adj u := by
    intro e he u
    have := (hpred e (hTm e he) (hTd e he)).2 (some u)
    rw [hps e he] at this
    simp only [List.mem_map, Option.some.injEq, exists_eq_right] at this
    rw [this]
    constructor
    · rintro ⟨u', hu, h⟩; cases hu; exact h
    · intro h; exact ⟨u, rfl, h⟩
  have hpnd : ∀ e ∈ T, (preds e).Nodup := by
    intro e he
    have := (hpred e (hTm e he) (hTd e he)).1
    rw [hps e he] at this
    exact List.Nodup.of_map _ this
  have hpne : ∀ e ∈ T, preds e ≠ [] := by
    intro e he
    have hd := hTd e he
    obtain ⟨k, hk⟩ : ∃ k, e.d = k + 1 := ⟨e.d - 1, by omega⟩
    have h := (hmem e.node e.d).1 ⟨e, hTm e he, rfl, rfl⟩
    rw [hk] at h
    obtain ⟨u, hu1, hu2⟩ := h.pred
    intro hnil
    have := (hpm e he u).2 ⟨by rw [hk]; exact hu1, hu2⟩
    rw [hnil] at this; simp at this
  have hdist : ∀ e ∈ T, ∀ x ∈ D.q.list, x.node ∈ preds e → x.d + 1 = e.d := by
    intro e he x hx hm
    have h1 := ((hpm e he x.node).1 hm).1
    have h2 := (hmem x.node x.d).1 ⟨x, hx, rfl, rfl⟩
    have := h2.unique h1
    have := hTd e he
    omega
  have hnodup' := hnodup
  have hsorted' := hsorted
  rw [hE] at hnodup' hsorted'
  have hTail : Tail adj T := by
    refine ⟨(List.nodup_cons.1 hnodup').2, fun e he => ⟨hps e he, hpnd e he, hpne e he⟩, ?_, ?_, ?_⟩
    · intro e he u hu
      have := ((hpm e he u).1 hu).2
      exact ⟨hsym _ _ this, this⟩
    · refine (List.pairwise_cons.1 hsorted').2.imp_of_mem ?_
      intro a b ha hb hab hm
      have := hdist a ha b (hTm b hb) hm
      omega
    · intro e he hm
      have := hdist e he e (hTm e he) hm
      omega
  have hp00 : e0.pred = [none] := hp0 e0 (by rw [hE]; simp) hdd0
  have hc0 : CountPredecessors e0 = 0 := by unfold CountPredecessors; rw [hp00]
  have hpr0 : preds e0 = [] := by unfold preds; rw [hp00]; rfl
  obtain ⟨r, h1, h2, h3⟩ := back_loop e0 hc0 btw T hTail [e0]
  refine ⟨r.btw, D.q.list, r.bet, ?_, ⟨hnodup, hmem, ?_, ?_, ?_, ?_, ?_⟩, ?_⟩
  · unfold linkSource
    rw [hrun]
    simp only [Option.bind_eq_bind, Option.bind_some]
    rw [hE, List.reverse_cons, h1, backLoop, if_neg (by simp [hc0])]
    rfl
  · intro e he
    refine ⟨hd0 e he, ?_⟩
    intro hz
    rw [hE] at he
    rcases List.mem_cons.1 he with rfl | he
    · exact hpr0
    · exact absurd hz (hTd e he)
  · intro e he
    rw [hE] at he
    rcases List.mem_cons.1 he with rfl | he
    · rw [hpr0]; simp
    · exact hpnd e he
  · intro e he hz
    rw [hE] at he
    rcases List.mem_cons.1 he with rfl | he
    · exact absurd hdd0 hz
    · exact hpne e he
  · intro e he u
    have he' := he
    rw [hE] at he
    rcases List.mem_cons.1 he with rfl | he
    · rw [hpr0]; simp only [List.not_mem_nil, false_iff]; rintro ⟨a, _, _, h, _⟩; omega
    · rw [hpm e he u]
      have := hTd e he
      constructor
      · rintro ⟨a1, a2⟩
        obtain ⟨a, ha, hau, had⟩ := (hmem u (e.d - 1)).2 a1
        exact ⟨a, ha, hau, by omega, a2⟩
      · rintro ⟨a, ha, hau, had, hm⟩
        refine ⟨?_, hm⟩
        have := (hmem u a.d).1 ⟨a, ha, hau, rfl⟩
        rwa [show e.d - 1 = a.d by omega]
  · intro v
    rw [h2, hE, List.map_cons, List.sum_cons, hpr0]
    simp
  · intro a b
    rw [h3, hE, List.map_cons, List.sum_cons, hpr0]
    simp

end BT
