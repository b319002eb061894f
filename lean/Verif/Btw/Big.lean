import Verif.Btw.BigModel
import Verif.Btw.LinkProps
import Mathlib.Algebra.Order.BigOperators.Group.Finset

/-! # C128: the link with the largest betweenness -/

set_option linter.unusedSimpArgs false

namespace BT

open BFS

variable {adj : ℕ → List ℕ} {n s : ℕ}

/-! ## The values are those of `CalculateLinkBetweenness` -/

theorem fold_sim {σ τ α : Type} (f : σ → τ) (g : σ → α → Option σ) (h : τ → α → Option τ)
    (hs : ∀ s a, (g s a).map f = h (f s) a) : ∀ (l : List α) (s : σ), (l.foldlM g s).map f = l.foldlM h (f s)
  | [], _ => rfl
  | a :: l, s => by
    rw [List.foldlM_cons, List.foldlM_cons, ← hs s a]
    cases g s a with
    | none => rfl
    | some s' => exact fold_sim f g h hs l s'

theorem bigPred_sim (e : Entry) (st : BSt) (p : Option ℕ) :
    (bigPred adj e st p).map BSt.l = predStep adj e st.l p := by
  cases p with
  | none => rfl
  | some u =>
    unfold bigPred predStep
    by_cases h : u ∈ adj e.node ∧ e.node ∈ adj u
    · simp only [if_pos h, Option.map_some]
    · simp only [if_neg h, Option.map_none]

theorem bigBack_sim : ∀ (es : List Entry) (st : BSt), (bigBack adj es st).map BSt.l = backLoop adj es st.l
  | [], _ => rfl
  | e :: es, st => by
    rw [bigBack, backLoop]
    split_ifs
    · rw [← fold_sim BSt.l (bigPred adj e) (predStep adj e) (bigPred_sim e) e.pred st]
      cases e.pred.foldlM (bigPred adj e) st with
      | none => rfl
      | some st' => exact bigBack_sim es st'
    · rfl

theorem bigSource_sim (st : BSt) (s : ℕ) :
    (bigSource adj n st s).map (fun r => r.l.btw) = linkSource adj n st.l.btw s := by
  unfold bigSource linkSource
  cases search adj n s with
  | none => rfl
  | some D =>
    simp only [Option.bind_eq_bind, Option.bind_some]
    have := bigBack_sim (adj := adj) D.q.list.reverse { st with l := { bet := fun _ => 1, btw := st.l.btw } }
    rw [← this]
    cases bigBack adj D.q.list.reverse { st with l := { bet := fun _ => 1, btw := st.l.btw } } <;> rfl

/-! ## Invariant -/

/-- `i0` is the first value of `big`. -/
structure BigInv (adj : ℕ → List ℕ) (i0 : Option (ℕ × ℕ)) (st : BSt) : Prop where
  symm : ∀ a b, st.l.btw a b = st.l.btw b a
  bet : ∀ v, 1 ≤ st.l.bet v
  unset : st.out = none → st.big = i0 ∧ ∀ a b, st.l.btw a b = 0
  set : ∀ i j, st.out = some (i, j) → st.big = some (j, i) ∧ j ∈ adj i
  top : ∀ a b, st.big = some (a, b) → ∀ c d, st.l.btw c d ≤ st.l.btw a b

theorem bigPred_inv {i0 : Option (ℕ × ℕ)} {e : Entry} {st st' : BSt} {u : ℕ} (h : BigInv adj i0 st)
    (hc : CountPredecessors e ≠ 0) (hu : u ≠ e.node) (h0 : st.out = none → i0 ≠ some (e.node, u))
    (hr : bigPred adj e st (some u) = some st') : BigInv adj i0 st' ∧ st'.out ≠ none := by
  unfold bigPred at hr
  by_cases hm : u ∈ adj e.node ∧ e.node ∈ adj u
  swap
  · simp only [if_neg hm] at hr; cases hr
  simp only [if_pos hm, Option.some.injEq, Function.update_of_ne hu.symm] at hr
  have hcq : (0 : ℚ) < CountPredecessors e := by exact_mod_cast Nat.pos_of_ne_zero hc
  have hx : 0 < st.l.bet e.node / CountPredecessors e := div_pos (by linarith [h.bet e.node]) hcq
  generalize hxx : st.l.bet e.node / (CountPredecessors e : ℚ) = x at hr hx
  have hbtw : ∀ a b, addBtw (addBtw st.l.btw e.node u x) u e.node x a b =
      st.l.btw a b + if (a = e.node ∧ b = u) ∨ (a = u ∧ b = e.node) then x else 0 := by
    intro a b
    rw [addBtw_apply, addBtw_apply]
    by_cases h1 : a = e.node ∧ b = u
    · rw [if_pos h1, if_neg (by rintro ⟨h2, _⟩; exact hu (h2.symm.trans h1.1)), if_pos (Or.inl h1), add_zero]
    · rw [if_neg h1, add_zero]
      by_cases h2 : a = u ∧ b = e.node
      · rw [if_pos h2, if_pos (Or.inr h2)]
      · rw [if_neg h2, if_neg (by tauto)]
  have hfst : addBtw st.l.btw e.node u x e.node u = st.l.btw e.node u + x := by
    rw [addBtw_apply, if_pos ⟨rfl, rfl⟩]
  have hsymm : ∀ a b, addBtw (addBtw st.l.btw e.node u x) u e.node x a b =
      addBtw (addBtw st.l.btw e.node u x) u e.node x b a := by
    intro a b
    rw [hbtw, hbtw, h.symm a b]
    congr 1
    by_cases hq : (a = e.node ∧ b = u) ∨ (a = u ∧ b = e.node)
    · rw [if_pos hq, if_pos (by tauto)]
    · rw [if_neg hq, if_neg (by tauto)]
  have hbet : ∀ v, 1 ≤ Function.update st.l.bet u (st.l.bet u + x) v := by
    intro v
    by_cases hv : v = u
    · subst hv; rw [Function.update_self]; linarith [h.bet v]
    · rw [Function.update_of_ne hv]; exact h.bet v
  cases hb : better (addBtw st.l.btw e.node u x) st.big e.node u with
  | true =>
    simp only [hb, if_true] at hr
    subst hr
    refine ⟨⟨hsymm, hbet, by simp, ?_, ?_⟩, by simp⟩
    · intro i j he
      simp only [Option.some.injEq, Prod.mk.injEq] at he
      obtain ⟨rfl, rfl⟩ := he
      exact ⟨rfl, hm.2⟩
    · intro a b hab c d
      simp only [Option.some.injEq, Prod.mk.injEq] at hab
      obtain ⟨rfl, rfl⟩ := hab
      have hown : addBtw (addBtw st.l.btw e.node u x) u e.node x e.node u = st.l.btw e.node u + x := by
        rw [hbtw]; simp
      show addBtw (addBtw st.l.btw e.node u x) u e.node x c d ≤ addBtw (addBtw st.l.btw e.node u x) u e.node x e.node u
      rw [hown, hbtw]
      by_cases hq : (c = e.node ∧ d = u) ∨ (c = u ∧ d = e.node)
      · rw [if_pos hq]
        rcases hq with ⟨rfl, rfl⟩ | ⟨rfl, rfl⟩
        · exact le_refl _
        · rw [h.symm]
      · rw [if_neg hq, add_zero]
        cases hbig : st.big with
        | none =>
          have hout : st.out = none := by
            cases ho : st.out with
            | none => rfl
            | some y => obtain ⟨i, j⟩ := y; have := (h.set i j ho).1; rw [hbig] at this; cases this
          have := (h.unset hout).2
          rw [this, this]; linarith
        | some y =>
          obtain ⟨a, b⟩ := y
          rw [hbig] at hb
          simp only [better, decide_eq_true_eq] at hb
          rw [hfst] at hb
          have h1 := h.top a b hbig c d
          have h2 : st.l.btw a b ≤ addBtw st.l.btw e.node u x a b := by
            rw [addBtw_apply]; split_ifs <;> linarith
          linarith
  | false =>
    simp only [hb, Bool.false_eq_true, if_false] at hr
    cases hbig : st.big with
    | none => rw [hbig] at hb; cases hb
    | some y =>
      obtain ⟨a, b⟩ := y
      rw [hbig] at hb
      simp only [better, decide_eq_false_iff_not, not_lt] at hb
      rw [hfst, addBtw_apply] at hb
      have hout : st.out ≠ none := by
        intro ho
        obtain ⟨h1, h2⟩ := h.unset ho
        rw [h2, h2] at hb
        by_cases hab : a = e.node ∧ b = u
        · rw [hbig] at h1
          rw [hab.1, hab.2] at h1
          exact h0 ho h1.symm
        · rw [if_neg hab] at hb; linarith
      subst hr
      refine ⟨⟨hsymm, hbet, fun ho => absurd ho hout, ?_, ?_⟩, hout⟩
      · exact h.set
      · intro a' b' hab' c d
        simp only at hab'
        rw [hbig] at hab'
        simp only [Option.some.injEq, Prod.mk.injEq] at hab'
        obtain ⟨rfl, rfl⟩ := hab'
        simp only [hbtw]
        have h1 := h.top a b hbig c d
        have h2 := h.top a b hbig e.node u
        have h3 : 0 ≤ (if (a = e.node ∧ b = u) ∨ (a = u ∧ b = e.node) then x else 0) := by split_ifs <;> linarith
        by_cases hq : (c = e.node ∧ d = u) ∨ (c = u ∧ d = e.node)
        · rw [if_pos hq]
          have h4 : st.l.btw c d = st.l.btw e.node u := by
            rcases hq with ⟨rfl, rfl⟩ | ⟨rfl, rfl⟩
            · rfl
            · exact h.symm _ _
          rw [h4]
          by_cases hab : a = e.node ∧ b = u
          · rw [if_pos (Or.inl hab)]; rw [hab.1, hab.2]
          · rw [if_neg hab] at hb; linarith
        · rw [if_neg hq]; linarith

theorem foldlM_cons_some {σ α : Type} {g : σ → α → Option σ} {a : α} {l : List α} {s r : σ}
    (h : (a :: l).foldlM g s = some r) : ∃ s', g s a = some s' ∧ l.foldlM g s' = some r := by
  rw [List.foldlM_cons] at h
  cases hg : g s a with
  | none => rw [hg] at h; cases h
  | some s' => rw [hg] at h; exact ⟨s', rfl, h⟩

theorem preds_inv {i0 : Option (ℕ × ℕ)} {e : Entry} (hc : CountPredecessors e ≠ 0) (he : ∀ v, i0 = some (s, v) ∨ i0 = none → e.node ≠ s) :
    ∀ (l : List (Option ℕ)) (st st' : BSt), (∀ u, some u ∈ l → u ≠ e.node) → BigInv adj i0 st →
      (st.out = none → ∀ v, i0 ≠ some (e.node, v)) → l.foldlM (bigPred adj e) st = some st' →
      BigInv adj i0 st' ∧ (st.out ≠ none → st'.out ≠ none)
  | [], st, st', _, h, _, hr => by cases hr; exact ⟨h, id⟩
  | p :: l, st, st', hl, h, h0, hr => by
    obtain ⟨s1, h1, h2⟩ := foldlM_cons_some hr
    cases p with
    | none => cases h1
    | some u =>
      obtain ⟨i1, o1⟩ := bigPred_inv h hc (hl u (by simp)) (fun ho => h0 ho u) h1
      obtain ⟨i2, o2⟩ := preds_inv hc he l s1 st' (fun w hw => hl w (by simp [hw])) i1 (fun ho => absurd ho o1) h2
      exact ⟨i2, fun _ => o2 o1⟩

theorem back_inv {i0 : Option (ℕ × ℕ)} : ∀ (es : List Entry) (st st' : BSt),
    (∀ e ∈ es, CountPredecessors e ≠ 0 → e.node ≠ s ∧ ∀ u, some u ∈ e.pred → u ≠ e.node) → BigInv adj i0 st →
      (st.out = none → ∀ a v, i0 = some (a, v) → a = s) → bigBack adj es st = some st' →
      BigInv adj i0 st' ∧ (st.out ≠ none → st'.out ≠ none)
  | [], _, _, _, _, _, hr => by cases hr
  | e :: es, st, st', hes, h, h0, hr => by
    rw [bigBack] at hr
    split_ifs at hr with hc
    · obtain ⟨q1, q2⟩ := hes e (by simp) hc
      cases hf : e.pred.foldlM (bigPred adj e) st with
      | none => rw [hf] at hr; cases hr
      | some s1 =>
        rw [hf] at hr
        obtain ⟨i1, o1⟩ := preds_inv (s := s) hc (fun _ _ => q1) e.pred st s1 q2 h
          (fun ho v hi => q1 (h0 ho _ _ hi)) hf
        have h0' : s1.out = none → ∀ a v, i0 = some (a, v) → a = s := by
          intro ho
          by_cases hs : st.out = none
          · exact h0 hs
          · exact absurd ho (o1 hs)
        obtain ⟨i2, o2⟩ := back_inv es s1 st' (fun x hx => hes x (by simp [hx])) i1 h0' hr
        exact ⟨i2, fun ho => o2 (o1 ho)⟩
    · cases hr; exact ⟨h, id⟩

theorem source_inv (hadj : InRange adj n) (hnd : ∀ i, (adj i).Nodup) (hs : s < n) {i0 : Option (ℕ × ℕ)} {st st' : BSt}
    (h : BigInv adj i0 st) (h0 : st.out = none → ∀ a v, i0 = some (a, v) → a = s) (hr : bigSource adj n st s = some st') :
    BigInv adj i0 st' ∧ (st.out ≠ none → st'.out ≠ none) := by
  obtain ⟨D, hrun, hmem, hnodup, hsorted, hp0, hpred⟩ := C18_layers hadj hs
  have hpred := hpred hnd
  unfold bigSource at hr
  rw [hrun] at hr
  refine back_inv (s := s) D.q.list.reverse
    { st with l := { bet := fun _ => 1, btw := st.l.btw } } st' ?_ ?_ h0 hr
  · intro e he hc
    rw [List.mem_reverse] at he
    have hd : e.d ≠ 0 := by
      intro hz
      apply hc
      unfold CountPredecessors
      rw [hp0 e he hz]
    have hD := (hmem e.node e.d).1 ⟨e, he, rfl, rfl⟩
    constructor
    · intro hes
      rw [hes] at hD
      have := hD.2 0 (Walk.refl _)
      omega
    · rintro u hu rfl
      obtain ⟨u', e1, e2, _⟩ := ((hpred e he hd).2 _).1 hu
      cases e1
      have := hD.unique e2
      omega
  · exact ⟨h.symm, fun _ => le_refl _, h.unset, h.set, h.top⟩

/-! ## All sources -/

theorem dist_pos_link (hadj : InRange adj n) (hs : s < n) {v : ℕ} (hv : v ∈ adj s) (hne : v ≠ s) :
    0 < ∑ t ∈ Finset.range n, (dist adj s t : ℚ) := by
  have h1 : IsDist adj s v 1 := by
    refine ⟨Walk.step (Walk.refl s) hv, ?_⟩
    intro k hk
    cases hk with
    | refl => exact absurd rfl hne
    | step _ _ => omega
  have h2 := dist_eq h1
  apply Finset.sum_pos'
  · intro _ _; positivity
  · exact ⟨v, Finset.mem_range.2 (hadj s hs v hv), by rw [h2]; norm_num⟩

/-- The loop over the first `m` nodes. -/
theorem big_all (hadj : InRange adj n) (hnd : ∀ i, (adj i).Nodup) (hsym : Symmetric adj) (hself : ∀ i, i ∉ adj i) : ∀ m, m ≤ n →
    ∃ r : BSt, (List.range m).foldlM (bigSource adj n)
        { l := { bet := fun _ => 1, btw := fun _ _ => 0 }, big := firstLink adj, out := none } = some r ∧
      (List.range m).foldlM (linkSource adj n) (fun _ _ => 0) = some r.l.btw ∧
      BigInv adj (firstLink adj) r ∧ (m ≠ 0 → firstLink adj ≠ none → r.out ≠ none) := by
  intro m
  induction m with
  | zero =>
    intro _
    exact ⟨_, rfl, rfl, ⟨fun _ _ => rfl, fun _ => le_refl _, fun _ => ⟨rfl, fun _ _ => rfl⟩, by simp, fun _ _ _ _ _ => le_refl _⟩, by simp⟩
  | succ m ih =>
    intro hm
    obtain ⟨r, hr, hl, hI, ho⟩ := ih (by omega)
    obtain ⟨b, E, B, h1, hF, h3⟩ := link_source hadj hnd hsym (show m < n by omega) r.l.btw
    have hsim := bigSource_sim (adj := adj) (n := n) r m
    rw [h1] at hsim
    obtain ⟨r', hr', hb⟩ := Option.map_eq_some_iff.1 hsim
    have h0 : r.out = none → ∀ a v, firstLink adj = some (a, v) → a = m := by
      intro hn a v hi
      have : m = 0 := by
        by_contra hm0
        exact ho hm0 (by rw [hi]; simp) hn
      subst this
      unfold firstLink at hi
      obtain ⟨w, _, hw⟩ := Option.map_eq_some_iff.1 hi
      cases hw; rfl
    obtain ⟨hI', hO⟩ := source_inv hadj hnd (by omega) hI h0 hr'
    refine ⟨r', ?_, ?_, hI', ?_⟩
    · rw [List.range_succ, List.foldlM_append, hr]
      simp only [Option.bind_eq_bind, Option.bind_some, List.foldlM_cons, List.foldlM_nil, hr']
      rfl
    · rw [List.range_succ, List.foldlM_append, hl]
      simp only [Option.bind_eq_bind, Option.bind_some, List.foldlM_cons, List.foldlM_nil, h1]
      rw [← hb]
      rfl
    · intro _ hf
      by_cases hm0 : m = 0
      · subst hm0
        intro hn
        have hz := (hI'.unset hn).2
        cases hr
        have htot := hF.total hadj (by omega : 0 < n)
        have hzero : ∀ x y, added E B x y = 0 := by
          intro x y
          have := h3 x y
          rw [← hb, hz, zero_add] at this
          exact this.symm
        simp only [hzero, Finset.sum_const_zero] at htot
        cases hh : adj 0 with
        | nil => apply hf; unfold firstLink; rw [hh]; rfl
        | cons v l =>
          have hv : v ∈ adj 0 := by rw [hh]; simp
          have := dist_pos_link hadj (by omega : 0 < n) hv (fun e => hself 0 (e ▸ hv))
          linarith
      · exact hO (ho hm0 hf)

/-- **C128** (partial: the values are not the betweenness when there are several shortest paths, see `C128_wrong_link`).  Full claim:
the nodes written to `*n1` and `*n2` are the ends of the link with the largest betweenness.

On every symmetric network without repeated links or links of a node to itself the fields `btw` are those that
`CalculateLinkBetweenness` computes; if there is a link, two linked nodes are written and no link has a larger value than theirs; if
there is none, nothing is written. -/
theorem C128_largest_partial (hadj : InRange adj n) (hnd : ∀ i, (adj i).Nodup) (hsym : Symmetric adj) (hself : ∀ i, i ∉ adj i)
    (hn : n ≠ 0) :
    ∃ r o, CalculateBiggestLinkBetweenness adj n = some (r, o) ∧ CalculateLinkBetweenness adj n = some r ∧
      ((∃ i < n, adj i ≠ []) → ∃ i j, o = some (i, j) ∧ j ∈ adj i ∧ ∀ a b, r a b ≤ r i j) ∧
      ((∀ i, adj i = []) → o = none) := by
  obtain ⟨st, h1, h2, hI, _⟩ := big_all hadj hnd hsym hself n le_rfl
  refine ⟨st.l.btw, st.out, ?_, h2, ?_, ?_⟩
  · unfold CalculateBiggestLinkBetweenness
    rw [if_neg hn, h1]
    rfl
  · rintro ⟨s, hs, hne⟩
    cases ho : st.out with
    | some y =>
      obtain ⟨i, j⟩ := y
      obtain ⟨hb, hj⟩ := hI.set i j ho
      exact ⟨i, j, rfl, hj, fun a b => by rw [hI.symm i j]; exact hI.top j i hb a b⟩
    | none =>
      exfalso
      have hz := (hI.unset ho).2
      obtain ⟨r, hr, _, hsum⟩ := C55_conservation hadj hnd hsym
      have : st.l.btw = r := by
        have h3 := h2
        unfold CalculateLinkBetweenness at hr
        rw [hr] at h3
        exact (Option.some.inj h3).symm
      rw [← this] at hsum
      have hl : ∑ a ∈ Finset.range n, ((adj a).map fun b => st.l.btw a b).sum = 0 := by
        apply Finset.sum_eq_zero
        intro a _
        apply List.sum_eq_zero
        intro x hx
        obtain ⟨b, _, rfl⟩ := List.mem_map.1 hx
        exact hz a b
      rw [hl] at hsum
      obtain ⟨v, l, hv⟩ := List.exists_cons_of_ne_nil hne
      have hv : v ∈ adj s := by rw [hv]; simp
      have hp := dist_pos_link hadj hs hv (fun e => hself s (e ▸ hv))
      have : 0 < ∑ s ∈ Finset.range n, ∑ t ∈ Finset.range n, (dist adj s t : ℚ) := by
        apply Finset.sum_pos'
        · intro _ _; exact Finset.sum_nonneg fun _ _ => by positivity
        · exact ⟨s, Finset.mem_range.2 hs, hp⟩
      linarith
  · intro hno
    cases ho : st.out with
    | none => rfl
    | some y =>
      obtain ⟨i, j⟩ := y
      have hj := (hI.set i j ho).2
      rw [hno i] at hj; simp at hj

/-- **C128** (unique shortest paths).  If no two nodes are joined by more than one shortest path (all trees, for instance) the link
found is one with the largest betweenness. -/
theorem C128_unique_paths (hadj : InRange adj n) (hnd : ∀ i, (adj i).Nodup) (hsym : Symmetric adj) (hself : ∀ i, i ∉ adj i)
    (hu : ∀ s t, (shortest adj s t).length ≤ 1) (hl : ∃ i < n, adj i ≠ []) :
    ∃ r i j, CalculateBiggestLinkBetweenness adj n = some (r, some (i, j)) ∧ j ∈ adj i ∧
      ∀ a b, linkBetweenness adj n a b ≤ linkBetweenness adj n i j := by
  have hn : n ≠ 0 := by rintro rfl; obtain ⟨_, h, _⟩ := hl; omega
  obtain ⟨r, o, h1, h2, h3, _⟩ := C128_largest_partial hadj hnd hsym hself hn
  obtain ⟨i, j, rfl, hj, htop⟩ := h3 hl
  obtain ⟨r', hr', hb⟩ := C55_unique_paths_partial hadj hnd hsym hu
  rw [h2] at hr'
  cases hr'
  exact ⟨r, i, j, h1, hj, fun a b => by rw [← hb, ← hb]; exact htop a b⟩

/-- 0–1, 0–2, 1–6, 1–7, 2–3, 2–5, 2–7, 3–4, 4–5, 4–6, 5–7. -/
def tangle : ℕ → List ℕ
  | 0 => [1, 2]
  | 1 => [0, 6, 7]
  | 2 => [0, 3, 5, 7]
  | 3 => [2, 4]
  | 4 => [3, 5, 6]
  | 5 => [2, 4, 7]
  | 6 => [1, 4]
  | 7 => [1, 2, 5]
  | _ => []

/-- Distances in it. -/
def tangleDist (s t : ℕ) : ℕ :=
  (([[0, 1, 1, 2, 3, 2, 2, 2], [1, 0, 2, 3, 2, 2, 1, 1], [1, 2, 0, 1, 2, 1, 3, 1], [2, 3, 1, 0, 1, 2, 2, 2], [3, 2, 2, 1, 0, 1, 1, 2], [2, 2, 1, 2, 1, 0, 2, 1], [2, 1, 3, 2, 1, 2, 0, 2], [2, 1, 1, 2, 2, 1, 2, 0]] : List (List ℕ)).getD s []).getD t 0

theorem tangle_dist : ∀ s < 8, ∀ t < 8, dist tangle s t = tangleDist s t := by
  have h : ∀ s < 8, ∀ t < 8, 0 < W tangle (tangleDist s t) s t ∧ ∀ k < tangleDist s t, W tangle k s t = 0 := by decide +kernel
  intro s hs t ht
  refine dist_eq ⟨W_pos.1 (h s hs t ht).1, fun k hk => ?_⟩
  by_contra hlt
  have := (h s hs t ht).2 k (by omega)
  have := W_pos.2 hk
  omega

/-- Betweenness in it, computed. -/
def tangleBtw (a b : ℕ) : ℚ := ∑ s ∈ Finset.range 8, ∑ t ∈ Finset.range 8,
  (((((walks tangle (tangleDist s t) s).filter fun l => l.getLast? = some t).countP fun l => decide ((a, b) ∈ l.zip l.tail) : ℕ) : ℚ) /
      (((walks tangle (tangleDist s t) s).filter fun l => l.getLast? = some t).length : ℕ) +
    ((((walks tangle (tangleDist s t) s).filter fun l => l.getLast? = some t).countP fun l => decide ((b, a) ∈ l.zip l.tail) : ℕ) : ℚ) /
      (((walks tangle (tangleDist s t) s).filter fun l => l.getLast? = some t).length : ℕ))

theorem tangle_btw (a b : ℕ) : linkBetweenness tangle 8 a b = tangleBtw a b := by
  unfold linkBetweenness linkShare shortest tangleBtw
  refine Finset.sum_congr rfl fun s hs => Finset.sum_congr rfl fun t ht => ?_
  rw [tangle_dist s (Finset.mem_range.1 hs) t (Finset.mem_range.1 ht)]

/-- **C128, refutation**: the two nodes written need not be the ends of the link with the largest betweenness. -/
theorem C128_wrong_link : ∃ (adj : ℕ → List ℕ) (n : ℕ), InRange adj n ∧ (∀ i, (adj i).Nodup) ∧ Symmetric adj ∧ (∀ i, i ∉ adj i) ∧
    ∃ r i j, CalculateBiggestLinkBetweenness adj n = some (r, some (i, j)) ∧
      ∃ a b, b ∈ adj a ∧ linkBetweenness adj n i j < linkBetweenness adj n a b := by
  have hr : (CalculateBiggestLinkBetweenness tangle 8).map (fun r => r.2) = some (some (6, 4)) := by decide +kernel
  obtain ⟨⟨r, o⟩, hr, h01⟩ := Option.map_eq_some_iff.1 hr
  cases h01
  refine ⟨tangle, 8, ?_, ?_, ?_, ?_, r, _, _, hr, 2, 3, by decide, ?_⟩
  · unfold InRange; decide
  · intro i
    match i with
    | 0 | 1 | 2 | 3 | 4 | 5 | 6 | 7 => decide
    | _ + 8 => simp [tangle]
  · intro i j h
    match i with
    | 0 | 1 | 2 | 3 | 4 | 5 | 6 | 7 => revert j; decide
    | _ + 8 => simp [tangle] at h
  · intro i
    match i with
    | 0 | 1 | 2 | 3 | 4 | 5 | 6 | 7 => decide
    | _ + 8 => simp [tangle]
  · rw [tangle_btw, tangle_btw]
    decide +kernel

/-- In a path of four nodes the middle link is found. -/
example : (CalculateBiggestLinkBetweenness (fun i => if i = 0 then [1] else if i = 1 then [0, 2] else if i = 2 then [1, 3] else
    if i = 3 then [2] else []) 4).map (fun r => r.2) = some (some (2, 1)) := by decide +kernel

/-- With a link in one direction only NULL is dereferenced, as in `C55_directed_crash`; so it is without nodes. -/
example : CalculateBiggestLinkBetweenness (fun i => if i = 0 then [1] else []) 2 = none ∧
    CalculateBiggestLinkBetweenness (fun _ => []) 0 = none := by decide +kernel

end BT
