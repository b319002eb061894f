import Verif.Project.Sums

/-! # Merging of equal projected edges and filling of the array -/

set_option linter.unusedSimpArgs false

namespace NC

/-- The edge for a run of equal projected edges. -/
def merge : List Edge → Edge
  | [] => ⟨0, 0, 0⟩
  | e :: g => ⟨e.u, e.v, wsum (e :: g)⟩

/-- Runs of equal projected edges. -/
abbrev pruns (cur l : List Edge) : List (List Edge) := runs pkey cur l

theorem pkey_eq {a b : Edge} : pkey a = pkey b ↔ a.u = b.u ∧ a.v = b.v := by
  unfold pkey
  simp only [EmbeddingLike.apply_eq_iff_eq, Prod.mk.injEq]
  tauto

theorem merge_eq {g : List Edge} {a : Edge} (ha : a ∈ g) (h : ∀ x ∈ g, pkey x = pkey a) : merge g = ⟨a.u, a.v, wsum g⟩ := by
  cases g with
  | nil => simp at ha
  | cons e g =>
    have := pkey_eq.1 (h e (by simp))
    simp [merge, this]

theorem runs_head {α K : Type} [LinearOrder K] (key : α → K) : ∀ (l cur : List α) (a : α), ∃ t G, runs key cur (a :: l) = (cur ++ a :: t) :: G
  | [], cur, a => ⟨[], [], by simp [runs]⟩
  | b :: l, cur, a => by
    rw [runs]
    split_ifs
    · exact ⟨[], _, rfl⟩
    · obtain ⟨t, G, h⟩ := runs_head key l (cur ++ [a]) b
      exact ⟨b :: t, G, by rw [h]; simp⟩

theorem countLoop_spec (junk : Junk) : ∀ (l cur : List Edge) (E : ℕ) (d : ℕ → ℕ), (∀ x ∈ cur, ∀ a ∈ l.head?, pkey x = pkey a) →
    (∀ e ∈ l, e.u ≠ e.v) → l.length ≤ E →
    (countLoop junk (E, d) l).1 + l.length = E + (pruns cur l).length ∧
    ∀ i, (countLoop junk (E, d) l).2 i = d i + (incident 1 i ((pruns cur l).map merge)).length
  | [], cur, E, d, _, _, _ => by simp [countLoop, runs, incident]
  | [a], cur, E, d, hcur, hne, hE => by
    have hne := hne a (by simp)
    simp at hcur
    have hm := merge_eq (g := cur ++ [a]) (a := a) (by simp) (by
      intro x hx; simp at hx; rcases hx with hx | rfl; exacts [hcur x hx, rfl])
    simp only [countLoop, runs, or_true, if_true, List.map_cons, List.map_nil, hm]
    refine ⟨rfl, ?_⟩
    intro i
    simp only [Function.update_apply, incident]
    by_cases c1 : i = a.u
    · subst c1; simp [hne]
    · by_cases c2 : i = a.v
      · subst c2; simp [c1, hne]
      · simp [c1, c2, Ne.symm c1, Ne.symm c2]
  | a :: b :: rest, cur, E, d, hcur, hne, hE => by
    have hnea := hne a (by simp)
    have hne' : ∀ e ∈ b :: rest, e.u ≠ e.v := fun e he => hne e (by simp at he ⊢; tauto)
    simp only [List.head?_cons, Option.mem_def, Option.some.injEq, forall_eq'] at hcur
    rw [countLoop, pruns, runs]
    simp only [nextEdge, reduceCtorEq, or_false]
    by_cases hab : pkey a ≠ pkey b
    · have hc : EdgeCompare a b ≠ 0 := fun h => hab ((compare_zero a b).1 h)
      have hm := merge_eq (g := cur ++ [a]) (a := a) (by simp) (by
        intro x hx; simp at hx; rcases hx with hx | rfl; exacts [hcur x hx, rfl])
      rw [if_pos hab, if_pos hc]
      obtain ⟨h1, h2⟩ := countLoop_spec junk (b :: rest) [] E
        (Function.update (Function.update d a.u (d a.u + 1)) a.v ((Function.update d a.u (d a.u + 1)) a.v + 1)) (by simp) hne'
        (by simp at hE ⊢; omega)
      simp only [pruns] at h1 h2
      refine ⟨by simp only [List.length_cons] at h1 ⊢; omega, ?_⟩
      intro i
      rw [h2 i, List.map_cons, hm]
      simp only [Function.update_apply, incident]
      by_cases c1 : i = a.u
      · subst c1; simp [hnea]; omega
      · by_cases c2 : i = a.v
        · subst c2; simp [c1, hnea]; omega
        · simp [c1, c2, Ne.symm c1, Ne.symm c2]
    · push Not at hab
      have hc : ¬ EdgeCompare a b ≠ 0 := by rw [not_not]; exact (compare_zero a b).2 hab
      rw [if_neg hc, if_neg (by simpa using hab)]
      obtain ⟨h1, h2⟩ := countLoop_spec junk (b :: rest) (cur ++ [a]) (E - 1) d (by
        intro x hx c hc
        simp at hc; subst hc
        simp at hx
        rcases hx with hx | rfl
        · rw [hcur x hx, hab]
        · exact hab) hne' (by simp at hE ⊢; omega)
      simp only [pruns] at h1 h2
      refine ⟨by simp only [List.length_cons] at h1 hE ⊢; omega, h2⟩

/-- Both slots of a merged edge. -/
def put (s : ProjSt) (e : Edge) : Option ProjSt :=
  if s.idx e.u < 2 * s.adj.E + 1 ∧ s.idx e.v < 2 * s.adj.E + 1 then some (closeSlots (addSlots s e.u e.v e.w) e.u e.v) else none

theorem addSlots_zero (s : ProjSt) (u v : ℕ) : addSlots s u v 0 = s := by
  unfold addSlots; simp

theorem addSlots_add (s : ProjSt) (u v : ℕ) (c w : ℚ) : addSlots (addSlots s u v c) u v w = addSlots s u v (c + w) := by
  unfold addSlots
  dsimp only
  congr 2
  funext x
  simp only [Function.update_apply]
  by_cases h1 : s.idx u = s.idx v
  · by_cases h2 : x = s.idx v
    · simp [h1, h2]; ring
    · simp [h1, h2]
  · by_cases h2 : x = s.idx v
    · simp [h1, h2, Ne.symm h1]; ring
    · by_cases h3 : x = s.idx u
      · simp [h1, h2, h3, Ne.symm h1]; ring
      · simp [h2, h3]

theorem projFill_spec (junk : Junk) : ∀ (l cur : List Edge) (a : Edge) (s r : ProjSt), (∀ x ∈ cur, pkey x = pkey a) →
    (∀ e ∈ a :: l, EdgeCompare e junk.edge ≠ 0) → ((pruns cur (a :: l)).map merge).foldlM put s = some r →
    projFill junk (addSlots s a.u a.v (wsum cur)) (a :: l) = some r
  | [], cur, a, s, r, hcur, hj, hr => by
    have hm := merge_eq (g := cur ++ [a]) (a := a) (by simp) (by
      intro x hx; simp at hx; rcases hx with hx | rfl; exacts [hcur x hx, rfl])
    simp only [pruns, runs, List.map_cons, List.map_nil, hm, List.foldlM_cons, List.foldlM_nil, put] at hr
    split_ifs at hr with hb
    · simp at hr
      rw [projFill, if_pos (show (addSlots s a.u a.v (wsum cur)).idx a.u < 2 * (addSlots s a.u a.v (wsum cur)).adj.E + 1 ∧
        (addSlots s a.u a.v (wsum cur)).idx a.v < 2 * (addSlots s a.u a.v (wsum cur)).adj.E + 1 from hb)]
      have hj' : EdgeCompare a (nextEdge junk []) ≠ 0 := hj a (by simp)
      dsimp only
      rw [if_pos hj', projFill, addSlots_add, ← hr]
      simp [wsum]
    · simp at hr
  | b :: l, cur, a, s, r, hcur, hj, hr => by
    have hb : s.idx a.u < 2 * s.adj.E + 1 ∧ s.idx a.v < 2 * s.adj.E + 1 := by
      obtain ⟨t, G, e⟩ := runs_head pkey (b :: l) cur a
      have hconst := runs_const pkey (a :: b :: l) cur (by simpa using hcur) (cur ++ a :: t) (by rw [e]; simp)
      have hm := merge_eq (g := cur ++ a :: t) (a := a) (by simp) (fun x hx => hconst x hx a (by simp))
      rw [pruns, e, List.map_cons, hm, List.foldlM_cons, put] at hr
      by_contra hcon
      rw [if_neg hcon] at hr
      simp at hr
    rw [projFill, if_pos (show (addSlots s a.u a.v (wsum cur)).idx a.u < 2 * (addSlots s a.u a.v (wsum cur)).adj.E + 1 ∧
        (addSlots s a.u a.v (wsum cur)).idx a.v < 2 * (addSlots s a.u a.v (wsum cur)).adj.E + 1 from hb)]
    have hw : wsum cur + a.w = wsum (cur ++ [a]) := by simp [wsum]
    dsimp only
    rw [addSlots_add, hw]
    rw [pruns, runs] at hr
    by_cases hab : pkey a ≠ pkey b
    · have hc : EdgeCompare a (nextEdge junk (b :: l)) ≠ 0 := fun h => hab ((compare_zero a b).1 h)
      have hm := merge_eq (g := cur ++ [a]) (a := a) (by simp) (by
        intro x hx; simp at hx; rcases hx with hx | rfl; exacts [hcur x hx, rfl])
      rw [if_pos hab, List.map_cons, hm, List.foldlM_cons, put, if_pos hb] at hr
      rw [if_pos hc]
      have := projFill_spec junk l [] b _ r (by simp) (fun e he => hj e (by simp at he ⊢; tauto)) hr
      rw [show wsum [] = 0 from rfl, addSlots_zero] at this
      exact this
    · rw [if_neg hab] at hr
      push Not at hab
      have hc : ¬ EdgeCompare a (nextEdge junk (b :: l)) ≠ 0 := by rw [not_not]; exact (compare_zero a b).2 hab
      rw [if_neg hc]
      have hk := pkey_eq.1 hab
      have := projFill_spec junk l (cur ++ [a]) b s r (by
        intro x hx; simp at hx; rcases hx with hx | rfl
        · rw [hcur x hx, hab]
        · exact hab) (fun e he => hj e (by simp at he ⊢; tauto)) hr
      rw [← hk.1, ← hk.2] at this
      exact this

/-- Invariant of the filling. -/
structure ProjInv (N : ℕ) (es done : List Edge) (idx : ℕ → ℕ) (E : ℕ) (s : ProjSt) : Prop where
  hidx : s.adj.idx = idx
  hE : s.adj.E = E
  pos : ∀ i < N, s.idx i = idx i + (incident 1 i done).length
  row : ∀ i < N, ∀ t (h : t < (incident 1 i done).length),
    (s.adj.neighbors (idx i + t), s.adj.strength (idx i + t)) = (incident 1 i done)[t]
  zero : ∀ i < N, ∀ t, (incident 1 i done).length ≤ t → t < (incident 1 i es).length → s.adj.strength (idx i + t) = 0

theorem put_loop {N : ℕ} {es : List Edge} {idx : ℕ → ℕ} {E : ℕ} (hl : LoopFree N es)
    (hidx : ∀ i < N, idx (i + 1) = idx i + (incident 1 i es).length) (hE : ∀ i ≤ N, idx i ≤ 2 * E) :
    ∀ (todo done : List Edge) (s : ProjSt), es = done ++ todo → ProjInv N es done idx E s →
      ∃ s', todo.foldlM put s = some s' ∧ ProjInv N es es idx E s' ∧ s'.adj.N = s.adj.N := by
  have hmono : ∀ i j, i ≤ j → j ≤ N → idx i ≤ idx j := by
    intro i j hij
    induction hij with
    | refl => intro _; exact le_rfl
    | step _ ih => intro hj; exact (ih (by omega)).trans (by rw [hidx _ (by omega)]; omega)
  have hrow : ∀ i < N, ∀ j < N, i ≠ j → ∀ s t, s < (incident 1 i es).length →
      t < (incident 1 j es).length → idx i + s ≠ idx j + t := by
    intro i hi j hj hij s t hs ht
    rcases lt_or_gt_of_ne hij with h | h
    · have := hmono (i + 1) j h (by omega); rw [hidx i hi] at this; omega
    · have := hmono (j + 1) i h (by omega); rw [hidx j hj] at this; omega
  intro todo
  induction todo with
  | nil =>
    intro done s hes h
    rw [List.append_nil] at hes
    subst hes
    exact ⟨s, rfl, h, rfl⟩
  | cons e todo ih =>
    intro done s hes h
    have hmem : e ∈ es := by rw [hes]; simp
    obtain ⟨hu, hv, hne⟩ := hl e hmem
    have hnev : ¬ e.v = e.u := fun hh => hne hh.symm
    have hlen : ∀ i, (incident 1 i es).length = (incident 1 i done).length + (incident 1 i (e :: todo)).length := by
      intro i; rw [hes, incident_append, List.length_append]
    have lu : (incident 1 e.u (e :: todo)).length = (incident 1 e.u todo).length + 1 := by simp [incident]
    have lv : (incident 1 e.v (e :: todo)).length = (incident 1 e.v todo).length + 1 := by simp [incident, hne]
    have pu := h.pos e.u hu
    have pv' := h.pos e.v hv
    have bu : idx e.u + (incident 1 e.u done).length < 2 * E + 1 := by
      have := hE (e.u + 1) (by omega); rw [hidx e.u hu, hlen, lu] at this; omega
    have bv : idx e.v + (incident 1 e.v done).length < 2 * E + 1 := by
      have := hE (e.v + 1) (by omega); rw [hidx e.v hv, hlen, lv] at this; omega
    have za : s.adj.strength (idx e.u + (incident 1 e.u done).length) = 0 := h.zero e.u hu _ le_rfl (by rw [hlen, lu]; omega)
    have zb : s.adj.strength (idx e.v + (incident 1 e.v done).length) = 0 := h.zero e.v hv _ le_rfl (by rw [hlen, lv]; omega)
    set a := idx e.u + (incident 1 e.u done).length with ha
    set b := idx e.v + (incident 1 e.v done).length with hb
    have hab : a ≠ b := hrow e.u hu e.v hv hne _ _ (by rw [hlen, lu]; omega) (by rw [hlen, lv]; omega)
    let s1 : ProjSt :=
      { adj := { s.adj with
          neighbors := Function.update (Function.update s.adj.neighbors a e.v) b e.u
          strength := Function.update (Function.update s.adj.strength a (e.w / 1)) b (e.w / 1) }
        idx := Function.update (Function.update s.idx e.u (a + 1)) e.v (b + 1) }
    have hrun : put s e = some s1 := by
      unfold put
      rw [if_pos (by rw [pu, pv', h.hE]; exact ⟨bu, bv⟩)]
      unfold closeSlots addSlots
      simp only [pu, pv', za, Function.update_of_ne hab.symm, zb, zero_add, Function.update_of_ne hnev, s1, div_one]
    have hinc_done : ∀ i, incident 1 i (done ++ [e]) = incident 1 i done ++ incident 1 i [e] :=
      fun i => incident_append 1 i done [e]
    have hle : ∀ i, (incident 1 i [e]).length ≤ (incident 1 i (e :: todo)).length := by
      intro i; simp only [incident]; split_ifs <;> simp
    have h1 : ProjInv N es (done ++ [e]) idx E s1 := by
      refine ⟨h.hidx, h.hE, ?_, ?_, ?_⟩
      · intro i hi
        simp only [s1, Function.update_apply, hinc_done, List.length_append]
        by_cases c2 : i = e.v
        · subst c2
          have hl1 : incident 1 e.v [e] = [(e.u, e.w / 1)] := by simp [incident, hne]
          simp [hl1, hb]; omega
        · by_cases c1 : i = e.u
          · subst c1
            have hl1 : incident 1 e.u [e] = [(e.v, e.w / 1)] := by simp [incident]
            simp [hl1, ha, c2]; omega
          · have d1 : ¬ e.u = i := fun hh => c1 hh.symm
            have d2 : ¬ e.v = i := fun hh => c2 hh.symm
            have hl1 : incident 1 i [e] = [] := by simp [incident, d1, d2]
            simp [hl1, c1, c2, h.pos i hi]
      · intro i hi t ht
        rw [hinc_done, List.length_append] at ht
        simp only [s1]
        have hle := hle i
        have htes : t < (incident 1 i es).length := by rw [hlen]; omega
        by_cases c1 : i = e.u
        · subst c1
          have hl1 : incident 1 e.u [e] = [(e.v, e.w / 1)] := by simp [incident]
          have hbne : idx e.u + t ≠ b := hrow e.u hu e.v hv hne _ _ htes (by rw [hlen, lv]; omega)
          simp only [Function.update_of_ne hbne]
          simp only [hl1, hinc_done, List.length_singleton] at ht ⊢
          rcases Nat.lt_succ_iff_lt_or_eq.1 ht with h2 | h2
          · have hane : idx e.u + t ≠ a := by omega
            rw [Function.update_of_ne hane, Function.update_of_ne hane, h.row e.u hu t h2, List.getElem_append_left h2]
          · subst h2
            simp [← ha]
        · by_cases c2 : i = e.v
          · subst c2
            have hl1 : incident 1 e.v [e] = [(e.u, e.w / 1)] := by simp [incident, hne]
            have hane : idx e.v + t ≠ a := hrow e.v hv e.u hu hnev _ _ htes (by rw [hlen, lu]; omega)
            simp only [hl1, hinc_done, List.length_singleton] at ht ⊢
            rcases Nat.lt_succ_iff_lt_or_eq.1 ht with h2 | h2
            · have hbne : idx e.v + t ≠ b := by omega
              rw [Function.update_of_ne hbne, Function.update_of_ne hbne,
                Function.update_of_ne hane, Function.update_of_ne hane, h.row e.v hv t h2, List.getElem_append_left h2]
            · subst h2
              simp [← hb]
          · have d1 : ¬ e.u = i := fun hh => c1 hh.symm
            have d2 : ¬ e.v = i := fun hh => c2 hh.symm
            have hl1 : incident 1 i [e] = [] := by simp [incident, d1, d2]
            have hane : idx i + t ≠ a := hrow i hi e.u hu c1 _ _ htes (by rw [hlen, lu]; omega)
            have hbne : idx i + t ≠ b := hrow i hi e.v hv c2 _ _ htes (by rw [hlen, lv]; omega)
            rw [Function.update_of_ne hbne, Function.update_of_ne hbne, Function.update_of_ne hane, Function.update_of_ne hane]
            simp only [hl1, hinc_done, List.append_nil] at ht ⊢
            exact h.row i hi t (by simpa using ht)
      · intro i hi t ht htes
        rw [hinc_done, List.length_append] at ht
        simp only [s1]
        have hane : idx i + t ≠ a := by
          by_cases c1 : i = e.u
          · subst c1
            have hl1 : incident 1 e.u [e] = [(e.v, e.w / 1)] := by simp [incident]
            simp [hl1] at ht; omega
          · exact hrow i hi e.u hu c1 _ _ htes (by rw [hlen, lu]; omega)
        have hbne : idx i + t ≠ b := by
          by_cases c1 : i = e.v
          · subst c1
            have hl1 : incident 1 e.v [e] = [(e.u, e.w / 1)] := by simp [incident, hne]
            simp [hl1] at ht; omega
          · exact hrow i hi e.v hv c1 _ _ htes (by rw [hlen, lv]; omega)
        rw [Function.update_of_ne hbne, Function.update_of_ne hane]
        exact h.zero i hi t (by omega) htes
    obtain ⟨s', hr, hf, hN⟩ := ih (done ++ [e]) s1 (by rw [hes]; simp) h1
    exact ⟨s', by rw [List.foldlM_cons, hrun]; exact hr, hf, hN⟩

theorem projIdx_loop (degree : ℕ → ℕ) (s : ProjSt) (n : ℕ) :
    let t := (List.range n).foldl (projIdx degree) (s, 0)
    t.2 = ∑ k ∈ Finset.range n, degree k ∧
    (∀ i, t.1.adj.idx i = if i < n then ∑ k ∈ Finset.range i, degree k else s.adj.idx i) ∧
    (∀ i, t.1.idx i = if i < n then ∑ k ∈ Finset.range i, degree k else s.idx i) ∧
    t.1.adj.N = s.adj.N ∧ t.1.adj.E = s.adj.E ∧ t.1.adj.neighbors = s.adj.neighbors ∧ t.1.adj.strength = s.adj.strength := by
  induction n with
  | zero => simp
  | succ n ih =>
    simp only at ih ⊢
    rw [List.range_succ, List.foldl_append]
    simp only [List.foldl_cons, List.foldl_nil]
    set t := List.foldl (projIdx degree) (s, 0) (List.range n)
    obtain ⟨h1, h2, h3, h4, h5, h6, h7⟩ := ih
    have key : ∀ (f g : ℕ → ℕ), (∀ i, f i = if i < n then ∑ k ∈ Finset.range i, degree k else g i) →
        ∀ i, Function.update f n t.2 i = if i < n + 1 then ∑ k ∈ Finset.range i, degree k else g i := by
      intro f g hf i
      simp only [Function.update_apply, hf, h1]
      by_cases hi : i = n
      · subst hi; simp
      · by_cases hin : i < n
        · simp [hi, hin, Nat.lt_succ_of_lt hin]
        · have : ¬ i < n + 1 := by omega
          simp [hi, hin, this]
    refine ⟨?_, key _ _ h2, key _ _ h3, h4, h5, h6, h7⟩
    simp only [projIdx, h1, Finset.sum_range_succ]

theorem scale_slots (fac1 : ℚ) (lo : ℕ) : ∀ (n : ℕ) (a : Adj),
    let b := (List.range' lo n).foldl (fun (a : Adj) (k : ℕ) => { a with strength := Function.update a.strength k (a.strength k * fac1) }) a
    b.N = a.N ∧ b.E = a.E ∧ b.idx = a.idx ∧ b.neighbors = a.neighbors ∧
    ∀ k, b.strength k = if lo ≤ k ∧ k < lo + n then a.strength k * fac1 else a.strength k := by
  intro n
  induction n with
  | zero =>
    intro a
    refine ⟨rfl, rfl, rfl, rfl, ?_⟩
    intro k; rw [if_neg (by omega)]; rfl
  | succ n ih =>
    intro a
    simp only at ih ⊢
    rw [List.range'_concat, List.foldl_append]
    obtain ⟨h1, h2, h3, h4, h5⟩ := ih a
    simp only [List.foldl_cons, List.foldl_nil, one_mul]
    refine ⟨h1, h2, h3, h4, ?_⟩
    intro k
    rw [Function.update_apply, h5, h5]
    by_cases hk : k = lo + n
    · subst hk; simp
    · rw [if_neg hk]
      by_cases h : lo ≤ k ∧ k < lo + n
      · rw [if_pos h, if_pos (by omega)]
      · rw [if_neg h, if_neg (by omega)]

theorem scale_loop (fac1 fac2 : ℚ) (p : Partition) (a : Adj) : ∀ n, (∀ i < n, a.idx i ≤ a.idx (i + 1)) → a.idx 0 = 0 →
    let r := (List.range n).foldl (projScale fac1 fac2) (p, a)
    r.1.N = p.N ∧ r.1.M = p.M ∧ r.1.nempty = p.nempty ∧ r.1.modules = p.modules ∧
    (∀ i, r.1.nodes i = if i < n then { p.nodes i with strength := (p.nodes i).strength * fac2 } else p.nodes i) ∧
    r.2.N = a.N ∧ r.2.E = a.E ∧ r.2.idx = a.idx ∧ r.2.neighbors = a.neighbors ∧
    ∀ k, r.2.strength k = if k < a.idx n then a.strength k * fac1 else a.strength k := by
  intro n
  induction n with
  | zero => intro _ h0; simp [h0]
  | succ n ih =>
    intro hm h0
    simp only at ih ⊢
    rw [List.range_succ, List.foldl_append]
    obtain ⟨h1, h2, h3, h4, h5, h6, h7, h8, h9, h10⟩ := ih (fun i hi => hm i (by omega)) h0
    simp only [List.foldl_cons, List.foldl_nil]
    set t := List.foldl (projScale fac1 fac2) (p, a) (List.range n)
    have hmn := hm n (by omega)
    have hs := scale_slots fac1 (t.2.idx n) (t.2.idx (n + 1) - t.2.idx n) t.2
    simp only at hs
    obtain ⟨g1, g2, g3, g4, g5⟩ := hs
    refine ⟨h1, h2, h3, h4, ?_, g1.trans h6, g2.trans h7, g3.trans h8, g4.trans h9, ?_⟩
    · intro i
      simp only [projScale, setNode_nodes, h5]
      by_cases hi : i = n
      · subst hi; simp
      · by_cases hin : i < n
        · simp [hi, hin, Nat.lt_succ_of_lt hin]
        · have : ¬ i < n + 1 := by omega
          simp [hi, hin, this]
    · intro k
      simp only [projScale, slots]
      rw [g5, h10, h8]
      by_cases c1 : k < a.idx n
      · rw [if_neg (by omega), if_pos c1, if_pos (by omega)]
      · by_cases c2 : k < a.idx (n + 1)
        · rw [if_pos (by omega), if_neg c1, if_pos c2]
        · rw [if_neg (by omega), if_neg c1, if_neg c2]

end NC
