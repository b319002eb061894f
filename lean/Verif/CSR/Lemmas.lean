import Verif.CSR.Spec
import Verif.NC.Energy
import Mathlib.Tactic.FieldSimp
import Mathlib.Algebra.Order.BigOperators.Group.Finset

/-! # Invariants of the three loops (helper lemmas) -/

set_option linter.unusedSimpArgs false

namespace NC

theorem incident_append (W i es fs) : incident W i (es ++ fs) = incident W i es ++ incident W i fs := by
  induction es with
  | nil => rfl
  | cons e es ih => simp only [List.cons_append, incident, ih]; split_ifs <;> simp

theorem incident_length (W W' i es) : (incident W i es).length = (incident W' i es).length := by
  induction es with
  | nil => rfl
  | cons e es ih => simp only [incident]; split_ifs <;> simp [ih]

/-- first loop -/
theorem deg_loop {N : ℕ} : ∀ (es : List Edge) (s : DegState), LoopFree N es →
    ∃ s', es.foldlM (degStep N) s = some s' ∧ s'.sum = s.sum + totalWeight es ∧
      (∀ i, s'.degree i = s.degree i + (incident 1 i es).length) ∧
      s'.p.N = s.p.N ∧ s'.p.M = s.p.M ∧ s'.p.nempty = s.p.nempty ∧ s'.p.modules = s.p.modules ∧
      (∀ i, s'.p.nodes i = { s.p.nodes i with
        strength := (s.p.nodes i).strength + ((incident 1 i es).map Prod.snd).sum }) := by
  intro es
  induction es with
  | nil =>
    intro s _
    exact ⟨s, rfl, by simp [totalWeight], by simp [incident], rfl, rfl, rfl, rfl, by simp [incident]⟩
  | cons e es ih =>
    intro s h
    have he := h e (by simp)
    obtain ⟨s', h1, h2, h3, h4, h5, h6, h7, h8⟩ := ih
      { sum := s.sum + e.w
        p := setNode e.v (fun n => { n with strength := n.strength + e.w })
          (setNode e.u (fun n => { n with strength := n.strength + e.w }) s.p)
        degree := Function.update (Function.update s.degree e.u (s.degree e.u + 1)) e.v
          (Function.update s.degree e.u (s.degree e.u + 1) e.v + 1) } (fun f hf => h f (by simp [hf]))
    refine ⟨s', ?_, ?_, ?_, h4, h5, h6, h7, ?_⟩
    · rw [List.foldlM_cons]
      simp only [degStep, he.1, he.2.1, and_self, if_true]
      exact h1
    · rw [h2]; simp [totalWeight]; ring
    · intro i
      rw [h3]
      simp only [incident, Function.update_apply]
      have := he.2.2
      by_cases c1 : e.u = i <;> by_cases c2 : e.v = i
      · exact absurd (c1.trans c2.symm) this
      · subst c1; have : ¬ e.u = e.v := fun hh => c2 hh.symm
        simp [this]; omega
      · subst c2; have : ¬ e.v = e.u := fun hh => c1 hh.symm
        simp [this, c1]; omega
      · have d1 : ¬ i = e.u := fun hh => c1 hh.symm
        have d2 : ¬ i = e.v := fun hh => c2 hh.symm
        simp [c1, c2, d1, d2]
    · intro i
      rw [h8]
      simp only [setNode_nodes, incident]
      have := he.2.2
      by_cases c1 : e.u = i <;> by_cases c2 : e.v = i
      · exact absurd (c1.trans c2.symm) this
      · subst c1; have : ¬ e.u = e.v := fun hh => c2 hh.symm
        simp [this]; ring
      · subst c2; have : ¬ e.v = e.u := fun hh => c1 hh.symm
        simp [this, c1]; ring
      · have d1 : ¬ i = e.u := fun hh => c1 hh.symm
        have d2 : ¬ i = e.v := fun hh => c2 hh.symm
        simp [c1, c2, d1, d2]

/-- second loop -/
theorem idx_loop (degree : ℕ → ℕ) (W : ℚ) (s : IdxState) (n : ℕ) (h0 : s.pos = 0) :
    let t := (List.range n).foldl (idxStep degree W) s
    t.pos = ∑ k ∈ Finset.range n, degree k ∧
    (∀ i, t.adj.idx i = if i < n then ∑ k ∈ Finset.range i, degree k else s.adj.idx i) ∧
    t.adj.N = s.adj.N ∧ t.adj.E = s.adj.E ∧ t.adj.neighbors = s.adj.neighbors ∧
    t.adj.strength = s.adj.strength ∧
    t.p.N = s.p.N ∧ t.p.M = s.p.M ∧ t.p.nempty = s.p.nempty ∧ t.p.modules = s.p.modules ∧
    (∀ i, t.p.nodes i = if i < n then { s.p.nodes i with strength := (s.p.nodes i).strength / W }
      else s.p.nodes i) := by
  induction n with
  | zero => simp [h0]
  | succ n ih =>
    simp only at ih ⊢
    rw [List.range_succ, List.foldl_append]
    simp only [List.foldl_cons, List.foldl_nil]
    set t := List.foldl (idxStep degree W) s (List.range n)
    obtain ⟨h1, h2, h3, h4, h5, h6, h7, h8, h9, h10, h11⟩ := ih
    refine ⟨?_, ?_, h3, h4, h5, h6, h7, h8, h9, h10, ?_⟩
    · simp only [idxStep, h1, Finset.sum_range_succ]
    · intro i
      simp only [idxStep, Function.update_apply, h2, h1]
      by_cases hi : i = n
      · subst hi; simp
      · by_cases hin : i < n
        · simp [hi, hin, Nat.lt_succ_of_lt hin]
        · have : ¬ i < n + 1 := by omega
          simp [hi, hin, this]
    · intro i
      simp only [idxStep, setNode_nodes, h11]
      by_cases hi : i = n
      · subst hi; simp
      · by_cases hin : i < n
        · simp [hi, hin, Nat.lt_succ_of_lt hin]
        · have : ¬ i < n + 1 := by omega
          simp [hi, hin, this]

/-- Invariant of the third loop: the first entries of each row are filled. -/
structure FInv (N : ℕ) (W : ℚ) (es done todo : List Edge) (idx : ℕ → ℕ) (E : ℕ) (s : FillState) :
    Prop where
  hidx : s.adj.idx = idx
  hE : s.adj.E = E
  deg : ∀ i < N, s.degree i = ((incident W i todo).length : ℤ)
  row : ∀ i < N, ∀ t (h : t < (incident W i done).length),
    (s.adj.neighbors (idx i + t), s.adj.strength (idx i + t)) = (incident W i done)[t]

theorem fill_loop {N : ℕ} {W : ℚ} {es : List Edge} {idx : ℕ → ℕ} {E : ℕ} (hl : LoopFree N es)
    (hidx : ∀ i < N, idx (i + 1) = idx i + (incident W i es).length)
    (hE : ∀ i ≤ N, idx i ≤ 2 * E) :
    ∀ (todo done : List Edge) (s : FillState), es = done ++ todo → FInv N W es done todo idx E s →
      ∃ s', todo.foldlM (fillStep W) s = some s' ∧ FInv N W es es [] idx E s' ∧
        s'.adj.N = s.adj.N := by
  have hmono : ∀ i j, i ≤ j → j ≤ N → idx i ≤ idx j := by
    intro i j hij
    induction hij with
    | refl => intro _; exact le_rfl
    | step _ ih => intro hj; exact (ih (by omega)).trans (by rw [hidx _ (by omega)]; omega)
  -- rows do not overlap
  have hrow : ∀ i < N, ∀ j < N, i ≠ j → ∀ s t, s < (incident W i es).length →
      t < (incident W j es).length → idx i + s ≠ idx j + t := by
    intro i hi j hj hij s t hs ht
    rcases lt_or_gt_of_ne hij with h | h
    · have := hmono (i + 1) j h (by omega); rw [hidx i hi] at this; omega
    · have := hmono (j + 1) i h (by omega); rw [hidx j hj] at this; omega
  intro todo
  induction todo with
  | nil =>
    intro done s hes h
    rw [List.append_nil] at hes
    subst hes
    exact ⟨s, rfl, h, rfl⟩
  | cons e todo ih =>
    intro done s hes h
    have hmem : e ∈ es := by rw [hes]; simp
    obtain ⟨hu, hv, hne⟩ := hl e hmem
    have hnev : ¬ e.v = e.u := fun hh => hne hh.symm
    have hlen : ∀ i, (incident W i es).length =
        (incident W i done).length + (incident W i (e :: todo)).length := by
      intro i; rw [hes, incident_append, List.length_append]
    have lu : (incident W e.u (e :: todo)).length = (incident W e.u todo).length + 1 := by
      simp [incident]
    have lv : (incident W e.v (e :: todo)).length = (incident W e.v todo).length + 1 := by
      simp [incident, hne]
    have pu : (s.adj.idx (e.u + 1) : ℤ) - s.degree e.u = ((idx e.u + (incident W e.u done).length : ℕ) : ℤ) := by
      rw [h.hidx, h.deg e.u hu, hidx e.u hu, hlen]; push_cast; ring
    have pv' : (s.adj.idx (e.v + 1) : ℤ) - s.degree e.v = ((idx e.v + (incident W e.v done).length : ℕ) : ℤ) := by
      rw [h.hidx, h.deg e.v hv, hidx e.v hv, hlen]; push_cast; ring
    have bu : idx e.u + (incident W e.u done).length < 2 * E + 1 := by
      have := hE (e.u + 1) (by omega); rw [hidx e.u hu, hlen, lu] at this; omega
    have bv : idx e.v + (incident W e.v done).length < 2 * E + 1 := by
      have := hE (e.v + 1) (by omega); rw [hidx e.v hv, hlen, lv] at this; omega
    set a := idx e.u + (incident W e.u done).length with ha
    set b := idx e.v + (incident W e.v done).length with hb
    have hab : a ≠ b := hrow e.u hu e.v hv hne _ _ (by rw [hlen, lu]; omega) (by rw [hlen, lv]; omega)
    let s1 : FillState :=
      { adj := { s.adj with
          neighbors := Function.update (Function.update s.adj.neighbors a e.v) b e.u
          strength := Function.update (Function.update s.adj.strength a (e.w / W)) b (e.w / W) }
        degree := Function.update (Function.update s.degree e.u (s.degree e.u - 1)) e.v
          (Function.update s.degree e.u (s.degree e.u - 1) e.v - 1) }
    have hrun : fillStep W s e = some s1 := by
      have bu' : (a : ℤ) < 2 * (s.adj.E : ℤ) + 1 := by rw [h.hE]; exact_mod_cast bu
      have bv' : (b : ℤ) < 2 * (s.adj.E : ℤ) + 1 := by rw [h.hE]; exact_mod_cast bv
      have na : (0 : ℤ) ≤ a := Int.natCast_nonneg a
      have nb : (0 : ℤ) ≤ b := Int.natCast_nonneg b
      simp only [fillStep, writeSlot, pu, pv', na, nb, bu', bv', and_self, if_true,
        Option.bind_eq_bind, Option.bind_some, Int.toNat_natCast]
      rfl
    have hinc_done : ∀ i, incident W i (done ++ [e]) = incident W i done ++ incident W i [e] :=
      fun i => incident_append W i done [e]
    have h1 : FInv N W es (done ++ [e]) todo idx E s1 := by
      refine ⟨h.hidx, h.hE, ?_, ?_⟩
      · intro i hi
        have hd := h.deg i hi
        simp only [s1, Function.update_apply]
        by_cases c1 : i = e.u
        · have c2 : ¬ e.u = e.v := hne
          subst c1
          rw [hd, lu] at *
          simp [c2, hd]
        · by_cases c2 : i = e.v
          · subst c2
            simp only [if_true, hnev, if_false]
            rw [hd, lv]; push_cast; ring
          · have d1 : ¬ e.u = i := fun hh => c1 hh.symm
            have d2 : ¬ e.v = i := fun hh => c2 hh.symm
            simp only [c1, c2, if_false]
            rw [hd]; simp [incident, d1, d2]
      · intro i hi t ht
        rw [hinc_done, List.length_append] at ht
        simp only [s1]
        have hle : (incident W i [e]).length ≤ (incident W i (e :: todo)).length := by
          simp only [incident]; split_ifs <;> simp
        have htes : t < (incident W i es).length := by rw [hlen]; omega
        by_cases c1 : i = e.u
        · subst c1
          have hl1 : incident W e.u [e] = [(e.v, e.w / W)] := by simp [incident]
          have hbne : idx e.u + t ≠ b := hrow e.u hu e.v hv hne _ _ htes (by rw [hlen, lv]; omega)
          simp only [Function.update_of_ne hbne]
          simp only [hl1, hinc_done, List.length_singleton] at ht ⊢
          rcases Nat.lt_succ_iff_lt_or_eq.1 ht with h2 | h2
          · have hane : idx e.u + t ≠ a := by omega
            rw [Function.update_of_ne hane, Function.update_of_ne hane, h.row e.u hu t h2,
              List.getElem_append_left h2]
          · subst h2
            simp [← ha]
        · by_cases c2 : i = e.v
          · subst c2
            have hl1 : incident W e.v [e] = [(e.u, e.w / W)] := by simp [incident, hne]
            have hane : idx e.v + t ≠ a := hrow e.v hv e.u hu hnev _ _ htes (by rw [hlen, lu]; omega)
            simp only [hl1, hinc_done, List.length_singleton] at ht ⊢
            rcases Nat.lt_succ_iff_lt_or_eq.1 ht with h2 | h2
            · have hbne : idx e.v + t ≠ b := by omega
              rw [Function.update_of_ne hbne, Function.update_of_ne hbne,
                Function.update_of_ne hane, Function.update_of_ne hane, h.row e.v hv t h2,
                List.getElem_append_left h2]
            · subst h2
              simp [← hb]
          · have d1 : ¬ e.u = i := fun hh => c1 hh.symm
            have d2 : ¬ e.v = i := fun hh => c2 hh.symm
            have hl1 : incident W i [e] = [] := by simp [incident, d1, d2]
            have hane : idx i + t ≠ a := hrow i hi e.u hu c1 _ _ htes (by rw [hlen, lu]; omega)
            have hbne : idx i + t ≠ b := hrow i hi e.v hv c2 _ _ htes (by rw [hlen, lv]; omega)
            rw [Function.update_of_ne hbne, Function.update_of_ne hbne,
              Function.update_of_ne hane, Function.update_of_ne hane]
            simp only [hl1, hinc_done, List.append_nil] at ht ⊢
            exact h.row i hi t (by simpa using ht)
    obtain ⟨s', hr, hf, hN⟩ := ih (done ++ [e]) s1 (by rw [hes]; simp) h1
    exact ⟨s', by rw [List.foldlM_cons, hrun]; exact hr, hf, hN⟩

/-- Sum of all degrees (handshake). -/
theorem degree_sum {N : ℕ} {W : ℚ} : ∀ (es : List Edge), LoopFree N es →
    ∑ k ∈ Finset.range N, (incident W k es).length = 2 * es.length := by
  intro es
  induction es with
  | nil => intro _; simp [incident]
  | cons e es ih =>
    intro h
    obtain ⟨hu, hv, hne⟩ := h e (by simp)
    have hpt : ∀ k ∈ Finset.range N, (incident W k (e :: es)).length =
        (incident W k es).length + ((if k = e.u then 1 else 0) + (if k = e.v then 1 else 0)) := by
      intro k _
      simp only [incident]
      by_cases c1 : e.u = k
      · subst c1; simp [hne]
      · by_cases c2 : e.v = k
        · subst c2; have c3 : ¬ e.v = e.u := fun hh => hne hh.symm
          simp [c1, c3]
        · have d1 : ¬ k = e.u := fun hh => c1 hh.symm
          have d2 : ¬ k = e.v := fun hh => c2 hh.symm
          simp [c1, c2, d1, d2]
    rw [Finset.sum_congr rfl hpt, Finset.sum_add_distrib, ih (fun f hf => h f (by simp [hf])),
      Finset.sum_add_distrib]
    simp [hu, hv]; ring

theorem incident_scale (W : ℚ) (i es) :
    ((incident W i es).map Prod.snd).sum = ((incident 1 i es).map Prod.snd).sum / W := by
  induction es with
  | nil => simp [incident]
  | cons e es ih => simp only [incident]; split_ifs <;> simp [ih] <;> ring

theorem strength_total {N : ℕ} : ∀ (es : List Edge), LoopFree N es →
    ∑ k ∈ Finset.range N, ((incident 1 k es).map Prod.snd).sum = 2 * totalWeight es := by
  intro es
  induction es with
  | nil => intro _; simp [incident, totalWeight]
  | cons e es ih =>
    intro h
    obtain ⟨hu, hv, hne⟩ := h e (by simp)
    have hpt : ∀ k ∈ Finset.range N, ((incident 1 k (e :: es)).map Prod.snd).sum =
        ((incident 1 k es).map Prod.snd).sum +
          ((if k = e.u then e.w else 0) + (if k = e.v then e.w else 0)) := by
      intro k _
      simp only [incident]
      by_cases c1 : e.u = k
      · subst c1; simp [hne]; ring
      · by_cases c2 : e.v = k
        · subst c2; have c3 : ¬ e.v = e.u := fun hh => hne hh.symm
          simp [c1, c3]; ring
        · have d1 : ¬ k = e.u := fun hh => c1 hh.symm
          have d2 : ¬ k = e.v := fun hh => c2 hh.symm
          simp [c1, c2, d1, d2]
    rw [Finset.sum_congr rfl hpt, Finset.sum_add_distrib, ih (fun f hf => h f (by simp [hf])),
      Finset.sum_add_distrib]
    simp [hu, hv, totalWeight]; ring

theorem EdgeList_spec {edges : List Edge} {adj : Adj} {p : Partition} (nrm : Bool)
    (hE : adj.E = edges.length) (hN : p.N = adj.N) (hlast : adj.idx adj.N = 2 * adj.E)
    (hl : LoopFree adj.N edges) :
    ∃ a p', EdgeListToAdjaArray edges adj p nrm = some (a, p') ∧ a.N = adj.N ∧ a.E = adj.E ∧
      (∀ i < adj.N, a.idx i ≤ a.idx (i + 1)) ∧ (∀ i ≤ adj.N, a.idx i ≤ 2 * adj.E) ∧
      (∀ i < adj.N, rowOf a i = incident (if nrm then 2 * totalWeight edges else 1) i edges) ∧
      p'.N = p.N ∧ p'.M = p.M ∧ p'.nempty = p.nempty ∧ p'.modules = p.modules ∧
      (∀ i < adj.N, p'.nodes i = { p.nodes i with strength := ((p.nodes i).strength +
        ((incident 1 i edges).map Prod.snd).sum) / (if nrm then 2 * totalWeight edges else 1) }) := by
  obtain ⟨s, hr, hsum, hdeg, d1, d2, d3, d4, d5⟩ := deg_loop edges
    { sum := 0, p := p, degree := fun _ => 0 } hl
  simp only [zero_add] at hsum hdeg
  have hW : (if nrm then s.sum * 2 else 1) = (if nrm then 2 * totalWeight edges else 1 : ℚ) := by
    rw [hsum]; split_ifs
    · ring
    · rfl
  set W : ℚ := if nrm then 2 * totalWeight edges else 1 with hWdef
  have hidx := idx_loop s.degree W { adj := adj, p := s.p, pos := 0 } adj.N rfl
  set t := (List.range adj.N).foldl (idxStep s.degree W) { adj := adj, p := s.p, pos := 0 } with ht
  simp only at hidx
  obtain ⟨i1, i2, i3, i4, i5, i6, i7, i8, i9, i10, i11⟩ := hidx
  have hdeg' : ∀ i, s.degree i = (incident W i edges).length := by
    intro i; rw [hdeg]; exact incident_length _ _ _ _
  have htot : ∑ k ∈ Finset.range adj.N, s.degree k = 2 * adj.E := by
    rw [Finset.sum_congr rfl fun k _ => hdeg' k, degree_sum edges hl, hE]
  have hsucc : ∀ i < adj.N, t.adj.idx (i + 1) = t.adj.idx i + (incident W i edges).length := by
    intro i hi
    rw [i2 i, if_pos hi, i2 (i + 1)]
    by_cases hlt : i + 1 < adj.N
    · rw [if_pos hlt, Finset.sum_range_succ, hdeg']
    · have he : i + 1 = adj.N := by omega
      rw [if_neg hlt, he, hlast, ← htot, ← he, Finset.sum_range_succ, hdeg']
  have hmono : ∀ i ≤ adj.N, t.adj.idx i ≤ 2 * adj.E := by
    intro i hi
    rw [i2]
    split_ifs with hlt
    · rw [← htot]
      exact Finset.sum_le_sum_of_subset_of_nonneg (Finset.range_subset_range.2 hi) (fun _ _ _ => Nat.zero_le _)
    · have : i = adj.N := by omega
      rw [this, hlast]
  have hinit : FInv adj.N W edges [] edges t.adj.idx adj.E
      { adj := t.adj, degree := fun i => (s.degree i : ℤ) } := by
    refine ⟨rfl, i4, ?_, ?_⟩
    · intro i _; simp [hdeg']
    · intro i _ k hk; simp [incident] at hk
  obtain ⟨f, hf, hfi, hfN⟩ := fill_loop hl hsucc hmono edges [] _ rfl hinit
  refine ⟨f.adj, t.p, ?_, hfN.trans i3, hfi.hE, ?_, ?_, ?_, i7.trans d1, i8.trans d2, i9.trans d3,
    i10.trans d4, ?_⟩
  · unfold EdgeListToAdjaArray
    have e1 : ¬ edges.length < adj.E := by omega
    have e2 : ¬ p.N < adj.N := by omega
    have e3 : edges.take adj.E = edges := by rw [hE]; exact List.take_length
    simp only [e1, e2, if_false, e3, hr, Option.bind_eq_bind, Option.bind_some, hW, ← ht, hf]
    rfl
  · intro i hi; rw [hfi.hidx, hsucc i hi]; omega
  · intro i hi; rw [hfi.hidx]; exact hmono i hi
  · intro i hi
    unfold rowOf
    rw [hfi.hidx, hsucc i hi, Nat.add_sub_cancel_left]
    refine List.ext_getElem (by simp) ?_
    intro k h1 h2
    simp only [List.getElem_map, List.getElem_range', one_mul]
    exact hfi.row i hi k h2
  · intro i hi
    rw [i11, if_pos hi, d5]

end NC

namespace NC

theorem mem_incident {W : ℚ} {i : ℕ} {es : List Edge} {x : ℕ × ℚ} :
    x ∈ incident W i es → ∃ e ∈ es, (e.u = i ∧ x.1 = e.v) ∨ (e.v = i ∧ x.1 = e.u) := by
  induction es with
  | nil => simp [incident]
  | cons e es ih =>
    intro h
    simp only [incident] at h
    split_ifs at h with c1 c2
    · rcases List.mem_cons.1 h with rfl | h
      · exact ⟨e, by simp, Or.inl ⟨c1, rfl⟩⟩
      · obtain ⟨f, hf, h⟩ := ih h; exact ⟨f, by simp [hf], h⟩
    · rcases List.mem_cons.1 h with rfl | h
      · exact ⟨e, by simp, Or.inr ⟨c2, rfl⟩⟩
      · obtain ⟨f, hf, h⟩ := ih h; exact ⟨f, by simp [hf], h⟩
    · obtain ⟨f, hf, h⟩ := ih h; exact ⟨f, by simp [hf], h⟩

theorem incident_nodup {W : ℚ} {i : ℕ} {es : List Edge} (h : NoDuplicates es) :
    ((incident W i es).map Prod.fst).Nodup := by
  induction es with
  | nil => simp [incident]
  | cons e es ih =>
    rw [NoDuplicates, List.pairwise_cons] at h
    simp only [incident]
    split_ifs with c1 c2
    · rw [List.map_cons, List.nodup_cons]
      refine ⟨?_, ih h.2⟩
      intro hm
      obtain ⟨x, hx, hxe⟩ := List.mem_map.1 hm
      obtain ⟨f, hf, hh⟩ := mem_incident hx
      have := h.1 f hf
      simp only at hxe
      rcases hh with ⟨a, b⟩ | ⟨a, b⟩
      · exact this.1 ⟨c1.trans a.symm, hxe.symm.trans b⟩
      · exact this.2 ⟨c1.trans a.symm, hxe.symm.trans b⟩
    · rw [List.map_cons, List.nodup_cons]
      refine ⟨?_, ih h.2⟩
      intro hm
      obtain ⟨x, hx, hxe⟩ := List.mem_map.1 hm
      obtain ⟨f, hf, hh⟩ := mem_incident hx
      have := h.1 f hf
      simp only at hxe
      rcases hh with ⟨a, b⟩ | ⟨a, b⟩
      · exact this.2 ⟨hxe.symm.trans b, c2.trans a.symm⟩
      · exact this.1 ⟨hxe.symm.trans b, c2.trans a.symm⟩
    · exact ih h.2

theorem weightMatrix_incident {W : ℚ} {N : ℕ} {es : List Edge} (h : LoopFree N es) (i j : ℕ) :
    weightMatrix W es i j = ((incident W i es).map (fun x => if x.1 = j then x.2 else 0)).sum := by
  induction es with
  | nil => simp [weightMatrix, incident]
  | cons e es ih =>
    have ih := ih (fun f hf => h f (by simp [hf]))
    have hne := (h e (by simp)).2.2
    have : weightMatrix W (e :: es) i j =
      (if (e.u = i ∧ e.v = j) ∨ (e.u = j ∧ e.v = i) then e.w / W else 0) + weightMatrix W es i j := by
      simp [weightMatrix]
    rw [this, ih]
    simp only [incident]
    by_cases c1 : e.u = i
    · have c2 : ¬ e.v = i := fun hh => hne (c1.trans hh.symm)
      simp [c1, c2]
    · by_cases c2 : e.v = i
      · simp [c1, c2]
      · simp [c1, c2]

theorem weightMatrix_symm (W : ℚ) (es : List Edge) (i j : ℕ) :
    weightMatrix W es i j = weightMatrix W es j i := by
  unfold weightMatrix
  congr 1
  refine List.map_congr_left fun e _ => ?_
  congr 1
  exact propext or_comm

theorem sum_pick {l : List (ℕ × ℚ)} (h : (l.map Prod.fst).Nodup) {x : ℕ × ℚ} (hx : x ∈ l) :
    (l.map (fun y => if y.1 = x.1 then y.2 else 0)).sum = x.2 := by
  induction l with
  | nil => simp at hx
  | cons y l ih =>
    rw [List.map_cons, List.nodup_cons] at h
    rw [List.map_cons, List.sum_cons]
    have hzero : ∀ z ∈ l, z.1 ≠ y.1 := fun z hz hh => h.1 (List.mem_map.2 ⟨z, hz, hh⟩)
    rcases List.mem_cons.1 hx with rfl | hx
    · have : (l.map (fun y => if y.1 = x.1 then y.2 else 0)).sum = 0 := by
        apply List.sum_eq_zero
        intro q hq
        obtain ⟨z, hz, rfl⟩ := List.mem_map.1 hq
        simp [hzero z hz]
      simp [this]
    · rw [ih h.2 hx, if_neg (fun hh => hzero x hx hh.symm), zero_add]

theorem sum_none {l : List (ℕ × ℚ)} {j : ℕ} (h : ∀ x ∈ l, x.1 ≠ j) :
    (l.map (fun y => if y.1 = j then y.2 else 0)).sum = 0 := by
  apply List.sum_eq_zero
  intro q hq
  obtain ⟨z, hz, rfl⟩ := List.mem_map.1 hq
  simp [h z hz]

theorem rowOf_get {a : Adj} {i s : ℕ} (h1 : a.idx i ≤ s) (h2 : s < a.idx (i + 1)) :
    ∃ h : s - a.idx i < (rowOf a i).length, (rowOf a i)[s - a.idx i] = (a.neighbors s, a.strength s) := by
  refine ⟨by simp [rowOf]; omega, ?_⟩
  simp only [rowOf, List.getElem_map, List.getElem_range', one_mul]
  congr 2 <;> omega

/-- When the rows are those of a loop-free edge list without duplicates, the adjacency array
represents its weight matrix. -/
theorem represents_of_rows {a : Adj} {N : ℕ} {W : ℚ} {es : List Edge} (hl : LoopFree N es)
    (hd : NoDuplicates es) (hmono : ∀ i < N, a.idx i ≤ a.idx (i + 1))
    (hb : ∀ i ≤ N, a.idx i ≤ 2 * a.E) (hr : ∀ i < N, rowOf a i = incident W i es) :
    Represents a N (weightMatrix W es) := by
  have hmem : ∀ i < N, ∀ s, a.idx i ≤ s → s < a.idx (i + 1) →
      (a.neighbors s, a.strength s) ∈ incident W i es := by
    intro i hi s h1 h2
    obtain ⟨h, he⟩ := rowOf_get h1 h2
    rw [← hr i hi, ← he]; exact List.getElem_mem h
  refine ⟨hmono, fun i hi => hb _ hi, ?_, ?_, ?_, ?_, ?_, fun i _ j _ => weightMatrix_symm W es i j⟩
  · intro i hi s h1 h2
    obtain ⟨e, he, hh⟩ := mem_incident (hmem i hi s h1 h2)
    have := hl e he
    simp only at hh
    rcases hh with ⟨_, b⟩ | ⟨_, b⟩ <;> rw [b] <;> tauto
  · intro i hi s h1 h2
    obtain ⟨e, he, hh⟩ := mem_incident (hmem i hi s h1 h2)
    have := hl e he
    simp only at hh
    rcases hh with ⟨c, b⟩ | ⟨c, b⟩ <;> rw [b, ← c]
    · exact fun hh => this.2.2 hh.symm
    · exact this.2.2
  · intro i hi s t h1 h2 h3 h4 he
    obtain ⟨g1, e1⟩ := rowOf_get h1 h2
    obtain ⟨g2, e2⟩ := rowOf_get h3 h4
    have hnd : ((rowOf a i).map Prod.fst).Nodup := by rw [hr i hi]; exact incident_nodup hd
    have hinj := List.nodup_iff_injective_get.1 hnd
    have := @hinj ⟨s - a.idx i, by simpa using g1⟩ ⟨t - a.idx i, by simpa using g2⟩
      (by simp only [List.get_eq_getElem, List.getElem_map, e1, e2]; exact he)
    simp only [Fin.mk.injEq] at this
    omega
  · intro i hi s h1 h2
    rw [weightMatrix_incident hl]
    exact (sum_pick (incident_nodup hd) (hmem i hi s h1 h2)).symm
  · intro i hi j _ h
    rw [weightMatrix_incident hl]
    apply sum_none
    intro x hx hxj
    rw [← hr i hi] at hx
    obtain ⟨k, hk, rfl⟩ := List.getElem_of_mem hx
    have hk' : k < a.idx (i + 1) - a.idx i := by simpa [rowOf] using hk
    refine h (a.idx i + k) (by omega) (by omega) ?_
    rw [← hxj]; simp [rowOf]

end NC
