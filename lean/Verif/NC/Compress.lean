import Verif.NC.Build
import Mathlib.Data.List.Sort

/-! # CompressPartition (helper lemmas) -/

set_option linter.unusedSimpArgs false

namespace NC

/-- view restricted to the first `t` modules, with the matching number of empty ones -/
def below (t : ℕ) (seq : ℕ → List ℕ) (p : Partition) : Partition :=
  { p with M := t, nempty := emptyCount t seq }

theorem WF.drop {p seq t} (h : WF (below (t + 1) seq p) seq) (ht : seq t = []) :
    WF (below t seq p) seq := by
  refine ⟨⟨fun m hm => h.seg m (Nat.lt_succ_of_lt hm), fun m hm => h.nodup m (Nat.lt_succ_of_lt hm),
    fun m hm m' hm' => h.disj m (Nat.lt_succ_of_lt hm) m' (Nat.lt_succ_of_lt hm')⟩, h.nodeId,
    fun m hm => h.moduleId m (Nat.lt_succ_of_lt hm), ?_, fun m hm => h.mem m (Nat.lt_succ_of_lt hm),
    fun m hm => h.size m (Nat.lt_succ_of_lt hm), fun m hm => h.strength m (Nat.lt_succ_of_lt hm), rfl⟩
  intro i hi
  have h1 := h.label i hi
  change (p.nodes i).module < t + 1 at h1
  change (p.nodes i).module < t
  rcases Nat.lt_succ_iff_lt_or_eq.1 h1 with h2 | h2
  · exact h2
  · have := (h.mem t (Nat.lt_succ_self t) i).2 ⟨hi, h2⟩
    rw [ht] at this; simp at this

theorem WF.moveDown {p seq t e} (h : WF (below (t + 1) seq p) seq) (he : e < t) (hee : seq e = []) :
    let p1 := relabel (seq t) e p
    let p2 := { p1 with modules := Function.update p1.modules e { p1.modules t with id := e } }
    WF (below t (Function.update seq e (seq t)) p2) (Function.update seq e (seq t)) ∧
      p2.N = p.N ∧ (∀ i, (p2.nodes i).strength = (p.nodes i).strength) ∧
      ∀ i < p.N, (p2.nodes i).module = if (p.nodes i).module = t then e else (p.nodes i).module := by
  intro p1 p2
  have ht : t < t + 1 := Nat.lt_succ_self t
  have hnodes : ∀ x, p2.nodes x = if x ∈ seq t then { p.nodes x with module := e } else p.nodes x :=
    fun x => relabel_nodes (seq t) e p x
  have hmods : ∀ m, p2.modules m = if m = e then { p.modules t with id := e } else p.modules m := by
    intro m
    change Function.update p1.modules e { p1.modules t with id := e } m = _
    rw [Function.update_apply, show p1.modules = p.modules from relabel_modules _ _ _]
  have hN : p2.N = p.N := (relabel_sizes (seq t) e p).1
  have hnx : nx p2 = nx p := by
    funext x; simp only [nx, hnodes]; split_ifs <;> rfl
  have hpv : pv p2 = pv p := by
    funext x; simp only [pv, hnodes]; split_ifs <;> rfl
  have hmem : ∀ x, x ∈ seq t ↔ x < p.N ∧ (p.nodes x).module = t := h.mem t ht
  have hstr : ∀ i, (p2.nodes i).strength = (p.nodes i).strength := by
    intro i; rw [hnodes]; split_ifs <;> rfl
  have hlab : ∀ i < p.N, (p2.nodes i).module =
      if (p.nodes i).module = t then e else (p.nodes i).module := by
    intro i hi
    rw [hnodes]
    by_cases hh : (p.nodes i).module = t
    · rw [if_pos ((hmem i).2 ⟨hi, hh⟩), if_pos hh]
    · rw [if_neg (fun hx => hh ((hmem i).1 hx).2), if_neg hh]
  refine ⟨⟨⟨?_, ?_, ?_⟩, ?_, ?_, ?_, ?_, ?_, ?_, rfl⟩, hN, hstr, hlab⟩
  · intro m hm
    change m < t at hm
    change Seg (nx p2) (pv p2) none (p2.modules m).first _ none (p2.modules m).last
    rw [hnx, hpv, hmods]
    by_cases hme : m = e
    · subst hme
      simp only [if_true, Function.update_self]
      exact h.seg t ht
    · rw [if_neg hme, Function.update_of_ne hme]
      exact h.seg m (Nat.lt_succ_of_lt hm)
  · intro m hm
    change m < t at hm
    by_cases hme : m = e
    · subst hme; simp only [Function.update_self]; exact h.nodup t ht
    · rw [Function.update_of_ne hme]; exact h.nodup m (Nat.lt_succ_of_lt hm)
  · intro m hm m' hm' x hx hx'
    change m < t at hm
    change m' < t at hm'
    have key : ∀ m < t, x ∈ Function.update seq e (seq t) m → (m = e ∧ x ∈ seq t) ∨ x ∈ seq m := by
      intro m hm hx
      by_cases hme : m = e
      · subst hme; left; simpa using hx
      · right; rwa [Function.update_of_ne hme] at hx
    rcases key m hm hx with ⟨h1, h2⟩ | h1 <;> rcases key m' hm' hx' with ⟨h1', h2'⟩ | h1'
    · rw [h1, h1']
    · have := h.disj m' (Nat.lt_succ_of_lt hm') t ht x h1' h2; omega
    · have := h.disj m (Nat.lt_succ_of_lt hm) t ht x h1 h2'; omega
    · exact h.disj m (Nat.lt_succ_of_lt hm) m' (Nat.lt_succ_of_lt hm') x h1 h1'
  · intro i hi
    change i < p2.N at hi
    rw [hN] at hi
    change (p2.nodes i).id = i
    rw [hnodes]
    have := h.nodeId i hi
    change (p.nodes i).id = i at this
    split_ifs <;> exact this
  · intro m hm
    change m < t at hm
    change (p2.modules m).id = m
    rw [hmods]
    by_cases hme : m = e
    · simp [hme]
    · rw [if_neg hme]; exact h.moduleId m (Nat.lt_succ_of_lt hm)
  · intro i hi
    change i < p2.N at hi
    rw [hN] at hi
    change (p2.nodes i).module < t
    rw [hlab i hi]
    have := h.label i hi
    change (p.nodes i).module < t + 1 at this
    split_ifs
    · exact he
    · omega
  · intro m hm x
    change m < t at hm
    change _ ↔ x < p2.N ∧ (p2.nodes x).module = m
    rw [hN]
    by_cases hme : m = e
    · subst hme
      simp only [Function.update_self]
      rw [hmem]
      constructor
      · rintro ⟨h1, h2⟩; refine ⟨h1, ?_⟩; rw [hlab x h1, if_pos h2]
      · rintro ⟨h1, h2⟩
        rw [hlab x h1] at h2
        refine ⟨h1, ?_⟩
        by_contra hne
        rw [if_neg hne] at h2
        have := (h.mem m (Nat.lt_succ_of_lt hm) x).2 ⟨h1, h2⟩
        rw [hee] at this; simp at this
    · rw [Function.update_of_ne hme, h.mem m (Nat.lt_succ_of_lt hm)]
      change x < p.N ∧ (p.nodes x).module = m ↔ _
      constructor
      · rintro ⟨h1, h2⟩; refine ⟨h1, ?_⟩; rw [hlab x h1, if_neg (by omega)]; exact h2
      · rintro ⟨h1, h2⟩
        rw [hlab x h1] at h2
        refine ⟨h1, ?_⟩
        split_ifs at h2 with hc
        · omega
        · exact h2
  · intro m hm
    change m < t at hm
    change (p2.modules m).size = _
    rw [hmods]
    by_cases hme : m = e
    · subst hme; simp only [if_true, Function.update_self]; exact h.size t ht
    · rw [if_neg hme, Function.update_of_ne hme]; exact h.size m (Nat.lt_succ_of_lt hm)
  · intro m hm
    change m < t at hm
    change (p2.modules m).strength = (List.map (fun i => (p2.nodes i).strength) _).sum
    simp only [hstr]
    rw [hmods]
    by_cases hme : m = e
    · subst hme; simp only [if_true, Function.update_self]; exact h.strength t ht
    · rw [if_neg hme, Function.update_of_ne hme]; exact h.strength m (Nat.lt_succ_of_lt hm)

/-- Loop invariant of the second loop of `CompressPartition` once all indices `≥ t` have been
processed. `p0` is the input partition, `M` the final number of modules. -/
structure CInv (p0 : Partition) (M : ℕ) (E : List ℕ) (t : ℕ) (s : CompressState)
    (seq : ℕ → List ℕ) : Prop where
  wf : WF (below t seq s.p) seq
  N : s.p.N = p0.N
  strength : ∀ i, (s.p.nodes i).strength = (p0.nodes i).strength
  freed : ∀ m < t, s.freed m = true ↔ seq m = []
  empties : (List.range t).filter (fun m => seq m = []) = (E.drop s.j).filter (fun m => m < t)
  count : emptyCount t seq + M = t
  same : ∀ i < p0.N, ∀ j < p0.N, (s.p.nodes i).module = (s.p.nodes j).module ↔
    (p0.nodes i).module = (p0.nodes j).module
  keep : ∀ i < p0.N, (p0.nodes i).module < M → (s.p.nodes i).module = (p0.nodes i).module

theorem emptyCount_succ (t seq) : emptyCount (t + 1) seq =
    emptyCount t seq + (if seq t = [] then 1 else 0) := by
  unfold emptyCount; rw [Finset.sum_range_succ]

theorem emptyCount_filter (t seq) :
    emptyCount t seq = ((List.range t).filter (fun m => seq m = [])).length := by
  induction t with
  | zero => simp [emptyCount]
  | succ t ih =>
    rw [emptyCount_succ, ih, List.range_succ, List.filter_append, List.length_append]
    by_cases h : seq t = [] <;> simp [h]

theorem CInv.step {p0 M E t s seq} (h : CInv p0 M E (t + 1) s seq) (hE : E.Pairwise (· < ·))
    (hMt : M ≤ t) :
    ∃ s' seq', compressStep E s t = some s' ∧ CInv p0 M E t s' seq' := by
  have ht : t < t + 1 := Nat.lt_succ_self t
  by_cases hz : seq t = []
  · -- slot already NULL
    have hf : s.freed t = true := (h.freed t ht).2 hz
    refine ⟨s, seq, ?_, ?_⟩
    · simp [compressStep, hf]
    · refine ⟨h.wf.drop hz, h.N, h.strength, fun m hm => h.freed m (by omega), ?_, ?_, h.same, h.keep⟩
      · have := h.empties
        rw [List.range_succ, List.filter_append] at this
        simp only [List.filter_cons, hz, decide_true, if_true, List.filter_nil] at this
        have h2 := congrArg (List.filter (fun m => decide (m < t))) this
        rw [List.filter_append, List.filter_filter, List.filter_filter] at h2
        simp at h2
        have e1 : List.filter (fun a => decide (a < t) && decide (seq a = [])) (List.range t) =
            List.filter (fun a => decide (seq a = [])) (List.range t) := by
          refine List.filter_congr fun x hx => ?_
          simp at hx; simp [hx]
        have e2 : List.filter (fun a => decide (a < t) && decide (a < t + 1)) (List.drop s.j E) =
            List.filter (fun a => decide (a < t)) (List.drop s.j E) := by
          refine List.filter_congr fun x hx => ?_
          by_cases hx : x < t
          · simp [hx, Nat.lt_succ_of_lt hx]
          · simp [hx]
        rw [e1, e2] at h2
        exact h2
      · have := h.count
        rw [emptyCount_succ, if_pos hz] at this; omega
  · -- move module t to the next free slot
    have hf : s.freed t = false := by
      have := (h.freed t ht).not.2 hz; simpa using this
    -- the next empty slot
    have hcount := h.count
    rw [emptyCount_succ, if_neg hz, emptyCount_filter] at hcount
    have hemp := h.empties
    rw [List.range_succ, List.filter_append] at hemp
    simp only [List.filter_cons, hz, decide_false, List.filter_nil, List.append_nil,
      Bool.false_eq_true, if_false] at hemp
    obtain ⟨e, E', hEd⟩ : ∃ e E', E.drop s.j = e :: E' := by
      cases hd : E.drop s.j with
      | nil =>
        rw [hd] at hemp; simp only [List.filter_nil] at hemp; rw [hemp] at hcount; simp at hcount; omega
      | cons e E' => exact ⟨e, E', rfl⟩
    have hEs : (e :: E').Pairwise (· < ·) := hEd ▸ hE.sublist (List.drop_sublist _ _)
    have hEl : ∀ x ∈ E', e < x := (List.pairwise_cons.1 hEs).1
    have het1 : e < t + 1 := by
      by_contra hge
      have : (E.drop s.j).filter (fun m => decide (m < t + 1)) = [] := by
        rw [hEd, List.filter_eq_nil_iff]
        intro x hx
        rcases List.mem_cons.1 hx with rfl | hx
        · simpa using hge
        · have := hEl x hx; simp; omega
      rw [this] at hemp; rw [hemp] at hcount; simp at hcount; omega
    have hein : e ∈ (List.range t).filter (fun m => decide (seq m = [])) := by
      rw [hemp, hEd]; simp [het1]
    simp only [List.mem_filter, List.mem_range, decide_eq_true_eq] at hein
    obtain ⟨het, hee⟩ := hein
    have hidx : E[s.j]? = some e := by
      have : (E.drop s.j)[0]? = some e := by rw [hEd]; rfl
      simpa using this
    have hdrop : E.drop (s.j + 1) = E' := by
      rw [← List.drop_drop, hEd]; rfl
    have hmn : moduleNodes s.p t = some (seq t) := h.wf.moduleNodes ht
    obtain ⟨hw, hN, hstr, hlab⟩ := h.wf.moveDown het hee
    set p1 := relabel (seq t) e s.p with hp1
    refine ⟨{ p := { p1 with modules := Function.update p1.modules e { p1.modules t with id := e } },
              freed := Function.update s.freed e false, j := s.j + 1 },
      Function.update seq e (seq t), ?_, ⟨hw, hN.trans h.N, ?_, ?_, ?_, ?_, ?_, ?_⟩⟩
    · simp only [compressStep, hf, Bool.false_eq_true, if_false, hmn, hidx]
      rfl
    · intro i; exact (hstr i).trans (h.strength i)
    · intro m hm
      simp only [Function.update_apply]
      by_cases hme : m = e
      · simp [hme, hz]
      · simp [hme, h.freed m (by omega)]
    · simp only
      rw [hdrop]
      have h2 := congrArg (List.filter (fun m => decide (m ≠ e))) hemp
      rw [hEd, List.filter_filter, List.filter_filter] at h2
      simp only [List.filter_cons, ne_eq, not_true_eq_false, decide_false, Bool.false_and,
        Bool.false_eq_true, if_false] at h2
      have e1 : List.filter (fun m => decide (Function.update seq e (seq t) m = [])) (List.range t) =
          List.filter (fun a => decide (¬a = e) && decide (seq a = [])) (List.range t) := by
        refine List.filter_congr fun x hx => ?_
        by_cases hxe : x = e
        · simp [hxe, hz]
        · simp [hxe]
      rw [e1, h2]
      refine List.filter_congr fun x hx => ?_
      have hxe := hEl x hx
      have hxt : x ≠ t := by
        rintro rfl
        -- t would be listed as empty
        have : x ∈ (E.drop s.j).filter (fun m => decide (m < x + 1)) := by
          rw [hEd]; simp [hx]
        rw [← hemp] at this
        simp at this
      have : x ≠ e := by omega
      simp [this]; omega
    · have hu := @emptyCount_update t seq e (seq t) het
      rw [hee] at hu
      simp [hz] at hu
      rw [← emptyCount_filter] at hcount
      omega
    · intro i hi j hj
      have hi' : i < s.p.N := h.N ▸ hi
      have hj' : j < s.p.N := h.N ▸ hj
      rw [hlab i hi', hlab j hj', ← h.same i hi j hj]
      have hne : ∀ x < s.p.N, (s.p.nodes x).module ≠ e := by
        intro x hx hxe
        have := (h.wf.mem e (by change e < t + 1; omega) x).2 ⟨hx, hxe⟩
        rw [hee] at this; simp at this
      have h1 := hne i hi'
      have h2 := hne j hj'
      split_ifs with c1 c2 c2
      · simp [c1, c2]
      · constructor
        · intro hh; exact absurd hh.symm h2
        · intro hh; exact absurd (hh ▸ c1) c2
      · constructor
        · intro hh; exact absurd hh h1
        · intro hh; exact absurd (hh ▸ c2) c1
      · rfl
    · intro i hi hlt
      have hi' : i < s.p.N := h.N ▸ hi
      rw [hlab i hi', h.keep i hi hlt, if_neg (by omega)]

theorem compress_loop {p0 M E} (hE : E.Pairwise (· < ·)) : ∀ (d : ℕ) (s : CompressState)
    (seq : ℕ → List ℕ), CInv p0 M E (M + d) s seq →
    ∃ s' seq', ((List.range' M d).reverse).foldlM (compressStep E) s = some s' ∧
      CInv p0 M E M s' seq' := by
  intro d
  induction d with
  | zero => intro s seq h; exact ⟨s, seq, rfl, h⟩
  | succ d ih =>
    intro s seq h
    obtain ⟨s1, seq1, hr, h1⟩ := CInv.step (t := M + d) h hE (by omega)
    obtain ⟨s2, seq2, hr2, h2⟩ := ih s1 seq1 h1
    refine ⟨s2, seq2, ?_, h2⟩
    rw [List.range'_concat, List.reverse_append, List.reverse_singleton, List.singleton_append,
      List.foldlM_cons]
    simp only [one_mul]
    rw [hr]; exact hr2

theorem emptyCount_le (t seq) : emptyCount t seq ≤ t := by
  rw [emptyCount_filter]
  exact (List.length_filter_le _ _).trans (by simp)

theorem CompressPartition_spec {p seq} (h : WF p seq) (hN : 0 < p.N) :
    ∃ p' seq', CompressPartition p = some p' ∧ WF p' seq' ∧ p'.N = p.N ∧
      p'.M = p.M - p.nempty ∧ p'.nempty = 0 ∧
      (∀ i, (p'.nodes i).strength = (p.nodes i).strength) ∧
      (∀ i < p.N, ∀ j < p.N, (p'.nodes i).module = (p'.nodes j).module ↔
        (p.nodes i).module = (p.nodes j).module) ∧
      (∀ i < p.N, (p.nodes i).module < p.M - p.nempty → (p'.nodes i).module = (p.nodes i).module) := by
  unfold CompressPartition
  by_cases h0 : p.nempty = 0
  · refine ⟨p, seq, by simp [h0], h, rfl, by simp [h0], h0, fun _ => rfl, fun _ _ _ _ => Iff.rfl,
      fun _ _ _ => rfl⟩
  · have hle : p.nempty ≤ p.M := by rw [h.empty]; exact emptyCount_le _ _
    have hsz : ∀ m < p.M, (p.modules m).size = 0 ↔ seq m = [] := by
      intro m hm; rw [h.size m hm, List.length_eq_zero_iff]
    set E := (List.range p.M).filter (fun m => decide ((p.modules m).size = 0)) with hE
    have hE2 : E = (List.range p.M).filter (fun m => decide (seq m = [])) := by
      refine List.filter_congr fun x hx => ?_
      simp only [List.mem_range] at hx
      simp [hsz x hx]
    have hlen : E.length = p.nempty := by rw [hE2, h.empty, emptyCount_filter]
    have hpos : p.M - p.nempty ≠ 0 := by
      intro hh
      have hall : p.nempty = p.M := by omega
      -- node 0 is in some module
      have hl := h.label 0 hN
      have hm := (h.mem _ hl 0).2 ⟨hN, rfl⟩
      have : E.length < (List.range p.M).length := by
        rw [hE2]
        refine List.length_filter_lt_length_iff_exists.2 ⟨_, List.mem_range.2 hl, ?_⟩
        simp only [decide_eq_true_eq]
        intro hc; rw [hc] at hm; simp at hm
      simp at this; omega
    have hEp : E.Pairwise (· < ·) := List.Pairwise.filter _ List.pairwise_lt_range
    have hinit : CInv p (p.M - p.nempty) E (p.M - p.nempty + p.nempty)
        { p := p, freed := fun m => decide ((p.modules m).size = 0), j := 0 } seq := by
      rw [Nat.sub_add_cancel hle]
      refine ⟨?_, rfl, fun _ => rfl, ?_, ?_, ?_, fun _ _ _ _ => Iff.rfl, fun _ _ _ => rfl⟩
      · have : below p.M seq p = p := by unfold below; rw [← h.empty]
        change WF (below p.M seq p) seq
        rw [this]; exact h
      · intro m hm; simp [hsz m hm]
      · simp only [List.drop_zero]
        rw [hE2, List.filter_filter]
        refine List.filter_congr fun x hx => ?_
        simp only [List.mem_range] at hx
        simp [hx]
      · rw [← h.empty]; omega
    obtain ⟨s', seq', hr, hc⟩ := compress_loop hEp _ _ _ hinit
    have hM' : p.M - (p.M - p.nempty) = p.nempty := by omega
    have hz : emptyCount (p.M - p.nempty) seq' = 0 := by have := hc.count; omega
    refine ⟨{ s'.p with nempty := 0, M := p.M - p.nempty }, seq', ?_, ?_, hc.N, rfl, rfl,
      hc.strength, hc.same, hc.keep⟩
    · simp only [h0, if_false, show ¬ p.M < p.nempty by omega, hM']
      simp only [show ¬ p.nempty < E.length by omega, hpos, if_false, hr]
      rfl
    · have := hc.wf
      unfold below at this
      rw [hz] at this
      exact this

end NC
