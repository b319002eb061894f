import Verif.NC.Links
import Mathlib.Algebra.BigOperators.Ring.Finset
import Mathlib.Data.List.Nodup

/-! # The list-level invariant, equivalent to `Consistent` (helper lemmas) -/

set_option linter.unusedSimpArgs false

namespace NC

/-- number of empty lists -/
def emptyCount (M : ℕ) (seq : ℕ → List ℕ) : ℕ := ∑ m ∈ Finset.range M, if seq m = [] then 1 else 0

structure WF (p : Partition) (seq : ℕ → List ℕ) : Prop extends Links p seq where
  nodeId : ∀ i < p.N, (p.nodes i).id = i
  moduleId : ∀ m < p.M, (p.modules m).id = m
  label : ∀ i < p.N, (p.nodes i).module < p.M
  mem : ∀ m < p.M, ∀ i, i ∈ seq m ↔ i < p.N ∧ (p.nodes i).module = m
  size : ∀ m < p.M, (p.modules m).size = (seq m).length
  strength : ∀ m < p.M, (p.modules m).strength = ((seq m).map (fun i => (p.nodes i).strength)).sum
  empty : p.nempty = emptyCount p.M seq

theorem toFinset_eq {p : Partition} {l : List ℕ} {m}
    (h : ∀ i, i ∈ l ↔ i < p.N ∧ (p.nodes i).module = m) :
    l.toFinset = (Finset.range p.N).filter (fun i => (p.nodes i).module = m) := by
  ext i; simp [h]

theorem WF.consistent {p seq} (h : WF p seq) : Consistent p where
  nodeId := h.nodeId
  moduleId := h.moduleId
  label := h.label
  lists := fun m hm => ⟨seq m, (h.seg m hm).walk, (h.seg m hm).walk_back rfl, h.nodup m hm, h.mem m hm⟩
  size := fun m hm => by
    rw [h.size m hm, ← toFinset_eq (h.mem m hm), List.toFinset_card_of_nodup (h.nodup m hm)]
  strength := fun m hm => by
    rw [h.strength m hm, ← toFinset_eq (h.mem m hm), List.sum_toFinset _ (h.nodup m hm)]
  empty := by
    rw [h.empty, emptyCount, Finset.card_filter]
    refine Finset.sum_congr rfl fun m hm => ?_
    have hm' := Finset.mem_range.1 hm
    have : seq m = [] ↔ ∀ i < p.N, (p.nodes i).module ≠ m := by
      rw [List.eq_nil_iff_forall_not_mem]
      constructor
      · intro hh i hi he; exact hh i ((h.mem m hm' i).2 ⟨hi, he⟩)
      · intro hh i hi; obtain ⟨h1, h2⟩ := (h.mem m hm' i).1 hi; exact hh i h1 h2
    simp only [this]

theorem Consistent.wf {p} (h : Consistent p) : ∃ seq, WF p seq := by
  classical
  choose! seq hs using h.lists
  have key : ∀ m < p.M, seq m = [] ↔ ∀ i < p.N, (p.nodes i).module ≠ m := by
    intro m hm
    rw [List.eq_nil_iff_forall_not_mem]
    constructor
    · intro hh i hi he; exact hh i (((hs m hm).2.2.2 i).2 ⟨hi, he⟩)
    · intro hh i hi; obtain ⟨h1, h2⟩ := ((hs m hm).2.2.2 i).1 hi; exact hh i h1 h2
  refine ⟨seq, ⟨⟨fun m hm => (hs m hm).1.seg (hs m hm).2.1, fun m hm => (hs m hm).2.2.1, ?_⟩,
    h.nodeId, h.moduleId, h.label, fun m hm => (hs m hm).2.2.2, ?_, ?_, ?_⟩⟩
  · intro m hm m' hm' x hx hx'
    rw [← (((hs m hm).2.2.2 x).1 hx).2, ← (((hs m' hm').2.2.2 x).1 hx').2]
  · intro m hm
    rw [h.size m hm, ← toFinset_eq (hs m hm).2.2.2, List.toFinset_card_of_nodup (hs m hm).2.2.1]
  · intro m hm
    rw [h.strength m hm, ← toFinset_eq (hs m hm).2.2.2, List.sum_toFinset _ (hs m hm).2.2.1]
  · rw [h.empty, emptyCount, Finset.card_filter]
    refine Finset.sum_congr rfl fun m hm => ?_
    simp only [key m (Finset.mem_range.1 hm)]

theorem emptyCount_update {M seq m l} (hm : m < M) :
    emptyCount M (Function.update seq m l) + (if seq m = [] then 1 else 0) =
      emptyCount M seq + (if l = [] then 1 else 0) := by
  unfold emptyCount
  rw [← Finset.add_sum_erase _ _ (Finset.mem_range.2 hm),
    ← Finset.add_sum_erase (Finset.range M) (fun m => if seq m = [] then 1 else 0)
      (Finset.mem_range.2 hm)]
  have : ∑ x ∈ (Finset.range M).erase m, (if Function.update seq m l x = [] then 1 else 0) =
      ∑ x ∈ (Finset.range M).erase m, (if seq x = [] then 1 else 0) := by
    refine Finset.sum_congr rfl fun x hx => ?_
    rw [Function.update_of_ne (Finset.ne_of_mem_erase hx)]
  rw [this]
  simp only [Function.update_self]
  omega

theorem WF.length_le {p seq} (h : WF p seq) {m} (hm : m < p.M) : (seq m).length ≤ p.N := by
  rw [← List.toFinset_card_of_nodup (h.nodup m hm), toFinset_eq (h.mem m hm)]
  exact (Finset.card_filter_le _ _).trans (by simp)

theorem WF.moduleNodes {p seq} (h : WF p seq) {m} (hm : m < p.M) :
    moduleNodes p m = some (seq m) :=
  walk_of_Walk (h.seg m hm).walk ((h.length_le hm).trans (Nat.le_succ _))

/-- the effect of a successful edit on the labels, with everything else kept -/
structure Relabelled (p p' : Partition) (g : ℕ → ℕ) : Prop where
  N : p'.N = p.N
  M : p'.M = p.M
  strength : ∀ i, (p'.nodes i).strength = (p.nodes i).strength
  label : ∀ i < p.N, (p'.nodes i).module = g i

theorem ChangeModule_spec {p seq i new} (h : WF p seq) (hi : i < p.N) (hnew : new < p.M) :
    ∃ p' seq', ChangeModule i new p = some p' ∧ WF p' seq' ∧
      Relabelled p p' (Function.update (labelOf p) i new) := by
  have hold := h.label i hi
  have hmem := (h.mem _ hold i).2 ⟨hi, rfl⟩
  generalize hg : (p.nodes i).module = old at hold hmem
  obtain ⟨l1, l2, hl⟩ := List.append_of_mem hmem
  -- split up the counters
  have hsz := h.size old hold
  have hszpos : (p.modules old).size ≠ 0 := by rw [hsz, hl]; simp
  set p1 := setNode i (fun n => { n with module := (p.modules new).id }) p with hp1
  have hid := h.moduleId new hnew
  have hstr1 : (p1.nodes i).strength = (p.nodes i).strength := by simp [hp1, setNode_nodes]
  set s := (p.nodes i).strength with hs
  set seq1 := Function.update seq old (l1 ++ l2) with hseq1
  set seq2 := Function.update seq1 new (i :: seq1 new) with hseq2
  have ec1 : emptyCount p.M seq1 = emptyCount p.M seq + (if l1 ++ l2 = [] then 1 else 0) := by
    have := @emptyCount_update p.M seq old (l1 ++ l2) hold
    rw [hl] at this
    simpa using this
  have ec2 : emptyCount p.M seq2 + (if seq1 new = [] then 1 else 0) = emptyCount p.M seq1 := by
    have := @emptyCount_update p.M seq1 new (i :: seq1 new) hnew
    simpa using this
  have sz1 : ∀ m < p.M, (seq1 m).length = (if m = old then (p.modules m).size - 1 else (p.modules m).size) := by
    intro m hm
    by_cases hmo : m = old
    · subst hmo; simp [hseq1, hsz, hl]
    · simp [hseq1, hmo, h.size m hm]
  have hcnt : ∃ p2, moveCounters s old new p1 = some p2 ∧ SameLinks p1 p2 ∧ p2.N = p.N ∧
      p2.nodes = p1.nodes ∧ p2.nempty = emptyCount p.M seq2 ∧
      (∀ m, (p2.modules m).id = (p.modules m).id) ∧
      (∀ m < p.M, (p2.modules m).size = (seq2 m).length) ∧
      (∀ m < p.M, (p2.modules m).strength = (p.modules m).strength
        - (if m = old then s else 0) + (if m = new then s else 0)) := by
    have e1 : (p1.modules old).size = (p.modules old).size := rfl
    unfold moveCounters
    simp only [e1, hszpos, if_false]
    set pa := setModule old (fun m => { m with strength := m.strength - s, size := m.size - 1 }) p1
      with hpa
    set pb := (if (pa.modules old).size = 0 then { pa with nempty := pa.nempty + 1 } else pa) with hpb
    have hpbm : pb.modules = pa.modules := by rw [hpb]; split <;> rfl
    have hpbn : pb.nodes = p1.nodes := by rw [hpb]; split <;> rfl
    have hpbN : pb.N = p.N := by rw [hpb]; split <;> rfl
    have hpbM : pb.M = p.M := by rw [hpb]; split <;> rfl
    have hpam : ∀ m, pa.modules m = if m = old then
        { p.modules old with strength := (p.modules old).strength - s,
                              size := (p.modules old).size - 1 } else p.modules m := by
      intro m; rw [hpa, setModule_modules]; rfl
    have hpas : ∀ m < p.M, (pa.modules m).size = (seq1 m).length := by
      intro m hm; rw [sz1 m hm, hpam]; split <;> simp_all
    have hpbe : pb.nempty = emptyCount p.M seq1 := by
      have hb0 : (pa.modules old).size = 0 ↔ l1 ++ l2 = [] := by
        rw [hpas old hold, hseq1]; simp
      rw [ec1, ← h.empty, hpb]
      by_cases hz : (pa.modules old).size = 0
      · rw [if_pos hz, if_pos (hb0.1 hz)]; rfl
      · rw [if_neg hz, if_neg (fun hh => hz (hb0.2 hh))]; rfl
    have hnz : (pb.modules new).size = 0 ↔ seq1 new = [] := by
      rw [hpbm, hpas new hnew]; simp
    -- common tail
    have tail : ∀ pc : Partition, pc.modules = pb.modules → pc.nodes = pb.nodes → pc.N = pb.N →
        pc.M = pb.M → pc.nempty = emptyCount p.M seq2 →
        ∃ p2, some (setModule new (fun m =>
            { m with strength := m.strength + s, size := m.size + 1 }) pc) = some p2 ∧ SameLinks p1 p2 ∧ p2.N = p.N ∧
          p2.nodes = p1.nodes ∧ p2.nempty = emptyCount p.M seq2 ∧
          (∀ m, (p2.modules m).id = (p.modules m).id) ∧
          (∀ m < p.M, (p2.modules m).size = (seq2 m).length) ∧
          (∀ m < p.M, (p2.modules m).strength = (p.modules m).strength
            - (if m = old then s else 0) + (if m = new then s else 0)) := by
      intro pc hm hn hN hMM he
      refine ⟨_, rfl, ⟨?_, ?_, ?_, ?_, ?_⟩, ?_, ?_, ?_, ?_, ?_, ?_⟩
      · simp [hMM, hpbM, hp1]
      · intro x; simp [hn, hpbn]
      · intro x; simp [hn, hpbn]
      · intro m; rw [setModule_modules, hm, hpbm, hpam, hpam]; simp only [hp1, setNode_modules]
        split_ifs <;> simp_all
      · intro m; rw [setModule_modules, hm, hpbm, hpam, hpam]; simp only [hp1, setNode_modules]
        split_ifs <;> simp_all
      · simp [hN, hpbN]
      · simp [hn, hpbn]
      · simp [he]
      · intro m; rw [setModule_modules, hm, hpbm, hpam, hpam]
        split_ifs <;> simp_all
      · intro m hm'
        rw [setModule_modules, hm, hpbm, hseq2]
        by_cases hmn : m = new
        · subst hmn; simp [hpas m hm']
        · simp [hmn, hpas m hm']
      · intro m hm'
        rw [setModule_modules, hm, hpbm, hpam, hpam]
        split_ifs <;> simp_all
    by_cases hz : (pb.modules new).size = 0
    · have hz' := hnz.1 hz
      rw [if_pos hz'] at ec2
      have hne : pb.nempty ≠ 0 := by rw [hpbe]; omega
      simp only [hz, if_true, hne, if_false]
      exact tail _ rfl rfl rfl rfl (by simp [hpbe]; omega)
    · have hz' := fun hh => hz (hnz.2 hh)
      rw [if_neg hz'] at ec2
      simp only [hz, if_false]
      exact tail _ rfl rfl rfl rfl (by rw [hpbe]; omega)
  obtain ⟨p2, hc, hlk, hN2, hn2, he2, hid2, hsz2, hst2⟩ := hcnt
  have hlinks1 : Links p1 seq := by
    refine SameLinks.links (p := p) ⟨rfl, ?_, ?_, fun _ => rfl, fun _ => rfl⟩ h.toLinks
    · intro x; simp only [hp1, setNode_nodes]; split_ifs <;> simp_all
    · intro x; simp only [hp1, setNode_nodes]; split_ifs <;> simp_all
  have hlinks2 : Links p2 seq := hlk.links hlinks1
  have hM2 : p2.M = p.M := hlk.M
  have hlinks3 : Links (extractNode i old p2) seq1 := hlinks2.extract (hM2 ▸ hold) hl
  have hM3 := (extractNode_data i old p2).M
  have hinot : ∀ m < p.M, i ∉ seq1 m := by
    intro m hm hin
    by_cases hmo : m = old
    · subst hmo
      have := h.nodup m hm
      rw [hl, List.nodup_middle, List.nodup_cons] at this
      simp [hseq1] at hin
      simp at this
      tauto
    · rw [hseq1, Function.update_of_ne hmo] at hin
      exact hmo (by rw [← ((h.mem m hm i).1 hin).2, hg])
  have hlinks4 : Links (pushNode i new (extractNode i old p2)) seq2 :=
    hlinks3.push (by rw [hM3, hM2]; exact hnew) (by rw [hM3, hM2]; exact hinot)
  set p4 := pushNode i new (extractNode i old p2) with hp4
  have d1 := extractNode_data i old p2
  have d2 := pushNode_data i new (extractNode i old p2)
  rw [← hp4] at d2
  have hrun : ChangeModule i new p = some p4 := by
    unfold ChangeModule
    simp only [hi, not_true_eq_false, if_false, hg, hold, hnew]
    change (do let p ← moveCounters (p1.nodes i).strength old new p1
               some (pushNode i new (extractNode i old p))) = some p4
    rw [hstr1, hc]; rfl
  have hN4 : p4.N = p.N := by rw [d2.N, d1.N, hN2]
  have hM4 : p4.M = p.M := by rw [d2.M, d1.M, hM2]
  have hmod4 : ∀ x, (p4.nodes x).module = Function.update (labelOf p) i new x := by
    intro x
    rw [d2.module, d1.module, hn2, hp1, setNode_nodes]
    by_cases hx : x = i
    · subst hx; simp [hid]
    · simp [hx, labelOf]
  have hstr4 : ∀ x, (p4.nodes x).strength = (p.nodes x).strength := by
    intro x
    rw [d2.strength, d1.strength, hn2, hp1, setNode_nodes]
    split_ifs <;> simp_all
  have hid4 : ∀ x, (p4.nodes x).id = (p.nodes x).id := by
    intro x
    rw [d2.id, d1.id, hn2, hp1, setNode_nodes]
    split_ifs <;> simp_all
  have hmem4 : ∀ m < p.M, ∀ x, x ∈ seq2 m ↔ x < p.N ∧ Function.update (labelOf p) i new x = m := by
    intro m hm x
    by_cases hxi : x = i
    · subst hxi
      simp only [Function.update_self, hi, true_and]
      by_cases hmn : m = new
      · subst hmn; simp [hseq2]
      · rw [hseq2, Function.update_of_ne hmn]
        simp only [hinot m hm, false_iff]; exact fun hh => hmn hh.symm
    · rw [Function.update_of_ne hxi]
      have h1 : x ∈ seq1 m ↔ x ∈ seq m := by
        by_cases hmo : m = old
        · subst hmo; simp [hseq1, hl, hxi]
        · rw [hseq1, Function.update_of_ne hmo]
      have h2 : x ∈ seq2 m ↔ x ∈ seq1 m := by
        by_cases hmn : m = new
        · subst hmn; simp [hseq2, hxi]
        · rw [hseq2, Function.update_of_ne hmn]
      rw [h2, h1, h.mem m hm]; rfl
  refine ⟨p4, seq2, hrun, ⟨hlinks4, ?_, ?_, ?_, ?_, ?_, ?_, ?_⟩,
    ⟨hN4, hM4, hstr4, fun x _ => hmod4 x⟩⟩
  · intro x hx; rw [hid4]; exact h.nodeId x (hN4 ▸ hx)
  · intro m hm; rw [d2.mid, d1.mid, hid2]; exact h.moduleId m (hM4 ▸ hm)
  · intro x hx
    rw [hmod4, hM4]
    by_cases hxi : x = i
    · subst hxi; simpa using hnew
    · rw [Function.update_of_ne hxi]; exact h.label x (hN4 ▸ hx)
  · intro m hm x
    rw [hmem4 m (hM4 ▸ hm), hN4, hmod4]
  · intro m hm; rw [d2.msize, d1.msize, hsz2 m (hM4 ▸ hm)]
  · intro m hm
    rw [hM4] at hm
    rw [d2.mstrength, d1.mstrength, hst2 m hm, h.strength m hm]
    simp only [hstr4]
    by_cases hmn : m = new <;> by_cases hmo : m = old
    · subst hmn; subst hmo
      simp [hseq2, hseq1, hl, ← hs]; ring
    · subst hmn
      simp [hseq2, hseq1, hmo, ← hs]; ring
    · subst hmo
      simp [hseq2, hseq1, hmn, hl, ← hs]; ring
    · simp [hseq2, hseq1, hmn, hmo]
  · rw [d2.nempty, d1.nempty, he2, hM4]

end NC
