import Verif.NC.WF

/-! # MergeModules preserves the invariant (helper lemmas) -/

set_option linter.unusedSimpArgs false

namespace NC

theorem relabel_modules (l g p) : (relabel l g p).modules = p.modules := by
  unfold relabel
  induction l generalizing p with
  | nil => rfl
  | cons a l ih => simp only [List.foldl_cons]; rw [ih]; rfl

theorem relabel_sizes (l g p) : (relabel l g p).N = p.N ∧ (relabel l g p).M = p.M ∧
    (relabel l g p).nempty = p.nempty := by
  unfold relabel
  induction l generalizing p with
  | nil => exact ⟨rfl, rfl, rfl⟩
  | cons a l ih => simp only [List.foldl_cons]; exact ih _

theorem relabel_nodes (l g p x) : (relabel l g p).nodes x =
    if x ∈ l then { p.nodes x with module := g } else p.nodes x := by
  unfold relabel
  induction l generalizing p with
  | nil => simp
  | cons a l ih =>
    simp only [List.foldl_cons]
    rw [ih, setNode_nodes]
    by_cases hxa : x = a
    · subst hxa; by_cases hx : x ∈ l <;> simp [hx]
    · simp [hxa]

/-- Joining two lists. `p'` is described pointwise. -/
theorem Links.join {p p' : Partition} {seq : ℕ → List ℕ} {small large lf sl : ℕ}
    (h : Links p seq) (hs : small < p.M) (hl : large < p.M) (hne : small ≠ large)
    (hlf : (p.modules large).first = some lf) (hsl : (p.modules small).last = some sl)
    (hM : p'.M = p.M)
    (hnx : ∀ x, nx p' x = if x = sl then some lf else nx p x)
    (hpv : ∀ x, pv p' x = if x = lf then some sl else pv p x)
    (hfl : (p'.modules large).first = (p.modules small).first)
    (hll : (p'.modules large).last = (p.modules large).last)
    (hfs : (p'.modules small).first = none)
    (hls : (p'.modules small).last = none)
    (hfo : ∀ m, m ≠ small → m ≠ large → (p'.modules m).first = (p.modules m).first)
    (hlo : ∀ m, m ≠ small → m ≠ large → (p'.modules m).last = (p.modules m).last) :
    Links p' (Function.update (Function.update seq small []) large (seq small ++ seq large)) := by
  have segS := h.seg small hs
  have segL := h.seg large hl
  have ndS := h.nodup small hs
  have ndL := h.nodup large hl
  have hdisj : ∀ x, x ∈ seq small → x ∈ seq large → False :=
    fun x h1 h2 => hne (h.disj small hs large hl x h1 h2)
  obtain ⟨ls, hS⟩ : ∃ ls, seq small = ls ++ [sl] := by
    rcases List.eq_nil_or_concat (seq small) with h0 | ⟨l, b, hb⟩
    · rw [h0] at segS; obtain ⟨_, h2⟩ := segS; rw [hsl] at h2; simp at h2
    · rw [List.concat_eq_append] at hb
      rw [hb, Seg.snoc] at segS
      obtain ⟨_, _, _, _, h4⟩ := segS
      rw [hsl] at h4; simp at h4; subst h4; exact ⟨l, hb⟩
  obtain ⟨ll, hL⟩ : ∃ ll, seq large = lf :: ll := by
    cases hc : seq large with
    | nil => rw [hc] at segL; obtain ⟨h1, _⟩ := segL; rw [hlf] at h1; simp at h1
    | cons c l =>
      rw [hc] at segL; have := segL.1; rw [hlf] at this; simp at this; subst this; exact ⟨l, rfl⟩
  have slS : sl ∈ seq small := by rw [hS]; simp
  have lfL : lf ∈ seq large := by rw [hL]; simp
  refine ⟨?_, ?_, ?_⟩
  · intro m hm
    rw [hM] at hm
    by_cases hml : m = large
    · subst hml
      simp only [Function.update_self]
      rw [Seg.append, hfl, hll]
      refine ⟨some lf, some sl, ?_, ?_⟩
      · rw [hS] at segS ndS ⊢
        rw [hsl] at segS
        refine Seg.retarget _ segS ?_ ?_ ?_ ?_
        · intro x hx
          rw [hnx, if_neg]
          rintro rfl
          rw [List.nodup_append] at ndS
          exact ndS.2.2 x hx x (by simp) rfl
        · intro x hx
          rw [hpv, if_neg]
          rintro rfl
          exact hdisj x (by rw [hS]; simp [hx]) lfL
        · rw [hpv, if_neg]
          rintro rfl
          exact hdisj sl slS lfL
        · rw [hnx]; simp
      · rw [hlf] at segL
        rw [hL] at segL ndL ⊢
        refine Seg.rehead _ segL ?_ ?_ ?_ ?_
        · intro x hx
          rw [hnx, if_neg]
          rintro rfl
          exact hdisj x slS (by rw [hL]; simp [hx])
        · intro x hx
          rw [hpv, if_neg]
          rintro rfl
          exact (List.nodup_cons.1 ndL).1 hx
        · rw [hnx, if_neg]
          rintro rfl
          exact hdisj lf slS lfL
        · rw [hpv]; simp
    · rw [Function.update_of_ne hml]
      by_cases hms : m = small
      · subst hms
        simp only [Function.update_self]
        rw [hfs, hls]; exact ⟨rfl, rfl⟩
      · rw [Function.update_of_ne hms, hfo m hms hml, hlo m hms hml]
        refine (h.seg m hm).frame ?_ ?_
        · intro x hx
          rw [hnx, if_neg]
          rintro rfl
          exact hms (h.disj m hm small hs x hx slS)
        · intro x hx
          rw [hpv, if_neg]
          rintro rfl
          exact hml (h.disj m hm large hl x hx lfL)
  · intro m hm
    rw [hM] at hm
    by_cases hml : m = large
    · subst hml
      simp only [Function.update_self]
      rw [List.nodup_append]
      exact ⟨ndS, ndL, fun x hx y hy hxy => hdisj x hx (hxy ▸ hy)⟩
    · rw [Function.update_of_ne hml]
      by_cases hms : m = small
      · subst hms; simp
      · rw [Function.update_of_ne hms]; exact h.nodup m hm
  · rw [hM]
    intro m hm m' hm' x hx hx'
    have key : ∀ m < p.M, x ∈ Function.update (Function.update seq small []) large
        (seq small ++ seq large) m → (m = large ∧ (x ∈ seq small ∨ x ∈ seq large)) ∨
          (m ≠ large ∧ m ≠ small ∧ x ∈ seq m) := by
      intro m hm hx
      by_cases hml : m = large
      · subst hml; left; simpa using hx
      · right
        rw [Function.update_of_ne hml] at hx
        by_cases hms : m = small
        · subst hms; simp at hx
        · rw [Function.update_of_ne hms] at hx; exact ⟨hml, hms, hx⟩
    rcases key m hm hx with ⟨h1, h2⟩ | ⟨h1, h2, h3⟩ <;>
      rcases key m' hm' hx' with ⟨h1', h2'⟩ | ⟨h1', h2', h3'⟩
    · rw [h1, h1']
    · exfalso; rcases h2 with h2 | h2
      · exact h2' (h.disj m' hm' small hs x h3' h2)
      · exact h1' (h.disj m' hm' large hl x h3' h2)
    · exfalso; rcases h2' with h2' | h2'
      · exact h2 (h.disj m hm small hs x h3 h2')
      · exact h1 (h.disj m hm large hl x h3 h2')
    · exact h.disj m hm m' hm' x h3 h3'

/-- The straight-line part of `MergeModules` for a given choice of `small`/`large`. -/
def mergeBody (small large : ℕ) (p : Partition) : Option Partition := do
  let l ← moduleNodes p small
  let p := relabel l (p.modules large).id p
  let p := { p with nempty := p.nempty + 1 }
  let p := setModule large (fun m => { m with size := m.size + (p.modules small).size }) p
  let p := setModule small (fun m => { m with size := 0 }) p
  let p := setModule large (fun m => { m with strength := m.strength + (p.modules small).strength }) p
  let p := setModule small (fun m => { m with strength := 0 }) p
  let lf ← (p.modules large).first
  let p := setNode lf (fun n => { n with prev := (p.modules small).last }) p
  let sl ← (p.modules small).last
  let p := setNode sl (fun n => { n with next := (p.modules large).first }) p
  let p := setModule large (fun m => { m with first := (p.modules small).first }) p
  let p := setModule small (fun m => { m with last := none }) p
  let p := setModule small (fun m => { m with first := none }) p
  return p

theorem MergeModules_eq {id1 id2 : ℕ} {p : Partition} (h1 : id1 < p.M) (h2 : id2 < p.M) :
    MergeModules id1 id2 p =
      if (p.modules id1).size = 0 ∨ (p.modules id2).size = 0 then some p
      else if (p.modules id1).size > (p.modules id2).size then mergeBody id2 id1 p
      else mergeBody id1 id2 p := by
  unfold MergeModules mergeBody
  simp only [h1, h2, not_true_eq_false, if_false]
  by_cases hz : (p.modules id1).size = 0 ∨ (p.modules id2).size = 0
  · simp [hz]
  · simp only [hz, if_false]
    by_cases hg : (p.modules id1).size > (p.modules id2).size
    · simp only [hg, if_true]
    · simp only [hg, if_false]

theorem mergeBody_spec {p seq small large} (h : WF p seq) (hs : small < p.M) (hl : large < p.M)
    (hne : small ≠ large) (nS : seq small ≠ []) (nL : seq large ≠ []) :
    ∃ p', mergeBody small large p = some p' ∧
      WF p' (Function.update (Function.update seq small []) large (seq small ++ seq large)) ∧
      Relabelled p p' (fun i => if (p.nodes i).module = small then large else (p.nodes i).module) := by
  have segS := h.seg small hs
  have segL := h.seg large hl
  obtain ⟨sl, hsl⟩ : ∃ sl, (p.modules small).last = some sl := by
    rcases List.eq_nil_or_concat (seq small) with h0 | ⟨l, b, hb⟩
    · exact absurd h0 nS
    · rw [List.concat_eq_append] at hb
      rw [hb, Seg.snoc] at segS
      obtain ⟨_, _, _, _, h4⟩ := segS
      exact ⟨b, h4⟩
  obtain ⟨lf, hlf⟩ : ∃ lf, (p.modules large).first = some lf := by
    cases hc : seq large with
    | nil => exact absurd hc nL
    | cons c l => rw [hc] at segL; exact ⟨c, segL.1⟩
  have hne' : large ≠ small := hne.symm
  have hrun : ∃ p', mergeBody small large p = some p' ∧ p'.N = p.N ∧ p'.M = p.M ∧
      p'.nempty = p.nempty + 1 ∧
      (∀ x, nx p' x = if x = sl then some lf else nx p x) ∧
      (∀ x, pv p' x = if x = lf then some sl else pv p x) ∧
      (∀ x, (p'.nodes x).id = (p.nodes x).id) ∧
      (∀ x, (p'.nodes x).strength = (p.nodes x).strength) ∧
      (∀ x, (p'.nodes x).module = if x ∈ seq small then large else (p.nodes x).module) ∧
      (∀ m, p'.modules m = if m = large then
        { p.modules large with size := (p.modules large).size + (p.modules small).size,
                               strength := (p.modules large).strength + (p.modules small).strength,
                               first := (p.modules small).first }
        else if m = small then
        { p.modules small with size := 0, strength := 0, first := none, last := none }
        else p.modules m) := by
    have hLid := h.moduleId large hl
    unfold mergeBody
    rw [h.moduleNodes hs]
    simp only [Option.bind_eq_bind, Option.bind_some, setModule_modules, relabel_modules,
      hne, hne', if_true, if_false, hlf, setNode_modules, hsl, h.moduleId large hl]
    refine ⟨_, rfl, ?_, ?_, ?_, ?_, ?_, ?_, ?_, ?_, ?_⟩
    · simp [relabel_sizes]
    · simp [relabel_sizes]
    · simp [relabel_sizes]
    · intro x
      simp only [nx, setModule_nodes, setNode_nodes, relabel_nodes]
      split_ifs <;> simp_all
    · intro x
      simp only [pv, setModule_nodes, setNode_nodes, relabel_nodes]
      split_ifs <;> simp_all
    · intro x
      simp only [pv, setModule_nodes, setNode_nodes, relabel_nodes]
      split_ifs <;> simp_all
    · intro x
      simp only [pv, setModule_nodes, setNode_nodes, relabel_nodes]
      split_ifs <;> simp_all
    · intro x
      simp only [pv, setModule_nodes, setNode_nodes, relabel_nodes]
      split_ifs <;> simp_all
    · intro m
      simp only [setModule_modules, setNode_modules, relabel_modules]
      split_ifs <;> simp_all
  obtain ⟨p', hrun, hN, hM, hE, hnx, hpv, hid, hstr, hmod, hmods⟩ := hrun
  have hmemS : ∀ x, x < p.N → (x ∈ seq small ↔ (p.nodes x).module = small) := by
    intro x hx; rw [h.mem small hs]; simp [hx]
  refine ⟨p', hrun, ⟨?_, ?_, ?_, ?_, ?_, ?_, ?_, ?_⟩, ⟨hN, hM, hstr, ?_⟩⟩
  · refine h.toLinks.join hs hl hne hlf hsl hM hnx hpv ?_ ?_ ?_ ?_ ?_ ?_
    · rw [hmods]; simp
    · rw [hmods]; simp
    · rw [hmods]; simp [hne]
    · rw [hmods]; simp [hne]
    · intro m h1 h2; rw [hmods]; simp [h1, h2]
    · intro m h1 h2; rw [hmods]; simp [h1, h2]
  · intro x hx; rw [hid]; exact h.nodeId x (hN ▸ hx)
  · intro m hm; rw [hM] at hm; rw [hmods]
    by_cases h1 : m = large
    · subst h1; simp [h.moduleId m hm]
    · by_cases h2 : m = small
      · subst h2; simp [h1, h.moduleId m hm]
      · simp [h1, h2, h.moduleId m hm]
  · intro x hx; rw [hmod, hM]; split_ifs
    · exact hl
    · exact h.label x (hN ▸ hx)
  · intro m hm x
    rw [hM] at hm
    rw [hN, hmod]
    have hx' : x ∈ seq small → x < p.N := fun hh => ((h.mem small hs x).1 hh).1
    by_cases h1 : m = large
    · subst h1
      simp only [Function.update_self, List.mem_append, h.mem small hs, h.mem m hm]
      split_ifs with hh <;> tauto
    · rw [Function.update_of_ne h1]
      by_cases h2 : m = small
      · subst h2
        simp only [Function.update_self, h.mem m hm]
        split_ifs with hh
        · simp; intro _; exact fun hh => h1 hh.symm
        · simp; tauto
      · simp only [Function.update_of_ne h2, h.mem m hm, h.mem small hs]
        split_ifs with hh
        · constructor
          · rintro ⟨_, h3⟩; exact absurd (h3 ▸ hh.2) h2
          · rintro ⟨_, h3⟩; exact absurd h3.symm h1
        · rfl
  · intro m hm
    rw [hM] at hm
    rw [hmods]
    by_cases h1 : m = large
    · subst h1; simp [h.size m hm, h.size small hs]; omega
    · by_cases h2 : m = small
      · subst h2; simp [h1]
      · simp [h1, h2, h.size m hm]
  · intro m hm
    rw [hM] at hm
    rw [hmods]
    simp only [hstr]
    by_cases h1 : m = large
    · subst h1; simp [h.strength m hm, h.strength small hs]; ring
    · by_cases h2 : m = small
      · subst h2; simp [h1]
      · simp [h1, h2, h.strength m hm]
  · rw [hE, hM, h.empty]
    have e1 := @emptyCount_update p.M seq small [] hs
    have e2 := @emptyCount_update p.M (Function.update seq small []) large (seq small ++ seq large) hl
    rw [Function.update_of_ne hne'] at e2
    simp [nS] at e1
    simp [nS, nL] at e2
    omega
  · intro x hx
    rw [hmod]; simp only [hmemS x hx]

/-- `MergeModules` on a well-formed partition. -/
theorem MergeModules_spec {p seq id1 id2} (h : WF p seq) (h1 : id1 < p.M) (h2 : id2 < p.M)
    (hne : id1 ≠ id2) :
    ∃ p' seq' small large, MergeModules id1 id2 p = some p' ∧ WF p' seq' ∧
      ((small = id1 ∧ large = id2) ∨ (small = id2 ∧ large = id1)) ∧
      Relabelled p p' (fun i => if seq id1 = [] ∨ seq id2 = [] then (p.nodes i).module else
        if (p.nodes i).module = small then large else (p.nodes i).module) := by
  rw [MergeModules_eq h1 h2, h.size id1 h1, h.size id2 h2]
  by_cases hz : (seq id1).length = 0 ∨ (seq id2).length = 0
  · rw [if_pos hz]
    refine ⟨p, seq, id1, id2, rfl, h, Or.inl ⟨rfl, rfl⟩, rfl, rfl, fun _ => rfl, ?_⟩
    intro i _
    simp only [List.length_eq_zero_iff] at hz
    simp [hz]
  · rw [if_neg hz]
    simp only [List.length_eq_zero_iff, not_or] at hz
    obtain ⟨n1, n2⟩ := hz
    simp only [n1, n2, or_self, if_false]
    by_cases hg : (seq id1).length > (seq id2).length
    · rw [if_pos hg]
      obtain ⟨p', hr, hw, hrel⟩ := mergeBody_spec h h2 h1 hne.symm n2 n1
      exact ⟨p', _, id2, id1, hr, hw, Or.inr ⟨rfl, rfl⟩, hrel⟩
    · rw [if_neg hg]
      obtain ⟨p', hr, hw, hrel⟩ := mergeBody_spec h h1 h2 hne n1 n2
      exact ⟨p', _, id1, id2, hr, hw, Or.inl ⟨rfl, rfl⟩, hrel⟩

end NC
