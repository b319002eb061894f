import Verif.NC.Merge

/-! # Creation, dispatch and copy (helper lemmas) -/

set_option linter.unusedSimpArgs false

namespace NC

theorem WF.congr {p p' seq} (h : WF p seq) (hN : p'.N = p.N) (hM : p'.M = p.M)
    (hE : p'.nempty = p.nempty) (hn : ∀ i < p.N, p'.nodes i = p.nodes i)
    (hm : ∀ m < p.M, p'.modules m = p.modules m) : WF p' seq := by
  have hlt : ∀ m < p.M, ∀ x ∈ seq m, x < p.N := fun m hm x hx => ((h.mem m hm x).1 hx).1
  refine ⟨⟨?_, ?_, ?_⟩, ?_, ?_, ?_, ?_, ?_, ?_, ?_⟩
  · intro m hmm
    rw [hM] at hmm
    rw [hm m hmm]
    refine (h.seg m hmm).frame ?_ ?_
    · intro x hx; simp [nx, hn x (hlt m hmm x hx)]
    · intro x hx; simp [pv, hn x (hlt m hmm x hx)]
  · rw [hM]; exact h.nodup
  · rw [hM]; exact h.disj
  · intro i hi; rw [hN] at hi; rw [hn i hi]; exact h.nodeId i hi
  · intro m hi; rw [hM] at hi; rw [hm m hi]; exact h.moduleId m hi
  · intro i hi; rw [hN] at hi; rw [hn i hi, hM]; exact h.label i hi
  · intro m hmm x; rw [hM] at hmm; rw [hN, h.mem m hmm]
    constructor
    · rintro ⟨h1, h2⟩; exact ⟨h1, by rw [hn x h1]; exact h2⟩
    · rintro ⟨h1, h2⟩; exact ⟨h1, by rw [hn x h1] at h2; exact h2⟩
  · intro m hmm; rw [hM] at hmm; rw [hm m hmm]; exact h.size m hmm
  · intro m hmm; rw [hM] at hmm; rw [hm m hmm, h.strength m hmm]
    congr 1
    refine List.map_congr_left fun x hx => ?_
    rw [hn x (hlt m hmm x hx)]
  · rw [hE, hM]; exact h.empty

theorem Seg.ptrs {nx pv : ℕ → Option ℕ} {l : List ℕ} {p f e la} (h : Seg nx pv p f l e la) :
    (∀ x, f = some x → x ∈ l ∨ e = some x) ∧ (∀ x, la = some x → x ∈ l ∨ p = some x) ∧
    (∀ a ∈ l, ∀ x, nx a = some x → x ∈ l ∨ e = some x) ∧
    (∀ a ∈ l, ∀ x, pv a = some x → x ∈ l ∨ p = some x) := by
  induction l generalizing p f with
  | nil =>
    obtain ⟨rfl, rfl⟩ := h
    exact ⟨fun x h => Or.inr h, fun x h => Or.inr h, by simp, by simp⟩
  | cons a l ih =>
    obtain ⟨h1, h2, h3⟩ := h
    obtain ⟨i1, i2, i3, i4⟩ := ih h3
    refine ⟨?_, ?_, ?_, ?_⟩
    · intro x hx; rw [h1] at hx; simp at hx; left; simp [hx]
    · intro x hx
      rcases i2 x hx with h | h
      · left; simp [h]
      · simp at h; left; simp [h]
    · intro b hb x hx
      rcases List.mem_cons.1 hb with rfl | hb
      · rcases i1 x hx with h | h
        · left; simp [h]
        · right; exact h
      · rcases i3 b hb x hx with h | h
        · left; simp [h]
        · right; exact h
    · intro b hb x hx
      rcases List.mem_cons.1 hb with rfl | hb
      · right; rw [← h2]; exact hx
      · rcases i4 b hb x hx with h | h
        · left; simp [h]
        · left; simp at h; simp [h]

theorem CopyPartitionStruct_spec {p seq} (h : WF p seq) (hMN : p.M ≤ p.N) :
    ∃ c, CopyPartitionStruct p = some c ∧ c.N = p.N ∧ c.M = p.M ∧ c.nempty = p.nempty ∧
      (∀ i < p.N, c.nodes i = p.nodes i) ∧ (∀ m < p.M, c.modules m = p.modules m) := by
  have hlt : ∀ m < p.M, ∀ x ∈ seq m, x < p.N := fun m hm x hx => ((h.mem m hm x).1 hx).1
  unfold CopyPartitionStruct CreatePartition
  simp only [show ¬ p.N < p.M from not_lt.2 hMN, if_false, Option.bind_eq_bind, Option.bind_some]
  have tr : ∀ o : Option ℕ, (∀ x, o = some x → x < p.N) →
      o.map (fun i => (p.nodes i).id) = o := by
    intro o ho
    cases o with
    | none => rfl
    | some x => simp [h.nodeId x (ho x rfl)]
  refine ⟨_, rfl, rfl, rfl, rfl, ?_, ?_⟩
  · intro i hi
    simp only [hi, if_true]
    have hm := h.label i hi
    have hs := (h.seg _ hm).ptrs
    have himem := (h.mem _ hm i).2 ⟨hi, rfl⟩
    rw [tr, tr]
    · intro x hx
      rcases hs.2.2.1 i himem x hx with h1 | h1
      · exact hlt _ hm x h1
      · simp at h1
    · intro x hx
      rcases hs.2.2.2 i himem x hx with h1 | h1
      · exact hlt _ hm x h1
      · simp at h1
  · intro m hm
    simp only [hm, if_true]
    have hs := (h.seg _ hm).ptrs
    rw [tr, tr]
    · intro x hx
      rcases hs.2.1 x hx with h1 | h1
      · exact hlt _ hm x h1
      · simp at h1
    · intro x hx
      rcases hs.1 x hx with h1 | h1
      · exact hlt _ hm x h1
      · simp at h1

/-- A partition as left by `CreatePartition` with node strengths filled in. -/
structure Fresh (p : Partition) : Prop where
  le : p.M ≤ p.N
  nempty : p.nempty = p.M
  id : ∀ i < p.N, (p.nodes i).id = i
  next : ∀ i < p.N, (p.nodes i).next = none
  prev : ∀ i < p.N, (p.nodes i).prev = none
  mid : ∀ m < p.M, (p.modules m).id = m
  msize : ∀ m < p.M, (p.modules m).size = 0
  mstrength : ∀ m < p.M, (p.modules m).strength = 0
  first : ∀ m < p.M, (p.modules m).first = none
  last : ∀ m < p.M, (p.modules m).last = none

/-- view of a partition restricted to its first `n` nodes -/
def upto (n : ℕ) (p : Partition) : Partition := { p with N := n }

theorem Fresh.wf {p} (h : Fresh p) : WF (upto 0 p) (fun _ => []) := by
  refine ⟨⟨?_, ?_, ?_⟩, ?_, ?_, ?_, ?_, ?_, ?_, ?_⟩
  · intro m hm; exact ⟨h.first m hm, h.last m hm⟩
  · intro m hm; simp
  · intro m hm m' hm' x hx; simp at hx
  · intro i hi; simp [upto] at hi
  · intro m hm; exact h.mid m hm
  · intro i hi; simp [upto] at hi
  · intro m hm i; simp [upto]
  · intro m hm; exact h.msize m hm
  · intro m hm; exact (h.mstrength m hm).trans (by simp)
  · simp [upto, emptyCount, h.nempty]

theorem assignOne_spec {p seq n j} (h : WF (upto n p) seq) (hj : j < p.M)
    (hid : (p.nodes n).id = n) (hnx : (p.nodes n).next = none) (hpv : (p.nodes n).prev = none) :
    ∃ p', assignOne p n j = some p' ∧ WF (upto (n + 1) p') (Function.update seq j (seq j ++ [n])) ∧
      p'.N = p.N ∧ p'.M = p.M ∧
      (∀ x, (p'.nodes x).strength = (p.nodes x).strength) ∧
      (∀ x, (p'.nodes x).module = if x = n then j else (p.nodes x).module) ∧
      (∀ x, n < x → p'.nodes x = p.nodes x) := by
  have hnot : ∀ m < p.M, n ∉ seq m := by
    intro m hm hn
    have := ((h.mem m hm n).1 hn).1
    simp [upto] at this
  have hlast : ∀ x, (p.modules j).last = some x → x ∈ seq j := by
    intro x hx
    rcases (h.seg j hj).ptrs.2.1 x hx with h1 | h1
    · exact h1
    · simp at h1
  -- pointwise description of the result
  have run : ∃ p', assignOne p n j = some p' ∧ p'.N = p.N ∧ p'.M = p.M ∧
      p'.nempty = (if seq j = [] then p.nempty - 1 else p.nempty) ∧
      (∀ x, (p'.nodes x).id = (p.nodes x).id) ∧
      (∀ x, (p'.nodes x).strength = (p.nodes x).strength) ∧
      (∀ x, (p'.nodes x).module = if x = n then j else (p.nodes x).module) ∧
      (∀ x, nx p' x = if (p.modules j).last = some x then some n else nx p x) ∧
      (∀ x, pv p' x = if x = n then (p.modules j).last else pv p x) ∧
      (∀ m, p'.modules m = if m = j then
        { p.modules j with size := (p.modules j).size + 1,
                           strength := (p.modules j).strength + (p.nodes n).strength,
                           first := if seq j = [] then some n else (p.modules j).first,
                           last := some n } else p.modules m) := by
    have hsz := h.size j hj
    have hst := h.strength j hj
    have hsg := h.seg j hj
    change (p.modules j).size = _ at hsz
    change (p.modules j).strength = _ at hst
    unfold assignOne
    by_cases hz : seq j = []
    · rw [hz] at hsz hst hsg
      obtain ⟨hf, hl⟩ := hsg
      change (p.modules j).first = none at hf
      change (p.modules j).last = none at hl
      simp at hsz hst
      have hne : p.nempty ≠ 0 := by
        have he := h.empty
        change p.nempty = emptyCount p.M seq at he
        rw [he]
        unfold emptyCount
        intro h0
        have := (Finset.sum_eq_zero_iff.1 h0) j (Finset.mem_range.2 hj)
        simp [hz] at this
      simp only [hj, not_true_eq_false, if_false, hsz, if_true, hne]
      refine ⟨_, rfl, rfl, rfl, ?_, ?_, ?_, ?_, ?_, ?_, ?_⟩
      · simp [hz]
      · intro x; simp only [setModule_nodes, setNode_nodes]; split_ifs <;> simp_all
      · intro x; simp only [setModule_nodes, setNode_nodes]; split_ifs <;> simp_all
      · intro x; simp only [setModule_nodes, setNode_nodes]; split_ifs <;> simp_all
      · intro x; simp only [nx, setModule_nodes, setNode_nodes]; split_ifs <;> simp_all
      · intro x; simp only [pv, setModule_nodes, setNode_nodes]; split_ifs <;> simp_all
      · intro m; simp only [setModule_modules, setNode_modules, setNode_nodes]
        split_ifs <;> simp_all
    · have hsz' : (p.modules j).size ≠ 0 := by rw [hsz]; simpa using hz
      obtain ⟨la, hla⟩ : ∃ la, (p.modules j).last = some la := by
        rcases List.eq_nil_or_concat (seq j) with h0 | ⟨l, b, hb⟩
        · exact absurd h0 hz
        · rw [List.concat_eq_append] at hb
          rw [hb, Seg.snoc] at hsg
          obtain ⟨_, _, _, _, h4⟩ := hsg
          exact ⟨b, h4⟩
      have hlan : la ≠ n := by
        rintro rfl; exact hnot j hj (hlast _ hla)
      simp only [hj, not_true_eq_false, if_false, hsz', setModule_modules, setNode_modules,
        if_true, hla, Option.bind_eq_bind, Option.bind_some]
      refine ⟨_, rfl, rfl, rfl, ?_, ?_, ?_, ?_, ?_, ?_, ?_⟩
      · simp [hz]
      · intro x; simp only [setModule_nodes, setNode_nodes]; split_ifs <;> simp_all
      · intro x; simp only [setModule_nodes, setNode_nodes]; split_ifs <;> simp_all
      · intro x; simp only [setModule_nodes, setNode_nodes]; split_ifs <;> simp_all
      · intro x; simp only [nx, setModule_nodes, setNode_nodes]; split_ifs <;> simp_all
      · intro x; simp only [pv, setModule_nodes, setNode_nodes]; split_ifs <;> simp_all
      · intro m; simp only [setModule_modules, setNode_modules, setNode_nodes]
        split_ifs <;> simp_all
  obtain ⟨p', hr, hN, hM, hE, hids, hstr, hmod, hnx', hpv', hmods⟩ := run
  have hsame : ∀ x, n < x → p'.nodes x = p.nodes x := by
    intro x hx
    have hx1 : x ≠ n := by omega
    have hx2 : (p.modules j).last ≠ some x := by
      intro hh
      have := ((h.mem j hj x).1 (hlast x hh)).1
      simp [upto] at this; omega
    have e1 := hids x
    have e2 := hstr x
    have e3 := hmod x
    have e4 := hnx' x
    have e5 := hpv' x
    rw [if_neg hx1] at e3 e5
    rw [if_neg hx2] at e4
    simp only [nx, pv] at e4 e5
    cases h1 : p'.nodes x; cases h2 : p.nodes x
    simp_all
  refine ⟨p', hr, ⟨⟨?_, ?_, ?_⟩, ?_, ?_, ?_, ?_, ?_, ?_, ?_⟩, hN, hM, hstr, hmod, hsame⟩
  · intro m hm
    change m < p'.M at hm
    rw [hM] at hm
    change Seg (nx p') (pv p') none (p'.modules m).first _ none (p'.modules m).last
    have hsg := h.seg m hm
    change Seg (nx p) (pv p) none (p.modules m).first _ none (p.modules m).last at hsg
    rw [hmods]
    by_cases hmj : m = j
    · subst hmj
      simp only [if_true, Function.update_self]
      rw [Seg.snoc]
      have hxn : nx p' n = none := by
        rw [hnx', if_neg]
        · exact hnx
        · intro hh; exact hnot m hm (hlast n hh)
      refine ⟨(p.modules m).last, ?_, by rw [hpv']; simp, hxn, rfl⟩
      have hnd := h.nodup m hm
      rcases List.eq_nil_or_concat (seq m) with h0 | ⟨l, b, hb⟩
      · rw [h0] at hsg ⊢
        obtain ⟨_, h2⟩ := hsg
        simp [Seg, h2]
      · rw [List.concat_eq_append] at hb
        have hnin := hnot m hm
        have hne : seq m ≠ [] := by rw [hb]; simp
        rw [if_neg hne]
        rw [hb] at hsg hnd hnin ⊢
        have hsg' := hsg
        rw [Seg.snoc] at hsg'
        obtain ⟨_, _, _, _, h4⟩ := hsg'
        rw [List.nodup_append] at hnd
        refine Seg.retarget _ hsg ?_ ?_ ?_ ?_
        · intro x hx
          rw [hnx', h4, if_neg]
          intro hh; exact hnd.2.2 x hx b (by simp) (by simpa using hh.symm)
        · intro x hx
          rw [hpv', if_neg]; rintro rfl; exact hnin (by simp [hx])
        · rw [hpv', if_neg]; rintro rfl; exact hnin (by simp)
        · rw [hnx', h4]; simp
    · rw [if_neg hmj, Function.update_of_ne hmj]
      refine hsg.frame ?_ ?_
      · intro x hx
        rw [hnx', if_neg]
        intro hh; exact hmj (h.disj m hm j hj x hx (hlast x hh))
      · intro x hx
        rw [hpv', if_neg]; rintro rfl; exact hnot m hm hx
  · intro m hm
    change m < p'.M at hm
    rw [hM] at hm
    by_cases hmj : m = j
    · subst hmj
      simp only [Function.update_self]
      rw [List.nodup_append]
      refine ⟨h.nodup m hm, by simp, ?_⟩
      intro x hx y hy hxy
      simp at hy; subst hy; subst hxy; exact hnot m hm hx
    · rw [Function.update_of_ne hmj]; exact h.nodup m hm
  · intro m hm m' hm' x hx hx'
    change m < p'.M at hm
    change m' < p'.M at hm'
    rw [hM] at hm hm'
    have key : ∀ m < p.M, x ∈ Function.update seq j (seq j ++ [n]) m → x ∈ seq m ∨ (x = n ∧ m = j) := by
      intro m hm hx
      by_cases hmj : m = j
      · subst hmj; simp at hx; tauto
      · rw [Function.update_of_ne hmj] at hx; exact Or.inl hx
    rcases key m hm hx with h1 | ⟨h1, h2⟩ <;> rcases key m' hm' hx' with h1' | ⟨h1', h2'⟩
    · exact h.disj m hm m' hm' x h1 h1'
    · subst h1'; exact absurd h1 (hnot m hm)
    · subst h1; exact absurd h1' (hnot m' hm')
    · rw [h2, h2']
  · intro x hx
    change x < n + 1 at hx
    change (p'.nodes x).id = x
    rw [hids]
    rcases Nat.lt_succ_iff_lt_or_eq.1 hx with h1 | h1
    · exact h.nodeId x h1
    · rw [h1]; exact hid
  · intro m hm
    change m < p'.M at hm
    rw [hM] at hm
    change (p'.modules m).id = m
    rw [hmods]
    have := h.moduleId m hm
    change (p.modules m).id = m at this
    by_cases hh : m = j
    · subst hh; simpa using this
    · simpa [hh] using this
  · intro x hx
    change x < n + 1 at hx
    change (p'.nodes x).module < p'.M
    rw [hmod, hM]
    split_ifs with hh
    · exact hj
    · exact h.label x (by change x < n; omega)
  · intro m hm x
    change m < p'.M at hm
    rw [hM] at hm
    change _ ↔ x < n + 1 ∧ (p'.nodes x).module = m
    rw [hmod]
    have hmm := h.mem m hm x
    change _ ↔ x < n ∧ (p.nodes x).module = m at hmm
    by_cases hmj : m = j
    · subst hmj
      simp only [Function.update_self, List.mem_append, List.mem_singleton, hmm]
      split_ifs with hh
      · subst hh; simp
      · constructor
        · rintro (⟨h1, h2⟩ | h1)
          · exact ⟨by omega, h2⟩
          · exact absurd h1 hh
        · rintro ⟨h1, h2⟩; exact Or.inl ⟨by omega, h2⟩
    · rw [Function.update_of_ne hmj, hmm]
      split_ifs with hh
      · subst hh
        constructor
        · rintro ⟨h1, _⟩; omega
        · rintro ⟨_, h2⟩; exact absurd h2.symm hmj
      · constructor
        · rintro ⟨h1, h2⟩; exact ⟨by omega, h2⟩
        · rintro ⟨h1, h2⟩; exact ⟨by omega, h2⟩
  · intro m hm
    change m < p'.M at hm
    rw [hM] at hm
    change (p'.modules m).size = _
    have := h.size m hm
    change (p.modules m).size = _ at this
    rw [hmods]
    by_cases hmj : m = j
    · subst hmj; simp [this]
    · simp [hmj, this]
  · intro m hm
    change m < p'.M at hm
    rw [hM] at hm
    change (p'.modules m).strength = ((Function.update seq j (seq j ++ [n]) m).map
      (fun i => (p'.nodes i).strength)).sum
    have := h.strength m hm
    change (p.modules m).strength = ((seq m).map (fun i => (p.nodes i).strength)).sum at this
    simp only [hstr]
    rw [hmods]
    by_cases hmj : m = j
    · subst hmj; simp [this]
    · simp [hmj, this]
  · change p'.nempty = emptyCount p'.M _
    have he := h.empty
    change p.nempty = emptyCount p.M seq at he
    rw [hE, hM]
    have e1 := @emptyCount_update p.M seq j (seq j ++ [n]) hj
    simp at e1
    split_ifs at e1 ⊢ <;> omega

theorem assign_loop (draws : ℕ → ℕ) : ∀ (n : ℕ) (p : Partition), n ≤ p.N → Fresh p →
    (∀ i, draws i < p.M) →
    ∃ p' seq, (List.range n).foldlM (fun p i => assignOne p i (draws i)) p = some p' ∧
      WF (upto n p') seq ∧ p'.N = p.N ∧ p'.M = p.M ∧
      (∀ x, (p'.nodes x).strength = (p.nodes x).strength) ∧
      (∀ x < n, (p'.nodes x).module = draws x) ∧ (∀ x, n ≤ x → p'.nodes x = p.nodes x) := by
  intro n p hn hf hd
  induction n with
  | zero =>
    exact ⟨p, _, rfl, hf.wf, rfl, rfl, fun _ => rfl, by simp, fun _ _ => rfl⟩
  | succ n ih =>
    obtain ⟨p1, seq1, hr1, hw1, hN1, hM1, hs1, hm1, hx1⟩ := ih (by omega)
    have hnode := hx1 n le_rfl
    obtain ⟨p2, hr2, hw2, hN2, hM2, hs2, hm2, hx2⟩ :=
      assignOne_spec (j := draws n) hw1 (by rw [hM1]; exact hd n)
        (by rw [hnode]; exact hf.id n (by omega)) (by rw [hnode]; exact hf.next n (by omega))
        (by rw [hnode]; exact hf.prev n (by omega))
    refine ⟨p2, _, ?_, hw2, by rw [hN2, hN1], by rw [hM2, hM1], ?_, ?_, ?_⟩
    · rw [List.range_succ, List.foldlM_append, hr1]
      simp [hr2]
    · intro x; rw [hs2, hs1]
    · intro x hx
      rw [hm2]
      split_ifs with hh
      · rw [hh]
      · exact hm1 x (by omega)
    · intro x hx; rw [hx2 x (by omega), hx1 x (by omega)]

/-- body of the one-node-per-module loop -/
def singletonStep (p : Partition) (i : ℕ) : Partition :=
  let p := setNode i (fun n => { n with module := i }) p
  setModule i (fun m => { m with
    size := 1, strength := (p.nodes i).strength, first := some i, last := some i }) p

theorem singleton_loop (p : Partition) (n : ℕ) :
    let p' := (List.range n).foldl singletonStep p
    p'.N = p.N ∧ p'.M = p.M ∧ p'.nempty = p.nempty ∧
    (∀ x, p'.nodes x = if x < n then { p.nodes x with module := x } else p.nodes x) ∧
    (∀ x, p'.modules x = if x < n then
      { p.modules x with size := 1, strength := (p.nodes x).strength, first := some x,
                         last := some x } else p.modules x) := by
  induction n with
  | zero => simp
  | succ n ih =>
    simp only at ih ⊢
    rw [List.range_succ, List.foldl_append]
    obtain ⟨h1, h2, h3, h4, h5⟩ := ih
    simp only [List.foldl_cons, List.foldl_nil]
    set q := List.foldl singletonStep p (List.range n)
    refine ⟨h1, h2, h3, ?_, ?_⟩
    · intro x
      simp only [singletonStep, setModule_nodes, setNode_nodes, h4]
      by_cases hx : x = n
      · subst hx; simp
      · by_cases hxn : x < n
        · simp [hx, hxn, Nat.lt_succ_of_lt hxn]
        · have : ¬ x < n + 1 := by omega
          simp [hx, hxn, this]
    · intro x
      simp only [singletonStep, setModule_modules, setNode_modules, setNode_nodes, h5, h4]
      by_cases hx : x = n
      · subst hx; simp
      · by_cases hxn : x < n
        · simp [hx, hxn, Nat.lt_succ_of_lt hxn]
        · have : ¬ x < n + 1 := by omega
          simp [hx, hxn, this]

theorem AssignNodesToModules_spec {p draws} (hf : Fresh p) (hd : ∀ i, draws i < p.M ∨ p.N = p.M) :
    ∃ p' seq, AssignNodesToModules p draws = some p' ∧ WF p' seq ∧
      Relabelled p p' (fun i => if p.N = p.M then i else draws i) := by
  unfold AssignNodesToModules
  by_cases hNM : p.N = p.M
  · rw [if_pos hNM]
    have := singleton_loop { p with nempty := 0 } p.N
    set p' := (List.range p.N).foldl singletonStep { p with nempty := 0 } with hp'
    simp only at this
    rw [hNM] at this
    obtain ⟨h1, h2, h3, h4, h5⟩ := this
    refine ⟨p', fun m => [m], rfl, ⟨⟨?_, ?_, ?_⟩, ?_, ?_, ?_, ?_, ?_, ?_, ?_⟩, ⟨h1.trans hNM.symm, h2, ?_, ?_⟩⟩
    · intro m hm
      rw [h2] at hm
      rw [h5, if_pos hm]
      refine ⟨rfl, ?_, ?_, ?_⟩
      · simp [pv, h4, hm, hf.prev m (hNM ▸ hm)]
      · simp [nx, h4, hm, hf.next m (hNM ▸ hm)]
      · rfl
    · intro m hm; simp
    · intro m hm m' hm' x hx hx'; simp at hx hx'; omega
    · intro i hi
      rw [h1] at hi; rw [h4, if_pos hi]
      exact hf.id i (hNM ▸ hi)
    · intro m hm
      rw [h2] at hm; rw [h5, if_pos hm]
      exact hf.mid m hm
    · intro i hi
      rw [h1] at hi; rw [h4, if_pos hi, h2]
      exact hi
    · intro m hm x
      rw [h2] at hm
      rw [h1, h4]
      simp only [List.mem_singleton, hNM]
      constructor
      · rintro rfl; simp [hm]
      · rintro ⟨hx, h⟩; simpa [hx] using h
    · intro m hm
      rw [h2] at hm; rw [h5, if_pos hm]; rfl
    · intro m hm
      rw [h2] at hm; rw [h5, if_pos hm]
      simp [h4, hm]
    · rw [h3]; simp [emptyCount]
    · intro i; rw [h4]; split_ifs <;> rfl
    · intro i hi; rw [h4, if_pos (hNM ▸ hi), if_pos hNM]
  · simp only [hNM, if_false]
    obtain ⟨p', seq, hr, hw, hN, hM, hs, hm, _⟩ := assign_loop draws p.N p le_rfl hf
      (fun i => (hd i).resolve_right hNM)
    refine ⟨p', seq, hr, ?_, ⟨hN, hM, hs, hm⟩⟩
    have : upto p.N p' = p' := by unfold upto; rw [← hN]
    rw [this] at hw; exact hw

end NC
