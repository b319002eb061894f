import Verif.NC.Build

/-! # Assigning nodes to modules in any order -/

set_option linter.unusedSimpArgs false

namespace NC

/-- A partition in which only the nodes of `S` have been put into the lists of their modules. -/
structure PW (p : Partition) (seq : ℕ → List ℕ) (S : ℕ → Prop) : Prop extends Links p seq where
  moduleId : ∀ m < p.M, (p.modules m).id = m
  label : ∀ i, S i → (p.nodes i).module < p.M
  mem : ∀ m < p.M, ∀ i, i ∈ seq m ↔ S i ∧ (p.nodes i).module = m
  size : ∀ m < p.M, (p.modules m).size = (seq m).length
  strength : ∀ m < p.M, (p.modules m).strength = ((seq m).map (fun i => (p.nodes i).strength)).sum
  empty : p.nempty = emptyCount p.M seq

theorem Fresh.pw {p} (h : Fresh p) : PW p (fun _ => []) (fun _ => False) := by
  refine ⟨⟨?_, ?_, ?_⟩, ?_, ?_, ?_, ?_, ?_, ?_⟩
  · intro m hm; exact ⟨h.first m hm, h.last m hm⟩
  · intro m hm; simp
  · intro m hm m' hm' x hx; simp at hx
  · intro m hm; exact h.mid m hm
  · intro i hi; exact hi.elim
  · intro m hm i; simp
  · intro m hm; exact h.msize m hm
  · intro m hm; exact (h.mstrength m hm).trans (by simp)
  · simp [emptyCount, h.nempty]

theorem PW.wf {p seq S} (h : PW p seq S) (hS : ∀ i, S i ↔ i < p.N) (hid : ∀ i < p.N, (p.nodes i).id = i) : WF p seq :=
  ⟨h.toLinks, hid, h.moduleId, fun i hi => h.label i ((hS i).2 hi), fun m hm i => by rw [h.mem m hm i, hS i], h.size, h.strength, h.empty⟩

theorem assignOne_any {p seq n j} {S : ℕ → Prop} (h : PW p seq S) (hj : j < p.M) (hn : ¬ S n)
    (hnx : (p.nodes n).next = none) (hpv : (p.nodes n).prev = none) :
    ∃ p', assignOne p n j = some p' ∧ PW p' (Function.update seq j (seq j ++ [n])) (fun x => S x ∨ x = n) ∧
      p'.N = p.N ∧ p'.M = p.M ∧
      (∀ x, (p'.nodes x).strength = (p.nodes x).strength) ∧
      (∀ x, (p'.nodes x).module = if x = n then j else (p.nodes x).module) ∧
      (∀ x, (p'.nodes x).id = (p.nodes x).id) ∧
      (∀ x, ¬ S x → x ≠ n → p'.nodes x = p.nodes x) := by
  have hnot : ∀ m < p.M, n ∉ seq m := by
    intro m hm hh
    exact hn ((h.mem m hm n).1 hh).1
  have hlast : ∀ x, (p.modules j).last = some x → x ∈ seq j := by
    intro x hx
    rcases (h.seg j hj).ptrs.2.1 x hx with h1 | h1
    · exact h1
    · simp at h1
  -- pointwise description of the result
  have run : ∃ p', assignOne p n j = some p' ∧ p'.N = p.N ∧ p'.M = p.M ∧
      p'.nempty = (if seq j = [] then p.nempty - 1 else p.nempty) ∧
      (∀ x, (p'.nodes x).id = (p.nodes x).id) ∧
      (∀ x, (p'.nodes x).strength = (p.nodes x).strength) ∧
      (∀ x, (p'.nodes x).module = if x = n then j else (p.nodes x).module) ∧
      (∀ x, nx p' x = if (p.modules j).last = some x then some n else nx p x) ∧
      (∀ x, pv p' x = if x = n then (p.modules j).last else pv p x) ∧
      (∀ m, p'.modules m = if m = j then
        { p.modules j with size := (p.modules j).size + 1,
                           strength := (p.modules j).strength + (p.nodes n).strength,
                           first := if seq j = [] then some n else (p.modules j).first,
                           last := some n } else p.modules m) := by
    have hsz := h.size j hj
    have hst := h.strength j hj
    have hsg := h.seg j hj
    change (p.modules j).size = _ at hsz
    change (p.modules j).strength = _ at hst
    unfold assignOne
    by_cases hz : seq j = []
    · rw [hz] at hsz hst hsg
      obtain ⟨hf, hl⟩ := hsg
      change (p.modules j).first = none at hf
      change (p.modules j).last = none at hl
      simp at hsz hst
      have hne : p.nempty ≠ 0 := by
        have he := h.empty
        change p.nempty = emptyCount p.M seq at he
        rw [he]
        unfold emptyCount
        intro h0
        have := (Finset.sum_eq_zero_iff.1 h0) j (Finset.mem_range.2 hj)
        simp [hz] at this
      simp only [hj, not_true_eq_false, if_false, hsz, if_true, hne]
      refine ⟨_, rfl, rfl, rfl, ?_, ?_, ?_, ?_, ?_, ?_, ?_⟩
      · simp [hz]
      · intro x; simp only [setModule_nodes, setNode_nodes]; split_ifs <;> simp_all
      · intro x; simp only [setModule_nodes, setNode_nodes]; split_ifs <;> simp_all
      · intro x; simp only [setModule_nodes, setNode_nodes]; split_ifs <;> simp_all
      · intro x; simp only [nx, setModule_nodes, setNode_nodes]; split_ifs <;> simp_all
      · intro x; simp only [pv, setModule_nodes, setNode_nodes]; split_ifs <;> simp_all
      · intro m; simp only [setModule_modules, setNode_modules, setNode_nodes]
        split_ifs <;> simp_all
    · have hsz' : (p.modules j).size ≠ 0 := by rw [hsz]; simpa using hz
      obtain ⟨la, hla⟩ : ∃ la, (p.modules j).last = some la := by
        rcases List.eq_nil_or_concat (seq j) with h0 | ⟨l, b, hb⟩
        · exact absurd h0 hz
        · rw [List.concat_eq_append] at hb
          rw [hb, Seg.snoc] at hsg
          obtain ⟨_, _, _, _, h4⟩ := hsg
          exact ⟨b, h4⟩
      have hlan : la ≠ n := by
        rintro rfl; exact hnot j hj (hlast _ hla)
      simp only [hj, not_true_eq_false, if_false, hsz', setModule_modules, setNode_modules,
        if_true, hla, Option.bind_eq_bind, Option.bind_some]
      refine ⟨_, rfl, rfl, rfl, ?_, ?_, ?_, ?_, ?_, ?_, ?_⟩
      · simp [hz]
      · intro x; simp only [setModule_nodes, setNode_nodes]; split_ifs <;> simp_all
      · intro x; simp only [setModule_nodes, setNode_nodes]; split_ifs <;> simp_all
      · intro x; simp only [setModule_nodes, setNode_nodes]; split_ifs <;> simp_all
      · intro x; simp only [nx, setModule_nodes, setNode_nodes]; split_ifs <;> simp_all
      · intro x; simp only [pv, setModule_nodes, setNode_nodes]; split_ifs <;> simp_all
      · intro m; simp only [setModule_modules, setNode_modules, setNode_nodes]
        split_ifs <;> simp_all
  obtain ⟨p', hr, hN, hM, hE, hids, hstr, hmod, hnx', hpv', hmods⟩ := run
  have hsame : ∀ x, ¬ S x → x ≠ n → p'.nodes x = p.nodes x := by
    intro x hx hx1
    have hx2 : (p.modules j).last ≠ some x := by
      intro hh
      exact hx ((h.mem j hj x).1 (hlast x hh)).1
    have e1 := hids x
    have e2 := hstr x
    have e3 := hmod x
    have e4 := hnx' x
    have e5 := hpv' x
    rw [if_neg hx1] at e3 e5
    rw [if_neg hx2] at e4
    simp only [nx, pv] at e4 e5
    cases h1 : p'.nodes x; cases h2 : p.nodes x
    simp_all
  refine ⟨p', hr, ⟨⟨?_, ?_, ?_⟩, ?_, ?_, ?_, ?_, ?_, ?_⟩, hN, hM, hstr, hmod, hids, hsame⟩
  · intro m hm
    change m < p'.M at hm
    rw [hM] at hm
    change Seg (nx p') (pv p') none (p'.modules m).first _ none (p'.modules m).last
    have hsg := h.seg m hm
    change Seg (nx p) (pv p) none (p.modules m).first _ none (p.modules m).last at hsg
    rw [hmods]
    by_cases hmj : m = j
    · subst hmj
      simp only [if_true, Function.update_self]
      rw [Seg.snoc]
      have hxn : nx p' n = none := by
        rw [hnx', if_neg]
        · exact hnx
        · intro hh; exact hnot m hm (hlast n hh)
      refine ⟨(p.modules m).last, ?_, by rw [hpv']; simp, hxn, rfl⟩
      have hnd := h.nodup m hm
      rcases List.eq_nil_or_concat (seq m) with h0 | ⟨l, b, hb⟩
      · rw [h0] at hsg ⊢
        obtain ⟨_, h2⟩ := hsg
        simp [Seg, h2]
      · rw [List.concat_eq_append] at hb
        have hnin := hnot m hm
        have hne : seq m ≠ [] := by rw [hb]; simp
        rw [if_neg hne]
        rw [hb] at hsg hnd hnin ⊢
        have hsg' := hsg
        rw [Seg.snoc] at hsg'
        obtain ⟨_, _, _, _, h4⟩ := hsg'
        rw [List.nodup_append] at hnd
        refine Seg.retarget _ hsg ?_ ?_ ?_ ?_
        · intro x hx
          rw [hnx', h4, if_neg]
          intro hh; exact hnd.2.2 x hx b (by simp) (by simpa using hh.symm)
        · intro x hx
          rw [hpv', if_neg]; rintro rfl; exact hnin (by simp [hx])
        · rw [hpv', if_neg]; rintro rfl; exact hnin (by simp)
        · rw [hnx', h4]; simp
    · rw [if_neg hmj, Function.update_of_ne hmj]
      refine hsg.frame ?_ ?_
      · intro x hx
        rw [hnx', if_neg]
        intro hh; exact hmj (h.disj m hm j hj x hx (hlast x hh))
      · intro x hx
        rw [hpv', if_neg]; rintro rfl; exact hnot m hm hx
  · intro m hm
    change m < p'.M at hm
    rw [hM] at hm
    by_cases hmj : m = j
    · subst hmj
      simp only [Function.update_self]
      rw [List.nodup_append]
      refine ⟨h.nodup m hm, by simp, ?_⟩
      intro x hx y hy hxy
      simp at hy; subst hy; subst hxy; exact hnot m hm hx
    · rw [Function.update_of_ne hmj]; exact h.nodup m hm
  · intro m hm m' hm' x hx hx'
    change m < p'.M at hm
    change m' < p'.M at hm'
    rw [hM] at hm hm'
    have key : ∀ m < p.M, x ∈ Function.update seq j (seq j ++ [n]) m → x ∈ seq m ∨ (x = n ∧ m = j) := by
      intro m hm hx
      by_cases hmj : m = j
      · subst hmj; simp at hx; tauto
      · rw [Function.update_of_ne hmj] at hx; exact Or.inl hx
    rcases key m hm hx with h1 | ⟨h1, h2⟩ <;> rcases key m' hm' hx' with h1' | ⟨h1', h2'⟩
    · exact h.disj m hm m' hm' x h1 h1'
    · subst h1'; exact absurd h1 (hnot m hm)
    · subst h1; exact absurd h1' (hnot m' hm')
    · rw [h2, h2']
  · intro m hm
    change m < p'.M at hm
    rw [hM] at hm
    change (p'.modules m).id = m
    rw [hmods]
    have := h.moduleId m hm
    change (p.modules m).id = m at this
    by_cases hh : m = j
    · subst hh; simpa using this
    · simpa [hh] using this
  · intro x hx
    change S x ∨ x = n at hx
    rw [hmod, hM]
    split_ifs with hh
    · exact hj
    · exact h.label x (hx.resolve_right hh)
  · intro m hm x
    change m < p'.M at hm
    rw [hM] at hm
    change _ ↔ (S x ∨ x = n) ∧ (p'.nodes x).module = m
    rw [hmod]
    have hmm := h.mem m hm x
    by_cases hmj : m = j
    · subst hmj
      simp only [Function.update_self, List.mem_append, List.mem_singleton, hmm]
      split_ifs with hh
      · subst hh; simp
      · tauto
    · rw [Function.update_of_ne hmj, hmm]
      split_ifs with hh
      · subst hh
        constructor
        · rintro ⟨h1, _⟩; exact absurd h1 hn
        · rintro ⟨_, h2⟩; exact absurd h2.symm hmj
      · tauto
  · intro m hm
    change m < p'.M at hm
    rw [hM] at hm
    change (p'.modules m).size = _
    have := h.size m hm
    change (p.modules m).size = _ at this
    rw [hmods]
    by_cases hmj : m = j
    · subst hmj; simp [this]
    · simp [hmj, this]
  · intro m hm
    change m < p'.M at hm
    rw [hM] at hm
    change (p'.modules m).strength = ((Function.update seq j (seq j ++ [n]) m).map
      (fun i => (p'.nodes i).strength)).sum
    have := h.strength m hm
    change (p.modules m).strength = ((seq m).map (fun i => (p.nodes i).strength)).sum at this
    simp only [hstr]
    rw [hmods]
    by_cases hmj : m = j
    · subst hmj; simp [this]
    · simp [hmj, this]
  · change p'.nempty = emptyCount p'.M _
    have he := h.empty
    change p.nempty = emptyCount p.M seq at he
    rw [hE, hM]
    have e1 := @emptyCount_update p.M seq j (seq j ++ [n]) hj
    simp at e1
    split_ifs at e1 ⊢ <;> omega


end NC
