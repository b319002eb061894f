import Verif.NC.Dll

/-! # Effect of list surgery (helper lemmas) -/

set_option linter.unusedSimpArgs false

namespace NC

/-- next link function of a partition -/
def nx (p : Partition) : ℕ → Option ℕ := fun i => (p.nodes i).next
/-- previous link function of a partition -/
def pv (p : Partition) : ℕ → Option ℕ := fun i => (p.nodes i).prev

/-- All module lists (below `M`) are well linked and given by `seq`; no node is in two
of them. -/
structure Links (p : Partition) (seq : ℕ → List ℕ) : Prop where
  seg : ∀ m < p.M, Seg (nx p) (pv p) none (p.modules m).first (seq m) none (p.modules m).last
  nodup : ∀ m < p.M, (seq m).Nodup
  disj : ∀ m < p.M, ∀ m' < p.M, ∀ x, x ∈ seq m → x ∈ seq m' → m = m'

@[simp] theorem setNode_N (i f p) : (setNode i f p).N = p.N := rfl
@[simp] theorem setNode_M (i f p) : (setNode i f p).M = p.M := rfl
@[simp] theorem setNode_nempty (i f p) : (setNode i f p).nempty = p.nempty := rfl
@[simp] theorem setNode_modules (i f p) : (setNode i f p).modules = p.modules := rfl
theorem setNode_nodes (i f p j) :
    (setNode i f p).nodes j = if j = i then f (p.nodes i) else p.nodes j := by
  simp [setNode, Function.update_apply]
@[simp] theorem setModule_N (i f p) : (setModule i f p).N = p.N := rfl
@[simp] theorem setModule_M (i f p) : (setModule i f p).M = p.M := rfl
@[simp] theorem setModule_nempty (i f p) : (setModule i f p).nempty = p.nempty := rfl
@[simp] theorem setModule_nodes (i f p) : (setModule i f p).nodes = p.nodes := rfl
theorem setModule_modules (i f p j) :
    (setModule i f p).modules j = if j = i then f (p.modules i) else p.modules j := by
  simp [setModule, Function.update_apply]

/-- everything except list links agrees -/
structure SameData (p p' : Partition) : Prop where
  N : p'.N = p.N
  M : p'.M = p.M
  nempty : p'.nempty = p.nempty
  id : ∀ i, (p'.nodes i).id = (p.nodes i).id
  strength : ∀ i, (p'.nodes i).strength = (p.nodes i).strength
  module : ∀ i, (p'.nodes i).module = (p.nodes i).module
  mid : ∀ i, (p'.modules i).id = (p.modules i).id
  msize : ∀ i, (p'.modules i).size = (p.modules i).size
  mstrength : ∀ i, (p'.modules i).strength = (p.modules i).strength

/-- the links agree -/
structure SameLinks (p p' : Partition) : Prop where
  M : p'.M = p.M
  next : ∀ i, (p'.nodes i).next = (p.nodes i).next
  prev : ∀ i, (p'.nodes i).prev = (p.nodes i).prev
  first : ∀ i, (p'.modules i).first = (p.modules i).first
  last : ∀ i, (p'.modules i).last = (p.modules i).last

theorem SameLinks.links {p p' seq} (h : SameLinks p p') (hl : Links p seq) : Links p' seq := by
  have e1 : nx p' = nx p := funext h.next
  have e2 : pv p' = pv p := funext h.prev
  refine ⟨fun m hm => ?_, fun m hm => ?_, ?_⟩
  · rw [e1, e2, h.first, h.last]; exact hl.seg m (h.M ▸ hm)
  · exact hl.nodup m (h.M ▸ hm)
  · rw [h.M]; exact hl.disj

theorem SameLinks.trans {p q r} (h : SameLinks p q) (h' : SameLinks q r) : SameLinks p r :=
  ⟨h'.M.trans h.M, fun i => (h'.next i).trans (h.next i), fun i => (h'.prev i).trans (h.prev i),
   fun i => (h'.first i).trans (h.first i), fun i => (h'.last i).trans (h.last i)⟩

theorem extractNode_data (a old p) : SameData p (extractNode a old p) := by
  unfold extractNode
  constructor <;> (try intro i) <;> dsimp only <;> split <;> split <;>
    simp only [setNode_nodes, setModule_modules, setNode_modules, setModule_nodes,
      setNode_N, setNode_M, setNode_nempty, setModule_N, setModule_M, setModule_nempty] <;>
    (try split) <;> simp_all <;> (try split) <;> simp_all

theorem pushNode_data (a new p) : SameData p (pushNode a new p) := by
  unfold pushNode
  constructor <;> (try intro i) <;> dsimp only <;> split <;>
    simp only [setNode_nodes, setModule_modules, setNode_modules, setModule_nodes,
      setNode_N, setNode_M, setNode_nempty, setModule_N, setModule_M, setModule_nempty] <;>
    (try split) <;> simp_all <;> (try split) <;> simp_all

/-- pointwise description of `extractNode` -/
theorem extractNode_next (a old p x) : nx (extractNode a old p) x =
    if (p.nodes a).prev = some x then (p.nodes a).next else nx p x := by
  unfold extractNode nx
  dsimp only
  split <;> split <;>
    simp only [setNode_nodes, setModule_modules, setNode_modules, setModule_nodes] <;>
    (repeat' split) <;> simp_all

theorem extractNode_prev (a old p x) : pv (extractNode a old p) x =
    if (p.nodes a).next = some x then (p.nodes a).prev else pv p x := by
  unfold extractNode pv
  dsimp only
  split <;> split <;>
    simp only [setNode_nodes, setModule_modules, setNode_modules, setModule_nodes] <;>
    (repeat' split) <;> simp_all

theorem extractNode_first (a old p m) : ((extractNode a old p).modules m).first =
    if m = old ∧ (p.nodes a).prev = none then (p.nodes a).next else (p.modules m).first := by
  unfold extractNode
  dsimp only
  split <;> split <;>
    simp only [setNode_nodes, setModule_modules, setNode_modules, setModule_nodes] <;>
    (repeat' split) <;> simp_all

theorem extractNode_last (a old p m) : ((extractNode a old p).modules m).last =
    if m = old ∧ (p.nodes a).next = none then (p.nodes a).prev else (p.modules m).last := by
  unfold extractNode
  dsimp only
  split <;> split <;>
    simp only [setNode_nodes, setModule_modules, setNode_modules, setModule_nodes] <;>
    (repeat' split) <;> simp_all

theorem pushNode_next (a new p x) : nx (pushNode a new p) x =
    if x = a then (p.modules new).first else nx p x := by
  unfold pushNode nx
  dsimp only
  split <;>
    simp only [setNode_nodes, setModule_modules, setNode_modules, setModule_nodes] <;>
    (repeat' split) <;> simp_all

theorem pushNode_prev (a new p x) (h : (p.modules new).first ≠ some a) : pv (pushNode a new p) x =
    if x = a then none else if (p.modules new).first = some x then some a else pv p x := by
  unfold pushNode pv
  dsimp only
  split <;>
    simp only [setNode_nodes, setModule_modules, setNode_modules, setModule_nodes] <;>
    (repeat' split) <;> simp_all

theorem pushNode_first (a new p m) : ((pushNode a new p).modules m).first =
    if m = new then some a else (p.modules m).first := by
  unfold pushNode
  dsimp only
  split <;>
    simp only [setNode_nodes, setModule_modules, setNode_modules, setModule_nodes] <;>
    (repeat' split) <;> simp_all

theorem pushNode_last (a new p m) : ((pushNode a new p).modules m).last =
    if m = new ∧ (p.modules new).first = none then some a else (p.modules m).last := by
  unfold pushNode
  dsimp only
  split <;>
    simp only [setNode_nodes, setModule_modules, setNode_modules, setModule_nodes] <;>
    (repeat' split) <;> simp_all

/-- Removing a node from its list. -/
theorem Links.extract {p seq old a l1 l2} (h : Links p seq) (hold : old < p.M)
    (hseq : seq old = l1 ++ a :: l2) :
    Links (extractNode a old p) (Function.update seq old (l1 ++ l2)) := by
  have hM : (extractNode a old p).M = p.M := (extractNode_data a old p).M
  have hnd := h.nodup old hold
  rw [hseq] at hnd
  have hseg := h.seg old hold
  rw [hseq, Seg.append] at hseg
  obtain ⟨m0, q, hs1, hs2, hpa, hs3⟩ := hseg
  have hpv : (p.nodes a).prev = q := hpa
  -- previous node is in l1, next in l2
  have hq : ∀ x, (p.nodes a).prev = some x → x ∈ l1 := by
    intro x hx
    rw [hpv] at hx
    subst hx
    rcases List.eq_nil_or_concat l1 with rfl | ⟨l, b, rfl⟩
    · simp [Seg] at hs1
    · rw [List.concat_eq_append, Seg.snoc] at hs1
      obtain ⟨_, _, _, _, h4⟩ := hs1
      simp at h4; subst h4; simp
  have hn : ∀ x, (p.nodes a).next = some x → x ∈ l2 := by
    intro x hx
    have hx' : nx p a = some x := hx
    rw [hx'] at hs3
    cases l2 with
    | nil => simp [Seg] at hs3
    | cons c l => obtain ⟨h1, _⟩ := hs3; simp at h1; subst h1; simp
  rw [List.nodup_append] at hnd
  obtain ⟨nd1, nd2, nd12⟩ := hnd
  rw [List.nodup_cons] at nd2
  have mem_old : ∀ x, x ∈ l1 ++ l2 → x ∈ seq old := by
    intro x hx; rw [hseq]; simp at hx ⊢; tauto
  refine ⟨?_, ?_, ?_⟩
  · intro m hm
    rw [hM] at hm
    by_cases hmo : m = old
    · subst hmo
      simp only [Function.update_self]
      rw [extractNode_first, extractNode_last]
      simp only [true_and]
      rw [Seg.append]
      -- the middle pointers
      refine ⟨(p.nodes a).next, q, ?_, ?_⟩
      · -- l1 part
        rcases List.eq_nil_or_concat l1 with rfl | ⟨l, b, rfl⟩
        · obtain ⟨h1, h2⟩ := hs1
          subst h2
          simp [Seg, hpv]
        · rw [List.concat_eq_append] at hs1 nd1 nd12 ⊢
          have hs1' := hs1
          rw [Seg.snoc] at hs1'
          obtain ⟨_, _, _, _, h4⟩ := hs1'
          subst h4
          rw [hpv]
          simp only [reduceCtorEq, if_false]
          have hb : b ∉ l := by
            have := nd1; rw [List.nodup_append] at this
            intro hbl; exact this.2.2 b hbl b (by simp) rfl
          refine Seg.retarget _ hs1 ?_ ?_ ?_ ?_
          · intro x hx
            rw [extractNode_next, hpv]
            rw [if_neg]; rintro ⟨⟩; exact hb hx
          · intro x hx
            rw [extractNode_prev, if_neg]
            intro hnx
            exact nd12 x (by simp [hx]) x (by simp [hn x hnx]) rfl
          · rw [extractNode_prev, if_neg]
            intro hnx
            exact nd12 b (by simp) b (by simp [hn b hnx]) rfl
          · rw [extractNode_next, hpv]; simp
      · -- l2 part
        cases l2 with
        | nil =>
          obtain ⟨h1, h2⟩ := hs3
          have h1' : (p.nodes a).next = none := h1
          simp [Seg, h1', hpv]
        | cons c l =>
          have hc : (p.nodes a).next = some c := hs3.1
          rw [if_neg (by rw [hc]; simp)]
          have hcl : c ∉ l := (List.nodup_cons.1 nd2.2).1
          refine Seg.rehead _ hs3 ?_ ?_ ?_ ?_
          · intro x hx
            rw [extractNode_next, if_neg]
            intro hp
            exact nd12 x (hq x hp) x (by simp [hx]) rfl
          · intro x hx
            rw [extractNode_prev, hc, if_neg]
            rintro ⟨⟩; exact hcl hx
          · rw [extractNode_next, if_neg]
            intro hp
            exact nd12 c (hq c hp) c (by simp) rfl
          · rw [extractNode_prev, hc]; simp [hpv]
    · rw [Function.update_of_ne hmo, extractNode_first, extractNode_last,
        if_neg (by tauto), if_neg (by tauto)]
      refine (h.seg m hm).frame ?_ ?_
      · intro x hx
        rw [extractNode_next, if_neg]
        intro hp
        exact hmo (h.disj m hm old hold x hx (mem_old x (by simp [hq x hp])))
      · intro x hx
        rw [extractNode_prev, if_neg]
        intro hp
        exact hmo (h.disj m hm old hold x hx (mem_old x (by simp [hn x hp])))
  · intro m hm
    rw [hM] at hm
    by_cases hmo : m = old
    · subst hmo
      simp only [Function.update_self]
      rw [List.nodup_append]
      exact ⟨nd1, nd2.2, fun x hx y hy => nd12 x hx y (by simp [hy])⟩
    · rw [Function.update_of_ne hmo]; exact h.nodup m hm
  · rw [hM]
    intro m hm m' hm' x hx hx'
    have key : ∀ m, x ∈ Function.update seq old (l1 ++ l2) m → x ∈ seq m := by
      intro m hx
      by_cases hmo : m = old
      · subst hmo; simp only [Function.update_self] at hx; exact mem_old x hx
      · rwa [Function.update_of_ne hmo] at hx
    exact h.disj m hm m' hm' x (key m hx) (key m' hx')

/-- Pushing a detached node in front of a list. -/
theorem Links.push {p seq new a} (h : Links p seq) (hnew : new < p.M)
    (ha : ∀ m < p.M, a ∉ seq m) :
    Links (pushNode a new p) (Function.update seq new (a :: seq new)) := by
  have hM : (pushNode a new p).M = p.M := (pushNode_data a new p).M
  have hfirst : ∀ x, (p.modules new).first = some x → x ∈ seq new := by
    intro x hx
    have hs := h.seg new hnew
    rw [hx] at hs
    cases hl : seq new with
    | nil => rw [hl] at hs; simp [Seg] at hs
    | cons c l => rw [hl] at hs; have := hs.1; simp at this; simp [this]
  have hfa : (p.modules new).first ≠ some a := fun hh => ha new hnew (hfirst a hh)
  refine ⟨?_, ?_, ?_⟩
  · intro m hm
    rw [hM] at hm
    by_cases hmo : m = new
    · subst hmo
      simp only [Function.update_self]
      rw [pushNode_first, pushNode_last]
      simp only [true_and, if_true]
      refine ⟨rfl, ?_, ?_⟩
      · rw [pushNode_prev _ _ _ _ hfa]; simp
      · rw [pushNode_next, if_pos rfl]
        have hs := h.seg m hm
        have hna := ha m hm
        have hnd := h.nodup m hm
        generalize seq m = s at hs hna hnd
        cases s with
        | nil =>
          obtain ⟨h1, h2⟩ := hs
          rw [if_pos h1]
          exact ⟨h1, rfl⟩
        | cons c l =>
          have hc := hs.1
          rw [if_neg (by rw [hc]; simp)]
          have hca : c ≠ a := fun hh => hna (by simp [hh])
          have hcl : c ∉ l := (List.nodup_cons.1 hnd).1
          refine Seg.rehead _ hs ?_ ?_ ?_ ?_
          · intro x hx
            rw [pushNode_next, if_neg]; rintro rfl; exact hna (by simp [hx])
          · intro x hx
            rw [pushNode_prev _ _ _ _ hfa, if_neg, if_neg]
            · rw [hc]; rintro ⟨⟩; exact hcl hx
            · rintro rfl; exact hna (by simp [hx])
          · rw [pushNode_next, if_neg hca]
          · rw [pushNode_prev _ _ _ _ hfa, if_neg hca, if_pos hc]
    · rw [Function.update_of_ne hmo, pushNode_first, pushNode_last,
        if_neg hmo, if_neg (by tauto)]
      refine (h.seg m hm).frame ?_ ?_
      · intro x hx
        rw [pushNode_next, if_neg]; rintro rfl; exact ha m hm hx
      · intro x hx
        rw [pushNode_prev _ _ _ _ hfa, if_neg, if_neg]
        · intro hh; exact hmo (h.disj m hm new hnew x hx (hfirst x hh))
        · rintro rfl; exact ha m hm hx
  · intro m hm
    rw [hM] at hm
    by_cases hmo : m = new
    · subst hmo; simp only [Function.update_self, List.nodup_cons]
      exact ⟨ha m hm, h.nodup m hm⟩
    · rw [Function.update_of_ne hmo]; exact h.nodup m hm
  · rw [hM]
    intro m hm m' hm' x hx hx'
    by_cases hxa : x = a
    · subst hxa
      have key : ∀ m < p.M, x ∈ Function.update seq new (x :: seq new) m → m = new := by
        intro m hm hx
        by_contra hmo
        rw [Function.update_of_ne hmo] at hx
        exact ha m hm hx
      rw [key m hm hx, key m' hm' hx']
    · have key : ∀ m, x ∈ Function.update seq new (a :: seq new) m → x ∈ seq m := by
        intro m hx
        by_cases hmo : m = new
        · subst hmo; simp only [Function.update_self] at hx
          rcases List.mem_cons.1 hx with h | h
          · exact absurd h hxa
          · exact h
        · rwa [Function.update_of_ne hmo] at hx
      exact h.disj m hm m' hm' x (key m hx) (key m' hx')

end NC
