import Verif.Heap.CopyLemmas
import Verif.Graph.Props

/-! # C136: copies of networks share no memory with their source -/

set_option linter.unusedSimpArgs false

namespace HP

variable {Λ Λ1 Λ2 : ℕ → Lay} {net src cpy : GR.Net} {h h' h0 : Heap} {root root1 root2 : ℕ}

/-- The block belongs to the network. -/
def Owned (root : ℕ) (Λ : ℕ → Lay) (n a : ℕ) : Prop := a = root ∨ ∃ i < n, a ∈ (Λ i).blocks

theorem Rep.live (R : Rep h0 h root Λ net) {a : ℕ} (ha : Owned root Λ net.n a) : ∃ o, h.mem a = some o := by
  rcases ha with rfl | ⟨i, hi, hm⟩
  · exact ⟨_, R.header⟩
  · exact (R.nodes i hi).live a hm

theorem Rep.ok (R : Rep h0 h root Λ net) : h.OK := ⟨R.fresh, R.null, R.pos⟩

/-- What happens to blocks of other owners does not matter: `k` is the rest of the memory. -/
theorem Rep.frame (R : Rep h0 h root Λ net) (hs : ∀ a, Owned root Λ net.n a → h'.mem a = h.mem a) (hk : h'.OK) {k : Heap}
    (hin : ∀ a, Owned root Λ net.n a → k.mem a = none) (hout : ∀ a, ¬ Owned root Λ net.n a → k.mem a = h'.mem a) :
    Rep k h' root Λ net where
  header := by rw [hs _ (Or.inl rfl)]; exact R.header
  nodes := fun i hi => (R.nodes i hi).congr fun a ha => hs a (Or.inr ⟨i, hi, ha⟩)
  refs := R.refs
  nodup := R.nodup
  disj := R.disj
  rootN := R.rootN
  out := fun a h1 h2 => (hout a (by rintro (e | ⟨i, hi, hm⟩); exacts [h1 e, h2 i hi hm])).symm
  own := hin
  fresh := hk.fresh
  null := hk.null
  pos := hk.pos

/-- C136. `CopyNetwork` makes the copy that the model without pointers makes (C44 says which), in new blocks only; it reads but does not change
the source and fails exactly when that model fails. -/
theorem C136_copy (S : Rep h0 h root1 Λ1 src) {fuel : ℕ} (hs : Small src fuel) :
    (GR.CopyNetwork src = none ∧ CopyNetwork fuel root1 h = none) ∨
    ∃ cpy h' root2 Λ2, GR.CopyNetwork src = some cpy ∧ CopyNetwork fuel root1 h = some (root2, h') ∧ Rep h h' root2 Λ2 cpy := by
  have R0 := header_rep S.ok Λ1
  rw [CopyNetwork, GR.CopyNetwork]
  have hne : (CreateHeaderGraph h) = ((CreateHeaderGraph h).1, (CreateHeaderGraph h).2) := rfl
  rw [hne]
  simp only [Option.bind_eq_bind]
  rcases copyLoop_spec S hs.2 (by have := hs.1; omega) src.n 0 fuel root1 _ (by omega) S.header rfl hs.1 R0 rfl
    (fun j hj => absurd hj (Nat.not_lt_zero j)) with ⟨e1, e2⟩ | ⟨net, h1, Λ2, e1, e2, R1, hn, hsh⟩
  · have e2' : copyLoop fuel fuel root1 (CreateHeaderGraph h).1 (CreateHeaderGraph h).2 = none := e2
    rw [e1, e2']
    exact Or.inl ⟨rfl, rfl⟩
  · have e2' : copyLoop fuel fuel root1 (CreateHeaderGraph h).1 (CreateHeaderGraph h).2 = some h1 := e2
    rw [e1, e2']
    simp only [Option.bind_some]
    rcases rewire_spec R1 (fuel := fuel) ⟨by rw [hn]; exact hs.1, fun i hi => lt_of_le_of_lt (hsh i hi) (hs.2 i (hn ▸ hi))⟩ with
      ⟨e3, e4⟩ | ⟨cpy, h2, Λ3, e3, e4, R2, _, _⟩
    · rw [e3, e4]
      exact Or.inl ⟨rfl, rfl⟩
    · rw [e3, e4]
      exact Or.inr ⟨cpy, h2, _, Λ3, rfl, rfl, R2⟩

/-- C136. A network with distinct labels has a copy in memory, with the same nodes, labels and adjacency lists. -/
theorem C136_deep_copy (S : Rep h0 h root1 Λ1 src) {g : GR.WG} (hh : GR.Holds src g) (hl : GR.LabelsOK src)
    (hf : ∀ i, i < src.n → GR.fits (src.label i) = true) (hd : ∀ i k, i < src.n → k < src.n → src.label i = src.label k → i = k)
    {fuel : ℕ} (hs : Small src fuel) :
    ∃ cpy h' root2 Λ2, CopyNetwork fuel root1 h = some (root2, h') ∧ Rep h h' root2 Λ2 cpy ∧ Small cpy fuel ∧ cpy.n = src.n ∧
      ∀ i, i < src.n → cpy.label i = src.label i ∧ cpy.neig i = src.neig i := by
  obtain ⟨net, e, hn, h1, _⟩ := GR.C44_copy hh hl hf hd
  rcases C136_copy S hs with ⟨e2, _⟩ | ⟨cpy, h', root2, Λ2, e2, e3, R⟩
  · rw [e] at e2; cases e2
  · rw [e] at e2; cases e2
    exact ⟨net, h', root2, Λ2, e3, R, ⟨hn ▸ hs.1, fun i hi => by rw [(h1 i (hn ▸ hi)).2]; exact hs.2 i (hn ▸ hi)⟩, hn, h1⟩

/-- C136. Two networks one of which was made on top of the other have no block in common. -/
theorem C136_disjoint (S : Rep h0 h root1 Λ1 src) (R : Rep h h' root2 Λ2 cpy) {a : ℕ} (ha : Owned root1 Λ1 src.n a) :
    ¬ Owned root2 Λ2 cpy.n a := by
  intro hb
  obtain ⟨o, ho⟩ := S.live ha
  rw [R.own a hb] at ho
  cases ho

/-- The source after whatever has happened to a network made on top of it: it is there, and the rest of the memory is `h'` without it. -/
theorem C136_source (S : Rep h0 h root1 Λ1 src) (R : Rep h h' root2 Λ2 cpy) :
    ∃ k : Heap, Rep k h' root1 Λ1 src ∧ Rep h0 k root2 Λ2 cpy := by
  classical
  have hown : ∀ a, Owned root1 Λ1 src.n a → h'.mem a = h.mem a := by
    intro a ha
    obtain ⟨o, ho⟩ := S.live ha
    rw [ho]; exact R.keep ho
  refine ⟨⟨fun a => if Owned root1 Λ1 src.n a then none else h'.mem a, h'.brk⟩, S.frame hown R.ok (fun a ha => if_pos ha) (fun a ha => if_neg ha), ?_⟩
  have hk : ∀ a, Owned root2 Λ2 cpy.n a → (if Owned root1 Λ1 src.n a then none else h'.mem a) = h'.mem a :=
    fun a ha => if_neg fun hb => C136_disjoint S R hb ha
  refine R.frame (k := h0) (h' := ⟨fun a => if Owned root1 Λ1 src.n a then none else h'.mem a, h'.brk⟩) hk ⟨?_, ?_, R.pos⟩ ?_ ?_
  · intro a ha
    show (if _ then _ else _) = _
    split_ifs
    · rfl
    · exact R.fresh a ha
  · show (if _ then _ else _) = _
    split_ifs
    · rfl
    · exact R.null
  · intro a ha
    have hnot : ¬ Owned root1 Λ1 src.n a := fun hb => C136_disjoint S R hb ha
    have := R.own a ha
    rwa [S.out a (fun e => hnot (Or.inl e)) (fun i hi hm => hnot (Or.inr ⟨i, hi, hm⟩))] at this
  · intro a ha
    show _ = if _ then _ else _
    by_cases hb : Owned root1 Λ1 src.n a
    · rw [if_pos hb]; exact S.own a hb
    · rw [if_neg hb, R.out a (fun e => ha (Or.inl e)) (fun i hi hm => ha (Or.inr ⟨i, hi, hm⟩)),
        S.out a (fun e => hb (Or.inl e)) (fun i hi hm => hb (Or.inr ⟨i, hi, hm⟩))]

/-- C136. Changes of the copy do not show in the source. -/
theorem C136_changes_of_copy (S : Rep h0 h root1 Λ1 src) (R : Rep h h' root2 Λ2 cpy) (cs : List Cmd) {k fuel : ℕ} (hk : Small cpy k)
    (hf : k + cs.length ≤ fuel) (hi : ∀ c ∈ cs, c.index < fuel) {h2 : Heap} (e : run fuel root2 cs h' = some h2) :
    ∃ cpy' Λ', steps cs cpy = some cpy' ∧ Rep h h2 root2 Λ' cpy' ∧ ∀ i < src.n, NodeAt h2 Λ1 src i := by
  rcases run_spec cs k R hk hf hi with ⟨_, e2⟩ | ⟨cpy', h3, Λ', e1, e2, R', _⟩
  · rw [e] at e2; cases e2
  · rw [e] at e2; cases e2
    refine ⟨cpy', Λ', e1, R', fun i hi => (S.nodes i hi).congr fun a ha => ?_⟩
    obtain ⟨o, ho⟩ := (S.nodes i hi).live a ha
    rw [ho]; exact R'.keep ho

/-- C136. Changes of the source do not show in the copy. -/
theorem C136_changes_of_source (S : Rep h0 h root1 Λ1 src) (R : Rep h h' root2 Λ2 cpy) (cs : List Cmd) {k fuel : ℕ} (hk : Small src k)
    (hf : k + cs.length ≤ fuel) (hi : ∀ c ∈ cs, c.index < fuel) {h2 : Heap} (e : run fuel root1 cs h' = some h2) :
    ∃ src' Λ' g, steps cs src = some src' ∧ Rep g h2 root1 Λ' src' ∧ ∀ i < cpy.n, NodeAt h2 Λ2 cpy i := by
  obtain ⟨g, S', R'⟩ := C136_source S R
  rcases run_spec cs k S' hk hf hi with ⟨_, e2⟩ | ⟨src', h3, Λ', e1, e2, S2, _⟩
  · rw [e] at e2; cases e2
  · rw [e] at e2; cases e2
    refine ⟨src', Λ', g, e1, S2, fun i hi => (R'.nodes i hi).congr fun a ha => ?_⟩
    obtain ⟨o, ho⟩ := (R'.nodes i hi).live a ha
    rw [ho]; exact S2.keep ho

/-- C136. Removing the copy gives the memory as it was before the copy. -/
theorem C136_remove_copy (R : Rep h h' root2 Λ2 cpy) {fuel : ℕ} (hs : Small cpy fuel) :
    ∃ h2, RemoveGraph fuel fuel root2 h' = some h2 ∧ h2.mem = h.mem := C135_remove R hs.2 hs.1

/-- C136. Removing the source first leaves the copy as it is, and removing the copy then gives the memory as it was before both. -/
theorem C136_remove_source (S : Rep h0 h root1 Λ1 src) (R : Rep h h' root2 Λ2 cpy) {fuel : ℕ} (hs : Small src fuel) (hc : Small cpy fuel) :
    ∃ h2 h3, RemoveGraph fuel fuel root1 h' = some h2 ∧ Rep h0 h2 root2 Λ2 cpy ∧ RemoveGraph fuel fuel root2 h2 = some h3 ∧ h3.mem = h0.mem := by
  obtain ⟨g, S', R'⟩ := C136_source S R
  obtain ⟨h2, e1, e2, e3⟩ := remove_spec S' hs.2 hs.1
  have hfr : ∀ a, h2.brk ≤ a → h2.mem a = none := by
    intro a ha
    rw [e3] at ha
    have := S'.fresh_own ha
    rw [e2]; exact this
  have R2 : Rep h0 h2 root2 Λ2 cpy := by
    refine R'.frame (k := h0) (fun a _ => by rw [e2]) ⟨hfr, by rw [e2]; exact R'.null, by rw [e3]; exact S'.pos⟩ R'.own ?_
    intro a ha
    rw [e2]
    exact (R'.out a (fun e => ha (Or.inl e)) (fun i hi hm => ha (Or.inr ⟨i, hi, hm⟩))).symm
  obtain ⟨h3, e4, e5⟩ := C135_remove R2 hc.2 hc.1
  exact ⟨h2, h3, e1, R2, e4, e5⟩

/-- The sample network of C135, its copy, a change of the copy. -/
def sampleCopy : Option (ℕ × Heap × Heap) := do
  let h ← run 20 1 sample (CreateHeaderGraph empty).2
  let (root2, h1) ← CopyNetwork 20 1 h
  let h2 ← run 20 root2 [.node "d", .link 0 3 false false 1, .unlink 1 2 true] h1
  return (root2, h1, h2)

example : sampleCopy.map (fun r => (r.1, ((List.range r.2.1.brk).filter fun a => (r.2.1.mem a).isSome).length,
    ((List.range r.2.2.brk).filter fun a => (r.2.2.mem a).isSome).length)) = some (19, 28, 29) := by decide +kernel

/-- Removal of the source, then of the copy. -/
example : (sampleCopy.bind fun r => (RemoveGraph 20 20 1 r.2.2).bind (RemoveGraph 20 20 r.1)).map
    (fun h => ((List.range h.brk).filter fun a => (h.mem a).isSome).length) = some 0 := by decide +kernel

end HP
