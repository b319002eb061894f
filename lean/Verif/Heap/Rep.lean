import Verif.Heap.Lemmas

/-! # The functions keep the layout -/

namespace HP

variable {Λ : ℕ → Lay} {net : GR.Net} {h h' h0 : Heap} {root : ℕ}

theorem NodeAt.live {i : ℕ} (N : NodeAt h Λ net i) : ∀ a ∈ (Λ i).blocks, ∃ o, h.mem a = some o := by
  intro a ha
  unfold Lay.blocks at ha
  simp only [List.mem_cons] at ha
  rcases ha with rfl | rfl | rfl | ha
  · exact ⟨_, N.gra⟩
  · exact ⟨_, N.lab⟩
  · exact ⟨_, N.head⟩
  · exact N.cells.live a ha

theorem NodeAt.congr {i : ℕ} (N : NodeAt h Λ net i) (hs : ∀ a ∈ (Λ i).blocks, h'.mem a = h.mem a) : NodeAt h' Λ net i := by
  unfold Lay.blocks at hs
  refine ⟨?_, ?_, ?_, N.cells.congr fun a ha => hs a (by simp [ha])⟩
  · rw [hs _ (by simp)]; exact N.gra
  · rw [hs _ (by simp)]; exact N.lab
  · rw [hs _ (by simp)]; exact N.head

theorem addr_mem (l : Lay) : l.addr ∈ l.blocks := by simp [Lay.blocks]

theorem head_mem (l : Lay) : l.head ∈ l.blocks := by simp [Lay.blocks]

theorem lab_mem (l : Lay) : l.lab ∈ l.blocks := by simp [Lay.blocks]

theorem cell_mem {l : Lay} {a : ℕ} (ha : a ∈ cellBlocks l.cells) : a ∈ l.blocks := by simp [Lay.blocks, ha]

namespace Rep

theorem inj (R : Rep h0 h root Λ net) {i j : ℕ} (hi : i < net.n) (hj : j < net.n) (e : (Λ i).addr = (Λ j).addr) : i = j := by
  by_contra hne
  exact R.disj i hi j hj hne _ (addr_mem _) (e ▸ addr_mem _)

theorem addr_ne_zero (R : Rep h0 h root Λ net) {i : ℕ} (hi : i < net.n) : (Λ i).addr ≠ 0 := ne_zero_of R.null (R.nodes i hi).gra

theorem ref_iff (R : Rep h0 h root Λ net) {i j : ℕ} (hi : i < net.n) (hj : j < net.n) {l : GR.Link} (hl : l ∈ net.neig i) :
    refOf Λ l.ref = (Λ j).addr ↔ l.ref = some j := by
  cases e : l.ref with
  | none =>
    constructor
    · intro e2; exact absurd e2.symm (R.addr_ne_zero hj)
    · intro e2; cases e2
  | some k =>
    have hk := R.refs i hi l hl k e
    constructor
    · intro e2; rw [R.inj hk hj e2]
    · intro e2; cases e2; rfl

theorem not_own (R : Rep h0 h root Λ net) {a : ℕ} (ha : h.mem a = none) : a ≠ root ∧ ∀ i < net.n, a ∉ (Λ i).blocks := by
  constructor
  · rintro rfl; rw [R.header] at ha; cases ha
  · intro i hi hm
    obtain ⟨o, ho⟩ := (R.nodes i hi).live a hm
    rw [ho] at ha; cases ha

theorem fresh_own (R : Rep h0 h root Λ net) {a : ℕ} (ha : h.brk ≤ a) : h0.mem a = none := by
  have := R.not_own (R.fresh a ha)
  rw [← R.out a this.1 this.2]
  exact R.fresh a ha

/-- A change of the adjacency list of a node. -/
theorem links (R : Rep h0 h root Λ net) {i : ℕ} (hi : i < net.n) {cs' : List (ℕ × ℕ)} {ls' : List GR.Link}
    (hh : h'.mem (Λ i).head = some (.lis { node := -1, nodeLabel := 0, next := first cs', ref := 0, weight := 0 }))
    (hc : CellsAt h' Λ cs' ls') (C : Changed h h' (Λ i).head (Λ i).cells cs') (hr : ∀ l ∈ ls', ∀ j, l.ref = some j → j < net.n) :
    Rep h0 h' root (Function.update Λ i { Λ i with cells := cs' }) { net with neig := Function.update net.neig i ls' } := by
  have haddr : ∀ j, (Function.update Λ i { Λ i with cells := cs' } j).addr = (Λ j).addr := by
    intro j
    by_cases e : j = i
    · subst e; simp
    · simp [e]
  have hnode : ∀ n j, nodeOf (Function.update Λ i { Λ i with cells := cs' }) n j = nodeOf Λ n j := by
    intro n j; unfold nodeOf; rw [haddr]
  have href : ∀ r, refOf (Function.update Λ i { Λ i with cells := cs' }) r = refOf Λ r := by
    intro r; cases r with
    | none => rfl
    | some j => exact haddr j
  have Ni := R.nodes i hi
  -- blocks that are not in the list, and live before, are as before
  have hsame : ∀ a o, h.mem a = some o → a ≠ (Λ i).head → a ∉ cellBlocks (Λ i).cells → h'.mem a = h.mem a := by
    intro a o ha h1 h2
    refine C.same a h1 h2 fun h3 => ?_
    rcases C.new a h3 with h4 | h4
    · exact h2 h4
    · rw [R.fresh a h4] at ha; cases ha
  have hother : ∀ j < net.n, j ≠ i → ∀ a ∈ (Λ j).blocks, h'.mem a = h.mem a := by
    intro j hj hne a ha
    obtain ⟨o, ho⟩ := (R.nodes j hj).live a ha
    have := R.disj j hj i hi hne a ha
    exact hsame a o ho (fun e => this (e ▸ head_mem _)) (fun e => this (cell_mem e))
  have hnd := R.nodup i hi
  unfold Lay.blocks at hnd
  have hnd1 := List.nodup_cons.1 hnd
  have hnd2 := List.nodup_cons.1 hnd1.2
  have hnd3 := List.nodup_cons.1 hnd2.2
  have hnotnew : ∀ a o, h.mem a = some o → a ∉ cellBlocks (Λ i).cells → a ∉ cellBlocks cs' := by
    intro a o ha h1 h2
    rcases C.new a h2 with h3 | h3
    · exact h1 h3
    · rw [R.fresh a h3] at ha; cases ha
  refine ⟨?_, ?_, ?_, ?_, ?_, ?_, ?_, ?_, C.fresh, ?_, lt_of_lt_of_le R.pos C.brk⟩
  · rw [hsame root _ R.header (fun e => R.rootN i hi (e ▸ head_mem _)) (fun e => R.rootN i hi (cell_mem e)), R.header, hnode]
  · intro j hj
    by_cases e : j = i
    · subst e
      refine ⟨?_, ?_, ?_, ?_⟩
      · rw [haddr, hnode, Function.update_self]
        simp only
        rw [hsame _ _ Ni.gra (fun e => hnd1.1 (by simp [e])) (fun e => hnd1.1 (by simp [e]))]
        exact Ni.gra
      · rw [Function.update_self]
        simp only
        rw [hsame _ _ Ni.lab (fun e => hnd2.1 (by simp [e])) (fun e => hnd2.1 (by simp [e]))]
        exact Ni.lab
      · rw [Function.update_self]
        exact hh
      · rw [Function.update_self]
        simp only [Function.update_self]
        exact hc.relay fun l _ => href _
    · have Nj := (R.nodes j hj).congr (hother j hj e)
      refine ⟨?_, ?_, ?_, ?_⟩
      · rw [hnode, Function.update_of_ne e]; exact Nj.gra
      · rw [Function.update_of_ne e]; exact Nj.lab
      · rw [Function.update_of_ne e]; exact Nj.head
      · rw [Function.update_of_ne e]
        simp only [Function.update_of_ne e]
        exact Nj.cells.relay fun l _ => href _
  · intro j hj l hl k hk
    by_cases e : j = i
    · subst e
      simp only [Function.update_self] at hl
      exact hr l hl k hk
    · simp only [Function.update_of_ne e] at hl
      exact R.refs j hj l hl k hk
  · intro j hj
    by_cases e : j = i
    · subst e
      rw [Function.update_self]
      unfold Lay.blocks
      simp only
      refine List.nodup_cons.2 ⟨?_, List.nodup_cons.2 ⟨?_, List.nodup_cons.2 ⟨?_, C.nodup⟩⟩⟩
      · simp only [List.mem_cons, not_or]
        exact ⟨fun e => hnd1.1 (by simp [e]), fun e => hnd1.1 (by simp [e]), hnotnew _ _ Ni.gra (fun e => hnd1.1 (by simp [e]))⟩
      · simp only [List.mem_cons, not_or]
        exact ⟨fun e => hnd2.1 (by simp [e]), hnotnew _ _ Ni.lab (fun e => hnd2.1 (by simp [e]))⟩
      · exact hnotnew _ _ Ni.head hnd3.1
    · rw [Function.update_of_ne e]; exact R.nodup j hj
  · have key : ∀ j < net.n, j ≠ i → ∀ a ∈ (Λ j).blocks, a ∉ ({ Λ i with cells := cs' } : Lay).blocks := by
      intro j hj hne a ha hb
      obtain ⟨o, ho⟩ := (R.nodes j hj).live a ha
      have := R.disj j hj i hi hne a ha
      unfold Lay.blocks at hb this
      simp only [List.mem_cons, not_or] at hb this
      rcases hb with hb | hb | hb | hb
      · exact this.1 hb
      · exact this.2.1 hb
      · exact this.2.2.1 hb
      · exact hnotnew a o ho this.2.2.2 hb
    intro j hj k hk hne a ha
    by_cases e : j = i
    · subst e
      rw [Function.update_self] at ha
      rw [Function.update_of_ne (Ne.symm hne)]
      intro hb
      exact key k hk (Ne.symm hne) a hb ha
    · rw [Function.update_of_ne e] at ha
      by_cases e2 : k = i
      · subst e2
        rw [Function.update_self]
        exact key j hj e a ha
      · rw [Function.update_of_ne e2]
        exact R.disj j hj k hk hne a ha
  · intro j hj
    by_cases e : j = i
    · subst e
      rw [Function.update_self]
      intro hb
      have := R.rootN j hi
      unfold Lay.blocks at hb this
      simp only [List.mem_cons, not_or] at hb this
      rcases hb with hb | hb | hb | hb
      · exact this.1 hb
      · exact this.2.1 hb
      · exact this.2.2.1 hb
      · exact hnotnew root _ R.header this.2.2.2 hb
    · rw [Function.update_of_ne e]; exact R.rootN j hj
  · intro a ha hb
    have hbi := hb i hi
    rw [Function.update_self] at hbi
    unfold Lay.blocks at hbi
    simp only [List.mem_cons, not_or] at hbi
    by_cases hg : a ∈ cellBlocks (Λ i).cells
    · rw [C.gone a hg hbi.2.2.2, R.own a (Or.inr ⟨i, hi, cell_mem hg⟩)]
    · rw [C.same a hbi.2.2.1 hg hbi.2.2.2]
      refine R.out a ha fun j hj => ?_
      by_cases e : j = i
      · subst e
        unfold Lay.blocks
        simp only [List.mem_cons, not_or]
        exact ⟨hbi.1, hbi.2.1, hbi.2.2.1, hg⟩
      · have := hb j hj
        rwa [Function.update_of_ne e] at this
  · intro a ha
    rcases ha with rfl | ⟨j, hj, ha⟩
    · exact R.own _ (Or.inl rfl)
    · by_cases e : j = i
      · subst e
        rw [Function.update_self] at ha
        unfold Lay.blocks at ha
        simp only [List.mem_cons] at ha
        rcases ha with rfl | rfl | rfl | ha
        · exact R.own _ (Or.inr ⟨j, hj, addr_mem _⟩)
        · exact R.own _ (Or.inr ⟨j, hj, lab_mem _⟩)
        · exact R.own _ (Or.inr ⟨j, hj, head_mem _⟩)
        · rcases C.new a ha with h3 | h3
          · exact R.own _ (Or.inr ⟨j, hj, cell_mem h3⟩)
          · exact R.fresh_own h3
      · rw [Function.update_of_ne e] at ha
        exact R.own _ (Or.inr ⟨j, hj, ha⟩)
  · by_cases hz : (0 : ℕ) ∈ cellBlocks (Λ i).cells
    · obtain ⟨o, ho⟩ := Ni.cells.live 0 hz
      rw [R.null] at ho; cases ho
    · have h0 : (0 : ℕ) ∉ cellBlocks cs' := by
        intro h2
        rcases C.new 0 h2 with h3 | h3
        · exact hz h3
        · have := R.pos; omega
      rw [C.same 0 (fun e => (ne_zero_of R.null Ni.head) e.symm) hz h0]
      exact R.null

/-- `resetCaches`. -/
theorem reset (R : Rep h0 h root Λ net) {i : ℕ} (hi : i < net.n) :
    ∃ h', resetCaches (Λ i).addr h = some h' ∧ Rep h0 h' root Λ (GR.resetCaches net i) ∧ h'.brk = h.brk := by
  have Ni := R.nodes i hi
  refine ⟨h.set (Λ i).addr (.gra ⟨(Λ i).lab, i, (Λ i).head, nodeOf Λ net.n (i + 1), 0, 0⟩), by rw [resetCaches, Heap.gra_of Ni.gra]; rfl, ?_, rfl⟩
  have hnd := R.nodup i hi
  unfold Lay.blocks at hnd
  have hnd1 := List.nodup_cons.1 hnd
  have hne : ∀ a, a ≠ (Λ i).addr → (h.set (Λ i).addr (.gra ⟨(Λ i).lab, i, (Λ i).head, nodeOf Λ net.n (i + 1), 0, 0⟩)).mem a = h.mem a :=
    fun a ha => mem_set_ne _ ha
  refine ⟨?_, ?_, R.refs, R.nodup, R.disj, R.rootN, ?_, R.own, ?_, ?_, R.pos⟩
  · rw [hne root (fun e => R.rootN i hi (e ▸ addr_mem _))]; exact R.header
  · intro j hj
    by_cases e : j = i
    · subst e
      refine ⟨?_, ?_, ?_, ?_⟩
      · rw [mem_set_self]
        simp [GR.resetCaches]
      · rw [hne _ (fun e => hnd1.1 (by simp [← e]))]; exact Ni.lab
      · rw [hne _ (fun e => hnd1.1 (by simp [← e]))]; exact Ni.head
      · exact Ni.cells.congr fun a ha => hne a (by rintro rfl; exact hnd1.1 (by simp [ha]))
    · have Nj := (R.nodes j hj).congr (h' := h.set (Λ i).addr (.gra ⟨(Λ i).lab, i, (Λ i).head, nodeOf Λ net.n (i + 1), 0, 0⟩))
        (fun a ha => hne a (by rintro rfl; exact R.disj j hj i hi e _ ha (addr_mem _)))
      refine ⟨?_, Nj.lab, Nj.head, Nj.cells⟩
      rw [Nj.gra]
      simp [GR.resetCaches, e]
  · intro a ha hb
    rw [hne a (by rintro rfl; exact hb i hi (addr_mem _))]
    exact R.out a ha hb
  · intro a ha
    have ha : h.brk ≤ a := ha
    have := lt_brk_of R.fresh Ni.gra
    rw [hne a (by omega)]
    exact R.fresh a ha
  · rw [hne 0 (fun e => R.addr_ne_zero hi e.symm)]
    exact R.null

/-- `AddAdjacency`. -/
theorem add (R : Rep h0 h root Λ net) {i j : ℕ} (hi : i < net.n) (hj : j < net.n) (auto add : Bool) (w : ℚ) {fuel : ℕ}
    (hf : (net.neig i).length < fuel) :
    ∃ h' Λ', AddAdjacency fuel (Λ i).addr (Λ j).addr auto add w h = some ((GR.AddAdjacency net i j auto add w).1, h') ∧
      Rep h0 h' root Λ' (GR.AddAdjacency net i j auto add w).2 ∧ ∀ k, (Λ' k).addr = (Λ k).addr := by
  unfold AddAdjacency GR.AddAdjacency
  by_cases hc : i = j ∧ auto = false
  · rw [if_pos ⟨by rw [hc.1], hc.2⟩, if_pos hc]
    exact ⟨h, Λ, rfl, R, fun _ => rfl⟩
  · rw [if_neg (fun e => hc ⟨R.inj hi hj e.1, e.2⟩), if_neg hc]
    obtain ⟨h1, e1, R1, _⟩ := R.reset hi
    obtain ⟨h2, e2, R2, _⟩ := R1.reset (i := j) hj
    rw [e1]
    simp only [Option.bind_eq_bind, Option.bind_some]
    rw [e2]
    simp only [Option.bind_some]
    have Ni := R2.nodes i hi
    have Nj := R2.nodes j hj
    rw [Heap.gra_of Ni.gra]
    simp only [Option.bind_some]
    have hnd := R2.nodup i hi
    unfold Lay.blocks at hnd
    have hnd3 := (List.nodup_cons.1 (List.nodup_cons.1 hnd).2).2
    obtain ⟨cs', h3, e3, hh, hcl, C⟩ := addWalk_spec (Λ := Λ) add w Nj.gra rfl Nj.lab rfl R2.fresh R2.null R2.pos (Λ i).cells _ fuel (Λ i).head _
      Ni.cells Ni.head rfl hnd3 (fun l hl => R2.ref_iff hi hj hl) (by rw [Ni.cells.length_eq]; exact hf)
    refine ⟨h3, _, e3, R2.links hi hh hcl C ?_, ?_⟩
    · intro l hl k hk
      have : ∀ ls : List GR.Link, (∀ l ∈ ls, ∀ k, l.ref = some k → k < net.n) →
          ∀ l ∈ (GR.addLink j ((GR.resetCaches (GR.resetCaches net i) j).label j) add w ls).2, ∀ k, l.ref = some k → k < net.n := by
        intro ls
        induction ls with
        | nil =>
          intro _ l hl k hk
          simp only [GR.addLink, List.mem_singleton] at hl
          subst hl
          cases hk
          exact hj
        | cons x xs ih =>
          intro hx l hl k hk
          rw [GR.addLink] at hl
          split_ifs at hl
          · simp only [List.mem_cons] at hl
            rcases hl with rfl | hl
            · exact hx x (by simp) k hk
            · exact hx l (by simp [hl]) k hk
          · exact hx l hl k hk
          · simp only [List.mem_cons] at hl
            rcases hl with rfl | hl
            · exact hx _ (by simp) k hk
            · exact ih (fun l hl => hx l (by simp [hl])) l hl k hk
      exact this _ (R2.refs i hi) l hl k hk
    · intro k
      by_cases e : k = i
      · subst e; simp
      · simp [e]

theorem dropLink_sub {j : ℕ} : ∀ {ls ls' : List GR.Link}, GR.dropLink j ls = some ls' → ∀ l ∈ ls', l ∈ ls
  | [], _, e => by cases e
  | x :: xs, ls', e => by
    rw [GR.dropLink] at e
    split_ifs at e
    · cases e; intro l hl; simp [hl]
    · cases e2 : GR.dropLink j xs with
      | none => rw [e2] at e; cases e
      | some ys =>
        rw [e2] at e
        cases e
        intro l hl
        rcases List.mem_cons.1 hl with rfl | hl
        · simp
        · simp [dropLink_sub e2 l hl]

/-- The removal of one direction of a link. -/
theorem drop (R : Rep h0 h root Λ net) {i j : ℕ} (hi : i < net.n) (hj : j < net.n) {fuel : ℕ} (hf : (net.neig i).length < fuel) :
    (GR.dropLink j (net.neig i) = none ∧ dropWalk (Λ j).addr fuel (Λ i).head h = none) ∨
    ∃ ls' h' Λ', GR.dropLink j (net.neig i) = some ls' ∧ dropWalk (Λ j).addr fuel (Λ i).head h = some h' ∧
      Rep h0 h' root Λ' { net with neig := Function.update net.neig i ls' } ∧ ∀ k, (Λ' k).addr = (Λ k).addr ∧ (Λ' k).head = (Λ k).head := by
  have Ni := R.nodes i hi
  have hnd := R.nodup i hi
  unfold Lay.blocks at hnd
  have hnd3 := (List.nodup_cons.1 (List.nodup_cons.1 hnd).2).2
  rcases dropWalk_spec (Λ := Λ) (node2 := (Λ j).addr) (j := j) R.fresh R.null (Λ i).cells _ fuel (Λ i).head _ Ni.cells Ni.head rfl hnd3
    (fun l hl => R.ref_iff hi hj hl) (by rw [Ni.cells.length_eq]; exact hf) with e | ⟨ls', cs', h3, e1, e2, hh, hcl, C⟩
  · exact Or.inl e
  · refine Or.inr ⟨ls', h3, _, e1, e2, R.links hi hh hcl C ?_, ?_⟩
    · exact fun l hl => R.refs i hi l (dropLink_sub e1 l hl)
    · intro k
      by_cases e : k = i
      · subst e; simp
      · simp [e]

/-- `RemoveLink`. -/
theorem remove (R : Rep h0 h root Λ net) {i j : ℕ} (hi : i < net.n) (hj : j < net.n) (sym : Bool) {fuel : ℕ}
    (hf : ∀ k < net.n, (net.neig k).length < fuel) :
    (GR.RemoveLink net i j sym = none ∧ RemoveLink fuel (Λ i).addr (Λ j).addr sym h = none) ∨
    ∃ net' h' Λ', GR.RemoveLink net i j sym = some net' ∧ RemoveLink fuel (Λ i).addr (Λ j).addr sym h = some h' ∧
      Rep h0 h' root Λ' net' ∧ ∀ k, (Λ' k).addr = (Λ k).addr := by
  unfold RemoveLink GR.RemoveLink
  obtain ⟨h1, e1, R1, _⟩ := R.reset hi
  obtain ⟨h2, e2, R2, _⟩ := R1.reset (i := j) hj
  rw [e1]
  simp only [Option.bind_eq_bind, Option.bind_some]
  rw [e2]
  simp only [Option.bind_some]
  rw [Heap.gra_of (R2.nodes i hi).gra]
  simp only [Option.bind_some]
  rcases R2.drop hi hj (hf i hi) with ⟨d1, d2⟩ | ⟨ls', h3, Λ3, d1, d2, R3, hA⟩
  · rw [d1, d2]
    exact Or.inl ⟨rfl, rfl⟩
  · rw [d1, d2]
    simp only [Option.bind_some]
    by_cases hc : sym = true ∧ i ≠ j
    · rw [if_pos hc, if_pos ⟨hc.1, fun e => hc.2 (R.inj hi hj e)⟩]
      rw [← (hA j).1, Heap.gra_of (R3.nodes j hj).gra]
      simp only [Option.bind_some]
      have hlen : (Function.update (GR.resetCaches (GR.resetCaches net i) j).neig i ls' j).length < fuel := by
        rw [Function.update_of_ne (Ne.symm hc.2)]
        exact hf j hj
      rcases R3.drop (i := j) (j := i) hj hi hlen with ⟨g1, g2⟩ | ⟨ls2, h4, Λ4, g1, g2, R4, hA4⟩
      · rw [← (hA i).1, g2]
        simp only at g1
        rw [g1]
        exact Or.inl ⟨rfl, rfl⟩
      · rw [← (hA i).1, g2]
        simp only at g1
        rw [g1]
        exact Or.inr ⟨_, h4, Λ4, rfl, rfl, R4, fun k => (hA4 k).1.trans (hA k).1⟩
    · rw [if_neg hc, if_neg (fun e => hc ⟨e.1, fun e2 => e.2 (by rw [e2])⟩)]
      exact Or.inr ⟨_, h3, Λ3, rfl, rfl, R3, fun k => (hA k).1⟩

end Rep

end HP
