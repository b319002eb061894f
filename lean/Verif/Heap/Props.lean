import Verif.Heap.Rep

/-! # C135: networks in memory -/

namespace HP

variable {Λ : ℕ → Lay} {net : GR.Net} {h h' h0 : Heap} {root : ℕ}

/-- A heap as `calloc` and `free` leave it. -/
structure Heap.OK (h : Heap) : Prop where
  fresh : ∀ a, h.brk ≤ a → h.mem a = none
  null : h.mem 0 = none
  pos : 0 < h.brk

theorem header_rep (hk : h0.OK) (Λ : ℕ → Lay) :
    Rep h0 (CreateHeaderGraph h0).2 (CreateHeaderGraph h0).1 Λ GR.CreateHeaderGraph := by
  have hno : ∀ {P : ℕ → Prop}, ∀ i < GR.CreateHeaderGraph.n, P i := fun i hi => absurd hi (Nat.not_lt_zero i)
  refine ⟨?_, hno, hno, hno, hno, hno, ?_, ?_, ?_, ?_, ?_⟩
  · simp [CreateHeaderGraph, Heap.calloc, nodeOf, GR.CreateHeaderGraph]
  · intro a ha _
    have ha : a ≠ h0.brk := ha
    simp [CreateHeaderGraph, Heap.calloc, ha]
  · intro a ha
    rcases ha with rfl | ⟨i, hi, _⟩
    · exact hk.fresh _ (le_refl _)
    · exact absurd hi (Nat.not_lt_zero i)
  · intro a ha
    have ha : h0.brk + 1 ≤ a := ha
    simp only [CreateHeaderGraph, Heap.calloc]
    rw [Function.update_of_ne (by omega)]
    exact hk.fresh a (by omega)
  · have := hk.pos
    simp only [CreateHeaderGraph, Heap.calloc]
    rw [Function.update_of_ne (by omega)]
    exact hk.null
  · exact Nat.succ_pos _

/-! ## Nodes -/

theorem last_from (R : Rep h0 h root Λ net) : ∀ (k i fuel : ℕ), i + k + 1 = net.n → k < fuel →
    lastGra fuel (Λ i).addr h = some (Λ (i + k)).addr
  | _, _, 0, _, hf => by omega
  | 0, i, fuel + 1, hk, _ => by
    rw [lastGra, Heap.gra_of (R.nodes i (by omega)).gra]
    simp only [Option.bind_eq_bind, Option.bind_some, Option.pure_def, Nat.add_zero]
    rw [if_pos (by unfold nodeOf; rw [if_neg (by omega)])]
  | k + 1, i, fuel + 1, hk, hf => by
    rw [lastGra, Heap.gra_of (R.nodes i (by omega)).gra]
    simp only [Option.bind_eq_bind, Option.bind_some, Option.pure_def]
    have e : nodeOf Λ net.n (i + 1) = (Λ (i + 1)).addr := by unfold nodeOf; rw [if_pos (by omega)]
    rw [if_neg (by rw [e]; exact R.addr_ne_zero (by omega)), e, last_from R k (i + 1) fuel (by omega) (by omega)]
    rw [show i + 1 + k = i + (k + 1) by omega]

/-- Address of the last node, or of the header. -/
def lastOf (root : ℕ) (Λ : ℕ → Lay) (n : ℕ) : ℕ := if n = 0 then root else (Λ (n - 1)).addr

theorem last_root (R : Rep h0 h root Λ net) {fuel : ℕ} (hf : net.n < fuel) : lastGra fuel root h = some (lastOf root Λ net.n) := by
  obtain ⟨f, rfl⟩ : ∃ f, fuel = f + 1 := ⟨fuel - 1, by omega⟩
  rw [lastGra, Heap.gra_of R.header]
  simp only [Option.bind_eq_bind, Option.bind_some, Option.pure_def]
  unfold lastOf
  by_cases hn : net.n = 0
  · rw [if_pos (by unfold nodeOf; rw [if_neg (by omega)]), if_pos hn]
  · have e : nodeOf Λ net.n 0 = (Λ 0).addr := by unfold nodeOf; rw [if_pos (by omega)]
    rw [if_neg (by rw [e]; exact R.addr_ne_zero (by omega)), if_neg hn, e, last_from R (net.n - 1) 0 f (by omega) (by omega), Nat.zero_add]

theorem new_blocks (b : ℕ) : (⟨b, b + 1, b + 2, []⟩ : Lay).blocks = [b, b + 1, b + 2] := rfl

/-- The heap after `CreateNodeGraph`: the last node `q` with the new `next`, three new blocks. -/
def withNode (h : Heap) (q : ℕ) (x : Gra) (label : String) (num : Int) : Heap :=
  Heap.set ⟨Function.update (Function.update ((Heap.set ⟨Function.update h.mem h.brk (some (.gra ⟨0, 0, 0, 0, 0, 0⟩)), h.brk + 1⟩ q
    (.gra { x with next := h.brk })).mem) (h.brk + 1) (some (.str label))) (h.brk + 2) (some (.lis ⟨-1, 0, 0, 0, 0⟩)), h.brk + 3⟩ h.brk
    (.gra ⟨h.brk + 1, num, h.brk + 2, 0, 0, 0⟩)

theorem withNode_mem {q : ℕ} (hq : q < h.brk) (x : Gra) (label : String) (num : Int) (a : ℕ) :
    (withNode h q x label num).mem a = if a = h.brk then some (.gra ⟨h.brk + 1, num, h.brk + 2, 0, 0, 0⟩)
      else if a = h.brk + 2 then some (.lis ⟨-1, 0, 0, 0, 0⟩) else if a = h.brk + 1 then some (.str label)
      else if a = q then some (.gra { x with next := h.brk }) else h.mem a := by
  unfold withNode Heap.set
  simp only [Function.update_apply]
  split_ifs <;> first | rfl | omega

/-- `CreateNodeGraph`, from any node of the network or its header. -/
theorem Rep.node (R : Rep h0 h root Λ net) {p fuel : ℕ} (hp : lastGra fuel p h = some (lastOf root Λ net.n)) {label : String}
    (hl : GR.fits label = true) :
    ∃ h' Λ', CreateNodeGraph fuel p label h = some ((Λ' net.n).addr, h') ∧ (∀ k < net.n, Λ' k = Λ k) ∧
      ∃ net', GR.CreateNodeGraph net label = some (net.n, net') ∧ Rep h0 h' root Λ' net' := by
  set q := lastOf root Λ net.n with hq
  obtain ⟨x, hx, hxn⟩ : ∃ x, h.mem q = some (.gra x) ∧ x.num + 1 = net.n := by
    rw [hq]
    unfold lastOf
    split_ifs with hn
    · exact ⟨_, R.header, by simp [hn]⟩
    · exact ⟨_, (R.nodes (net.n - 1) (by omega)).gra, by simp only; omega⟩
  have hqb := lt_brk_of R.fresh hx
  set Λ' := Function.update Λ net.n ⟨h.brk, h.brk + 1, h.brk + 2, []⟩ with hΛ
  have hne : ∀ k < net.n, Λ' k = Λ k := fun k hk => Function.update_of_ne (by omega) _ _
  have hnew : Λ' net.n = ⟨h.brk, h.brk + 1, h.brk + 2, []⟩ := Function.update_self ..
  have hold : ∀ a o, h.mem a = some o → a ≠ q → (withNode h q x label (x.num + 1)).mem a = h.mem a := by
    intro a o ha hq
    have := lt_brk_of R.fresh ha
    rw [withNode_mem hqb, if_neg (by omega), if_neg (by omega), if_neg (by omega), if_neg hq]
  have hatq : (withNode h q x label (x.num + 1)).mem q = some (.gra { x with next := h.brk }) := by
    rw [withNode_mem hqb, if_neg (by omega), if_neg (by omega), if_neg (by omega), if_pos rfl]
  have hlive : ∀ i < net.n, ∀ a ∈ (Λ i).blocks, a < h.brk := by
    intro i hi a ha
    obtain ⟨o, ho⟩ := (R.nodes i hi).live a ha
    exact lt_brk_of R.fresh ho
  refine ⟨withNode h q x label (x.num + 1), Λ', ?_, hne, _, by rw [GR.CreateNodeGraph, if_pos hl], ?_⟩
  · rw [CreateNodeGraph, hp]
    simp only [Option.bind_eq_bind, Option.bind_some]
    rw [Heap.gra_of hx]
    simp only [Option.bind_some, hnew]
    rw [if_pos hl]
    rfl
  · refine ⟨?_, ?_, ?_, ?_, ?_, ?_, ?_, ?_, ?_, ?_, ?_⟩
    · -- header
      simp only
      have e0 : nodeOf Λ' (net.n + 1) 0 = (Λ' 0).addr := by unfold nodeOf; rw [if_pos (by omega)]
      rw [e0]
      by_cases hn : net.n = 0
      · have hqr : q = root := by rw [hq]; unfold lastOf; rw [if_pos hn]
        have hxr := R.header
        rw [← hqr, hx] at hxr
        simp only [Option.some.injEq, Obj.gra.injEq] at hxr
        rw [← hqr, hatq, hxr]
        rw [hn] at hnew
        simp [hnew]
      · have hqr : root ≠ q := by
          rw [hq]; unfold lastOf; rw [if_neg hn]
          intro e
          exact R.rootN (net.n - 1) (by omega) (e ▸ addr_mem _)
        rw [hold root _ R.header hqr, R.header, hne 0 (by omega)]
        unfold nodeOf
        rw [if_pos (by omega)]
    · -- nodes
      intro i hi
      have hi : i < net.n + 1 := hi
      by_cases e : i = net.n
      · subst e
        have hb : ∀ a, (withNode h q x label (x.num + 1)).mem a = _ := withNode_mem hqb x label (x.num + 1)
        refine ⟨?_, ?_, ?_, ?_⟩
        · rw [hnew, hb, if_pos rfl]
          simp [nodeOf, hxn]
        · rw [hnew]
          simp only
          rw [hb, if_neg (by omega), if_neg (by omega), if_pos rfl]
          simp
        · rw [hnew]
          simp only
          rw [hb, if_neg (by omega), if_pos rfl]
          rfl
        · rw [hnew]
          simp [CellsAt]
      · have hi' : i < net.n := by omega
        have N := R.nodes i hi'
        have hblk : ∀ a ∈ (Λ i).blocks, a ≠ (Λ i).addr → (withNode h q x label (x.num + 1)).mem a = h.mem a := by
          intro a ha hne2
          obtain ⟨o, ho⟩ := N.live a ha
          refine hold a o ho ?_
          rw [hq]
          unfold lastOf
          rw [if_neg (by omega)]
          intro e2
          by_cases e3 : i = net.n - 1
          · rw [← e3] at e2; exact hne2 e2
          · exact R.disj i hi' (net.n - 1) (by omega) e3 a ha (e2 ▸ addr_mem _)
        have hnd := List.nodup_cons.1 (by have := R.nodup i hi'; unfold Lay.blocks at this; exact this)
        refine ⟨?_, ?_, ?_, ?_⟩
        · rw [hne i hi']
          by_cases e3 : i = net.n - 1
          · have hqa : (Λ i).addr = q := by rw [hq]; unfold lastOf; rw [if_neg (by omega), e3]
            have hxi := N.gra
            rw [hqa, hx] at hxi
            simp only [Option.some.injEq, Obj.gra.injEq] at hxi
            rw [hqa, hatq, hxi]
            have e4 : nodeOf Λ' (net.n + 1) (i + 1) = h.brk := by
              unfold nodeOf; rw [if_pos (by omega), show i + 1 = net.n by omega, hnew]
            simp [e4, e]
          · have hqa : (Λ i).addr ≠ q := by
              rw [hq]; unfold lastOf; rw [if_neg (by omega)]
              intro e4
              exact e3 (R.inj hi' (by omega) e4)
            rw [hold _ _ N.gra hqa, N.gra]
            have e4 : nodeOf Λ' (net.n + 1) (i + 1) = nodeOf Λ net.n (i + 1) := by
              unfold nodeOf; rw [if_pos (by omega), if_pos (by omega), hne _ (by omega)]
            simp [e4, e]
        · rw [hne i hi', hblk _ (lab_mem _) (fun e => hnd.1 (by simp [← e])), N.lab]
          simp [e]
        · rw [hne i hi', hblk _ (head_mem _) (fun e => hnd.1 (by simp [← e])), N.head]
        · rw [hne i hi']
          have hc := N.cells.congr (h' := withNode h q x label (x.num + 1)) fun a ha =>
            hblk a (cell_mem ha) (by rintro rfl; exact hnd.1 (by simp [ha]))
          have hc := hc.relay (Λ' := Λ') fun l hl => by
            cases er : l.ref with
            | none => rfl
            | some j =>
              show (Λ' j).addr = (Λ j).addr
              rw [hne j (R.refs i hi' l hl j er)]
          simpa [e] using hc
    · intro i hi l hl j hj
      have hi : i < net.n + 1 := hi
      show j < net.n + 1
      by_cases e : i = net.n
      · subst e; simp at hl
      · have := R.refs i (by omega) l (by simpa [e] using hl) j hj
        omega
    · intro i hi
      have hi : i < net.n + 1 := hi
      by_cases e : i = net.n
      · subst e
        rw [hnew, new_blocks]
        simp
      · rw [hne i (by omega)]; exact R.nodup i (by omega)
    · intro i hi j hj hij a ha hb
      have hi : i < net.n + 1 := hi
      have hj : j < net.n + 1 := hj
      by_cases e : i = net.n
      · subst e
        rw [hne j (by omega)] at hb
        have := hlive j (by omega) a hb
        rw [hnew, new_blocks] at ha
        simp at ha
        omega
      · rw [hne i (by omega)] at ha
        by_cases e2 : j = net.n
        · subst e2
          have := hlive i (by omega) a ha
          rw [hnew, new_blocks] at hb
          simp at hb
          omega
        · rw [hne j (by omega)] at hb
          exact R.disj i (by omega) j (by omega) hij a ha hb
    · intro i hi hb
      have hi : i < net.n + 1 := hi
      by_cases e : i = net.n
      · subst e
        have := lt_brk_of R.fresh R.header
        rw [hnew, new_blocks] at hb
        simp at hb
        omega
      · rw [hne i (by omega)] at hb
        exact R.rootN i (by omega) hb
    · intro a ha hb
      have hbn := hb net.n (Nat.lt_succ_self _)
      rw [hnew, new_blocks] at hbn
      simp at hbn
      have hb' : ∀ i < net.n, a ∉ (Λ i).blocks := by
        intro i hi
        have := hb i (Nat.lt_succ_of_lt hi)
        rwa [hne i hi] at this
      rw [withNode_mem hqb, if_neg hbn.1, if_neg hbn.2.2, if_neg hbn.2.1, if_neg]
      · exact R.out a ha hb'
      · rw [hq]
        unfold lastOf
        split_ifs with hn
        · exact ha
        · rintro rfl
          exact hb' (net.n - 1) (by omega) (addr_mem _)
    · intro a ha
      rcases ha with rfl | ⟨i, hi, ha⟩
      · exact R.own _ (Or.inl rfl)
      · have hi : i < net.n + 1 := hi
        by_cases e : i = net.n
        · subst e
          rw [hnew, new_blocks] at ha
          simp at ha
          exact R.fresh_own (by omega)
        · rw [hne i (by omega)] at ha
          exact R.own _ (Or.inr ⟨i, by omega, ha⟩)
    · intro a ha
      have ha : h.brk + 3 ≤ a := ha
      rw [withNode_mem hqb, if_neg (by omega), if_neg (by omega), if_neg (by omega), if_neg (by omega)]
      exact R.fresh a (by omega)
    · have := R.pos
      have := ne_zero_of R.null hx
      rw [withNode_mem hqb, if_neg (by omega), if_neg (by omega), if_neg (by omega), if_neg (by omega)]
      exact R.null
    · exact Nat.succ_pos _

theorem node_overflow {p fuel : ℕ} {label : String} (hl : GR.fits label = false) : CreateNodeGraph fuel p label h = none := by
  rw [CreateNodeGraph]
  cases lastGra fuel p h with
  | none => rfl
  | some q =>
    simp only [Option.bind_eq_bind, Option.bind_some]
    cases h.gra q with
    | none => rfl
    | some x => simp [hl]

/-- `GetNode`. -/
theorem get_from (R : Rep h0 h root Λ net) : ∀ (fuel i k p : ℕ) (x : Gra), h.mem p = some (.gra x) → x.next = nodeOf Λ net.n k → k ≤ i →
    i < k + fuel → GetNode fuel i p h = if i < net.n then some (Λ i).addr else none
  | 0, i, k, _, _, _, _, _, hf => by omega
  | fuel + 1, i, k, p, x, hp, hx, hki, hf => by
    rw [GetNode, Heap.gra_of hp]
    simp only [Option.bind_eq_bind, Option.bind_some, Option.pure_def]
    by_cases hk : k < net.n
    · have e : x.next = (Λ k).addr := by rw [hx]; unfold nodeOf; rw [if_pos hk]
      have N := R.nodes k hk
      rw [e, Heap.gra_of N.gra]
      simp only [Option.bind_some]
      by_cases hik : k = i
      · subst hik
        rw [if_neg (by simp), if_pos hk]
      · rw [if_pos (by simpa using hik)]
        exact get_from R fuel i (k + 1) _ _ N.gra rfl (by omega) (by omega)
    · have e : x.next = 0 := by rw [hx]; unfold nodeOf; rw [if_neg hk]
      rw [e, Heap.gra_none R.null, if_neg (by omega)]
      rfl

/-- `GetNode` finds the node with a number; without one it dereferences NULL. -/
theorem C135_get_node (R : Rep h0 h root Λ net) {fuel i : ℕ} (hf : i < fuel) :
    GetNode fuel i root h = if i < net.n then some (Λ i).addr else none :=
  get_from R fuel i 0 root _ R.header rfl (Nat.zero_le _) (by omega)

/-! ## Removal -/

theorem freeCells_spec (hnull : h.mem 0 = none) : ∀ (cs : List (ℕ × ℕ)) (c : ℕ × ℕ) (ls : List GR.Link) (fuel : ℕ),
    CellsAt h Λ (c :: cs) ls → (cellBlocks (c :: cs)).Nodup → cs.length < fuel →
    ∃ h', FreeAdjacencyList fuel c.1 h = some h' ∧ h'.brk = h.brk ∧
      ∀ a, h'.mem a = if a ∈ cellBlocks (c :: cs) then none else h.mem a := by
  have fin : ∀ (c : ℕ × ℕ) (l : Lis) (s : String) (g : Heap), g.mem c.1 = some (.lis l) → l.nodeLabel = c.2 → g.mem c.2 = some (.str s) →
      c.1 ≠ 0 → c.2 ≠ 0 → c.1 ≠ c.2 → FreeNodeLis c.1 g = some ⟨Function.update (Function.update g.mem c.2 none) c.1 none, g.brk⟩ := by
    intro c l s g e1 e2 e3 h1 h2 h3
    rw [FreeNodeLis, Heap.lis_of e1]
    simp only [Option.bind_eq_bind, Option.bind_some]
    rw [e2, free_of h2 e3]
    simp only [Option.bind_some]
    exact free_of (o := .lis l) h1 (by simp [h3, e1])
  intro cs
  induction cs with
  | nil =>
    intro c ls fuel hc hnd hf
    obtain ⟨f, rfl⟩ : ∃ f, fuel = f + 1 := ⟨fuel - 1, by simp at hf; omega⟩
    cases ls with
    | nil => exact hc.elim
    | cons l ls =>
      have hc1 : c.1 ≠ 0 := ne_zero_of hnull hc.1
      have hc2 : c.2 ≠ 0 := ne_zero_of hnull hc.2.1
      have hc12 : c.1 ≠ c.2 := by
        rw [cellBlocks_cons] at hnd
        exact fun e => (List.nodup_cons.1 hnd).1 (by simp [e])
      refine ⟨⟨Function.update (Function.update h.mem c.2 none) c.1 none, h.brk⟩, ?_, rfl, ?_⟩
      · rw [FreeAdjacencyList, Heap.lis_of hc.1]
        simp only [Option.bind_eq_bind, Option.bind_some]
        rw [if_neg (by simp [first])]
        exact fin c _ _ h hc.1 rfl hc.2.1 hc1 hc2 hc12
      · intro a
        simp only [Function.update_apply, cellBlocks_cons]
        by_cases e1 : a = c.1
        · simp [e1]
        · by_cases e2 : a = c.2
          · simp [e2]
          · simp [e1, e2, cellBlocks]
  | cons d cs ih =>
    intro c ls fuel hc hnd hf
    obtain ⟨f, rfl⟩ : ∃ f, fuel = f + 1 := ⟨fuel - 1, by simp at hf; omega⟩
    cases ls with
    | nil => exact hc.elim
    | cons l ls =>
      have hc1 : c.1 ≠ 0 := ne_zero_of hnull hc.1
      have hc2 : c.2 ≠ 0 := ne_zero_of hnull hc.2.1
      rw [cellBlocks_cons] at hnd
      have hnd1 := List.nodup_cons.1 hnd
      have hnd2 := List.nodup_cons.1 hnd1.2
      have hc12 : c.1 ≠ c.2 := fun e => hnd1.1 (by simp [e])
      obtain ⟨g, e1, e2, e3⟩ := ih d ls f hc.2.2 hnd2.2 (by simp at hf ⊢; omega)
      have hd0 : d.1 ≠ 0 := by
        cases ls with
        | nil => exact hc.2.2.elim
        | cons l' ls' => exact ne_zero_of hnull hc.2.2.1
      have g1 : g.mem c.1 = some (.lis ⟨numOf l.ref, c.2, first (d :: cs), refOf Λ l.ref, l.weight⟩) := by
        rw [e3, if_neg (fun hx => hnd1.1 (by simp [hx]))]; exact hc.1
      have g2 : g.mem c.2 = some (.str l.nodeLabel) := by
        rw [e3, if_neg hnd2.1]; exact hc.2.1
      refine ⟨⟨Function.update (Function.update g.mem c.2 none) c.1 none, g.brk⟩, ?_, e2, ?_⟩
      · rw [FreeAdjacencyList, Heap.lis_of hc.1]
        simp only [Option.bind_eq_bind, Option.bind_some]
        rw [if_pos (by exact hd0)]
        simp only [first]
        rw [e1]
        simp only [Option.bind_some]
        exact fin c _ _ g g1 rfl g2 hc1 hc2 hc12
      · intro a
        simp only [Function.update_apply]
        rw [e3, cellBlocks_cons c]
        by_cases q1 : a = c.1
        · simp [q1]
        · by_cases q2 : a = c.2
          · simp [q2]
          · simp [q1, q2]

theorem freeNode_spec (hnull : h.mem 0 = none) {i : ℕ} (N : NodeAt h Λ net i) (hnd : (Λ i).blocks.Nodup) {fuel : ℕ}
    (hf : (net.neig i).length < fuel) :
    ∃ h', FreeNode fuel (Λ i).addr h = some h' ∧ h'.brk = h.brk ∧ ∀ a, h'.mem a = if a ∈ (Λ i).blocks then none else h.mem a := by
  unfold Lay.blocks at hnd ⊢
  have hnd1 := List.nodup_cons.1 hnd
  have hnd2 := List.nodup_cons.1 hnd1.2
  have hnd3 := List.nodup_cons.1 hnd2.2
  have h1 := ne_zero_of hnull N.gra
  have h2 := ne_zero_of hnull N.lab
  have h3 := ne_zero_of hnull N.head
  -- the adjacency list
  obtain ⟨g, e1, e2, e3⟩ : ∃ g, FreeAdjacencyList fuel (Λ i).head h = some g ∧ g.brk = h.brk ∧
      ∀ a, g.mem a = if a ∈ (Λ i).head :: cellBlocks (Λ i).cells then none else h.mem a := by
    obtain ⟨f, rfl⟩ : ∃ f, fuel = f + 1 := ⟨fuel - 1, by omega⟩
    rw [FreeAdjacencyList, Heap.lis_of N.head]
    simp only [Option.bind_eq_bind, Option.bind_some]
    cases ec : (Λ i).cells with
    | nil =>
      rw [if_neg (by simp [first])]
      rw [FreeNodeLis, Heap.lis_of N.head]
      simp only [Option.bind_eq_bind, Option.bind_some]
      rw [Heap.free, if_pos rfl]
      simp only [Option.bind_some]
      refine ⟨_, free_of h3 N.head, rfl, fun a => ?_⟩
      simp only [Function.update_apply, cellBlocks]
      by_cases q : a = (Λ i).head <;> simp [q]
    | cons c cs =>
      have hcl := N.cells
      rw [ec] at hcl
      have hc0 : c.1 ≠ 0 := by
        cases el : net.neig i with
        | nil => rw [el] at hcl; exact hcl.elim
        | cons l ls => rw [el] at hcl; exact ne_zero_of hnull hcl.1
      have hlen := hcl.length_eq
      simp only [List.length_cons] at hlen
      obtain ⟨g, e1, e2, e3⟩ := freeCells_spec hnull cs c _ f hcl (by rw [← ec]; exact hnd3.2) (by omega)
      rw [if_pos (by exact hc0)]
      simp only [first]
      rw [e1]
      simp only [Option.bind_some]
      have g1 : g.mem (Λ i).head = h.mem (Λ i).head := by rw [e3, if_neg (by rw [← ec]; exact hnd3.1)]
      rw [N.head] at g1
      rw [FreeNodeLis, Heap.lis_of g1]
      simp only [Option.bind_eq_bind, Option.bind_some]
      rw [Heap.free, if_pos rfl]
      simp only [Option.bind_some]
      refine ⟨_, free_of h3 g1, e2, fun a => ?_⟩
      simp only [Function.update_apply]
      rw [e3]
      by_cases q : a = (Λ i).head <;> simp [q]
  have g1 : g.mem (Λ i).lab = some (.str (net.label i)) := by
    rw [e3, if_neg hnd2.1]; exact N.lab
  have hal : (Λ i).addr ≠ (Λ i).lab := fun e => hnd1.1 (by simp [e])
  have g2 : g.mem (Λ i).addr = some (.gra ⟨(Λ i).lab, i, (Λ i).head, nodeOf Λ net.n (i + 1), net.degree i, net.strength i⟩) := by
    rw [e3, if_neg (fun hx => hnd1.1 (List.mem_cons_of_mem _ hx))]; exact N.gra
  refine ⟨⟨Function.update (Function.update g.mem (Λ i).lab none) (Λ i).addr none, g.brk⟩, ?_, e2, fun a => ?_⟩
  · rw [FreeNode, Heap.gra_of N.gra]
    simp only [Option.bind_eq_bind, Option.bind_some]
    rw [if_pos h3, e1]
    simp only [Option.bind_some]
    rw [free_of h2 g1]
    simp only [Option.bind_some]
    exact free_of (o := .gra ⟨(Λ i).lab, i, (Λ i).head, nodeOf Λ net.n (i + 1), net.degree i, net.strength i⟩) h1 (by simp [hal, g2])
  · simp only [Function.update_apply]
    rw [e3]
    by_cases q1 : a = (Λ i).addr
    · simp [q1]
    · by_cases q2 : a = (Λ i).lab
      · simp [q2]
      · simp [q1, q2]

theorem removeFrom (R : Rep h0 h root Λ net) {links : ℕ} (hl : ∀ i < net.n, (net.neig i).length < links) :
    ∀ (k i fuel : ℕ), i + k + 1 = net.n → k < fuel → ∃ h', RemoveGraph links fuel (Λ i).addr h = some h' ∧ h'.brk = h.brk ∧
      (∀ a, (∃ j, i ≤ j ∧ j < net.n ∧ a ∈ (Λ j).blocks) → h'.mem a = none) ∧
      ∀ a, (∀ j, i ≤ j → j < net.n → a ∉ (Λ j).blocks) → h'.mem a = h.mem a
  | _, _, 0, _, hf => by omega
  | 0, i, fuel + 1, hk, _ => by
    have N := R.nodes i (by omega)
    obtain ⟨g, e1, e2, e3⟩ := freeNode_spec R.null N (R.nodup i (by omega)) (hl i (by omega))
    refine ⟨g, ?_, e2, ?_, ?_⟩
    · rw [RemoveGraph, Heap.gra_of N.gra]
      simp only [Option.bind_eq_bind, Option.bind_some]
      rw [if_neg (by simp only [not_not]; unfold nodeOf; rw [if_neg (by omega)])]
      exact e1
    · rintro a ⟨j, h1, h2, h3⟩
      obtain rfl : j = i := by omega
      rw [e3, if_pos h3]
    · intro a ha
      rw [e3, if_neg (ha i (le_refl _) (by omega))]
  | k + 1, i, fuel + 1, hk, hf => by
    have N := R.nodes i (by omega)
    obtain ⟨g, e1, e2, e3, e4⟩ := removeFrom R hl k (i + 1) fuel (by omega) (by omega)
    have hdis : ∀ a ∈ (Λ i).blocks, g.mem a = h.mem a := by
      intro a ha
      exact e4 a fun j h1 h2 => R.disj i (by omega) j h2 (by omega) a ha
    have hn0 : g.mem 0 = none := by
      rw [e4 0 fun j h1 h2 hm => ?_]
      · exact R.null
      · obtain ⟨o, ho⟩ := (R.nodes j h2).live 0 hm
        rw [R.null] at ho; cases ho
    obtain ⟨g', f1, f2, f3⟩ := freeNode_spec hn0 (N.congr hdis) (R.nodup i (by omega)) (hl i (by omega))
    refine ⟨g', ?_, f2.trans e2, ?_, ?_⟩
    · rw [RemoveGraph, Heap.gra_of N.gra]
      simp only [Option.bind_eq_bind, Option.bind_some]
      have e : nodeOf Λ net.n (i + 1) = (Λ (i + 1)).addr := by unfold nodeOf; rw [if_pos (by omega)]
      rw [if_pos (by rw [e]; exact R.addr_ne_zero (by omega)), e, e1]
      exact f1
    · rintro a ⟨j, h1, h2, h3⟩
      rw [f3]
      split_ifs with hi
      · rfl
      · refine e3 a ⟨j, ?_, h2, h3⟩
        by_contra hlt
        obtain rfl : j = i := by omega
        exact hi h3
    · intro a ha
      rw [f3, if_neg (ha i (le_refl _) (by omega)), e4 a fun j h1 h2 => ha j (by omega) h2]

theorem removeGraph_eq (links f p : ℕ) (h : Heap) : RemoveGraph links (f + 1) p h =
    (h.gra p).bind fun x => (if x.next ≠ 0 then RemoveGraph links f x.next h else some h).bind (FreeNode links p) := by
  rw [RemoveGraph]
  cases h.gra p with
  | none => rfl
  | some x =>
    simp only [Option.bind_eq_bind, Option.bind_some]
    split_ifs <;> rfl

theorem remove_spec (R : Rep h0 h root Λ net) {links fuel : ℕ} (hl : ∀ i < net.n, (net.neig i).length < links) (hf : net.n < fuel) :
    ∃ h', RemoveGraph links fuel root h = some h' ∧ h'.mem = h0.mem ∧ h'.brk = h.brk := by
  obtain ⟨f, rfl⟩ : ∃ f, fuel = f + 1 := ⟨fuel - 1, by omega⟩
  have hr0 := ne_zero_of R.null R.header
  obtain ⟨g, e1, e3, e4, eb⟩ : ∃ g, (if nodeOf Λ net.n 0 ≠ 0 then RemoveGraph links f (nodeOf Λ net.n 0) h else some h) = some g ∧
      (∀ a, (∃ j, j < net.n ∧ a ∈ (Λ j).blocks) → g.mem a = none) ∧ (∀ a, (∀ j < net.n, a ∉ (Λ j).blocks) → g.mem a = h.mem a) ∧ g.brk = h.brk := by
    by_cases hn : net.n = 0
    · refine ⟨h, ?_, ?_, fun _ _ => rfl, rfl⟩
      · rw [if_neg (by simp only [not_not]; unfold nodeOf; rw [if_neg (by omega)])]
      · rintro a ⟨j, h1, _⟩; omega
    · obtain ⟨g, e1, eb, e3, e4⟩ := removeFrom R hl (net.n - 1) 0 f (by omega) (by omega)
      have e : nodeOf Λ net.n 0 = (Λ 0).addr := by unfold nodeOf; rw [if_pos (by omega)]
      refine ⟨g, ?_, ?_, ?_, eb⟩
      · rw [if_pos (by rw [e]; exact R.addr_ne_zero (by omega)), e]; exact e1
      · rintro a ⟨j, h1, h2⟩; exact e3 a ⟨j, Nat.zero_le _, h1, h2⟩
      · intro a ha; exact e4 a fun j _ h2 => ha j h2
  have hgr : g.mem root = h.mem root := e4 root fun j hj => R.rootN j hj
  rw [R.header] at hgr
  refine ⟨⟨Function.update g.mem root none, g.brk⟩, ?_, ?_, eb⟩
  · rw [removeGraph_eq, Heap.gra_of R.header]
    simp only [Option.bind_some]
    rw [e1]
    simp only [Option.bind_some]
    rw [FreeNode, Heap.gra_of hgr]
    simp only [Option.bind_eq_bind, Option.bind_some]
    rw [if_neg (by simp)]
    rw [Heap.free, if_pos rfl]
    simp only [Option.bind_some]
    exact free_of hr0 hgr
  · funext a
    simp only [Function.update_apply]
    split_ifs with e
    · rw [e, R.own root (Or.inl rfl)]
    · by_cases ho : ∃ j, j < net.n ∧ a ∈ (Λ j).blocks
      · rw [e3 a ho, R.own a (Or.inr ho)]
      · push Not at ho
        rw [e4 a ho, R.out a e ho]

/-- **C135**.  `RemoveGraph` touches no freed block and leaves the memory as it was before the network was created: every block of the network is
freed once, no other block is changed. -/
theorem C135_remove (R : Rep h0 h root Λ net) {links fuel : ℕ} (hl : ∀ i < net.n, (net.neig i).length < links) (hf : net.n < fuel) :
    ∃ h', RemoveGraph links fuel root h = some h' ∧ h'.mem = h0.mem := by
  obtain ⟨h', e1, e2, _⟩ := remove_spec R hl hf
  exact ⟨h', e1, e2⟩

/-! ## Clients -/

/-- Bound on what the loops go through. -/
def Small (net : GR.Net) (fuel : ℕ) : Prop := net.n < fuel ∧ ∀ i < net.n, (net.neig i).length < fuel

theorem exec_spec (R : Rep h0 h root Λ net) (c : Cmd) {fuel : ℕ} (hs : Small net fuel)
    (hidx : match c with | .node _ => True | .link i j _ _ _ => i < fuel ∧ j < fuel | .unlink i j _ => i < fuel ∧ j < fuel) :
    (step net c = none ∧ exec fuel root h c = none) ∨
    ∃ net' h' Λ', step net c = some net' ∧ exec fuel root h c = some h' ∧ Rep h0 h' root Λ' net' := by
  cases c with
  | node label =>
    simp only [step, exec]
    cases hl : GR.fits label with
    | false =>
      left
      rw [node_overflow hl, GR.CreateNodeGraph, if_neg (by simp [hl])]
      exact ⟨rfl, rfl⟩
    | true =>
      right
      obtain ⟨h', Λ', e1, _, net', e2, R'⟩ := R.node (last_root R hs.1) hl
      rw [e1, e2]
      exact ⟨net', h', Λ', rfl, rfl, R'⟩
  | link i j auto add w =>
    simp only at hidx
    simp only [step, exec]
    rw [C135_get_node R hidx.1, C135_get_node R hidx.2]
    by_cases hi : i < net.n
    · by_cases hj : j < net.n
      · right
        obtain ⟨h', Λ', e1, R', _⟩ := R.add hi hj auto add w (hs.2 i hi)
        rw [if_pos hi, if_pos hj, if_pos ⟨hi, hj⟩]
        simp only [Option.bind_eq_bind, Option.bind_some]
        rw [e1]
        exact ⟨_, h', Λ', rfl, rfl, R'⟩
      · left
        rw [if_neg (fun e => hj e.2), if_pos hi, if_neg hj]
        exact ⟨rfl, rfl⟩
    · left
      rw [if_neg (fun e => hi e.1), if_neg hi]
      exact ⟨rfl, rfl⟩
  | unlink i j sym =>
    simp only at hidx
    simp only [step, exec]
    rw [C135_get_node R hidx.1, C135_get_node R hidx.2]
    by_cases hi : i < net.n
    · by_cases hj : j < net.n
      · rw [if_pos hi, if_pos hj, if_pos ⟨hi, hj⟩]
        simp only [Option.bind_eq_bind, Option.bind_some]
        rcases R.remove hi hj sym hs.2 with e | ⟨net', h', Λ', e1, e2, R', _⟩
        · exact Or.inl e
        · exact Or.inr ⟨net', h', Λ', e1, e2, R'⟩
      · left
        rw [if_neg (fun e => hj e.2), if_pos hi, if_neg hj]
        exact ⟨rfl, rfl⟩
    · left
      rw [if_neg (fun e => hi e.1), if_neg hi]
      exact ⟨rfl, rfl⟩

/-- Nodes and links only grow by one per command. -/
theorem step_small {c : Cmd} {net' : GR.Net} (e : step net c = some net') {k : ℕ} (hs : Small net k) : Small net' (k + 1) := by
  cases c with
  | node label =>
    simp only [step, GR.CreateNodeGraph] at e
    split_ifs at e
    · simp only [Option.bind_eq_bind, Option.bind_some, Option.pure_def, Option.some.injEq] at e
      subst e
      refine ⟨?_, ?_⟩
      · have := hs.1; show net.n + 1 < k + 1; omega
      · intro i hi
        have hi : i < net.n + 1 := hi
        by_cases e : i = net.n
        · subst e; simp
        · have := hs.2 i (by omega)
          simp [e]
          omega
    · cases e
  | link i j auto add w =>
    simp only [step, GR.AddAdjacency] at e
    split_ifs at e
    · simp only [Option.some.injEq] at e
      subst e
      exact ⟨Nat.lt_succ_of_lt hs.1, fun i hi => Nat.lt_succ_of_lt (hs.2 i hi)⟩
    · simp only [Option.some.injEq] at e
      subst e
      have hlen : ∀ (jl : String) (ls : List GR.Link), (GR.addLink j jl add w ls).2.length ≤ ls.length + 1 := by
        intro jl ls
        induction ls with
        | nil => simp [GR.addLink]
        | cons x xs ih => rw [GR.addLink]; split_ifs <;> simp; omega
      refine ⟨Nat.lt_succ_of_lt hs.1, ?_⟩
      intro m hm
      have hm : m < net.n := hm
      by_cases e : m = i
      · subst e
        have h1 := hlen ((GR.resetCaches (GR.resetCaches net m) j).label j) (net.neig m)
        have h2 := hs.2 m hm
        simp only [Function.update_self]
        have h3 : (GR.resetCaches (GR.resetCaches net m) j).neig m = net.neig m := rfl
        rw [h3]
        omega
      · have := hs.2 m hm
        simp only [Function.update_of_ne e]
        exact Nat.lt_succ_of_lt this
  | unlink i j sym =>
    simp only [step] at e
    split_ifs at e with hij
    · have hlen : ∀ (j : ℕ) (ls ls' : List GR.Link), GR.dropLink j ls = some ls' → ls'.length ≤ ls.length := by
        intro j ls
        induction ls with
        | nil => intro ls' e; cases e
        | cons x xs ih =>
          intro ls' e
          rw [GR.dropLink] at e
          split_ifs at e
          · cases e; simp
          · cases e2 : GR.dropLink j xs with
            | none => rw [e2] at e; cases e
            | some ys =>
              rw [e2] at e
              cases e
              have := ih ys e2
              simp; omega
      unfold GR.RemoveLink at e
      simp only [Option.bind_eq_bind] at e
      cases e1 : GR.dropLink j ((GR.resetCaches (GR.resetCaches net i) j).neig i) with
      | none => rw [e1] at e; cases e
      | some ls1 =>
        rw [e1] at e
        simp only [Option.bind_some] at e
        have l1 := hlen _ _ _ e1
        have hh1 : ∀ m < net.n, (Function.update net.neig i ls1 m).length < k := by
          intro m hm
          have := hs.2 m hm
          by_cases e : m = i
          · subst e
            rw [Function.update_self]
            have h3 : (GR.resetCaches (GR.resetCaches net m) j).neig m = net.neig m := rfl
            rw [h3] at l1
            omega
          · rw [Function.update_of_ne e]; exact this
        split_ifs at e with hsym
        · cases e2 : GR.dropLink i (Function.update (GR.resetCaches (GR.resetCaches net i) j).neig i ls1 j) with
          | none => rw [e2] at e; cases e
          | some ls2 =>
            rw [e2] at e
            simp only [Option.bind_some, Option.pure_def, Option.some.injEq] at e
            subst e
            have l2 := hlen _ _ _ e2
            refine ⟨Nat.lt_succ_of_lt hs.1, ?_⟩
            intro m hm
            by_cases e : m = j
            · subst e
              have := hh1 m hm
              simp only [Function.update_self]
              have h3 : Function.update (GR.resetCaches (GR.resetCaches net i) m).neig i ls1 m = Function.update net.neig i ls1 m := rfl
              rw [h3] at l2
              omega
            · simp only [Function.update_of_ne e]
              exact Nat.lt_succ_of_lt (hh1 m hm)
        · simp only [Option.pure_def, Option.some.injEq] at e
          subst e
          exact ⟨Nat.lt_succ_of_lt hs.1, fun m hm => Nat.lt_succ_of_lt (hh1 m hm)⟩

/-- Numbers that a command uses. -/
def Cmd.index : Cmd → ℕ
  | .node _ => 0
  | .link i j _ _ _ => max i j
  | .unlink i j _ => max i j

theorem run_spec : ∀ (cs : List Cmd) (k : ℕ) {h : Heap} {Λ : ℕ → Lay} {net : GR.Net}, Rep h0 h root Λ net → Small net k →
    ∀ {fuel : ℕ}, k + cs.length ≤ fuel → (∀ c ∈ cs, c.index < fuel) →
    (steps cs net = none ∧ run fuel root cs h = none) ∨
    ∃ net' h' Λ', steps cs net = some net' ∧ run fuel root cs h = some h' ∧ Rep h0 h' root Λ' net' ∧ Small net' (k + cs.length)
  | [], k, h, Λ, net, R, hs, fuel, _, _ => Or.inr ⟨net, h, Λ, rfl, rfl, R, hs⟩
  | c :: cs, k, h, Λ, net, R, hs, fuel, hk, hi => by
    have hc := hi c (by simp)
    have hs' : Small net fuel := by
      simp only [List.length_cons] at hk
      exact ⟨by have := hs.1; omega, fun i hi => by have := hs.2 i hi; omega⟩
    rcases exec_spec R c hs' (by
      cases c with
      | node _ => trivial
      | link i j _ _ _ => exact ⟨lt_of_le_of_lt (le_max_left _ _) hc, lt_of_le_of_lt (le_max_right _ _) hc⟩
      | unlink i j _ => exact ⟨lt_of_le_of_lt (le_max_left _ _) hc, lt_of_le_of_lt (le_max_right _ _) hc⟩) with ⟨e1, e2⟩ | ⟨net1, h1, Λ1, e1, e2, R1⟩
    · left
      rw [steps, run, e1, e2]
      exact ⟨rfl, rfl⟩
    · rw [steps, run, e1, e2]
      simp only [Option.bind_eq_bind, Option.bind_some]
      have := run_spec cs (k + 1) R1 (step_small e1 hs) (fuel := fuel) (by simp only [List.length_cons] at hk; omega)
        (fun c hc => hi c (by simp [hc]))
      simpa [Nat.add_assoc, Nat.add_comm 1] using this

/-- **C135**.  Any sequence of creations of nodes and links and removals of links in memory does what it does to numbered nodes, and fails exactly
where the latter does: a missing node or link, a label too long. Afterwards `RemoveGraph` leaves the memory as it was before the header was created. -/
theorem C135_networks (hk : h0.OK) (cs : List Cmd) {fuel : ℕ} (hf : 1 + cs.length < fuel) (hi : ∀ c ∈ cs, c.index < fuel) :
    (steps cs GR.CreateHeaderGraph = none ∧ run fuel (CreateHeaderGraph h0).1 cs (CreateHeaderGraph h0).2 = none) ∨
    ∃ net h Λ, steps cs GR.CreateHeaderGraph = some net ∧ run fuel (CreateHeaderGraph h0).1 cs (CreateHeaderGraph h0).2 = some h ∧
      Rep h0 h (CreateHeaderGraph h0).1 Λ net ∧ ∃ h', RemoveGraph fuel fuel (CreateHeaderGraph h0).1 h = some h' ∧ h'.mem = h0.mem := by
  rcases run_spec cs 1 (header_rep hk fun _ => ⟨0, 0, 0, []⟩) ⟨Nat.one_pos, fun i hi => absurd hi (Nat.not_lt_zero i)⟩ (fuel := fuel) (by omega) hi with
    e | ⟨net, h, Λ, e1, e2, R, hs⟩
  · exact Or.inl e
  · exact Or.inr ⟨net, h, Λ, e1, e2, R, C135_remove R (fun i hi => lt_trans (hs.2 i hi) hf) (lt_trans hs.1 hf)⟩

/-! ## An example -/

def empty : Heap := { mem := fun _ => none, brk := 1 }

theorem empty_ok : empty.OK := ⟨fun _ _ => rfl, rfl, Nat.one_pos⟩

/-- Three nodes, two links in both directions, one of them removed. -/
def sample : List Cmd := [.node "a", .node "b", .node "c", .link 0 1 false false 2, .link 1 0 false false 2, .link 1 2 false false 3,
  .link 2 1 false false 3, .link 1 2 false true 4, .unlink 0 1 true]

example : (run 20 1 sample (CreateHeaderGraph empty).2).map (fun h => (h.brk, ((List.range h.brk).filter fun a => (h.mem a).isSome).length)) =
    some (19, 14) := by decide +kernel

example : (steps sample GR.CreateHeaderGraph).map (fun net => (net.n, (net.neig 0).length, (net.neig 1).map (·.weight), (net.neig 2).map (·.weight))) =
    some (3, 0, [7], [3]) := by decide +kernel

example : ((run 20 1 sample (CreateHeaderGraph empty).2).bind (RemoveGraph 20 20 1)).map (fun h => ((List.range h.brk).filter fun a => (h.mem a).isSome).length) =
    some 0 := by decide +kernel

/-- The link 0–1 is not there any more. -/
example : (run 20 1 (sample ++ [.unlink 0 1 true]) (CreateHeaderGraph empty).2).isNone = true := by decide +kernel

end HP
