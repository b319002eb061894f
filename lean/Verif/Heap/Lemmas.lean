import Verif.Heap.Model
import Mathlib.Tactic.Linarith
import Mathlib.Data.List.Nodup

/-! # Layout of a network in memory -/

namespace HP

/-- Blocks of a node: the node, its label, the header of its adjacency list, the elements of the list with their labels. -/
structure Lay where
  addr : ℕ
  lab : ℕ
  head : ℕ
  cells : List (ℕ × ℕ)

/-- Address of the first element of the rest of an adjacency list, or `NULL`. -/
def first : List (ℕ × ℕ) → ℕ
  | [] => 0
  | c :: _ => c.1

def cellBlocks (cs : List (ℕ × ℕ)) : List ℕ := cs.flatMap fun c => [c.1, c.2]

def Lay.blocks (l : Lay) : List ℕ := l.addr :: l.lab :: l.head :: cellBlocks l.cells

variable {Λ : ℕ → Lay} {net : GR.Net} {h h' h0 : Heap} {root : ℕ}

def refOf (Λ : ℕ → Lay) : Option ℕ → ℕ
  | none => 0
  | some j => (Λ j).addr

/-- `node` field of a link: the number of its target, 0 for a soft link. -/
def numOf : Option ℕ → Int
  | none => 0
  | some j => j

/-- The cells hold the links. -/
def CellsAt (h : Heap) (Λ : ℕ → Lay) : List (ℕ × ℕ) → List GR.Link → Prop
  | [], [] => True
  | c :: cs, l :: ls =>
    h.mem c.1 = some (.lis { node := numOf l.ref, nodeLabel := c.2, next := first cs, ref := refOf Λ l.ref, weight := l.weight }) ∧
    h.mem c.2 = some (.str l.nodeLabel) ∧ CellsAt h Λ cs ls
  | _, _ => False

/-- Address of node `i`, `NULL` after the last one. -/
def nodeOf (Λ : ℕ → Lay) (n i : ℕ) : ℕ := if i < n then (Λ i).addr else 0

structure NodeAt (h : Heap) (Λ : ℕ → Lay) (net : GR.Net) (i : ℕ) : Prop where
  gra : h.mem (Λ i).addr = some (.gra ⟨(Λ i).lab, i, (Λ i).head, nodeOf Λ net.n (i + 1), net.degree i, net.strength i⟩)
  lab : h.mem (Λ i).lab = some (.str (net.label i))
  head : h.mem (Λ i).head = some (.lis { node := -1, nodeLabel := 0, next := first (Λ i).cells, ref := 0, weight := 0 })
  cells : CellsAt h Λ (Λ i).cells (net.neig i)

/-- The heap `h` is `h0` plus the network `net` with header `root`, in blocks of its own laid out as `Λ` says. -/
structure Rep (h0 h : Heap) (root : ℕ) (Λ : ℕ → Lay) (net : GR.Net) : Prop where
  header : h.mem root = some (.gra { label := 0, num := -1, neig := 0, next := nodeOf Λ net.n 0, degree := 0, strength := 0 })
  nodes : ∀ i < net.n, NodeAt h Λ net i
  refs : ∀ i < net.n, ∀ l ∈ net.neig i, ∀ j, l.ref = some j → j < net.n
  nodup : ∀ i < net.n, (Λ i).blocks.Nodup
  disj : ∀ i < net.n, ∀ j < net.n, i ≠ j → ∀ a ∈ (Λ i).blocks, a ∉ (Λ j).blocks
  rootN : ∀ i < net.n, root ∉ (Λ i).blocks
  out : ∀ a, a ≠ root → (∀ i < net.n, a ∉ (Λ i).blocks) → h.mem a = h0.mem a
  own : ∀ a, (a = root ∨ ∃ i < net.n, a ∈ (Λ i).blocks) → h0.mem a = none
  fresh : ∀ a, h.brk ≤ a → h.mem a = none
  null : h.mem 0 = none
  pos : 0 < h.brk

/-! ## Reading -/

theorem Heap.gra_of {p : ℕ} {x : Gra} (e : h.mem p = some (.gra x)) : h.gra p = some x := by
  unfold Heap.gra; rw [e]

theorem Heap.lis_of {p : ℕ} {x : Lis} (e : h.mem p = some (.lis x)) : h.lis p = some x := by
  unfold Heap.lis; rw [e]

theorem Heap.str_of {p : ℕ} {x : String} (e : h.mem p = some (.str x)) : h.str p = some x := by
  unfold Heap.str; rw [e]

theorem Heap.gra_none {p : ℕ} (e : h.mem p = none) : h.gra p = none := by
  unfold Heap.gra; rw [e]

theorem Heap.lis_none {p : ℕ} (e : h.mem p = none) : h.lis p = none := by
  unfold Heap.lis; rw [e]

theorem mem_set_self (p : ℕ) (o : Obj) : (h.set p o).mem p = some o := by simp [Heap.set]

theorem mem_set_ne {p a : ℕ} (o : Obj) (hne : a ≠ p) : (h.set p o).mem a = h.mem a := by simp [Heap.set, hne]

theorem brk_set (p : ℕ) (o : Obj) : (h.set p o).brk = h.brk := rfl

theorem free_of {p : ℕ} {o : Obj} (hp : p ≠ 0) (e : h.mem p = some o) :
    h.free p = some { h with mem := Function.update h.mem p none } := by
  unfold Heap.free; rw [if_neg hp, e]

theorem ne_zero_of (hnull : h.mem 0 = none) {p : ℕ} {o : Obj} (e : h.mem p = some o) : p ≠ 0 := by
  rintro rfl; rw [e] at hnull; cases hnull

theorem lt_brk_of (hf : ∀ a, h.brk ≤ a → h.mem a = none) {p : ℕ} {o : Obj} (e : h.mem p = some o) : p < h.brk := by
  by_contra hn
  rw [hf p (not_lt.1 hn)] at e
  cases e

/-! ## Adjacency lists -/

theorem cellBlocks_cons (c : ℕ × ℕ) (cs : List (ℕ × ℕ)) : cellBlocks (c :: cs) = c.1 :: c.2 :: cellBlocks cs := rfl

theorem CellsAt.congr : ∀ {cs : List (ℕ × ℕ)} {ls : List GR.Link}, CellsAt h Λ cs ls → (∀ a ∈ cellBlocks cs, h'.mem a = h.mem a) →
    CellsAt h' Λ cs ls
  | [], [], _, _ => trivial
  | [], _ :: _, hc, _ => hc.elim
  | _ :: _, [], hc, _ => hc.elim
  | c :: cs, l :: ls, hc, hs => by
    refine ⟨?_, ?_, hc.2.2.congr fun a ha => hs a ?_⟩
    · rw [hs c.1 (by simp [cellBlocks_cons])]; exact hc.1
    · rw [hs c.2 (by simp [cellBlocks_cons])]; exact hc.2.1
    · simp [cellBlocks_cons, ha]

theorem CellsAt.relay {Λ' : ℕ → Lay} : ∀ {cs : List (ℕ × ℕ)} {ls : List GR.Link}, CellsAt h Λ cs ls →
    (∀ l ∈ ls, refOf Λ' l.ref = refOf Λ l.ref) → CellsAt h Λ' cs ls
  | [], [], _, _ => trivial
  | [], _ :: _, hc, _ => hc.elim
  | _ :: _, [], hc, _ => hc.elim
  | c :: cs, l :: ls, hc, hs => by
    refine ⟨?_, hc.2.1, hc.2.2.relay fun a ha => hs a (by simp [ha])⟩
    rw [hs l (by simp)]; exact hc.1

theorem CellsAt.live : ∀ {cs : List (ℕ × ℕ)} {ls : List GR.Link}, CellsAt h Λ cs ls → ∀ a ∈ cellBlocks cs, ∃ o, h.mem a = some o
  | [], _, _, a, ha => by simp [cellBlocks] at ha
  | _ :: _, [], hc, _, _ => hc.elim
  | c :: cs, l :: ls, hc, a, ha => by
    rw [cellBlocks_cons] at ha
    rcases List.mem_cons.1 ha with rfl | ha
    · exact ⟨_, hc.1⟩
    · rcases List.mem_cons.1 ha with rfl | ha
      · exact ⟨_, hc.2.1⟩
      · exact hc.2.2.live a ha

theorem CellsAt.length_eq : ∀ {cs : List (ℕ × ℕ)} {ls : List GR.Link}, CellsAt h Λ cs ls → cs.length = ls.length
  | [], [], _ => rfl
  | [], _ :: _, hc => hc.elim
  | _ :: _, [], hc => hc.elim
  | c :: cs, l :: ls, hc => by simp [hc.2.2.length_eq]

/-- What a change of an adjacency list whose header (or previous element) is `p` leaves. -/
structure Changed (h h' : Heap) (p : ℕ) (cs cs' : List (ℕ × ℕ)) : Prop where
  same : ∀ a, a ≠ p → a ∉ cellBlocks cs → a ∉ cellBlocks cs' → h'.mem a = h.mem a
  new : ∀ a ∈ cellBlocks cs', a ∈ cellBlocks cs ∨ (h.brk ≤ a)
  gone : ∀ a ∈ cellBlocks cs, a ∉ cellBlocks cs' → h'.mem a = none
  nodup : (cellBlocks cs').Nodup
  fresh : ∀ a, h'.brk ≤ a → h'.mem a = none
  brk : h.brk ≤ h'.brk

theorem addWalk_spec (add : Bool) (w : ℚ) {node2 j : ℕ} {s : String} {y : Gra} (hy : h.mem node2 = some (.gra y)) (hj : y.num = j)
    (hs : h.mem y.label = some (.str s)) (hjr : refOf Λ (some j) = node2) (hf : ∀ a, h.brk ≤ a → h.mem a = none) (hnull : h.mem 0 = none)
    (hpos : 0 < h.brk) :
    ∀ (cs : List (ℕ × ℕ)) (ls : List GR.Link) (fuel p : ℕ) (a : Lis), CellsAt h Λ cs ls → h.mem p = some (.lis a) → a.next = first cs →
      (p :: cellBlocks cs).Nodup → (∀ l ∈ ls, refOf Λ l.ref = node2 ↔ l.ref = some j) → cs.length < fuel →
      ∃ cs' h', addWalk add w node2 fuel p h = some ((GR.addLink j s add w ls).1, h') ∧ h'.mem p = some (.lis { a with next := first cs' }) ∧
        CellsAt h' Λ cs' (GR.addLink j s add w ls).2 ∧ Changed h h' p cs cs'
  | _, _, 0, _, _, _, _, _, _, _, hl => by omega
  | [], _ :: _, _ + 1, _, _, hc, _, _, _, _, _ => hc.elim
  | _ :: _, [], _ + 1, _, _, hc, _, _, _, _, _ => hc.elim
  | [], [], fuel + 1, p, a, _, hp, hn, _, _, _ => by
    have hpb := lt_brk_of hf hp
    have hyb := lt_brk_of hf hs
    have hne : y.label ≠ p := by rintro e; rw [e, hp] at hs; cases hs
    refine ⟨[(h.brk, h.brk + 1)], (Heap.set ⟨Function.update ((Heap.set ⟨Function.update h.mem h.brk (some (.lis ⟨y.num, 0, 0, node2, w⟩)), h.brk + 1⟩ p
      (.lis { a with next := h.brk })).mem) (h.brk + 1) (some (.str s)), h.brk + 2⟩ h.brk (.lis ⟨y.num, h.brk + 1, 0, node2, w⟩)), ?_, ?_, ?_, ?_⟩
    · rw [addWalk, Heap.lis_of hp, Heap.gra_of hy]
      simp only [Option.bind_eq_bind, Option.bind_some, Option.pure_def]
      rw [if_pos (by rw [hn]; rfl)]
      simp only [Heap.calloc]
      rw [Heap.str_of (x := s) (by simp [Heap.set, hne, Nat.ne_of_lt hyb, hs])]
      rfl
    · simp only [Heap.set]
      rw [Function.update_of_ne (by omega), Function.update_of_ne (by omega), Function.update_self]
      rfl
    · refine ⟨?_, ?_, trivial⟩
      · simp [Heap.set, first, numOf, hj, hjr]
      · simp [Heap.set]
    · refine ⟨?_, ?_, ?_, ?_, ?_, ?_⟩
      · intro x hx _ hx2
        simp [cellBlocks] at hx2
        simp [Heap.set, hx, hx2.1, hx2.2]
      · intro x hx
        simp [cellBlocks] at hx
        right
        omega
      · intro x hx
        simp [cellBlocks] at hx
      · simp [cellBlocks]
      · intro x hx
        simp only [Heap.set] at hx ⊢
        rw [Function.update_of_ne (by omega), Function.update_of_ne (by omega), Function.update_of_ne (by omega),
          Function.update_of_ne (by omega)]
        exact hf x (by omega)
      · simp only [Heap.set]; omega
  | c :: cs, l :: ls, fuel + 1, p, a, hc, hp, hn, hnd, hr, hl => by
    have hc0 : c.1 ≠ 0 := ne_zero_of hnull hc.1
    have hn' : a.next = c.1 := hn
    rw [cellBlocks_cons] at hnd
    have hnd1 := List.nodup_cons.1 hnd
    have hnd2 := List.nodup_cons.1 hnd1.2
    have hnd3 := List.nodup_cons.1 hnd2.2
    have hpc1 : p ≠ c.1 := fun e => hnd1.1 (by simp [e])
    have hpc2 : p ≠ c.2 := fun e => hnd1.1 (by simp [e])
    have hc12 : c.1 ≠ c.2 := fun e => hnd2.1 (by simp [e])
    rw [addWalk, Heap.lis_of hp]
    simp only [Option.bind_eq_bind, Option.bind_some, Option.pure_def]
    rw [if_neg (by rw [hn']; exact hc0), hn', Heap.lis_of hc.1]
    simp only [Option.bind_some]
    by_cases hlr : l.ref = some j
    · rw [if_pos ((hr l (by simp)).2 hlr)]
      have he : GR.addLink j s add w (l :: ls) = if add then (1, { l with weight := l.weight + w } :: ls) else (0, l :: ls) := by
        rw [GR.addLink, if_pos hlr]
      rw [he]
      cases add with
      | true =>
        refine ⟨c :: cs, _, rfl, ?_, ⟨?_, ?_, ?_⟩, ?_⟩
        · rw [mem_set_ne _ hpc1, hp]
          simp [first, ← hn']
        · rw [mem_set_self]
        · rw [mem_set_ne _ (Ne.symm hc12)]; exact hc.2.1
        · refine hc.2.2.congr fun x hx => mem_set_ne _ ?_
          rintro rfl
          exact hnd2.1 (by simp [hx])
        · refine ⟨?_, fun x hx => Or.inl hx, fun x hx hx' => absurd hx hx', hnd1.2, ?_, le_refl _⟩
          · intro x _ hx _
            exact mem_set_ne _ (fun e => hx (by simp [cellBlocks_cons, e]))
          · intro x hx
            rw [mem_set_ne]
            · exact hf x hx
            · have := lt_brk_of hf hc.1
              have : h.brk ≤ x := hx
              omega
      | false =>
        refine ⟨c :: cs, h, rfl, ?_, hc, ⟨fun _ _ _ _ => rfl, fun x hx => Or.inl hx, fun x hx hx' => absurd hx hx', hnd1.2, hf, le_refl _⟩⟩
        rw [hp]
        simp [first, ← hn']
    · rw [if_neg (fun e => hlr ((hr l (by simp)).1 e))]
      have he : GR.addLink j s add w (l :: ls) = ((GR.addLink j s add w ls).1, l :: (GR.addLink j s add w ls).2) := by
        rw [GR.addLink, if_neg hlr]
      rw [he]
      obtain ⟨cs', h', h1, h2, h3, h4⟩ := addWalk_spec add w hy hj hs hjr hf hnull hpos cs ls fuel c.1 _ hc.2.2 hc.1 rfl
        (List.nodup_cons.2 ⟨fun hx => hnd2.1 (by simp [hx]), hnd3.2⟩) (fun l hl => hr l (by simp [hl]))
        (by simp only [List.length_cons] at hl; omega)
      have hout : ∀ x, x ∉ cellBlocks cs → x < h.brk → x ∉ cellBlocks cs' := by
        intro x hx hb hx'
        rcases h4.new x hx' with hh | hh
        · exact hx hh
        · omega
      refine ⟨c :: cs', h', h1, ?_, ⟨h2, ?_, h3⟩, ?_⟩
      · rw [h4.same p hpc1 (fun hx => hnd1.1 (by simp [hx])) (hout p (fun hx => hnd1.1 (by simp [hx])) (lt_brk_of hf hp)), hp]
        simp [first, ← hn']
      · rw [h4.same c.2 (Ne.symm hc12) hnd3.1 (hout c.2 hnd3.1 (lt_brk_of hf hc.2.1))]
        exact hc.2.1
      · refine ⟨?_, ?_, ?_, ?_, h4.fresh, h4.brk⟩
        · intro x hx1 hx2 hx3
          rw [cellBlocks_cons] at hx2 hx3
          simp only [List.mem_cons, not_or] at hx2 hx3
          exact h4.same x hx2.1 hx2.2.2 hx3.2.2
        · intro x hx
          rw [cellBlocks_cons] at hx ⊢
          rcases List.mem_cons.1 hx with rfl | hx
          · simp
          · rcases List.mem_cons.1 hx with rfl | hx
            · simp
            · rcases h4.new x hx with hh | hh
              · simp [hh]
              · exact Or.inr hh
        · intro x hx hx'
          rw [cellBlocks_cons] at hx hx'
          simp only [List.mem_cons, not_or] at hx hx'
          rcases hx with hx | hx | hx
          · exact absurd hx hx'.1
          · exact absurd hx hx'.2.1
          · exact h4.gone x hx hx'.2.2
        · rw [cellBlocks_cons]
          refine List.nodup_cons.2 ⟨?_, List.nodup_cons.2 ⟨hout _ hnd3.1 (lt_brk_of hf hc.2.1), h4.nodup⟩⟩
          simp only [List.mem_cons, not_or]
          exact ⟨hc12, hout _ (fun hx => hnd2.1 (by simp [hx])) (lt_brk_of hf hc.1)⟩

theorem dropWalk_spec {node2 j : ℕ} (hf : ∀ a, h.brk ≤ a → h.mem a = none) (hnull : h.mem 0 = none) :
    ∀ (cs : List (ℕ × ℕ)) (ls : List GR.Link) (fuel p : ℕ) (a : Lis), CellsAt h Λ cs ls → h.mem p = some (.lis a) → a.next = first cs →
      (p :: cellBlocks cs).Nodup → (∀ l ∈ ls, refOf Λ l.ref = node2 ↔ l.ref = some j) → cs.length < fuel →
      (GR.dropLink j ls = none ∧ dropWalk node2 fuel p h = none) ∨
      ∃ ls' cs' h', GR.dropLink j ls = some ls' ∧ dropWalk node2 fuel p h = some h' ∧ h'.mem p = some (.lis { a with next := first cs' }) ∧
        CellsAt h' Λ cs' ls' ∧ Changed h h' p cs cs'
  | _, _, 0, _, _, _, _, _, _, _, hl => by omega
  | [], _ :: _, _ + 1, _, _, hc, _, _, _, _, _ => hc.elim
  | _ :: _, [], _ + 1, _, _, hc, _, _, _, _, _ => hc.elim
  | [], [], fuel + 1, p, a, _, hp, hn, _, _, _ => by
    refine Or.inl ⟨rfl, ?_⟩
    rw [dropWalk, Heap.lis_of hp]
    have : h.lis a.next = none := Heap.lis_none (by rw [hn]; exact hnull)
    simp [this]
  | c :: cs, l :: ls, fuel + 1, p, a, hc, hp, hn, hnd, hr, hl => by
    have hc0 : c.1 ≠ 0 := ne_zero_of hnull hc.1
    have hc20 : c.2 ≠ 0 := ne_zero_of hnull hc.2.1
    have hn' : a.next = c.1 := hn
    rw [cellBlocks_cons] at hnd
    have hnd1 := List.nodup_cons.1 hnd
    have hnd2 := List.nodup_cons.1 hnd1.2
    have hnd3 := List.nodup_cons.1 hnd2.2
    have hpc1 : p ≠ c.1 := fun e => hnd1.1 (by simp [e])
    have hpc2 : p ≠ c.2 := fun e => hnd1.1 (by simp [e])
    have hc12 : c.1 ≠ c.2 := fun e => hnd2.1 (by simp [e])
    rw [dropWalk, Heap.lis_of hp]
    simp only [Option.bind_eq_bind, Option.bind_some]
    rw [hn', Heap.lis_of hc.1]
    simp only [Option.bind_some]
    by_cases hlr : l.ref = some j
    · rw [if_pos ((hr l (by simp)).2 hlr), GR.dropLink, if_pos hlr]
      refine Or.inr ⟨ls, cs, ⟨Function.update (Function.update ((h.set p (.lis { a with next := first cs })).mem) c.2 none) c.1 none, h.brk⟩,
        rfl, ?_, ?_, ?_, ?_⟩
      · rw [FreeNodeLis, Heap.lis_of (by rw [mem_set_ne _ (Ne.symm hpc1)]; exact hc.1)]
        simp only [Option.bind_eq_bind, Option.bind_some]
        rw [free_of hc20 (by rw [mem_set_ne _ (Ne.symm hpc2)]; exact hc.2.1)]
        simp only [Option.bind_some]
        exact free_of hc0 (by
          show Function.update _ _ _ _ = _
          rw [Function.update_of_ne hc12, mem_set_ne _ (Ne.symm hpc1)]
          exact hc.1)
      · simp only
        rw [Function.update_of_ne hpc1, Function.update_of_ne hpc2, mem_set_self]
      · refine hc.2.2.congr fun x hx => ?_
        have h1 : x ≠ c.1 := by rintro rfl; exact hnd2.1 (by simp [hx])
        have h2 : x ≠ c.2 := by rintro rfl; exact hnd3.1 hx
        have h3 : x ≠ p := by rintro rfl; exact hnd1.1 (by simp [hx])
        simp only
        rw [Function.update_of_ne h1, Function.update_of_ne h2, mem_set_ne _ h3]
      · refine ⟨?_, fun x hx => Or.inl (by simp [cellBlocks_cons, hx]), ?_, hnd3.2, ?_, le_refl _⟩
        · intro x hx1 hx2 _
          rw [cellBlocks_cons] at hx2
          simp only [List.mem_cons, not_or] at hx2
          simp only
          rw [Function.update_of_ne hx2.1, Function.update_of_ne hx2.2.1, mem_set_ne _ hx1]
        · intro x hx hx'
          rw [cellBlocks_cons] at hx
          simp only [List.mem_cons] at hx
          simp only
          rcases hx with rfl | rfl | hx
          · rw [Function.update_self]
          · rw [Function.update_of_ne (Ne.symm hc12), Function.update_self]
          · exact absurd hx hx'
        · intro x hx
          have hx : h.brk ≤ x := hx
          have := lt_brk_of hf hc.1
          have := lt_brk_of hf hc.2.1
          have := lt_brk_of hf hp
          simp only
          rw [Function.update_of_ne (by omega), Function.update_of_ne (by omega), mem_set_ne _ (by omega)]
          exact hf x hx
    · rw [if_neg (fun e => hlr ((hr l (by simp)).1 e)), GR.dropLink, if_neg hlr]
      rcases dropWalk_spec hf hnull cs ls fuel c.1 _ hc.2.2 hc.1 rfl (List.nodup_cons.2 ⟨fun hx => hnd2.1 (by simp [hx]), hnd3.2⟩)
        (fun l hl => hr l (by simp [hl])) (by simp only [List.length_cons] at hl; omega) with ⟨e1, e2⟩ | ⟨ls', cs', h', e1, e2, h2, h3, h4⟩
      · exact Or.inl ⟨by rw [e1]; rfl, e2⟩
      · have hout : ∀ x, x ∉ cellBlocks cs → x < h.brk → x ∉ cellBlocks cs' := by
          intro x hx hb hx'
          rcases h4.new x hx' with hh | hh
          · exact hx hh
          · omega
        refine Or.inr ⟨l :: ls', c :: cs', h', by rw [e1]; rfl, e2, ?_, ⟨h2, ?_, h3⟩, ?_⟩
        · rw [h4.same p hpc1 (fun hx => hnd1.1 (by simp [hx])) (hout p (fun hx => hnd1.1 (by simp [hx])) (lt_brk_of hf hp)), hp]
          simp [first, ← hn']
        · rw [h4.same c.2 (Ne.symm hc12) hnd3.1 (hout c.2 hnd3.1 (lt_brk_of hf hc.2.1))]
          exact hc.2.1
        · refine ⟨?_, ?_, ?_, ?_, h4.fresh, h4.brk⟩
          · intro x hx1 hx2 hx3
            rw [cellBlocks_cons] at hx2 hx3
            simp only [List.mem_cons, not_or] at hx2 hx3
            exact h4.same x hx2.1 hx2.2.2 hx3.2.2
          · intro x hx
            rw [cellBlocks_cons] at hx ⊢
            rcases List.mem_cons.1 hx with rfl | hx
            · simp
            · rcases List.mem_cons.1 hx with rfl | hx
              · simp
              · rcases h4.new x hx with hh | hh
                · simp [hh]
                · exact Or.inr hh
          · intro x hx hx'
            rw [cellBlocks_cons] at hx hx'
            simp only [List.mem_cons, not_or] at hx hx'
            rcases hx with hx | hx | hx
            · exact absurd hx hx'.1
            · exact absurd hx hx'.2.1
            · exact h4.gone x hx hx'.2.2
          · rw [cellBlocks_cons]
            refine List.nodup_cons.2 ⟨?_, List.nodup_cons.2 ⟨hout _ hnd3.1 (lt_brk_of hf hc.2.1), h4.nodup⟩⟩
            simp only [List.mem_cons, not_or]
            exact ⟨hc12, hout _ (fun hx => hnd2.1 (by simp [hx])) (lt_brk_of hf hc.1)⟩

end HP
