import Verif.Heap.CopyModel
import Verif.Heap.Props

/-! # Copies in memory: lemmas -/

set_option linter.unusedSimpArgs false

namespace HP

variable {Λ : ℕ → Lay} {net : GR.Net} {h h' h0 : Heap} {root : ℕ}

theorem softWalk_spec (add : Bool) (w : ℚ) (s : String) (hf : ∀ a, h.brk ≤ a → h.mem a = none) (hnull : h.mem 0 = none)
    (hpos : 0 < h.brk) :
    ∀ (cs : List (ℕ × ℕ)) (ls : List GR.Link) (fuel p : ℕ) (a : Lis), CellsAt h Λ cs ls → h.mem p = some (.lis a) → a.next = first cs →
      (p :: cellBlocks cs).Nodup → cs.length < fuel →
      ∃ cs' h', softWalk add w s fuel p h = some ((GR.addLinkSoft s add w ls).1, h') ∧ h'.mem p = some (.lis { a with next := first cs' }) ∧
        CellsAt h' Λ cs' (GR.addLinkSoft s add w ls).2 ∧ Changed h h' p cs cs'
  | _, _, 0, _, _, _, _, _, _, hl => by omega
  | [], _ :: _, _ + 1, _, _, hc, _, _, _, _ => hc.elim
  | _ :: _, [], _ + 1, _, _, hc, _, _, _, _ => hc.elim
  | [], [], fuel + 1, p, a, _, hp, hn, _, _ => by
    have hpb := lt_brk_of hf hp
    refine ⟨[(h.brk, h.brk + 1)], (Heap.set ⟨Function.update ((Heap.set ⟨Function.update h.mem h.brk (some (.lis ⟨0, 0, 0, 0, w⟩)), h.brk + 1⟩ p
      (.lis { a with next := h.brk })).mem) (h.brk + 1) (some (.str s)), h.brk + 2⟩ h.brk (.lis ⟨0, h.brk + 1, 0, 0, w⟩)), ?_, ?_, ?_, ?_⟩
    · rw [softWalk, Heap.lis_of hp]
      simp only [Option.bind_eq_bind, Option.bind_some, Option.pure_def]
      rw [if_pos (by rw [hn]; rfl)]
      rfl
    · simp only [Heap.set]
      rw [Function.update_of_ne (by omega), Function.update_of_ne (by omega), Function.update_self]
      rfl
    · refine ⟨?_, ?_, trivial⟩
      · simp [Heap.set, first, numOf, refOf]
      · simp [Heap.set]
    · refine ⟨?_, ?_, ?_, ?_, ?_, ?_⟩
      · intro x hx _ hx2
        simp [cellBlocks] at hx2
        simp [Heap.set, hx, hx2.1, hx2.2]
      · intro x hx
        simp [cellBlocks] at hx
        right
        omega
      · intro x hx
        simp [cellBlocks] at hx
      · simp [cellBlocks]
      · intro x hx
        simp only [Heap.set] at hx ⊢
        rw [Function.update_of_ne (by omega), Function.update_of_ne (by omega), Function.update_of_ne (by omega),
          Function.update_of_ne (by omega)]
        exact hf x (by omega)
      · simp only [Heap.set]; omega
  | c :: cs, l :: ls, fuel + 1, p, a, hc, hp, hn, hnd, hl => by
    have hc0 : c.1 ≠ 0 := ne_zero_of hnull hc.1
    have hn' : a.next = c.1 := hn
    rw [cellBlocks_cons] at hnd
    have hnd1 := List.nodup_cons.1 hnd
    have hnd2 := List.nodup_cons.1 hnd1.2
    have hnd3 := List.nodup_cons.1 hnd2.2
    have hpc1 : p ≠ c.1 := fun e => hnd1.1 (by simp [e])
    have hpc2 : p ≠ c.2 := fun e => hnd1.1 (by simp [e])
    have hc12 : c.1 ≠ c.2 := fun e => hnd2.1 (by simp [e])
    rw [softWalk, Heap.lis_of hp]
    simp only [Option.bind_eq_bind, Option.bind_some, Option.pure_def]
    rw [if_neg (by rw [hn']; exact hc0), hn', Heap.lis_of hc.1]
    simp only [Option.bind_some]
    rw [Heap.str_of hc.2.1]
    simp only [Option.bind_some]
    by_cases hlr : l.nodeLabel = s
    · rw [if_pos hlr]
      have he : GR.addLinkSoft s add w (l :: ls) = if add then (1, { l with weight := l.weight + w } :: ls) else (0, l :: ls) := by
        rw [GR.addLinkSoft, if_pos hlr]
      rw [he]
      cases add with
      | true =>
        refine ⟨c :: cs, _, rfl, ?_, ⟨?_, ?_, ?_⟩, ?_⟩
        · rw [mem_set_ne _ hpc1, hp]
          simp [first, ← hn']
        · rw [mem_set_self]
        · rw [mem_set_ne _ (Ne.symm hc12)]; exact hc.2.1
        · refine hc.2.2.congr fun x hx => mem_set_ne _ ?_
          rintro rfl
          exact hnd2.1 (by simp [hx])
        · refine ⟨?_, fun x hx => Or.inl hx, fun x hx hx' => absurd hx hx', hnd1.2, ?_, le_refl _⟩
          · intro x _ hx _
            exact mem_set_ne _ (fun e => hx (by simp [cellBlocks_cons, e]))
          · intro x hx
            rw [mem_set_ne]
            · exact hf x hx
            · have := lt_brk_of hf hc.1
              have : h.brk ≤ x := hx
              omega
      | false =>
        refine ⟨c :: cs, h, rfl, ?_, hc, ⟨fun _ _ _ _ => rfl, fun x hx => Or.inl hx, fun x hx hx' => absurd hx hx', hnd1.2, hf, le_refl _⟩⟩
        rw [hp]
        simp [first, ← hn']
    · rw [if_neg hlr]
      have he : GR.addLinkSoft s add w (l :: ls) = ((GR.addLinkSoft s add w ls).1, l :: (GR.addLinkSoft s add w ls).2) := by
        rw [GR.addLinkSoft, if_neg hlr]
      rw [he]
      obtain ⟨cs', h', h1, h2, h3, h4⟩ := softWalk_spec add w s hf hnull hpos cs ls fuel c.1 _ hc.2.2 hc.1 rfl
        (List.nodup_cons.2 ⟨fun hx => hnd2.1 (by simp [hx]), hnd3.2⟩) (by simp only [List.length_cons] at hl; omega)
      have hout : ∀ x, x ∉ cellBlocks cs → x < h.brk → x ∉ cellBlocks cs' := by
        intro x hx hb hx'
        rcases h4.new x hx' with hh | hh
        · exact hx hh
        · omega
      refine ⟨c :: cs', h', h1, ?_, ⟨h2, ?_, h3⟩, ?_⟩
      · rw [h4.same p hpc1 (fun hx => hnd1.1 (by simp [hx])) (hout p (fun hx => hnd1.1 (by simp [hx])) (lt_brk_of hf hp)), hp]
        simp [first, ← hn']
      · rw [h4.same c.2 (Ne.symm hc12) hnd3.1 (hout c.2 hnd3.1 (lt_brk_of hf hc.2.1))]
        exact hc.2.1
      · refine ⟨?_, ?_, ?_, ?_, h4.fresh, h4.brk⟩
        · intro x hx1 hx2 hx3
          rw [cellBlocks_cons] at hx2 hx3
          simp only [List.mem_cons, not_or] at hx2 hx3
          exact h4.same x hx2.1 hx2.2.2 hx3.2.2
        · intro x hx
          rw [cellBlocks_cons] at hx ⊢
          rcases List.mem_cons.1 hx with rfl | hx
          · simp
          · rcases List.mem_cons.1 hx with rfl | hx
            · simp
            · rcases h4.new x hx with hh | hh
              · simp [hh]
              · exact Or.inr hh
        · intro x hx hx'
          rw [cellBlocks_cons] at hx hx'
          simp only [List.mem_cons, not_or] at hx hx'
          rcases hx with hx | hx | hx
          · exact absurd hx hx'.1
          · exact absurd hx hx'.2.1
          · exact h4.gone x hx hx'.2.2
        · rw [cellBlocks_cons]
          refine List.nodup_cons.2 ⟨?_, List.nodup_cons.2 ⟨hout _ hnd3.1 (lt_brk_of hf hc.2.1), h4.nodup⟩⟩
          simp only [List.mem_cons, not_or]
          exact ⟨hc12, hout _ (fun hx => hnd2.1 (by simp [hx])) (lt_brk_of hf hc.1)⟩


theorem soft_refs {s : String} {add : Bool} {w : ℚ} {n : ℕ} : ∀ ls : List GR.Link, (∀ l ∈ ls, ∀ k, l.ref = some k → k < n) →
    ∀ l ∈ (GR.addLinkSoft s add w ls).2, ∀ k, l.ref = some k → k < n
  | [], _, l, hl, k, hk => by
    simp only [GR.addLinkSoft, List.mem_singleton] at hl
    subst hl
    cases hk
  | x :: xs, hx, l, hl, k, hk => by
    rw [GR.addLinkSoft] at hl
    split_ifs at hl
    · simp only [List.mem_cons] at hl
      rcases hl with rfl | hl
      · exact hx x (by simp) k hk
      · exact hx l (by simp [hl]) k hk
    · exact hx l hl k hk
    · simp only [List.mem_cons] at hl
      rcases hl with rfl | hl
      · exact hx _ (by simp) k hk
      · exact soft_refs xs (fun l hl => hx l (by simp [hl])) l hl k hk

theorem soft_length {s : String} {add : Bool} {w : ℚ} : ∀ ls : List GR.Link, (GR.addLinkSoft s add w ls).2.length ≤ ls.length + 1
  | [] => by simp [GR.addLinkSoft]
  | x :: xs => by
    rw [GR.addLinkSoft]
    have := soft_length (s := s) (add := add) (w := w) xs
    split_ifs <;> simp <;> omega

theorem Rep.soft (R : Rep h0 h root Λ net) {i : ℕ} (hi : i < net.n) (s : String) (auto add : Bool) (w : ℚ) {fuel : ℕ}
    (hf : (net.neig i).length < fuel) :
    ∃ h' Λ', AddAdjacencySoft fuel (Λ i).addr s auto add w h = some ((GR.AddAdjacencySoft net i s auto add w).1, h') ∧
      Rep h0 h' root Λ' (GR.AddAdjacencySoft net i s auto add w).2 ∧ ∀ k, (Λ' k).addr = (Λ k).addr := by
  unfold AddAdjacencySoft GR.AddAdjacencySoft
  have Ni := R.nodes i hi
  rw [Heap.gra_of Ni.gra]
  simp only [Option.bind_eq_bind, Option.bind_some]
  rw [Heap.str_of Ni.lab]
  simp only [Option.bind_some]
  by_cases hc : net.label i = s ∧ auto = false
  · rw [if_pos hc, if_pos hc]
    exact ⟨h, Λ, rfl, R, fun _ => rfl⟩
  · rw [if_neg hc, if_neg hc]
    have hnd := R.nodup i hi
    unfold Lay.blocks at hnd
    have hnd3 := (List.nodup_cons.1 (List.nodup_cons.1 hnd).2).2
    obtain ⟨cs', h3, e3, hh, hcl, C⟩ := softWalk_spec (Λ := Λ) add w s R.fresh R.null R.pos (Λ i).cells _ fuel (Λ i).head _
      Ni.cells Ni.head rfl hnd3 (by rw [Ni.cells.length_eq]; exact hf)
    refine ⟨h3, _, e3, R.links hi hh hcl C (soft_refs _ (R.refs i hi)), ?_⟩
    intro k
    by_cases e : k = i
    · subst e; simp
    · simp [e]

/-- Blocks of other owners stay as they are. -/
theorem Rep.keep (R : Rep h0 h root Λ net) {a : ℕ} {o : Obj} (ha : h0.mem a = some o) : h.mem a = some o := by
  rw [R.out a ?_ ?_, ha]
  · rintro rfl
    rw [R.own _ (Or.inl rfl)] at ha; cases ha
  · intro i hi hm
    rw [R.own _ (Or.inr ⟨i, hi, hm⟩)] at ha; cases ha

variable {Λ1 : ℕ → Lay} {src : GR.Net}

theorem soft_n (net : GR.Net) (i : ℕ) (s : String) (auto add : Bool) (w : ℚ) :
    (GR.AddAdjacencySoft net i s auto add w).2.n = net.n := by
  unfold GR.AddAdjacencySoft; split_ifs <;> rfl

theorem copyList_spec {links i : ℕ} (hnull : h0.mem 0 = none) : ∀ (cs : List (ℕ × ℕ)) (ls : List GR.Link) (fuel p : ℕ) (a : Lis) {h : Heap}
    {Λ : ℕ → Lay} {net : GR.Net}, CellsAt h0 Λ1 cs ls → h0.mem p = some (.lis a) → a.next = first cs → cs.length < fuel →
    Rep h0 h root Λ net → i < net.n → (net.neig i).length + ls.length ≤ links →
    ∃ h' Λ', CopyAdjacencyList links (Λ i).addr fuel p h = some h' ∧ Rep h0 h' root Λ' (GR.CopyAdjacencyList ls net i) ∧
      (∀ k, (Λ' k).addr = (Λ k).addr) ∧ (GR.CopyAdjacencyList ls net i).n = net.n ∧ (GR.CopyAdjacencyList ls net i).label = net.label ∧
      ((GR.CopyAdjacencyList ls net i).neig i).length ≤ (net.neig i).length + ls.length ∧
      ∀ k, k ≠ i → (GR.CopyAdjacencyList ls net i).neig k = net.neig k
  | _, _, 0, _, _, _, _, _, _, _, _, hl, _, _, _ => by omega
  | [], _ :: _, _ + 1, _, _, _, _, _, hc, _, _, _, _, _, _ => hc.elim
  | _ :: _, [], _ + 1, _, _, _, _, _, hc, _, _, _, _, _, _ => hc.elim
  | [], [], fuel + 1, p, a, h, Λ, net, _, hp, hn, _, R, _, _ => by
    refine ⟨h, Λ, ?_, R, fun _ => rfl, rfl, rfl, le_refl _, fun _ _ => rfl⟩
    rw [CopyAdjacencyList, Heap.lis_of (R.keep hp)]
    simp only [Option.bind_eq_bind, Option.bind_some]
    rw [if_pos (by rw [hn]; rfl)]
    rfl
  | c :: cs, l :: ls, fuel + 1, p, a, h, Λ, net, hc, hp, hn, hl, R, hi, hb => by
    have hc0 : c.1 ≠ 0 := ne_zero_of hnull hc.1
    have hn' : a.next = c.1 := hn
    simp only [List.length_cons] at hl hb
    obtain ⟨h1, Λ', e1, R1, hA⟩ := R.soft hi l.nodeLabel true false l.weight (fuel := links) (by omega)
    have hlen : (((GR.AddAdjacencySoft net i l.nodeLabel true false l.weight).2).neig i).length ≤ (net.neig i).length + 1 := by
      unfold GR.AddAdjacencySoft
      rw [if_neg (by simp)]
      simp only [Function.update_self]
      exact soft_length _
    obtain ⟨h2, Λ2, e2, R2, hB, hC1, hC2, hC3, hC4⟩ := copyList_spec (links := links) hnull cs ls fuel c.1 _ hc.2.2 hc.1 rfl (by omega) R1
      (by rw [soft_n]; exact hi) (by omega)
    refine ⟨h2, Λ2, ?_, R2, fun k => by rw [hB, hA], ?_, ?_, ?_, ?_⟩
    · rw [CopyAdjacencyList, Heap.lis_of (R.keep hp)]
      simp only [Option.bind_eq_bind, Option.bind_some]
      rw [if_neg (by rw [hn']; exact hc0), hn', Heap.lis_of (R.keep hc.1)]
      simp only [Option.bind_some]
      rw [Heap.str_of (R.keep hc.2.1)]
      simp only [Option.bind_some]
      rw [e1]
      simp only [Option.bind_some]
      rw [← hA i]
      exact e2
    · exact hC1.trans (soft_n ..)
    · refine hC2.trans ?_
      unfold GR.AddAdjacencySoft; rw [if_neg (by simp)]
    · have := hC3
      rw [List.length_cons]
      have e : GR.CopyAdjacencyList (l :: ls) net i = GR.CopyAdjacencyList ls (GR.AddAdjacencySoft net i l.nodeLabel true false l.weight).2 i := rfl
      rw [e]
      omega
    · intro k hk
      refine (hC4 k hk).trans ?_
      unfold GR.AddAdjacencySoft; rw [if_neg (by simp)]
      simp [hk]

theorem last_last (R : Rep h0 h root Λ net) {fuel : ℕ} (hf : 0 < fuel) :
    lastGra fuel (lastOf root Λ net.n) h = some (lastOf root Λ net.n) := by
  unfold lastOf
  by_cases hn : net.n = 0
  · rw [if_pos hn]
    obtain ⟨f, rfl⟩ : ∃ f, fuel = f + 1 := ⟨fuel - 1, by omega⟩
    rw [lastGra, Heap.gra_of R.header]
    simp only [Option.bind_eq_bind, Option.bind_some, Option.pure_def]
    rw [if_pos (by unfold nodeOf; rw [if_neg (by omega)])]
  · rw [if_neg hn]
    exact last_from R 0 (net.n - 1) fuel (by omega) hf

/-- Lists of the copy are no longer than those of the source. -/
def Short (net src : GR.Net) : Prop := ∀ j < net.n, (net.neig j).length ≤ (src.neig j).length

theorem copyLoop_spec {h00 : Heap} {root1 links : ℕ} (S : Rep h00 h0 root1 Λ1 src) (hs : ∀ i < src.n, (src.neig i).length < links) (hl0 : 0 < links) :
    ∀ (todo k fuel p : ℕ) (x : Gra) {h : Heap} {Λ : ℕ → Lay} {net : GR.Net}, k + todo = src.n → h0.mem p = some (.gra x) →
    x.next = nodeOf Λ1 src.n k → todo < fuel → Rep h0 h root Λ net → net.n = k → Short net src →
    (GR.copyNodes src todo k net = none ∧ copyLoop links fuel p (lastOf root Λ net.n) h = none) ∨
    ∃ net' h' Λ', GR.copyNodes src todo k net = some net' ∧ copyLoop links fuel p (lastOf root Λ net.n) h = some h' ∧
      Rep h0 h' root Λ' net' ∧ net'.n = src.n ∧ Short net' src
  | _, _, 0, _, _, _, _, _, _, _, _, hf, _, _, _ => by omega
  | 0, k, fuel + 1, p, x, h, Λ, net, hk, hp, hx, _, R, hn, hsh => by
    refine Or.inr ⟨net, h, Λ, rfl, ?_, R, by omega, hsh⟩
    rw [copyLoop, Heap.gra_of (R.keep hp)]
    simp only [Option.bind_eq_bind, Option.bind_some]
    rw [if_pos (by rw [hx]; unfold nodeOf; rw [if_neg (by omega)])]
    rfl
  | todo + 1, k, fuel + 1, p, x, h, Λ, net, hk, hp, hx, hf, R, hn, hsh => by
    have hks : k < src.n := by omega
    have Nk := S.nodes k hks
    have hx' : x.next = (Λ1 k).addr := by rw [hx]; unfold nodeOf; rw [if_pos hks]
    have hx0 : x.next ≠ 0 := by rw [hx']; exact S.addr_ne_zero hks
    rw [copyLoop, Heap.gra_of (R.keep hp)]
    simp only [Option.bind_eq_bind, Option.bind_some]
    rw [if_neg hx0, hx', Heap.gra_of (R.keep Nk.gra)]
    simp only [Option.bind_some]
    rw [Heap.str_of (R.keep Nk.lab)]
    simp only [Option.bind_some]
    rw [GR.copyNodes]
    by_cases hl : GR.fits (src.label k) = true
    · obtain ⟨h1, Λ', e1, hold, net', e2, R1⟩ := R.node (last_last R hl0) hl
      rw [e1, e2]
      simp only [Option.bind_eq_bind, Option.bind_some]
      have hn' : net'.n = k + 1 ∧ net'.neig k = [] ∧ ∀ j < k, net'.neig j = net.neig j := by
        rw [GR.CreateNodeGraph, if_pos hl] at e2
        simp only [Option.some.injEq, Prod.mk.injEq] at e2
        rw [← e2.2]
        refine ⟨by simp [hn], by simp [hn], fun j hj => ?_⟩
        simp [hn, Nat.ne_of_lt hj]
      rw [hn] at e1 e2 ⊢
      obtain ⟨h2, Λ2, e3, R2, hA, hB1, hB2, hB3, hB4⟩ := copyList_spec (i := k) (links := links) S.null (Λ1 k).cells (src.neig k) links (Λ1 k).head _
        Nk.cells Nk.head rfl (by rw [Nk.cells.length_eq]; exact hs k hks) R1 (by omega)
        (by rw [hn'.2.1]; have := hs k hks; simp only [List.length_nil]; omega)
      rw [e3]
      simp only [Option.bind_some]
      have hlast : (Λ' k).addr = lastOf root Λ2 (GR.CopyAdjacencyList (src.neig k) net' k).n := by
        rw [hB1, hn'.1]; unfold lastOf; rw [if_neg (by omega), Nat.add_sub_cancel, hA]
      rw [hlast]
      refine copyLoop_spec S hs hl0 todo (k + 1) fuel (Λ1 k).addr _ (by omega) Nk.gra rfl (by omega) R2 (by rw [hB1, hn'.1]) ?_
      intro j hj
      rw [hB1, hn'.1] at hj
      by_cases e : j = k
      · subst e
        rw [hn'.2.1] at hB3
        simpa using hB3
      · rw [hB4 j e, hn'.2.2 j (by omega)]
        exact hsh j (by omega)
    · simp only [Bool.not_eq_true] at hl
      rw [node_overflow hl, GR.CreateNodeGraph, if_neg (by rw [hl]; simp)]
      exact Or.inl ⟨rfl, rfl⟩

/-! ## Rewiring -/

theorem makeDict_spec (R : Rep h0 h root Λ net) : ∀ (m k fuel p : ℕ) (x : Gra) (acc : List (String × ℕ)), k + m = net.n → h.mem p = some (.gra x) →
    x.next = nodeOf Λ net.n k → m < fuel →
    makeDict fuel p acc h = some (((List.range' k m).map fun i => (net.label i, (Λ i).addr)).reverse ++ acc)
  | _, _, 0, _, _, _, _, _, _, hf => by omega
  | 0, k, fuel + 1, p, x, acc, hk, hp, hx, _ => by
    rw [makeDict, Heap.gra_of hp]
    simp only [Option.bind_eq_bind, Option.bind_some]
    rw [if_pos (by rw [hx]; unfold nodeOf; rw [if_neg (by omega)])]
    rfl
  | m + 1, k, fuel + 1, p, x, acc, hk, hp, hx, hf => by
    have N := R.nodes k (by omega)
    have hx' : x.next = (Λ k).addr := by rw [hx]; unfold nodeOf; rw [if_pos (by omega)]
    rw [makeDict, Heap.gra_of hp]
    simp only [Option.bind_eq_bind, Option.bind_some]
    rw [if_neg (by rw [hx']; exact R.addr_ne_zero (by omega)), hx', Heap.gra_of N.gra]
    simp only [Option.bind_some]
    rw [Heap.str_of N.lab]
    simp only [Option.bind_some]
    rw [makeDict_spec R m (k + 1) fuel _ _ _ (by omega) N.gra rfl (by omega)]
    simp [List.range'_succ]

theorem getNodeDict_spec (label : ℕ → String) (s : String) : ∀ (is : List ℕ),
    getNodeDict s (is.map fun i => (label i, (Λ i).addr)) = refOf Λ (is.find? fun i => label i = s)
  | [] => rfl
  | i :: is => by
    have ih := getNodeDict_spec label s is
    unfold getNodeDict at ih ⊢
    by_cases e : label i = s
    · simp [List.find?, e, refOf]
    · simpa [List.find?, e] using ih

theorem dict_spec (R : Rep h0 h root Λ net) {fuel : ℕ} (hf : net.n < fuel) :
    ∃ D, makeDict fuel root [] h = some D ∧ ∀ s, getNodeDict s D = refOf Λ (GR.dictFind net s) := by
  refine ⟨_, makeDict_spec R net.n 0 fuel root _ [] (by omega) R.header rfl hf, fun s => ?_⟩
  rw [List.append_nil, ← List.map_reverse, getNodeDict_spec]
  unfold GR.dictFind
  rw [List.range_eq_range']

/-- A link rewired. -/
def rewire (net : GR.Net) (l : GR.Link) : Option GR.Link := (GR.dictFind net l.nodeLabel).map fun r => { l with ref := some r }

theorem dictFind_lt {s : String} {j : ℕ} (e : GR.dictFind net s = some j) : j < net.n := by
  have := List.mem_of_find?_eq_some e
  simpa using this

theorem rewireLinks_spec {D : List (String × ℕ)} (hD : ∀ s, getNodeDict s D = refOf Λ (GR.dictFind net s)) :
    ∀ (cs : List (ℕ × ℕ)) (ls : List GR.Link) (fuel p : ℕ) (a : Lis) {h : Heap}, h.mem 0 = none → CellsAt h Λ cs ls → h.mem p = some (.lis a) →
      a.next = first cs → (p :: cellBlocks cs).Nodup → cs.length < fuel →
      (∀ j < net.n, ∃ x, h.mem (Λ j).addr = some (.gra x) ∧ x.num = j) →
      (ls.mapM (rewire net) = none ∧ rewireLinks D fuel p h = none) ∨
      ∃ ls' h', ls.mapM (rewire net) = some ls' ∧ rewireLinks D fuel p h = some h' ∧ CellsAt h' Λ cs ls' ∧
        (∀ x, x ∉ cellBlocks cs → h'.mem x = h.mem x) ∧ h'.brk = h.brk
  | _, _, 0, _, _, _, _, _, _, _, _, hl, _ => by omega
  | [], _ :: _, _ + 1, _, _, _, _, hc, _, _, _, _, _ => hc.elim
  | _ :: _, [], _ + 1, _, _, _, _, hc, _, _, _, _, _ => hc.elim
  | [], [], fuel + 1, p, a, h, _, _, hp, hn, _, _, _ => by
    refine Or.inr ⟨[], h, rfl, ?_, trivial, fun _ _ => rfl, rfl⟩
    rw [rewireLinks, Heap.lis_of hp]
    simp only [Option.bind_eq_bind, Option.bind_some]
    rw [if_pos (by rw [hn]; rfl)]
    rfl
  | c :: cs, l :: ls, fuel + 1, p, a, h, hnull, hc, hp, hn, hnd, hl, hnum => by
    have hc0 : c.1 ≠ 0 := ne_zero_of hnull hc.1
    have hn' : a.next = c.1 := hn
    rw [cellBlocks_cons] at hnd
    have hnd1 := List.nodup_cons.1 hnd
    have hnd2 := List.nodup_cons.1 hnd1.2
    have hnd3 := List.nodup_cons.1 hnd2.2
    have hpc1 : p ≠ c.1 := fun e => hnd1.1 (by simp [e])
    have hc12 : c.1 ≠ c.2 := fun e => hnd2.1 (by simp [e])
    rw [rewireLinks, Heap.lis_of hp]
    simp only [Option.bind_eq_bind, Option.bind_some]
    rw [if_neg (by rw [hn']; exact hc0), hn', Heap.lis_of hc.1]
    simp only [Option.bind_some]
    rw [Heap.str_of hc.2.1]
    simp only [Option.bind_some]
    rw [hD, List.mapM_cons]
    unfold rewire
    cases e : GR.dictFind net l.nodeLabel with
    | none =>
      left
      refine ⟨rfl, ?_⟩
      have : h.gra (refOf Λ none) = none := Heap.gra_none hnull
      rw [this]
      rfl
    | some j =>
      have hj := dictFind_lt e
      obtain ⟨y, hy, hyn⟩ := hnum j hj
      have hr : refOf Λ (some j) = (Λ j).addr := rfl
      rw [hr, Heap.gra_of hy]
      simp only [Option.bind_some, Option.map_some, Option.bind_eq_bind]
      set h1 := h.set c.1 (.lis { node := y.num, nodeLabel := c.2, next := first cs, ref := (Λ j).addr, weight := l.weight }) with hh1
      have hcs : CellsAt h1 Λ cs ls := hc.2.2.congr fun x hx => mem_set_ne _ (by rintro rfl; exact hnd2.1 (by simp [hx]))
      rcases rewireLinks_spec hD cs ls fuel c.1 _ (h := h1) (by rw [mem_set_ne _ (Ne.symm hc0)]; exact hnull) hcs (mem_set_self _ _) rfl
        (List.nodup_cons.2 ⟨fun hx => hnd2.1 (by simp [hx]), hnd3.2⟩) (by simp only [List.length_cons] at hl; omega)
        (fun k hk => by
          obtain ⟨z, hz, hzn⟩ := hnum k hk
          refine ⟨z, ?_, hzn⟩
          rw [mem_set_ne _ (by rintro e; rw [e, hc.1] at hz; cases hz)]
          exact hz) with ⟨e1, e2⟩ | ⟨ls', h', e1, e2, hcl, hout, hb⟩
      · left
        refine ⟨?_, e2⟩
        change ((ls.mapM (rewire net)).bind fun t => some (_ :: t)) = none
        rw [e1]
        rfl
      · right
        refine ⟨{ l with ref := some j } :: ls', h', ?_, e2, ⟨?_, ?_, hcl⟩, ?_, hb⟩
        · change ((ls.mapM (rewire net)).bind fun t => some (_ :: t)) = _
          rw [e1]
          rfl
        · rw [hout c.1 (fun hx => hnd2.1 (by simp [hx])), mem_set_self, hyn]
          rfl
        · rw [hout c.2 hnd3.1, mem_set_ne _ (Ne.symm hc12)]
          exact hc.2.1
        · intro x hx
          rw [cellBlocks_cons] at hx
          simp only [List.mem_cons, not_or] at hx
          rw [hout x hx.2.2, mem_set_ne _ hx.1]

/-- The network with the first rows of links replaced and the caches of these nodes reset. -/
def netAt (net : GR.Net) (rows : List (List GR.Link)) : GR.Net :=
  { net with
    neig := fun i => if i < rows.length then rows.getD i [] else net.neig i
    degree := fun i => if i < rows.length then 0 else net.degree i
    strength := fun i => if i < rows.length then 0 else net.strength i }

theorem netAt_nil : netAt net [] = net := by
  unfold netAt; simp

theorem netAt_snoc (rows : List (List GR.Link)) (ls : List GR.Link) :
    { GR.resetCaches (netAt net rows) rows.length with neig := Function.update (netAt net rows).neig rows.length ls } = netAt net (rows ++ [ls]) := by
  unfold netAt GR.resetCaches
  simp only [GR.Net.mk.injEq, true_and]
  refine ⟨?_, ?_, ?_⟩
  all_goals
    funext i
    rw [Function.update_apply]
    by_cases e : i = rows.length
    · subst e; simp
    · by_cases e2 : i < rows.length
      · simp [e, e2, Nat.lt_succ_of_lt e2, List.getD_eq_getElem?_getD, List.getElem?_append_left e2]
      · have : ¬ i < rows.length + 1 := by omega
        simp [e, e2, this]

theorem rewireNodes_spec {links : ℕ} {D : List (String × ℕ)} (hs : ∀ i < net.n, (net.neig i).length < links) :
    ∀ (m k fuel p : ℕ) (x : Gra) (rows : List (List GR.Link)) {h : Heap} {Λ : ℕ → Lay}, k + m = net.n → h.mem p = some (.gra x) →
    x.next = nodeOf Λ net.n k → m < fuel → rows.length = k → Rep h0 h root Λ (netAt net rows) →
    (∀ s, getNodeDict s D = refOf Λ (GR.dictFind net s)) →
    ((List.range' k m).mapM (fun i => (net.neig i).mapM (rewire net)) = none ∧ rewireNodes links D fuel p h = none) ∨
    ∃ rows' h' Λ', (List.range' k m).mapM (fun i => (net.neig i).mapM (rewire net)) = some rows' ∧ rewireNodes links D fuel p h = some h' ∧
      Rep h0 h' root Λ' (netAt net (rows ++ rows')) ∧ rows'.length = m
  | _, _, 0, _, _, _, _, _, _, _, _, hf, _, _, _ => by omega
  | 0, k, fuel + 1, p, x, rows, h, Λ, hk, hp, hx, _, _, R, _ => by
    refine Or.inr ⟨[], h, Λ, rfl, ?_, by rw [List.append_nil]; exact R, rfl⟩
    rw [rewireNodes, Heap.gra_of hp]
    simp only [Option.bind_eq_bind, Option.bind_some]
    rw [if_pos (by rw [hx]; unfold nodeOf; rw [if_neg (by omega)])]
    rfl
  | m + 1, k, fuel + 1, p, x, rows, h, Λ, hk, hp, hx, hf, hr, R, hD => by
    have hkn : k < net.n := by omega
    have hx' : x.next = (Λ k).addr := by rw [hx]; unfold nodeOf; rw [if_pos hkn]
    have hx0 : x.next ≠ 0 := by rw [hx']; exact R.addr_ne_zero (i := k) hkn
    obtain ⟨h1, e1, R1, _⟩ := R.reset (i := k) hkn
    have N1 := R1.nodes k hkn
    have hneig : (GR.resetCaches (netAt net rows) k).neig k = net.neig k := by
      simp [GR.resetCaches, netAt, hr]
    have hcells := N1.cells
    rw [hneig] at hcells
    have hnd := R1.nodup k hkn
    unfold Lay.blocks at hnd
    have hnd3 := (List.nodup_cons.1 (List.nodup_cons.1 hnd).2).2
    rw [rewireNodes, Heap.gra_of hp]
    simp only [Option.bind_eq_bind, Option.bind_some]
    rw [if_neg hx0, hx', e1]
    simp only [Option.bind_some]
    rw [Heap.gra_of N1.gra]
    simp only [Option.bind_some]
    rw [List.range'_succ, List.mapM_cons]
    rcases rewireLinks_spec hD (Λ k).cells (net.neig k) links (Λ k).head _ R1.null hcells N1.head rfl hnd3
      (by rw [hcells.length_eq]; exact hs k hkn) (fun j hj => ⟨_, (R1.nodes j hj).gra, rfl⟩) with ⟨e2, e3⟩ | ⟨ls', h2, e2, e3, hcl, hout, hb⟩
    · rw [e2, e3]
      exact Or.inl ⟨rfl, rfl⟩
    · rw [e2, e3]
      simp only [Option.bind_eq_bind, Option.bind_some]
      have C : Changed h1 h2 (Λ k).head (Λ k).cells (Λ k).cells := by
        refine ⟨fun a _ ha _ => hout a ha, fun a ha => Or.inl ha, fun a ha ha' => absurd ha ha', (List.nodup_cons.1 hnd3).2, ?_, le_of_eq hb.symm⟩
        intro a ha
        rw [hb] at ha
        rw [hout a ?_]
        · exact R1.fresh a ha
        · intro hm
          obtain ⟨o, ho⟩ := hcells.live a hm
          rw [R1.fresh a ha] at ho; cases ho
      have hhead := N1.head
      rw [← hout (Λ k).head (List.nodup_cons.1 hnd3).1] at hhead
      have hrefs : ∀ l ∈ ls', ∀ j, l.ref = some j → j < net.n := by
        intro l hl j hj
        have : ∀ (ls ls' : List GR.Link), ls.mapM (rewire net) = some ls' → ∀ l ∈ ls', ∀ j, l.ref = some j → j < net.n := by
          intro ls
          induction ls with
          | nil => intro ls' e l hl; cases e; simp at hl
          | cons a as ih =>
            intro ls' e l hl j hj
            rw [List.mapM_cons] at e
            unfold rewire at e
            cases ed : GR.dictFind net a.nodeLabel with
            | none => rw [ed] at e; cases e
            | some i =>
              rw [ed] at e
              simp only [Option.map_some, Option.bind_eq_bind, Option.bind_some] at e
              change ((as.mapM (rewire net)).bind fun t => some (_ :: t)) = _ at e
              cases e4 : as.mapM (rewire net) with
              | none => rw [e4] at e; cases e
              | some bs =>
                rw [e4] at e
                simp only [Option.bind_some, Option.some.injEq] at e
                subst e
                rcases List.mem_cons.1 hl with rfl | hl
                · cases hj; exact dictFind_lt ed
                · exact ih bs e4 l hl j hj
        exact this _ _ e2 l hl j hj
      have R2 := R1.links hkn hhead hcl C hrefs
      have hΛ : Function.update Λ k { Λ k with cells := (Λ k).cells } = Λ := by simp
      rw [hΛ] at R2
      have hnet : { GR.resetCaches (netAt net rows) k with neig := Function.update (GR.resetCaches (netAt net rows) k).neig k ls' } =
          netAt net (rows ++ [ls']) := by rw [← hr]; exact netAt_snoc rows ls'
      rw [hnet] at R2
      rcases rewireNodes_spec hs m (k + 1) fuel (Λ k).addr _ (rows ++ [ls']) (by omega) (R2.nodes k hkn).gra rfl (by omega) (by simp [hr]) R2 hD with
        ⟨e4, e5⟩ | ⟨rows', h3, Λ', e4, e5, R3, hl3⟩
      · left
        refine ⟨?_, e5⟩
        rw [e4]
        rfl
      · right
        refine ⟨ls' :: rows', h3, Λ', ?_, e5, ?_, by simp [hl3]⟩
        · rw [e4]
          rfl
        · rw [List.append_assoc] at R3
          exact R3

theorem rewire_spec (R : Rep h0 h root Λ net) {fuel : ℕ} (hs : Small net fuel) :
    (GR.RewireAdjacencyByLabel net = none ∧ RewireAdjacencyByLabel fuel root h = none) ∨
    ∃ net' h' Λ', GR.RewireAdjacencyByLabel net = some net' ∧ RewireAdjacencyByLabel fuel root h = some h' ∧ Rep h0 h' root Λ' net' ∧
      net'.n = net.n ∧ net'.label = net.label := by
  obtain ⟨D, e1, hD⟩ := dict_spec R hs.1
  have hg : GR.RewireAdjacencyByLabel net =
      ((List.range' 0 net.n).mapM (fun i => (net.neig i).mapM (rewire net))).map fun rows => { net with
        neig := fun i => if i < net.n then rows.getD i [] else net.neig i
        degree := fun i => if i < net.n then 0 else net.degree i
        strength := fun i => if i < net.n then 0 else net.strength i } := by
    unfold GR.RewireAdjacencyByLabel
    rw [← List.range_eq_range']
    have : (fun l : GR.Link => do
        let r ← GR.dictFind net l.nodeLabel
        return { l with ref := some r }) = rewire net := by
      funext l
      unfold rewire
      cases GR.dictFind net l.nodeLabel <;> rfl
    simp only [this]
    cases (List.range net.n).mapM (fun i => (net.neig i).mapM (rewire net)) <;> rfl
  rw [RewireAdjacencyByLabel, e1, hg]
  simp only [Option.bind_eq_bind, Option.bind_some]
  rcases rewireNodes_spec (links := fuel) (D := D) hs.2 net.n 0 fuel root _ [] (by omega) R.header rfl hs.1 rfl (by rw [netAt_nil]; exact R) hD with
    ⟨e2, e3⟩ | ⟨rows, h', Λ', e2, e3, R', hl⟩
  · rw [e2, e3]
    exact Or.inl ⟨rfl, rfl⟩
  · rw [e2, e3]
    refine Or.inr ⟨_, h', Λ', rfl, rfl, ?_, rfl, rfl⟩
    rw [List.nil_append] at R'
    unfold netAt at R'
    rw [hl] at R'
    exact R'

end HP
