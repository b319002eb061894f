import Verif.Graph.Thin

set_option linter.unusedSimpArgs false

/-!
# C74 (`RemoveRandomLinks`) and C75 (`AddRandomLinks`)
-/

namespace GR
open RG

/-- Links between the first `n` nodes: ordered pairs, or for undirected networks the pairs with the
smaller node first. -/
def linkSet (sym : Bool) (n : ℕ) (g : WG) : Finset (ℕ × ℕ) :=
  (Finset.range n ×ˢ Finset.range n).filter fun p => (g p.1 p.2).isSome ∧ (sym = true → p.1 < p.2)

theorem mem_linkSet {sym : Bool} {n : ℕ} {g : WG} {i j : ℕ} : (i, j) ∈ linkSet sym n g ↔
    i < n ∧ j < n ∧ (g i j).isSome ∧ (sym = true → i < j) := by
  simp [linkSet, and_assoc]

/-- The weights of `g` without the links of `S` (in both directions if undirected). -/
def without (sym : Bool) (S : Finset (ℕ × ℕ)) (g : WG) : WG :=
  fun i j => if (i, j) ∈ S ∨ (sym = true ∧ (j, i) ∈ S) then none else g i j

/-! ## Lemmas -/

theorem cut_without (sym : Bool) (K : List (ℕ × ℕ)) (g : WG) : cut sym K g = without sym K.toFinset g := by
  funext i j
  simp [cut, without, dead]

theorem thinList_mem {sym : Bool} {net : Net} {g : WG} (h : Holds net g) (hs : SymOK sym g) {p : ℕ × ℕ} :
    p ∈ thinList sym net (List.range net.n) ↔ p ∈ linkSet sym net.n g := by
  obtain ⟨i, j⟩ := p
  rw [mem_linkSet]
  simp only [thinList, List.mem_flatMap, List.mem_range, List.mem_map, List.mem_filterMap, Prod.mk.injEq]
  constructor
  · rintro ⟨a, ha, b, ⟨l, hl, he⟩, rfl, rfl⟩
    obtain ⟨k, hk, ek, eg⟩ := (h a ha).2.1 l hl
    simp only [elig, ek, Option.bind_some] at he
    split_ifs at he with hc
    obtain rfl := Option.some.inj he
    have hg : (g a k).isSome := by rw [eg]; rfl
    refine ⟨ha, hk, hg, fun hs' => ?_⟩
    rcases hc with hc | hc
    · refine lt_of_le_of_ne hc ?_
      rintro rfl
      rw [(hs hs').2] at hg; simp at hg
    · rw [hc] at hs'; simp at hs'
  · rintro ⟨hi, hj, hg, hlt⟩
    obtain ⟨w, hw⟩ := Option.isSome_iff_exists.1 hg
    obtain ⟨l, hl, er, _⟩ := (h i hi).2.2 j w hw
    refine ⟨i, hi, j, ⟨l, hl, ?_⟩, rfl, rfl⟩
    simp only [elig, er, Option.bind_some]
    rw [if_pos]
    cases sym with
    | false => exact Or.inr rfl
    | true => exact Or.inl (hlt rfl).le

theorem thinList_nodup {sym : Bool} {net : Net} {g : WG} (h : Holds net g) :
    (thinList sym net (List.range net.n)).Nodup := by
  unfold thinList
  rw [List.nodup_flatMap]
  constructor
  · intro p hp
    have hn := (h p (List.mem_range.1 hp)).1
    refine List.Nodup.map (fun a b e => by simpa using e) ?_
    have e : (net.neig p).filterMap (elig sym p)
        = ((net.neig p).map Link.ref).filterMap fun r => r.bind fun j =>
            if p ≤ j ∨ sym = false then some j else none := by
      rw [List.filterMap_map]; rfl
    rw [e]
    refine List.Nodup.filterMap ?_ hn
    intro a a' b hb hb'
    cases a with
    | none => simp at hb
    | some x =>
      cases a' with
      | none => simp at hb'
      | some y =>
        simp only [Option.bind_some, Option.mem_def] at hb hb'
        split_ifs at hb hb'
        simp only [Option.some.injEq] at hb hb'
        rw [hb, hb']
  · refine List.Pairwise.imp ?_ (List.nodup_iff_pairwise_ne.1 List.nodup_range)
    intro a b hab
    simp only [Function.onFun, List.disjoint_left, List.mem_map]
    rintro x ⟨_, _, rfl⟩ ⟨_, _, e⟩
    exact hab (Prod.mk.inj e).1.symm

theorem linkSet_card {sym : Bool} {n : ℕ} {g : WG} (hs : SymOK sym g) :
    (linkSet sym n g).card = ((Finset.range n ×ˢ Finset.range n).filter fun p =>
        (g p.1 p.2).isSome ∧ (sym = true → p.2 < p.1)).card := by
  cases sym with
  | false => simp [linkSet]
  | true =>
    obtain ⟨h1, _⟩ := hs rfl
    apply Finset.card_bij (fun p _ => (p.2, p.1))
    · rintro ⟨a, b⟩ hp
      obtain ⟨ha, hb, hg, hl⟩ := mem_linkSet.1 hp
      simp only [Finset.mem_filter, Finset.mem_product, Finset.mem_range]
      exact ⟨⟨hb, ha⟩, by rw [h1]; exact hg, fun _ => hl rfl⟩
    · rintro ⟨a, b⟩ _ ⟨c, d⟩ _ e
      simp only [Prod.mk.injEq] at e ⊢
      exact ⟨e.2, e.1⟩
    · rintro ⟨a, b⟩ hp
      simp only [Finset.mem_filter, Finset.mem_product, Finset.mem_range] at hp
      exact ⟨(b, a), mem_linkSet.2 ⟨hp.1.2, hp.1.1, by rw [h1]; exact hp.2.1, fun _ => hp.2.2 trivial⟩, rfl⟩

theorem thinList_length {sym : Bool} {net : Net} {g : WG} (h : Holds net g) (hs : SymOK sym g) :
    (thinList sym net (List.range net.n)).length = (linkSet sym net.n g).card := by
  rw [← List.toFinset_card_of_nodup (thinList_nodup h)]
  congr 1
  ext p
  rw [List.mem_toFinset, thinList_mem h hs]

theorem count_set_true {l : List Bool} {k : ℕ} (hk : k < l.length) (h : l.getD k false = false) :
    (l.set k true).count true = l.count true + 1 := by
  rw [List.getD_eq_getElem?_getD, List.getElem?_eq_getElem hk, Option.getD_some] at h
  rw [List.count_set hk, h]
  simp

theorem markLinks_holds {total : ℕ} (ht : 0 < total) : ∀ (k : ℕ) (marks : List Bool) (t : Tape),
    marks.length = total → (markLinks total k marks t).Holds fun r =>
      r.1.length = total ∧ r.1.count true = marks.count true + k
  | 0, marks, t, h => ⟨h, rfl⟩
  | k + 1, marks, t, h => by
    simp only [markLinks, markOne]
    rw [if_neg (by omega)]
    have h1 : (redraw (fun u => ⌊u * (total : ℚ)⌋₊) (fun k => marks.getD k false) t).Holds
        (fun r => r.1 < total ∧ marks.getD r.1 false = false) :=
      redraw_holds (P := fun k => k < total) (fun u _ hu => floor_lt hu ht) t
    refine Res.Holds.bind (P := fun r => r.1.length = total ∧ r.1.count true = marks.count true + 1) ?_ ?_
    · refine h1.bind ?_
      rintro ⟨m, t'⟩ ⟨hm, hb⟩
      exact ⟨by simp [h], count_set_true (by rw [h]; exact hm) hb⟩
    · rintro ⟨marks', t'⟩ ⟨hl, hc⟩
      refine (markLinks_holds ht k marks' t' hl).mono ?_
      rintro r ⟨a, b⟩
      exact ⟨a, by rw [b]; simp only at hc; omega⟩

/-- Everything after the marking. -/
theorem thin_marked {net : Net} {g : WG} (h : Rep net g) {sym : Bool} (hs : SymOK sym g) {marks : List Bool}
    (hm : marks.length = (linkSet sym net.n g).card) :
    ∃ c net', thinNodes sym marks (List.range net.n) 0 net = some (c, net') ∧ net'.n = net.n ∧
      net'.label = net.label ∧
      Rep net' (without sym (kill marks (thinList sym net (List.range net.n)) 0).toFinset g) := by
  have hlen := thinList_length h.1 hs
  obtain ⟨net', e, n', l', r'⟩ := thinNodes_ok (marks := marks) (sym := sym) net (List.range net.n) [] net g 0
    (by simp) List.pairwise_lt_range (by simp) (by intro i _; simp [dead_nil]) h hs (by omega)
  exact ⟨_, net', e, n', l', by rw [← cut_without]; exact r'⟩

/-! ## C74 -/

/-- C74. For every directed network, and every undirected network without self links, with at least one
link, every number of links and every random stream: `RemoveRandomLinks` does nothing undefined and, when
it returns, exactly `nLinks` different links of the network have been removed (undirected links in both
directions), the others are there with their weights, nodes and labels are the same, and degrees and
strengths read later are right. -/
theorem C74_removed {net : Net} {g : WG} (h : Holds net g) (hc : CachesOK net) {sym : Bool}
    (hs : SymOK sym g) (hlink : (linkSet sym net.n g).Nonempty) (nLinks : ℕ) (t : Tape) :
    (RemoveRandomLinks net nLinks sym t).Holds fun r =>
      r.1.n = net.n ∧ r.1.label = net.label ∧ CachesOK r.1 ∧
      ∃ S ⊆ linkSet sym net.n g, S.card = nLinks ∧ Holds r.1 (without sym S g) := by
  obtain ⟨e1, e2, e3, e4, e5, e6⟩ := C45_total_links h hc sym hs
  unfold RemoveRandomLinks
  generalize TotalNLinks net sym = T at *
  obtain ⟨total, net1⟩ := T
  simp only at e1 e2 e3 e4 e5 e6
  rw [← linkSet_card hs] at e1
  have ht : 0 < total := by rw [e1]; exact hlink.card_pos
  refine (markLinks_holds ht nLinks (List.replicate total false) t (by simp)).bind ?_
  rintro ⟨marks, t'⟩ ⟨hl, hcnt⟩
  simp only at hl hcnt
  obtain ⟨c, net2, w1, w2, w3, w4⟩ := thin_marked (net := net1) ⟨e5, e6⟩ hs (marks := marks)
    (by rw [hl, e1, e4])
  simp only [w1, Res.ofOption_some, Res.bind_ok, Res.pure_eq, Res.holds_ok]
  refine ⟨by rw [w2, e4], by rw [w3, e3], w4.2, _, ?_, ?_, w4.1⟩
  · intro p hp
    have := (kill_sublist marks _ 0).subset (List.mem_toFinset.1 hp)
    rw [thinList_mem e5 hs, e4] at this
    exact this
  · rw [List.toFinset_card_of_nodup ((kill_sublist marks _ 0).nodup (thinList_nodup e5)),
      kill_length _ _ _ (by rw [hl, thinList_length e5 hs, e4, e1, Nat.zero_add])]
    simp [hcnt, List.count_replicate]

/-- C74. In numbers: the number of links goes down by `nLinks`. -/
theorem C74_number {sym : Bool} {n : ℕ} {g : WG} {S : Finset (ℕ × ℕ)} (hS : S ⊆ linkSet sym n g) :
    (linkSet sym n (without sym S g)).card + S.card = (linkSet sym n g).card := by
  have e : linkSet sym n (without sym S g) = linkSet sym n g \ S := by
    ext ⟨i, j⟩
    rw [Finset.mem_sdiff, mem_linkSet, mem_linkSet]
    unfold without
    constructor
    · rintro ⟨hi, hj, hg, hl⟩
      split_ifs at hg with hc
      · simp at hg
      · exact ⟨⟨hi, hj, hg, hl⟩, fun hm => hc (Or.inl hm)⟩
    · rintro ⟨⟨hi, hj, hg, hl⟩, hm⟩
      refine ⟨hi, hj, ?_, hl⟩
      rw [if_neg]
      · exact hg
      · rintro (h1 | ⟨h0, h1⟩)
        · exact hm h1
        · have := (mem_linkSet.1 (hS h1)).2.2.2 h0
          have := hl h0
          omega
  rw [e, Finset.card_sdiff_of_subset hS]
  have := Finset.card_le_card hS
  omega

/-- C74. It never returns if more links are to be removed than there are. -/
theorem C74_too_many {net : Net} {g : WG} (h : Holds net g) (hc : CachesOK net) {sym : Bool}
    (hs : SymOK sym g) (hlink : (linkSet sym net.n g).Nonempty) {nLinks : ℕ}
    (hbig : (linkSet sym net.n g).card < nLinks) (t : Tape) :
    RemoveRandomLinks net nLinks sym t = .starved := by
  have := C74_removed h hc hs hlink nLinks t
  cases hr : RemoveRandomLinks net nLinks sym t with
  | starved => rfl
  | ub => rw [hr] at this; exact this.elim
  | ok r =>
    rw [hr] at this
    obtain ⟨_, _, _, S, hS, hcard, _⟩ := this
    have := Finset.card_le_card hS
    omega

theorem floor_index {k total : ℕ} (hk : k < total) : ⌊(k / total : ℚ) * total⌋₊ = k := by
  have : (total : ℚ) ≠ 0 := by
    have : 0 < total := by omega
    positivity
  rw [div_mul_cancel₀ _ this]
  simp

theorem markLinks_run {total : ℕ} : ∀ (ks : List ℕ) (marks : List Bool), ks.Nodup → (∀ k ∈ ks, k < total) →
    (∀ k ∈ ks, marks.getD k false = false) → marks.length = total →
    ∃ marks', markLinks total ks.length marks (ks.map fun (k : ℕ) => (k / total : ℚ)) = .ok (marks', []) ∧
      marks'.length = total ∧ ∀ k, marks'.getD k false = (marks.getD k false || decide (k ∈ ks))
  | [], marks, _, _, _, hl => ⟨marks, rfl, hl, by simp⟩
  | k :: ks, marks, hn, hr, hm, hl => by
    have hk := hr k (by simp)
    rw [List.nodup_cons] at hn
    have hu : (0 : ℚ) ≤ k / total ∧ (k / total : ℚ) < 1 := by
      have : (0 : ℚ) < total := by
        have : 0 < total := by omega
        exact_mod_cast this
      refine ⟨by positivity, ?_⟩
      rw [div_lt_one this]
      exact_mod_cast hk
    have hget : ∀ i, (marks.set k true).getD i false = if i = k then true else marks.getD i false := by
      intro i
      simp only [List.getD_eq_getElem?_getD, List.getElem?_set, hl, hk, if_true]
      by_cases e : i = k
      · subst e; simp
      · simp [e, Ne.symm e]
    obtain ⟨marks', e1, e2, e3⟩ := markLinks_run ks (marks.set k true) hn.2 (fun x hx => hr x (by simp [hx]))
      (by
        intro x hx
        rw [hget, if_neg (by rintro rfl; exact hn.1 hx)]
        exact hm x (by simp [hx]))
      (by simp [hl])
    refine ⟨marks', ?_, e2, ?_⟩
    · have h0 : ¬ total = 0 := by omega
      have hbad : marks.getD ⌊(k / total : ℚ) * total⌋₊ false = false := by
        rw [floor_index hk]; exact hm k (by simp)
      simp only [List.length_cons, List.map_cons, markLinks, markOne, if_neg h0, redraw, if_pos hu, hbad,
        Bool.false_eq_true, if_false, Res.bind_ok, Res.pure_eq]
      rw [floor_index hk]
      exact e1
    · intro x
      rw [e3, hget]
      by_cases hx : x = k
      · subst hx; simp
      · simp [hx]

theorem kill_mem {α : Type} [DecidableEq α] (marks : List Bool) : ∀ (a : List α) (c : ℕ) (x : α),
    x ∈ kill marks a c ↔ ∃ k, a[k]? = some x ∧ marks.getD (c + k) false = true
  | [], c, x => by simp [kill]
  | y :: a, c, x => by
    have ih := kill_mem marks a (c + 1) x
    constructor
    · intro h
      have h' : (x = y ∧ marks.getD c false = true) ∨ x ∈ kill marks a (c + 1) := by
        simp only [kill] at h
        split_ifs at h with hm
        · rcases List.mem_cons.1 h with h | h
          · exact Or.inl ⟨h, hm⟩
          · exact Or.inr h
        · exact Or.inr h
      rcases h' with ⟨rfl, hm⟩ | h'
      · exact ⟨0, rfl, hm⟩
      · obtain ⟨k, h1, h2⟩ := ih.1 h'
        exact ⟨k + 1, h1, by rw [show c + (k + 1) = c + 1 + k by omega]; exact h2⟩
    · rintro ⟨k, h1, h2⟩
      cases k with
      | zero =>
        simp only [List.getElem?_cons_zero, Option.some.injEq] at h1
        subst h1
        simp only [Nat.add_zero] at h2
        simp only [kill]
        rw [if_pos h2]
        simp
      | succ k =>
        have : x ∈ kill marks a (c + 1) :=
          ih.2 ⟨k, by simpa using h1, by rw [show c + 1 + k = c + (k + 1) by omega]; exact h2⟩
        simp only [kill]
        split_ifs
        · exact List.mem_cons_of_mem _ this
        · exact this

/-- C74. No set of links is privileged: each set of `nLinks` links is the one removed for some random
stream. -/
theorem C74_every_set {net : Net} {g : WG} (h : Holds net g) (hc : CachesOK net) {sym : Bool}
    (hs : SymOK sym g) (S : Finset (ℕ × ℕ)) (hS : S ⊆ linkSet sym net.n g) :
    ∃ t net', RemoveRandomLinks net S.card sym t = .ok (net', []) ∧ Holds net' (without sym S g) := by
  obtain ⟨e1, e2, e3, e4, e5, e6⟩ := C45_total_links h hc sym hs
  unfold RemoveRandomLinks
  generalize TotalNLinks net sym = T at *
  obtain ⟨total, net1⟩ := T
  simp only at e1 e2 e3 e4 e5 e6
  rw [← linkSet_card hs] at e1
  set L := thinList sym net1 (List.range net1.n) with hL
  have hnod := thinList_nodup (sym := sym) e5
  have hlen : L.length = total := by rw [hL, thinList_length e5 hs, e4, e1]
  have hmem : ∀ p, p ∈ L ↔ p ∈ linkSet sym net.n g := by
    intro p; rw [hL, thinList_mem e5 hs, e4]
  -- positions of the links to be removed
  set ks := S.toList.map (fun p => L.idxOf p) with hks
  have hkl : ks.length = S.card := by simp [hks]
  have hkn : ks.Nodup := by
    refine List.Nodup.map_on ?_ S.nodup_toList
    intro p hp q _ e
    exact (List.idxOf_inj ((hmem p).2 (hS (Finset.mem_toList.1 hp)))).1 e
  obtain ⟨marks, m1, m2, m3⟩ := markLinks_run (total := total) ks (List.replicate total false) hkn
    (by
      intro k hk
      obtain ⟨p, hp, rfl⟩ := List.mem_map.1 hk
      rw [← hlen, List.idxOf_lt_length_iff]
      exact (hmem p).2 (hS (Finset.mem_toList.1 hp)))
    (by intro k _; simp [List.getD_eq_getElem?_getD, List.getElem?_replicate]; split_ifs <;> rfl)
    (by simp)
  obtain ⟨c, net2, w1, w2, w3, w4⟩ := thin_marked (net := net1) ⟨e5, e6⟩ hs (marks := marks)
    (by rw [m2, e1, e4])
  refine ⟨ks.map fun (k : ℕ) => (k / total : ℚ), net2, ?_, ?_⟩
  · rw [hkl] at m1
    simp only [m1, w1, Res.ofOption_some, Res.bind_ok, Res.pure_eq]
  · have : (kill marks L 0).toFinset = S := by
      ext p
      rw [List.mem_toFinset, kill_mem]
      constructor
      · rintro ⟨k, h1, h2⟩
        rw [Nat.zero_add, m3] at h2
        have h3 : k ∈ ks := by
          have h4 : (List.replicate total false).getD k false = false := by
            simp [List.getD_eq_getElem?_getD, List.getElem?_replicate]; split_ifs <;> rfl
          rw [h4] at h2
          simpa using h2
        obtain ⟨q, hq, rfl⟩ := List.mem_map.1 h3
        have hq' := (hmem q).2 (hS (Finset.mem_toList.1 hq))
        have : L[L.idxOf q]? = some q := by
          rw [List.getElem?_eq_getElem (List.idxOf_lt_length_iff.2 hq'), List.getElem_idxOf]
        rw [this] at h1
        rw [← Option.some.inj h1]
        exact Finset.mem_toList.1 hq
      · intro hp
        have hp' := (hmem p).2 (hS hp)
        refine ⟨L.idxOf p, ?_, ?_⟩
        · rw [List.getElem?_eq_getElem (List.idxOf_lt_length_iff.2 hp'), List.getElem_idxOf]
        · rw [Nat.zero_add, m3, decide_eq_true (List.mem_map.2 ⟨p, Finset.mem_toList.2 hp, rfl⟩), Bool.or_true]
    rw [this] at w4
    exact w4.1

/-- C74, limit of the claim: with a self link an undirected network has fewer marks than links, and the
walk reads past the end of the marks, also when no link is to be removed. -/
theorem C74_self_link_undefined :
    (match RemoveRandomLinks (AddAdjacency (AddAdjacency (AddAdjacency threeNodes 0 1 false false 1).2 1 0
        false false 1).2 2 2 true false 1).2 0 true [] with
      | .ub => true
      | _ => false) = true := by
  decide +kernel

example : (RemoveRandomLinks twoLinks 1 true [3/4]).Holds (fun r =>
      ∃ S ⊆ linkSet true 4 twoLinksG, S.card = 1 ∧ Holds r.1 (without true S twoLinksG)) ∧
    (List.range 4).map (rowOf (RemoveRandomLinks twoLinks 1 true [3/4]))
      = [[(some 1, 5)], [(some 0, 5)], [], []] := by
  refine ⟨?_, by decide +kernel⟩
  refine (C74_removed twoLinks_holds.1 twoLinks_holds.2.1 (sym := true)
    (fun _ => ⟨fun i j => by rw [twoLinks_holds.2.2.sym], twoLinks_holds.2.2.loop⟩)
    ⟨(0, 1), by decide⟩ 1 [3/4]).mono ?_
  rintro r ⟨_, _, _, S, h1, h2, h3⟩
  exact ⟨S, h1, h2, h3⟩

/-! ## C75 -/

/-- C75, full statement: `AddRandomLinks` adds exactly `nLinks` links. -/
def C75_statement : Prop :=
  ∀ (net : Net) (g : WG) (sym : Bool) (nLinks : ℕ) (t : Tape), Holds net g → CachesOK net → SymOK sym g →
    0 < net.n → (AddRandomLinks net nLinks sym t).Holds fun r =>
      ∃ g', Holds r.1 g' ∧ (∀ i j, i < net.n → j < net.n → (g i j).isSome → g' i j = g i j) ∧
        (linkSet sym net.n g').card = (linkSet sym net.n g).card + nLinks

/-- C75 refuted: `symmetric_sw` is ignored; asked for one directed link, the function adds two. -/
theorem C75_refuted : ¬ C75_statement := by
  intro h
  have h0 : Rep threeNodes (fun _ _ => none) :=
    ⟨fun i _ => ⟨by simp [threeNodes], by simp [threeNodes], by simp⟩,
      fun i _ => by simp [threeNodes]⟩
  have h1 := h threeNodes _ false 1 [0, 1/3] h0.1 h0.2 (by intro h; simp at h) (by decide)
  have e : ∃ r, AddRandomLinks threeNodes 1 false [0, 1/3] = .ok r ∧ r.1.n = 3 ∧
      IsThereLink r.1 0 1 = true ∧ IsThereLink r.1 1 0 = true := by
    have : (match AddRandomLinks threeNodes 1 false [0, 1/3] with
        | .ok r => decide (r.1.n = 3 ∧ IsThereLink r.1 0 1 = true ∧ IsThereLink r.1 1 0 = true)
        | _ => false) = true := by decide +kernel
    cases hr : AddRandomLinks threeNodes 1 false [0, 1/3] with
    | ok r =>
      rw [hr] at this
      exact ⟨r, rfl, of_decide_eq_true this⟩
    | starved => rw [hr] at this; simp at this
    | ub => rw [hr] at this; simp at this
  obtain ⟨r, er, en, e1, e2⟩ := e
  rw [er] at h1
  obtain ⟨g', hg, _, hcard⟩ := h1
  rw [isLink_eq hg (by omega)] at e1 e2
  have : ({(0, 1), (1, 0)} : Finset (ℕ × ℕ)) ⊆ linkSet false threeNodes.n g' := by
    intro p hp
    simp only [Finset.mem_insert, Finset.mem_singleton] at hp
    rcases hp with rfl | rfl
    · exact mem_linkSet.2 ⟨by decide, by decide, e1, by simp⟩
    · exact mem_linkSet.2 ⟨by decide, by decide, e2, by simp⟩
  have h2 := Finset.card_le_card this
  rw [hcard] at h2
  have h3 : (linkSet false threeNodes.n fun _ _ => none).card = 0 := by simp [linkSet]
  rw [h3] at h2
  revert h2
  decide

theorem pickPair_holds {net : Net} (hn : 0 < net.n) : ∀ (t : Tape), (pickPair net t).Holds fun r =>
    r.1.1 < net.n ∧ r.1.2 < net.n ∧ r.1.1 ≠ r.1.2 ∧ IsThereLink net r.1.1 r.1.2 = false
  | [] => trivial
  | [_] => trivial
  | u1 :: u2 :: t => by
    simp only [pickPair]
    split_ifs with h1 h2
    · exact pickPair_holds hn t
    · simp only [not_or, Bool.not_eq_true] at h2
      exact ⟨floor_lt h1.1.2 hn, floor_lt h1.2.2 hn, h2.1, h2.2⟩
    · trivial

/-- C75, partial: on an undirected network without self links, for every random stream,
`AddRandomLinks` does nothing undefined and, when it returns, the network has its old links with their
weights and exactly `nLinks` new ones, of weight 1, in both directions, none of them a self link or
repeated; nodes and labels are the same.  Missing: directed networks (`symmetric_sw = 0`). -/
theorem C75_added_partial {net : Net} {g : WG} (h : Holds net g) (hc : CachesOK net)
    (hs : SymSimple net.n g) (hn : 0 < net.n) : ∀ (nLinks : ℕ) (sym : Bool) (t : Tape),
    (AddRandomLinks net nLinks sym t).Holds fun r =>
      r.1.n = net.n ∧ r.1.label = net.label ∧ CachesOK r.1 ∧
      ∃ g', Holds r.1 g' ∧ SymSimple net.n g' ∧
        (∀ i j, (g i j).isSome → g' i j = g i j) ∧
        (∀ i j, g i j = none → g' i j = none ∨ g' i j = some 1) ∧
        (linkSet true net.n g').card = (linkSet true net.n g).card + nLinks := by
  intro nLinks sym t
  unfold AddRandomLinks
  induction nLinks generalizing net g t with
  | zero => exact ⟨rfl, rfl, hc, g, h, hs, fun _ _ _ => rfl, fun _ _ e => Or.inl e, rfl⟩
  | succ k ih =>
    simp only [addRandomLoop]
    rw [if_neg (by omega)]
    refine (pickPair_holds hn t).bind ?_
    rintro ⟨⟨n1, n2⟩, t'⟩ ⟨h1, h2, h3, h4⟩
    dsimp only at h1 h2 h3 h4 ⊢
    rw [isLink_eq h h1] at h4
    have g12 : g n1 n2 = none := by simpa using h4
    obtain ⟨_, a1, a2, a3⟩ := add_rep ⟨h, hc⟩ h1 h2 false false 1
    rw [show (g.add n1 n2 false false 1).2 = g.set n1 n2 (some 1) by rw [add_new h3 g12]] at a3
    generalize (AddAdjacency net n1 n2 false false 1).2 = net1 at *
    have g21 : (g.set n1 n2 (some 1)) n2 n1 = none := by
      unfold WG.set
      rw [if_neg (fun c => h3 c.2), hs.sym, g12]
    obtain ⟨_, b1, b2, b3⟩ := add_rep a3 (i := n2) (j := n1) (by omega) (by omega) false false 1
    rw [show ((g.set n1 n2 (some 1)).add n2 n1 false false 1).2 = (g.set n1 n2 (some 1)).set n2 n1 (some 1) by
      rw [add_new h3.symm g21]] at b3
    generalize (AddAdjacency net1 n2 n1 false false 1).2 = net2 at *
    set g2 := (g.set n1 n2 (some 1)).set n2 n1 (some 1) with hg2
    have hval : ∀ i j, g2 i j = if (i = n1 ∧ j = n2) ∨ (i = n2 ∧ j = n1) then some 1 else g i j := by
      intro i j
      simp only [hg2, WG.set]
      by_cases c1 : i = n2 ∧ j = n1
      · rw [if_pos c1, if_pos (Or.inr c1)]
      · rw [if_neg c1]
        by_cases c2 : i = n1 ∧ j = n2
        · rw [if_pos c2, if_pos (Or.inl c2)]
        · rw [if_neg c2, if_neg (by tauto)]
    have hn2 : net2.n = net.n := by omega
    have hs2 : SymSimple net2.n g2 := by
      rw [hn2]
      refine ⟨fun i j => ?_, fun i => ?_, fun i j hij => ?_⟩
      · rw [hval, hval, hs.sym i j]
        have : ((i = n1 ∧ j = n2) ∨ (i = n2 ∧ j = n1)) ↔ ((j = n1 ∧ i = n2) ∨ (j = n2 ∧ i = n1)) := by tauto
        simp only [this]
      · rw [hval, if_neg (by omega)]; exact hs.loop i
      · rw [hval] at hij
        split_ifs at hij with hc'
        · omega
        · exact hs.supp i j hij
    refine (ih b3.1 b3.2 hs2 (by omega) t').mono ?_
    rintro ⟨net', t''⟩ ⟨c1, c2, c3, g', c4, c5, c6, c7, c8⟩
    rw [hn2] at c1 c5 c8
    refine ⟨c1, by rw [c2, b2, a2], c3, g', c4, c5, fun i j hij => ?_, fun i j hij => ?_, ?_⟩
    · have hne : ¬ ((i = n1 ∧ j = n2) ∨ (i = n2 ∧ j = n1)) := by
        rintro (⟨rfl, rfl⟩ | ⟨rfl, rfl⟩)
        · rw [g12] at hij; simp at hij
        · rw [hs.sym, g12] at hij; simp at hij
      have e := hval i j
      rw [if_neg hne] at e
      rw [c6 i j (by rw [e]; exact hij), e]
    · by_cases hne : (i = n1 ∧ j = n2) ∨ (i = n2 ∧ j = n1)
      · right
        have e := hval i j
        rw [if_pos hne] at e
        rw [c6 i j (by rw [e]; rfl), e]
      · have e := hval i j
        rw [if_neg hne, hij] at e
        exact c7 i j e
    · rw [c8]
      have e : linkSet true net.n g2 = insert (if n1 < n2 then (n1, n2) else (n2, n1)) (linkSet true net.n g) := by
        ext ⟨i, j⟩
        rw [Finset.mem_insert, mem_linkSet, mem_linkSet, hval]
        constructor
        · rintro ⟨hi, hj, hg, hl⟩
          split_ifs at hg with hc'
          · left
            have := hl rfl
            rcases hc' with ⟨rfl, rfl⟩ | ⟨rfl, rfl⟩
            · rw [if_pos this]
            · rw [if_neg (by omega)]
          · exact Or.inr ⟨hi, hj, hg, hl⟩
        · rintro (e | ⟨hi, hj, hg, hl⟩)
          · split_ifs at e with hlt
            · obtain ⟨rfl, rfl⟩ := Prod.mk.inj e
              exact ⟨h1, h2, by simp, fun _ => hlt⟩
            · obtain ⟨rfl, rfl⟩ := Prod.mk.inj e
              exact ⟨h2, h1, by simp, fun _ => by omega⟩
          · refine ⟨hi, hj, ?_, hl⟩
            split_ifs
            · rfl
            · exact hg
      rw [e, Finset.card_insert_of_notMem]
      · omega
      · split_ifs with hlt
        · rw [mem_linkSet, g12]; simp
        · rw [mem_linkSet, hs.sym, g12]; simp

/-- C75. On a complete network no link can be added: the function never returns. -/
theorem C75_complete {net : Net} {g : WG} (h : Holds net g) (hn : 0 < net.n)
    (hall : ∀ i j, i < net.n → j < net.n → i ≠ j → (g i j).isSome) (nLinks : ℕ) (hl : 0 < nLinks)
    (sym : Bool) (t : Tape) : AddRandomLinks net nLinks sym t = .starved := by
  have key : ∀ t, pickPair net t = .starved := by
    intro t
    have h1 := pickPair_holds hn t
    cases hr : pickPair net t with
    | starved => rfl
    | ub => rw [hr] at h1; exact h1.elim
    | ok r =>
      rw [hr] at h1
      obtain ⟨a, b, c, d⟩ := h1
      rw [isLink_eq h a] at d
      rw [hall _ _ a b c] at d
      simp at d
  obtain ⟨k, rfl⟩ : ∃ k, nLinks = k + 1 := ⟨nLinks - 1, by omega⟩
  unfold AddRandomLinks
  simp only [addRandomLoop]
  rw [if_neg (by omega), key]
  rfl

example : (AddRandomLinks twoLinks 1 true [0, 1/4, 1/2, 0]).Holds (fun r => ∃ g', Holds r.1 g' ∧
      (linkSet true 4 g').card = (linkSet true 4 twoLinksG).card + 1) ∧
    (List.range 4).map (rowOf (AddRandomLinks twoLinks 1 true [0, 1/4, 1/2, 0]))
      = [[(some 1, 5), (some 2, 1)], [(some 0, 5)], [(some 3, 7), (some 0, 1)], [(some 2, 7)]] := by
  refine ⟨?_, by decide +kernel⟩
  refine (C75_added_partial twoLinks_holds.1 twoLinks_holds.2.1 twoLinks_holds.2.2 (by decide) 1 true
    [0, 1/4, 1/2, 0]).mono ?_
  rintro r ⟨_, _, _, g', h1, _, _, _, h2⟩
  exact ⟨g', h1, h2⟩

end GR
