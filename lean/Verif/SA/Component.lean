import Verif.SA.Spec
import Verif.NC.Energy
import Verif.NC.Props

/-! # SplitModuleByComponent (helper lemmas) -/

set_option linter.unusedSimpArgs false

namespace NC

open RG

theorem SameNodes.refl {p} (h : Consistent p) : SameNodes p p := ⟨h, rfl, rfl, fun _ _ => rfl⟩

theorem SameNodes.trans {p q r} (h : SameNodes p q) (h' : SameNodes q r) : SameNodes p r :=
  ⟨h'.consistent, h'.N.trans h.N, h'.M.trans h.M, fun i hi =>
    (h'.strength i (by rw [h.N]; exact hi)).trans (h.strength i hi)⟩

theorem SplitOf.refl {p target empty} (h : Consistent p) : SplitOf p p target empty :=
  { toSameNodes := SameNodes.refl h, other := fun _ _ _ => rfl, inside := fun _ _ h => Or.inl h }

theorem ChangeModule_holds {p : Partition} (h : Consistent p) {i m : ℕ} (hi : i < p.N) (hm : m < p.M) :
    ∃ p', ChangeModule i m p = some p' ∧ SameNodes p p' ∧
      ∀ j < p.N, labelOf p' j = if j = i then m else labelOf p j := by
  obtain ⟨seq, hw⟩ := h.wf
  obtain ⟨p', seq', hr, hw', hrel⟩ := ChangeModule_spec hw hi hm
  refine ⟨p', hr, ⟨hw'.consistent, hrel.N, hrel.M, fun i _ => hrel.strength i⟩, fun j hj => ?_⟩
  have := hrel.label j hj
  rw [Function.update_apply] at this
  exact this

/-- Moving a node of the target (or of the formerly empty module) keeps `SplitOf`. -/
theorem SplitOf.move {p q : Partition} {target empty i m : ℕ} (h : SplitOf p q target empty)
    (hi : i < p.N) (hit : labelOf p i = target) (hm : m = target ∨ m = empty) (hmM : m < p.M) :
    ∃ q', ChangeModule i m q = some q' ∧ SplitOf p q' target empty ∧
      ∀ j < p.N, labelOf q' j = if j = i then m else labelOf q j := by
  obtain ⟨q', h1, h2, h3⟩ := ChangeModule_holds h.consistent (i := i) (m := m)
    (by rw [h.N]; exact hi) (by rw [h.M]; exact hmM)
  have h3' : ∀ j < p.N, labelOf q' j = if j = i then m else labelOf q j := by
    intro j hj; exact h3 j (by rw [h.N]; exact hj)
  refine ⟨q', h1, { toSameNodes := h.toSameNodes.trans h2, other := ?_, inside := ?_ }, h3'⟩
  · intro j hj hne
    rw [h3' j hj, if_neg (fun hh : j = i => hne (by rw [hh]; exact hit)), h.other j hj hne]
  · intro j hj hj'
    rw [h3' j hj]
    split_ifs with hji
    · exact hm
    · exact h.inside j hj hj'

theorem moveAll_holds {p : Partition} {target empty : ℕ} (he : empty < p.M) :
    ∀ (l : List ℕ) (q : Partition), SplitOf p q target empty →
      (∀ x ∈ l, x < p.N ∧ labelOf p x = target) →
      (moveAll empty l q).Holds (fun q' => SplitOf p q' target empty ∧
        ∀ j < p.N, labelOf q' j = if j ∈ l then empty else labelOf q j)
  | [], q, h, _ => by simp [moveAll, h]
  | x :: xs, q, h, hl => by
    obtain ⟨q', h1, h2, h3⟩ := h.move (hl x (by simp)).1 (hl x (by simp)).2 (Or.inr rfl) he
    simp only [moveAll, h1, Res.ofOption_some, Res.bind_ok]
    refine (moveAll_holds he xs q' h2 (fun y hy => hl y (by simp [hy]))).mono ?_
    rintro q'' ⟨h4, h5⟩
    refine ⟨h4, fun j hj => ?_⟩
    rw [h5 j hj, h3 j hj]
    by_cases hjx : j = x <;> by_cases hjs : j ∈ xs <;> simp [hjx, hjs]

/-! ## the traversal -/

section
variable {p : Partition} {adj : Adj} {target : ℕ}

theorem mem_slots_nbr {N a s : ℕ} (hN : a < N) (h : s ∈ slots adj a) :
    Nbr N adj a (adj.neighbors s) := by
  rw [mem_slots] at h
  exact ⟨hN, s, h.1, h.2, rfl⟩

theorem Conn.symm {N : ℕ} (hs : ∀ a b, Nbr N adj a b → Nbr N adj b a) {a b} (h : Conn N adj a b) : Conn N adj b a := by
  induction h with
  | refl => exact Relation.ReflTransGen.refl
  | tail _ hbc ih => exact Relation.ReflTransGen.head (hs _ _ hbc) ih

/-- Visited nodes are the popped and the stacked ones, each once. -/
structure VInv (N : ℕ) (adj : Adj) (start : ℕ) (pop : List ℕ) (visited : ℕ → Bool) (stack : List ℕ) :
    Prop where
  nodup : (pop ++ stack).Nodup
  vis : ∀ x, visited x = true ↔ x ∈ pop ∨ x ∈ stack
  lt : ∀ x ∈ pop ++ stack, x < N
  conn : ∀ x ∈ stack, Conn N adj start x

theorem nodup_length_le {l : List ℕ} {N : ℕ} (h : l.Nodup) (hl : ∀ x ∈ l, x < N) : l.length ≤ N := by
  have := List.toFinset_card_of_nodup h
  rw [← this]
  calc l.toFinset.card ≤ (Finset.range N).card := Finset.card_le_card (by
        intro x hx; simpa using hl x (by simpa using hx))
    _ = N := Finset.card_range N

theorem VInv.push {N start pop visited stack k} (h : VInv N adj start pop visited stack)
    (hk : k < N) (hc : Conn N adj start k) (hv : visited k = false) :
    stack.length < N ∧ VInv N adj start pop (Function.update visited k true) (k :: stack) := by
  have hnv : ¬ (k ∈ pop ∨ k ∈ stack) := by rw [← h.vis]; simp [hv]
  have hnd : (pop ++ k :: stack).Nodup := by
    rw [List.nodup_middle, List.nodup_cons]
    exact ⟨by simpa using hnv, h.nodup⟩
  have hlt : ∀ x ∈ pop ++ k :: stack, x < N := by
    intro x hx
    simp only [List.mem_append, List.mem_cons] at hx
    rcases hx with hx | rfl | hx
    · exact h.lt x (by simp [hx])
    · exact hk
    · exact h.lt x (by simp [hx])
  have hle := nodup_length_le hnd hlt
  refine ⟨by simp at hle; omega, hnd, ?_, hlt, ?_⟩
  · intro x
    rw [Function.update_apply]
    by_cases hx : x = k
    · simp [hx]
    · simp [hx, h.vis]
  · intro x hx
    rcases List.mem_cons.1 hx with rfl | hx
    · exact hc
    · exact h.conn x hx

theorem visitNeighbours_holds {N start : ℕ} {pop : List ℕ} : ∀ (is : List ℕ) (s : CompState),
    VInv N adj start pop s.visited s.stack →
    (∀ i ∈ is, adj.neighbors i < N ∧ Conn N adj start (adj.neighbors i)) →
    (visitNeighbours N adj is s).Holds (fun s' => VInv N adj start pop s'.visited s'.stack ∧
      (∀ i ∈ is, s'.visited (adj.neighbors i) = true) ∧
      (∀ x, s.visited x = true → s'.visited x = true) ∧
      (∀ x, s'.visited x = true → s.visited x = true ∨ Conn N adj start x) ∧
      s'.toFind = s.toFind ∧ s'.toMove = s.toMove)
  | [], s, h, _ => by
    simp only [visitNeighbours, Res.holds_ok]
    exact ⟨h, by simp, fun _ h => h, fun _ h => Or.inl h, by simp⟩
  | i :: is, s, h, hi => by
    have h0 := hi i (by simp)
    simp only [visitNeighbours, h0.1, if_true]
    by_cases hv : s.visited (adj.neighbors i) = true
    · simp only [hv, if_true]
      refine (visitNeighbours_holds is s h (fun j hj => hi j (by simp [hj]))).mono ?_
      rintro s' ⟨a, b, c, d, e⟩
      refine ⟨a, ?_, c, d, e⟩
      intro j hj
      rcases List.mem_cons.1 hj with rfl | hj
      · exact c _ hv
      · exact b j hj
    · obtain ⟨hlen, hinv⟩ := h.push h0.1 h0.2 (by simpa using hv)
      simp only [hv, addToStack, hlen, if_true, Res.bind_ok, Bool.false_eq_true, if_false]
      refine (visitNeighbours_holds is _ hinv (fun j hj => hi j (by simp [hj]))).mono ?_
      rintro s' ⟨a, b, c, d, e⟩
      refine ⟨a, ?_, ?_, ?_, e⟩
      · intro j hj
        rcases List.mem_cons.1 hj with rfl | hj
        · exact c _ (by simp)
        · exact b j hj
      · intro x hx; refine c x ?_
        simp only [Function.update_apply]; split_ifs <;> simp [hx]
      · intro x hx
        rcases d x hx with hx | hx
        · simp only [Function.update_apply] at hx
          split_ifs at hx with hxx
          · right; rw [hxx]; exact h0.2
          · exact Or.inl hx
        · exact Or.inr hx

/-- The number of nodes labelled `target` in a list. -/
def tcount (p : Partition) (target : ℕ) (l : List ℕ) : ℕ :=
  (l.filter (fun x => labelOf p x = target)).length

/-- Everything popped is accounted for. `R` are the starting nodes so far with their flags. -/
structure PInv (p : Partition) (adj : Adj) (target size : ℕ) (R : List (ℕ × Bool)) (pop : List ℕ)
    (s : CompState) : Prop where
  cnt : s.toFind + tcount p target pop = size
  mvlen : s.toMove.length ≤ tcount p target pop
  closed : ∀ x ∈ pop, ∀ y, Nbr p.N adj x y → s.visited y = true
  reach : ∀ x, s.visited x = true → ∃ r ∈ R, Conn p.N adj r.1 x
  mv : ∀ x, x ∈ s.toMove ↔ x ∈ pop ∧ labelOf p x = target ∧ ∃ r ∈ R, r.2 = true ∧ Conn p.N adj r.1 x

/-- The final description of the traversal. -/
structure Done (p : Partition) (adj : Adj) (target : ℕ) (R : List (ℕ × Bool)) (mv : List ℕ) :
    Prop where
  sub : ∀ x ∈ mv, x < p.N ∧ labelOf p x = target
  cover : ∀ x < p.N, labelOf p x = target → ∃ r ∈ R, Conn p.N adj r.1 x
  iff : ∀ x < p.N, labelOf p x = target → (x ∈ mv ↔ ∃ r ∈ R, r.2 = true ∧ Conn p.N adj r.1 x)

theorem tcount_append (l l') : tcount p target (l ++ l') = tcount p target l + tcount p target l' := by
  simp [tcount, List.filter_append]

theorem all_popped {size : ℕ} {pop : List ℕ} (hnd : pop.Nodup) (hlt : ∀ x ∈ pop, x < p.N)
    (hsize : size = ((Finset.range p.N).filter (fun i => labelOf p i = target)).card)
    (hc : tcount p target pop = size) : ∀ x < p.N, labelOf p x = target → x ∈ pop := by
  intro x hx hxt
  have hsub : (pop.filter (fun x => labelOf p x = target)).toFinset ⊆
      (Finset.range p.N).filter (fun i => labelOf p i = target) := by
    intro y hy
    simp only [List.mem_toFinset, List.mem_filter, decide_eq_true_eq] at hy
    simp only [Finset.mem_filter, Finset.mem_range]
    exact ⟨hlt y hy.1, hy.2⟩
  have hcard : (pop.filter (fun x => labelOf p x = target)).toFinset.card = size := by
    rw [List.toFinset_card_of_nodup (hnd.filter _)]; exact hc
  have heq := Finset.eq_of_subset_of_card_le hsub (by rw [hcard, hsize])
  have : x ∈ (pop.filter (fun x => labelOf p x = target)).toFinset := by
    rw [heq]; simp [hx, hxt]
  simp only [List.mem_toFinset, List.mem_filter] at this
  exact this.1

theorem PInv.done {size start : ℕ} {R pop} {s : CompState} (h : PInv p adj target size R pop s)
    (hv : VInv p.N adj start pop s.visited s.stack)
    (hall : ∀ x < p.N, labelOf p x = target → x ∈ pop) : Done p adj target R s.toMove := by
  refine ⟨?_, ?_, ?_⟩
  · intro x hx
    have := (h.mv x).1 hx
    exact ⟨hv.lt x (by simp [this.1]), this.2.1⟩
  · intro x hx hxt
    exact h.reach x ((hv.vis x).2 (Or.inl (hall x hx hxt)))
  · intro x hx hxt
    rw [h.mv x]
    exact ⟨fun h => h.2.2, fun h => ⟨hall x hx hxt, hxt, h⟩⟩

theorem traverse_holds {size start : ℕ} {flag : Bool} {R : List (ℕ × Bool)}
    (hsym : ∀ a b, Nbr p.N adj a b → Nbr p.N adj b a)
    (hrange : ∀ a < p.N, ∀ b, Nbr p.N adj a b → b < p.N)
    (hsize : size = ((Finset.range p.N).filter (fun i => labelOf p i = target)).card)
    (hsep : ∀ r ∈ R, ¬ Conn p.N adj r.1 start) :
    ∀ (fuel : ℕ) (pop : List ℕ) (s : CompState), p.N < fuel + pop.length →
      VInv p.N adj start pop s.visited s.stack →
      PInv p adj target size ((start, flag) :: R) pop s →
      (traverse p adj target size flag fuel s).Holds (fun s' =>
        (∃ pop', s'.stack = [] ∧ VInv p.N adj start pop' s'.visited [] ∧
          PInv p adj target size ((start, flag) :: R) pop' s' ∧
          (∀ x, s.visited x = true → s'.visited x = true)) ∨
        (s'.toFind = 0 ∧ Done p adj target ((start, flag) :: R) s'.toMove)) := by
  intro fuel
  induction fuel with
  | zero =>
    intro pop s hf hv hp
    have := nodup_length_le (List.Nodup.of_append_left hv.nodup) (fun x hx => hv.lt x (by simp [hx]))
    omega
  | succ fuel ih =>
    intro pop s hf hv hp
    unfold traverse
    cases hst : s.stack with
    | nil =>
      simp only [Res.holds_ok]
      left
      exact ⟨pop, hst, hst ▸ hv, hp, fun _ h => h⟩
    | cons j rest =>
      simp only
      by_cases hz : s.toFind = 0
      · simp only [hz, if_true, Res.holds_ok]
        right
        refine ⟨trivial, hp.done hv ?_⟩
        have hc := hp.cnt
        rw [hz, zero_add] at hc
        exact all_popped (List.Nodup.of_append_left hv.nodup) (fun x hx => hv.lt x (by simp [hx])) hsize hc
      · have hjN : j < p.N := hv.lt j (by rw [hst]; simp)
        have hjc : Conn p.N adj start j := hv.conn j (by rw [hst]; simp)
        simp only [hz, if_false, moduleOf, hjN, if_true, Res.bind_ok]
        -- the state after popping `j`
        have hv1 : VInv p.N adj start (pop ++ [j]) s.visited rest := by
          have h1 := hv.nodup
          have h2 := hv.lt
          rw [hst] at h1 h2
          refine ⟨by simpa using h1, ?_, by simpa using h2, ?_⟩
          · intro x; rw [hv.vis, hst]; simp only [List.mem_cons, List.mem_append, List.mem_singleton,
              List.not_mem_nil, or_false]; tauto
          · intro x hx; exact hv.conn x (by rw [hst]; simp [hx])
        have hnb : ∀ i ∈ slots adj j, adj.neighbors i < p.N ∧ Conn p.N adj start (adj.neighbors i) := by
          intro i hi
          have := mem_slots_nbr hjN hi
          exact ⟨hrange j hjN _ this, Relation.ReflTransGen.tail hjc this⟩
        -- what is common to both branches
        have step : ∀ s1 : CompState, s1.visited = s.visited → s1.stack = rest →
            s1.toFind + tcount p target (pop ++ [j]) = size →
            s1.toMove.length ≤ tcount p target (pop ++ [j]) →
            (∀ x, x ∈ s1.toMove ↔ x ∈ pop ++ [j] ∧ labelOf p x = target ∧
              ∃ r ∈ (start, flag) :: R, r.2 = true ∧ Conn p.N adj r.1 x) →
            Res.Holds (fun s' : CompState =>
              (∃ pop', s'.stack = [] ∧ VInv p.N adj start pop' s'.visited [] ∧
                PInv p adj target size ((start, flag) :: R) pop' s' ∧
                (∀ x, s.visited x = true → s'.visited x = true)) ∨
              (s'.toFind = 0 ∧ Done p adj target ((start, flag) :: R) s'.toMove))
              (do let s ← visitNeighbours p.N adj (slots adj j) s1
                  traverse p adj target size flag fuel s) := by
          intro s1 e1 e2 e3 e4 e5
          refine (visitNeighbours_holds (slots adj j) s1 (by rw [e1, e2]; exact hv1) hnb).bind ?_
          rintro s2 ⟨a, b, c, d, e, f⟩
          refine (ih (pop ++ [j]) s2 (by simp; omega) a ⟨?_, ?_, ?_, ?_, ?_⟩).mono ?_
          · rw [e]; exact e3
          · rw [f]; exact e4
          · intro x hx y hxy
            rcases List.mem_append.1 hx with hx | hx
            · exact c y (by rw [e1]; exact hp.closed x hx y hxy)
            · rw [List.mem_singleton] at hx
              subst hx
              obtain ⟨_, i, h1, h2, h3⟩ := hxy
              rw [← h3]
              exact b i (mem_slots.2 ⟨h1, h2⟩)
          · intro x hx
            rcases d x hx with hx | hx
            · exact hp.reach x (by rw [← e1]; exact hx)
            · exact ⟨(start, flag), by simp, hx⟩
          · rw [f]; exact e5
          · rintro s' (⟨pop', g1, g2, g3, g4⟩ | g)
            · left; exact ⟨pop', g1, g2, g3, fun x hx => g4 x (c x (by rw [e1]; exact hx))⟩
            · right; exact g
        have hjpop : j ∉ pop := by
          intro hjp
          have h1 := hv.nodup
          rw [hst] at h1
          exact (List.nodup_append.1 h1).2.2 j hjp j (by simp) rfl
        by_cases hjt : (p.nodes j).module = target
        · have hjt' : labelOf p j = target := hjt
          have ht1 : tcount p target (pop ++ [j]) = tcount p target pop + 1 := by
            rw [tcount_append]; simp [tcount, hjt']
          have hcnt := hp.cnt
          simp only [hjt, if_true]
          cases flag with
          | true =>
            have hlt : s.toMove.length < size := by have := hp.mvlen; omega
            simp only [addToStack, hlt, if_true, Res.bind_ok]
            refine step _ rfl rfl ?_ ?_ ?_
            · simp only; omega
            · simp only [List.length_cons]; have := hp.mvlen; omega
            · intro x
              simp only [List.mem_cons, List.mem_append, List.not_mem_nil, or_false]
              constructor
              · rintro (rfl | hx)
                · exact ⟨Or.inr rfl, hjt', (start, true), Or.inl rfl, rfl, hjc⟩
                · have := (hp.mv x).1 hx
                  obtain ⟨h1, h2, r, h3, h4⟩ := this
                  exact ⟨Or.inl h1, h2, r, by simpa using h3, h4⟩
              · rintro ⟨hx | rfl, h2, r, h3, h4⟩
                · right; exact (hp.mv x).2 ⟨hx, h2, r, by simpa using h3, h4⟩
                · left; rfl
          | false =>
            simp only [Bool.false_eq_true, if_false, Res.bind_ok]
            refine step _ rfl rfl ?_ ?_ ?_
            · simp only; omega
            · simp only; have := hp.mvlen; omega
            · intro x
              simp only
              rw [hp.mv x]
              constructor
              · rintro ⟨h1, h2⟩; exact ⟨by simp [h1], h2⟩
              · rintro ⟨h1, h2, r, h3, h4, h5⟩
                rcases List.mem_append.1 h1 with h1 | h1
                · exact ⟨h1, h2, r, h3, h4, h5⟩
                · rw [List.mem_singleton] at h1
                  subst h1
                  rcases List.mem_cons.1 h3 with rfl | h3
                  · simp at h4
                  · exact absurd (Relation.ReflTransGen.trans h5 (Conn.symm hsym hjc)) (hsep r h3)
        · have hjt' : ¬ labelOf p j = target := hjt
          have ht1 : tcount p target (pop ++ [j]) = tcount p target pop := by
            rw [tcount_append]; simp [tcount, hjt']
          simp only [hjt, if_false, Res.bind_ok]
          refine step _ rfl rfl ?_ ?_ ?_
          · simp only [ht1]; exact hp.cnt
          · simp only [ht1]; exact hp.mvlen
          · intro x
            simp only
            rw [hp.mv x]
            constructor
            · rintro ⟨h1, h2⟩; exact ⟨by simp [h1], h2⟩
            · rintro ⟨h1, h2, h3⟩
              rcases List.mem_append.1 h1 with h1 | h1
              · exact ⟨h1, h2, h3⟩
              · rw [List.mem_singleton] at h1
                exact absurd (h1 ▸ h2) hjt'

/-- Bookkeeping of the starting points. -/
structure RInv (p : Partition) (adj : Adj) (target : ℕ) (R : List (ℕ × Bool)) (c : ℕ) : Prop where
  len : R.length = c
  mem : ∀ r ∈ R, r.1 < p.N ∧ labelOf p r.1 = target
  sep : R.Pairwise (fun a b => ¬ Conn p.N adj a.1 b.1)
  one : c = 1 → ∀ r ∈ R, r.2 = false
  first : 1 ≤ c → ∃ r ∈ R, r.2 = false
  second : 2 ≤ c → ∃ r ∈ R, r.2 = true

theorem scan_holds {size : ℕ}
    (hsym : ∀ a b, Nbr p.N adj a b → Nbr p.N adj b a)
    (hrange : ∀ a < p.N, ∀ b, Nbr p.N adj a b → b < p.N)
    (hsize : size = ((Finset.range p.N).filter (fun i => labelOf p i = target)).card) :
    ∀ (l : List ℕ) (s : CompState) (c : ℕ) (t : Tape) (R : List (ℕ × Bool)),
      (∀ x ∈ l, x < p.N ∧ labelOf p x = target) → RInv p adj target R c →
      ((∃ pop, s.stack = [] ∧ (∀ start, VInv p.N adj start pop s.visited []) ∧
          PInv p adj target size R pop s ∧ (∀ r ∈ R, s.visited r.1 = true) ∧
          (∀ x < p.N, labelOf p x = target → s.visited x = true ∨ x ∈ l)) ∨
        (s.toFind = 0 ∧ Done p adj target R s.toMove)) →
      (scanModule p adj target size l s c t).Holds (fun r => ∃ R', RInv p adj target R' r.2.1 ∧
        Done p adj target R' r.1.toMove) := by
  intro l
  induction l with
  | nil =>
    intro s c t R _ hR h
    simp only [scanModule, Res.holds_ok]
    refine ⟨R, hR, ?_⟩
    rcases h with ⟨pop, h1, h2, h3, hRv, h4⟩ | h
    · refine h3.done (start := 0) (by rw [h1]; exact h2 0) ?_
      intro x hx hxt
      have := (h4 x hx hxt).resolve_right (by simp)
      simpa using ((h2 0).vis x).1 this
    · exact h.2
  | cons x xs ih =>
    intro s c t R hl hR h
    simp only [scanModule]
    by_cases hz : s.toFind = 0
    · simp only [hz, if_true, Res.holds_ok]
      refine ⟨R, hR, ?_⟩
      rcases h with ⟨pop, h1, h2, h3, hRv, h4⟩ | h
      · refine h3.done (start := 0) (by rw [h1]; exact h2 0) ?_
        have hc := h3.cnt
        rw [hz, zero_add] at hc
        have h2' := h2 0
        refine all_popped (by simpa using h2'.nodup) (fun x hx => h2'.lt x (by simp [hx])) hsize hc
      · exact h.2
    · simp only [hz, if_false]
      obtain ⟨pop, h1, h2, h3, hRv, h4⟩ := h.resolve_right (fun hh => hz hh.1)
      by_cases hv : s.visited x = true
      · simp only [hv, if_true]
        refine ih s c t R (fun y hy => hl y (by simp [hy])) hR (Or.inl ⟨pop, h1, h2, h3, hRv, ?_⟩)
        intro y hy hyt
        rcases h4 y hy hyt with h | h
        · exact Or.inl h
        · rcases List.mem_cons.1 h with rfl | h
          · exact Or.inl hv
          · exact Or.inr h
      · simp only [hv, Bool.false_eq_true, if_false]
        have hx := hl x (by simp)
        -- `x` is not connected to anything visited
        have hclosed : ∀ a b, s.visited a = true → Conn p.N adj a b → s.visited b = true := by
          intro a b ha hab
          induction hab with
          | refl => exact ha
          | tail _ hbc ih2 =>
            have := ((h2 0).vis _).1 ih2
            exact h3.closed _ (by simpa using this) _ hbc
        have hsep : ∀ r ∈ R, ¬ Conn p.N adj r.1 x := fun r hr hc => hv (hclosed _ _ (hRv r hr) hc)
        have key : ∀ (flag : Bool) (t' : Tape), (c = 0 → flag = false) → (c = 1 → flag = true) →
            Res.Holds (fun r : CompState × ℕ × Tape => ∃ R',
              RInv p adj target R' r.2.1 ∧ Done p adj target R' r.1.toMove)
            (do let st ← addToStack p.N x s.stack
                let s ← traverse p adj target size flag (p.N + 1)
                  { s with visited := Function.update s.visited x true, stack := st }
                scanModule p adj target size xs s (c + 1) t') := by
          intro flag t' hc0 hc1
          obtain ⟨hlen, hinv⟩ := (h2 x).push hx.1 Relation.ReflTransGen.refl (by simpa using hv)
          simp only [h1, addToStack, hlen, if_true, Res.bind_ok]
          have hP : PInv p adj target size ((x, flag) :: R) pop
              { s with visited := Function.update s.visited x true, stack := [x] } := by
            refine ⟨h3.cnt, h3.mvlen, ?_, ?_, ?_⟩
            · intro a ha b hab
              simp only [Function.update_apply, h3.closed a ha b hab]; simp
            · intro a ha
              simp only [Function.update_apply] at ha
              split_ifs at ha with hax
              · exact ⟨(x, flag), by simp, by rw [hax]; exact Relation.ReflTransGen.refl⟩
              · obtain ⟨r, hr, hc⟩ := h3.reach a ha
                exact ⟨r, by simp [hr], hc⟩
            · intro a
              simp only
              rw [h3.mv a]
              constructor
              · rintro ⟨g1, g2, r, g3, g4⟩; exact ⟨g1, g2, r, by simp [g3], g4⟩
              · rintro ⟨g1, g2, r, g3, g4, g5⟩
                refine ⟨g1, g2, r, ?_, g4, g5⟩
                rcases List.mem_cons.1 g3 with rfl | g3
                · exact absurd (hclosed _ _ (((h2 0).vis a).2 (Or.inl g1)) (Conn.symm hsym g5)) hv
                · exact g3
          have hR' : RInv p adj target ((x, flag) :: R) (c + 1) := by
            refine ⟨by simp [hR.len], ?_, ?_, ?_, ?_, ?_⟩
            · intro r hr
              rcases List.mem_cons.1 hr with rfl | hr
              · exact hx
              · exact hR.mem r hr
            · rw [List.pairwise_cons]
              exact ⟨fun r hr hc => hsep r hr (Conn.symm hsym hc), hR.sep⟩
            · intro hc1' r hr
              have hc : c = 0 := by omega
              have : R = [] := by rw [← List.length_eq_zero_iff, hR.len, hc]
              rw [this, List.mem_singleton] at hr
              rw [hr]; exact hc0 hc
            · intro _
              by_cases hc : c = 0
              · exact ⟨(x, flag), by simp, hc0 hc⟩
              · obtain ⟨r, hr, h⟩ := hR.first (by omega)
                exact ⟨r, by simp [hr], h⟩
            · intro _
              by_cases hc : c = 1
              · exact ⟨(x, flag), by simp, hc1 hc⟩
              · obtain ⟨r, hr, h⟩ := hR.second (by omega)
                exact ⟨r, by simp [hr], h⟩
          refine (traverse_holds hsym hrange hsize hsep (p.N + 1) pop _ (by omega) hinv hP).bind ?_
          intro s' hs'
          refine ih s' (c + 1) t' ((x, flag) :: R) (fun y hy => hl y (by simp [hy])) hR' ?_
          rcases hs' with ⟨pop', g1, g2, g3, g4⟩ | hs'
          · left
            refine ⟨pop', g1, fun start => ⟨g2.nodup, g2.vis, g2.lt, by simp⟩, g3, ?_, ?_⟩
            · intro r hr
              rcases List.mem_cons.1 hr with rfl | hr
              · exact g4 _ (by simp)
              · exact g4 _ (by simp only [Function.update_apply, hRv r hr]; simp)
            · intro y hy hyt
              rcases h4 y hy hyt with h | h
              · left; exact g4 _ (by simp only [Function.update_apply, h]; simp)
              · rcases List.mem_cons.1 h with rfl | h
                · left; exact g4 _ (by simp)
                · exact Or.inr h
          · right; exact hs'
        by_cases hc1 : c + 1 = 1
        · simp only [hc1, if_true, Res.bind_ok]
          have := key false t (fun _ => rfl) (fun h => by omega)
          rw [hc1] at this
          exact this
        · by_cases hc2 : c + 1 = 2
          · simp only [hc1, hc2, if_true, if_false, Res.bind_ok]
            have := key true t (fun h => by omega) (fun _ => rfl)
            rw [hc2] at this
            exact this
          · simp only [hc1, hc2, if_false]
            refine (draw_holds t).bind ?_
            rintro ⟨u, t'⟩ _
            exact key (decide (u > 1 / 2)) t' (fun h => by omega) (fun h => by omega)

theorem SplitModuleByComponent_holds {empty : ℕ} (hc : Consistent p)
    (hsym : ∀ a b, Nbr p.N adj a b → Nbr p.N adj b a)
    (hrange : ∀ a < p.N, ∀ b, Nbr p.N adj a b → b < p.N) (ht : target < p.M) (he : empty < p.M)
    (t : Tape) :
    (SplitModuleByComponent target empty p adj t).Holds (fun r => SplitOf p r.1 target empty ∧
      ∃ R mv, RInv p adj target R r.2.1 ∧ Done p adj target R mv ∧
        ∀ j < p.N, labelOf r.1 j = if j ∈ mv then empty else labelOf p j) := by
  obtain ⟨seq, hw⟩ := hc.wf
  unfold SplitModuleByComponent
  simp only [hw.moduleNodes ht, Res.ofOption_some, Res.bind_ok]
  refine (scan_holds hsym hrange (hc.size target ht) (seq target) _ 0 t [] ?_ ?_ (Or.inl ⟨[], rfl, ?_, ?_, ?_, ?_⟩)).bind ?_
  · intro x hx; exact (hw.mem target ht x).1 hx
  · exact ⟨rfl, by simp, by simp, by simp, by simp, by simp⟩
  · intro start; exact ⟨by simp, by simp, by simp, by simp⟩
  · exact ⟨by simp [tcount], by simp [tcount], by simp, by simp, by simp⟩
  · simp
  · intro x hx hxt; right; exact (hw.mem target ht x).2 ⟨hx, hxt⟩
  · rintro ⟨s, c, t'⟩ ⟨R, hR, hD⟩
    refine (moveAll_holds he s.toMove p (SplitOf.refl hc) hD.sub).bind ?_
    rintro q ⟨h1, h2⟩
    exact ⟨h1, R, s.toMove, hR, hD, h2⟩

end

end NC
