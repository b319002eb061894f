import Verif.BFS.Trans

/-!
# C79, C80: square clustering
-/

set_option linter.unusedSimpArgs false

namespace BFS

variable {adj : ℕ → List ℕ} {n : ℕ}

theorem mem_second {p w : ℕ} : w ∈ second adj p ↔ (∃ v ∈ adj p, w ∈ adj v) ∧ w ≠ p ∧ w ∉ adj p := by
  simp [second, nbr]

/-- Two levels of search: the entries of the first and of the second neighbours. -/
structure TwoLevels (adj : ℕ → List ℕ) (n p : ℕ) (F S : List Entry) : Prop where
  first : ∃ q1, RenewQueue adj 0 (n + 1) 0 (Enqueue p none 0 0 Q.empty) = some (1, q1) ∧
    q1.list.length = F.length + 1 ∧
    ∃ lp q2, RenewQueue adj 1 (n + 1) 1 q1 = some (lp, q2) ∧
      ∃ e, q2.list = e :: F ++ S
  nodesF : (nodes F).Perm (adj p)
  nodesS : (nodes S).Nodup ∧ ∀ v, v ∈ nodes S ↔ v ∈ second adj p
  dF : ∀ e ∈ F, e.d = 1
  dS : ∀ e ∈ S, e.d = 2
  pred : ∀ e ∈ S, e.pred = (F.filter fun a => e.node ∈ adj a.node).map fun a => some a.node

theorem two_levels {p : ℕ} (h : Simple adj n) (hp : p < n) : ∃ F S, TwoLevels adj n p F S := by
  have he : Enqueue p none 0 0 Q.empty =
      { list := [⟨p, 0, [none]⟩], state := Function.update (fun _ => false) p true } := by
    simp [Enqueue, Q.empty]
  obtain ⟨q1, F, e1, hl1, hi1, _⟩ := renew_inv (adj := adj) (s := p) (d := 0) [⟨p, 0, [none]⟩] [] []
    { list := [⟨p, 0, [none]⟩], state := Function.update (fun _ => false) p true } (n + 1)
    (by simp; omega) (by simp) (by
      constructor
      · simp [nodes]
      · intro v
        by_cases hv : v = p
        · subst hv; simp [nodes]
        · simp [nodes, hv]
      · simp
      · simp
      · simp
      · simp [isDist_self]
      · simp
      · simp
      · intro v k hk hkk
        obtain rfl : k = 0 := by omega
        simp [nodes, hkk.zero]
      · simp
      · simp)
  simp only [List.nil_append] at hl1 hi1
  have hi1' := hi1.next
  have hmemF : ∀ v, v ∈ nodes F ↔ v ∈ adj p := by
    intro v
    constructor
    · intro hv
      obtain ⟨c, hc, rfl⟩ := List.mem_map.1 hv
      have := hi1.dist c (by simp [hc])
      rw [hi1.dc c hc] at this
      obtain ⟨u, hu, hm⟩ := this.pred
      rwa [hu.zero] at hm
    · intro hv
      have := hi1.closed ⟨p, 0, [none]⟩ (by simp) v hv
      simp only [List.append_nil, List.cons_append, List.nil_append, nodes, List.map_cons,
        List.mem_cons] at this
      rcases this with rfl | this
      · exact (h.irrefl _ hv).elim
      · exact this
  have hnd1 := hi1.nodup
  simp only [List.append_nil, List.cons_append, nodes, List.map_cons, List.nodup_cons, List.nil_append] at hnd1
  have hperm : (nodes F).Perm (adj p) := (List.perm_ext_iff_of_nodup hnd1.2 (h.nodup p)).2 hmemF
  have hlen : F.length + 1 ≤ n := by
    have := length_bound (adj := adj) (s := p) h.range hp hi1.nodup hi1.dist
    simpa [Nat.add_comm] using this
  obtain ⟨q2, S, e2, hl2, hi2, _⟩ := renew_inv (adj := adj) (s := p) (d := 1) F [⟨p, 0, [none]⟩] [] q1 (n + 1)
    (by omega) (by simpa using hl1) hi1'
  have hnd2 := hi2.nodup
  simp only [List.append_nil, nodes, List.map_append, List.map_cons, List.map_nil] at hnd2
  have hdS : ∀ e ∈ S, e.d = 2 := fun e he => hi2.dc e he
  have hdF : ∀ e ∈ F, e.d = 1 := fun e he => hi1.dc e he
  refine ⟨F, S, ⟨⟨q1, ?_, ?_, _, q2, e2, ⟨p, 0, [none]⟩, ?_⟩, hperm, ⟨?_, ?_⟩, hdF, hdS, ?_⟩⟩
  · rw [he]; simpa using e1
  · rw [hl1]; simp [Nat.add_comm]
  · rw [hl2]; simp
  · exact (List.nodup_append.1 hnd2).2.1
  · intro v
    rw [mem_second]
    constructor
    · intro hv
      obtain ⟨c, hc, rfl⟩ := List.mem_map.1 hv
      have hd := hi2.dist c (by simp [hc])
      rw [hdS c hc] at hd
      obtain ⟨u, hu, hm⟩ := hd.pred
      obtain ⟨w, hw, hm'⟩ := hu.pred
      obtain rfl := hw.zero
      refine ⟨⟨u, hm', hm⟩, ?_, ?_⟩
      · intro e
        have := hd.2 0 (e ▸ .refl _)
        omega
      · intro hm2
        have := hd.2 1 (.step (.refl _) hm2)
        omega
    · rintro ⟨⟨u, hu, hv⟩, hne, hna⟩
      obtain ⟨a, ha, hau⟩ := List.mem_map.1 ((hmemF u).2 hu)
      have := hi2.closed a (by simp [ha]) v (by rw [hau]; exact hv)
      simp only [List.append_nil, List.cons_append, List.nil_append, nodes, List.map_cons,
        List.mem_cons, List.map_append, List.mem_append] at this
      rcases this with rfl | this | this
      · exact (hne rfl).elim
      · exact (hna ((hmemF v).1 this)).elim
      · exact this
  · intro e hE
    have := hi2.pred h.nodup e (by simp [hE]) (by rw [hdS e hE]; omega)
    rw [this, hdS e hE]
    simp only [List.not_mem_nil, and_false, if_false, List.append_nil, List.cons_append, List.nil_append,
      List.filter_cons]
    rw [if_neg (by simp)]
    congr 1
    apply List.filter_congr
    intro a ha
    simp [hdF a ha]

/-! ## The numbers -/

theorem TwoLevels.k {p : ℕ} {F S : List Entry} (t : TwoLevels adj n p F S) : F.length = (adj p).length := by
  simpa [nodes] using t.nodesF.length_eq

theorem TwoLevels.k2 {p : ℕ} {F S : List Entry} (t : TwoLevels adj n p F S) :
    S.length = (second adj p).card := by
  have : (nodes S).toFinset = second adj p := by ext v; simp [t.nodesS.2 v]
  rw [← this, List.toFinset_card_of_nodup t.nodesS.1, nodes, List.length_map]

theorem TwoLevels.empty {p : ℕ} {F S : List Entry} (t : TwoLevels adj n p F S) :
    S = [] ↔ second adj p = ∅ := by
  rw [← Finset.card_eq_zero, ← t.k2, List.length_eq_zero_iff]

theorem TwoLevels.skip {p : ℕ} {F S : List Entry} (t : TwoLevels adj n p F S) :
    skipFirst (F ++ S) 0 = if second adj p = ∅ then none else some ((adj p).length, S) := by
  have key : ∀ (F : List Entry) (k : ℕ), (∀ e ∈ F, e.d = 1) →
      skipFirst (F ++ S) k = if S = [] then none else some (k + F.length, S) := by
    intro F
    induction F with
    | nil =>
      intro k _
      cases hS : S with
      | nil => simp [skipFirst]
      | cons e es =>
        have : e.d = 2 := t.dS e (by simp [hS])
        simp [skipFirst, this]
    | cons e F ih =>
      intro k hF
      have : e.d = 1 := hF e (by simp)
      rw [List.cons_append, skipFirst, if_pos (by omega), ih (k + 1) fun e he => hF e (by simp [he])]
      simp [Nat.add_comm, Nat.add_left_comm]
  rw [key F 0 t.dF, ← t.k]
  simp only [t.empty, Nat.zero_add]

theorem TwoLevels.count {p : ℕ} {F S : List Entry} (h : Simple adj n) (t : TwoLevels adj n p F S) {e : Entry}
    (he : e ∈ S) : CountPredecessors e = common adj p e.node := by
  unfold CountPredecessors
  have hl : e.pred.length = common adj p e.node := by
    rw [t.pred e he, List.length_map]
    have h1 : (F.filter fun a => e.node ∈ adj a.node).length =
        ((nodes F).filter fun v => e.node ∈ adj v).length := by
      rw [nodes, List.filter_map, List.length_map]; rfl
    rw [h1, (t.nodesF.filter _).length_eq, ← List.toFinset_card_of_nodup ((h.nodup p).filter _), common]
    congr 1
    ext v
    simp only [List.mem_toFinset, List.mem_filter, decide_eq_true_eq, Finset.mem_inter, nbr]
    exact ⟨fun hv => ⟨hv.1, h.sym _ _ hv.2⟩, fun hv => ⟨hv.1, h.sym _ _ hv.2⟩⟩
  rw [hl, if_neg]
  rw [t.pred e he]
  cases F.filter fun a => e.node ∈ adj a.node <;> simp

/-- Twice the number of squares with two neighbours of `p` and a second neighbour. -/
def squares2 (adj : ℕ → List ℕ) (p : ℕ) : ℕ := ∑ w ∈ second adj p, common adj p w * (common adj p w - 1)

theorem TwoLevels.squares {p : ℕ} {F S : List Entry} (h : Simple adj n) (t : TwoLevels adj n p F S) :
    squares S = i32 (squares2 adj p) := by
  unfold BFS.squares
  rw [addAll_eq _ _ (by omega), Nat.zero_add]
  congr 1
  have h1 : (S.map fun e => CountPredecessors e * (CountPredecessors e - 1)) =
      (nodes S).map fun w => common adj p w * (common adj p w - 1) := by
    rw [nodes, List.map_map]
    apply List.map_congr_left
    intro e he
    simp [t.count h he]
  have : (nodes S).toFinset = second adj p := by ext v; simp [t.nodesS.2 v]
  rw [h1, squares2, ← this, List.sum_toFinset _ t.nodesS.1]

theorem common_le (h : Simple adj n) (p w : ℕ) : common adj p w ≤ (adj p).length := by
  rw [← nbr_card h p]
  exact Finset.card_le_card Finset.inter_subset_left

theorem squares2_le (h : Simple adj n) (p : ℕ) :
    squares2 adj p ≤ (second adj p).card * (adj p).length * ((adj p).length - 1) := by
  unfold squares2
  rw [Nat.mul_assoc, ← smul_eq_mul, ← Finset.sum_const]
  apply Finset.sum_le_sum
  intro w _
  have := common_le h p w
  exact Nat.mul_le_mul this (by omega)

theorem square_eq {p : ℕ} (hk : 1 < (adj p).length) (hs : second adj p ≠ ∅) :
    (squares2 adj p : ℚ) / ((second adj p).card * (adj p).length * ((adj p).length - 1)) = square adj p := by
  have h1 : squares2 adj p = 2 * ∑ w ∈ second adj p, (common adj p w).choose 2 := by
    unfold squares2
    rw [Finset.mul_sum]
    apply Finset.sum_congr rfl
    intro w _
    rw [Nat.choose_two_right, Nat.mul_div_cancel' (Nat.even_mul_pred_self _).two_dvd]
  have h2 : ((adj p).length : ℚ) * ((adj p).length - 1) = 2 * ((adj p).length.choose 2 : ℕ) := by
    rw [Nat.cast_choose_two]; ring
  have hc : ((second adj p).card : ℚ) ≠ 0 := by
    simpa using Finset.nonempty_iff_ne_empty.1 (Finset.nonempty_iff_ne_empty.2 hs)
  have h3 : (((adj p).length.choose 2 : ℕ) : ℚ) ≠ 0 := by
    have := Nat.choose_pos (n := (adj p).length) (k := 2) (by omega)
    exact_mod_cast this.ne'
  unfold square
  rw [mul_assoc, h2, h1]
  push_cast
  field_simp

theorem square_mem (h : Simple adj n) {p : ℕ} (hk : 1 < (adj p).length) (hs : second adj p ≠ ∅) :
    0 ≤ square adj p ∧ square adj p ≤ 1 := by
  rw [← square_eq hk hs]
  have hc : (0 : ℚ) < (second adj p).card := by
    exact_mod_cast Finset.card_pos.2 (Finset.nonempty_iff_ne_empty.2 hs)
  have hk' : (1 : ℚ) < (adj p).length := by exact_mod_cast hk
  have hle : (squares2 adj p : ℚ) ≤ (second adj p).card * (adj p).length * ((adj p).length - 1) := by
    have := squares2_le h p
    have h2 : (((second adj p).card * (adj p).length * ((adj p).length - 1) : ℕ) : ℚ) =
        (second adj p).card * (adj p).length * ((adj p).length - 1) := by
      push_cast [Nat.cast_sub hk.le]; ring
    rw [← h2]
    exact_mod_cast this
  have hpos : (0 : ℚ) < (second adj p).card * (adj p).length * ((adj p).length - 1) := by
    have : (0 : ℚ) < (adj p).length - 1 := by linarith
    positivity
  exact ⟨div_nonneg (Nat.cast_nonneg _) hpos.le, by rw [div_le_one hpos]; exact hle⟩

/-! ## C80 -/

/-- **C80**: for an undirected network without self links, `OneNodeSquareClustering` returns -1 for a
node without neighbours, -3 when there are no second neighbours, -2 when there are but the node has one
neighbour only, and otherwise the fraction of the pairs of neighbours and second neighbours that are
squares, a number from 0 to 1, as long as twice the number of squares fits an `int`. -/
theorem C80_one_node {p : ℕ} (h : Simple adj n) (hp : p < n) (hc : squares2 adj p ≤ 2147483647) :
    (adj p = [] → OneNodeSquareClustering adj n p = some (-1)) ∧
    (adj p ≠ [] → second adj p = ∅ → OneNodeSquareClustering adj n p = some (-3)) ∧
    (second adj p ≠ ∅ → (adj p).length = 1 → OneNodeSquareClustering adj n p = some (-2)) ∧
    (second adj p ≠ ∅ → 1 < (adj p).length → OneNodeSquareClustering adj n p = some (square adj p) ∧
      0 ≤ square adj p ∧ square adj p ≤ 1) := by
  obtain ⟨F, S, t⟩ := two_levels h hp
  obtain ⟨q1, e1, hl, lp, q2, e2, e, hq2⟩ := t.first
  have hdrop : q2.list.drop 1 = F ++ S := by rw [hq2]; rfl
  have hlen : q2.list.length = F.length + 1 + S.length := by rw [hq2]; simp; omega
  have run : adj p ≠ [] → OneNodeSquareClustering adj n p =
      if second adj p = ∅ then some (-3)
      else if (adj p).length ≤ 1 then some (-2)
      else some ((squares2 adj p : ℚ) / ((second adj p).card * (adj p).length * ((adj p).length - 1))) := by
    intro hne
    unfold OneNodeSquareClustering
    rw [if_neg (by simpa using hne), e1]
    simp only [Option.bind_eq_bind, Option.bind_some]
    rw [e2]
    simp only [Option.bind_some]
    rw [hlen, hl, hdrop, t.skip]
    by_cases hs : second adj p = ∅
    · have : S = [] := t.empty.2 hs
      subst this
      simp [hs]
    · have : S.length ≠ 0 := by rw [t.k2]; simpa using hs
      rw [if_pos (by omega), if_neg hs, if_neg hs]
      simp only [Option.bind_some]
      rw [t.squares h, i32_some hc]
      simp only [Option.bind_some, t.k2]
      by_cases hk : (adj p).length ≤ 1
      · simp [hk]
      · simp [hk]
  refine ⟨fun he => by simp [OneNodeSquareClustering, he], fun hne hs => by rw [run hne, if_pos hs],
    fun hs hk => ?_, fun hs hk => ⟨?_, square_mem h hk hs⟩⟩
  · rw [run (by intro e; simp [e] at hk), if_neg hs, if_pos (by omega)]
  · rw [run (by intro e; simp [e] at hk), if_neg hs, if_neg (by omega), square_eq hk hs]

/-- **C80**: and otherwise the `int` overflows. -/
theorem C80_overflow {p : ℕ} (h : Simple adj n) (hp : p < n) (hc : 2147483647 < squares2 adj p) :
    OneNodeSquareClustering adj n p = none := by
  obtain ⟨F, S, t⟩ := two_levels h hp
  obtain ⟨q1, e1, hl, lp, q2, e2, e, hq2⟩ := t.first
  have hdrop : q2.list.drop 1 = F ++ S := by rw [hq2]; rfl
  have hlen : q2.list.length = F.length + 1 + S.length := by rw [hq2]; simp; omega
  have hs : second adj p ≠ ∅ := by
    intro hs; simp [squares2, hs] at hc
  have hne : (adj p).length ≠ 0 := by
    intro h0
    have := squares2_le h p
    rw [h0] at this
    simp at this
    omega
  have : S.length ≠ 0 := by rw [t.k2]; simpa using hs
  unfold OneNodeSquareClustering
  rw [if_neg hne, e1]
  simp only [Option.bind_eq_bind, Option.bind_some]
  rw [e2]
  simp only [Option.bind_some]
  rw [hlen, hl, hdrop, t.skip, if_pos (by omega), if_neg hs]
  simp only [Option.bind_some]
  rw [t.squares h, i32_none (by omega)]
  rfl

/-! ## C79 -/

theorem squareNode_eq {p : ℕ} (h : Simple adj n) (hp : p < n)
    (hc : (second adj p).card * (adj p).length * ((adj p).length - 1) ≤ 2147483647) :
    squareNode adj n p =
      if (adj p).length + 1 < n then
        if second adj p = ∅ then none
        else if 1 < (adj p).length then some (some (square adj p)) else some none
      else some none := by
  obtain ⟨F, S, t⟩ := two_levels h hp
  obtain ⟨q1, e1, hl, lp, q2, e2, e, hq2⟩ := t.first
  have hdrop : q2.list.drop 1 = F ++ S := by rw [hq2]; rfl
  unfold squareNode
  rw [e1]
  simp only [Option.bind_eq_bind, Option.bind_some]
  rw [hl, t.k]
  by_cases hn : (adj p).length + 1 < n
  · rw [if_pos hn, if_pos hn, e2]
    simp only [Option.bind_some]
    rw [hdrop, t.skip]
    by_cases hs : second adj p = ∅
    · rw [if_pos hs, if_pos hs]; rfl
    · rw [if_neg hs, if_neg hs]
      simp only [Option.bind_some]
      rw [t.squares h, i32_some (by have := squares2_le h p; omega)]
      simp only [Option.bind_some, t.k2]
      rw [i32_some hc]
      by_cases hk : 1 < (adj p).length
      · rw [if_pos hk, if_pos hk, ← square_eq hk hs]
        simp only [Option.bind_some]
        show some (some _) = _
        push_cast [Nat.cast_sub hk.le]
        rfl
      · rw [if_neg hk, if_neg hk]; rfl
  · rw [if_neg hn, if_neg hn]; rfl

/-- **C79**: a node whose neighbours are not all the other nodes of the network and that has no second
neighbours makes `SquareClustering` dereference NULL. -/
theorem C79_crash {p : ℕ} (h : Simple adj n) (hn : 2 ≤ n) (hp : p < n) (hs : second adj p = ∅)
    (hk : (adj p).length + 1 < n) : SquareClustering adj n = none := by
  have hp' : squareNode adj n p = none := by
    rw [squareNode_eq h hp (by simp [hs]), if_pos hk, if_pos hs]
  have key : ∀ (ps : List ℕ) (c : ℚ) (m : ℕ), p ∈ ps → squareSum adj n ps (c, m) = none := by
    intro ps
    induction ps with
    | nil => simp
    | cons a ps ih =>
      intro c m ha
      unfold squareSum
      by_cases e : p = a
      · subst e; rw [hp']; rfl
      · have ha' : p ∈ ps := by simpa [e] using ha
        cases hq : squareNode adj n a with
        | none => rfl
        | some x =>
          cases x with
          | none => exact ih _ _ ha'
          | some x => exact ih _ _ ha'
  unfold SquareClustering
  rw [if_neg (by omega), key _ _ _ (by simpa using hp)]
  rfl

/-- A link and a node without links. -/
def pairAndOne : ℕ → List ℕ | 0 => [1] | 1 => [0] | _ => []

theorem pairAndOne_simple : Simple pairAndOne 3 where
  range := by unfold InRange; decide
  sym := by
    intro i j h
    unfold pairAndOne at h ⊢
    split at h <;> simp at h <;> subst h <;> simp
  nodup := by intro i; unfold pairAndOne; split <;> decide
  irrefl := by intro i; unfold pairAndOne; split <;> simp

/-- **C79** is false for networks that are not connected: three nodes and one link are enough. -/
theorem C79_refuted : ∃ (adj : ℕ → List ℕ) (n : ℕ), Simple adj n ∧ n = 3 ∧
    SquareClustering adj n = none :=
  ⟨pairAndOne, 3, pairAndOne_simple, rfl,
    C79_crash pairAndOne_simple (p := 0) (by norm_num) (by norm_num) (by decide) (by decide)⟩

/-- In a connected network a node without second neighbours is linked with all others. -/
theorem connected_second (h : Simple adj n) {p : ℕ} (hp : p < n) (hcon : ∀ v < n, Reach adj p v)
    (hs : second adj p = ∅) : (adj p).length + 1 = n := by
  have hcl : ∀ k v, Walk adj k p v → v = p ∨ v ∈ adj p := by
    intro k
    induction k with
    | zero => intro v hw; cases hw; exact Or.inl rfl
    | succ k ih =>
      intro v hw
      cases hw with
      | @step _ _ u _ hw hm =>
      rcases ih u hw with e | hu
      · rw [e] at hm; exact Or.inr hm
      · by_contra hno
        push Not at hno
        have : v ∈ second adj p := mem_second.2 ⟨⟨u, hu, hm⟩, hno.1, hno.2⟩
        rw [hs] at this
        simp at this
  have e : insert p (nbr adj p) = Finset.range n := by
    ext v
    simp only [Finset.mem_insert, nbr, List.mem_toFinset, Finset.mem_range]
    constructor
    · rintro (rfl | hv)
      · exact hp
      · exact h.range _ hp _ hv
    · intro hv
      obtain ⟨k, hk⟩ := hcon v hv
      exact hcl k v hk
  have : (insert p (nbr adj p)).card = n := by rw [e, Finset.card_range]
  rwa [Finset.card_insert_of_notMem (by simpa [nbr] using h.irrefl p), nbr_card h] at this

/-- Full statement of **C79**: for every undirected network of two nodes or more, `SquareClustering` is
the mean of the square clustering of the nodes that have two neighbours or more and second neighbours,
a number from 0 to 1 (0/0 when there are none).  False without the hypothesis `hcon` (`C79_refuted`);
here for connected networks, with products that fit an `int`. -/
theorem C79_square_partial (h : Simple adj n) (hn : 2 ≤ n) (hcon : ∀ u < n, ∀ v < n, Reach adj u v)
    (hc : ∀ p < n, (second adj p).card * (adj p).length * ((adj p).length - 1) ≤ 2147483647) :
    let K := (Finset.range n).filter fun p => 1 < (adj p).length ∧ second adj p ≠ ∅
    (K.Nonempty → ∃ C, SquareClustering adj n = some (some C) ∧
      C = (∑ p ∈ K, square adj p) / K.card ∧ 0 ≤ C ∧ C ≤ 1) ∧
    (K = ∅ → SquareClustering adj n = some none) := by
  intro K
  have node : ∀ p < n, squareNode adj n p =
      if 1 < (adj p).length ∧ second adj p ≠ ∅ then some (some (square adj p)) else some none := by
    intro p hp
    rw [squareNode_eq h hp (hc p hp)]
    by_cases hs : second adj p = ∅
    · have := connected_second h hp (hcon p hp) hs
      rw [if_neg (by omega), if_neg (by simp [hs])]
    · have hlt : (adj p).length + 1 < n := by
        obtain ⟨w, hw⟩ := Finset.nonempty_iff_ne_empty.2 hs
        obtain ⟨⟨v, hv, hwv⟩, hne, hna⟩ := mem_second.1 hw
        have hwn : w < n := h.range _ (h.range _ hp _ hv) _ hwv
        have hsub : insert w (insert p (nbr adj p)) ⊆ Finset.range n := by
          intro x hx
          simp only [Finset.mem_insert, nbr, List.mem_toFinset, Finset.mem_range] at hx ⊢
          rcases hx with rfl | rfl | hx
          · exact hwn
          · exact hp
          · exact h.range _ hp _ hx
        have := Finset.card_le_card hsub
        rw [Finset.card_insert_of_notMem (by simp [nbr, hne, hna]),
          Finset.card_insert_of_notMem (by simpa [nbr] using h.irrefl p), nbr_card h, Finset.card_range] at this
        omega
      rw [if_pos hlt, if_neg hs]
      simp [hs]
  have sum : ∀ (ps : List ℕ), (∀ p ∈ ps, p < n) → ∀ (c : ℚ) (m : ℕ), squareSum adj n ps (c, m) =
      some (c + ((ps.filter fun p => 1 < (adj p).length ∧ second adj p ≠ ∅).map (square adj)).sum,
        m - (ps.filter fun p => ¬ (1 < (adj p).length ∧ second adj p ≠ ∅)).length) := by
    intro ps
    induction ps with
    | nil => intro _ c m; simp [squareSum]
    | cons p ps ih =>
      intro hps c m
      have ih' := ih fun q hq => hps q (by simp [hq])
      unfold squareSum
      rw [node p (hps p (by simp))]
      by_cases hk : 1 < (adj p).length ∧ second adj p ≠ ∅
      · rw [if_pos hk]
        simp only [Option.bind_eq_bind, Option.bind_some]
        rw [ih', List.filter_cons_of_pos (by simpa using hk), List.filter_cons_of_neg (by simpa using hk)]
        simp [add_assoc]
      · rw [if_neg hk]
        simp only [Option.bind_eq_bind, Option.bind_some]
        rw [ih', List.filter_cons_of_neg (by simpa using hk), List.filter_cons_of_pos (by simpa only [decide_eq_true_eq] using hk)]
        simp [Nat.sub_sub, Nat.add_comm]
  have hsumK : (((List.range n).filter fun p => 1 < (adj p).length ∧ second adj p ≠ ∅).map (square adj)).sum =
      ∑ p ∈ K, square adj p := by
    rw [← List.sum_toFinset _ (List.nodup_range.filter _)]
    apply Finset.sum_congr _ fun _ _ => rfl
    ext p; simp [K]
  have hcardK : n - ((List.range n).filter fun p => ¬ (1 < (adj p).length ∧ second adj p ≠ ∅)).length =
      K.card := by
    have h1 : ((List.range n).filter fun p => ¬ (1 < (adj p).length ∧ second adj p ≠ ∅)).length =
        ((Finset.range n).filter fun p => ¬ (1 < (adj p).length ∧ second adj p ≠ ∅)).card := by
      rw [← List.toFinset_card_of_nodup (List.nodup_range.filter _)]
      congr 1
      ext p; simp only [List.mem_toFinset, List.mem_filter, List.mem_range, decide_eq_true_eq,
        Finset.mem_filter, Finset.mem_range]
    have h2 := Finset.card_filter_add_card_filter_not (s := Finset.range n)
      (fun p => 1 < (adj p).length ∧ second adj p ≠ ∅)
    rw [Finset.card_range] at h2
    rw [h1]
    show _ = ((Finset.range n).filter fun p => 1 < (adj p).length ∧ second adj p ≠ ∅).card
    omega
  have run : SquareClustering adj n =
      some (if K.card = 0 then none else some ((∑ p ∈ K, square adj p) / K.card)) := by
    unfold SquareClustering
    rw [if_neg (by omega), sum _ (by simp)]
    simp only [Option.bind_eq_bind, Option.bind_some]
    rw [hsumK, hcardK, zero_add]
    rfl
  refine ⟨fun hK => ?_, fun hK => by rw [run]; simp [hK]⟩
  have hpos := Finset.card_pos.2 hK
  have hq : (0 : ℚ) < K.card := by exact_mod_cast hpos
  refine ⟨_, by rw [run, if_neg hpos.ne'], rfl, ?_, ?_⟩
  · apply div_nonneg _ hq.le
    apply Finset.sum_nonneg
    intro p hp
    have := (Finset.mem_filter.1 hp).2
    exact (square_mem h this.1 this.2).1
  · rw [div_le_one hq]
    calc ∑ p ∈ K, square adj p ≤ ∑ _p ∈ K, (1 : ℚ) := by
          apply Finset.sum_le_sum
          intro p hp
          have := (Finset.mem_filter.1 hp).2
          exact (square_mem h this.1 this.2).2
      _ = K.card := by simp

/-! ## Examples -/

example : SquareClustering pairAndOne 3 = none := by decide +kernel
example : OneNodeSquareClustering pairAndOne 3 2 = some (-1) ∧
    OneNodeSquareClustering pairAndOne 3 0 = some (-3) ∧ OneNodeSquareClustering tailed 4 3 = some (-2) ∧
    OneNodeSquareClustering tailed 4 0 = some 0 := by decide +kernel

/-- A square with one more node linked to a corner: 0-1-2-3-0, 2-4. -/
def kite : ℕ → List ℕ
  | 0 => [1, 3] | 1 => [0, 2] | 2 => [1, 3, 4] | 3 => [2, 0] | 4 => [2] | _ => []

theorem kite_simple : Simple kite 5 where
  range := by unfold InRange; decide
  sym := by
    intro i j h
    unfold kite at h ⊢
    split at h <;> simp at h <;> (try rcases h with rfl | rfl | rfl) <;> simp_all
  nodup := by intro i; unfold kite; split <;> decide
  irrefl := by intro i; unfold kite; split <;> simp

example : OneNodeSquareClustering kite 5 0 = some 1 ∧ OneNodeSquareClustering kite 5 1 = some (1 / 2) ∧
    OneNodeSquareClustering kite 5 2 = some (1 / 3) := by decide +kernel
example : OneNodeSquareClustering kite 5 2 = some (square kite 2) :=
  ((C80_one_node kite_simple (p := 2) (by norm_num) (by decide)).2.2.2 (by decide) (by decide)).1
example : SquareClustering kite 5 = some (some (7 / 12)) := by decide +kernel
example : SquareClustering (star 1) 2 = some none := by decide +kernel

end BFS
