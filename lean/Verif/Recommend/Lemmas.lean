import Verif.KState.Props
import Verif.Recommend.Spec

/-! # Counts of ratings between blocks -/

set_option linter.unusedSimpArgs false

namespace RC

open GP RG LS KS Finset
open BP (Bi)

variable {b : Bi} {K : ℕ} {f1 f2 : ℕ → Option ℕ}

theorem dots_simple (n : ℕ) : (dots n).Simple := by
  have hl : ∀ i j, (dots n).link i j = none := fun i j => by
    apply Option.eq_none_iff_forall_ne_some.2
    intro w hw
    rw [link_iff (fun i => by simp [dots])] at hw
    simp [dots] at hw
  exact ⟨fun i => by simp [dots], fun i x hx => by simp [dots] at hx, fun i j => by rw [hl, hl], fun i => hl i i⟩

theorem swap_ok (h : b.OK) : b.swap.OK :=
  ⟨h.nodup2, h.nodup1, h.range2, h.range1, fun i j w => (h.sym j i w).symm⟩

theorem swap_rated (h : b.OK) (hr : b.Rated K) : b.swap.Rated K := by
  rintro i ⟨j, w⟩ hx
  exact hr j (i, w) ((h.sym j i w).2 hx)

theorem ra_swap (h : b.OK) (k i j : ℕ) : ra b.swap k j i = ra b k i j := by
  unfold ra
  have : (i, (k : ℚ)) ∈ b.swap.neig1 j ↔ (j, (k : ℚ)) ∈ b.neig1 i := (h.sym i j k).symm
  simp only [this]

theorem cnt_swap (h : b.OK) (k g g' : ℕ) : cnt b.swap f2 f1 k g' g = cnt b f1 f2 k g g' := by
  unfold cnt
  rw [sum_comm]
  exact sum_congr rfl fun i _ => sum_congr rfl fun j _ => ra_swap h k i j

theorem bEnergy_swap (h : b.OK) (T : (ℕ → Int) → ℝ) : bEnergy T b.swap f2 f1 = bEnergy T b f1 f2 := by
  unfold bEnergy
  simp only [cnt_swap h]
  rw [sum_comm]
  change _ - (Real.log _ + Real.log _) = _
  rw [add_comm (Real.log _)]
  rfl

theorem ra_nonneg (k i j : ℕ) : 0 ≤ ra b k i j := by unfold ra; split_ifs <;> simp

theorem cnt_nonneg (k g g' : ℕ) : 0 ≤ cnt b f1 f2 k g g' :=
  sum_nonneg fun i _ => sum_nonneg fun j _ => ra_nonneg k i j

theorem cnt_eq (k g g' : ℕ) : cnt b f1 f2 k g g' = ∑ i ∈ blk b.n1 f1 g, ncnt b f2 k i g' := rfl

theorem mem_blk {n : ℕ} {f : ℕ → Option ℕ} {g v : ℕ} : v ∈ blk n f g ↔ v < n ∧ f v = some g := by
  unfold blk; rw [mem_filter, mem_range]

/-! ## The counting loops -/

theorem nwl_sum (l : List (ℕ × ℚ)) (f : ℕ → Option ℕ) (g k : ℕ) :
    nwl l f g k = (l.map fun x => if x.2 = (k : ℚ) ∧ f x.1 = some g then (1 : Int) else 0).sum := by
  unfold nwl
  have : (fun (s : Int) (x : ℕ × ℚ) => if x.2 = (k : ℚ) ∧ f x.1 = some g then s + 1 else s) =
      fun s x => s + if x.2 = (k : ℚ) ∧ f x.1 = some g then (1 : Int) else 0 := by
    funext s x; split_ifs <;> simp
  rw [this, foldl_sum, zero_add]

theorem nl_sum (l : List (ℕ × ℚ)) (f : ℕ → Option ℕ) (g : ℕ) :
    nl l f g = (l.map fun x => if f x.1 = some g then (1 : Int) else 0).sum := by
  unfold nl
  have : (fun (s : Int) (x : ℕ × ℚ) => if f x.1 = some g then s + 1 else s) =
      fun s x => s + if f x.1 = some g then (1 : Int) else 0 := by
    funext s x; split_ifs <;> simp
  rw [this, foldl_sum, zero_add]

theorem nl_ratings {f : ℕ → Option ℕ} {g : ℕ} : ∀ (l : List (ℕ × ℚ)), (∀ x ∈ l, ∃ k < K, x.2 = ((k : ℕ) : ℚ)) →
    nl l f g = ∑ k ∈ range K, nwl l f g k
  | [], _ => by simp [nl, nwl]
  | x :: l, h => by
    have ih := nl_ratings (f := f) (g := g) l fun y hy => h y (by simp [hy])
    rw [nl_sum] at ih ⊢
    simp only [nwl_sum] at ih ⊢
    simp only [List.map_cons, List.sum_cons]
    rw [sum_add_distrib, ih]
    congr 1
    obtain ⟨k, hk, e⟩ := h x (by simp)
    rw [sum_eq_single_of_mem k (mem_range.2 hk)]
    · simp [e]
    · intro k' _ hne
      rw [if_neg]
      rintro ⟨e', _⟩
      rw [e] at e'
      exact hne (by exact_mod_cast e'.symm)

theorem nwl_eq {m : ℕ} {f : ℕ → Option ℕ} {g k : ℕ} : ∀ (l : List (ℕ × ℚ)), (l.map (·.1)).Nodup → (∀ x ∈ l, x.1 < m) →
    nwl l f g k = ∑ j ∈ blk m f g, if (j, (k : ℚ)) ∈ l then (1 : Int) else 0
  | [], _, _ => by simp [nwl]
  | x :: l, hnd, hr => by
    rw [List.map_cons, List.nodup_cons] at hnd
    have ih := nwl_eq (m := m) (f := f) (g := g) (k := k) l hnd.2 fun y hy => hr y (by simp [hy])
    rw [nwl_sum] at ih ⊢
    rw [List.map_cons, List.sum_cons, ih]
    have : ∀ j, (if (j, (k : ℚ)) ∈ x :: l then (1 : Int) else 0) =
        (if j = x.1 then (if x.2 = (k : ℚ) then 1 else 0) else 0) + if (j, (k : ℚ)) ∈ l then 1 else 0 := by
      intro j
      by_cases h1 : j = x.1
      · have h2 : (j, (k : ℚ)) ∉ l := fun hm => hnd.1 (List.mem_map.2 ⟨_, hm, h1⟩)
        rw [if_neg h2, if_pos h1, add_zero]
        have : (j, (k : ℚ)) ∈ x :: l ↔ x.2 = (k : ℚ) := by
          rw [List.mem_cons]
          constructor
          · rintro (h | h)
            · rw [← h]
            · exact absurd h h2
          · intro h; left; exact Prod.ext h1 h.symm
        simp only [this]
      · rw [if_neg h1, zero_add]
        have : (j, (k : ℚ)) ∈ x :: l ↔ (j, (k : ℚ)) ∈ l := by
          rw [List.mem_cons]
          constructor
          · rintro (h | h)
            · rw [← h] at h1; exact absurd rfl h1
            · exact h
          · exact Or.inr
        simp only [this]
    simp only [this]
    rw [sum_add_distrib, sum_ite_eq']
    congr 1
    have hm : x.1 ∈ blk m f g ↔ f x.1 = some g := by
      rw [mem_blk]; exact ⟨fun h => h.2, fun h => ⟨hr x (by simp), h⟩⟩
    simp only [hm]
    by_cases e1 : x.2 = (k : ℚ) <;> by_cases e2 : f x.1 = some g <;> simp [e1, e2]

theorem nwl_ncnt (h : b.OK) (i g k : ℕ) : nwl (b.neig1 i) f2 g k = ncnt b f2 k i g :=
  nwl_eq _ (h.nodup1 i) (h.range1 i)

theorem members_eq {n m : ℕ} {p : Part} (hp : PartOK (dots n) m p) {g : ℕ} (hg : g < m) :
    (p.grp g).nodes.toFinset = blk n p.inGroup g := (hp.groups g hg).mem

theorem bnwg2g_eq (h : b.OK) {p1 p2 : Part} {m : ℕ} (hp : PartOK (dots b.n1) m p1) {g g' : ℕ} (hg : g < m) (k : ℕ) :
    bnwg2g b p1 p2 g g' k = cnt b p1.inGroup p2.inGroup k g g' := by
  unfold bnwg2g
  rw [foldl_nodes _ (hp.groups g hg).nodup, members_eq hp hg, cnt_eq]
  exact sum_congr rfl fun i _ => nwl_ncnt h i g' k

theorem bng2g_eq (h : b.OK) (hr : b.Rated K) {p1 p2 : Part} {m : ℕ} (hp : PartOK (dots b.n1) m p1) {g g' : ℕ} (hg : g < m) :
    bng2g b p1 p2 g g' = ∑ k ∈ range K, cnt b p1.inGroup p2.inGroup k g g' := by
  unfold bng2g
  rw [foldl_nodes _ (hp.groups g hg).nodup, members_eq hp hg]
  simp only [cnt_eq]
  rw [sum_comm]
  apply sum_congr rfl
  intro i _
  rw [nl_ratings _ (hr i)]
  exact sum_congr rfl fun k _ => nwl_ncnt h i g' k

/-! ## Energies -/

/-- `pt` computes `T` from the counts of the `K` ratings. -/
structure Pot (K : ℕ) (pt : (ℕ → Int) → Option ℝ) (T : (ℕ → Int) → ℝ) : Prop where
  eval : ∀ c, (∀ k < K, 0 ≤ c k) → pt c = some (T c)
  dep : ∀ c c', (∀ k < K, c k = c' k) → T c = T c'

theorem pot2 : Pot 2 pt2 T2 := by
  refine ⟨?_, ?_⟩
  · intro c hc
    have h0 := hc 0 (by norm_num)
    have h1 := hc 1 (by norm_num)
    unfold pt2 lterm T2
    rw [if_pos ⟨h1, by omega⟩]
  · intro c c' h
    unfold T2
    rw [h 0 (by norm_num), h 1 (by norm_num)]

theorem potK (hK : 0 < K) : Pot K (pairTerm K) (TKb K) := by
  refine ⟨?_, ?_⟩
  · intro c hc
    unfold pairTerm TKb
    rw [countRatings_eq K c hc]
    simp only [Option.bind_eq_bind, Option.bind_some]
    have h0 : 0 ≤ ∑ k ∈ range K, c k := sum_nonneg fun k hk => hc k (mem_range.1 hk)
    rw [lfact_nonneg (by omega)]
    rfl
  · intro c c' h
    unfold TKb
    rw [sum_congr rfl fun k hk => h k (mem_range.1 hk)]
    congr 1
    exact sum_congr rfl fun k hk => by rw [h k (mem_range.1 hk)]

theorem nused_le (n : ℕ) (f : ℕ → Option ℕ) : nused n f ≤ n := used_le (dots n) f

theorem nonempty' {n : ℕ} {p : Part} (hp : PartOK (dots n) n p) : NNonEmptyGroups n p = nused n p.inGroup :=
  nonempty_eq (net := dots n) hp

theorem nnod' {n : ℕ} {p : Part} (hp : PartOK (dots n) n p) (hf : Full (dots n) p) : nnodOf n p = n :=
  nnod_eq (net := dots n) hp hf

theorem size_blk {n m : ℕ} {p : Part} (hp : PartOK (dots n) m p) {g : ℕ} (hg : g < m) :
    (p.grp g).size = (blk n p.inGroup g).card := size_eq hp hg

theorem size_pos_iff {n m : ℕ} {p : Part} (hp : PartOK (dots n) m p) {g : ℕ} (hg : g < m) :
    0 < (p.grp g).size ↔ (blk n p.inGroup g).Nonempty := by
  rw [size_blk hp hg, ← card_pos]; exact_mod_cast Iff.rfl

theorem cnt_empty1 {g : ℕ} (he : ¬ (blk b.n1 f1 g).Nonempty) (k g' : ℕ) : cnt b f1 f2 k g g' = 0 := by
  rw [not_nonempty_iff_eq_empty] at he
  unfold cnt; rw [he, sum_empty]

theorem cnt_empty2 {g' : ℕ} (he : ¬ (blk b.n2 f2 g').Nonempty) (k g : ℕ) : cnt b f1 f2 k g g' = 0 := by
  rw [not_nonempty_iff_eq_empty] at he
  unfold cnt; rw [he]; simp

theorem T2_zero {c : ℕ → Int} (h : ∀ k, c k = 0) : T2 c = 0 := by
  unfold T2; simp [h]

/-- `H2State` is the energy. -/
theorem h2_eq (h : b.OK) (hr : b.Rated 2) {p1 p2 : Part} (hp1 : PartOK (dots b.n1) b.n1 p1) (hf1 : Full (dots b.n1) p1)
    (hp2 : PartOK (dots b.n2) b.n2 p2) (hf2 : Full (dots b.n2) p2) :
    H2State b p1 p2 = some (bEnergy T2 b p1.inGroup p2.inGroup) := by
  unfold H2State
  rw [nonempty' hp1, nonempty' hp2, nnod' hp1 hf1, nnod' hp2 hf2, lfact_eq (nused_le _ _), lfact_eq (nused_le _ _)]
  rw [foldlM_sum _ (fun g => ∑ g' ∈ range b.n2, T2 fun k => cnt b p1.inGroup p2.inGroup k g g')]
  · simp only [Option.bind_eq_bind, Option.bind_some]
    rw [range_sum, zero_add]
    rfl
  · intro g hg s
    have hg := List.mem_range.1 hg
    by_cases hp : 0 < (p1.grp g).size
    · rw [if_pos hp, foldlM_sum _ (fun g' => T2 fun k => cnt b p1.inGroup p2.inGroup k g g'), range_sum]
      intro g' hg' s
      have hg' := List.mem_range.1 hg'
      by_cases hq : 0 < (p2.grp g').size
      · rw [if_pos hq, bng2g_eq h hr hp1 hg, bnwg2g_eq h hp1 hg]
        have := pot2.eval (fun k => cnt b p1.inGroup p2.inGroup k g g') fun k _ => cnt_nonneg k g g'
        unfold pt2 at this
        rw [sum_range_succ, sum_range_one, this]
        rfl
      · rw [if_neg hq, T2_zero, add_zero]
        intro k
        exact cnt_empty2 (fun hh => hq ((size_pos_iff hp2 hg').2 hh)) k g
    · rw [if_neg hp, sum_eq_zero, add_zero]
      intro g' _
      apply T2_zero
      intro k
      exact cnt_empty1 (fun hh => hp ((size_pos_iff hp1 hg).2 hh)) k g'

/-- `HKState` is the energy. -/
theorem hK_eq (h : b.OK) (hr : b.Rated K) (hK : 0 < K) {p1 p2 : Part} (hp1 : PartOK (dots b.n1) b.n1 p1)
    (hf1 : Full (dots b.n1) p1) (hp2 : PartOK (dots b.n2) b.n2 p2) (hf2 : Full (dots b.n2) p2) :
    HKState b K p1 p2 = some (bEnergy (TKb K) b p1.inGroup p2.inGroup) := by
  unfold HKState
  rw [nonempty' hp1, nonempty' hp2, show (List.range b.n1).foldl (fun s g => s + (p1.grp g).size) (0 : Int) = b.n1 from
    nnod_all (net := dots b.n1) hp1 hf1, nnod' hp2 hf2, lfact_eq (nused_le _ _), lfact_eq (nused_le _ _)]
  rw [foldlM_sum _ (fun g => ∑ g' ∈ range b.n2, TKb K fun k => cnt b p1.inGroup p2.inGroup k g g')]
  · simp only [Option.bind_eq_bind, Option.bind_some]
    rw [range_sum, zero_add]
    rfl
  · intro g hg s
    have hg := List.mem_range.1 hg
    rw [foldlM_sum _ (fun g' => TKb K fun k => cnt b p1.inGroup p2.inGroup k g g'), range_sum]
    intro g' _ s
    have := (potK hK).eval (fun k => cnt b p1.inGroup p2.inGroup k g g') fun k _ => cnt_nonneg k g g'
    unfold pairTerm at this
    simp only [bnwg2g_eq h hp1 hg]
    rw [bng2g_eq h hr hp1 hg]
    rw [countRatings_eq K _ fun k _ => cnt_nonneg k g g'] at this ⊢
    simp only [Option.bind_eq_bind, Option.bind_some] at this ⊢
    generalize lfact _ = o at this ⊢
    cases o with
    | none => simp at this
    | some x =>
      simp only [Option.bind_some, Option.some.injEq] at this ⊢
      rw [this]

/-! ## The updates -/

theorem colStep_apply {old new : ℕ} (hne : new ≠ old) (c : ℕ → Int) (M : ℕ → ℕ → Int) (i g j : ℕ) :
    colStep old new c M i g j = M g j + if j = i then c i * nchange old new g else 0 := by
  unfold colStep nchange
  simp only [set2_apply]
  by_cases h1 : j = i
  · subst h1
    by_cases h2 : g = new
    · subst h2; simp [hne]
    · by_cases h3 : g = old
      · subst h3; simp [h2]; ring
      · simp [h2, h3]
  · simp [h1]

theorem rowStep_apply {old new : ℕ} (hne : new ≠ old) (c : ℕ → Int) (M : ℕ → ℕ → Int) (i g j : ℕ) :
    rowStep old new c M i j g = M j g + if j = i then c i * nchange old new g else 0 := by
  unfold rowStep nchange
  simp only [set2_apply]
  by_cases h1 : j = i
  · subst h1
    by_cases h2 : g = new
    · subst h2; simp [hne]
    · by_cases h3 : g = old
      · subst h3; simp [h2]; ring
      · simp [h2, h3]
  · simp [h1]

theorem cols_apply {old new : ℕ} (hne : new ≠ old) (c : ℕ → Int) (M : ℕ → ℕ → Int) : ∀ (m g j : ℕ),
    (List.range m).foldl (colStep old new c) M g j = M g j + if j < m then c j * nchange old new g else 0
  | 0, g, j => by simp
  | m + 1, g, j => by
    rw [List.range_succ, List.foldl_append, List.foldl_cons, List.foldl_nil, colStep_apply hne, cols_apply hne c M m]
    rcases Nat.lt_trichotomy j m with h | h | h
    · simp [h, h.ne, Nat.lt_succ_of_lt h]
    · subst h; simp
    · simp [h.ne', Nat.not_lt.2 h.le, show ¬ j < m + 1 by omega]

theorem rows_apply {old new : ℕ} (hne : new ≠ old) (c : ℕ → Int) (M : ℕ → ℕ → Int) : ∀ (m g j : ℕ),
    (List.range m).foldl (rowStep old new c) M j g = M j g + if j < m then c j * nchange old new g else 0
  | 0, g, j => by simp
  | m + 1, g, j => by
    rw [List.range_succ, List.foldl_append, List.foldl_cons, List.foldl_nil, rowStep_apply hne, rows_apply hne c M m]
    rcases Nat.lt_trichotomy j m with h | h | h
    · simp [h, h.ne, Nat.lt_succ_of_lt h]
    · subst h; simp
    · simp [h.ne', Nat.not_lt.2 h.le, show ¬ j < m + 1 by omega]

section
variable {v old new : ℕ} (hv : v < b.n1) (hold : f1 v = some old) (hne : new ≠ old)
include hv hold hne

theorem sum_blk_move (c : ℕ → Int) (g : ℕ) : ∑ i ∈ blk b.n1 (Function.update f1 v (some new)) g, c i =
    ∑ i ∈ blk b.n1 f1 g, c i + c v * nchange old new g := by
  unfold nchange
  have e : ∀ f g, blk b.n1 f g = block (dots b.n1) f g := fun _ _ => rfl
  have hv' : v < (dots b.n1).n := hv
  rw [e, e]
  by_cases h1 : g = new
  · subst h1
    rw [block_new hv' hold hne, sum_insert (v_not_mem hv' hold hne), if_pos rfl]; ring
  · by_cases h2 : g = old
    · subst h2
      rw [block_old hv' hold hne, if_neg h1, if_pos rfl, ← add_sum_erase _ _ (v_mem hv' hold hne)]; ring
    · rw [block_other hv' hold hne h2 h1, if_neg h1, if_neg h2]; ring

theorem cnt_move (k g g' : ℕ) : cnt b (Function.update f1 v (some new)) f2 k g g' =
    cnt b f1 f2 k g g' + ncnt b f2 k v g' * nchange old new g := by
  rw [cnt_eq, cnt_eq, sum_blk_move hv hold hne]

/-- Counts from the nodes of the other set. -/
theorem ncnt_move (h : b.OK) (k j g : ℕ) : ncnt b.swap (Function.update f1 v (some new)) k j g =
    ncnt b.swap f1 k j g + ra b k v j * nchange old new g := by
  have := sum_blk_move hv hold hne (fun i => ra b.swap k j i) g
  rw [ra_swap h] at this
  exact this

end

end RC
