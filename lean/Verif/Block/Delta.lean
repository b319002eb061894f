import Verif.Block.Model
import Verif.Block.Spec
import Verif.Missing.Score

/-! # The energy change of a move, for a general pair term -/

set_option linter.unusedSimpArgs false

namespace BK

open GP hiding St
open RG LS Finset

variable {net : Net} {p : Part} {v old new : ℕ} {f : ℕ → Option ℕ}
variable {K : Kern} {F : Int → Int → ℝ} {D : ℕ → ℝ}

/-- On a network of `n` nodes the kernel computes the pair term `F` and the group term `D`. -/
structure Computes (K : Kern) (n : ℕ) (F : Int → Int → ℝ) (D : ℕ → ℝ) : Prop where
  term : ∀ r l : Int, 0 ≤ l → l ≤ r → 2 * r ≤ n * ((n : Int) - 1) → K.term r l = some (F r l)
  zero : F 0 0 = 0
  deg : ∀ k : ℕ, K.deg k = some (D k)

theorem block_card_le (net : Net) (f : ℕ → Option ℕ) (g : ℕ) : (block net f g).card ≤ net.n := by
  have := card_filter_le (range net.n) (fun v => f v = some g)
  rwa [card_range] at this

theorem block_cards_le (net : Net) (f : ℕ → Option ℕ) {g g' : ℕ} (h : g ≠ g') :
    (block net f g).card + (block net f g').card ≤ net.n := by
  rw [← card_union_of_disjoint]
  · have hs : block net f g ∪ block net f g' ⊆ range net.n := by
      intro x hx
      rcases mem_union.1 hx with hx | hx <;> exact mem_range.2 (mem_block.1 hx).1
    have := card_le_card hs
    rwa [card_range] at this
  · rw [disjoint_left]
    intro x h1 h2
    rw [mem_block] at h1 h2
    exact h (Option.some.inj (h1.2.symm.trans h2.2))

/-- There are at most `n (n-1) / 2` pairs between two groups or in a group. -/
theorem pairs_le (net : Net) (f : ℕ → Option ℕ) (g g' : ℕ) : 2 * pairs net f g g' ≤ net.n * ((net.n : Int) - 1) := by
  unfold pairs
  by_cases e : g = g'
  · rw [if_pos e]
    have h1 := block_card_le net f g
    have h2 : ((block net f g).card : Int) * ((block net f g).card - 1) ≤ net.n * ((net.n : Int) - 1) := by
      rcases Nat.eq_zero_or_pos (block net f g).card with h0 | h0
      · rw [h0]
        rcases Nat.eq_zero_or_pos net.n with h3 | h3
        · rw [h3]
        · simp only [Nat.cast_zero, zero_mul]
          exact mul_nonneg (by omega) (by omega)
      · exact mul_le_mul (by omega) (by omega) (by omega) (by omega)
    have := Int.mul_ediv_self_le (x := ((block net f g).card : Int) * ((block net f g).card - 1)) (k := 2) (by decide)
    omega
  · rw [if_neg e]
    have h1 := block_cards_le net f e
    rcases Nat.eq_zero_or_pos (block net f g).card with h0 | h0
    · rw [h0]
      rcases Nat.eq_zero_or_pos net.n with h3 | h3
      · rw [h3]; simp
      · simp only [Nat.cast_zero, zero_mul, mul_zero]
        exact mul_nonneg (by omega) (by omega)
    · rcases Nat.eq_zero_or_pos (block net f g').card with h0' | h0'
      · rw [h0']
        simp only [Nat.cast_zero, mul_zero]
        exact mul_nonneg (by omega) (by omega)
      · generalize hA : ((block net f g).card : Int) = a
        generalize hB : ((block net f g').card : Int) = b
        have ha : 1 ≤ a := by omega
        have hb : 1 ≤ b := by omega
        have hab : a + b ≤ net.n := by omega
        have e1 : (a + b) * (a + b - 1) ≤ net.n * ((net.n : Int) - 1) := mul_le_mul hab (by omega) (by omega) (by omega)
        have e2 : 0 ≤ (a - 1) * a := mul_nonneg (by omega) (by omega)
        have e3 : 0 ≤ (b - 1) * b := mul_nonneg (by omega) (by omega)
        nlinarith

theorem T_symm (h : net.Simple) (g g' : ℕ) : T F net f g g' = T F net f g' g := by
  unfold T
  rw [pairs_symm, links_symm h]

theorem T_other (hv : v < net.n) (hold : f v = some old) (hne : new ≠ old) (h : net.Simple) {g g' : ℕ} (h1 : g ≠ old)
    (h2 : g ≠ new) (h1' : g' ≠ old) (h2' : g' ≠ new) :
    T F net (Function.update f v (some new)) g g' = T F net f g g' := by
  unfold T
  rw [pairs_other hv hold hne h1 h2 h1' h2', links_move hv hold hne h]
  simp [h1, h2, h1', h2']

theorem T_empty_of (h0 : F 0 0 = 0) {g g' : ℕ} (h : block net f g = ∅ ∨ block net f g' = ∅) : T F net f g g' = 0 := by
  have h1 : pairs net f g g' = 0 := by
    unfold pairs
    rcases h with h | h <;> rw [h] <;> simp
    rintro rfl
    rw [h]; simp
  have h2 : links net f g g' = 0 := by
    unfold links
    rcases h with h | h <;> rw [h] <;> simp
  unfold T
  rw [h1, h2, h0]

/-- `PartitionHMB` is the energy of the division where the terms needed are defined. -/
theorem partitionH_of (hz : F 0 0 = 0) (hD : ∀ k : ℕ, K.deg k = some (D k))
    (hT : ∀ g < net.n, ∀ g' < net.n, (block net p.inGroup g).Nonempty → (block net p.inGroup g').Nonempty →
      K.term (pairs net p.inGroup g g') (links net p.inGroup g g') = some (T F net p.inGroup g g')) (h : net.Simple) (hp : PartOK net net.n p) (hf : Full net p) (linC : ℝ) :
    PartitionH K net net.n linC p = some (energy F D net linC p.inGroup) := by
  unfold PartitionH
  rw [nonempty_eq hp, nnod_eq hp hf]
  dsimp only
  rw [lfact_eq (used_le net _), hD]
  rw [foldlM_sum _ (fun g => T F net p.inGroup g g +
    ∑ g' ∈ (range net.n).filter (g < ·), T F net p.inGroup g g')]
  · simp only [Option.bind_eq_bind, Option.bind_some, Option.pure_def]
    rw [range_sum, sum_add_distrib]
    unfold energy
    congr 1
    push_cast
    ring
  · intro g hg s
    have hg := List.mem_range.1 hg
    by_cases h0 : 0 < (p.grp g).size
    · rw [if_pos h0]
      have e1 : K.term ((p.grp g).size * ((p.grp g).size - 1) / 2) (p.grp g).inlinks = some (T F net p.inGroup g g) := by
        have hb := (size_pos hp hg).1 h0
        rw [← hT g hg g hg hb hb, inlinks_eq hp h hg, size_eq hp hg]
        unfold pairs
        rw [if_pos rfl]
      rw [e1]
      simp only [Option.bind_eq_bind, Option.bind_some]
      rw [foldlM_sum _ (fun g' => T F net p.inGroup g g')]
      · rw [range'_sum]; congr 1; ring
      · intro g' hg' s
        rw [List.mem_range'_1] at hg'
        by_cases h1 : 0 < (p.grp g').size
        · rw [if_pos h1]
          have : K.term ((p.grp g).size * (p.grp g').size) (NG2GLinks net p g g') = some (T F net p.inGroup g g') := by
            rw [← hT g hg g' (by omega) ((size_pos hp hg).1 h0) ((size_pos hp (by omega)).1 h1), ng2g_eq hp h hg (by omega), size_eq hp hg, size_eq hp (by omega)]
            unfold pairs
            rw [if_neg (by omega)]
          rw [this]; rfl
        · rw [if_neg h1, T_empty_of hz (Or.inr _), add_zero]
          rw [size_pos hp (by omega)] at h1
          exact not_nonempty_iff_eq_empty.1 h1
    · rw [if_neg h0]
      rw [size_pos hp hg] at h0
      have h0 := not_nonempty_iff_eq_empty.1 h0
      rw [T_empty_of hz (Or.inl h0), sum_eq_zero (fun g' _ => T_empty_of hz (Or.inl h0))]
      simp

section
variable (hK : Computes K net.n F D)
include hK

theorem term_T (h : net.Simple) (g g' : ℕ) :
    K.term (pairs net f g g') (links net f g g') = some (T F net f g g') :=
  hK.term _ _ (links_nonneg g g') (links_le h g g') (pairs_le net f g g')

theorem T_empty {g g' : ℕ} (h : block net f g = ∅ ∨ block net f g' = ∅) : T F net f g g' = 0 :=
  T_empty_of hK.zero h

/-- `PartitionHMB` is the energy of the division. -/
theorem partitionH_eq (h : net.Simple) (hp : PartOK net net.n p) (hf : Full net p) (linC : ℝ) :
    PartitionH K net net.n linC p = some (energy F D net linC p.inGroup) :=
  partitionH_of hK.zero hK.deg (fun g _ g' _ _ _ => term_T hK h g g') h hp hf linC

end

/-- Change of the term of a pair of groups. -/
noncomputable def U (F : Int → Int → ℝ) (net : Net) (f f' : ℕ → Option ℕ) (g g' : ℕ) : ℝ := T F net f' g g' - T F net f g g'

/-- Share of group `g` in the energy change. -/
noncomputable def share (F : Int → Int → ℝ) (net : Net) (f f' : ℕ → Option ℕ) (old new g : ℕ) : ℝ :=
  if g = old then U F net f f' old old + U F net f f' new old
  else if g = new then U F net f f' new new
  else U F net f f' old g + U F net f f' new g

variable (hK : Computes K net.n F D) (H : Mv net p v old new)
include hK H

theorem share_empty {g : ℕ} (he : block net p.inGroup g = ∅) :
    share F net p.inGroup (Function.update p.inGroup v (some new)) old new g = 0 := by
  have hgo : g ≠ old := by
    rintro rfl
    have := v_mem H.hv H.src H.ne
    rw [he] at this
    simp at this
  unfold share
  rw [if_neg hgo]
  by_cases hgn : g = new
  · subst hgn
    rw [if_pos rfl]
    unfold U
    rw [T_empty hK (f := p.inGroup) (Or.inl he), sub_zero]
    unfold T
    have h1 : pairs net (Function.update p.inGroup v (some g)) g g = 0 := by
      unfold pairs
      rw [if_pos rfl, card_new H.hv H.src H.ne, he]; simp
    have h2 : links net (Function.update p.inGroup v (some g)) g g = 0 := by
      have := links_le (f := Function.update p.inGroup v (some g)) H.simple g g
      have := links_nonneg (net := net) (f := Function.update p.inGroup v (some g)) g g
      omega
    rw [h1, h2]; exact hK.zero
  · rw [if_neg hgn]
    have : block net (Function.update p.inGroup v (some new)) g = ∅ := by
      rw [block_other H.hv H.src H.ne hgo hgn, he]
    unfold U
    rw [T_empty hK (Or.inr this), T_empty hK (Or.inr this), T_empty hK (Or.inr he), T_empty hK (Or.inr he)]
    simp

theorem groupDH_eq {G2G : ℕ → ℕ → Int} (hG : ∀ g < net.n, ∀ g' < net.n, G2G g g' = links net p.inGroup g g')
    {g : ℕ} (hg : g < net.n) :
    groupDH K net p G2G v old new g (NLinksToGroup net p v g) =
      some (share F net p.inGroup (Function.update p.inGroup v (some new)) old new g) := by
  have hv := H.hv
  have ho := H.ho
  have hne := H.ne
  have hs := H.src
  have h := H.simple
  set f := p.inGroup with hf
  set f' := Function.update f v (some new) with hf'
  have so : (p.grp old).size = (block net f old).card := size_eq H.part ho
  have sn : (p.grp new).size = (block net f new).card := size_eq H.part H.dst
  have sg : (p.grp g).size = (block net f g).card := size_eq H.part hg
  have co : ((block net f' old).card : Int) = (block net f old).card - 1 := card_old hv hs hne
  have cn : ((block net f' new).card : Int) = (block net f new).card + 1 := card_new hv hs hne
  have lm := links_move (f := f) hv hs hne h
  have dd : ∀ x, NLinksToGroup net p v x = d net f v x := fun x => nlinks_eq h p v x
  unfold groupDH share
  simp only [so, sn, sg, dd, inlinks_eq H.part h ho, inlinks_eq H.part h H.dst, ng2g_eq H.part h H.dst hne,
    hG old ho g hg, hG new H.dst g hg]
  by_cases e1 : g = old
  · rw [if_pos e1, if_pos e1]
    have t1 : K.term ((block net f old).card * ((block net f old).card - 1) / 2) (links net f old old)
        = some (T F net f old old) := by
      rw [← term_T hK h]; unfold pairs; rw [if_pos rfl]
    have t2 : K.term (((block net f old).card - 1) * ((block net f old).card - 2) / 2)
        (links net f old old - d net f v old) = some (T F net f' old old) := by
      rw [← term_T hK h, lm]
      unfold pairs
      rw [if_pos rfl, if_pos ⟨rfl, rfl⟩, co]
      congr 2
      ring
    have t3 : K.term ((block net f new).card * (block net f old).card) (links net f new old) = some (T F net f new old) := by
      rw [← term_T hK h]; unfold pairs; rw [if_neg hne]
    have t4 : K.term (((block net f new).card + 1) * ((block net f old).card - 1))
        (links net f new old + d net f v old - d net f v new) = some (T F net f' new old) := by
      rw [← term_T hK h, lm]
      unfold pairs
      rw [if_neg hne, co, cn]
      simp [hne, hne.symm]
      ring_nf
    rw [← hf, t1, t2, t3, t4]
    simp only [Option.bind_eq_bind, Option.bind_some, Option.pure_def]
    congr 1
    unfold U
    ring
  · rw [if_neg e1, if_neg e1]
    by_cases e2 : g = new
    · rw [if_pos e2, if_pos e2]
      have t1 : K.term ((block net f new).card * ((block net f new).card - 1) / 2) (links net f new new)
          = some (T F net f new new) := by
        rw [← term_T hK h]; unfold pairs; rw [if_pos rfl]
      have t2 : K.term (((block net f new).card + 1) * (block net f new).card / 2)
          (links net f new new + d net f v new) = some (T F net f' new new) := by
        rw [← term_T hK h, lm]
        unfold pairs
        rw [if_pos rfl, cn]
        simp [hne]
      rw [← hf, t1, t2]
      simp only [Option.bind_eq_bind, Option.bind_some, Option.pure_def]
      congr 1
      unfold U
      ring
    · rw [if_neg e2, if_neg e2]
      have cg : block net f' g = block net f g := block_other hv hs hne e1 e2
      have t1 : K.term ((block net f old).card * (block net f g).card) (links net f old g) = some (T F net f old g) := by
        rw [← term_T hK h]; unfold pairs; rw [if_neg (Ne.symm e1)]
      have t2 : K.term (((block net f old).card - 1) * (block net f g).card) (links net f old g - d net f v g)
          = some (T F net f' old g) := by
        rw [← term_T hK h, lm]
        unfold pairs
        rw [if_neg (Ne.symm e1), co, cg]
        simp [e1, e2, hne.symm]
        ring_nf
      have t3 : K.term ((block net f new).card * (block net f g).card) (links net f new g) = some (T F net f new g) := by
        rw [← term_T hK h]; unfold pairs; rw [if_neg (Ne.symm e2)]
      have t4 : K.term (((block net f new).card + 1) * (block net f g).card) (links net f new g + d net f v g)
          = some (T F net f' new g) := by
        rw [← term_T hK h, lm]
        unfold pairs
        rw [if_neg (Ne.symm e2), cn, cg]
        simp [e1, e2, hne]
      rw [t1, t2, t3, t4]
      simp only [Option.bind_eq_bind, Option.bind_some, Option.pure_def]
      congr 1
      unfold U
      ring

theorem scan_eq {G2G : ℕ → ℕ → Int} (hG : ∀ g < net.n, ∀ g' < net.n, G2G g g' = links net p.inGroup g g') :
    ∀ (l : List ℕ) (s : Scan), (∀ g ∈ l, g < net.n) → ∃ s',
      l.foldlM (scanGroup K net p G2G v old new) s = some s' ∧
      s'.dH = s.dH + (l.map (share F net p.inGroup (Function.update p.inGroup v (some new)) old new)).sum ∧
      s'.effectng = s.effectng + (l.map fun g => if (block net p.inGroup g).Nonempty then (1 : Int) else 0).sum ∧
      ∀ g, s'.n2g g = if g ∈ l then d net p.inGroup v g else s.n2g g
  | [], s, _ => ⟨s, rfl, by simp, by simp, by simp⟩
  | x :: l, s, hl => by
    have hx := hl x (by simp)
    have hd : NLinksToGroup net p v x = d net p.inGroup v x := nlinks_eq H.simple p v x
    have hpos := size_pos H.part hx
    have main : ∃ s1, scanGroup K net p G2G v old new s x = some s1 ∧
        s1.dH = s.dH + share F net p.inGroup (Function.update p.inGroup v (some new)) old new x ∧
        s1.effectng = s.effectng + (if (block net p.inGroup x).Nonempty then (1 : Int) else 0) ∧
        s1.n2g = Function.update s.n2g x (d net p.inGroup v x) := by
      unfold scanGroup
      by_cases h0 : 0 < (p.grp x).size
      · rw [if_pos h0]
        simp only [groupDH_eq hK H hG hx]
        refine ⟨_, rfl, rfl, ?_, ?_⟩
        · simp [hpos.1 h0]
        · simp [hd]
      · rw [if_neg h0]
        have he := not_nonempty_iff_eq_empty.1 (fun hh => h0 (hpos.2 hh))
        refine ⟨_, rfl, ?_, ?_, ?_⟩
        · rw [share_empty hK H he]; simp
        · simp [he]
        · simp [d, he]
    obtain ⟨s1, e1, a1, a2, a3⟩ := main
    obtain ⟨s', e2, b1, b2, b3⟩ := scan_eq hG l s1 (fun g hg => hl g (by simp [hg]))
    refine ⟨s', ?_, ?_, ?_, ?_⟩
    · rw [List.foldlM_cons, e1]; exact e2
    · rw [b1, a1]; simp; ring
    · rw [b2, a2]; simp; ring
    · intro g
      rw [b3, a3]
      by_cases hgl : g ∈ l
      · simp [hgl]
      · by_cases hgx : g = x
        · subst hgx; simp
        · simp [hgl, hgx]

theorem correction_eq : correction K net.n p old new (used net p.inGroup).card =
    some (Real.log (((net.n - (used net p.inGroup).card).factorial : ℕ) : ℝ) -
      Real.log (((net.n - (used net (Function.update p.inGroup v (some new))).card).factorial : ℕ) : ℝ) +
      (D (used net p.inGroup).card - D (used net (Function.update p.inGroup v (some new))).card)) := by
  have hu := H.used_move
  have so : (p.grp old).size = (block net p.inGroup old).card := size_eq H.part H.ho
  have sn : (p.grp new).size = (block net p.inGroup new).card := size_eq H.part H.dst
  have l1 := lfact_eq (used_le net p.inGroup)
  have l2 := lfact_eq (used_le net (Function.update p.inGroup v (some new)))
  unfold correction
  rw [so, sn, l1]
  by_cases c1 : (block net p.inGroup old).card = 1 <;> by_cases c2 : (block net p.inGroup new).card = 0
  · rw [if_pos c1, if_pos c2] at hu
    rw [if_neg (by omega), if_neg (by omega)]
    have : (used net (Function.update p.inGroup v (some new))).card = (used net p.inGroup).card := by omega
    rw [this]; simp
  · rw [if_pos c1, if_neg c2] at hu
    rw [if_pos (by omega), show ((used net p.inGroup).card : Int) - 1 =
      (used net (Function.update p.inGroup v (some new))).card by omega, l2, hK.deg, hK.deg]
    rfl
  · rw [if_neg c1, if_pos c2] at hu
    rw [if_neg (by omega), if_pos (by omega), show ((used net p.inGroup).card : Int) + 1 =
      (used net (Function.update p.inGroup v (some new))).card by omega, l2, hK.deg, hK.deg]
    rfl
  · rw [if_neg c1, if_neg c2] at hu
    rw [if_neg (by omega), if_neg (by omega)]
    have : (used net (Function.update p.inGroup v (some new))).card = (used net p.inGroup).card := by omega
    rw [this]; simp

/-- The contributions of all groups, the bias and the correction add up to the difference of the
energies. -/
theorem total (linC : ℝ) {slg : List ℕ} (hnd : slg.Nodup) (hlt : ∀ g ∈ slg, g < net.n)
    (hall : ∀ g < net.n, (block net p.inGroup g).Nonempty → g ∈ slg) :
    (if (p.grp old).size = 1 then -linC else 0) + (if (p.grp new).size = 0 then linC else 0) +
      (slg.map (share F net p.inGroup (Function.update p.inGroup v (some new)) old new)).sum +
      (Real.log (((net.n - (used net p.inGroup).card).factorial : ℕ) : ℝ) -
        Real.log (((net.n - (used net (Function.update p.inGroup v (some new))).card).factorial : ℕ) : ℝ) +
        (D (used net p.inGroup).card - D (used net (Function.update p.inGroup v (some new))).card)) =
      energy F D net linC (Function.update p.inGroup v (some new)) - energy F D net linC p.inGroup := by
  have so : (p.grp old).size = (block net p.inGroup old).card := size_eq H.part H.ho
  have sn : (p.grp new).size = (block net p.inGroup new).card := size_eq H.part H.dst
  rw [H.slg_sum hnd hlt hall _ (fun g hg => share_empty hK H hg)]
  have ht := tri_change (n := net.n) (U := U F net p.inGroup (Function.update p.inGroup v (some new)))
    (fun g g' => by unfold U; rw [T_symm H.simple, T_symm H.simple g]) H.ho H.dst H.ne
    (fun g g' a b c d => by unfold U; rw [T_other H.hv H.src H.ne H.simple a b c d, sub_self])
  have : ∑ g ∈ range net.n, share F net p.inGroup (Function.update p.inGroup v (some new)) old new g =
      tri net.n (T F net (Function.update p.inGroup v (some new))) - tri net.n (T F net p.inGroup) := by
    unfold share
    rw [← ht]
    unfold tri U
    simp only [sum_sub_distrib]
    ring
  rw [this]
  have hu := H.used_move
  have hu' : ((used net (Function.update p.inGroup v (some new))).card : ℝ) = (used net p.inGroup).card +
      ((if (block net p.inGroup old).card = 1 then -1 else 0) + (if (block net p.inGroup new).card = 0 then 1 else 0)) := by
    have := congrArg (fun z : Int => (z : ℝ)) hu
    simpa using this
  have hlin : (if (p.grp old).size = 1 then -linC else 0) + (if (p.grp new).size = 0 then linC else 0) =
      linC * (used net (Function.update p.inGroup v (some new))).card - linC * (used net p.inGroup).card := by
    rw [hu', so, sn]
    simp only [Nat.cast_eq_one, Nat.cast_eq_zero]
    split_ifs <;> ring
  rw [hlin]
  unfold energy tri
  ring

theorem deltaH_full (linC : ℝ) {G2G : ℕ → ℕ → Int} {n2g : ℕ → Int} {slg : List ℕ}
    (hG : ∀ g < net.n, ∀ g' < net.n, G2G g g' = links net p.inGroup g g')
    (hnd : slg.Nodup) (hlt : ∀ g ∈ slg, g < net.n)
    (hall : ∀ g < net.n, (block net p.inGroup g).Nonempty → g ∈ slg) :
    ∃ s, deltaH K net linC p G2G n2g slg v old new = some s ∧
      s.dH = energy F D net linC (Function.update p.inGroup v (some new)) - energy F D net linC p.inGroup ∧
      (∀ g, s.n2g g = if g ∈ slg then d net p.inGroup v g else n2g g) ∧ s.effectng = (used net p.inGroup).card := by
  unfold deltaH
  obtain ⟨s, e1, h1, h2, h3⟩ := scan_eq hK H hG slg (Scan.mk ((if (p.grp old).size = 1 then -linC else 0) +
    (if (p.grp new).size = 0 then linC else 0)) 0 n2g) hlt
  dsimp only at h1 h2 h3 ⊢
  rw [e1]
  simp only [Option.bind_eq_bind, Option.bind_some, Option.pure_def]
  have heff : s.effectng = (used net p.inGroup).card := by
    rw [h2, zero_add, H.slg_sum hnd hlt hall, Mv.used_card]
    intro g hg; simp [hg]
  rw [heff, correction_eq hK H]
  simp only [Option.bind_some]
  refine ⟨_, rfl, ?_, h3, rfl⟩
  dsimp only
  rw [h1, total hK H linC hnd hlt hall]

/-- The computed change is the difference of the energies, and `n2gList` ends up right. -/
theorem deltaH_eq (linC : ℝ) {G2G : ℕ → ℕ → Int} {n2g : ℕ → Int} {slg : List ℕ}
    (hG : ∀ g < net.n, ∀ g' < net.n, G2G g g' = links net p.inGroup g g')
    (hnd : slg.Nodup) (hlt : ∀ g ∈ slg, g < net.n)
    (hall : ∀ g < net.n, (block net p.inGroup g).Nonempty → g ∈ slg) :
    ∃ s, deltaH K net linC p G2G n2g slg v old new = some s ∧
      s.dH = energy F D net linC (Function.update p.inGroup v (some new)) - energy F D net linC p.inGroup ∧
      ∀ g, s.n2g g = if g ∈ slg then d net p.inGroup v g else n2g g := by
  obtain ⟨s, h1, h2, h3, _⟩ := deltaH_full hK H linC (n2g := n2g) hG hnd hlt hall
  exact ⟨s, h1, h2, h3⟩

end BK
