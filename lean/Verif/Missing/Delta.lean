import Verif.Missing.Update

/-! # The energy change of a move -/

set_option linter.unusedSimpArgs false

namespace LS

open GP RG Finset

variable {net : Net} {p : Part} {v old new : ℕ}

/-- Change of the term of a pair of groups. -/
noncomputable def U (net : Net) (f f' : ℕ → Option ℕ) (g g' : ℕ) : ℝ := T net f' g g' - T net f g g'

/-- Share of group `g` in the energy change. -/
noncomputable def share (net : Net) (f f' : ℕ → Option ℕ) (old new g : ℕ) : ℝ :=
  if g = old then U net f f' old old + U net f f' new old
  else if g = new then U net f f' new new
  else U net f f' old g + U net f f' new g

/-- Hypotheses of a move. -/
structure Mv (net : Net) (p : Part) (v old new : ℕ) : Prop where
  simple : net.Simple
  part : PartOK net net.n p
  full : Full net p
  src : p.inGroup v = some old
  dst : new < net.n
  ne : new ≠ old

namespace Mv

variable (H : Mv net p v old new)
include H

theorem hv : v < net.n := (H.part.range v old H.src).1
theorem ho : old < net.n := (H.part.range v old H.src).2

theorem share_empty {g : ℕ} (he : block net p.inGroup g = ∅) :
    share net p.inGroup (Function.update p.inGroup v (some new)) old new g = 0 := by
  have hgo : g ≠ old := by
    rintro rfl
    have := v_mem H.hv H.src H.ne
    rw [he] at this
    simp at this
  unfold share
  rw [if_neg hgo]
  by_cases hgn : g = new
  · subst hgn
    rw [if_pos rfl]
    unfold U
    rw [T_empty (f := p.inGroup) (Or.inl he), sub_zero]
    unfold T
    have h1 : pairs net (Function.update p.inGroup v (some g)) g g = 0 := by
      unfold pairs
      rw [if_pos rfl, card_new H.hv H.src H.ne, he]; simp
    have h2 : links net (Function.update p.inGroup v (some g)) g g = 0 := by
      have := links_le (f := Function.update p.inGroup v (some g)) H.simple g g
      have := links_nonneg (net := net) (f := Function.update p.inGroup v (some g)) g g
      omega
    rw [h1, h2]; simp
  · rw [if_neg hgn]
    have : block net (Function.update p.inGroup v (some new)) g = ∅ := by
      rw [block_other H.hv H.src H.ne hgo hgn, he]
    unfold U
    rw [T_empty (Or.inr this), T_empty (Or.inr this), T_empty (Or.inr he), T_empty (Or.inr he)]
    simp

theorem groupDH_eq {G2G : ℕ → ℕ → Int} (hG : ∀ g < net.n, ∀ g' < net.n, G2G g g' = links net p.inGroup g g')
    {g : ℕ} (hg : g < net.n) :
    groupDH net p G2G v old new g (NLinksToGroup net p v g) =
      some (share net p.inGroup (Function.update p.inGroup v (some new)) old new g) := by
  have hv := H.hv
  have ho := H.ho
  have hne := H.ne
  have hs := H.src
  have h := H.simple
  set f := p.inGroup with hf
  set f' := Function.update f v (some new) with hf'
  have so : (p.grp old).size = (block net f old).card := size_eq H.part ho
  have sn : (p.grp new).size = (block net f new).card := size_eq H.part H.dst
  have sg : (p.grp g).size = (block net f g).card := size_eq H.part hg
  have co : ((block net f' old).card : Int) = (block net f old).card - 1 := card_old hv hs hne
  have cn : ((block net f' new).card : Int) = (block net f new).card + 1 := card_new hv hs hne
  have lm := links_move (f := f) hv hs hne h
  have dd : ∀ x, NLinksToGroup net p v x = d net f v x := fun x => nlinks_eq h p v x
  unfold groupDH share
  simp only [so, sn, sg, dd, inlinks_eq H.part h ho, inlinks_eq H.part h H.dst, ng2g_eq H.part h H.dst hne,
    hG old ho g hg, hG new H.dst g hg]
  by_cases e1 : g = old
  · rw [if_pos e1, if_pos e1]
    have t1 : lterm ((block net f old).card * ((block net f old).card - 1) / 2) (links net f old old)
        = some (T net f old old) := by
      rw [← lterm_T h]; unfold pairs; rw [if_pos rfl]
    have t2 : lterm (((block net f old).card - 1) * ((block net f old).card - 2) / 2)
        (links net f old old - d net f v old) = some (T net f' old old) := by
      rw [← lterm_T h, lm]
      unfold pairs
      rw [if_pos rfl, if_pos ⟨rfl, rfl⟩, co]
      congr 2
      ring
    have t3 : lterm ((block net f new).card * (block net f old).card) (links net f new old) = some (T net f new old) := by
      rw [← lterm_T h]; unfold pairs; rw [if_neg hne]
    have t4 : lterm (((block net f new).card + 1) * ((block net f old).card - 1))
        (links net f new old + d net f v old - d net f v new) = some (T net f' new old) := by
      rw [← lterm_T h, lm]
      unfold pairs
      rw [if_neg hne, co, cn]
      simp [hne, hne.symm]
      ring_nf
    rw [← hf, t1, t2, t3, t4]
    simp only [Option.bind_eq_bind, Option.bind_some, Option.pure_def]
    congr 1
    unfold U
    ring
  · rw [if_neg e1, if_neg e1]
    by_cases e2 : g = new
    · rw [if_pos e2, if_pos e2]
      have t1 : lterm ((block net f new).card * ((block net f new).card - 1) / 2) (links net f new new)
          = some (T net f new new) := by
        rw [← lterm_T h]; unfold pairs; rw [if_pos rfl]
      have t2 : lterm (((block net f new).card + 1) * (block net f new).card / 2)
          (links net f new new + d net f v new) = some (T net f' new new) := by
        rw [← lterm_T h, lm]
        unfold pairs
        rw [if_pos rfl, cn]
        simp [hne]
      rw [← hf, t1, t2]
      simp only [Option.bind_eq_bind, Option.bind_some, Option.pure_def]
      congr 1
      unfold U
      ring
    · rw [if_neg e2, if_neg e2]
      have cg : block net f' g = block net f g := block_other hv hs hne e1 e2
      have t1 : lterm ((block net f old).card * (block net f g).card) (links net f old g) = some (T net f old g) := by
        rw [← lterm_T h]; unfold pairs; rw [if_neg (Ne.symm e1)]
      have t2 : lterm (((block net f old).card - 1) * (block net f g).card) (links net f old g - d net f v g)
          = some (T net f' old g) := by
        rw [← lterm_T h, lm]
        unfold pairs
        rw [if_neg (Ne.symm e1), co, cg]
        simp [e1, e2, hne.symm]
        ring_nf
      have t3 : lterm ((block net f new).card * (block net f g).card) (links net f new g) = some (T net f new g) := by
        rw [← lterm_T h]; unfold pairs; rw [if_neg (Ne.symm e2)]
      have t4 : lterm (((block net f new).card + 1) * (block net f g).card) (links net f new g + d net f v g)
          = some (T net f' new g) := by
        rw [← lterm_T h, lm]
        unfold pairs
        rw [if_neg (Ne.symm e2), cn, cg]
        simp [e1, e2, hne]
      rw [t1, t2, t3, t4]
      simp only [Option.bind_eq_bind, Option.bind_some, Option.pure_def]
      congr 1
      unfold U
      ring

theorem scan_eq {G2G : ℕ → ℕ → Int} (hG : ∀ g < net.n, ∀ g' < net.n, G2G g g' = links net p.inGroup g g') :
    ∀ (l : List ℕ) (s : Scan), (∀ g ∈ l, g < net.n) → ∃ s',
      l.foldlM (scanGroup net p G2G v old new) s = some s' ∧
      s'.dH = s.dH + (l.map (share net p.inGroup (Function.update p.inGroup v (some new)) old new)).sum ∧
      s'.effectng = s.effectng + (l.map fun g => if (block net p.inGroup g).Nonempty then (1 : Int) else 0).sum ∧
      ∀ g, s'.n2g g = if g ∈ l then d net p.inGroup v g else s.n2g g
  | [], s, _ => ⟨s, rfl, by simp, by simp, by simp⟩
  | x :: l, s, hl => by
    have hx := hl x (by simp)
    have hd : NLinksToGroup net p v x = d net p.inGroup v x := nlinks_eq H.simple p v x
    have hpos := size_pos H.part hx
    have main : ∃ s1, scanGroup net p G2G v old new s x = some s1 ∧
        s1.dH = s.dH + share net p.inGroup (Function.update p.inGroup v (some new)) old new x ∧
        s1.effectng = s.effectng + (if (block net p.inGroup x).Nonempty then (1 : Int) else 0) ∧
        s1.n2g = Function.update s.n2g x (d net p.inGroup v x) := by
      unfold scanGroup
      by_cases h0 : 0 < (p.grp x).size
      · rw [if_pos h0]
        simp only [H.groupDH_eq hG hx]
        refine ⟨_, rfl, rfl, ?_, ?_⟩
        · simp [hpos.1 h0]
        · simp [hd]
      · rw [if_neg h0]
        have he := not_nonempty_iff_eq_empty.1 (fun hh => h0 (hpos.2 hh))
        refine ⟨_, rfl, ?_, ?_, ?_⟩
        · rw [H.share_empty he]; simp
        · simp [he]
        · simp [d, he]
    obtain ⟨s1, e1, a1, a2, a3⟩ := main
    obtain ⟨s', e2, b1, b2, b3⟩ := scan_eq hG l s1 (fun g hg => hl g (by simp [hg]))
    refine ⟨s', ?_, ?_, ?_, ?_⟩
    · rw [List.foldlM_cons, e1]; exact e2
    · rw [b1, a1]; simp; ring
    · rw [b2, a2]; simp; ring
    · intro g
      rw [b3, a3]
      by_cases hgl : g ∈ l
      · simp [hgl]
      · by_cases hgx : g = x
        · subst hgx; simp
        · simp [hgl, hgx]

omit H in
theorem used_card (net : Net) (f : ℕ → Option ℕ) :
    ((used net f).card : Int) = ∑ g ∈ range net.n, if (block net f g).Nonempty then (1 : Int) else 0 := by
  unfold used
  rw [card_filter]
  push_cast
  rfl

theorem used_move : ((used net (Function.update p.inGroup v (some new))).card : Int) =
    (used net p.inGroup).card + ((if (block net p.inGroup old).card = 1 then -1 else 0) +
      (if (block net p.inGroup new).card = 0 then 1 else 0)) := by
  have hv := H.hv
  have hs := H.src
  have hne := H.ne
  rw [used_card, used_card]
  set f := p.inGroup
  set f' := Function.update f v (some new)
  have key : ∑ g ∈ range net.n, ((if (block net f' g).Nonempty then (1 : Int) else 0) -
      (if (block net f g).Nonempty then (1 : Int) else 0)) =
      ((if (block net f' old).Nonempty then (1 : Int) else 0) - (if (block net f old).Nonempty then (1 : Int) else 0)) +
      ((if (block net f' new).Nonempty then (1 : Int) else 0) - (if (block net f new).Nonempty then (1 : Int) else 0)) := by
    apply sum_eq_add_of_mem old new (mem_range.2 H.ho) (mem_range.2 H.dst) hne.symm
    intro g _ hg
    rw [block_other hv hs hne hg.1 hg.2]; simp
  rw [sum_sub_distrib] at key
  have co : ((block net f' old).card : Int) = (block net f old).card - 1 := card_old hv hs hne
  have cn : ((block net f' new).card : Int) = (block net f new).card + 1 := card_new hv hs hne
  have p1 : 0 < (block net f old).card := card_pos.2 ⟨v, v_mem hv hs hne⟩
  simp only [← card_pos] at key ⊢
  have k1 : (if 0 < (block net f' old).card then (1 : Int) else 0) - (if 0 < (block net f old).card then (1 : Int) else 0)
      = if (block net f old).card = 1 then -1 else 0 := by
    split_ifs <;> omega
  have k2 : (if 0 < (block net f' new).card then (1 : Int) else 0) - (if 0 < (block net f new).card then (1 : Int) else 0)
      = if (block net f new).card = 0 then 1 else 0 := by
    split_ifs <;> omega
  rw [k1, k2] at key
  linarith

theorem correction_eq : correction net.n p old new (used net p.inGroup).card =
    some (Real.log (((net.n - (used net p.inGroup).card).factorial : ℕ) : ℝ) -
      Real.log (((net.n - (used net (Function.update p.inGroup v (some new))).card).factorial : ℕ) : ℝ)) := by
  have hu := H.used_move
  have so : (p.grp old).size = (block net p.inGroup old).card := size_eq H.part H.ho
  have sn : (p.grp new).size = (block net p.inGroup new).card := size_eq H.part H.dst
  have l1 := lfact_eq (used_le net p.inGroup)
  have l2 := lfact_eq (used_le net (Function.update p.inGroup v (some new)))
  unfold correction
  rw [so, sn, l1]
  by_cases c1 : (block net p.inGroup old).card = 1 <;> by_cases c2 : (block net p.inGroup new).card = 0
  · rw [if_pos c1, if_pos c2] at hu
    rw [if_neg (by omega), if_neg (by omega)]
    have : (used net (Function.update p.inGroup v (some new))).card = (used net p.inGroup).card := by omega
    rw [this]; simp
  · rw [if_pos c1, if_neg c2] at hu
    rw [if_pos (by omega), show ((used net p.inGroup).card : Int) - 1 =
      (used net (Function.update p.inGroup v (some new))).card by omega, l2]
    rfl
  · rw [if_neg c1, if_pos c2] at hu
    rw [if_neg (by omega), if_pos (by omega), show ((used net p.inGroup).card : Int) + 1 =
      (used net (Function.update p.inGroup v (some new))).card by omega, l2]
    rfl
  · rw [if_neg c1, if_neg c2] at hu
    rw [if_neg (by omega), if_neg (by omega)]
    have : (used net (Function.update p.inGroup v (some new))).card = (used net p.inGroup).card := by omega
    rw [this]; simp

theorem slg_sum {R : Type} [AddCommMonoid R] {slg : List ℕ} (hnd : slg.Nodup) (hlt : ∀ g ∈ slg, g < net.n)
    (hall : ∀ g < net.n, (block net p.inGroup g).Nonempty → g ∈ slg) (c : ℕ → R)
    (hc : ∀ g, block net p.inGroup g = ∅ → c g = 0) :
    (slg.map c).sum = ∑ g ∈ range net.n, c g := by
  rw [← List.sum_toFinset _ hnd]
  apply sum_subset
  · intro g hg
    exact mem_range.2 (hlt g (List.mem_toFinset.1 hg))
  · intro g hg hg'
    apply hc
    by_contra hh
    exact hg' (List.mem_toFinset.2 (hall g (mem_range.1 hg) (nonempty_iff_ne_empty.2 hh)))

/-- The contributions of all groups, the bias and the correction add up to the difference of the
energies. -/
theorem total (linC : ℝ) {slg : List ℕ} (hnd : slg.Nodup) (hlt : ∀ g ∈ slg, g < net.n)
    (hall : ∀ g < net.n, (block net p.inGroup g).Nonempty → g ∈ slg) :
    (if (p.grp old).size = 1 then -linC else 0) + (if (p.grp new).size = 0 then linC else 0) +
      (slg.map (share net p.inGroup (Function.update p.inGroup v (some new)) old new)).sum +
      (Real.log (((net.n - (used net p.inGroup).card).factorial : ℕ) : ℝ) -
        Real.log (((net.n - (used net (Function.update p.inGroup v (some new))).card).factorial : ℕ) : ℝ)) =
      energy net linC (Function.update p.inGroup v (some new)) - energy net linC p.inGroup := by
  have so : (p.grp old).size = (block net p.inGroup old).card := size_eq H.part H.ho
  have sn : (p.grp new).size = (block net p.inGroup new).card := size_eq H.part H.dst
  rw [H.slg_sum hnd hlt hall _ (fun g hg => H.share_empty hg)]
  have ht := tri_change (n := net.n) (U := U net p.inGroup (Function.update p.inGroup v (some new)))
    (fun g g' => by unfold U; rw [T_symm H.simple, T_symm H.simple g]) H.ho H.dst H.ne
    (fun g g' a b c d => by unfold U; rw [T_other H.hv H.src H.ne H.simple a b c d, sub_self])
  have : ∑ g ∈ range net.n, share net p.inGroup (Function.update p.inGroup v (some new)) old new g =
      tri net.n (T net (Function.update p.inGroup v (some new))) - tri net.n (T net p.inGroup) := by
    unfold share
    rw [← ht]
    unfold tri U
    simp only [sum_sub_distrib]
    ring
  rw [this]
  have hu := H.used_move
  have hu' : ((used net (Function.update p.inGroup v (some new))).card : ℝ) = (used net p.inGroup).card +
      ((if (block net p.inGroup old).card = 1 then -1 else 0) + (if (block net p.inGroup new).card = 0 then 1 else 0)) := by
    have := congrArg (fun z : Int => (z : ℝ)) hu
    simpa using this
  have hlin : (if (p.grp old).size = 1 then -linC else 0) + (if (p.grp new).size = 0 then linC else 0) =
      linC * (used net (Function.update p.inGroup v (some new))).card - linC * (used net p.inGroup).card := by
    rw [hu', so, sn]
    simp only [Nat.cast_eq_one, Nat.cast_eq_zero]
    split_ifs <;> ring
  rw [hlin]
  unfold energy tri
  ring

theorem deltaH_full (linC : ℝ) {G2G : ℕ → ℕ → Int} {n2g : ℕ → Int} {slg : List ℕ}
    (hG : ∀ g < net.n, ∀ g' < net.n, G2G g g' = links net p.inGroup g g')
    (hnd : slg.Nodup) (hlt : ∀ g ∈ slg, g < net.n)
    (hall : ∀ g < net.n, (block net p.inGroup g).Nonempty → g ∈ slg) :
    ∃ s, deltaH net linC p G2G n2g slg v old new = some s ∧
      s.dH = energy net linC (Function.update p.inGroup v (some new)) - energy net linC p.inGroup ∧
      (∀ g, s.n2g g = if g ∈ slg then d net p.inGroup v g else n2g g) ∧ s.effectng = (used net p.inGroup).card := by
  unfold deltaH
  obtain ⟨s, e1, h1, h2, h3⟩ := H.scan_eq hG slg (Scan.mk ((if (p.grp old).size = 1 then -linC else 0) +
    (if (p.grp new).size = 0 then linC else 0)) 0 n2g) hlt
  dsimp only at h1 h2 h3 ⊢
  rw [e1]
  simp only [Option.bind_eq_bind, Option.bind_some, Option.pure_def]
  have heff : s.effectng = (used net p.inGroup).card := by
    rw [h2, zero_add, H.slg_sum hnd hlt hall, used_card]
    intro g hg; simp [hg]
  rw [heff, H.correction_eq]
  simp only [Option.bind_some]
  refine ⟨_, rfl, ?_, h3, rfl⟩
  dsimp only
  rw [h1, H.total linC hnd hlt hall]

/-- The computed change is the difference of the energies, and `n2gList` ends up right. -/
theorem deltaH_eq (linC : ℝ) {G2G : ℕ → ℕ → Int} {n2g : ℕ → Int} {slg : List ℕ}
    (hG : ∀ g < net.n, ∀ g' < net.n, G2G g g' = links net p.inGroup g g')
    (hnd : slg.Nodup) (hlt : ∀ g ∈ slg, g < net.n)
    (hall : ∀ g < net.n, (block net p.inGroup g).Nonempty → g ∈ slg) :
    ∃ s, deltaH net linC p G2G n2g slg v old new = some s ∧
      s.dH = energy net linC (Function.update p.inGroup v (some new)) - energy net linC p.inGroup ∧
      ∀ g, s.n2g g = if g ∈ slg then d net p.inGroup v g else n2g g := by
  obtain ⟨s, h1, h2, h3, _⟩ := H.deltaH_full linC (n2g := n2g) hG hnd hlt hall
  exact ⟨s, h1, h2, h3⟩

end Mv

end LS
