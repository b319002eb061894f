import Verif.Block.SparseModel
import Verif.Block.Score

/-! # The sparse sampler is the checked sampler with normalised terms

`Shift Kr K f0`: the terms of `Kr` are those of `K` plus a constant. The constant cancels in every energy change, and
the terms of empty groups vanish. -/

set_option linter.unusedSimpArgs false

namespace BK

open GP hiding St
open RG LS Finset

variable {net : Net} {Kr K : Kern} {f0 : ℝ} {F : Int → Int → ℝ} {D : ℕ → ℝ} {c : ℝ}

/-- `Kr` differs from `K` by a constant in each term. -/
structure Shift (Kr K : Kern) (f0 : ℝ) : Prop where
  term : ∀ r l, Kr.term r l = (K.term r l).map (· + f0)
  deg : Kr.deg = K.deg
  score : Kr.score = K.score

theorem shift4 {a b c d : Option ℝ} (f0 : ℝ) : (do
    let a ← a.map (· + f0)
    let b ← b.map (· + f0)
    let c ← c.map (· + f0)
    let d ← d.map (· + f0)
    return (-a) + b - c + d : Option ℝ) = (do
    let a ← a
    let b ← b
    let c ← c
    let d ← d
    return (-a) + b - c + d) := by
  cases a <;> cases b <;> cases c <;> cases d <;>
    simp only [Option.map_none, Option.map_some, Option.bind_eq_bind, Option.bind_none, Option.bind_some, Option.pure_def]
  congr 1
  ring

theorem shift2 {a b : Option ℝ} (f0 : ℝ) : (do
    let a ← a.map (· + f0)
    let b ← b.map (· + f0)
    return (-a) + b : Option ℝ) = (do
    let a ← a
    let b ← b
    return (-a) + b) := by
  cases a <;> cases b <;>
    simp only [Option.map_none, Option.map_some, Option.bind_eq_bind, Option.bind_none, Option.bind_some, Option.pure_def]
  congr 1
  ring

theorem groupDH_shift (hS : Shift Kr K f0) (p : Part) (G2G : ℕ → ℕ → Int) (v old new g : ℕ) (k : Int) :
    groupDH Kr net p G2G v old new g k = groupDH K net p G2G v old new g k := by
  unfold groupDH
  simp only [hS.term, shift4, shift2]

theorem correction_shift (hS : Shift Kr K f0) (n : ℕ) (p : Part) (old new : ℕ) (e : Int) :
    correction Kr n p old new e = correction K n p old new e := by
  unfold correction
  rw [hS.deg]

theorem foldlM_congr' {α β : Type} {f g : β → α → Option β} : ∀ (l : List α) (b : β),
    (∀ x ∈ l, ∀ b, f b x = g b x) → l.foldlM f b = l.foldlM g b
  | [], _, _ => rfl
  | x :: l, b, h => by
    rw [List.foldlM_cons, List.foldlM_cons, h x (by simp)]
    congr 1
    funext y
    exact foldlM_congr' l y (fun z hz => h z (by simp [hz]))

section
variable (hK : Computes K net.n F D) (hS : Shift Kr K f0)
include hK hS

theorem sparseScan_eq {p : Part} {v old new : ℕ} (H : Mv net p v old new) {G2G : ℕ → ℕ → Int}
    (hG : ∀ g < net.n, ∀ g' < net.n, G2G g g' = links net p.inGroup g g') {g : ℕ} (hg : g < net.n) (s : Scan) :
    sparseScan Kr net p G2G v old new s g = scanGroup K net p G2G v old new s g := by
  unfold sparseScan scanGroup
  dsimp only
  rw [groupDH_shift hS]
  by_cases h0 : 0 < (p.grp g).size
  · rw [if_pos h0, if_pos h0]
  · rw [if_neg h0, if_neg h0]
    have he := not_nonempty_iff_eq_empty.1 (fun hh => h0 ((size_pos H.part hg).2 hh))
    have hd : NLinksToGroup net p v g = 0 := by rw [nlinks_eq H.simple, he]; simp
    rw [groupDH_eq hK H hG hg, share_empty hK H he, hd]
    simp

theorem sparseDelta_eq {p : Part} {v old new : ℕ} (H : Mv net p v old new) {G2G : ℕ → ℕ → Int}
    (hG : ∀ g < net.n, ∀ g' < net.n, G2G g g' = links net p.inGroup g g') {slg : List ℕ} (hlt : ∀ g ∈ slg, g < net.n)
    (n2g : ℕ → Int) : sparseDelta Kr net p G2G n2g slg v old new = deltaH K net 0 p G2G n2g slg v old new := by
  unfold sparseDelta deltaH
  rw [foldlM_congr' slg _ (fun g hg s => sparseScan_eq hK hS H hG (hlt g hg) s)]
  simp only [correction_shift hS, neg_zero, ite_self, add_zero]

section
variable {p : Part} {G2G : ℕ → ℕ → Int} {slg : List ℕ} {v old : ℕ} (C : Ctx net p G2G slg v old)
include C

theorem sparseDest_eq {new : ℕ} (hn : new < net.n) (s : GScan) :
    sparseDest Kr net p G2G slg v old s new = gibbsDest K net 0 p G2G slg v old s new := by
  unfold sparseDest gibbsDest
  by_cases e : new = old
  · rw [if_pos e, if_pos e]
  · rw [if_neg e, if_neg e, sparseDelta_eq hK hS (C.mv hn e) C.counts C.lt]

theorem sparseEmptyTerm_eq {n2g : ℕ → Int} (hn : ∀ g ∈ slg, n2g g = d net p.inGroup v g) {g : ℕ} (hg : g ∈ slg) :
    sparseEmptyTerm Kr p G2G old C.R n2g g = emptyTerm K p G2G old C.R n2g g := by
  unfold sparseEmptyTerm emptyTerm
  simp only [hS.term, shift4]
  by_cases h0 : 0 < (p.grp g).size
  · rw [if_pos h0]
  · rw [if_neg h0]
    have hgn := C.lt g hg
    have he := not_nonempty_iff_eq_empty.1 (fun hh => h0 ((size_pos C.part hgn).2 hh))
    have hgo : g ≠ old := by
      rintro rfl
      have := C.v_mem
      rw [he] at this
      simp at this
    have h1 : (p.grp g).size = 0 := by rw [size_eq C.part hgn, he]; simp
    have h2 : G2G old g = 0 := by
      rw [C.counts old C.ho g hgn]
      unfold links
      rw [he]; simp
    have h3 : n2g g = 0 := by rw [hn g hg]; simp [d, he]
    rw [if_neg hgo]
    simp only [h1, h2, h3]
    have := hK.term 0 0 (le_refl _) (le_refl _) (by
      have := C.ho
      exact mul_nonneg (by omega) (by omega))
    simp [this, hK.zero]

theorem sparseEmptyDH_eq {n2g : ℕ → Int} (hn : ∀ g ∈ slg, n2g g = d net p.inGroup v g) :
    sparseEmptyDH Kr net.n p G2G slg old n2g (some C.R) = emptyDH K net.n 0 p G2G slg old n2g (some C.R) := by
  unfold sparseEmptyDH emptyDH
  simp only [Option.bind_eq_bind, Option.bind_some]
  rw [foldlM_congr' slg _ (g := fun x g => (emptyTerm K p G2G old C.R n2g g).bind fun y => some (x + y))
    (fun g hg s => by rw [sparseEmptyTerm_eq hK hS C hn hg])]
  unfold emptyCorrection
  simp only [hS.deg, neg_zero, ite_self, add_zero]

end

/-- State inside a call. -/
structure SInv (F : Int → Int → ℝ) (D : ℕ → ℝ) (net : Net) (c : ℝ) (s : GSt) : Prop where
  exact_ : Exact F D net 0 c s.st
  listed : Listed net s.st
  two : 2 ≤ s.st.slg.length ∨ s.regs = none

theorem sparseNode_eq (h : net.Simple) {s : GSt} (hs : SInv F D net c s) {v : ℕ} (hv : v < net.n) :
    sparseNode Kr net s v = gibbsNode K net 0 s v := by
  obtain ⟨hE, hL, h2⟩ := hs
  obtain ⟨old, hold⟩ := Option.ne_none_iff_exists'.1 (hE.full v hv)
  have C : Ctx net s.st.part s.st.G2G s.st.slg v old := ⟨h, hE.part, hE.full, hold, hE.counts, hL.nodup, hL.lt, hL.all⟩
  unfold sparseNode gibbsNode
  rw [hold]
  dsimp only
  rw [foldlM_congr' s.st.slg _ (fun g hg s => sparseDest_eq hK hS C (hL.lt g hg) s)]
  obtain ⟨sc, e1, _, _, a3, a4⟩ := dest_eq hK C 0 s.st.slg (GScan.mk s.st.n2g s.dH 0 s.regs) hL.lt
  rw [e1]
  simp only [Res.ofOption_some, Res.bind_ok]
  have : sparseEmptyDH Kr net.n s.st.part s.st.G2G s.st.slg old sc.n2g sc.regs =
      emptyDH K net.n 0 s.st.part s.st.G2G s.st.slg old sc.n2g sc.regs := by
    by_cases hex : ∃ g ∈ s.st.slg, g ≠ old
    · have hset := a3 (Or.inr hex)
      rw [hset.1]
      exact sparseEmptyDH_eq hK hS C hset.2
    · push Not at hex
      have hr : s.regs = none := by
        rcases h2 with h2 | h2
        · obtain ⟨g, hg, hne⟩ := exists_other hL.nodup h2 old
          exact absurd (hex g hg) hne
        · exact h2
      rw [a4 hex]
      dsimp only
      rw [hr]
      rfl
  rw [this]

omit hS in
theorem gibbsNode_sinv (h : net.Simple) {s : GSt} (hs : SInv F D net c s) {v : ℕ} (hv : v < net.n) :
    Safe (SInv F D net c) (gibbsNode K net 0 s v) := by
  by_cases h2 : 2 ≤ s.st.slg.length
  · have := gibbsNode_safe hK h (linC := 0) (c := c) (s := s) ⟨hs.exact_, hs.listed, h2⟩ hv
    cases hr : gibbsNode K net 0 s v with
    | ok s' => rw [hr] at this; exact ⟨this.exact_, this.listed, Or.inl this.two⟩
    | starved => trivial
    | ub => trivial
  · obtain ⟨hE, hL, h3⟩ := hs
    have hr : s.regs = none := h3.resolve_left h2
    obtain ⟨old, hold⟩ := Option.ne_none_iff_exists'.1 (hE.full v hv)
    have C : Ctx net s.st.part s.st.G2G s.st.slg v old := ⟨h, hE.part, hE.full, hold, hE.counts, hL.nodup, hL.lt, hL.all⟩
    obtain ⟨sc, e1, _, _, a3, a4⟩ := dest_eq hK C 0 s.st.slg (GScan.mk s.st.n2g s.dH 0 s.regs) hL.lt
    have hall : ∀ g ∈ s.st.slg, g = old := by
      have ho := C.old_mem
      have hlen : s.st.slg.length = 1 := by
        have := List.length_pos_of_mem ho
        omega
      obtain ⟨g0, hg0⟩ := List.length_eq_one_iff.1 hlen
      rw [hg0, List.mem_singleton] at ho
      rw [hg0]; simp [ho]
    unfold gibbsNode
    rw [hold]
    dsimp only
    rw [e1]
    simp only [Res.ofOption_some, Res.bind_ok, a4 hall, hr]
    trivial

theorem sparseNodes_eq (h : net.Simple) : ∀ (vs : List ℕ) (s : GSt), SInv F D net c s → (∀ v ∈ vs, v < net.n) →
    sparseNodes Kr net vs s = gibbsNodes K net 0 vs s
  | [], _, _, _ => rfl
  | v :: vs, s, hs, hv => by
    unfold sparseNodes gibbsNodes
    rw [sparseNode_eq hK hS h hs (hv v (by simp))]
    have := gibbsNode_sinv hK h hs (hv v (by simp))
    cases hr : gibbsNode K net 0 s v with
    | ok s' =>
      rw [hr] at this
      exact sparseNodes_eq h vs s' this (fun w hw => hv w (by simp [hw]))
    | starved => rfl
    | ub => rfl

/-- A call of the sparse sampler is a call of the checked one. -/
theorem sparseStep_eq (h : net.Simple) {s : St} (hs : Exact F D net 0 c s) :
    SparseGibbsLinkScoreStep Kr net s = GibbsLinkScoreStep K net 0 s := by
  unfold SparseGibbsLinkScoreStep GibbsLinkScoreStep
  rw [sparseNodes_eq hK hS h (c := c)]
  · refine ⟨⟨hs.part, hs.full, hs.counts, hs.energy⟩, ⟨List.nodup_range.filter _, ?_, ?_⟩, Or.inr rfl⟩
    · intro g hg; exact ((startList_mem hs).1 hg).1
    · intro g hg hne; exact (startList_mem hs).2 ⟨hg, hne⟩
  · exact fun v hv => List.mem_range.1 hv

theorem sparseSteps_safe (h : net.Simple) : ∀ (k : ℕ) (s : St), Exact F D net 0 c s →
    Safe (Exact F D net 0 c) (sparseSteps Kr net k s)
  | 0, _, hs => hs
  | k + 1, s, hs => by
    unfold sparseSteps
    rw [sparseStep_eq hK hS h hs]
    exact (step_safe hK h hs).bind fun s' hs' => sparseSteps_safe h k s' hs'

/-- The energy function, up to the constant of all pairs of groups. -/
theorem sparsePartitionH_eq (hD : ∀ k, D k = 0) (h : net.Simple) {p : Part} (hp : PartOK net net.n p) (hf : Full net p) :
    SparsePartitionH Kr net net.n p =
      some (energy F D net 0 p.inGroup + ((net.n * (net.n + 1) / 2 : ℕ) : ℝ) * f0) := by
  have hT : ∀ g < net.n, ∀ g' < net.n, Kr.term (pairs net p.inGroup g g') (links net p.inGroup g g') =
      some (T F net p.inGroup g g' + f0) := by
    intro g _ g' _
    rw [hS.term, term_T hK h]
    rfl
  have hnn : (List.range net.n).foldl (fun s g => s + (p.grp g).size) (0 : Int) = net.n := by
    rw [← nnod_eq hp hf]
    have : ∀ (l : List ℕ) (s : Int), (∀ g ∈ l, g < net.n) → l.foldl (fun s g => s + (p.grp g).size) s =
        l.foldl (fun s g => if 0 < (p.grp g).size then s + (p.grp g).size else s) s := by
      intro l
      induction l with
      | nil => intro s _; rfl
      | cons g l ih =>
        intro s hl
        rw [List.foldl_cons, List.foldl_cons, ih _ (fun g hg => hl g (by simp [hg]))]
        congr 1
        have := size_eq hp (hl g (by simp))
        split_ifs with h0
        · rfl
        · omega
    exact this _ _ (fun g hg => List.mem_range.1 hg)
  unfold SparsePartitionH
  rw [nonempty_eq hp, hnn]
  dsimp only
  rw [lfact_eq (used_le net _)]
  rw [foldlM_sum _ (fun g => (T F net p.inGroup g g + f0) +
    ∑ g' ∈ (range net.n).filter (g < ·), (T F net p.inGroup g g' + f0))]
  · simp only [Option.bind_eq_bind, Option.bind_some, Option.pure_def]
    rw [range_sum]
    unfold energy
    rw [hD]
    congr 1
    have hc : ∀ n : ℕ, (∑ g ∈ range n, (f0 + ∑ g' ∈ (range n).filter (g < ·), f0)) = ((n * (n + 1) / 2 : ℕ) : ℝ) * f0 := by
      intro n
      have : ∀ g ∈ range n, (f0 + ∑ g' ∈ (range n).filter (g < ·), f0) = ((n - g : ℕ) : ℝ) * f0 := by
        intro g hg
        have hg := mem_range.1 hg
        have hcard : ((range n).filter (g < ·)).card = n - g - 1 := by
          have : (range n).filter (g < ·) = Finset.Ico (g + 1) n := by
            ext x; simp; omega
          rw [this, Nat.card_Ico]; omega
        rw [sum_const, hcard, nsmul_eq_mul, show n - g = (n - g - 1) + 1 by omega]
        push_cast
        ring
      rw [sum_congr rfl this, ← sum_mul]
      congr 1
      rw [← Nat.cast_sum]
      congr 1
      have h1 := sum_range_reflect (fun i => i + 1) n
      have h2 : ∑ g ∈ range n, (n - g) = ∑ j ∈ range n, (n - 1 - j + 1) := by
        apply sum_congr rfl
        intro g hg
        have := mem_range.1 hg
        omega
      rw [h2, h1]
      have h3 := sum_range_id_mul_two (n + 1)
      rw [sum_range_succ'] at h3
      simp at h3
      have : n * (n + 1) = (n + 1) * n := by ring
      simp only [sum_add_distrib, sum_const, card_range] at h3 ⊢
      omega
    rw [← hc net.n]
    simp only [sum_add_distrib]
    push_cast
    ring
  · intro g hg s
    have hg := List.mem_range.1 hg
    have e1 : Kr.term ((p.grp g).size * ((p.grp g).size - 1) / 2) (p.grp g).inlinks = some (T F net p.inGroup g g + f0) := by
      rw [← hT g hg g hg, inlinks_eq hp h hg, size_eq hp hg]
      unfold pairs
      rw [if_pos rfl]
    rw [e1]
    simp only [Option.bind_eq_bind, Option.bind_some]
    rw [foldlM_sum _ (fun g' => T F net p.inGroup g g' + f0)]
    · rw [range'_sum]; congr 1; ring
    · intro g' hg' s
      rw [List.mem_range'_1] at hg'
      have : Kr.term ((p.grp g).size * (p.grp g').size) (NG2GLinks net p g g') = some (T F net p.inGroup g g' + f0) := by
        rw [← hT g hg g' (by omega), ng2g_eq hp h hg (by omega), size_eq hp hg, size_eq hp (by omega)]
        unfold pairs
        rw [if_neg (by omega)]
      rw [this]; rfl

end

end BK
