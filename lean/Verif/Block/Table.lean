import Verif.Block.Order

/-! # When the table of the code suffices -/

set_option linter.unusedSimpArgs false

namespace BK

open GP hiding St
open RG LS Finset

variable {net : Net} {K : Kern} {F : Int → Int → ℝ} {p : GP.Part}

/-- A kernel whose table ends at index `n (n - 1) / 2`. -/
structure Cut (K : Kern) (n : ℕ) (F : Int → Int → ℝ) : Prop where
  short : ∀ r l : Int, 0 ≤ l → l ≤ r → r + 1 ≤ (n * (n - 1) / 2 : ℕ) → K.term r l = some (F r l)
  long : ∀ r l : Int, (n * (n - 1) / 2 : ℕ) < r + 1 → K.term r l = none
  zero : F 0 0 = 0
  deg : ∀ k : ℕ, K.deg k = some (logDeg k)

theorem bind_none' {α β : Type} (x : Option α) : (x.bind fun _ => (none : Option β)) = none := by cases x <;> rfl

theorem and_cut (n : ℕ) : Cut (AND (codeTable n)) n andF where
  short := by
    intro r l h0 h1 h2
    change andTerm _ r l = _
    unfold andTerm andF codeTable
    rw [lterm_od h0 h1, read_some (by omega) (by omega), read_some h0 (by omega)]
    rfl
  long := by
    intro r l h
    change andTerm _ r l = _
    unfold andTerm codeTable
    rw [read_eq (by omega) (r + 1), if_neg (by omega)]
    simp only [Option.bind_eq_bind, Option.bind_none, bind_none']
  zero := andF_zero
  deg := by rw [and_deg]; exact logDeg_defined

theorem or_cut (n : ℕ) : Cut (OR (codeTable n)) n orF where
  short := by
    intro r l h0 h1 h2
    change orTerm _ r l = _
    unfold orTerm orF codeTable
    rw [lterm_od h0 h1, read_some (by omega) (by omega), read_some (by omega) (by omega)]
    rfl
  long := by
    intro r l h
    change orTerm _ r l = _
    unfold orTerm codeTable
    rw [read_eq (by omega) (r + 1), if_neg (by omega)]
    simp only [Option.bind_eq_bind, Option.bind_none, bind_none']
  zero := orF_zero
  deg := by rw [or_deg]; exact logDeg_defined

theorem foldlM_none {α β : Type} {f : β → α → Option β} {x : α} : ∀ (l : List α) (b : β), x ∈ l → (∀ b, f b x = none) →
    l.foldlM f b = none
  | [], _, h, _ => by simp at h
  | y :: l, b, h, hn => by
    rw [List.foldlM_cons]
    rcases List.mem_cons.1 h with h | h
    · subst h; rw [hn]; rfl
    · cases f b y with
      | none => rfl
      | some b' => exact foldlM_none l b' h hn

/-! ## Counting pairs -/

theorem two_half (n : ℕ) : 2 * ((n * (n - 1) / 2 : ℕ) : Int) = n * ((n : Int) - 1) := by
  have h := Nat.two_mul_div_two_of_even (Nat.even_mul_pred_self n)
  rcases Nat.eq_zero_or_pos n with h0 | h0
  · subst h0; simp
  · have e : ((n * (n - 1) : ℕ) : Int) = n * ((n : Int) - 1) := by
      push_cast [Nat.cast_sub h0]; ring
    omega

theorem used_two {f : ℕ → Option ℕ} {g g' : ℕ} (hg : g < net.n) (hg' : g' < net.n) (hne : g ≠ g')
    (hb : (block net f g).Nonempty) (hb' : (block net f g').Nonempty) : 2 ≤ (used net f).card := by
  have : ({g, g'} : Finset ℕ) ⊆ used net f := by
    intro x hx
    rw [mem_insert, mem_singleton] at hx
    unfold used
    rcases hx with rfl | rfl <;> simp [*]
  have := card_le_card this
  rwa [card_pair hne] at this

/-- With two groups or more, no group has all nodes. -/
theorem not_all {f : ℕ → Option ℕ} (h2 : 2 ≤ (used net f).card) (g : ℕ) : (block net f g).card + 1 ≤ net.n := by
  obtain ⟨x, hx, hxg⟩ := Finset.exists_mem_ne (show 1 < (used net f).card by omega) g
  have hx' : (block net f x).Nonempty := by
    unfold used at hx
    exact (mem_filter.1 hx).2
  have := block_cards_le net f hxg.symm
  have := card_pos.2 hx'
  omega

/-- All pairs of groups stay away from the end of the table. -/
theorem fits {f : ℕ → Option ℕ} (hn : 3 ≤ net.n) (h2 : 2 ≤ (used net f).card) {g g' : ℕ}
    (hb : (block net f g).Nonempty) (hb' : (block net f g').Nonempty) :
    pairs net f g g' + 1 ≤ (net.n * (net.n - 1) / 2 : ℕ) := by
  have hN := two_half net.n
  have p1 := card_pos.2 hb
  have p2 := card_pos.2 hb'
  have hn' : (3 : Int) ≤ net.n := by exact_mod_cast hn
  unfold pairs
  by_cases e : g = g'
  · rw [if_pos e]
    have h1 := not_all h2 g
    have h3 : ((block net f g).card : Int) * ((block net f g).card - 1) ≤ (net.n - 1) * ((net.n : Int) - 2) :=
      mul_le_mul (by omega) (by omega) (by omega) (by omega)
    have := Int.mul_ediv_self_le (x := ((block net f g).card : Int) * ((block net f g).card - 1)) (k := 2) (by decide)
    have e2 : ((net.n : Int) - 1) * ((net.n : Int) - 2) = net.n * ((net.n : Int) - 1) - 2 * (net.n - 1) := by ring
    omega
  · rw [if_neg e]
    have h1 := block_cards_le net f e
    generalize ha : ((block net f g).card : Int) = a
    generalize hb : ((block net f g').card : Int) = b
    have ha1 : 1 ≤ a := by omega
    have hb1 : 1 ≤ b := by omega
    have hab : a + b ≤ net.n := by omega
    have key : 2 * (a * b) ≤ net.n * ((net.n : Int) - 1) - 2 := by
      rcases lt_or_ge (a + b) net.n with h | h
      · have e1 : (a + b) * (a + b - 1) ≤ (net.n - 1) * ((net.n : Int) - 2) :=
          mul_le_mul (by omega) (by omega) (by omega) (by omega)
        have e2 : 0 ≤ (a - 1) * a := mul_nonneg (by omega) (by omega)
        have e3 : 0 ≤ (b - 1) * b := mul_nonneg (by omega) (by omega)
        nlinarith
      · have hab' : (net.n : Int) = a + b := by omega
        rw [hab']
        have e2 : 0 ≤ (a - 1) * a := mul_nonneg (by omega) (by omega)
        have e3 : 0 ≤ (b - 1) * b := mul_nonneg (by omega) (by omega)
        rcases le_or_gt 2 a with h2 | h2
        · have : 2 ≤ (a - 1) * a := by nlinarith
          nlinarith
        · have : 2 ≤ (b - 1) * b := by nlinarith
          nlinarith
    omega

theorem one_used {f : ℕ → Option ℕ} (hn : 0 < net.n) (hf : ∀ v < net.n, ∃ g < net.n, f v = some g)
    (h : (used net f).card < 2) : ∃ g < net.n, ∀ v < net.n, f v = some g := by
  obtain ⟨g, hg, h0⟩ := hf 0 hn
  refine ⟨g, hg, fun v hv => ?_⟩
  obtain ⟨g', hg', hv'⟩ := hf v hv
  by_contra hne
  have : g ≠ g' := fun e => hne (by rw [hv', e])
  have := used_two hg hg' this ⟨0, mem_block.2 ⟨hn, h0⟩⟩ ⟨v, mem_block.2 ⟨hv, hv'⟩⟩
  omega

theorem full_some (hp : PartOK net net.n p) (hf : Full net p) : ∀ v < net.n, ∃ g < net.n, p.inGroup v = some g := by
  intro v hv
  obtain ⟨g, hg⟩ := Option.ne_none_iff_exists'.1 (hf v hv)
  exact ⟨g, (hp.range v g hg).2, hg⟩

/-- Some pair of groups reaches the end of the table. -/
theorem too_many (hn : 0 < net.n) {f : ℕ → Option ℕ} (hf : ∀ v < net.n, ∃ g < net.n, f v = some g)
    (hbad : net.n < 3 ∨ (used net f).card < 2) : ∃ g < net.n, ∃ g' < net.n, g ≤ g' ∧ (block net f g).Nonempty ∧
      (block net f g').Nonempty ∧ (net.n * (net.n - 1) / 2 : ℕ) < pairs net f g g' + 1 := by
  have one : (∃ g < net.n, ∀ v < net.n, f v = some g) → ∃ g < net.n, ∃ g' < net.n, g ≤ g' ∧ (block net f g).Nonempty ∧
      (block net f g').Nonempty ∧ (net.n * (net.n - 1) / 2 : ℕ) < pairs net f g g' + 1 := by
    rintro ⟨g, hg, hall⟩
    have hb : block net f g = range net.n := by
      ext v
      rw [mem_block, mem_range]
      exact ⟨fun h => h.1, fun h => ⟨h, hall v h⟩⟩
    refine ⟨g, hg, g, hg, le_refl _, ⟨0, mem_block.2 ⟨hn, hall 0 hn⟩⟩, ⟨0, mem_block.2 ⟨hn, hall 0 hn⟩⟩, ?_⟩
    unfold pairs
    rw [if_pos rfl, hb, card_range]
    have := two_half net.n
    omega
  by_cases hu : (used net f).card < 2
  · exact one (one_used hn hf hu)
  · rcases hbad with hbad | hbad
    · obtain ⟨g, hg, h0⟩ := hf 0 hn
      have hn2 : net.n = 2 := by
        have := used_le net f
        omega
      obtain ⟨g', hg', h1⟩ := hf 1 (by omega)
      by_cases e : g = g'
      · subst e
        refine one ⟨g, hg, fun v hv => ?_⟩
        have : v = 0 ∨ v = 1 := by omega
        rcases this with rfl | rfl <;> assumption
      · have b0 : (block net f g).Nonempty := ⟨0, mem_block.2 ⟨hn, h0⟩⟩
        have b1 : (block net f g').Nonempty := ⟨1, mem_block.2 ⟨by omega, h1⟩⟩
        have hpr : ∀ x y, x ≠ y → (block net f x).Nonempty → (block net f y).Nonempty → (1 : Int) ≤ pairs net f x y := by
          intro x y hxy hx hy
          unfold pairs
          rw [if_neg hxy]
          have := card_pos.2 hx
          have := card_pos.2 hy
          have : (1 : Int) * 1 ≤ (block net f x).card * ((block net f y).card : Int) :=
            mul_le_mul (by omega) (by omega) (by omega) (by omega)
          omega
        have hN : (net.n * (net.n - 1) / 2 : ℕ) = 1 := by rw [hn2]
        rcases lt_or_gt_of_ne e with hl | hl
        · have := hpr g g' e b0 b1
          exact ⟨g, hg, g', hg', by omega, b0, b1, by rw [hN]; push_cast; omega⟩
        · have := hpr g' g (Ne.symm e) b1 b0
          exact ⟨g', hg', g, hg, by omega, b1, b0, by rw [hN]; push_cast; omega⟩
    · exact absurd hbad hu

/-! ## The initial energy -/

/-- With the table of the code, the energy is defined exactly when there are three nodes or more, in two groups or more. -/
theorem partitionH_cut (hK : Cut K net.n F) (h : net.Simple) (hn : 0 < net.n) (hp : PartOK net net.n p)
    (hf : Full net p) (linC : ℝ) : PartitionH K net net.n linC p =
      if 3 ≤ net.n ∧ 2 ≤ (used net p.inGroup).card then some (energy F logDeg net linC p.inGroup) else none := by
  by_cases hc : 3 ≤ net.n ∧ 2 ≤ (used net p.inGroup).card
  · rw [if_pos hc]
    refine partitionH_of hK.zero hK.deg (fun g hg g' hg' hb hb' => ?_) h hp hf linC
    exact hK.short _ _ (links_nonneg g g') (links_le h g g') (fits hc.1 hc.2 hb hb')
  · rw [if_neg hc]
    obtain ⟨g, hg, g', hg', hle, hb, hb', hlong⟩ := too_many hn (full_some hp hf) (by omega)
    unfold PartitionH
    rw [foldlM_none (x := g) _ _ (List.mem_range.2 hg)]
    · rfl
    · intro H
      rw [if_pos ((size_pos hp hg).2 hb)]
      rcases Nat.eq_or_lt_of_le hle with e | hlt
      · subst e
        have : K.term ((p.grp g).size * ((p.grp g).size - 1) / 2) (p.grp g).inlinks = none := by
          apply hK.long
          unfold pairs at hlong
          rw [if_pos rfl] at hlong
          rw [size_eq hp hg]
          exact hlong
        rw [this]; rfl
      · cases K.term ((p.grp g).size * ((p.grp g).size - 1) / 2) (p.grp g).inlinks with
        | none => rfl
        | some a =>
          simp only [Option.bind_eq_bind, Option.bind_some]
          rw [foldlM_none (x := g')]
          · rw [List.mem_range'_1]; omega
          · intro H
            rw [if_pos ((size_pos hp hg').2 hb')]
            have : K.term ((p.grp g).size * (p.grp g').size) (NG2GLinks net p g g') = none := by
              apply hK.long
              unfold pairs at hlong
              rw [if_neg (by omega)] at hlong
              rw [size_eq hp hg, size_eq hp hg']
              exact hlong
            rw [this]; rfl

/-! ## Runs -/

/-- Placing all nodes with draws equal to zero. -/
theorem init_zero {m : ℕ} (hm : 0 < m) : ∀ (vs : List ℕ) (p : Part) (t : Tape), ∃ p',
    randomInit net m vs p (List.replicate vs.length 0 ++ t) = .ok (p', t) ∧
    (∀ v, v ∈ vs → p'.inGroup v = some 0) ∧ ∀ v, v ∉ vs → p'.inGroup v = p.inGroup v
  | [], p, t => ⟨p, rfl, by simp, fun _ _ => rfl⟩
  | v :: vs, p, t => by
    obtain ⟨p', h1, h2, h3⟩ := init_zero hm vs (AddNodeToGroup net 0 v p) t
    refine ⟨p', ?_, ?_, ?_⟩
    · unfold randomInit
      rw [List.length_cons, List.replicate_succ, List.cons_append]
      have : pick m (0 :: (List.replicate vs.length 0 ++ t)) = .ok (0, List.replicate vs.length 0 ++ t) := by
        simp [pick, draw]
      rw [this, Res.bind_ok]
      dsimp only
      rw [if_pos hm]
      exact h1
    · intro w hw
      by_cases hw' : w ∈ vs
      · exact h2 w hw'
      · rw [h3 w hw']
        rcases List.mem_cons.1 hw with rfl | hw
        · simp [AddNodeToGroup]
        · exact absurd hw hw'
    · intro w hw
      rw [List.mem_cons, not_or] at hw
      rw [h3 w hw.2]
      simp [AddNodeToGroup, hw.1]

/-- If all nodes are placed in the same group, the run is undefined. -/
theorem run_zero (hK : Cut K net.n F) (h : net.Simple) (hn : 0 < net.n) (debug : Bool) (acc : ℝ → ℚ → Bool) (linC : ℝ) (nIter : ℕ)
    (warm : List ℕ) (decorStep : ℕ) (scratch : ℕ → Int) (t : Tape) :
    LinkScoreMB K debug acc net linC nIter warm decorStep scratch (List.replicate net.n 0 ++ t) = .ub := by
  obtain ⟨p, h1, h2, -⟩ := init_zero (net := net) hn (List.range net.n) Part.empty t
  rw [List.length_range] at h1
  have hh := init_holds h hn (List.range net.n) Part.empty (List.replicate net.n 0 ++ t) (empty_ok net net.n) List.nodup_range
    (fun v hv => ⟨List.mem_range.1 hv, rfl⟩) (fun v hv hv' => absurd (List.mem_range.2 hv) hv')
  rw [h1] at hh
  unfold LinkScoreMB
  rw [h1, Res.bind_ok]
  dsimp only
  have hu : ¬ (3 ≤ net.n ∧ 2 ≤ (used net p.inGroup).card) := by
    rintro ⟨-, h3⟩
    have := not_all h3 0
    have hb : block net p.inGroup 0 = range net.n := by
      ext v
      rw [mem_block, mem_range]
      exact ⟨fun h => h.1, fun h => ⟨h, h2 v (List.mem_range.2 h)⟩⟩
    rw [hb, card_range] at this
    omega
  rw [partitionH_cut hK h hn hh.1 hh.2, if_neg hu]
  rfl

/-- With one or two nodes no run returns. -/
theorem run_small (hK : Cut K net.n F) (h : net.Simple) (hn : 0 < net.n) (hs : net.n < 3) (debug : Bool) (acc : ℝ → ℚ → Bool) (linC : ℝ)
    (nIter : ℕ) (warm : List ℕ) (decorStep : ℕ) (scratch : ℕ → Int) (t : Tape) :
    Safe (fun _ => False) (LinkScoreMB K debug acc net linC nIter warm decorStep scratch t) := by
  unfold LinkScoreMB
  refine (Safe.of_holds (init_holds h hn (List.range net.n) Part.empty t (empty_ok net net.n) List.nodup_range
    (fun v hv => ⟨List.mem_range.1 hv, rfl⟩) (fun v hv hv' => absurd (List.mem_range.2 hv) hv'))).bind ?_
  rintro ⟨p, t'⟩ ⟨hp, hf⟩
  dsimp only at *
  rw [partitionH_cut hK h hn hp hf, if_neg (by omega)]
  trivial

/-- Trying to merge the last single node into the group of all others is undefined. -/
theorem delta_cut (hK : Cut K net.n F) {linC : ℝ} (hp : PartOK net net.n p) {G2G : ℕ → ℕ → Int} {n2g : ℕ → Int}
    {slg : List ℕ} {v old new : ℕ} (hmem : new ∈ slg) (hnew : new < net.n) (hne : new ≠ old)
    (hn : 1 < net.n) (hall : (block net p.inGroup new).card + 1 = net.n) :
    deltaH K net linC p G2G n2g slg v old new = none := by
  unfold deltaH
  dsimp only
  rw [foldlM_none (x := new) _ _ hmem]
  · rfl
  · intro s
    unfold scanGroup
    have hs := size_eq hp hnew
    rw [if_pos (by rw [hs]; omega)]
    unfold groupDH
    dsimp only
    rw [if_neg hne, if_pos rfl]
    have : K.term (((p.grp new).size + 1) * (p.grp new).size / 2)
        ((p.grp new).inlinks + NLinksToGroup net p v new) = none := by
      apply hK.long
      have := two_half net.n
      rw [hs]
      have e : (((block net p.inGroup new).card : Int) + 1) * (block net p.inGroup new).card = net.n * ((net.n : Int) - 1) := by
        have : (net.n : Int) = (block net p.inGroup new).card + 1 := by omega
        rw [this]; ring
      rw [e]
      omega
    rw [this]
    simp only [Option.bind_eq_bind, Option.bind_none, bind_none']

end BK
