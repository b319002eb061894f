import Verif.Recommend.Lemmas

/-! # C34, C49: the samplers of the recommender -/

set_option linter.unusedSimpArgs false

namespace RC

open GP RG LS KS Finset
open BP (Bi)

variable {b : Bi} {K : ℕ} {pt : (ℕ → Int) → Option ℝ} {T : (ℕ → Int) → ℝ}

/-- Consistent partitions of both sets, exact counts of ratings and of non-empty groups. -/
structure BCounts (b : Bi) (K : ℕ) (s : View) : Prop where
  part : PartOK (dots b.n1) b.n1 s.part
  full : Full (dots b.n1) s.part
  opart : PartOK (dots b.n2) b.n2 s.opart
  ofull : Full (dots b.n2) s.opart
  n : ∀ k < K, ∀ v < b.n1, ∀ g < b.n2, s.N k v g = ncnt b s.opart.inGroup k v g
  ninv : ∀ k < K, ∀ v < b.n2, ∀ g < b.n1, s.Ninv k v g = ncnt b.swap s.part.inGroup k v g
  g : ∀ k < K, ∀ g < b.n1, ∀ g' < b.n2, s.G k g g' = cnt b s.part.inGroup s.opart.inGroup k g g'
  ginv : ∀ k < K, ∀ g < b.n1, ∀ g' < b.n2, s.Ginv k g' g = cnt b s.part.inGroup s.opart.inGroup k g g'
  ng : s.ng = nused b.n1 s.part.inGroup
  ong : s.ong = nused b.n2 s.opart.inGroup

/-- In addition the running energy is exact up to the fixed origin `off`. -/
structure BInv (T : (ℕ → Int) → ℝ) (b : Bi) (K : ℕ) (off : ℝ) (s : View) : Prop extends BCounts b K s where
  energy : bEnergy T b s.part.inGroup s.opart.inGroup = s.H + off

theorem counts_swap (h : b.OK) {s : View} (hs : BCounts b K s) : BCounts b.swap K s.swap where
  part := hs.opart
  full := hs.ofull
  opart := hs.part
  ofull := hs.full
  n := hs.ninv
  ninv := hs.n
  g := fun k hk g hg g' hg' => by
    change s.Ginv k g g' = _
    rw [hs.ginv k hk g' hg' g hg]
    exact (cnt_swap h k g' g).symm
  ginv := fun k hk g hg g' hg' => by
    change s.G k g' g = _
    rw [hs.g k hk g' hg' g hg]
    exact (cnt_swap h k g' g).symm
  ng := hs.ong
  ong := hs.ng

theorem inv_swap (h : b.OK) {off : ℝ} {s : View} (hs : BInv T b K off s) : BInv T b.swap K off s.swap where
  toBCounts := counts_swap h hs.toBCounts
  energy := (bEnergy_swap h T).trans hs.energy

/-- Nothing but the random numbers and the order of lists of nodes has changed. -/
structure SameB (b : Bi) (K : ℕ) (s s' : View) : Prop where
  inGroup : s'.part.inGroup = s.part.inGroup
  oinGroup : s'.opart.inGroup = s.opart.inGroup
  n : ∀ k < K, ∀ v < b.n1, ∀ g < b.n2, s'.N k v g = s.N k v g
  ninv : ∀ k < K, ∀ v < b.n2, ∀ g < b.n1, s'.Ninv k v g = s.Ninv k v g
  g : ∀ k < K, ∀ g < b.n1, ∀ g' < b.n2, s'.G k g g' = s.G k g g'
  ginv : ∀ k < K, ∀ g < b.n1, ∀ g' < b.n2, s'.Ginv k g' g = s.Ginv k g' g
  ng : s'.ng = s.ng
  ong : s'.ong = s.ong
  H : s'.H = s.H

theorem same_swap {s s' : View} (hs : SameB b.swap K s.swap s') : SameB b K s s'.swap :=
  ⟨hs.oinGroup, hs.inGroup, hs.ninv, hs.n, fun k hk g hg g' hg' => hs.ginv k hk g' hg' g hg,
    fun k hk g hg g' hg' => hs.g k hk g' hg' g hg, hs.ong, hs.ng, hs.H⟩

theorem used_move' {n : ℕ} {f : ℕ → Option ℕ} {v old new : ℕ} (hv : v < n) (hold : f v = some old) (hne : new ≠ old)
    (ho : old < n) (hn : new < n) : (nused n (Function.update f v (some new)) : Int) = nused n f -
    (if (blk n (Function.update f v (some new)) old).card = 0 then 1 else 0) +
    (if (blk n (Function.update f v (some new)) new).card = 1 then 1 else 0) :=
  KS.used_move (net := dots n) hv hold hne ho hn

theorem tent_counts (h : b.OK) {s : View} (hs : BCounts b K s) {v old new : ℕ}
    (hold : s.part.inGroup v = some old) (hn : new < b.n1) (hne : new ≠ old) :
    BCounts b K (tent b K v old new s) ∧
      (tent b K v old new s).part.inGroup = Function.update s.part.inGroup v (some new) := by
  obtain ⟨hv, ho⟩ := hs.part.range v old hold
  obtain ⟨_, hp, hi⟩ := move_ok (dots_simple b.n1) hs.part hn hold
  refine ⟨⟨hp, full_update hs.full hi, hs.opart, hs.ofull, hs.n, ?_, ?_, ?_, ?_, hs.ong⟩, hi⟩
  · intro k hk j hj g hg
    dsimp only [tent]
    rw [updateN2G_list hne 1 _ (h.nodup1 v) _ _ _ _ hk, hs.ninv k hk j hj g hg, hi, ncnt_move hv hold hne h]
    congr 1
    unfold ra
    split_ifs <;> ring
  · intro k hk g hg g' hg'
    dsimp only [tent, updG]
    rw [if_pos hk, cols_apply hne, if_pos hg', hs.g k hk g hg g' hg', hi, cnt_move hv hold hne, hs.n k hk v hv g' hg']
  · intro k hk g hg g' hg'
    dsimp only [tent, updGinv]
    rw [if_pos hk, rows_apply hne, if_pos hg', hs.ginv k hk g hg g' hg', hi, cnt_move hv hold hne, hs.n k hk v hv g' hg']
  · dsimp only [tent]
    rw [hs.ng, size_blk hp ho, size_blk hp hn, hi, used_move' (n := b.n1) hv hold hne ho hn]
    norm_cast

theorem untent_counts (h : b.OK) {s : View} (hs : BCounts b K s) {v old new : ℕ}
    (hnew : s.part.inGroup v = some new) (ho : old < b.n1) (hne : new ≠ old) :
    BCounts b K (untent b K v old new s) ∧
      (untent b K v old new s).part.inGroup = Function.update s.part.inGroup v (some old) := by
  obtain ⟨hv, hn⟩ := hs.part.range v new hnew
  obtain ⟨_, hp, hi⟩ := move_ok (dots_simple b.n1) hs.part ho hnew
  refine ⟨⟨hp, full_update hs.full hi, hs.opart, hs.ofull, hs.n, ?_, ?_, ?_, ?_, hs.ong⟩, hi⟩
  · intro k hk j hj g hg
    dsimp only [untent]
    rw [updateN2G_list hne (-1) _ (h.nodup1 v) _ _ _ _ hk, hs.ninv k hk j hj g hg, hi, ncnt_move hv hnew hne.symm h,
      nchange_swap hne]
    congr 1
    unfold ra
    split_ifs <;> ring
  · intro k hk g hg g' hg'
    dsimp only [untent, updG]
    rw [if_pos hk, cols_apply hne, if_pos hg', hs.g k hk g hg g' hg', hi, cnt_move hv hnew hne.symm, hs.n k hk v hv g' hg',
      nchange_swap hne]
    ring
  · intro k hk g hg g' hg'
    dsimp only [untent, updGinv]
    rw [if_pos hk, rows_apply hne, if_pos hg', hs.ginv k hk g hg g' hg', hi, cnt_move hv hnew hne.symm, hs.n k hk v hv g' hg',
      nchange_swap hne]
    ring
  · dsimp only [untent]
    rw [hs.ng, size_blk hp ho, size_blk hp hn, hi, used_move' (n := b.n1) hv hnew hne.symm hn ho]
    simp only [Nat.cast_eq_zero, Nat.cast_eq_one]
    ring

/-! ## The energy change -/

/-- Energy of the pairs of a group of the first set. -/
noncomputable def rowE (T : (ℕ → Int) → ℝ) (b : Bi) (f1 f2 : ℕ → Option ℕ) (g g' : ℕ) : ℝ := T fun k => cnt b f1 f2 k g g'

theorem config_eq (P : Pot K pt T) {f1 : ℕ → Option ℕ} {o : Part} (ho2 : PartOK (dots b.n2) b.n2 o) {G : ℕ → ℕ → ℕ → Int}
    (hG : ∀ k < K, ∀ g < b.n1, ∀ g' < b.n2, G k g g' = cnt b f1 o.inGroup k g g') {old new : ℕ} (ho : old < b.n1)
    (hn : new < b.n1) : config pt b.n2 o G old new =
      some (∑ g ∈ (range b.n2).filter (fun g => (blk b.n2 o.inGroup g).Nonempty),
        (rowE T b f1 o.inGroup old g + rowE T b f1 o.inGroup new g)) := by
  unfold config
  rw [foldlM_sum _ (fun g => if (blk b.n2 o.inGroup g).Nonempty then rowE T b f1 o.inGroup old g + rowE T b f1 o.inGroup new g else 0),
    range_sum, zero_add, sum_filter]
  intro g hg s
  have hg := List.mem_range.1 hg
  have hiff := size_pos_iff ho2 hg
  have key : ∀ x < b.n1, pt (fun k => G k x g) = some (rowE T b f1 o.inGroup x g) := by
    intro x hx
    rw [P.eval _ fun k hk => by rw [hG k hk x hx g hg]; exact cnt_nonneg k x g]
    congr 1
    exact P.dep _ _ fun k hk => hG k hk x hx g hg
  by_cases hc : 0 < (o.grp g).size
  · rw [if_pos hc, if_pos (hiff.1 hc), key old ho, key new hn]; rfl
  · rw [if_neg hc, if_neg (fun h => hc (hiff.2 h)), add_zero]

theorem labelTerm' (n : ℕ) (f : ℕ → Option ℕ) (x : Bool) : labelTerm n (nused n f : Int) x =
    some (if x then Real.log (((n - nused n f).factorial : ℕ) : ℝ) else 0) := labelTerm_eq (net := dots n) x f

/-- The computed energy change is the change of the energy. -/
theorem bDelta_eq (h : b.OK) (P : Pot K pt T) {s : View} (hs : BCounts b K s) {v old new : ℕ}
    (hold : s.part.inGroup v = some old) (hn : new < b.n1) (hne : new ≠ old) :
    bDelta pt b s (tent b K v old new s) old new =
      some (bEnergy T b (Function.update s.part.inGroup v (some new)) s.opart.inGroup -
        bEnergy T b s.part.inGroup s.opart.inGroup) := by
  obtain ⟨hv, ho⟩ := hs.part.range v old hold
  obtain ⟨hs', hi⟩ := tent_counts h hs hold hn hne
  have ho' : (tent b K v old new s).opart = s.opart := rfl
  generalize tent b K v old new s = s' at hs' hi ho' ⊢
  unfold bDelta
  rw [config_eq P hs.opart hs.g ho hn, config_eq P hs'.opart hs'.g ho hn, hs.ng, hs'.ng, labelTerm', labelTerm']
  simp only [Option.bind_eq_bind, Option.bind_some]
  rw [hi, ho']
  congr 1
  have c1 : ((blk b.n1 (Function.update s.part.inGroup v (some new)) old).card : Int) = (blk b.n1 s.part.inGroup old).card - 1 :=
    card_old (net := dots b.n1) hv hold hne
  have c2 : ((blk b.n1 (Function.update s.part.inGroup v (some new)) new).card : Int) = (blk b.n1 s.part.inGroup new).card + 1 :=
    card_new (net := dots b.n1) hv hold hne
  have hc : (((s'.part.grp old).size = 0) || ((s'.part.grp new).size = 1) : Bool) =
      (((s.part.grp old).size = 1) || ((s.part.grp new).size = 0) : Bool) := by
    rw [size_blk hs'.part ho, size_blk hs'.part hn, size_blk hs.part ho, size_blk hs.part hn, hi, c1, c2]
    congr 1 <;> rw [decide_eq_decide] <;> omega
  have hrow : ∀ g ∈ range b.n1, g ≠ old → g ≠ new → ∀ g', rowE T b (Function.update s.part.inGroup v (some new)) s.opart.inGroup g g' =
      rowE T b s.part.inGroup s.opart.inGroup g g' := by
    intro g _ h1 h2 g'
    apply P.dep
    intro k _
    rw [cnt_move hv hold hne]
    unfold nchange
    simp [h1, h2]
  have hT : ∑ g ∈ range b.n1, ∑ g' ∈ range b.n2, rowE T b (Function.update s.part.inGroup v (some new)) s.opart.inGroup g g' -
      ∑ g ∈ range b.n1, ∑ g' ∈ range b.n2, rowE T b s.part.inGroup s.opart.inGroup g g' =
      ∑ g ∈ (range b.n2).filter (fun g => (blk b.n2 s.opart.inGroup g).Nonempty),
        (rowE T b (Function.update s.part.inGroup v (some new)) s.opart.inGroup old g +
          rowE T b (Function.update s.part.inGroup v (some new)) s.opart.inGroup new g) -
      ∑ g ∈ (range b.n2).filter (fun g => (blk b.n2 s.opart.inGroup g).Nonempty),
        (rowE T b s.part.inGroup s.opart.inGroup old g + rowE T b s.part.inGroup s.opart.inGroup new g) := by
    have ho1 := mem_range.2 ho
    have hn1 : new ∈ (range b.n1).erase old := mem_erase.2 ⟨hne, mem_range.2 hn⟩
    rw [← add_sum_erase _ _ ho1, ← add_sum_erase _ _ hn1, ← add_sum_erase (range b.n1) (fun g => ∑ g' ∈ range b.n2, rowE T b s.part.inGroup s.opart.inGroup g g') ho1,
      ← add_sum_erase ((range b.n1).erase old) (fun g => ∑ g' ∈ range b.n2, rowE T b s.part.inGroup s.opart.inGroup g g') hn1]
    have : ∑ g ∈ ((range b.n1).erase old).erase new, ∑ g' ∈ range b.n2, rowE T b (Function.update s.part.inGroup v (some new)) s.opart.inGroup g g' =
        ∑ g ∈ ((range b.n1).erase old).erase new, ∑ g' ∈ range b.n2, rowE T b s.part.inGroup s.opart.inGroup g g' := by
      apply sum_congr rfl
      intro g hg
      have h1 := mem_erase.1 hg
      have h2 := mem_erase.1 h1.2
      exact sum_congr rfl fun g' _ => hrow g h2.2 h2.1 h1.1 g'
    rw [this, ← sum_sub_distrib]
    have e2 : ∑ g ∈ (range b.n2).filter (fun g => (blk b.n2 s.opart.inGroup g).Nonempty),
        ((rowE T b (Function.update s.part.inGroup v (some new)) s.opart.inGroup old g +
          rowE T b (Function.update s.part.inGroup v (some new)) s.opart.inGroup new g) -
        (rowE T b s.part.inGroup s.opart.inGroup old g + rowE T b s.part.inGroup s.opart.inGroup new g)) =
        ∑ g ∈ range b.n2,
        ((rowE T b (Function.update s.part.inGroup v (some new)) s.opart.inGroup old g +
          rowE T b (Function.update s.part.inGroup v (some new)) s.opart.inGroup new g) -
        (rowE T b s.part.inGroup s.opart.inGroup old g + rowE T b s.part.inGroup s.opart.inGroup new g)) := by
      apply sum_filter_of_ne
      intro g _ hne0
      by_contra he
      apply hne0
      have : ∀ x, rowE T b (Function.update s.part.inGroup v (some new)) s.opart.inGroup x g = rowE T b s.part.inGroup s.opart.inGroup x g := by
        intro x
        apply P.dep
        intro k _
        rw [cnt_empty2 he, cnt_empty2 he]
      rw [this, this, sub_self]
    rw [e2, sum_sub_distrib, sum_add_distrib, sum_add_distrib]
    ring
  have hE : ∀ f1 f2, bEnergy T b f1 f2 = ∑ g ∈ range b.n1, ∑ g' ∈ range b.n2, rowE T b f1 f2 g g' -
      (Real.log (((b.n1 - nused b.n1 f1).factorial : ℕ) : ℝ) + Real.log (((b.n2 - nused b.n2 f2).factorial : ℕ) : ℝ)) :=
    fun _ _ => rfl
  rw [hE, hE, hc]
  by_cases hb : (((s.part.grp old).size = 1) || ((s.part.grp new).size = 0) : Bool) = true
  · rw [hb]
    simp only [if_true]
    linarith
  · have hb' := Bool.eq_false_iff.2 hb
    have hu : nused b.n1 (Function.update s.part.inGroup v (some new)) = nused b.n1 s.part.inGroup := by
      have := used_move' (n := b.n1) hv hold hne ho hn
      rw [size_blk hs.part ho, size_blk hs.part hn] at hb
      simp only [Bool.or_eq_true, decide_eq_true_eq, not_or] at hb
      rw [if_neg (by omega), if_neg (by omega)] at this
      omega
    rw [hb', hu]
    simp only [Bool.false_eq_true, if_false]
    linarith

/-! ## The step -/

/-- The node `v` of the first set has moved and the rule for acceptance was met. -/
def Moved (n : ℕ) (acc : ℝ → ℚ → Bool) (p p' q q' : Part) (H H' : ℝ) : Prop :=
  ∃ v old new, p.inGroup v = some old ∧ new ≠ old ∧ new < n ∧ p'.inGroup = Function.update p.inGroup v (some new) ∧
    q'.inGroup = q.inGroup ∧ (H' ≤ H ∨ ∃ u : ℚ, 0 ≤ u ∧ u < 1 ∧ acc (H' - H) u = true)

theorem moveIn_inv (h : b.OK) (P : Pot K pt T) (hn0 : 0 < b.n1) (acc : ℝ → ℚ → Bool) {off : ℝ} {s : View}
    (hs : BInv T b K off s) : (moveIn acc pt b K s).Holds fun s' => BInv T b K off s' ∧
      (Moved b.n1 acc s.part s'.part s.opart s'.opart s.H s'.H ∨ SameB b K s s') := by
  unfold moveIn
  refine (pick_holds hn0 s.tape).bind ?_
  rintro ⟨v, t1⟩ hv
  dsimp only at *
  cases hg : s.part.inGroup v with
  | none => exact absurd hg (hs.full v hv)
  | some old =>
    dsimp only
    unfold destination
    refine (redraw_holds (P := fun g => g < b.n1) (fun u _ h1 => floor_lt h1 hn0) t1).bind ?_
    rintro ⟨new, t2⟩ ⟨hnew, hb⟩
    dsimp only at *
    have hne : new ≠ old := by simpa using hb
    obtain ⟨_, ho⟩ := hs.part.range v old hg
    obtain ⟨hs', hi⟩ := tent_counts h hs.toBCounts hg hnew hne
    rw [bDelta_eq h P hs.toBCounts hg hnew hne]
    simp only [Res.ofOption_some, Res.bind_ok]
    have hE := hs.energy
    unfold bDecide
    refine metropolis_rule.bind ?_
    rintro ⟨a, t3⟩ ha
    dsimp only at ha ⊢
    have hH : (tent b K v old new s).H = s.H := rfl
    have hO : (tent b K v old new s).opart = s.opart := rfl
    cases a with
    | true =>
      simp only [if_true]
      refine ⟨⟨⟨hs'.part, hs'.full, hs'.opart, hs'.ofull, hs'.n, hs'.ninv, hs'.g, hs'.ginv, hs'.ng, hs'.ong⟩, ?_⟩,
        Or.inl ⟨v, old, new, hg, hne, hnew, hi, rfl, ?_⟩⟩
      · dsimp only
        rw [hi, hH, hO]
        linarith
      · dsimp only
        rw [hH]
        rcases ha rfl with ha | ⟨u, h0, h1, ha⟩
        · left; linarith
        · right; exact ⟨u, h0, h1, by rw [add_sub_cancel_left]; exact ha⟩
    | false =>
      simp only [Bool.false_eq_true, if_false]
      have hnew' : (tent b K v old new s).part.inGroup v = some new := by rw [hi, Function.update_self]
      obtain ⟨hu, hi'⟩ := untent_counts h hs' hnew' ho hne
      have hi'' : (untent b K v old new (tent b K v old new s)).part.inGroup = s.part.inGroup := by
        rw [hi', hi, Function.update_idem, ← hg, Function.update_eq_self]
      refine ⟨⟨⟨hu.part, hu.full, hu.opart, hu.ofull, hu.n, hu.ninv, hu.g, hu.ginv, hu.ng, hu.ong⟩, ?_⟩,
        Or.inr ⟨hi'', rfl, fun _ _ _ _ _ _ => rfl, ?_, ?_, ?_, ?_, rfl, rfl⟩⟩
      · dsimp only
        rw [hi'']
        exact hE
      · intro k hk u hu1 g hg1
        rw [hs.ninv k hk u hu1 g hg1, ← hi'']
        exact hu.ninv k hk u hu1 g hg1
      · intro k hk g hg1 g' hg1'
        rw [hs.g k hk g hg1 g' hg1', ← hi'']
        exact hu.g k hk g hg1 g' hg1'
      · intro k hk g hg1 g' hg1'
        rw [hs.ginv k hk g hg1 g' hg1', ← hi'']
        exact hu.ginv k hk g hg1 g' hg1'
      · rw [hs.ng, ← hi'']
        exact hu.ng

/-- What an attempt does: a node of the first or of the second set has moved and the rule for acceptance was met,
or nothing has changed. -/
def Outcome (b : Bi) (K : ℕ) (acc : ℝ → ℚ → Bool) (s s' : View) : Prop :=
  Moved b.n1 acc s.part s'.part s.opart s'.opart s.H s'.H ∨ Moved b.n2 acc s.opart s'.opart s.part s'.part s.H s'.H ∨
    SameB b K s s'

theorem swapRes_holds {P : View → Prop} {r : Res View} (h : r.Holds fun s => P s.swap) : (swapRes r).Holds P := by
  cases r with
  | ok s => exact h
  | starved => trivial
  | ub => exact h.elim

theorem attempt_inv (h : b.OK) (P : Pot K pt T) (h1 : 0 < b.n1) (h2 : 0 < b.n2) (acc : ℝ → ℚ → Bool) {off : ℝ} {s : View}
    (hs : BInv T b K off s) : (bAttempt acc pt b K s).Holds fun s' => BInv T b K off s' ∧ Outcome b K acc s s' := by
  unfold bAttempt
  refine (draw_holds s.tape).bind ?_
  rintro ⟨u, t⟩ _
  dsimp only
  have hs0 : BInv T b K off { s with tape := t } :=
    ⟨⟨hs.part, hs.full, hs.opart, hs.ofull, hs.n, hs.ninv, hs.g, hs.ginv, hs.ng, hs.ong⟩, hs.energy⟩
  by_cases hc : u < setRatio b
  · rw [if_pos hc]
    refine (moveIn_inv h P h1 acc hs0).mono ?_
    rintro s' ⟨hi, hm | hm⟩
    · exact ⟨hi, Or.inl hm⟩
    · exact ⟨hi, Or.inr (Or.inr ⟨hm.inGroup, hm.oinGroup, hm.n, hm.ninv, hm.g, hm.ginv, hm.ng, hm.ong, hm.H⟩)⟩
  · rw [if_neg hc]
    apply swapRes_holds
    refine (moveIn_inv (swap_ok h) P h2 acc (inv_swap h hs0)).mono ?_
    rintro s' ⟨hi, hm | hm⟩
    · exact ⟨inv_swap (swap_ok h) hi, Or.inr (Or.inl hm)⟩
    · have hm := same_swap hm
      exact ⟨inv_swap (swap_ok h) hi, Or.inr (Or.inr ⟨hm.inGroup, hm.oinGroup, hm.n, hm.ninv, hm.g, hm.ginv, hm.ng, hm.ong, hm.H⟩)⟩

theorem step_inv (h : b.OK) (P : Pot K pt T) (h1 : 0 < b.n1) (h2 : 0 < b.n2) (acc : ℝ → ℚ → Bool) {off : ℝ} (n : ℕ) {s : View}
    (hs : BInv T b K off s) : (iter (bAttempt acc pt b K) n s).Holds (BInv T b K off) :=
  iter_holds (fun _ hs => (attempt_inv h P h1 h2 acc hs).mono fun _ h => h.1) _ s hs

/-- State of the two-rating sampler with exact tables, whose energy differs from `H2State` by `off`. -/
def Inv2 (b : Bi) (off : ℝ) (s : View) : Prop := BCounts b 2 s ∧ H2State b s.part s.opart = some (s.H + off)

/-- State of the `K`-rating sampler with exact tables, whose energy differs from `HKState` by `off`. -/
def InvK (b : Bi) (K : ℕ) (off : ℝ) (s : View) : Prop := BCounts b K s ∧ HKState b K s.part s.opart = some (s.H + off)

theorem inv2_iff (h : b.OK) (hr : b.Rated 2) {off : ℝ} {s : View} : Inv2 b off s ↔ BInv T2 b 2 off s := by
  constructor
  · rintro ⟨hc, he⟩
    rw [h2_eq h hr hc.part hc.full hc.opart hc.ofull] at he
    exact ⟨hc, Option.some.inj he⟩
  · intro hs
    exact ⟨hs.toBCounts, by rw [h2_eq h hr hs.part hs.full hs.opart hs.ofull, hs.energy]⟩

theorem invK_iff (h : b.OK) (hr : b.Rated K) (hK : 0 < K) {off : ℝ} {s : View} : InvK b K off s ↔ BInv (TKb K) b K off s := by
  constructor
  · rintro ⟨hc, he⟩
    rw [hK_eq h hr hK hc.part hc.full hc.opart hc.ofull] at he
    exact ⟨hc, Option.some.inj he⟩
  · intro hs
    exact ⟨hs.toBCounts, by rw [hK_eq h hr hK hs.part hs.full hs.opart hs.ofull, hs.energy]⟩

/-- **C34**: `MCStep2State` keeps both partitions consistent, and all tables of counts, the numbers of non-empty
groups and the energy exact, for every bipartite network with ratings 0 and 1, from every consistent state, for
every acceptance rule and every stream of random numbers; it never leaves the defined behaviour. -/
theorem C34_step (h : b.OK) (hr : b.Rated 2) (h1 : 0 < b.n1) (h2 : 0 < b.n2) (acc : ℝ → ℚ → Bool) (off : ℝ) (factor : ℕ)
    {s : View} (hs : Inv2 b off s) : (MCStep2State acc b factor s).Holds (Inv2 b off) :=
  (step_inv h pot2 h1 h2 acc _ ((inv2_iff h hr).1 hs)).mono fun _ hs => (inv2_iff h hr).2 hs

/-- **C34**: a single attempt moves one node of one set, the rule for acceptance being met by the true change of
energy, or leaves memberships, counts, numbers of groups and energy as they were. -/
theorem C34_reject_restores (h : b.OK) (hr : b.Rated 2) (h1 : 0 < b.n1) (h2 : 0 < b.n2) (acc : ℝ → ℚ → Bool) {off : ℝ}
    {s : View} (hs : Inv2 b off s) : (bAttempt acc pt2 b 2 s).Holds (Outcome b 2 acc s) :=
  (attempt_inv h pot2 h1 h2 acc ((inv2_iff h hr).1 hs)).mono fun _ h => h.2

/-- **C34**: the energy function is the one of the specification. -/
theorem C34_energy (h : b.OK) (hr : b.Rated 2) {p1 p2 : Part} (hp1 : PartOK (dots b.n1) b.n1 p1) (hf1 : Full (dots b.n1) p1)
    (hp2 : PartOK (dots b.n2) b.n2 p2) (hf2 : Full (dots b.n2) p2) :
    H2State b p1 p2 = some (bEnergy T2 b p1.inGroup p2.inGroup) := h2_eq h hr hp1 hf1 hp2 hf2

/-- **C49**: the same for `MCStepKState` and ratings `0 … K-1`. -/
theorem C49_step (h : b.OK) (hr : b.Rated K) (hK : 0 < K) (h1 : 0 < b.n1) (h2 : 0 < b.n2) (acc : ℝ → ℚ → Bool) (off : ℝ)
    (factor : ℕ) {s : View} (hs : InvK b K off s) : (MCStepKState acc b K factor s).Holds (InvK b K off) :=
  (step_inv h (potK hK) h1 h2 acc _ ((invK_iff h hr hK).1 hs)).mono fun _ hs => (invK_iff h hr hK).2 hs

/-- **C49**: a single attempt with `K` ratings. -/
theorem C49_reject_restores (h : b.OK) (hr : b.Rated K) (hK : 0 < K) (h1 : 0 < b.n1) (h2 : 0 < b.n2) (acc : ℝ → ℚ → Bool)
    {off : ℝ} {s : View} (hs : InvK b K off s) : (bAttempt acc (pairTerm K) b K s).Holds (Outcome b K acc s) :=
  (attempt_inv h (potK hK) h1 h2 acc ((invK_iff h hr hK).1 hs)).mono fun _ h => h.2

/-- **C49**: the energy function is the one of the specification. -/
theorem C49_energy (h : b.OK) (hr : b.Rated K) (hK : 0 < K) {p1 p2 : Part} (hp1 : PartOK (dots b.n1) b.n1 p1)
    (hf1 : Full (dots b.n1) p1) (hp2 : PartOK (dots b.n2) b.n2 p2) (hf2 : Full (dots b.n2) p2) :
    HKState b K p1 p2 = some (bEnergy (TKb K) b p1.inGroup p2.inGroup) := hK_eq h hr hK hp1 hf1 hp2 hf2

/-! ## The choice of the set -/

/-- **C34**: a set with a single node, where no move is possible, is never chosen if the other one is larger: for
every random number `0 ≤ u < 1`, the first set is not chosen if it has one node, and is if the second one has. -/
theorem C34_sides (u : ℚ) (h0 : 0 ≤ u) (h1 : u < 1) : (b.n1 = 1 → ¬ u < setRatio b) ∧
    (b.n2 = 1 → 1 < b.n1 → u < setRatio b) := by
  constructor
  · intro e
    unfold setRatio
    rw [e]; push_cast; norm_num
    exact h0
  · intro e h
    have hq : (1 : ℚ) < b.n1 := by exact_mod_cast h
    have : setRatio b = 1 := by
      unfold setRatio
      rw [e]; push_cast
      rw [div_eq_one_iff_eq (by nlinarith)]; ring
    rw [this]; exact h1

/-- With one node in each set the step never returns (it looks for another group). -/
theorem C34_one_one (e1 : b.n1 = 1) (e2 : b.n2 = 1) {s : View} {n : ℕ} (hn : 0 < n) (acc : ℝ → ℚ → Bool)
    (h0 : s.opart.inGroup 0 = some 0) (pt : (ℕ → Int) → Option ℝ) : iter (bAttempt acc pt b K) n s = .starved := by
  obtain ⟨k, rfl⟩ : ∃ k, n = k + 1 := ⟨n - 1, by omega⟩
  unfold iter
  have : bAttempt acc pt b K s = .starved := by
    unfold bAttempt
    cases hd : draw s.tape with
    | starved => rfl
    | ub => have := draw_holds s.tape; rw [hd] at this; exact this.elim
    | ok r =>
      have hh := draw_holds s.tape
      rw [hd] at hh
      simp only [Res.bind_ok]
      rw [if_neg ((C34_sides r.1 hh.1 hh.2).1 e1)]
      have hz : ∀ u : ℚ, 0 ≤ u → u < 1 → ⌊u * ((1 : ℕ) : ℚ)⌋₊ = 0 := by
        intro u h0 h1
        have := floor_lt (n := 1) h1 (by norm_num)
        omega
      have : moveIn acc pt b.swap K (View.swap { s with tape := r.2 }) = .starved := by
        unfold moveIn
        have e2' : b.swap.n1 = 1 := e2
        rw [e2']
        unfold pick
        change (do
          let (v, t) ← (do let (u, t) ← draw r.2; pure (⌊u * ((1 : ℕ) : ℚ)⌋₊, t))
          _ : Res View) = _
        cases hd2 : draw r.2 with
        | starved => rfl
        | ub => have := draw_holds r.2; rw [hd2] at this; exact this.elim
        | ok r2 =>
          have hh2 := draw_holds r.2
          rw [hd2] at hh2
          simp only [Res.bind_ok, Res.pure_eq]
          rw [hz r2.1 hh2.1 hh2.2]
          have : (View.swap { s with tape := r.2 }).part.inGroup 0 = some 0 := h0
          rw [this]
          dsimp only
          unfold destination
          rw [redraw_forever (fun u h0 h1 => by rw [hz u h0 h1]; rfl)]
          rfl
      rw [this]
      rfl
  rw [this]
  rfl

end RC
