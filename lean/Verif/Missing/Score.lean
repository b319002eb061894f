import Verif.Missing.ScoreModel
import Verif.Missing.Props

/-! # C31: link scores -/

set_option linter.unusedSimpArgs false

namespace LS

open GP RG Finset

variable {net : Net}

theorem bump_apply (c : ℚ) (x y : ℕ) (M : ℕ → ℕ → ℚ) (hxy : x ≠ y) (a b : ℕ) :
    bump c x M y a b = M a b + ((if a = x ∧ b = y then c else 0) + (if b = x ∧ a = y then c else 0)) := by
  unfold bump
  by_cases h1 : a = y
  · subst h1
    by_cases h2 : b = x
    · subst h2; simp [hxy.symm, hxy]
    · simp [h2, hxy.symm, Ne.symm hxy]
  · by_cases h3 : a = x
    · subst h3
      by_cases h4 : b = y
      · subst h4; simp [h1, hxy]
      · simp [h1, h4]
    · simp [h1, h3]

theorem bumps (c : ℚ) (x : ℕ) : ∀ (l : List ℕ) (M : ℕ → ℕ → ℚ), x ∉ l → l.Nodup → ∀ a b,
    l.foldl (bump c x) M a b = M a b + ((if a = x ∧ b ∈ l then c else 0) + (if b = x ∧ a ∈ l then c else 0))
  | [], M, _, _, a, b => by simp
  | y :: l, M, hx, hnd, a, b => by
    rw [List.foldl_cons, bumps c x l _ (fun h => hx (by simp [h])) (List.nodup_cons.1 hnd).2, bump_apply]
    · have hy := (List.nodup_cons.1 hnd).1
      have hxy : x ≠ y := fun h => hx (by simp [h])
      by_cases h1 : a = x
      · subst h1
        by_cases h2 : b = a
        · subst h2
          have : b ∉ l := fun h => hx (by simp [h])
          simp [hxy, this]
        · by_cases h3 : b = y
          · subst h3; simp [h2, hy]
          · simp [h2, h3]
      · by_cases h2 : b = x
        · subst h2
          by_cases h3 : a = y
          · subst h3; simp [h1, hy, hxy]
          · simp [h1, h3]
        · simp [h1, h2]
    · exact fun h => hx (by simp [h])

theorem addWithin_apply (c : ℚ) : ∀ (l : List ℕ) (M : ℕ → ℕ → ℚ), l.Nodup → ∀ a b,
    addWithin c l M a b = M a b + if a ∈ l ∧ b ∈ l ∧ a ≠ b then c else 0
  | [], M, _, a, b => by simp [addWithin]
  | x :: l, M, hnd, a, b => by
    obtain ⟨hx, hnd⟩ := List.nodup_cons.1 hnd
    unfold addWithin
    rw [addWithin_apply c l _ hnd, bumps c x l M hx hnd]
    by_cases h1 : a = x
    · subst h1
      by_cases h2 : b = a
      · subst h2; simp [hx]
      · simp [h2, hx, Ne.symm h2]
    · by_cases h2 : b = x
      · subst h2; simp [h1, hx]
      · simp [h1, h2]

theorem addBetween_apply (c : ℚ) (l' : List ℕ) (hnd' : l'.Nodup) : ∀ (l : List ℕ) (M : ℕ → ℕ → ℚ), l.Nodup →
    (∀ x ∈ l, x ∉ l') → ∀ a b, addBetween c l l' M a b =
      M a b + ((if a ∈ l ∧ b ∈ l' then c else 0) + (if b ∈ l ∧ a ∈ l' then c else 0))
  | [], M, _, _, a, b => by simp [addBetween]
  | x :: l, M, hnd, hd, a, b => by
    obtain ⟨hx, hnd⟩ := List.nodup_cons.1 hnd
    have ih := addBetween_apply c l' hnd' l (l'.foldl (bump c x) M) hnd (fun y hy => hd y (by simp [hy])) a b
    unfold addBetween at ih ⊢
    rw [List.foldl_cons, ih, bumps c x l' M (hd x (by simp)) hnd']
    by_cases h1 : a = x
    · subst h1
      have ha := hd a (by simp)
      by_cases h2 : b = a
      · subst h2; simp [hx, ha]
      · simp [h2, hx, ha]
    · by_cases h2 : b = x
      · subst h2
        have hb := hd b (by simp)
        simp [h1, hx, hb]
      · simp [h1, h2]

theorem fold_add {α : Type} (F : (ℕ → ℕ → ℚ) → α → ℕ → ℕ → ℚ) (δ : α → ℕ → ℕ → ℚ) (l : List α) : 
    (∀ x ∈ l, ∀ M a b, F M x a b = M a b + δ x a b) → ∀ (M : ℕ → ℕ → ℚ) (a b : ℕ),
    l.foldl F M a b = M a b + (l.map fun x => δ x a b).sum := by
  induction l with
  | nil => intro _ M a b; simp
  | cons x l ih =>
    intro h M a b
    rw [List.foldl_cons, ih (fun y hy => h y (by simp [hy])), h x (by simp)]
    simp; ring

/-- The score a division gives to a pair of nodes: `(l+1)/(r+2)`, `l` and `r` being the links and the
pairs between their groups. -/
def score (net : Net) (f : ℕ → Option ℕ) (a b : ℕ) : ℚ :=
  match f a, f b with
  | some g, some g' => ((links net f g g' + 1 : Int) : ℚ) / ((pairs net f g g' + 2 : Int) : ℚ)
  | _, _ => 0

theorem score_symm (h : net.Simple) (f : ℕ → Option ℕ) (a b : ℕ) : score net f a b = score net f b a := by
  unfold score
  cases f a <;> cases f b <;> dsimp only
  rw [links_symm h, pairs_symm]

theorem score_pos (h : net.Simple) {f : ℕ → Option ℕ} {a b g g' : ℕ} (ha : f a = some g) (hb : f b = some g') :
    0 < score net f a b ∧ score net f a b < 1 := by
  unfold score
  rw [ha, hb]
  dsimp only
  have h1 := links_nonneg (net := net) (f := f) g g'
  have h2 := links_le (f := f) h g g'
  have h3 : (0 : ℚ) < ((links net f g g' + 1 : Int) : ℚ) := by exact_mod_cast (by omega)
  have h4 : ((links net f g g' + 1 : Int) : ℚ) < ((pairs net f g g' + 2 : Int) : ℚ) := by exact_mod_cast (by omega)
  exact ⟨div_pos h3 (h3.trans h4), (div_lt_one (h3.trans h4)).2 h4⟩

/-- One sampled partition adds its score to every pair of different nodes. -/
theorem accumulate_eq (h : net.Simple) {p : Part} (hp : PartOK net net.n p) (hf : Full net p)
    {G2G : ℕ → ℕ → Int} (hG : ∀ g < net.n, ∀ g' < net.n, G2G g g' = links net p.inGroup g g')
    (M : ℕ → ℕ → ℚ) {a b : ℕ} (ha : a < net.n) (hb : b < net.n) :
    accumulate net.n p G2G M a b = M a b + if a = b then 0 else score net p.inGroup a b := by
  have hmem : ∀ g < net.n, ∀ x, x ∈ (p.grp g).nodes ↔ x < net.n ∧ p.inGroup x = some g := by
    intro g hg x
    rw [← List.mem_toFinset, (hp.groups g hg).mem, mem_members]
  have hnd : ∀ g < net.n, (p.grp g).nodes.Nodup := fun g hg => (hp.groups g hg).nodup
  obtain ⟨ga, hga⟩ := Option.ne_none_iff_exists'.1 (hf a ha)
  obtain ⟨gb, hgb⟩ := Option.ne_none_iff_exists'.1 (hf b hb)
  have hga' := (hp.range a ga hga).2
  have hgb' := (hp.range b gb hgb).2
  -- the value of a pair of groups
  let c : ℕ → ℕ → ℚ := fun g g' => ((links net p.inGroup g g' + 1 : Int) : ℚ) / ((pairs net p.inGroup g g' + 2 : Int) : ℚ)
  have hcs : ∀ g g', c g g' = c g' g := by
    intro g g'; simp only [c]; rw [links_symm h, pairs_symm]
  let δ : ℕ → ℕ → ℕ → ℚ := fun i a b =>
    (if p.inGroup a = some i ∧ p.inGroup b = some i ∧ a ≠ b then c i i else 0) +
    ((List.range' (i + 1) (net.n - (i + 1))).map fun j =>
      ((if p.inGroup a = some i ∧ p.inGroup b = some j then c i j else 0) +
       (if p.inGroup b = some i ∧ p.inGroup a = some j then c i j else 0))).sum
  have hgroup : ∀ i < net.n, ∀ M, addGroup net.n p G2G M i a b = M a b + δ i a b := by
    intro i hi M
    unfold addGroup
    by_cases h0 : 0 < (p.grp i).size
    · rw [if_pos h0]
      have hstep : ∀ j ∈ List.range' (i + 1) (net.n - (i + 1)), ∀ (M : ℕ → ℕ → ℚ) a b,
          (if 0 < (p.grp j).size then
            addBetween (contrib (G2G i j) ((p.grp i).size * (p.grp j).size)) (p.grp i).nodes (p.grp j).nodes M
          else M) a b = M a b + ((if a ∈ (p.grp i).nodes ∧ b ∈ (p.grp j).nodes then c i j else 0) +
            (if b ∈ (p.grp i).nodes ∧ a ∈ (p.grp j).nodes then c i j else 0)) := by
        intro j hj M a b
        rw [List.mem_range'_1] at hj
        have hjn : j < net.n := by omega
        by_cases h1 : 0 < (p.grp j).size
        · rw [if_pos h1, addBetween_apply _ _ (hnd j hjn) _ _ (hnd i hi)]
          · have : contrib (G2G i j) ((p.grp i).size * (p.grp j).size) = c i j := by
              simp only [c, contrib, hG i hi j hjn, size_eq hp hi, size_eq hp hjn]
              unfold pairs
              rw [if_neg (by omega)]
            rw [this]
          · intro x hx hx'
            rw [hmem i hi] at hx
            rw [hmem j hjn, hx.2] at hx'
            have := Option.some.inj hx'.2
            omega
        · rw [if_neg h1]
          have he : ∀ x, x ∉ (p.grp j).nodes := by
            intro x hx
            rw [hmem j hjn] at hx
            exact h1 ((size_pos hp hjn).2 ⟨x, mem_block.2 hx⟩)
          simp [he]
      rw [fold_add _ _ _ hstep, addWithin_apply _ _ _ (hnd i hi)]
      have e0 : contrib (p.grp i).inlinks ((p.grp i).size * ((p.grp i).size - 1) / 2) = c i i := by
        simp only [c, contrib, inlinks_eq hp h hi, size_eq hp hi]
        unfold pairs
        rw [if_pos rfl]
      rw [e0, add_assoc]
      congr 1
      simp only [δ, hmem i hi, ha, hb, true_and]
      congr 2
      apply List.map_congr_left
      intro j hj
      rw [List.mem_range'_1] at hj
      have hjn : j < net.n := by omega
      simp only [hmem j hjn, ha, hb, true_and]
    · rw [if_neg h0]
      have he : ∀ x < net.n, p.inGroup x ≠ some i := by
        intro x hx hg
        exact h0 ((size_pos hp hi).2 ⟨x, mem_block.2 ⟨hx, hg⟩⟩)
      simp [δ, he a ha, he b hb]
  -- the same with the sum of group contributions
  have hacc : accumulate net.n p G2G M a b = M a b + ∑ i ∈ range net.n, δ i a b := by
    unfold accumulate
    have key : ∀ (l : List ℕ), (∀ i ∈ l, i < net.n) → ∀ M, l.foldl (addGroup net.n p G2G) M a b =
        M a b + (l.map fun i => δ i a b).sum := by
      intro l
      induction l with
      | nil => intro _ M; simp
      | cons x l ih =>
        intro hl M
        rw [List.foldl_cons, ih (fun i hi => hl i (by simp [hi])), hgroup x (hl x (by simp))]
        simp; ring
    rw [key _ (fun i hi => List.mem_range.1 hi), range_sum]
  rw [hacc]
  congr 1
  have hscore : score net p.inGroup a b = c ga gb := by
    unfold score; rw [hga, hgb]
  simp only [δ, range'_sum, hga, hgb, Option.some.injEq]
  rw [sum_add_distrib]
  by_cases hab : a = b
  · subst hab
    rw [hga] at hgb
    have e : ga = gb := Option.some.inj hgb
    subst e
    rw [if_pos rfl]
    simp only [ne_eq, not_true, and_false, if_false, sum_const_zero, zero_add]
    apply sum_eq_zero
    intro i _
    apply sum_eq_zero
    intro j hj
    have hij := (mem_filter.1 hj).2
    rw [if_neg (by omega), add_zero]
  · rw [if_neg hab, hscore]
    by_cases hgg : ga = gb
    · subst hgg
      have e2 : ∑ i ∈ range net.n, ∑ j ∈ (range net.n).filter (i < ·),
          ((if ga = i ∧ ga = j then c i j else 0) + (if ga = i ∧ ga = j then c i j else 0)) = 0 := by
        apply sum_eq_zero
        intro i _
        apply sum_eq_zero
        intro j hj
        have hij := (mem_filter.1 hj).2
        rw [if_neg (by omega), add_zero]
      rw [e2, add_zero, sum_eq_single ga]
      · simp [hab]
      · intro i _ hne; simp [Ne.symm hne]
      · intro hh; exact absurd (mem_range.2 hga') hh
    · have e1 : ∑ i ∈ range net.n, (if ga = i ∧ gb = i ∧ a ≠ b then c i i else 0) = 0 := by
        apply sum_eq_zero
        intro i _
        rw [if_neg (by omega)]
      rw [e1, zero_add]
      have single : ∀ x y, x < net.n → y < net.n → x < y → ∑ i ∈ range net.n, ∑ j ∈ (range net.n).filter (i < ·),
          (if x = i ∧ y = j then c i j else 0) = c x y := by
        intro x y hx hy hxy
        rw [sum_eq_single x]
        · rw [sum_eq_single y]
          · simp
          · intro j _ hj; simp [Ne.symm hj]
          · intro hh; exact absurd (mem_filter.2 ⟨mem_range.2 hy, hxy⟩) hh
        · intro i _ hi; exact sum_eq_zero fun j _ => by simp [Ne.symm hi]
        · intro hh; exact absurd (mem_range.2 hx) hh
      have none : ∀ x y, y < x → ∑ i ∈ range net.n, ∑ j ∈ (range net.n).filter (i < ·),
          (if x = i ∧ y = j then c i j else 0) = 0 := by
        intro x y hxy
        apply sum_eq_zero
        intro i _
        apply sum_eq_zero
        intro j hj
        have hij := (mem_filter.1 hj).2
        rw [if_neg (by omega)]
      simp only [sum_add_distrib]
      rcases Nat.lt_or_gt_of_ne hgg with hlt | hlt
      · rw [single ga gb hga' hgb' hlt, none gb ga hlt, add_zero]
      · rw [single gb ga hgb' hga' hlt, none ga gb hlt, zero_add, hcs]

/-! ## The whole run -/

theorem init_holds (h : net.Simple) {m : ℕ} (hm : 0 < m) : ∀ (vs : List ℕ) (p : Part)
    (t : Tape), PartOK net m p → vs.Nodup → (∀ v ∈ vs, v < net.n ∧ p.inGroup v = none) →
    (∀ v < net.n, v ∉ vs → p.inGroup v ≠ none) →
    (randomInit net m vs p t).Holds fun r => PartOK net m r.1 ∧ Full net r.1
  | [], p, t, hp, _, _, hf => ⟨hp, fun v hv => hf v hv (by simp)⟩
  | v :: vs, p, t, hp, hnd, hv, hf => by
    unfold randomInit
    refine (pick_holds hm t).bind ?_
    rintro ⟨des, t'⟩ hd
    dsimp only at *
    rw [if_pos hd]
    rw [List.nodup_cons] at hnd
    obtain ⟨hvn, hvf⟩ := hv v (by simp)
    apply init_holds h hm vs _ _ (add_ok h hp hvn hd hvf) hnd.2
    · intro u hu
      refine ⟨(hv u (by simp [hu])).1, ?_⟩
      have : u ≠ v := by rintro rfl; exact hnd.1 hu
      simp only [AddNodeToGroup, Function.update_of_ne this]
      exact (hv u (by simp [hu])).2
    · intro u hu hu'
      simp only [AddNodeToGroup]
      by_cases e : u = v
      · subst e; simp
      · rw [Function.update_of_ne e]; exact hf u hu (by simp [e, hu'])

theorem initG2G_eq (h : net.Simple) {p : Part} (hp : PartOK net net.n p) {i j : ℕ} (hi : i < net.n) (hj : j < net.n) :
    initG2G net p i j = links net p.inGroup i j := by
  unfold initG2G
  by_cases e : i = j
  · subst e; rw [if_pos rfl, inlinks_eq hp h hi]
  · rw [if_neg e]
    split_ifs
    · exact ng2g_eq hp h hi e
    · rw [ng2g_eq hp h hj (Ne.symm e), links_symm h]

theorem steps_good (h : net.Simple) (acc : ℝ → ℚ → Bool) (linC : ℝ) : ∀ (fs : List ℕ) (s : St), Good net linC s →
    (steps acc net linC fs s).Holds (Good net linC)
  | [], _, hs => hs
  | f :: fs, s, hs => by
    unfold steps
    exact (C29_step_partial h acc linC f s hs).bind fun s' hs' => steps_good h acc linC fs s' hs'

theorem sample_holds (h : net.Simple) {linC : ℝ} {step : St → Res St}
    (hstep : ∀ s, Good net linC s → (step s).Holds (Good net linC)) : ∀ (k : ℕ) (s : St) (M : ℕ → ℕ → ℚ) (tr : List St),
    Good net linC s → (∀ s ∈ tr, Good net linC s) →
    (sample step net.n k s M tr).Holds fun r => (∃ tr', r.2 = tr ++ tr' ∧ tr'.length = k ∧
      ∀ a < net.n, ∀ b < net.n, r.1 a b = M a b + (tr'.map fun s => if a = b then 0 else score net s.part.inGroup a b).sum)
      ∧ ∀ s ∈ r.2, Good net linC s
  | 0, s, M, tr, _, htr => ⟨⟨[], by simp, rfl, by simp⟩, htr⟩
  | k + 1, s, M, tr, hs, htr => by
    unfold sample
    refine (hstep s hs).bind ?_
    intro s' hs'
    refine (sample_holds h hstep k s' _ (tr ++ [s']) hs' ?_).mono ?_
    · intro x hx
      rcases List.mem_append.1 hx with h1 | h1
      · exact htr x h1
      · rw [List.mem_singleton] at h1; rw [h1]; exact hs'
    · rintro ⟨M', tr''⟩ ⟨⟨tr', e1, e2, e3⟩, e4⟩
      dsimp only at *
      refine ⟨⟨s' :: tr', by rw [e1]; simp, by simp [e2], ?_⟩, e4⟩
      intro a ha b hb
      rw [e3 a ha b hb, accumulate_eq h hs'.part hs'.full hs'.counts _ ha hb]
      simp; ring

/-- What a matrix of scores has to be, given the sampled states. -/
structure ScoresOK (net : Net) (linC : ℝ) (nIter : ℕ) (M : ℕ → ℕ → ℚ) (tr : List St) : Prop where
  sampled : tr.length = nIter
  exact_states : ∀ s ∈ tr, Exact net linC s
  average : ∀ a < net.n, ∀ b < net.n, a ≠ b → M a b = (tr.map fun s => score net s.part.inGroup a b).sum / nIter
  diagonal : ∀ a < net.n, M a a = 0
  symmetric : ∀ a < net.n, ∀ b < net.n, M a b = M b a
  bounds : ∀ a < net.n, ∀ b < net.n, a ≠ b → 0 < M a b ∧ M a b < 1

theorem sum_bounds {α : Type} (g : α → ℚ) : ∀ (l : List α), (∀ x ∈ l, 0 < g x ∧ g x < 1) → l ≠ [] →
    0 < (l.map g).sum ∧ (l.map g).sum < l.length
  | [], _, h => absurd rfl h
  | [x], h, _ => by simpa using h x (by simp)
  | x :: y :: l, h, _ => by
    have ih := sum_bounds g (y :: l) (fun z hz => h z (by simp [hz])) (by simp)
    have hx := h x (by simp)
    rw [List.map_cons, List.sum_cons, List.length_cons]
    push_cast
    exact ⟨by linarith [ih.1], by linarith [ih.2]⟩

theorem scores_ok (h : net.Simple) {linC : ℝ} {nIter : ℕ} (hI : 0 < nIter) {M : ℕ → ℕ → ℚ} {tr : List St}
    (hl : tr.length = nIter) (hg : ∀ s ∈ tr, Exact net linC s)
    (hM : ∀ a < net.n, ∀ b < net.n, M a b = (tr.map fun s => if a = b then 0 else score net s.part.inGroup a b).sum) :
    ScoresOK net linC nIter (fun i j => M i j / nIter) tr := by
  have hI' : (0 : ℚ) < nIter := by exact_mod_cast hI
  refine ⟨hl, hg, ?_, ?_, ?_, ?_⟩
  · intro a ha b hb hab
    rw [hM a ha b hb]; simp [hab]
  · intro a ha
    rw [hM a ha a ha]; simp
  · intro a ha b hb
    rw [hM a ha b hb, hM b hb a ha]
    congr 2
    apply List.map_congr_left
    intro s _
    by_cases e : a = b
    · simp [e]
    · rw [if_neg e, if_neg (Ne.symm e), score_symm h]
  · intro a ha b hb hab
    rw [hM a ha b hb]
    simp only [hab, if_false]
    have := sum_bounds (fun s : St => score net s.part.inGroup a b) tr (fun s hs => by
      obtain ⟨g, hg1⟩ := Option.ne_none_iff_exists'.1 ((hg s hs).full a ha)
      obtain ⟨g', hg2⟩ := Option.ne_none_iff_exists'.1 ((hg s hs).full b hb)
      exact score_pos h hg1 hg2) (by rintro rfl; simp at hl; omega)
    rw [hl] at this
    exact ⟨div_pos this.1 hI', (div_lt_one hI').2 this.2⟩

/-- **C31 (partial)**: for every random stream, acceptance rule, and every course of the warm-up,
`LinkScore` stays in its arrays and returns a symmetric matrix with diagonal 0 whose other entries
lie strictly between 0 and 1 and are the averages over the sampled partitions of `(l+1)/(r+2)`.
Missing from the full property: the uninitialised scratch array is supposed to hold zeros (see
`C29_uninitialised`). -/
theorem C31_scores_partial (h : net.Simple) (hn : 0 < net.n) (acc : ℝ → ℚ → Bool) (linC : ℝ) {nIter : ℕ}
    (hI : 0 < nIter) (warm : List ℕ) (decorStep : ℕ) {scratch : ℕ → Int} (hz : ∀ g < net.n, scratch g = 0) (t : Tape) :
    (LinkScore acc net linC nIter warm decorStep scratch t).Holds fun r => ScoresOK net linC nIter r.1 r.2 := by
  unfold LinkScore
  refine (init_holds h hn (List.range net.n) Part.empty t (empty_ok net net.n) List.nodup_range
    (fun v hv => ⟨List.mem_range.1 hv, rfl⟩) (fun v hv hv' => absurd (List.mem_range.2 hv) hv')).bind ?_
  rintro ⟨p, t'⟩ ⟨hp, hf⟩
  dsimp only at *
  rw [partitionH_eq h hp hf]
  simp only [Res.ofOption_some, Res.bind_ok]
  refine (steps_good h acc linC warm _ ⟨hp, hf, fun i hi j hj => initG2G_eq h hp hi hj, fun g hg _ => hz g hg,
    partitionH_eq h hp hf linC⟩).bind ?_
  intro s hs
  refine (sample_holds h (fun s hs => C29_step_partial h acc linC decorStep s hs) nIter s (fun _ _ => 0) [] hs
    (by simp)).bind ?_
  rintro ⟨M, tr⟩ ⟨⟨tr', e1, e2, e3⟩, e4⟩
  dsimp only at *
  rw [List.nil_append] at e1
  subst e1
  exact scores_ok h hI e2 (fun s hs => (e4 s hs).toExact) (fun a ha b hb => by rw [e3 a ha b hb, zero_add])

/-- Non-vacuity: on a network of three nodes and with no attempt to move (`decorStep = 0`), the run
returns two samples. -/
example : ∃ M tr, LinkScore (fun _ _ => true) three 0 2 [] 0 (fun _ => 0) [0, 1 / 2, 0] = .ok (M, tr) := by
  have h := C31_scores_partial three_simple (by decide) (fun _ _ => true) 0 (nIter := 2) (by omega) [] 0
    (scratch := fun _ => 0) (fun _ _ => rfl) [0, 1 / 2, 0]
  have hr : ∃ p t, randomInit three 3 (List.range 3) Part.empty [0, 1 / 2, 0] = .ok (p, t) := by
    have hb : (match randomInit three 3 (List.range 3) Part.empty [0, 1 / 2, 0] with
        | .ok _ => true
        | _ => false) = true := by decide +kernel
    revert hb
    rcases randomInit three 3 (List.range 3) Part.empty [0, 1 / 2, 0] with ⟨p, t⟩ | _ | _
    · exact fun _ => ⟨p, t, rfl⟩
    · intro hb; simp at hb
    · intro hb; simp at hb
  obtain ⟨p, t, e⟩ := hr
  unfold LinkScore at h ⊢
  have e' : randomInit three three.n (List.range three.n) Part.empty [0, 1 / 2, 0] = .ok (p, t) := e
  rw [e'] at h ⊢
  simp only [Res.bind_ok] at h ⊢
  cases hH : PartitionH three three.n 0 p with
  | none => rw [hH] at h; exact absurd h (by simp)
  | some H =>
    exact ⟨_, _, rfl⟩

end LS
