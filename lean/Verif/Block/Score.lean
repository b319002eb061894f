import Verif.Block.Gibbs

/-! # Scores, for a general pair term -/

set_option linter.unusedSimpArgs false

namespace BK

open GP hiding St
open RG LS Finset

variable {net : Net} {K : Kern} {F S : Int → Int → ℝ} {D : ℕ → ℝ} {c : ℝ}

/-- On a network of `n` nodes the kernel computes the score `S` of a pair of nodes. -/
structure Scores (K : Kern) (n : ℕ) (S : Int → Int → ℝ) : Prop where
  score : ∀ r l : Int, 0 ≤ l → l ≤ r → 2 * r ≤ n * ((n : Int) - 1) → K.score r l = some (S r l)
  bounds : ∀ r l : Int, 0 ≤ l → l ≤ r → 0 < S r l ∧ S r l < 1

theorem bump_applyR (c : ℝ) (x y : ℕ) (M : ℕ → ℕ → ℝ) (hxy : x ≠ y) (a b : ℕ) :
    bumpR c x M y a b = M a b + ((if a = x ∧ b = y then c else 0) + (if b = x ∧ a = y then c else 0)) := by
  unfold bumpR
  by_cases h1 : a = y
  · subst h1
    by_cases h2 : b = x
    · subst h2; simp [hxy.symm, hxy]
    · simp [h2, hxy.symm, Ne.symm hxy]
  · by_cases h3 : a = x
    · subst h3
      by_cases h4 : b = y
      · subst h4; simp [h1, hxy]
      · simp [h1, h4]
    · simp [h1, h3]

theorem bumpsR (c : ℝ) (x : ℕ) : ∀ (l : List ℕ) (M : ℕ → ℕ → ℝ), x ∉ l → l.Nodup → ∀ a b,
    l.foldl (bumpR c x) M a b = M a b + ((if a = x ∧ b ∈ l then c else 0) + (if b = x ∧ a ∈ l then c else 0))
  | [], M, _, _, a, b => by simp
  | y :: l, M, hx, hnd, a, b => by
    rw [List.foldl_cons, bumpsR c x l _ (fun h => hx (by simp [h])) (List.nodup_cons.1 hnd).2, bump_applyR]
    · have hy := (List.nodup_cons.1 hnd).1
      have hxy : x ≠ y := fun h => hx (by simp [h])
      by_cases h1 : a = x
      · subst h1
        by_cases h2 : b = a
        · subst h2
          have : b ∉ l := fun h => hx (by simp [h])
          simp [hxy, this]
        · by_cases h3 : b = y
          · subst h3; simp [h2, hy]
          · simp [h2, h3]
      · by_cases h2 : b = x
        · subst h2
          by_cases h3 : a = y
          · subst h3; simp [h1, hy, hxy]
          · simp [h1, h3]
        · simp [h1, h2]
    · exact fun h => hx (by simp [h])

theorem addWithin_applyR (c : ℝ) : ∀ (l : List ℕ) (M : ℕ → ℕ → ℝ), l.Nodup → ∀ a b,
    addWithinR c l M a b = M a b + if a ∈ l ∧ b ∈ l ∧ a ≠ b then c else 0
  | [], M, _, a, b => by simp [addWithinR]
  | x :: l, M, hnd, a, b => by
    obtain ⟨hx, hnd⟩ := List.nodup_cons.1 hnd
    unfold addWithinR
    rw [addWithin_applyR c l _ hnd, bumpsR c x l M hx hnd]
    by_cases h1 : a = x
    · subst h1
      by_cases h2 : b = a
      · subst h2; simp [hx]
      · simp [h2, hx, Ne.symm h2]
    · by_cases h2 : b = x
      · subst h2; simp [h1, hx]
      · simp [h1, h2]

theorem addBetween_applyR (c : ℝ) (l' : List ℕ) (hnd' : l'.Nodup) : ∀ (l : List ℕ) (M : ℕ → ℕ → ℝ), l.Nodup →
    (∀ x ∈ l, x ∉ l') → ∀ a b, addBetweenR c l l' M a b =
      M a b + ((if a ∈ l ∧ b ∈ l' then c else 0) + (if b ∈ l ∧ a ∈ l' then c else 0))
  | [], M, _, _, a, b => by simp [addBetweenR]
  | x :: l, M, hnd, hd, a, b => by
    obtain ⟨hx, hnd⟩ := List.nodup_cons.1 hnd
    have ih := addBetween_applyR c l' hnd' l (l'.foldl (bumpR c x) M) hnd (fun y hy => hd y (by simp [hy])) a b
    unfold addBetweenR at ih ⊢
    rw [List.foldl_cons, ih, bumpsR c x l' M (hd x (by simp)) hnd']
    by_cases h1 : a = x
    · subst h1
      have ha := hd a (by simp)
      by_cases h2 : b = a
      · subst h2; simp [hx, ha]
      · simp [h2, hx, ha]
    · by_cases h2 : b = x
      · subst h2
        have hb := hd b (by simp)
        simp [h1, hx, hb]
      · simp [h1, h2]

theorem fold_addR {α : Type} (F : (ℕ → ℕ → ℝ) → α → ℕ → ℕ → ℝ) (δ : α → ℕ → ℕ → ℝ) (l : List α) : 
    (∀ x ∈ l, ∀ M a b, F M x a b = M a b + δ x a b) → ∀ (M : ℕ → ℕ → ℝ) (a b : ℕ),
    l.foldl F M a b = M a b + (l.map fun x => δ x a b).sum := by
  induction l with
  | nil => intro _ M a b; simp
  | cons x l ih =>
    intro h M a b
    rw [List.foldl_cons, ih (fun y hy => h y (by simp [hy])), h x (by simp)]
    simp; ring

/-- The score a division gives to a pair of nodes. -/
noncomputable def score (S : Int → Int → ℝ) (net : Net) (f : ℕ → Option ℕ) (a b : ℕ) : ℝ :=
  match f a, f b with
  | some g, some g' => S (pairs net f g g') (links net f g g')
  | _, _ => 0

theorem score_symm (h : net.Simple) (f : ℕ → Option ℕ) (a b : ℕ) : score S net f a b = score S net f b a := by
  unfold score
  cases f a <;> cases f b <;> dsimp only
  rw [links_symm h, pairs_symm]

theorem score_pos (hS : Scores K net.n S) (h : net.Simple) {f : ℕ → Option ℕ} {a b g g' : ℕ} (ha : f a = some g)
    (hb : f b = some g') : 0 < score S net f a b ∧ score S net f a b < 1 := by
  unfold score
  rw [ha, hb]
  exact hS.bounds _ _ (links_nonneg g g') (links_le h g g')

/-- `addGroup` where all scores are defined. -/
noncomputable def addGroupP (S : Int → Int → ℝ) (n : ℕ) (p : Part) (G2G : ℕ → ℕ → Int) (M : ℕ → ℕ → ℝ) (i : ℕ) :
    ℕ → ℕ → ℝ :=
  if 0 < (p.grp i).size then
    (List.range' (i + 1) (n - (i + 1))).foldl (fun M j =>
      if 0 < (p.grp j).size then
        addBetweenR (S ((p.grp i).size * (p.grp j).size) (G2G i j)) (p.grp i).nodes (p.grp j).nodes M
      else M) (addWithinR (S ((p.grp i).size * ((p.grp i).size - 1) / 2) (p.grp i).inlinks) (p.grp i).nodes M)
  else M

theorem foldlM_some {α β : Type} {f : β → α → Option β} {g : β → α → β} : ∀ (l : List α) (b : β),
    (∀ x ∈ l, ∀ b, f b x = some (g b x)) → l.foldlM f b = some (l.foldl g b)
  | [], _, _ => rfl
  | x :: l, b, h => by
    rw [List.foldlM_cons, h x (by simp)]
    exact foldlM_some l _ (fun y hy => h y (by simp [hy]))

theorem accumulate_pure (hS : Scores K net.n S) (h : net.Simple) {p : Part} (hp : PartOK net net.n p)
    {G2G : ℕ → ℕ → Int} (hG : ∀ g < net.n, ∀ g' < net.n, G2G g g' = links net p.inGroup g g') (M : ℕ → ℕ → ℝ) :
    accumulate K net.n p G2G M = some ((List.range net.n).foldl (addGroupP S net.n p G2G) M) := by
  have hsc : ∀ g g', K.score (pairs net p.inGroup g g') (links net p.inGroup g g') =
      some (S (pairs net p.inGroup g g') (links net p.inGroup g g')) := fun g g' =>
    hS.score _ _ (links_nonneg g g') (links_le h g g') (pairs_le net p.inGroup g g')
  unfold accumulate
  apply foldlM_some
  intro i hi M
  have hi := List.mem_range.1 hi
  unfold addGroup addGroupP
  by_cases h0 : 0 < (p.grp i).size
  · rw [if_pos h0, if_pos h0]
    have e := hsc i i
    unfold pairs at e
    rw [if_pos rfl, ← size_eq hp hi, ← inlinks_eq hp h hi] at e
    rw [e]
    simp only [Option.bind_eq_bind, Option.bind_some]
    apply foldlM_some
    intro j hj M
    rw [List.mem_range'_1] at hj
    have hjn : j < net.n := by omega
    by_cases h1 : 0 < (p.grp j).size
    · rw [if_pos h1, if_pos h1]
      have e := hsc i j
      unfold pairs at e
      rw [if_neg (by omega), ← size_eq hp hi, ← size_eq hp hjn, ← hG i hi j hjn] at e
      rw [e]
      rfl
    · rw [if_neg h1, if_neg h1]
  · rw [if_neg h0, if_neg h0]

/-- One sampled partition adds its score to every pair of different nodes. -/
theorem accumulate_eq (h : net.Simple) {p : Part} (hp : PartOK net net.n p) (hf : Full net p)
    {G2G : ℕ → ℕ → Int} (hG : ∀ g < net.n, ∀ g' < net.n, G2G g g' = links net p.inGroup g g')
    (M : ℕ → ℕ → ℝ) {a b : ℕ} (ha : a < net.n) (hb : b < net.n) :
    (List.range net.n).foldl (addGroupP S net.n p G2G) M a b = M a b + if a = b then 0 else score S net p.inGroup a b := by
  have hmem : ∀ g < net.n, ∀ x, x ∈ (p.grp g).nodes ↔ x < net.n ∧ p.inGroup x = some g := by
    intro g hg x
    rw [← List.mem_toFinset, (hp.groups g hg).mem, mem_members]
  have hnd : ∀ g < net.n, (p.grp g).nodes.Nodup := fun g hg => (hp.groups g hg).nodup
  obtain ⟨ga, hga⟩ := Option.ne_none_iff_exists'.1 (hf a ha)
  obtain ⟨gb, hgb⟩ := Option.ne_none_iff_exists'.1 (hf b hb)
  have hga' := (hp.range a ga hga).2
  have hgb' := (hp.range b gb hgb).2
  -- the value of a pair of groups
  let c : ℕ → ℕ → ℝ := fun g g' => S (pairs net p.inGroup g g') (links net p.inGroup g g')
  have hcs : ∀ g g', c g g' = c g' g := by
    intro g g'; simp only [c]; rw [links_symm h, pairs_symm]
  let δ : ℕ → ℕ → ℕ → ℝ := fun i a b =>
    (if p.inGroup a = some i ∧ p.inGroup b = some i ∧ a ≠ b then c i i else 0) +
    ((List.range' (i + 1) (net.n - (i + 1))).map fun j =>
      ((if p.inGroup a = some i ∧ p.inGroup b = some j then c i j else 0) +
       (if p.inGroup b = some i ∧ p.inGroup a = some j then c i j else 0))).sum
  have hgroup : ∀ i < net.n, ∀ M, addGroupP S net.n p G2G M i a b = M a b + δ i a b := by
    intro i hi M
    unfold addGroupP
    by_cases h0 : 0 < (p.grp i).size
    · rw [if_pos h0]
      have hstep : ∀ j ∈ List.range' (i + 1) (net.n - (i + 1)), ∀ (M : ℕ → ℕ → ℝ) a b,
          (if 0 < (p.grp j).size then
            addBetweenR (S ((p.grp i).size * (p.grp j).size) (G2G i j)) (p.grp i).nodes (p.grp j).nodes M
          else M) a b = M a b + ((if a ∈ (p.grp i).nodes ∧ b ∈ (p.grp j).nodes then c i j else 0) +
            (if b ∈ (p.grp i).nodes ∧ a ∈ (p.grp j).nodes then c i j else 0)) := by
        intro j hj M a b
        rw [List.mem_range'_1] at hj
        have hjn : j < net.n := by omega
        by_cases h1 : 0 < (p.grp j).size
        · rw [if_pos h1, addBetween_applyR _ _ (hnd j hjn) _ _ (hnd i hi)]
          · have : S ((p.grp i).size * (p.grp j).size) (G2G i j) = c i j := by
              simp only [c, hG i hi j hjn, size_eq hp hi, size_eq hp hjn]
              unfold pairs
              rw [if_neg (by omega)]
            rw [this]
          · intro x hx hx'
            rw [hmem i hi] at hx
            rw [hmem j hjn, hx.2] at hx'
            have := Option.some.inj hx'.2
            omega
        · rw [if_neg h1]
          have he : ∀ x, x ∉ (p.grp j).nodes := by
            intro x hx
            rw [hmem j hjn] at hx
            exact h1 ((size_pos hp hjn).2 ⟨x, mem_block.2 hx⟩)
          simp [he]
      rw [fold_addR _ _ _ hstep, addWithin_applyR _ _ _ (hnd i hi)]
      have e0 : S ((p.grp i).size * ((p.grp i).size - 1) / 2) (p.grp i).inlinks = c i i := by
        simp only [c, inlinks_eq hp h hi, size_eq hp hi]
        unfold pairs
        rw [if_pos rfl]
      rw [e0, add_assoc]
      congr 1
      simp only [δ, hmem i hi, ha, hb, true_and]
      congr 2
      apply List.map_congr_left
      intro j hj
      rw [List.mem_range'_1] at hj
      have hjn : j < net.n := by omega
      simp only [hmem j hjn, ha, hb, true_and]
    · rw [if_neg h0]
      have he : ∀ x < net.n, p.inGroup x ≠ some i := by
        intro x hx hg
        exact h0 ((size_pos hp hi).2 ⟨x, mem_block.2 ⟨hx, hg⟩⟩)
      simp [δ, he a ha, he b hb]
  -- the same with the sum of group contributions
  have hacc : (List.range net.n).foldl (addGroupP S net.n p G2G) M a b = M a b + ∑ i ∈ range net.n, δ i a b := by
    have key : ∀ (l : List ℕ), (∀ i ∈ l, i < net.n) → ∀ M, l.foldl (addGroupP S net.n p G2G) M a b =
        M a b + (l.map fun i => δ i a b).sum := by
      intro l
      induction l with
      | nil => intro _ M; simp
      | cons x l ih =>
        intro hl M
        rw [List.foldl_cons, ih (fun i hi => hl i (by simp [hi])), hgroup x (hl x (by simp))]
        simp; ring
    rw [key _ (fun i hi => List.mem_range.1 hi), range_sum]
  rw [hacc]
  congr 1
  have hscore : score S net p.inGroup a b = c ga gb := by
    unfold score; rw [hga, hgb]
  simp only [δ, range'_sum, hga, hgb, Option.some.injEq]
  rw [sum_add_distrib]
  by_cases hab : a = b
  · subst hab
    rw [hga] at hgb
    have e : ga = gb := Option.some.inj hgb
    subst e
    rw [if_pos rfl]
    simp only [ne_eq, not_true, and_false, if_false, sum_const_zero, zero_add]
    apply sum_eq_zero
    intro i _
    apply sum_eq_zero
    intro j hj
    have hij := (mem_filter.1 hj).2
    rw [if_neg (by omega), add_zero]
  · rw [if_neg hab, hscore]
    by_cases hgg : ga = gb
    · subst hgg
      have e2 : ∑ i ∈ range net.n, ∑ j ∈ (range net.n).filter (i < ·),
          ((if ga = i ∧ ga = j then c i j else 0) + (if ga = i ∧ ga = j then c i j else 0)) = 0 := by
        apply sum_eq_zero
        intro i _
        apply sum_eq_zero
        intro j hj
        have hij := (mem_filter.1 hj).2
        rw [if_neg (by omega), add_zero]
      rw [e2, add_zero, sum_eq_single ga]
      · simp [hab]
      · intro i _ hne; simp [Ne.symm hne]
      · intro hh; exact absurd (mem_range.2 hga') hh
    · have e1 : ∑ i ∈ range net.n, (if ga = i ∧ gb = i ∧ a ≠ b then c i i else 0) = 0 := by
        apply sum_eq_zero
        intro i _
        rw [if_neg (by omega)]
      rw [e1, zero_add]
      have single : ∀ x y, x < net.n → y < net.n → x < y → ∑ i ∈ range net.n, ∑ j ∈ (range net.n).filter (i < ·),
          (if x = i ∧ y = j then c i j else 0) = c x y := by
        intro x y hx hy hxy
        rw [sum_eq_single x]
        · rw [sum_eq_single y]
          · simp
          · intro j _ hj; simp [Ne.symm hj]
          · intro hh; exact absurd (mem_filter.2 ⟨mem_range.2 hy, hxy⟩) hh
        · intro i _ hi; exact sum_eq_zero fun j _ => by simp [Ne.symm hi]
        · intro hh; exact absurd (mem_range.2 hx) hh
      have none : ∀ x y, y < x → ∑ i ∈ range net.n, ∑ j ∈ (range net.n).filter (i < ·),
          (if x = i ∧ y = j then c i j else 0) = 0 := by
        intro x y hxy
        apply sum_eq_zero
        intro i _
        apply sum_eq_zero
        intro j hj
        have hij := (mem_filter.1 hj).2
        rw [if_neg (by omega)]
      simp only [sum_add_distrib]
      rcases Nat.lt_or_gt_of_ne hgg with hlt | hlt
      · rw [single ga gb hga' hgb' hlt, none gb ga hlt, add_zero]
      · rw [single gb ga hgb' hga' hlt, none ga gb hlt, zero_add, hcs]

theorem sum_boundsR {α : Type} (g : α → ℝ) : ∀ (l : List α), (∀ x ∈ l, 0 < g x ∧ g x < 1) → l ≠ [] →
    0 < (l.map g).sum ∧ (l.map g).sum < l.length
  | [], _, h => absurd rfl h
  | [x], h, _ => by simpa using h x (by simp)
  | x :: y :: l, h, _ => by
    have ih := sum_boundsR g (y :: l) (fun z hz => h z (by simp [hz])) (by simp)
    have hx := h x (by simp)
    rw [List.map_cons, List.sum_cons, List.length_cons]
    push_cast
    exact ⟨by linarith [ih.1], by linarith [ih.2]⟩

/-- What a matrix of scores has to be, given the sampled states. -/
structure ScoresOK (F : Int → Int → ℝ) (D : ℕ → ℝ) (S : Int → Int → ℝ) (net : Net) (linC c : ℝ) (nIter : ℕ)
    (M : ℕ → ℕ → ℝ) (tr : List St) : Prop where
  sampled : tr.length = nIter
  exact_states : ∀ s ∈ tr, Exact F D net linC c s
  average : ∀ a < net.n, ∀ b < net.n, a ≠ b → M a b = (tr.map fun s => score S net s.part.inGroup a b).sum / nIter
  diagonal : ∀ a < net.n, M a a = 0
  symmetric : ∀ a < net.n, ∀ b < net.n, M a b = M b a
  bounds : ∀ a < net.n, ∀ b < net.n, a ≠ b → 0 < M a b ∧ M a b < 1

theorem scores_ok (hS : Scores K net.n S) (h : net.Simple) {linC : ℝ} {nIter : ℕ} (hI : 0 < nIter) {M : ℕ → ℕ → ℝ} {tr : List St}
    (hl : tr.length = nIter) (hg : ∀ s ∈ tr, Exact F D net linC c s)
    (hM : ∀ a < net.n, ∀ b < net.n, M a b = (tr.map fun s => if a = b then 0 else score S net s.part.inGroup a b).sum) :
    ScoresOK F D S net linC c nIter (fun i j => M i j / nIter) tr := by
  have hI' : (0 : ℝ) < nIter := by exact_mod_cast hI
  refine ⟨hl, hg, ?_, ?_, ?_, ?_⟩
  · intro a ha b hb hab
    rw [hM a ha b hb]; simp [hab]
  · intro a ha
    rw [hM a ha a ha]; simp
  · intro a ha b hb
    rw [hM a ha b hb, hM b hb a ha]
    congr 2
    apply List.map_congr_left
    intro s _
    by_cases e : a = b
    · simp [e]
    · rw [if_neg e, if_neg (Ne.symm e), score_symm h]
  · intro a ha b hb hab
    rw [hM a ha b hb]
    simp only [hab, if_false]
    have := sum_boundsR (fun s : St => score S net s.part.inGroup a b) tr (fun s hs => by
      obtain ⟨g, hg1⟩ := Option.ne_none_iff_exists'.1 ((hg s hs).full a ha)
      obtain ⟨g', hg2⟩ := Option.ne_none_iff_exists'.1 ((hg s hs).full b hb)
      exact score_pos hS h hg1 hg2) (by rintro rfl; simp at hl; omega)
    rw [hl] at this
    exact ⟨div_pos this.1 hI', (div_lt_one hI').2 this.2⟩

theorem sample_holds (hS : Scores K net.n S) (h : net.Simple) {linC : ℝ} {step : St → Res St}
    (hstep : ∀ s, Exact F D net linC c s → (step s).Holds (Exact F D net linC c)) :
    ∀ (k : ℕ) (s : St) (M : ℕ → ℕ → ℝ) (tr : List St),
    Exact F D net linC c s → (∀ s ∈ tr, Exact F D net linC c s) →
    (sample K step net.n k s M tr).Holds fun r => (∃ tr', r.2 = tr ++ tr' ∧ tr'.length = k ∧
      ∀ a < net.n, ∀ b < net.n, r.1 a b = M a b + (tr'.map fun s => if a = b then 0 else score S net s.part.inGroup a b).sum)
      ∧ ∀ s ∈ r.2, Exact F D net linC c s
  | 0, s, M, tr, _, htr => ⟨⟨[], by simp, rfl, by simp⟩, htr⟩
  | k + 1, s, M, tr, hs, htr => by
    unfold sample
    refine (hstep s hs).bind ?_
    intro s' hs'
    rw [accumulate_pure hS h hs'.part hs'.counts]
    simp only [Res.ofOption_some, Res.bind_ok]
    refine (sample_holds hS h hstep k s' _ (tr ++ [s']) hs' ?_).mono ?_
    · intro x hx
      rcases List.mem_append.1 hx with h1 | h1
      · exact htr x h1
      · rw [List.mem_singleton] at h1; rw [h1]; exact hs'
    · rintro ⟨M', tr''⟩ ⟨⟨tr', e1, e2, e3⟩, e4⟩
      dsimp only at *
      refine ⟨⟨s' :: tr', by rw [e1]; simp, by simp [e2], ?_⟩, e4⟩
      intro a ha b hb
      rw [e3 a ha b hb, accumulate_eq h hs'.part hs'.full hs'.counts _ ha hb]
      simp; ring

theorem sample_safe (hS : Scores K net.n S) (h : net.Simple) {linC : ℝ} {step : St → Res St}
    (hstep : ∀ s, Exact F D net linC c s → Safe (Exact F D net linC c) (step s)) :
    ∀ (k : ℕ) (s : St) (M : ℕ → ℕ → ℝ) (tr : List St),
    Exact F D net linC c s → (∀ s ∈ tr, Exact F D net linC c s) →
    Safe (fun r => (∃ tr', r.2 = tr ++ tr' ∧ tr'.length = k ∧
      ∀ a < net.n, ∀ b < net.n, r.1 a b = M a b + (tr'.map fun s => if a = b then 0 else score S net s.part.inGroup a b).sum)
      ∧ ∀ s ∈ r.2, Exact F D net linC c s) (sample K step net.n k s M tr)
  | 0, s, M, tr, _, htr => ⟨⟨[], by simp, rfl, by simp⟩, htr⟩
  | k + 1, s, M, tr, hs, htr => by
    unfold sample
    refine (hstep s hs).bind ?_
    intro s' hs'
    rw [accumulate_pure hS h hs'.part hs'.counts]
    simp only [Res.ofOption_some, Res.bind_ok]
    have ih := sample_safe hS h hstep k s' ((List.range net.n).foldl (addGroupP S net.n s'.part s'.G2G) M) (tr ++ [s']) hs' (by
      intro x hx
      rcases List.mem_append.1 hx with h1 | h1
      · exact htr x h1
      · rw [List.mem_singleton] at h1; rw [h1]; exact hs')
    cases hr : sample K step net.n k s' ((List.range net.n).foldl (addGroupP S net.n s'.part s'.G2G) M) (tr ++ [s']) with
    | starved => trivial
    | ub => trivial
    | ok r =>
      rw [hr] at ih
      obtain ⟨⟨tr', e1, e2, e3⟩, e4⟩ := ih
      refine ⟨⟨s' :: tr', by rw [e1]; simp, by simp [e2], ?_⟩, e4⟩
      intro a ha b hb
      rw [e3 a ha b hb, accumulate_eq h hs'.part hs'.full hs'.counts _ ha hb]
      simp; ring

theorem linkScore_holds (hK : Computes K net.n F D) (hS : Scores K net.n S) (h : net.Simple) (hn : 0 < net.n)
    (debug : Bool) (acc : ℝ → ℚ → Bool) (linC : ℝ) {nIter : ℕ} (hI : 0 < nIter) (warm : List ℕ) (decorStep : ℕ) (scratch : ℕ → Int)
    (t : Tape) : (LinkScoreMB K debug acc net linC nIter warm decorStep scratch t).Holds fun r =>
      ∃ c, (debug = true → c = 0) ∧ ScoresOK F D S net linC c nIter r.1 r.2 := by
  unfold LinkScoreMB
  refine (init_holds h hn (List.range net.n) Part.empty t (empty_ok net net.n) List.nodup_range
    (fun v hv => ⟨List.mem_range.1 hv, rfl⟩) (fun v hv hv' => absurd (List.mem_range.2 hv) hv')).bind ?_
  rintro ⟨p, t'⟩ ⟨hp, hf⟩
  dsimp only at *
  rw [partitionH_eq hK h hp hf]
  simp only [Res.ofOption_some, Res.bind_ok]
  refine (steps_exact hK h acc linC (c := 0) warm _ ⟨hp, hf, fun i hi j hj => initG2G_eq h hp hi hj,
    (add_zero _).symm⟩).bind ?_
  intro s hs
  obtain ⟨c, hc, hs⟩ : ∃ c, (debug = true → c = 0) ∧
      Exact F D net linC c (if debug then s else { s with H := 0 }) := by
    cases debug with
    | true => exact ⟨0, fun _ => rfl, hs⟩
    | false =>
      exact ⟨-energy F D net linC s.part.inGroup, fun e => by simp at e, hs.part, hs.full, hs.counts, by simp⟩
  refine (sample_holds hS h (fun s hs => step_exact hK h acc linC decorStep s hs) nIter _ (fun _ _ => 0) [] hs
    (by simp)).bind ?_
  rintro ⟨M, tr⟩ ⟨⟨tr', e1, e2, e3⟩, e4⟩
  dsimp only at *
  rw [List.nil_append] at e1
  subst e1
  exact ⟨c, hc, scores_ok hS h hI e2 e4 (fun a ha b hb => by rw [e3 a ha b hb, zero_add])⟩

theorem gibbsScore_safe (hK : Computes K net.n F D) (hS : Scores K net.n S) (h : net.Simple) {K0 : Kern}
    {F0 : Int → Int → ℝ} {D0 : ℕ → ℝ} (hK0 : Computes K0 net.n F0 D0) (linC : ℝ) {nIter : ℕ} (hI : 0 < nIter)
    (warm : ℕ) (scratch : ℕ → Int) (t : Tape) :
    Safe (fun r => ScoresOK F D S net linC
        (energy F0 D0 net linC (fun v => if v < net.n then some v else none) -
          energy F D net linC (fun v => if v < net.n then some v else none)) nIter r.1 r.2)
      (GibbsLinkScoreMB K0 K net linC nIter warm scratch t) := by
  obtain ⟨hp, hi⟩ := own_groups h net.n (le_refl _)
  have hi' := funext hi
  have hf : Full net ((List.range net.n).foldl (fun p v => AddNodeToGroup net v v p) Part.empty) := by
    intro v hv
    rw [hi, if_pos hv]; simp
  unfold GibbsLinkScoreMB
  cases hsk : skip net.n t with
  | starved => trivial
  | ub => trivial
  | ok t' =>
    simp only [Res.bind_ok]
    rw [partitionH_eq hK0 h hp hf]
    simp only [Res.ofOption_some, Res.bind_ok]
    refine (gibbsSteps_safe hK h (linC := linC) (c := energy F0 D0 net linC (fun v => if v < net.n then some v else none) -
          energy F D net linC (fun v => if v < net.n then some v else none)) warm _
      ⟨hp, hf, fun i hi j hj => initG2G_eq h hp hi hj, ?_⟩).bind ?_
    · dsimp only
      rw [hi']; ring
    · intro s hs
      refine (sample_safe hS h (fun s hs => step_safe hK h hs) nIter s (fun _ _ => 0) [] hs (by simp)).bind ?_
      rintro ⟨M, tr⟩ ⟨⟨tr', e1, e2, e3⟩, e4⟩
      dsimp only at *
      rw [List.nil_append] at e1
      subst e1
      exact scores_ok hS h hI e2 e4 (fun a ha b hb => by rw [e3 a ha b hb, zero_add])

end BK
