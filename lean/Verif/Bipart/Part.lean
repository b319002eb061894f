import Verif.Bipart.PartModel
import Verif.Bipart.Lemmas
import Mathlib.Algebra.Order.BigOperators.Ring.Finset
import Mathlib.Algebra.Order.Field.Basic

/-! # Participation coefficient in a bipartite network -/

set_option linter.unusedSimpArgs false

namespace BP

open Finset

/-! ## Specification -/

open Classical in
/-- The pairs of a team of `i` and another member of it. -/
noncomputable def mates (b : Bi) (i : ℕ) : Finset (ℕ × ℕ) :=
  (Finset.range b.n2 ×ˢ Finset.range b.n1).filter fun q => b.Linked i q.1 ∧ b.Linked q.2 q.1 ∧ q.2 ≠ i

/-- Those whose member is in group `g`. -/
noncomputable def matesIn (b : Bi) (inGroup : ℕ → ℤ) (i : ℕ) (g : ℕ) : Finset (ℕ × ℕ) :=
  (mates b i).filter fun q => inGroup q.2 = g

/-! ## Counting -/

/-- Pairs in the order of the loops. -/
def pairs (b : Bi) (i : ℕ) (l : List (ℕ × ℚ)) : List (ℕ × ℕ) :=
  l.flatMap fun x => ((b.neig2 x.1).filter fun y => y.1 ≠ i).map fun y => (x.1, y.1)

theorem countTeam_eq {cap : ℕ} {grp : ℕ → ℤ} {i a : ℕ} : ∀ (l : List (ℕ × ℚ)) (N : ℕ) (c : ℕ → ℕ),
    (∀ y ∈ l, y.1 ≠ i → 0 ≤ grp y.1 ∧ grp y.1 < cap) →
    countTeam cap grp i l (N, c) = some (N + ((l.filter fun y => y.1 ≠ i).map fun y => (a, y.1)).length,
      fun g => c g + (((l.filter fun y => y.1 ≠ i).map fun y => (a, y.1)).filter fun q => grp q.2 = g).length)
  | [], N, c, _ => by simp [countTeam]
  | y :: l, N, c, h => by
    unfold countTeam
    by_cases e : y.1 = i
    · rw [if_neg (by simpa using e), countTeam_eq (a := a) l N c fun z hz => h z (by simp [hz])]
      rw [List.filter_cons_of_neg (by simpa using e)]
    · have hy := h y (by simp) e
      rw [if_pos e]
      unfold countGroup
      rw [if_pos hy]
      simp only [Option.bind_eq_bind, Option.bind_some]
      rw [countTeam_eq (a := a) l _ _ fun z hz => h z (by simp [hz]), List.filter_cons_of_pos (by simpa using e)]
      congr 1
      refine Prod.ext ?_ ?_
      · simp only [List.map_cons, List.length_cons]; omega
      · funext g
        simp only [List.map_cons]
        by_cases eg : grp y.1 = g
        · have : (grp y.1).toNat = g := by omega
          rw [this, Function.update_self, List.filter_cons_of_pos (by simpa using eg), List.length_cons]
          omega
        · have : g ≠ (grp y.1).toNat := by omega
          rw [Function.update_of_ne this, List.filter_cons_of_neg (by simpa using eg)]

theorem countTeams_eq {b : Bi} {grp : ℕ → ℤ} {i : ℕ} : ∀ (l : List (ℕ × ℚ)) (N : ℕ) (c : ℕ → ℕ),
    (∀ q ∈ pairs b i l, 0 ≤ grp q.2 ∧ grp q.2 < b.n1) →
    countTeams b grp i l (N, c) = some (N + (pairs b i l).length,
      fun g => c g + ((pairs b i l).filter fun q => grp q.2 = g).length)
  | [], N, c, _ => by simp [countTeams, pairs]
  | x :: l, N, c, h => by
    have hp : pairs b i (x :: l) = (((b.neig2 x.1).filter fun y => y.1 ≠ i).map fun y => (x.1, y.1)) ++ pairs b i l := by
      simp [pairs]
    unfold countTeams
    rw [countTeam_eq (a := x.1)]
    · simp only [Option.bind_eq_bind, Option.bind_some]
      rw [countTeams_eq l _ _ fun q hq => h q (by rw [hp]; exact List.mem_append_right _ hq), hp]
      congr 1
      refine Prod.ext ?_ ?_
      · simp only [List.length_append]; omega
      · funext g
        simp only [List.filter_append, List.length_append]; omega
    · intro y hy e
      exact h (x.1, y.1) (by
        rw [hp]
        exact List.mem_append_left _ (List.mem_map.2 ⟨y, List.mem_filter.2 ⟨hy, by simpa using e⟩, rfl⟩))

theorem pairs_mem' {b : Bi} (h : b.OK) {i : ℕ} (q : ℕ × ℕ) : q ∈ pairs b i (b.neig1 i) ↔ q ∈ mates b i := by
  unfold pairs mates
  simp only [List.mem_flatMap, List.mem_map, List.mem_filter, Finset.mem_filter, Finset.mem_product, Finset.mem_range]
  constructor
  · rintro ⟨x, hx, y, ⟨hy, hyi⟩, rfl⟩
    refine ⟨⟨h.range1 i x hx, h.range2 x.1 y hy⟩, ⟨x.2, hx⟩, ⟨y.2, (h.sym _ _ _).2 hy⟩, by simpa using hyi⟩
  · rintro ⟨_, ⟨w, hw⟩, ⟨v, hv⟩, hne⟩
    exact ⟨(q.1, w), hw, (q.2, v), ⟨(h.sym _ _ _).1 hv, by simpa using hne⟩, rfl⟩

theorem pairs_nodup' {b : Bi} (h : b.OK) {i : ℕ} : (pairs b i (b.neig1 i)).Nodup := by
  unfold pairs
  rw [List.nodup_flatMap]
  constructor
  · intro x hx
    have hnd : (((b.neig2 x.1).filter fun y => y.1 ≠ i).map (·.1)).Nodup :=
      (h.nodup2 x.1).sublist (List.filter_sublist.map _)
    rw [List.nodup_map_iff_inj_on (List.Nodup.of_map _ hnd)]
    intro y hy z hz e
    exact List.inj_on_of_nodup_map hnd hy hz (Prod.mk.inj e).2
  · have := h.nodup1 i
    rw [List.nodup_iff_pairwise_ne, List.pairwise_map] at this
    refine this.imp ?_
    intro x y hxy q hq1 hq2
    obtain ⟨_, _, rfl⟩ := List.mem_map.1 hq1
    obtain ⟨_, _, e⟩ := List.mem_map.1 hq2
    exact hxy (Prod.mk.inj e).1.symm

theorem pairs_card {b : Bi} (h : b.OK) (grp : ℕ → ℤ) (i : ℕ) : (pairs b i (b.neig1 i)).length = (mates b i).card ∧
    ∀ g : ℕ, ((pairs b i (b.neig1 i)).filter fun q => grp q.2 = g).length = (matesIn b grp i g).card := by
  have e : (pairs b i (b.neig1 i)).toFinset = mates b i := by
    ext q; rw [List.mem_toFinset, pairs_mem' h]
  constructor
  · rw [← e, List.toFinset_card_of_nodup (pairs_nodup' h)]
  · intro g
    unfold matesIn
    rw [← e, ← List.toFinset_card_of_nodup ((pairs_nodup' h).filter _)]
    congr 1
    ext q
    simp

theorem count_eq {b : Bi} (h : b.OK) {grp : ℕ → ℤ} {i : ℕ} (hg : ∀ q ∈ mates b i, 0 ≤ grp q.2 ∧ grp q.2 < b.n1) :
    countTeams b grp i (b.neig1 i) (0, fun _ => 0) = some ((mates b i).card, fun g => (matesIn b grp i g).card) := by
  rw [countTeams_eq _ _ _ fun q hq => hg q ((pairs_mem' h q).1 hq)]
  have := pairs_card h grp i
  simp only [Nat.zero_add, this.1, this.2]

/-! ## C94 -/

/-- C94. For a node with at least one team mate, when all team mates are in groups with numbers below the number of
nodes: one minus the sum over groups of the squared fraction of team mates in it, a number from 0 up to but not
including 1. -/
theorem C94_participation_partial {b : Bi} (h : b.OK) (grp : ℕ → ℤ) (i : ℕ)
    (hg : ∀ q ∈ mates b i, 0 ≤ grp q.2 ∧ grp q.2 < b.n1) (hm : (mates b i).Nonempty) :
    ∃ P : ℚ, ParticipationCoefficientBipart b grp i = some (some P) ∧
      P = 1 - ∑ g ∈ Finset.range b.n1, (((matesIn b grp i g).card : ℚ) / (mates b i).card) ^ 2 ∧ 0 ≤ P ∧ P < 1 := by
  have hN : 0 < (mates b i).card := hm.card_pos
  have hNq : (0 : ℚ) < (mates b i).card := by exact_mod_cast hN
  have hsum : ∑ g ∈ Finset.range b.n1, (matesIn b grp i g).card = (mates b i).card := by
    rw [Finset.card_eq_sum_card_fiberwise (f := fun q => (grp q.2).toNat) (t := Finset.range b.n1)]
    · apply Finset.sum_congr rfl
      intro g _
      unfold matesIn
      congr 1
      apply Finset.filter_congr
      intro q hq
      have := hg q hq
      omega
    · intro q hq
      have := hg q hq
      simp only [Finset.coe_range, Set.mem_Iio]
      omega
  have hsq : (∑ g ∈ Finset.range b.n1, (matesIn b grp i g).card : ℚ) = (mates b i).card := by exact_mod_cast hsum
  have hfr : ∑ g ∈ Finset.range b.n1, (((matesIn b grp i g).card : ℚ) / (mates b i).card) = 1 := by
    rw [← Finset.sum_div, hsq, div_self hNq.ne']
  have hle1 : ∀ g ∈ Finset.range b.n1, (((matesIn b grp i g).card : ℚ) / (mates b i).card) ^ 2 ≤
      ((matesIn b grp i g).card : ℚ) / (mates b i).card := by
    intro g _
    have h1 : (((matesIn b grp i g).card : ℚ)) ≤ (mates b i).card := by
      exact_mod_cast Finset.card_le_card (Finset.filter_subset _ _)
    have h2 : ((matesIn b grp i g).card : ℚ) / (mates b i).card ≤ 1 := by rw [div_le_one hNq]; exact h1
    have h3 : 0 ≤ ((matesIn b grp i g).card : ℚ) / (mates b i).card := by positivity
    nlinarith
  refine ⟨_, ?_, rfl, ?_, ?_⟩
  · unfold ParticipationCoefficientBipart
    rw [count_eq h hg]
    simp only [Option.bind_eq_bind, Option.bind_some]
    rw [if_neg (by omega)]
    congr 2
    congr 1
    have : ∀ (l : List ℕ) (P : ℚ), l.foldl (fun P g => P + ((matesIn b grp i g).card : ℚ) * ((matesIn b grp i g).card : ℚ) /
        (((mates b i).card : ℚ) * ((mates b i).card : ℚ))) P =
        P + (l.map fun g => (((matesIn b grp i g).card : ℚ) / (mates b i).card) ^ 2).sum := by
      intro l
      induction l with
      | nil => intro P; simp
      | cons g l ih => intro P; rw [List.foldl_cons, ih, List.map_cons, List.sum_cons, div_pow]; ring
    rw [this, zero_add, ← List.sum_toFinset _ List.nodup_range, List.toFinset_range]
  · have := Finset.sum_le_sum hle1
    rw [hfr] at this
    linarith
  · have hpos : 0 < ∑ g ∈ Finset.range b.n1, (((matesIn b grp i g).card : ℚ) / (mates b i).card) ^ 2 := by
      by_contra hn
      have h0 : ∀ g ∈ Finset.range b.n1, 0 ≤ (((matesIn b grp i g).card : ℚ) / (mates b i).card) ^ 2 := fun g _ => sq_nonneg _
      have hz := (Finset.sum_eq_zero_iff_of_nonneg h0).1 (le_antisymm (not_lt.1 hn) (Finset.sum_nonneg h0))
      have : ∑ g ∈ Finset.range b.n1, (((matesIn b grp i g).card : ℚ) / (mates b i).card) = 0 :=
        Finset.sum_eq_zero fun g hg' => pow_eq_zero_iff (two_ne_zero) |>.1 (hz g hg')
      rw [hfr] at this
      exact one_ne_zero this
    linarith

/-- C94. A node without team mates has no coefficient: the result is 0/0, and then so is the mean over all nodes. -/
theorem C94_not_a_number {b : Bi} (h : b.OK) (grp : ℕ → ℤ) (hg : ∀ k, 0 ≤ grp k ∧ grp k < b.n1) (i : ℕ) (hi : i < b.n1)
    (hm : mates b i = ∅) : ParticipationCoefficientBipart b grp i = some none ∧ ParticipationMean b grp = some none := by
  have h1 : ParticipationCoefficientBipart b grp i = some none := by
    unfold ParticipationCoefficientBipart
    rw [count_eq h (by rw [hm]; simp)]
    simp only [Option.bind_eq_bind, Option.bind_some]
    rw [if_pos ⟨by rw [hm]; rfl, by omega⟩]
  refine ⟨h1, ?_⟩
  have hsome : ∀ k, ∃ x, ParticipationCoefficientBipart b grp k = some x := by
    intro k
    unfold ParticipationCoefficientBipart
    rw [count_eq h fun q _ => hg q.2]
    simp only [Option.bind_eq_bind, Option.bind_some]
    split_ifs
    · exact ⟨_, rfl⟩
    · exact ⟨_, rfl⟩
  have hmap : ∀ l : List ℕ, ∃ r, l.mapM (ParticipationCoefficientBipart b grp) = some r ∧ (i ∈ l → none ∈ r) := by
    intro l
    induction l with
    | nil => exact ⟨[], rfl, by simp⟩
    | cons k l ih =>
      obtain ⟨r, hr, hin⟩ := ih
      obtain ⟨x, hx⟩ := hsome k
      refine ⟨x :: r, by rw [List.mapM_cons, hx, hr]; rfl, ?_⟩
      intro hmem
      rcases List.mem_cons.1 hmem with rfl | hmem
      · rw [h1] at hx
        rw [← Option.some.inj hx]
        simp
      · exact List.mem_cons_of_mem _ (hin hmem)
  obtain ⟨r, hr, hin⟩ := hmap (List.range b.n1)
  have hnone := hin (List.mem_range.2 hi)
  unfold ParticipationMean
  rw [hr]
  simp only [Option.bind_eq_bind, Option.bind_some]
  have hfold : ∀ (l : List (Option ℚ)) (s : ℚ), none ∈ l → l.foldlM (fun s x => x.map (s + ·)) s = none := by
    intro l
    induction l with
    | nil => intro s h; simp at h
    | cons x l ih =>
      intro s hmem
      cases x with
      | none => rfl
      | some v =>
        rw [List.foldlM_cons]
        exact ih _ (by simpa using hmem)
  unfold meanNaN
  rw [hfold r 0 hnone]
  rfl

/-- C94. When every node has a team mate and all groups have numbers below the number of nodes, the mean is the sum of the coefficients divided
by the number of nodes, a number from 0 up to but not including 1. -/
theorem C94_mean_partial {b : Bi} (h : b.OK) (grp : ℕ → ℤ) (hg : ∀ k, 0 ≤ grp k ∧ grp k < b.n1) (hn : 0 < b.n1)
    (hm : ∀ i < b.n1, (mates b i).Nonempty) : ∃ m : ℚ, ParticipationMean b grp = some (some m) ∧ 0 ≤ m ∧ m < 1 ∧
      m = (∑ i ∈ Finset.range b.n1, (1 - ∑ g ∈ Finset.range b.n1, (((matesIn b grp i g).card : ℚ) / (mates b i).card) ^ 2)) / b.n1 := by
  set P : ℕ → ℚ := fun i => 1 - ∑ g ∈ Finset.range b.n1, (((matesIn b grp i g).card : ℚ) / (mates b i).card) ^ 2 with hP
  have key : ∀ i < b.n1, ParticipationCoefficientBipart b grp i = some (some (P i)) ∧ 0 ≤ P i ∧ P i < 1 := by
    intro i hi
    obtain ⟨p, e, rfl, h0, h1⟩ := C94_participation_partial h grp i (fun q _ => hg q.2) (hm i hi)
    exact ⟨e, h0, h1⟩
  have hmap : ∀ l : List ℕ, (∀ i ∈ l, i < b.n1) →
      l.mapM (ParticipationCoefficientBipart b grp) = some (l.map fun i => some (P i)) := by
    intro l
    induction l with
    | nil => intro _; rfl
    | cons k l ih =>
      intro hl
      rw [List.mapM_cons, (key k (hl k (by simp))).1, ih fun i hi => hl i (by simp [hi])]
      rfl
  have hfold : ∀ (l : List ℕ) (s : ℚ), (l.map fun i => some (P i)).foldlM (fun s x => x.map (s + ·)) s = some (s + (l.map P).sum) := by
    intro l
    induction l with
    | nil => intro s; simp
    | cons k l ih =>
      intro s
      rw [List.map_cons, List.foldlM_cons]
      simp only [Option.map_some, Option.bind_eq_bind, Option.bind_some]
      rw [ih, List.map_cons, List.sum_cons, add_assoc]
  have hsum : ((List.range b.n1).map P).sum = ∑ i ∈ Finset.range b.n1, P i := rfl
  have hnq : (0 : ℚ) < b.n1 := by exact_mod_cast hn
  refine ⟨(∑ i ∈ Finset.range b.n1, P i) / b.n1, ?_, ?_, ?_, rfl⟩
  · unfold ParticipationMean meanNaN
    rw [hmap _ fun i hi => List.mem_range.1 hi]
    simp only [Option.bind_eq_bind, Option.bind_some]
    rw [hfold]
    simp only [Option.bind_some]
    rw [if_neg (by simp; omega), hsum, zero_add, List.length_map, List.length_range]
  · exact div_nonneg (Finset.sum_nonneg fun i hi => (key i (Finset.mem_range.1 hi)).2.1) hnq.le
  · rw [div_lt_one hnq]
    calc ∑ i ∈ Finset.range b.n1, P i < ∑ i ∈ Finset.range b.n1, (1 : ℚ) :=
          Finset.sum_lt_sum_of_nonempty ⟨0, Finset.mem_range.2 hn⟩ fun i hi => (key i (Finset.mem_range.1 hi)).2.2
      _ = b.n1 := by simp

/-- C94. A team mate that is in no group (-1), or in a group whose number is not below the number of nodes, makes the
function write outside its array. -/
theorem C94_out_of_bounds {b : Bi} (h : b.OK) (grp : ℕ → ℤ) (i : ℕ) (q : ℕ × ℕ) (hq : q ∈ mates b i)
    (hb : ¬ (0 ≤ grp q.2 ∧ grp q.2 < b.n1)) : ParticipationCoefficientBipart b grp i = none := by
  have inner : ∀ (l : List (ℕ × ℚ)) (s : ℕ × (ℕ → ℕ)), (∃ y ∈ l, y.1 ≠ i ∧ y.1 = q.2) → countTeam b.n1 grp i l s = none := by
    intro l
    induction l with
    | nil => rintro s ⟨y, hy, _⟩; simp at hy
    | cons x l ih =>
      rintro s ⟨y, hy, hyi, hyq⟩
      unfold countTeam
      by_cases hx : x.1 = q.2
      · rw [if_pos (by rw [hx, ← hyq]; exact hyi)]
        unfold countGroup
        rw [hx, if_neg hb]
        rfl
      · have hrest : ∃ y ∈ l, y.1 ≠ i ∧ y.1 = q.2 := by
          rcases List.mem_cons.1 hy with rfl | hy
          · exact absurd hyq hx
          · exact ⟨y, hy, hyi, hyq⟩
        by_cases e : x.1 ≠ i
        · rw [if_pos e]
          cases countGroup b.n1 (grp x.1) s with
          | none => rfl
          | some s' => exact ih s' hrest
        · rw [if_neg e]; exact ih s hrest
  have outer : ∀ (l : List (ℕ × ℚ)) (s : ℕ × (ℕ → ℕ)), q ∈ pairs b i l → countTeams b grp i l s = none := by
    intro l
    induction l with
    | nil => intro s hs; simp [pairs] at hs
    | cons x l ih =>
      intro s hs
      have hp : pairs b i (x :: l) = (((b.neig2 x.1).filter fun y => y.1 ≠ i).map fun y => (x.1, y.1)) ++ pairs b i l := by
        simp [pairs]
      rw [hp, List.mem_append] at hs
      unfold countTeams
      rcases hs with hs | hs
      · obtain ⟨y, hy, e⟩ := List.mem_map.1 hs
        obtain ⟨hy1, hy2⟩ := List.mem_filter.1 hy
        rw [inner _ s ⟨y, hy1, by simpa using hy2, (Prod.mk.inj e).2⟩ ]
        rfl
      · cases countTeam b.n1 grp i (b.neig2 x.1) s with
        | none => rfl
        | some s' => exact ih s' hs
  unfold ParticipationCoefficientBipart
  rw [outer _ _ ((pairs_mem' h q).2 hq)]
  rfl

/-- Three agents; the first two are in a team, the third is alone in another. -/
def loner : Bi :=
  ⟨3, 2, fun i => if i < 2 then [(0, 1)] else if i = 2 then [(1, 1)] else [],
    fun j => if j = 0 then [(0, 1), (1, 1)] else if j = 1 then [(2, 1)] else []⟩

/-- C94. Refuted: the coefficient of a node alone in its team is not a number, nor is the mean over the nodes. -/
theorem C94_refuted : ParticipationCoefficientBipart loner (fun _ => 0) 2 = some none ∧
    ParticipationMean loner (fun _ => 0) = some none := by
  constructor <;> decide +kernel

example : ParticipationCoefficientBipart ⟨3, 1, fun i => if i < 3 then [(0, 1)] else [],
    fun j => if j = 0 then [(0, 1), (1, 1), (2, 1)] else []⟩ (fun k => if k = 1 then 0 else 1) 0 = some (some (1 / 2)) := by
  decide +kernel

/-- Three team mates, one of them in another group. -/
example : ParticipationMean ⟨3, 1, fun i => if i < 3 then [(0, 1)] else [],
    fun j => if j = 0 then [(0, 1), (1, 1), (2, 1)] else []⟩ (fun k => if k = 1 then 0 else 1) = some (some (1 / 3)) := by
  decide +kernel

example : ParticipationCoefficientBipart loner (fun _ => -1) 0 = none := by decide +kernel

end BP
