import Verif.Layout.SpaceModel
import Verif.Layout.Dynamics

/-!
The layouts in three dimensions: forces (C161), integration (C162), and the layout that is pulled into a plane (C163).
-/

set_option linter.unusedSimpArgs false
set_option linter.unusedSectionVars false

namespace LY
open scoped BigOperators

/-! ### Specification -/

/-- Every node is in the list of the box `home i` of the grid, once, and in no other list. -/
structure Filed3 (n b : ℕ) (boxes : ℕ → List ℕ) (home : ℕ → ℕ) : Prop where
  nodup : ∀ k, (boxes k).Nodup
  mem : ∀ k i, i ∈ boxes k ↔ i < n ∧ home i = k
  range : ∀ i, i < n → home i < b * b * b

/-- The distance of two nodes. -/
noncomputable def apart (r : Pos) (i j : ℕ) : ℝ := Real.sqrt ((r 0 i - r 0 j) ^ 2 + (r 1 i - r 1 j) ^ 2 + (r 2 i - r 2 j) ^ 2)

/-- The charges of `i` and `j` act on one another. -/
def Interact3 (n b : ℕ) (r : Pos) (home : ℕ → ℕ) (i j : ℕ) : Prop :=
  i ≠ j ∧ Adjacent3 b (home i) (home j) ∧ (apart r i j < cutoff3 n b r ∨ b ≤ 2)

open Classical in
/-- The force on a node in the direction `d`: springs of strength `w i j` and length zero, and charges that repel one another. -/
noncomputable def force3 (net : GP.Net) (b : ℕ) (r : Pos) (home : ℕ → ℕ) (d : Fin 3) (i : ℕ) : ℝ :=
  (∑ j ∈ Finset.range net.n, (net.w i j : ℝ) * (r d j - r d i)) +
  ∑ j ∈ Finset.range net.n, if Interact3 net.n b r home i j then
    -(1 / (net.n : ℝ)) / (apart r i j ^ 2 + Real.sqrt net.n / 10000) * ((r d j - r d i) / apart r i j) else 0

/-- Two nodes that pull or push one another are in one place. -/
def Collision3 (net : GP.Net) (b : ℕ) (r : Pos) (home : ℕ → ℕ) : Prop :=
  ∃ i j, i < net.n ∧ j < net.n ∧ ((net.link i j).isSome ∨ Interact3 net.n b r home i j) ∧ ∀ d, r d i = r d j

/-! ### Distances -/

theorem dis3_eq (r : Pos) (i j : ℕ) : dis3 r i j = apart r i j := by
  unfold dis3 apart; congr 1; ring

theorem apart_comm (r : Pos) (i j : ℕ) : apart r i j = apart r j i := by
  unfold apart; congr 1; ring

theorem apart_eq_zero (r : Pos) (i j : ℕ) : apart r i j = 0 ↔ ∀ d, r d i = r d j := by
  unfold apart
  rw [Real.sqrt_eq_zero (by positivity)]
  constructor
  · intro h d
    have h0 := sq_nonneg (r 0 i - r 0 j)
    have h1 := sq_nonneg (r 1 i - r 1 j)
    have h2 := sq_nonneg (r 2 i - r 2 j)
    have key : ∀ u : ℝ, u ^ 2 = 0 → u = 0 := fun u hu => by simpa using hu
    fin_cases d
    · have := key _ (show (r 0 i - r 0 j) ^ 2 = 0 by linarith); simp only [Fin.zero_eta, Fin.isValue]; linarith
    · have := key _ (show (r 1 i - r 1 j) ^ 2 = 0 by linarith); simp only [Fin.mk_one, Fin.isValue]; linarith
    · have := key _ (show (r 2 i - r 2 j) ^ 2 = 0 by linarith); simp only [Fin.reduceFinMk, Fin.isValue]; linarith
  · intro h; rw [h 0, h 1, h 2]; simp

theorem Adjacent3.symm {b p q : ℕ} (h : Adjacent3 b p q) : Adjacent3 b q p :=
  ⟨h.2.1, h.1, h.2.2.2.1, h.2.2.1, h.2.2.2.2.2, h.2.2.2.2.1⟩

theorem Interact3.symm {n b : ℕ} {r : Pos} {home : ℕ → ℕ} {i j : ℕ} (h : Interact3 n b r home i j) : Interact3 n b r home j i :=
  ⟨h.1.symm, h.2.1.symm, by rw [apart_comm]; exact h.2.2⟩

/-! ### Pairs of nodes -/

theorem mem_nodePairs3 {n b : ℕ} {boxes : ℕ → List ℕ} {home : ℕ → ℕ} (hf : Filed3 n b boxes home)
    (i j : ℕ) : (i, j) ∈ nodePairs boxes (boxPairs3D b) ↔ i < n ∧ j < n ∧
      Adjacent3 b (home i) (home j) ∧ (home i < home j ∨ (home i = home j ∧ i > j)) := by
  simp only [nodePairs, List.mem_flatMap, Prod.exists]
  constructor
  · rintro ⟨p, q, hp, h⟩
    obtain ⟨k, rfl, hpk, hkb, ha⟩ := (C96_pairs_3d b p q).1 hp
    rw [mem_pairsIn, hf.mem, Int.toNat_natCast, hf.mem] at h
    obtain ⟨⟨h1, rfl⟩, ⟨h3, rfl⟩, h5⟩ := h
    refine ⟨h1, h3, ha, ?_⟩
    omega
  · rintro ⟨h1, h2, ha, h⟩
    refine ⟨home i, home j, (C96_pairs_3d _ _ _).2 ⟨home j, rfl, by omega, hf.range j h2, ha⟩, ?_⟩
    rw [mem_pairsIn, hf.mem, Int.toNat_natCast, hf.mem]
    exact ⟨⟨h1, rfl⟩, ⟨h2, rfl⟩, by omega⟩

theorem nodup_nodePairs3 {n b : ℕ} {boxes : ℕ → List ℕ} {home : ℕ → ℕ} (hf : Filed3 n b boxes home) :
    (nodePairs boxes (boxPairs3D b)).Nodup := by
  unfold nodePairs
  rw [List.nodup_flatMap]
  refine ⟨fun p _ => nodup_pairsIn hf.nodup _ _, ?_⟩
  refine List.Pairwise.imp_of_mem (R := fun a c => a ≠ c) ?_ (C96_once_3d b)
  rintro ⟨p, q⟩ ⟨p', q'⟩ h h' hne
  simp only [Function.onFun, List.Disjoint]
  rintro ⟨i, j⟩ h1 h2
  obtain ⟨k, rfl, -⟩ := (C96_pairs_3d b p q).1 h
  obtain ⟨k', rfl, -⟩ := (C96_pairs_3d b p' q').1 h'
  rw [mem_pairsIn, hf.mem, Int.toNat_natCast, hf.mem] at h1 h2
  apply hne
  rw [← h1.1.2, ← h2.1.2, ← h1.2.1.2, ← h2.2.1.2]

/-! ### Sums of kicks -/

theorem push3_eq (F : Pos) (a c : ℕ) (f : Fin 3 → ℝ) (d : Fin 3) (i : ℕ) :
    push3 F a c f d i = F d i + ((if a = i then f d else 0) - (if c = i then f d else 0)) := by
  simp only [push3, Function.update_apply]
  by_cases h1 : i = a <;> by_cases h2 : i = c
  · subst h1; subst h2; simp
  · subst h1; simp [h2, Ne.symm h2]
  · subst h2; simp [h1, Ne.symm h1]; ring
  · simp [h1, h2, Ne.symm h1, Ne.symm h2]

/-- A loop whose steps either fail or add a kick. -/
theorem fold_kicks3 {α : Type*} (step : Pos → α → Option Pos) (pr : α → ℕ × ℕ) (bad : α → Prop)
    (f : Fin 3 → ℕ → ℕ → ℝ) : ∀ (L : List α) (F : Pos),
      (∀ F, ∀ e ∈ L, bad e → step F e = none) →
      (∀ F, ∀ e ∈ L, ¬ bad e → ∃ F', step F e = some F' ∧ ∀ d i, F' d i = F d i + kick (f d) i (pr e)) →
      ((∃ e ∈ L, bad e) → L.foldlM step F = none) ∧
      ((∀ e ∈ L, ¬ bad e) → ∃ F', L.foldlM step F = some F' ∧
        ∀ d i, F' d i = F d i + ((L.map pr).map (kick (f d) i)).sum)
  | [], F, _, _ => ⟨by simp, fun _ => ⟨F, rfl, by simp⟩⟩
  | e :: L, F, hbad, hok => by
    have ih := fun F' => fold_kicks3 step pr bad f L F' (fun F e he => hbad F e (List.mem_cons_of_mem _ he))
      (fun F e he => hok F e (List.mem_cons_of_mem _ he))
    rw [List.foldlM_cons]
    constructor
    · rintro ⟨e', he', hb⟩
      by_cases hbe : bad e
      · rw [hbad F e (List.mem_cons_self ..) hbe]; rfl
      · obtain ⟨F', hF', -⟩ := hok F e (List.mem_cons_self ..) hbe
        rw [hF']
        have : e' ∈ L := by
          rcases List.mem_cons.1 he' with rfl | h
          · exact absurd hb hbe
          · exact h
        exact (ih F').1 ⟨e', this, hb⟩
    · intro h
      obtain ⟨F', hF', hx⟩ := hok F e (List.mem_cons_self ..) (h e (List.mem_cons_self ..))
      obtain ⟨G, hG, gx⟩ := (ih F').2 (fun e' he' => h e' (List.mem_cons_of_mem _ he'))
      rw [hF']
      exact ⟨G, hG, fun d i => by rw [gx, hx]; simp [add_assoc]⟩

theorem springStep3_ok {net : GP.Net} (hs : net.Simple) (r F : Pos)
    (e : ℕ × ℕ × ℚ) (he : e ∈ springs net) (hb : ¬ apart r e.1 e.2.1 = 0) :
    ∃ F', springStep3 r F e = some F' ∧
      ∀ d i, F' d i = F d i + kick (fun i j => (net.w i j : ℝ) * (r d j - r d i)) i (springPair e) := by
  obtain ⟨a, c, w⟩ := e
  have hw : net.w a c = w := by
    simp [GP.Net.w, link_of_mem hs (mem_springs.1 he).2.1]
  simp only at hb
  unfold springStep3
  simp only [dis3_eq]
  rw [if_neg hb]
  refine ⟨_, rfl, fun d i => ?_⟩
  rw [push3_eq]; simp only [kick, springPair, hw]
  rw [show (w : ℝ) * apart r a c * (r d c - r d a) / apart r a c = w * (r d c - r d a) by field_simp]

open Classical in
/-- The force between two charges. -/
noncomputable def coulomb3 (n b : ℕ) (r : Pos) (d : Fin 3) (i j : ℕ) : ℝ :=
  if apart r i j < cutoff3 n b r ∨ b ≤ 2 then
    -(1 / (n : ℝ)) / (apart r i j ^ 2 + Real.sqrt n / 10000) * ((r d j - r d i) / apart r i j) else 0

theorem coulomb3_antisymm (n b : ℕ) (r : Pos) (d : Fin 3) (i j : ℕ) : coulomb3 n b r d j i = - coulomb3 n b r d i j := by
  unfold coulomb3
  rw [apart_comm r j i]
  by_cases h : apart r i j < cutoff3 n b r ∨ b ≤ 2
  · rw [if_pos h, if_pos h, ← neg_sub, neg_div]; ring
  · rw [if_neg h, if_neg h, neg_zero]

theorem chargeStep3_bad (n b : ℕ) (r F : Pos) (p : ℕ × ℕ)
    (h : (apart r p.1 p.2 < cutoff3 n b r ∨ b ≤ 2) ∧ apart r p.1 p.2 = 0) : chargeStep3 n b r F p = none := by
  unfold chargeStep3; simp only [dis3_eq]; rw [if_pos h.1, if_pos h.2]

theorem chargeStep3_ok (n b : ℕ) (r F : Pos) (p : ℕ × ℕ)
    (h : ¬ ((apart r p.1 p.2 < cutoff3 n b r ∨ b ≤ 2) ∧ apart r p.1 p.2 = 0)) :
    ∃ F', chargeStep3 n b r F p = some F' ∧ ∀ d i, F' d i = F d i + kick (coulomb3 n b r d) i p := by
  obtain ⟨a, c⟩ := p
  simp only at h
  unfold chargeStep3
  simp only [dis3_eq]
  by_cases h1 : apart r a c < cutoff3 n b r ∨ b ≤ 2
  · have h2 : apart r a c ≠ 0 := fun h2 => h ⟨h1, h2⟩
    rw [if_pos h1, if_neg h2]
    refine ⟨_, rfl, fun d i => ?_⟩
    rw [push3_eq]; simp only [kick, coulomb3, if_pos h1, epsilon, pow_two, mul_div_assoc]
  · rw [if_neg h1]
    exact ⟨_, rfl, fun d i => by simp [kick, coulomb3, h1]⟩

/-- The kicks of the charges. -/
theorem charge_sum3 {n b : ℕ} {boxes : ℕ → List ℕ} {home : ℕ → ℕ} (hf : Filed3 n b boxes home)
    (r : Pos) (d : Fin 3) (i : ℕ) (hi : i < n) [∀ j, Decidable (Interact3 n b r home i j)] :
    (((nodePairs boxes (boxPairs3D b))).map (kick (coulomb3 n b r d) i)).sum =
      ∑ j ∈ Finset.range n, if Interact3 n b r home i j then
        -(1 / (n : ℝ)) / (apart r i j ^ 2 + Real.sqrt n / 10000) * ((r d j - r d i) / apart r i j) else 0 := by
  classical
  rw [sum_kicks n _ (nodup_nodePairs3 hf) _ _ (coulomb3_antisymm n b r d) i hi]
  · apply Finset.sum_congr rfl
    intro j hj
    rw [Finset.mem_range] at hj
    simp only [mem_nodePairs3 hf]
    by_cases hc : apart r i j < cutoff3 n b r ∨ b ≤ 2
    · by_cases ha : Adjacent3 b (home i) (home j)
      · have ha' := ha.symm
        by_cases hij : i = j
        · subst hij
          simp [Interact3]
        · have hI : Interact3 n b r home i j := ⟨hij, ha, hc⟩
          rw [if_pos hI]
          have hcc : coulomb3 n b r d i j = -(1 / (n : ℝ)) / (apart r i j ^ 2 + Real.sqrt n / 10000) *
            ((r d j - r d i) / apart r i j) := by unfold coulomb3; rw [if_pos hc]
          rw [hcc]
          simp only [hi, hj, ha, ha', true_and]
          by_cases ho : home i < home j ∨ (home i = home j ∧ i > j)
          · rw [if_pos ho, if_neg (by omega), add_zero]
          · rw [if_neg ho, if_pos (by omega), zero_add]
      · have ha' : ¬ Adjacent3 b (home j) (home i) := fun h => ha h.symm
        rw [if_neg (fun h => ha h.2.2.1), if_neg (fun h => ha' h.2.2.1), if_neg (fun h => ha h.2.1),
          add_zero]
    · have hcc : coulomb3 n b r d i j = 0 := by unfold coulomb3; rw [if_neg hc]
      have hI : ¬ Interact3 n b r home i j := fun h => hc h.2.2
      rw [hcc, if_neg hI]
      simp
  · rintro ⟨a, c⟩ h
    rw [mem_nodePairs3 hf] at h
    exact ⟨h.1, h.2.1⟩

/-- C161.  When every node is filed in its box and no two nodes that act on one another are in one place, `CalculateNodeForces3D` gives every
node the sum of the forces of its springs and of the charges it interacts with, in each of the three directions; otherwise a NaN appears. -/
theorem C161_forces_3d (net : GP.Net) (hs : net.Simple) (r : Pos) (b : ℕ) (boxes : ℕ → List ℕ)
    (home : ℕ → ℕ) (hf : Filed3 net.n b boxes home) :
    (Collision3 net b r home → CalculateNodeForces3D net r boxes b = none) ∧
    (¬ Collision3 net b r home → ∃ F, CalculateNodeForces3D net r boxes b = some F ∧
      ∀ d i, i < net.n → F d i = force3 net b r home d i) := by
  classical
  have hS := fold_kicks3 (springStep3 r) springPair (fun e => apart r e.1 e.2.1 = 0) (fun d i j => (net.w i j : ℝ) * (r d j - r d i))
    (springs net) (fun _ _ => 0) (fun F e _ hb => by unfold springStep3; rw [dis3_eq, if_pos hb])
    (fun F e he hb => springStep3_ok hs r F e he hb)
  have hC := fun F => fold_kicks3 (chargeStep3 net.n b r) id
    (fun p => (apart r p.1 p.2 < cutoff3 net.n b r ∨ b ≤ 2) ∧ apart r p.1 p.2 = 0) (coulomb3 net.n b r)
    (nodePairs boxes (boxPairs3D b)) F
    (fun F p _ h => chargeStep3_bad net.n b r F p h)
    (fun F p _ h => chargeStep3_ok net.n b r F p h)
  constructor
  · rintro ⟨i, j, hi, hj, h, hxy⟩
    have hd : apart r i j = 0 := (apart_eq_zero r i j).2 hxy
    unfold CalculateNodeForces3D
    by_cases hbad : ∃ e ∈ springs net, apart r e.1 e.2.1 = 0
    · rw [hS.1 hbad]; rfl
    · obtain ⟨F, hF, -⟩ := hS.2 (by
        intro e he hb; exact hbad ⟨e, he, hb⟩)
      rw [hF]
      apply (hC F).1
      rcases h with h | h
      · exfalso
        apply hbad
        have hne : i ≠ j := by rintro rfl; rw [hs.irrefl] at h; simp at h
        rcases lt_or_gt_of_ne hne with hlt | hlt
        · rw [hs.sym] at h
          obtain ⟨w, hw⟩ := Option.isSome_iff_exists.1 h
          exact ⟨(j, i, w), mem_springs.2 ⟨hj, mem_of_link hw, hlt⟩, by rw [← hd, apart_comm]⟩
        · obtain ⟨w, hw⟩ := Option.isSome_iff_exists.1 h
          exact ⟨(i, j, w), mem_springs.2 ⟨hi, mem_of_link hw, hlt⟩, hd⟩
      · by_cases ho : home i < home j ∨ (home i = home j ∧ i > j)
        · exact ⟨(i, j), (mem_nodePairs3 hf i j).2 ⟨hi, hj, h.2.1, ho⟩, h.2.2, hd⟩
        · refine ⟨(j, i), (mem_nodePairs3 hf j i).2 ⟨hj, hi, h.2.1.symm, ?_⟩, h.symm.2.2, ?_⟩
          · have := h.1; omega
          · rw [apart_comm]; exact hd
  · intro hcol
    obtain ⟨F, hF, fx⟩ := hS.2 (by
      rintro ⟨i, j, w⟩ he hb
      obtain ⟨h1, h2, -⟩ := mem_springs.1 he
      exact hcol ⟨i, j, h1, hs.range i _ h2, Or.inl (by rw [link_of_mem hs h2]; rfl),
        (apart_eq_zero r i j).1 hb⟩)
    obtain ⟨G, hG, gx⟩ := (hC F).2 (by
      rintro ⟨i, j⟩ he ⟨hb1, hb2⟩
      obtain ⟨h1, h2, h3, h4⟩ := (mem_nodePairs3 hf i j).1 he
      refine hcol ⟨i, j, h1, h2, Or.inr ⟨?_, h3, hb1⟩, (apart_eq_zero r i j).1 hb2⟩
      rintro rfl
      omega)
    refine ⟨G, ?_, fun d i hi => ?_⟩
    · unfold CalculateNodeForces3D; rw [hF]; exact hG
    · rw [gx, fx, List.map_id, spring_sum hs (r d) i hi, charge_sum3 hf r d i hi, zero_add]; rfl

theorem force3_sum (net : GP.Net) (hs : net.Simple) (r : Pos) (b : ℕ) (home : ℕ → ℕ) (d : Fin 3) :
    ∑ i ∈ Finset.range net.n, force3 net b r home d i = 0 := by
  unfold force3
  rw [Finset.sum_add_distrib, sum_antisymm net.n, sum_antisymm net.n, add_zero]
  · intro i j
    by_cases h : Interact3 net.n b r home i j
    · rw [if_pos h, if_pos h.symm, apart_comm r j i, ← neg_sub, neg_div]; ring
    · rw [if_neg h, if_neg (fun h' => h h'.symm), neg_zero]
  · intro i j; rw [w_symm hs j i]; ring

/-- C161: the forces of a network add up to zero. -/
theorem C161_balance (net : GP.Net) (hs : net.Simple) (r : Pos) (b : ℕ) (boxes : ℕ → List ℕ)
    (home : ℕ → ℕ) (hf : Filed3 net.n b boxes home) (F : Pos)
    (hF : CalculateNodeForces3D net r boxes b = some F) (d : Fin 3) : ∑ i ∈ Finset.range net.n, F d i = 0 := by
  by_cases hc : Collision3 net b r home
  · rw [(C161_forces_3d net hs r b boxes home hf).1 hc] at hF; simp at hF
  · obtain ⟨G, hG, h⟩ := (C161_forces_3d net hs r b boxes home hf).2 hc
    rw [hG] at hF
    obtain rfl := Option.some.inj hF
    rw [Finset.sum_congr rfl fun i hi => h d i (Finset.mem_range.1 hi)]
    exact force3_sum net hs r b home d

end LY
