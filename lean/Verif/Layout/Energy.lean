import Verif.Layout.EnergyModel
import Verif.Layout.Space
import Verif.Layout.Dynamics

/-!
# C97, C161: the cutoff; C97, C104: the potential energy
-/

namespace LY
open scoped BigOperators

/-! ### The cutoff -/

/-- `lo` and `hi` are the least and the greatest of the first `n` values of `u`. -/
structure Extent (n : ℕ) (u : ℕ → ℝ) (lo hi : ℝ) : Prop where
  bot : ∃ i < n, u i = lo
  top : ∃ i < n, u i = hi
  range : ∀ i < n, lo ≤ u i ∧ u i ≤ hi

theorem Extent.least {n : ℕ} {u : ℕ → ℝ} {lo hi : ℝ} (h : Extent n u lo hi) {s : ℝ} (hs : lo ≤ s) : LY.least s u n = lo := by
  obtain ⟨i, hi', e⟩ := h.bot
  obtain ⟨j, hj, ej⟩ := least_attained (s := s) (f := u) ⟨i, hi', e ▸ hs⟩
  apply le_antisymm
  · rw [← e]; exact (least_spec s u n).2.1 i hi'
  · rw [ej]; exact (h.range j hj).1

theorem Extent.most {n : ℕ} {u : ℕ → ℝ} {lo hi : ℝ} (h : Extent n u lo hi) {s : ℝ} (hs : s ≤ hi) : LY.most s u n = hi := by
  obtain ⟨i, hi', e⟩ := h.top
  obtain ⟨j, hj, ej⟩ := most_attained (s := s) (f := u) ⟨i, hi', e ▸ hs⟩
  apply le_antisymm
  · rw [ej]; exact (h.range j hj).2
  · rw [← e]; exact (most_spec s u n).2.1 i hi'

/-- C97. Two charges act on one another exactly when they are different nodes in the same or adjacent boxes and their distance is less than
the mean of the two sides of the drawing divided by the number of boxes per row; with at most two boxes per row the distance does
not matter. (For drawings within 10⁵ of the origin: the search for the extent starts there.) -/
theorem C97_cutoff {n b : ℕ} {x y : ℕ → ℝ} {x0 x1 y0 y1 : ℝ} (hx : Extent n x x0 x1) (hy : Extent n y y0 y1) (h0 : -(10 ^ 5) ≤ x1 ∧ x0 ≤ 10 ^ 5)
    (h1 : -(10 ^ 5) ≤ y1 ∧ y0 ≤ 10 ^ 5) (home : ℕ → ℕ) (i j : ℕ) :
    Interact n b x y home i j ↔ i ≠ j ∧ Adjacent b (home i) (home j) ∧
      (Real.sqrt ((x i - x j) ^ 2 + (y i - y j) ^ 2) < ((x1 - x0) + (y1 - y0)) / 2 / b ∨ b ≤ 2) := by
  unfold Interact cutoff dis
  rw [hx.least h0.2, hx.most h0.1, hy.least h1.2, hy.most h1.1]
  rw [show (x j - x i) * (x j - x i) + (y j - y i) * (y j - y i) = (x i - x j) ^ 2 + (y i - y j) ^ 2 by ring,
    show x1 - x0 + y1 - y0 = (x1 - x0) + (y1 - y0) by ring]

/-- C161. The same in three dimensions. -/
theorem C161_cutoff {n b : ℕ} {r : Pos} {lo hi : Fin 3 → ℝ} (h : ∀ d, Extent n (r d) (lo d) (hi d)) (h0 : ∀ d, -(10 ^ 5) ≤ hi d ∧ lo d ≤ 10 ^ 5)
    (home : ℕ → ℕ) (i j : ℕ) : Interact3 n b r home i j ↔ i ≠ j ∧ Adjacent3 b (home i) (home j) ∧
      (Real.sqrt (∑ d, (r d i - r d j) ^ 2) < (∑ d, (hi d - lo d)) / 3 / b ∨ b ≤ 2) := by
  unfold Interact3 cutoff3 apart
  rw [(h 0).least (h0 0).2, (h 0).most (h0 0).1, (h 1).least (h0 1).2, (h 1).most (h0 1).1, (h 2).least (h0 2).2, (h 2).most (h0 2).1]
  rw [Fin.sum_univ_three, Fin.sum_univ_three,
    show hi 0 - lo 0 + hi 1 - lo 1 + hi 2 - lo 2 = hi 0 - lo 0 + (hi 1 - lo 1) + (hi 2 - lo 2) by ring]

example : Extent 2 (fun i => (i : ℝ)) 0 1 :=
  ⟨⟨0, by norm_num, by simp⟩, ⟨1, by norm_num, by simp⟩, fun i hi => by
    have : (i : ℝ) ≤ 1 := by exact_mod_cast (by omega : i ≤ 1)
    exact ⟨Nat.cast_nonneg i, this⟩⟩

/-! ### Sums over pairs -/

theorem sum_square (n : ℕ) (g : ℕ → ℕ → ℝ) : ∑ i ∈ Finset.range n, ∑ j ∈ Finset.range n, g i j =
    ∑ i ∈ Finset.range n, (∑ j ∈ Finset.range i, (g i j + g j i) + g i i) := by
  induction n with
  | zero => simp
  | succ n ih =>
    rw [Finset.sum_range_succ, Finset.sum_range_succ (f := fun i => _ + g i i), ← ih]
    simp only [Finset.sum_range_succ, Finset.sum_add_distrib]
    ring

open Classical in
/-- The sum over a list of pairs that has no pair in both orders. -/
theorem sum_pairs {n : ℕ} {P : List (ℕ × ℕ)} (hP : P.Nodup) (hr : ∀ p ∈ P, p.1 < n ∧ p.2 < n) (ho : ∀ i j, (i, j) ∈ P → (j, i) ∉ P)
    (f : ℕ → ℕ → ℝ) (hf : ∀ i j, f i j = f j i) : (P.map fun p => f p.1 p.2).sum =
      ∑ i ∈ Finset.range n, ∑ j ∈ Finset.range i, if (i, j) ∈ P ∨ (j, i) ∈ P then f i j else 0 := by
  have h1 : (P.map fun p => f p.1 p.2).sum = ∑ p ∈ Finset.range n ×ˢ Finset.range n, if p ∈ P then f p.1 p.2 else 0 := by
    rw [← List.sum_toFinset _ hP, ← Finset.sum_filter]
    apply Finset.sum_congr _ (fun _ _ => rfl)
    ext p
    simp only [List.mem_toFinset, Finset.mem_filter, Finset.mem_product, Finset.mem_range]
    exact ⟨fun h => ⟨hr p h, h⟩, fun h => h.2⟩
  rw [h1, Finset.sum_product, sum_square]
  refine Finset.sum_congr rfl fun i _ => ?_
  simp only
  rw [if_neg (fun h => ho i i h h), add_zero]
  refine Finset.sum_congr rfl fun j _ => ?_
  by_cases h : (i, j) ∈ P
  · rw [if_pos h, if_neg (ho _ _ h), if_pos (Or.inl h), add_zero]
  · by_cases h' : (j, i) ∈ P
    · rw [if_neg h, if_pos h', if_pos (Or.inr h'), zero_add, hf]
    · rw [if_neg h, if_neg h', if_neg (by tauto), add_zero]

theorem foldl_add_map {α : Type*} (f : α → ℝ) : ∀ (l : List α) (E : ℝ), l.foldl (fun E p => E + f p) E = E + (l.map f).sum
  | [], E => by simp
  | a :: l, E => by rw [List.foldl_cons, foldl_add_map f l, List.map_cons, List.sum_cons, add_assoc]

theorem foldl_if_map {α : Type*} (c : α → Prop) [DecidablePred c] (f : α → ℝ) : ∀ (l : List α) (E : ℝ),
    l.foldl (fun E p => if c p then E + f p else E) E = E + (l.map fun p => if c p then f p else 0).sum
  | [], E => by simp
  | a :: l, E => by
    rw [List.foldl_cons, foldl_if_map c f l, List.map_cons, List.sum_cons]
    split_ifs <;> ring

/-- The energy of the springs. -/
theorem spring_energy {net : GP.Net} (hs : net.Simple) (q : ℕ → ℕ → ℝ) (hq : ∀ i j, q i j = q j i) (f : ℕ × ℕ × ℚ → ℝ)
    (hf : ∀ e, f e = e.2.2 * q e.1 e.2.1) :
    ((springs net).map f).sum = ∑ i ∈ Finset.range net.n, ∑ j ∈ Finset.range i, (net.w i j : ℝ) * q i j := by
  classical
  have h1 : (springs net).map f = ((springs net).map springPair).map fun p => (net.w p.1 p.2 : ℝ) * q p.1 p.2 := by
    rw [List.map_map]
    refine List.map_congr_left fun e he => ?_
    obtain ⟨a, c, w⟩ := e
    have hw : net.w a c = w := by simp [GP.Net.w, link_of_mem hs (mem_springs.1 he).2.1]
    simp [hf, springPair, hw]
  rw [h1, sum_pairs (nodup_springPairs hs) _ _ (fun i j => (net.w i j : ℝ) * q i j) (fun i j => by rw [w_symm hs, hq])]
  · refine Finset.sum_congr rfl fun i hi => Finset.sum_congr rfl fun j hj => ?_
    rw [Finset.mem_range] at hi hj
    simp only [mem_springPairs hs]
    by_cases h : (net.link i j).isSome
    · rw [if_pos (Or.inl ⟨hi, h, hj⟩)]
    · rw [if_neg (by rintro (g | g) <;> [exact h g.2.1; omega])]
      have : net.w i j = 0 := by
        simp only [GP.Net.w]
        rw [Option.not_isSome_iff_eq_none.1 h]; rfl
      rw [this]; simp
  · rintro ⟨a, c⟩ h
    rw [mem_springPairs hs] at h
    exact ⟨h.1, link_lt hs h.2.1⟩
  · intro i j h h'
    rw [mem_springPairs hs] at h h'
    omega

/-! ### The energy -/

open Classical in
/-- C97. `PotentialEnergy`: for every pair of nodes half the weight of the link times the square of the distance, and for every two charges
that act on one another the inverse of the distance, softened, divided by the number of nodes. -/
theorem C97_energy (net : GP.Net) (hs : net.Simple) (x y : ℕ → ℝ) (b : ℕ) (boxes : ℕ → List ℕ) (home : ℕ → ℕ) (hf : Filed net.n b boxes home) :
    PotentialEnergy net x y boxes b =
      (∑ i ∈ Finset.range net.n, ∑ j ∈ Finset.range i, (net.w i j : ℝ) * (((x i - x j) ^ 2 + (y i - y j) ^ 2) / 2)) +
      ∑ i ∈ Finset.range net.n, ∑ j ∈ Finset.range i, if Interact net.n b x y home i j then
        1 / net.n / Real.sqrt ((x i - x j) ^ 2 + (y i - y j) ^ 2 + Real.sqrt net.n / 10000) else 0 := by
  have hd : ∀ i j, dis x y i j * dis x y i j = (x i - x j) ^ 2 + (y i - y j) ^ 2 := by
    intro i j
    unfold dis
    rw [Real.mul_self_sqrt (add_nonneg (mul_self_nonneg _) (mul_self_nonneg _))]
    ring
  unfold PotentialEnergy
  simp only
  rw [foldl_if_map (fun p : ℕ × ℕ => dis x y p.1 p.2 < cutoff net.n b x y ∨ b ≤ 2), foldl_add_map, zero_add,
    spring_energy hs (fun i j => ((x i - x j) ^ 2 + (y i - y j) ^ 2) / 2) (fun i j => by ring) _
    (fun e => by rw [mul_assoc, hd]; ring)]
  congr 1
  rw [sum_pairs (nodup_nodePairs hf) _ _ (fun i j => if dis x y i j < cutoff net.n b x y ∨ b ≤ 2 then
      1 / (net.n : ℝ) / Real.sqrt (dis x y i j * dis x y i j + epsilon net.n) else 0) (fun i j => by rw [dis_comm])]
  · refine Finset.sum_congr rfl fun i hi => Finset.sum_congr rfl fun j hj => ?_
    rw [Finset.mem_range] at hi hj
    simp only [mem_nodePairs hf, hd]
    unfold epsilon
    by_cases ha : Adjacent b (home i) (home j)
    · have ha' := ha.symm
      rw [if_pos (by
        rcases lt_trichotomy (home i) (home j) with h | h | h
        · exact Or.inl ⟨hi, by omega, ha, Or.inl h⟩
        · exact Or.inl ⟨hi, by omega, ha, Or.inr ⟨h, hj⟩⟩
        · exact Or.inr ⟨by omega, hi, ha', Or.inl h⟩)]
      by_cases hc : dis x y i j < cutoff net.n b x y ∨ b ≤ 2
      · rw [if_pos hc, if_pos ⟨by omega, ha, hc⟩]
      · rw [if_neg hc, if_neg (fun h => hc h.2.2)]
    · rw [if_neg (by
        rintro (h | h)
        · exact ha h.2.2.1
        · exact ha h.2.2.1.symm), if_neg (fun h => ha h.2.1)]
  · rintro ⟨a, c⟩ h
    rw [mem_nodePairs hf] at h
    exact ⟨h.1, h.2.1⟩
  · intro i j h h'
    rw [mem_nodePairs hf] at h h'
    omega

/-- Two linked nodes at distance 1. -/
example : PotentialEnergy pairNet (fun i => i) (fun _ => 0) (fun k => if k = 0 then [1, 0] else []) 1 =
    1 / 2 + 1 / 2 / Real.sqrt (1 + Real.sqrt 2 / 10000) := by
  have hf : Filed pairNet.n 1 (fun k => if k = 0 then [1, 0] else []) (fun _ => 0) := by
    refine ⟨fun k => ?_, fun k i => ?_, fun i _ => by norm_num⟩
    · split_ifs <;> simp
    · show _ ↔ i < 2 ∧ 0 = k
      split_ifs with h
      · subst h; simp; omega
      · simp; omega
  rw [C97_energy pairNet pairNet_simple _ _ 1 _ _ hf]
  have hi : Interact pairNet.n 1 (fun i => (i : ℝ)) (fun _ => 0) (fun _ => 0) 1 0 := ⟨by norm_num, by decide, Or.inr (by norm_num)⟩
  have hw : pairNet.w 1 0 = 1 := by decide +kernel
  rw [show pairNet.n = 2 from rfl] at hi ⊢
  simp only [Finset.sum_range_succ, Finset.range_zero, Finset.sum_empty, zero_add, hw, if_pos hi]
  norm_num

/-! ### In three dimensions -/

theorem flatMap_sublist {α β : Type*} {f g : α → List β} : ∀ {l l' : List α}, l.Sublist l' → (∀ a ∈ l, (f a).Sublist (g a)) →
    (l.flatMap f).Sublist (l'.flatMap g)
  | _, _, .slnil, _ => by simp
  | _, _, .cons a h, hfg => by
    rw [List.flatMap_cons]
    exact (flatMap_sublist h hfg).trans (List.sublist_append_right _ _)
  | _, _, .cons_cons a h, hfg => by
    rw [List.flatMap_cons, List.flatMap_cons]
    exact (hfg a (by simp)).append (flatMap_sublist h fun c hc => hfg c (by simp [hc]))

theorem energyPairs_sublist (b : ℕ) : (boxPairsEnergy3D b).Sublist (boxPairs3D b) := by
  have hb : b * b ≤ b * b * b := by
    rcases Nat.eq_zero_or_pos b with h | h
    · simp [h]
    · exact Nat.le_mul_of_pos_right _ h
  unfold boxPairsEnergy3D boxPairs3D boxPairsOf
  refine flatMap_sublist (List.range_sublist.2 hb) fun p _ => flatMap_sublist (List.Sublist.refl _) fun row _ =>
    flatMap_sublist (List.Sublist.refl _) fun col _ => flatMap_sublist (List.Sublist.refl _) fun pla _ => ?_
  by_cases h : skip3 (b * b) b p row col pla
  · rw [if_pos h]; exact List.nil_sublist _
  · have h' : ¬ skip3 (b * b * b) b p row col pla := by
      intro h'
      apply h
      unfold skip3 at h' ⊢
      rcases h' with h' | h' | h' | h' | h' | ⟨h1, h2⟩ | h'
      · exact Or.inl h'
      · exact Or.inr (Or.inl h')
      · exact Or.inr (Or.inr (Or.inl h'))
      · exact Or.inr (Or.inr (Or.inr (Or.inl h')))
      · exact Or.inr (Or.inr (Or.inr (Or.inr (Or.inl h'))))
      · refine Or.inr (Or.inr (Or.inr (Or.inr (Or.inr (Or.inl ⟨h1, ?_⟩)))))
        push_cast at h2 ⊢
        have : (b : ℤ) * b ≤ b * b * b := by exact_mod_cast hb
        linarith
      · exact Or.inr (Or.inr (Or.inr (Or.inr (Or.inr (Or.inr h')))))
    rw [if_neg h, if_neg h']

theorem nodePairs_sublist (boxes : ℕ → List ℕ) {l l' : List (ℕ × ℤ)} (h : l.Sublist l') :
    (nodePairs boxes l).Sublist (nodePairs boxes l') := flatMap_sublist h fun _ _ => List.Sublist.refl _

theorem mem_energyPairs {n b : ℕ} {boxes : ℕ → List ℕ} {home : ℕ → ℕ} (hf : Filed3 n b boxes home) (i j : ℕ) :
    (i, j) ∈ nodePairs boxes (boxPairsEnergy3D b) ↔ i < n ∧ j < n ∧ Adjacent3 b (home i) (home j) ∧
      (home i < home j ∨ (home i = home j ∧ i > j)) ∧ home i < b * b ∧ home j < b * b := by
  simp only [nodePairs, List.mem_flatMap, Prod.exists]
  constructor
  · rintro ⟨p, q, hp, h⟩
    obtain ⟨k, rfl, hpk, hkb, ha⟩ := (C104_first_plane_partial b p q).1 hp
    rw [mem_pairsIn, hf.mem, Int.toNat_natCast, hf.mem] at h
    obtain ⟨⟨h1, rfl⟩, ⟨h3, rfl⟩, h5⟩ := h
    exact ⟨h1, h3, ha, by omega, by omega, hkb⟩
  · rintro ⟨h1, h2, ha, h, h3, h4⟩
    refine ⟨home i, home j, (C104_first_plane_partial _ _ _).2 ⟨home j, rfl, by omega, h4, ha⟩, ?_⟩
    rw [mem_pairsIn, hf.mem, Int.toNat_natCast, hf.mem]
    exact ⟨⟨h1, rfl⟩, ⟨h2, rfl⟩, by omega⟩

theorem lt_cutoff {v c : ℝ} (h0 : 0 ≤ v) (hc : 0 ≤ c) : v < c * c ↔ Real.sqrt v < c := by
  rw [Real.sqrt_lt h0 hc, pow_two]

open Classical in
/-- C104, the part that holds: `PotentialEnergy3D` is the energy of the springs plus the energy of those pairs of charges that act on one another
and are both in the first plane of boxes. -/
theorem C104_energy_partial (net : GP.Net) (hs : net.Simple) (r : Pos) (b : ℕ) (boxes : ℕ → List ℕ) (home : ℕ → ℕ)
    (hf : Filed3 net.n b boxes home) {lo hi : Fin 3 → ℝ} (hx : ∀ d, Extent net.n (r d) (lo d) (hi d))
    (h0 : ∀ d, -(10 ^ 5) ≤ hi d ∧ lo d ≤ 10 ^ 5) :
    PotentialEnergy3D net r boxes b =
      (∑ i ∈ Finset.range net.n, ∑ j ∈ Finset.range i, (net.w i j : ℝ) * ((∑ d, (r d i - r d j) ^ 2) / 2)) +
      ∑ i ∈ Finset.range net.n, ∑ j ∈ Finset.range i, if Interact3 net.n b r home i j ∧ home i < b * b ∧ home j < b * b then
        1 / net.n / Real.sqrt ((∑ d, (r d i - r d j) ^ 2) + Real.sqrt net.n / 10000) else 0 := by
  have hc : 0 ≤ cutoff3 net.n b r := by
    unfold cutoff3
    rw [(hx 0).least (h0 0).2, (hx 0).most (h0 0).1, (hx 1).least (h0 1).2, (hx 1).most (h0 1).1, (hx 2).least (h0 2).2,
      (hx 2).most (h0 2).1]
    have h : ∀ d, lo d ≤ hi d := fun d => by
      obtain ⟨i, hi, -⟩ := (hx d).bot
      exact ((hx d).range i hi).1.trans ((hx d).range i hi).2
    have := h 0
    have := h 1
    have := h 2
    exact div_nonneg (div_nonneg (by linarith) (by norm_num)) (Nat.cast_nonneg b)
  have hd : ∀ i j, (r 0 j - r 0 i) * (r 0 j - r 0 i) + (r 1 j - r 1 i) * (r 1 j - r 1 i) + (r 2 j - r 2 i) * (r 2 j - r 2 i) =
      ∑ d, (r d i - r d j) ^ 2 := by
    intro i j
    rw [Fin.sum_univ_three]
    ring
  have hsym : ∀ i j, ∑ d, (r d i - r d j) ^ 2 = ∑ d, (r d j - r d i) ^ 2 := fun i j => Finset.sum_congr rfl fun d _ => by ring
  have hnn : ∀ i j, 0 ≤ ∑ d, (r d i - r d j) ^ 2 := fun i j => Finset.sum_nonneg fun d _ => sq_nonneg _
  have hap : ∀ i j, Real.sqrt (∑ d, (r d i - r d j) ^ 2) = apart r i j := fun i j => by
    unfold apart; rw [Fin.sum_univ_three]
  unfold PotentialEnergy3D
  simp only [hd]
  rw [foldl_if_map (fun p : ℕ × ℕ => ∑ d, (r d p.1 - r d p.2) ^ 2 < cutoff3 net.n b r * cutoff3 net.n b r ∨ b ≤ 2), foldl_add_map, zero_add,
    spring_energy hs (fun i j => (∑ d, (r d i - r d j) ^ 2) / 2) (fun i j => by rw [hsym]) _
    (fun e => by ring)]
  congr 1
  rw [sum_pairs ((nodup_nodePairs3 hf).sublist (nodePairs_sublist boxes (energyPairs_sublist b))) _ _
    (fun i j => if ∑ d, (r d i - r d j) ^ 2 < cutoff3 net.n b r * cutoff3 net.n b r ∨ b ≤ 2 then
      1 / (net.n : ℝ) / Real.sqrt (∑ d, (r d i - r d j) ^ 2 + epsilon net.n) else 0) (fun i j => by rw [hsym])]
  · refine Finset.sum_congr rfl fun i hi => Finset.sum_congr rfl fun j hj => ?_
    rw [Finset.mem_range] at hi hj
    simp only [mem_energyPairs hf]
    unfold epsilon
    simp only [lt_cutoff (hnn i j) hc, hap]
    by_cases ha : Adjacent3 b (home i) (home j) ∧ home i < b * b ∧ home j < b * b
    · obtain ⟨ha, h1, h2⟩ := ha
      have ha' := ha.symm
      rw [if_pos (by
        rcases lt_trichotomy (home i) (home j) with h | h | h
        · exact Or.inl ⟨hi, by omega, ha, Or.inl h, h1, h2⟩
        · exact Or.inl ⟨hi, by omega, ha, Or.inr ⟨h, hj⟩, h1, h2⟩
        · exact Or.inr ⟨by omega, hi, ha', Or.inl h, h2, h1⟩)]
      by_cases hc : apart r i j < cutoff3 net.n b r ∨ b ≤ 2
      · rw [if_pos hc, if_pos ⟨⟨by omega, ha, hc⟩, h1, h2⟩]
      · rw [if_neg hc, if_neg (fun h => hc h.1.2.2)]
    · rw [if_neg (by
        rintro (h | h)
        · exact ha ⟨h.2.2.1, h.2.2.2.2⟩
        · exact ha ⟨h.2.2.1.symm, h.2.2.2.2.2, h.2.2.2.2.1⟩), if_neg (fun h => ha ⟨h.1.2.1, h.2⟩)]
  · rintro ⟨a, c⟩ h
    rw [mem_energyPairs hf] at h
    exact ⟨h.1, h.2.1⟩
  · intro i j h h'
    rw [mem_energyPairs hf] at h h'
    omega

end LY
