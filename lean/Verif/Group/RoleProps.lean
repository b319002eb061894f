import Verif.Group.RoleModel
import Verif.Group.Props
import Mathlib.Tactic.Positivity
import Mathlib.Algebra.Order.Chebyshev
import Mathlib.Algebra.BigOperators.Field
import Verif.Roles.Props

/-! # C61, C62: roles from partitions of `modules.c` -/

set_option linter.unusedSimpArgs false

namespace GP

open Finset

/-! ## Specification -/

/-- Number of links of `v` to the nodes of group `g`. -/
def kTo (net : Net) (p : Part) (v g : ℕ) : ℚ := ∑ j ∈ members net p g, (net.a v j : ℚ)

/-- Degree. -/
def deg (net : Net) (v : ℕ) : ℚ := ∑ j ∈ range net.n, (net.a v j : ℚ)

/-- Weight of the links of `v` to the nodes of group `g`. -/
def sTo (net : Net) (p : Part) (v g : ℕ) : ℚ := ∑ j ∈ members net p g, net.w v j

/-- Strength. -/
def str (net : Net) (v : ℕ) : ℚ := ∑ j ∈ range net.n, net.w v j

/-- Standard score of `v` in `S`. -/
noncomputable def zOf (S : Finset ℕ) (f : ℕ → ℚ) (v : ℕ) : ℝ :=
  let mean := (∑ u ∈ S, f u) / S.card
  let var := (∑ u ∈ S, (f u - mean) ^ 2) / S.card
  if var = 0 then 0 else ((f v - mean : ℚ) : ℝ) / Real.sqrt (var : ℝ)

/-- Every node is in one of `m` groups. -/
def Covers (net : Net) (m : ℕ) (p : Part) : Prop := ∀ v < net.n, ∃ g < m, p.inGroup v = some g

variable {net : Net} {m : ℕ} {p : Part}

/-! ## Participation -/

theorem row_total (h : net.Simple) (v : ℕ) (F : ℕ → ℚ) :
    ((net.neig v).map fun x => F x.1).sum = ∑ j ∈ range net.n, (net.a v j : ℚ) * F j := by
  have key : ∀ (l : List (ℕ × ℚ)), (l.map (·.1)).Nodup → (∀ x ∈ l, x.1 < net.n) →
      (l.map fun x => F x.1).sum = ∑ j ∈ range net.n,
        (if ((l.find? fun x => x.1 = j).map (·.2)).isSome then 1 else 0 : ℚ) * F j := by
    intro l
    induction l with
    | nil => simp
    | cons x l ih =>
      intro hn hr
      rw [List.map_cons, List.nodup_cons] at hn
      rw [List.map_cons, List.sum_cons, ih hn.2 fun y hy => hr y (by simp [hy])]
      have hx := mem_range.2 (hr x (by simp))
      rw [← add_sum_erase _ _ hx, ← add_sum_erase (range net.n) (fun j =>
        (if (((x :: l).find? fun x => x.1 = j).map (·.2)).isSome then 1 else 0 : ℚ) * F j) hx]
      have h0 : l.find? (fun y => decide (y.1 = x.1)) = none := by
        rw [List.find?_eq_none]
        intro y hy hh
        exact hn.1 (List.mem_map.2 ⟨y, hy, by simpa using hh⟩)
      simp only [h0]
      have : ∑ j ∈ (range net.n).erase x.1, (if (((x :: l).find? fun x => x.1 = j).map (·.2)).isSome then 1 else 0 : ℚ) * F j =
          ∑ j ∈ (range net.n).erase x.1, (if ((l.find? fun x => x.1 = j).map (·.2)).isSome then 1 else 0 : ℚ) * F j := by
        apply sum_congr rfl
        intro j hj
        have : ¬ x.1 = j := fun e => (mem_erase.1 hj).1 e.symm
        rw [List.find?_cons_of_neg (by simp [this])]
      rw [this]
      simp
  rw [key _ (h.nodup v) (h.range v)]
  apply sum_congr rfl
  intro j _
  unfold Net.a Net.link
  split_ifs <;> simp

theorem nlinks_kTo (h : net.Simple) (v g : ℕ) : (NLinksToGroup net p v g : ℚ) = kTo net p v g := by
  rw [NLinksToGroup_eq h]
  unfold kTo
  push_cast
  rfl

theorem strength_sTo (h : net.Simple) (v g : ℕ) : StrengthToGroup net p v g = sTo net p v g := StrengthToGroup_eq h p v g

theorem degree_deg (h : net.Simple) (v : ℕ) : ((net.neig v).length : ℚ) = deg net v := by
  have := NodeDegree_eq h v
  unfold NodeDegree at this
  unfold deg
  have h2 : (((net.neig v).length : Int) : ℚ) = ((∑ j ∈ range net.n, net.a v j : Int) : ℚ) := by rw [this]
  push_cast at h2
  exact h2

theorem by_group (hc : Covers net m p) (F : ℕ → ℚ) (G : ℕ → ℚ) (K : ℕ → ℚ)
    (hG : ∀ j g, p.inGroup j = some g → G j = K g) :
    ∑ j ∈ range net.n, F j * G j = ∑ g ∈ range m, (∑ j ∈ members net p g, F j) * K g := by
  have : ∀ j ∈ range net.n, F j * G j = ∑ g ∈ range m, if p.inGroup j = some g then F j * K g else 0 := by
    intro j hj
    obtain ⟨g, hg, e⟩ := hc j (mem_range.1 hj)
    rw [sum_eq_single g]
    · rw [if_pos e, hG j g e]
    · intro g' _ hne
      rw [if_neg]
      rw [e]
      intro h
      exact hne (Option.some.inj h).symm
    · intro hno
      exact absurd (mem_range.2 hg) hno
  rw [sum_congr rfl this, sum_comm]
  apply sum_congr rfl
  intro g _
  unfold members
  rw [sum_filter, sum_mul]
  apply sum_congr rfl
  intro j _
  split_ifs <;> simp

/-- **C61**: the participation coefficient is one minus the sum of the squared shares of links to the groups; the degree must be
less than 46341, else a product of `int`s overflows. -/
theorem C61_participation (h : net.Simple) (hc : Covers net m p) {v : ℕ}
    (hd : deg net v ≤ 46340) :
    ParticipationCoefficient net p v = some (if deg net v = 0 then 0 else 1 - ∑ g ∈ range m, (kTo net p v g / deg net v) ^ 2) := by
  have hk := degree_deg h v
  unfold ParticipationCoefficient
  dsimp only
  by_cases e : (net.neig v).length = 0
  · rw [if_pos e, if_pos (by rw [← hk, e]; rfl)]
  · have hn : deg net v ≠ 0 := by rw [← hk]; exact_mod_cast e
    have hle : (net.neig v).length ≤ 46340 := by
      have : ((net.neig v).length : ℚ) ≤ (46340 : ℕ) := by rw [hk]; exact_mod_cast hd
      exact_mod_cast this
    have hmul : ¬ 2147483647 < (net.neig v).length * (net.neig v).length := by
      have := Nat.mul_le_mul hle hle
      omega
    rw [if_neg e, if_neg hmul, if_neg hn, foldl_sum, zero_add, row_total h v
      (fun j => (linksToNum net p v (p.inGroup j) : ℚ) / (((net.neig v).length * (net.neig v).length : ℕ) : ℚ))]
    rw [by_group hc _ _ (fun g => kTo net p v g / (deg net v * deg net v))]
    · congr 2
      apply sum_congr rfl
      intro g _
      unfold kTo
      rw [div_pow, sq, sq]
      ring
    · intro j g hj
      rw [hj, Nat.cast_mul, hk, ← nlinks_kTo h]
      rfl

/-- **C61**: the weighted participation coefficient, for nodes whose links have a total weight other than zero. -/
theorem C61_weighted (h : net.Simple) {v : ℕ} :
    (deg net v = 0 → WeightedParticipationCoefficient net m p v = some 0) ∧
    (deg net v ≠ 0 → str net v ≠ 0 →
      WeightedParticipationCoefficient net m p v = some (1 - ∑ g ∈ range m, (sTo net p v g / str net v) ^ 2)) ∧
    (deg net v ≠ 0 → str net v = 0 → 0 < m → WeightedParticipationCoefficient net m p v = none) := by
  have hk := degree_deg h v
  have hs : NodeStrength net v = str net v := NodeStrength_eq h v
  refine ⟨?_, ?_, ?_⟩
  · intro e
    unfold WeightedParticipationCoefficient
    rw [if_pos]
    rw [e] at hk
    exact_mod_cast hk
  · intro e1 e2
    unfold WeightedParticipationCoefficient
    rw [if_neg (by intro e; rw [e] at hk; exact e1 (by rw [← hk]; rfl))]
    simp only [hs, if_neg (mul_self_ne_zero.2 e2), strength_sTo h]
    have : ∀ n, (List.range n).foldlM (fun P g => some (P + sTo net p v g * sTo net p v g / (str net v * str net v))) (0 : ℚ) =
        some (∑ g ∈ range n, (sTo net p v g / str net v) ^ 2) := by
      intro n
      induction n with
      | zero => rfl
      | succ n ih =>
        rw [List.range_succ, List.foldlM_append, ih, sum_range_succ]
        simp [sq, div_mul_div_comm]
    rw [this]
    rfl
  · intro e1 e2 hm
    unfold WeightedParticipationCoefficient
    rw [if_neg (by intro e; rw [e] at hk; exact e1 (by rw [← hk]; rfl))]
    obtain ⟨m, rfl⟩ := Nat.exists_eq_succ_of_ne_zero hm.ne'
    rw [List.range_succ_eq_map, List.foldlM_cons, hs, e2]
    simp

theorem sum_groups (hc : Covers net m p) (F : ℕ → ℚ) :
    ∑ g ∈ range m, ∑ j ∈ members net p g, F j = ∑ j ∈ range net.n, F j := by
  have := by_group hc F (fun _ => 1) (fun _ => 1) (fun _ _ _ => rfl)
  simp only [mul_one] at this
  exact this.symm

/-- **C61**: bounds of the participation coefficient. -/
theorem C61_bounds (hc : Covers net m p) {v : ℕ} (hd : deg net v ≠ 0) :
    0 ≤ 1 - ∑ g ∈ range m, (kTo net p v g / deg net v) ^ 2 ∧ 1 - ∑ g ∈ range m, (kTo net p v g / deg net v) ^ 2 ≤ 1 - 1 / m := by
  have hnn : ∀ g, 0 ≤ kTo net p v g := by
    intro g
    apply sum_nonneg
    intro j _
    unfold Net.a
    split_ifs <;> simp
  have hsum : ∑ g ∈ range m, kTo net p v g = deg net v := sum_groups hc fun j => (net.a v j : ℚ)
  have hpos : 0 < deg net v := lt_of_le_of_ne (by rw [← hsum]; exact sum_nonneg fun g _ => hnn g) (Ne.symm hd)
  have h1 : ∑ g ∈ range m, kTo net p v g / deg net v = 1 := by rw [← sum_div, hsum, div_self hd]
  constructor
  · have : ∑ g ∈ range m, (kTo net p v g / deg net v) ^ 2 ≤ (∑ g ∈ range m, kTo net p v g / deg net v) ^ 2 :=
      sum_sq_le_sq_sum_of_nonneg fun g _ => div_nonneg (hnn g) hpos.le
    rw [h1] at this
    linarith
  · have hcs := sq_sum_le_card_mul_sum_sq (s := range m) (f := fun g => kTo net p v g / deg net v)
    rw [h1, card_range] at hcs
    have hm : (0 : ℚ) < m := by
      rcases Nat.eq_zero_or_pos m with e | e
      · subst e; simp at h1
      · exact_mod_cast e
    have : 1 / (m : ℚ) ≤ ∑ g ∈ range m, (kTo net p v g / deg net v) ^ 2 := by
      rw [div_le_iff₀ hm]
      linarith
    linarith

/-! ## Standard scores -/

theorem zscore_eq {S : Finset ℕ} {G : Grp} (f : ℕ → ℚ) (hn : G.nodes.Nodup) (hm : G.nodes.toFinset = S) (hs : G.size = S.card)
    (hS : S.Nonempty) (v : ℕ) : zscore f G v = some (zOf S f v) := by
  have hcard : (0 : ℚ) < S.card := by exact_mod_cast card_pos.2 hS
  have hne : ((S.card : ℕ) : Int) ≠ 0 := by exact_mod_cast (card_pos.2 hS).ne'
  unfold zscore zOf
  dsimp only
  rw [hs, if_neg hne, foldl_nodes _ hn, foldl_nodes _ hn, hm]
  rw [Int.cast_natCast]
  set mean := (∑ u ∈ S, f u) / (S.card : ℚ) with hmean
  have hvar : (∑ u ∈ S, f u * f u) / (S.card : ℚ) - mean * mean = (∑ u ∈ S, (f u - mean) ^ 2) / S.card := by
    have e1 : ∑ u ∈ S, (f u - mean) ^ 2 = ∑ u ∈ S, f u * f u - 2 * mean * ∑ u ∈ S, f u + S.card * mean ^ 2 := by
      rw [mul_sum, ← sum_sub_distrib, ← nsmul_eq_mul, ← sum_const, ← sum_add_distrib]
      exact sum_congr rfl fun u _ => by ring
    have e2 : ∑ u ∈ S, f u = S.card * mean := by rw [hmean]; field_simp
    rw [e1, e2, eq_div_iff hcard.ne', sub_mul, div_mul_cancel₀ _ hcard.ne']
    ring
  rw [hvar]
  have hv0 : 0 ≤ (∑ u ∈ S, (f u - mean) ^ 2) / (S.card : ℚ) := div_nonneg (sum_nonneg fun u _ => sq_nonneg _) hcard.le
  by_cases e : (∑ u ∈ S, (f u - mean) ^ 2) / (S.card : ℚ) = 0
  · rw [if_pos e, if_pos (by rw [e]; simp)]
  · rw [if_neg e, if_neg]
    rw [Real.sqrt_eq_zero (by exact_mod_cast hv0)]
    exact_mod_cast e

/-- **C61**: standard scores add up to 0, and their squares to the size of the group unless all are 0. -/
theorem C61_scores (S : Finset ℕ) (f : ℕ → ℚ) : ∑ v ∈ S, zOf S f v = 0 ∧
    ((∃ u ∈ S, ∃ v ∈ S, f u ≠ f v) → ∑ v ∈ S, zOf S f v ^ 2 = S.card) ∧
    ((∀ u ∈ S, ∀ v ∈ S, f u = f v) → ∀ v ∈ S, zOf S f v = 0) := by
  rcases S.eq_empty_or_nonempty with rfl | hS
  · simp
  have hcard : (0 : ℚ) < S.card := by exact_mod_cast card_pos.2 hS
  unfold zOf
  dsimp only
  set mean := (∑ u ∈ S, f u) / (S.card : ℚ) with hmean
  have hdev : ∑ u ∈ S, (f u - mean) = 0 := by
    rw [sum_sub_distrib, sum_const, nsmul_eq_mul, hmean]
    field_simp
    ring
  have hv0 : 0 ≤ ∑ u ∈ S, (f u - mean) ^ 2 := sum_nonneg fun u _ => sq_nonneg _
  by_cases e : (∑ u ∈ S, (f u - mean) ^ 2) / (S.card : ℚ) = 0
  · simp only [if_pos e]
    refine ⟨by simp, ?_, by simp⟩
    rintro ⟨u, hu, v, hv, hne⟩
    exfalso
    have e0 : ∑ u ∈ S, (f u - mean) ^ 2 = 0 := by
      rcases div_eq_zero_iff.1 e with e | e
      · exact e
      · exact absurd e hcard.ne'
    rw [sum_eq_zero_iff_of_nonneg fun u _ => sq_nonneg _] at e0
    have h1 := e0 u hu
    have h2 := e0 v hv
    rw [sq_eq_zero_iff, sub_eq_zero] at h1 h2
    exact hne (h1.trans h2.symm)
  · simp only [if_neg e]
    refine ⟨?_, ?_, ?_⟩
    · rw [← sum_div, ← Rat.cast_sum, hdev]
      simp
    · intro _
      have hx : (0 : ℝ) ≤ (((∑ u ∈ S, (f u - mean) ^ 2) / (S.card : ℚ) : ℚ) : ℝ) := by
        exact_mod_cast div_nonneg hv0 hcard.le
      simp only [div_pow, Real.sq_sqrt hx]
      rw [← sum_div]
      have : ∑ i ∈ S, ((f i - mean : ℚ) : ℝ) ^ 2 = ((∑ i ∈ S, (f i - mean) ^ 2 : ℚ) : ℝ) := by push_cast; rfl
      rw [this, ← Rat.cast_div]
      have h2 : (∑ i ∈ S, (f i - mean) ^ 2) / ((∑ i ∈ S, (f i - mean) ^ 2) / (S.card : ℚ)) = S.card := by
        have : ∑ i ∈ S, (f i - mean) ^ 2 ≠ 0 := by
          intro h0
          rw [h0] at e
          simp at e
        field_simp
      rw [h2]
      simp
    · intro heq
      exfalso
      apply e
      rw [sum_eq_zero, zero_div]
      intro u hu
      have : ∑ w ∈ S, f w = S.card * f u := by
        rw [sum_congr rfl fun w hw => heq w hw u hu, sum_const, nsmul_eq_mul]
      rw [hmean, this]
      field_simp
      ring

/-- **C61**: the relative degree and the relative strength within the module are the standard scores of the numbers of links, and of the weights, to
the module. The search for the module may start at any group up to it. -/
theorem C61_within (h : net.Simple) (hp : PartOK net m p) {v g start : ℕ} (hv : v < net.n) (hg : g < m) (e : p.inGroup v = some g) (hst : start ≤ g) :
    WithinModuleRelativeDegree net m p v start = some (zOf (members net p g) (fun u => kTo net p u g) v) ∧
    WithinModuleRelativeStrength net m p v start = some (zOf (members net p g) (fun u => sTo net p u g) v) := by
  have e2 : findGroup m p start v = some g := by
    unfold findGroup
    rw [e]
    simp [hg, hst]
  have hG := hp.groups g hg
  have hne : (members net p g).Nonempty := ⟨v, by simp [members, hv, e]⟩
  unfold WithinModuleRelativeDegree WithinModuleRelativeStrength
  simp only [Option.bind_eq_bind, Option.bind_some, e2]
  rw [zscore_eq _ hG.nodup hG.mem hG.size hne, zscore_eq _ hG.nodup hG.mem hG.size hne]
  simp only [nlinks_kTo h, strength_sTo h, and_self]

/-! ## The partition into roles -/

theorem fillInner {ρ : ℕ → ℕ} {role : ℕ → Option ℕ} : ∀ (l : List ℕ) (R : ℕ → Grp), (∀ v ∈ l, role v = some (ρ v)) →
    ∃ R', l.foldlM (fun R v => (role v).map fun r => addSoft R r v) R = some R' ∧
      ∀ r, (R' r).nodes = (R r).nodes ++ l.filter (fun v => ρ v = r) ∧
        (R' r).size = (R r).size + (l.filter (fun v => ρ v = r)).length
  | [], R, _ => ⟨R, rfl, by simp⟩
  | v :: l, R, h => by
    obtain ⟨R', h1, h2⟩ := fillInner l (addSoft R (ρ v) v) fun u hu => h u (by simp [hu])
    refine ⟨R', ?_, ?_⟩
    · rw [List.foldlM_cons, h v (by simp)]
      exact h1
    · intro r
      obtain ⟨k1, k2⟩ := h2 r
      rw [k1, k2]
      by_cases e : ρ v = r
      · subst e
        simp [addSoft]
        omega
      · have e' : ¬ r = ρ v := fun h => e h.symm
        simp [addSoft, e, e']

theorem fillRoles_ok {ρ : ℕ → ℕ → ℕ} {role : ℕ → ℕ → Option ℕ} (h : ∀ g < m, ∀ v ∈ (p.grp g).nodes, role g v = some (ρ g v)) :
    ∃ R, fillRoles m p role = some R ∧
      ∀ r, (R r).nodes = (List.range m).flatMap (fun g => (p.grp g).nodes.filter fun v => ρ g v = r) ∧
        (R r).size = (R r).nodes.length := by
  unfold fillRoles
  have key : ∀ n, n ≤ m → ∃ R, (List.range n).foldlM (fun R g =>
      (p.grp g).nodes.foldlM (fun R v => (role g v).map fun r => addSoft R r v) R) (fun _ => Grp.empty) = some R ∧
      ∀ r, (R r).nodes = (List.range n).flatMap (fun g => (p.grp g).nodes.filter fun v => ρ g v = r) ∧
        (R r).size = (R r).nodes.length := by
    intro n
    induction n with
    | zero => intro _; exact ⟨_, rfl, fun r => by simp [Grp.empty]⟩
    | succ n ih =>
      intro hn
      obtain ⟨R, h1, h2⟩ := ih (by omega)
      obtain ⟨R', k1, k2⟩ := fillInner (ρ := ρ n) (role := role n) (p.grp n).nodes R (h n (by omega))
      refine ⟨R', ?_, ?_⟩
      · rw [List.range_succ, List.foldlM_append, h1]
        simp [k1]
      · intro r
        rw [(k2 r).1, (k2 r).2, (h2 r).2, List.range_succ, List.flatMap_append, List.length_append, (h2 r).1]
        simp
  exact key m le_rfl

theorem fillRoles_lists (hp : PartOK net m p) {ρ : ℕ → ℕ → ℕ} {R : ℕ → Grp}
    (hR : ∀ r, (R r).nodes = (List.range m).flatMap (fun g => (p.grp g).nodes.filter fun v => ρ g v = r) ∧
        (R r).size = (R r).nodes.length) (f : ℕ → Option ℕ) : ListsOK net 7 { grp := R, inGroup := f } := by
  have hl := hp.lists
  have hmem : ∀ r v, v ∈ (R r).nodes ↔ ∃ g < m, v ∈ (p.grp g).nodes ∧ ρ g v = r := by
    intro r v
    rw [(hR r).1]
    simp
  refine ⟨?_, ?_, ?_, fun r _ => (hR r).2⟩
  · intro r _
    simp only [(hR r).1]
    rw [List.nodup_flatMap]
    constructor
    · intro g hg
      exact (hl.nodup g (List.mem_range.1 hg)).filter _
    · apply List.Nodup.pairwise_of_forall_ne List.nodup_range
      intro g hg g' hg' hne v h1 h2
      exact hl.disj g (List.mem_range.1 hg) g' (List.mem_range.1 hg') hne v (List.mem_filter.1 h1).1 (List.mem_filter.1 h2).1
  · intro r _ v hv
    obtain ⟨g, hg, h1, _⟩ := (hmem r v).1 hv
    exact hl.range g hg v h1
  · intro r _ r' _ hne v hv hv'
    obtain ⟨g, hg, h1, h2⟩ := (hmem r v).1 hv
    obtain ⟨g', hg', h1', h2'⟩ := (hmem r' v).1 hv'
    by_cases e : g = g'
    · subst e; exact hne (h2.symm.trans h2')
    · exact hl.disj g hg g' hg' e v h1 h1'

theorem catalog {mod : Part} (h : net.Simple) (hp : ListsOK net m mod) {role : ℕ → ℕ → Option ℕ} {ρ : ℕ → ℕ → ℕ}
    (hrole : ∀ g < m, ∀ v ∈ (mod.grp g).nodes, role g v = some (ρ g v)) (hρ : ∀ g v, ρ g v ≤ 6) :
    ∃ R, fillRoles m (MapPartToNet net m mod) role = some R ∧
      PartOK net 7 (MapPartToNet net 7 { grp := R, inGroup := (MapPartToNet net m mod).inGroup }) ∧
      ∀ g < m, ∀ v ∈ (mod.grp g).nodes,
        (MapPartToNet net 7 { grp := R, inGroup := (MapPartToNet net m mod).inGroup }).inGroup v = some (ρ g v) := by
  have hnodes : ∀ g < m, ((MapPartToNet net m mod).grp g).nodes = (mod.grp g).nodes := by
    intro g hg
    simp only [MapPartToNet, if_pos hg, mapCounts]
  obtain ⟨R, h1, h2⟩ := fillRoles_ok (p := MapPartToNet net m mod) (ρ := ρ) (role := role) (fun g hg v hv => hrole g hg v (hnodes g hg ▸ hv))
  have hL := fillRoles_lists (map_ok h hp) h2 (MapPartToNet net m mod).inGroup
  refine ⟨R, h1, map_ok h hL, ?_⟩
  intro g hg v hv
  simp only [MapPartToNet]
  have := (mapInGroup_iff (p := { grp := R, inGroup := (MapPartToNet net m mod).inGroup }) 7 hL.disj v (ρ g v)).2 ⟨by have := hρ g v; omega, by
    simp only [(h2 (ρ g v)).1]
    rw [List.mem_flatMap]
    exact ⟨g, List.mem_range.2 hg, List.mem_filter.2 ⟨hnodes g hg ▸ hv, by simp⟩⟩⟩
  exact this

theorem find_own {mod : Part} (hp : ListsOK net m mod) {g v : ℕ} (hg : g < m) (hv : v ∈ (mod.grp g).nodes) :
    (MapPartToNet net m mod).inGroup v = some g ∧ findGroup m (MapPartToNet net m mod) g v = some g := by
  have e : (MapPartToNet net m mod).inGroup v = some g := (mapInGroup_iff m hp.disj v g).2 ⟨hg, hv⟩
  refine ⟨e, ?_⟩
  unfold findGroup
  rw [e]
  simp [hg]

/-- **C62**: `CatalogRoleIdent` puts every node of every module into the role that its participation coefficient and its standardised
within-module degree have in the table of roles, and leaves the network mapped to a consistent partition into seven groups. -/
theorem C62_catalog (h : net.Simple) {mod : Part} (hp : ListsOK net m mod) (hall : ∀ v < net.n, ∃ g < m, v ∈ (mod.grp g).nodes)
    (hd : ∀ v < net.n, deg net v ≤ 46340) :
    ∃ r, CatalogRoleIdent net m mod = some r ∧ PartOK net 7 r ∧ ∀ g < m, ∀ v ∈ (mod.grp g).nodes,
      r.inGroup v = some (Roles.GetRole
        (((if deg net v = 0 then 0 else 1 - ∑ k ∈ range m, ((∑ j ∈ (mod.grp k).nodes.toFinset, (net.a v j : ℚ)) / deg net v) ^ 2 : ℚ)) : ℝ)
        (zOf (mod.grp g).nodes.toFinset (fun u => ∑ j ∈ (mod.grp g).nodes.toFinset, (net.a u j : ℚ)) v)) := by
  have hok := map_ok h hp
  have hcov : Covers net m (MapPartToNet net m mod) := by
    intro v hv
    obtain ⟨g, hg, hm⟩ := hall v hv
    exact ⟨g, hg, (find_own hp hg hm).1⟩
  have hmem : ∀ g < m, members net (MapPartToNet net m mod) g = (mod.grp g).nodes.toFinset := fun g hg => map_members hp hg
  obtain ⟨R, h1, h2, h3⟩ := catalog h hp (role := fun g v => do
      let P ← ParticipationCoefficient net (MapPartToNet net m mod) v
      let z ← WithinModuleRelativeDegree net m (MapPartToNet net m mod) v g
      some (Roles.GetRole (P : ℝ) z))
    (ρ := fun g v => Roles.GetRole
        (((if deg net v = 0 then 0 else 1 - ∑ k ∈ range m, ((∑ j ∈ (mod.grp k).nodes.toFinset, (net.a v j : ℚ)) / deg net v) ^ 2 : ℚ)) : ℝ)
        (zOf (mod.grp g).nodes.toFinset (fun u => ∑ j ∈ (mod.grp g).nodes.toFinset, (net.a u j : ℚ)) v))
    (by
      intro g hg v hv
      have hvn := hp.range g hg v hv
      obtain ⟨_, e2⟩ := find_own hp hg hv
      have hG := hok.groups g hg
      rw [hmem g hg] at hG
      rw [C61_participation h hcov (hd v hvn)]
      unfold WithinModuleRelativeDegree
      simp only [Option.bind_eq_bind, Option.bind_some, e2]
      rw [zscore_eq _ hG.nodup hG.mem hG.size ⟨v, by simpa using hv⟩]
      simp only [Option.bind_some, nlinks_kTo h]
      unfold kTo
      rw [hmem g hg]
      congr 4
      congr 1
      exact sum_congr rfl fun k hk => by rw [hmem k (mem_range.1 hk)])
    (fun g v => (Roles.C11_role _ _).1)
  refine ⟨_, ?_, h2, h3⟩
  unfold CatalogRoleIdent
  simp only [Option.bind_eq_bind] at h1 ⊢
  rw [h1]
  rfl

/-- **C62**, strengths: the same for `CatalogRoleIdentStrength`, if no node with links has strength zero. -/
theorem C62_catalog_strength (h : net.Simple) {mod : Part} (hp : ListsOK net m mod)
    (hs : ∀ v < net.n, deg net v ≠ 0 → str net v ≠ 0) :
    ∃ r, CatalogRoleIdentStrength net m mod = some r ∧ PartOK net 7 r ∧ ∀ g < m, ∀ v ∈ (mod.grp g).nodes,
      r.inGroup v = some (Roles.GetRole
        (((if deg net v = 0 then 0 else 1 - ∑ k ∈ range m, ((∑ j ∈ (mod.grp k).nodes.toFinset, net.w v j) / str net v) ^ 2 : ℚ)) : ℝ)
        (zOf (mod.grp g).nodes.toFinset (fun u => ∑ j ∈ (mod.grp g).nodes.toFinset, net.w u j) v)) := by
  have hok := map_ok h hp
  have hmem : ∀ g < m, members net (MapPartToNet net m mod) g = (mod.grp g).nodes.toFinset := fun g hg => map_members hp hg
  obtain ⟨R, h1, h2, h3⟩ := catalog h hp (role := fun g v => do
      let P ← WeightedParticipationCoefficient net m (MapPartToNet net m mod) v
      let z ← WithinModuleRelativeStrength net m (MapPartToNet net m mod) v g
      some (Roles.GetRole (P : ℝ) z))
    (ρ := fun g v => Roles.GetRole
        (((if deg net v = 0 then 0 else 1 - ∑ k ∈ range m, ((∑ j ∈ (mod.grp k).nodes.toFinset, net.w v j) / str net v) ^ 2 : ℚ)) : ℝ)
        (zOf (mod.grp g).nodes.toFinset (fun u => ∑ j ∈ (mod.grp g).nodes.toFinset, net.w u j) v))
    (by
      intro g hg v hv
      have hvn := hp.range g hg v hv
      obtain ⟨_, e2⟩ := find_own hp hg hv
      have hG := hok.groups g hg
      rw [hmem g hg] at hG
      have hW : WeightedParticipationCoefficient net m (MapPartToNet net m mod) v = some (if deg net v = 0 then 0 else
          1 - ∑ k ∈ range m, ((∑ j ∈ (mod.grp k).nodes.toFinset, net.w v j) / str net v) ^ 2) := by
        by_cases e : deg net v = 0
        · rw [if_pos e]
          exact (C61_weighted h).1 e
        · rw [if_neg e, (C61_weighted h).2.1 e (hs v hvn e)]
          congr 2
          exact sum_congr rfl fun k hk => by unfold sTo; rw [hmem k (mem_range.1 hk)]
      rw [hW]
      unfold WithinModuleRelativeStrength
      simp only [Option.bind_eq_bind, Option.bind_some, e2]
      rw [zscore_eq _ hG.nodup hG.mem hG.size ⟨v, by simpa using hv⟩]
      simp only [Option.bind_some, strength_sTo h]
      unfold sTo
      rw [hmem g hg])
    (fun g v => (Roles.C11_role _ _).1)
  refine ⟨_, ?_, h2, h3⟩
  unfold CatalogRoleIdentStrength
  simp only [Option.bind_eq_bind] at h1 ⊢
  rw [h1]
  rfl

/-- **C61**: a node with more than 46340 links: the square of the degree does not fit an `int`. -/
theorem C61_overflow {v : ℕ} (hd : 46340 < (net.neig v).length) : ParticipationCoefficient net p v = none := by
  unfold ParticipationCoefficient
  have : 46341 * 46341 ≤ (net.neig v).length * (net.neig v).length := Nat.mul_le_mul hd hd
  dsimp only
  rw [if_neg (by omega), if_pos (by omega)]

/-- The example network, `{0, 1}` and `{2, 3}`: node 2 has two links of weight 3/2 in all to the other group and one of weight 3 inside. -/
def halves : Part :=
  AddNodeToGroup tailed 1 3 (AddNodeToGroup tailed 1 2 (AddNodeToGroup tailed 0 1 (AddNodeToGroup tailed 0 0 Part.empty)))

theorem halves_ok : PartOK tailed 2 halves := by
  have h := tailed_simple
  refine add_ok h (add_ok h (add_ok h (add_ok h (empty_ok _ _) ?_ ?_ ?_) ?_ ?_ ?_) ?_ ?_ ?_) ?_ ?_ ?_
  all_goals decide +kernel

example : Covers tailed 2 halves ∧ ParticipationCoefficient tailed halves 2 = some (4/9) ∧
    WeightedParticipationCoefficient tailed 2 halves 2 = some (4/9) ∧
    ParticipationCoefficient tailed halves 3 = some 0 := by
  refine ⟨?_, ?_, ?_, ?_⟩
  · unfold Covers; decide +kernel
  all_goals decide +kernel

/-- The hypotheses of C62 hold for the example. -/
example : ∃ r, CatalogRoleIdent tailed 2 halves = some r ∧ PartOK tailed 7 r :=
  let ⟨r, h1, h2, _⟩ := C62_catalog tailed_simple halves_ok.lists (by decide +kernel) (by decide +kernel)
  ⟨r, h1, h2⟩

example : ∃ r, CatalogRoleIdentStrength tailed 2 halves = some r ∧ PartOK tailed 7 r :=
  let ⟨r, h1, h2, _⟩ := C62_catalog_strength tailed_simple halves_ok.lists (by decide +kernel)
  ⟨r, h1, h2⟩

end GP
