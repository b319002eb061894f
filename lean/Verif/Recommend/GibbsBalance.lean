import Verif.Recommend.GibbsStep
import Verif.Recommend.Balance
import Verif.Missing.GibbsBalance

/-!
# C178: the heat-bath sampler of the recommender has the Boltzmann distribution

As C176, for two sets of nodes with one partition each (`GibbsStepKState`).
-/

namespace RC

open GP hiding St
open RG LS KS Finset MH
open BP (Bi)

variable {b : Bi} {K : ℕ} {T : (ℕ → Int) → ℝ}

/-- Weight of group `g` for node `v` of the first set, up to a factor common to all groups. -/
noncomputable def wt (T : (ℕ → Int) → ℝ) (b : Bi) (A : Fin b.n1 → Fin b.n1) (B : Fin b.n2 → Fin b.n2) (v g : Fin b.n1) : ℝ :=
  Real.exp (E T b A B - E T b (Function.update A v g) B)

/-- **C178**: the move of node `v` of the first set takes one random number `u`. With `Z` the sum of the weights over the
`n1` groups, the node goes to the listed group `new` if `Z u` is in the interval of length the weight of `new` that
begins where those of the groups before it end; beyond all of them it goes to the first group without nodes. For the
second set the same holds with the two sets exchanged. -/
theorem C178_law (h : b.OK) (hK : 0 < K) {off : ℝ} {s : View} (hs : BInv (TKb K) b K off s) {slg slo : List ℕ}
    (hg : GoodList b.n1 s.part slg) (hl : GoodList b.n2 s.opart slo) {A : Fin b.n1 → Fin b.n1} {B : Fin b.n2 → Fin b.n2}
    (hA : s.part.inGroup = lift A) (hB : s.opart.inGroup = lift B) (v : Fin b.n1) {u : ℚ} {t : Tape}
    (ht : s.tape = u :: t) (h0 : 0 < u) (h1 : u < 1) {L : List (Fin b.n1)} (hL : slg = L.map Fin.val) :
    ∃ s' slg' new, gMove b K slo v (s, slg) = .ok (s', slg') ∧ BInv (TKb K) b K off s' ∧ GoodList b.n1 s'.part slg' ∧
      s'.tape = t ∧ s'.part.inGroup = lift (Function.update A v new) ∧ s'.opart.inGroup = lift B ∧
      L.Nodup ∧ (∀ w, A w ∈ L) ∧
      ((∃ pre post, L = pre ++ new :: post ∧
          (pre.map (wt (TKb K) b A B v)).sum < (∑ g, wt (TKb K) b A B v g) * u ∧
          (∑ g, wt (TKb K) b A B v g) * u ≤ (pre.map (wt (TKb K) b A B v)).sum + wt (TKb K) b A B v new) ∨
        (L.map (wt (TKb K) b A B v)).sum < (∑ g, wt (TKb K) b A B v g) * u ∧ (∀ w, A w ≠ new) ∧
          ∀ g < new, ∃ w, A w = g) := by
  obtain ⟨s', slg', new, e1, e2, e3, -, e4, e5⟩ := gMove_ok h hK hs hg hl v.2 ht h0 h1
  have hw : ∀ g : Fin b.n1, Real.exp (-(bEnergy (TKb K) b (Function.update s.part.inGroup v (some (g : ℕ))) s.opart.inGroup -
      bEnergy (TKb K) b s.part.inGroup s.opart.inGroup)) = wt (TKb K) b A B v g := by
    intro g
    unfold wt E
    rw [hA, hB, ← lift_update, neg_sub]
  obtain ⟨m1, m2, m3⟩ := e5
  have hZ : ∑ g ∈ range b.n1, Real.exp (-(bEnergy (TKb K) b (Function.update s.part.inGroup v (some g)) s.opart.inGroup -
      bEnergy (TKb K) b s.part.inGroup s.opart.inGroup)) = ∑ g, wt (TKb K) b A B v g := by
    rw [sum_range]
    exact sum_congr rfl fun g _ => hw g
  have hmap : ∀ l : List (Fin b.n1), ((l.map Fin.val).map fun g => Real.exp (-(bEnergy (TKb K) b
      (Function.update s.part.inGroup v (some g)) s.opart.inGroup - bEnergy (TKb K) b s.part.inGroup s.opart.inGroup))).sum =
      (l.map (wt (TKb K) b A B v)).sum := by
    intro l
    rw [List.map_map]
    congr 1
    exact List.map_congr_left fun g _ => hw g
  unfold HeatBath at m3
  rw [hZ] at m3
  have hnd : L.Nodup := List.Nodup.of_map _ (hL ▸ hg.nodup)
  have hall : ∀ w, A w ∈ L := by
    intro w
    have := hg.cover (A w) (A w).2 ((size_pos_iff hs.part (A w).2).2 ⟨w, mem_blk.2 ⟨w.2, by rw [hA, lift_lt]⟩⟩)
    rw [hL, List.mem_map] at this
    obtain ⟨x, hx, hxe⟩ := this
    rwa [← Fin.ext hxe]
  rcases m3 with ⟨l1, l2, a1, a2, a3⟩ | ⟨a1, a2, a3, a4⟩
  · rw [hL] at a1
    obtain ⟨pre, c, rfl, rfl, hc⟩ := List.map_eq_append_iff.1 a1
    obtain ⟨x, post, rfl, rfl, rfl⟩ := List.map_eq_cons_iff.1 hc
    rw [hmap, mul_comm] at a2 a3
    dsimp only at a3
    rw [hw] at a3
    exact ⟨s', slg', x, e1, e2, e3, e4, by rw [m1, hA, lift_update], by rw [m2, hB], hnd, hall, Or.inl ⟨pre, post, rfl, a2, a3⟩⟩
  · rw [hL, hmap, mul_comm] at a1
    refine ⟨s', slg', ⟨new, a2⟩, e1, e2, e3, e4, by rw [m1, hA, lift_update], by rw [m2, hB], hnd, hall, Or.inr ⟨a1, ?_, ?_⟩⟩
    · intro w hw
      apply a3 w w.2
      rw [hA, lift_lt, hw]
    · intro g hg'
      have := a4 g hg'
      push Not at this
      obtain ⟨w, hwn, hwe⟩ := this
      refine ⟨⟨w, hwn⟩, ?_⟩
      rw [hA, show w = ((⟨w, hwn⟩ : Fin b.n1) : ℕ) from rfl, lift_lt] at hwe
      exact Fin.ext (Option.some.inj hwe)

/-- The energy does not depend on the labels. -/
theorem E_labels (T : (ℕ → Int) → ℝ) (b : Bi) {A A' : Fin b.n1 → Fin b.n1} {B B' : Fin b.n2 → Fin b.n2}
    (hA : SameBlocks A A') (hB : SameBlocks B B') : E T b A B = E T b A' B' := by
  have hu : ∀ {n : ℕ} {A A' : Fin n → Fin n}, SameBlocks A A' → nused n (lift A') = nused n (lift A) := by
    intro n A A' hA
    obtain ⟨σ, hσ⟩ := hA.perm
    exact used_relabel (net := dots n) hσ
  have key := (C175_labels T b A B).1 A' B' hA hB
  unfold unlabelled at key
  unfold E bEnergy
  rw [key, hu hA, hu hB]

/-- **C178**: the intervals have the probabilities of `listed`; the groups that result, without labels, have the
probabilities of the heat bath, which do not depend on the labels in either set at the start. If the groups of both
sets together have the Boltzmann weights before the move of a node of the first set, with any choice of labels, they
have them after it. -/
theorem C178_balance (T : (ℕ → Int) → ℝ) (b : Bi) (v : Fin b.n1) :
    (∀ A B S e A', listed (fun A => E T b A B) v S e A A' =
        ((∑ g ∈ S, if Function.update A v g = A' then wt T b A B v g else 0) +
          if Function.update A v e = A' then (∑ g, wt T b A B v g) - ∑ g ∈ S, wt T b A B v g else 0) /
        ∑ g, wt T b A B v g) ∧
    (∀ A B S e, (∀ w, A w ∈ S) → (Sᶜ.Nonempty → ∀ w, A w ≠ e) → ∀ A',
      ∑ C ∈ univ.filter (fun C => SameBlocks A' C), listed (fun A => E T b A B) v S e A C =
        heatBlocks (fun A => E T b A B) v A A') ∧
    (∀ A G B B' A', SameBlocks A G → SameBlocks B B' →
      heatBlocks (fun A => E T b A B) v A A' = heatBlocks (fun A => E T b A B') v G A') ∧
    ∀ w : (Fin b.n1 → Fin b.n1) → (Fin b.n2 → Fin b.n2) → ℝ,
      (∀ A B, ∑ A' ∈ univ.filter (fun A' => SameBlocks A A'), ∑ B' ∈ univ.filter (fun B' => SameBlocks B B'), w A' B' =
        ∑ A' ∈ univ.filter (fun A' => SameBlocks A A'), ∑ B' ∈ univ.filter (fun B' => SameBlocks B B'), Real.exp (-E T b A' B')) →
      ∀ A B, ∑ A', ∑ B' ∈ univ.filter (fun B' => SameBlocks B B'), w A' B' * heatBlocks (fun A => E T b A B') v A' A =
        ∑ A' ∈ univ.filter (fun A' => SameBlocks A A'), ∑ B' ∈ univ.filter (fun B' => SameBlocks B B'), Real.exp (-E T b A' B') := by
  have hE : ∀ B, ∀ A A', SameBlocks A A' → E T b A B = E T b A' B := fun B A A' hA => E_labels T b hA fun _ _ => Iff.rfl
  have hB : ∀ B B', SameBlocks B B' → (fun A => E T b A B) = fun A => E T b A B' := fun B B' hB =>
    funext fun A => E_labels T b (fun _ _ => Iff.rfl) hB
  refine ⟨fun A B S e A' => listed_wt _ v S e A A', fun A B S e hS he A' => listed_blocks hS he A', ?_, ?_⟩
  · intro A G B B' A' hA hBB
    rw [hB B B' hBB]
    exact heatBlocks_same (hE B') hA A'
  · intro w hw A B
    have hpos : (0 : ℝ) < ((univ.filter fun B' => SameBlocks B B').card : ℝ) := by
      exact_mod_cast card_pos.2 ⟨B, mem_filter.2 ⟨mem_univ _, fun _ _ => Iff.rfl⟩⟩
    have hconst : ∀ A', ∑ B' ∈ univ.filter (fun B' => SameBlocks B B'), Real.exp (-E T b A' B') =
        ((univ.filter fun B' => SameBlocks B B').card : ℝ) * Real.exp (-E T b A' B) := by
      intro A'
      rw [sum_congr rfl (g := fun _ => Real.exp (-E T b A' B)), sum_const, nsmul_eq_mul]
      intro B' hB'
      rw [congrFun (hB B B' (mem_filter.1 hB').2) A']
    have hinv := heatBlocks_invariant (E := fun A => E T b A B) (hE B) v
      (w := fun A' => (∑ B' ∈ univ.filter (fun B' => SameBlocks B B'), w A' B') / ((univ.filter fun B' => SameBlocks B B').card : ℝ))
      (by
        intro A'
        rw [← sum_div, hw A' B, div_eq_iff hpos.ne', sum_mul]
        exact sum_congr rfl fun C _ => by rw [hconst, mul_comm]) A
    have e1 : ∑ A', ∑ B' ∈ univ.filter (fun B' => SameBlocks B B'), w A' B' * heatBlocks (fun A => E T b A B') v A' A =
        ((univ.filter fun B' => SameBlocks B B').card : ℝ) * ∑ A', (∑ B' ∈ univ.filter (fun B' => SameBlocks B B'), w A' B') /
          ((univ.filter fun B' => SameBlocks B B').card : ℝ) * heatBlocks (fun A => E T b A B) v A' A := by
      rw [mul_sum]
      refine sum_congr rfl fun A' _ => ?_
      rw [← mul_assoc, mul_div_cancel₀ _ hpos.ne', sum_mul]
      refine sum_congr rfl fun B' hB' => ?_
      rw [hB B B' (mem_filter.1 hB').2]
    rw [e1, hinv, mul_sum]
    exact sum_congr rfl fun A' _ => (hconst A').symm

/-- **C178**: with the sets exchanged the energy is the same, so `C178_law` and `C178_balance` for `b.swap` are the law
of the second half of the step. -/
theorem C178_swap (h : b.OK) (T : (ℕ → Int) → ℝ) (A : Fin b.n1 → Fin b.n1) (B : Fin b.n2 → Fin b.n2) :
    E T b.swap B A = E T b A B := bEnergy_swap h T

/-- The hypotheses of `C178_law` hold for the state with every node in its own group. -/
example : ∃ s : View, BInv (TKb 2) movies 2 0 s ∧ ∃ r, gMove movies 2 (shortlist 2 s.opart) 1 (s, shortlist 2 s.part) = .ok r := by
  obtain ⟨H, _, hs⟩ := startK movies_ok movies_rated (by norm_num) [1 / 2]
  have hs' := (invK_iff movies_ok movies_rated (by norm_num)).1 hs
  have hown : (ownGroups 2).inGroup = lift (id : Fin 2 → Fin 2) := by
    funext v
    rcases v with _ | _ | v
    · rfl
    · rfl
    · simp [ownGroups, lift, AddNodeToGroup, Part.empty, List.range, List.range.loop]
  obtain ⟨L, hL⟩ := exists_list _ (shortlist_good 2 (ownGroups 2)).range
  obtain ⟨s', slg', new, e, -⟩ := C178_law movies_ok (by norm_num) hs' (shortlist_good _ _) (shortlist_good _ _) (A := id)
    (B := id) hown hown ⟨1, by decide⟩ (u := 1 / 2) (t := []) rfl (by norm_num) (by norm_num) hL
  exact ⟨_, hs', _, e⟩

end RC
