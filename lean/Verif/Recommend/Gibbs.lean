import Verif.Recommend.GibbsModel
import Verif.Recommend.Score

/-! # C114: the heat-bath sampler of the recommender -/

set_option linter.unusedSimpArgs false
set_option linter.unusedSectionVars false

namespace RC

open GP RG LS KS Finset
open BP (Bi)

variable {b : Bi} {K : ℕ}

/-- A list of different groups with all non-empty ones. -/
structure GoodList (n : ℕ) (p : Part) (l : List ℕ) : Prop where
  nodup : l.Nodup
  range : ∀ g ∈ l, g < n
  cover : ∀ g < n, 0 < (p.grp g).size → g ∈ l

theorem shortlist_good (n : ℕ) (p : Part) : GoodList n p (shortlist n p) where
  nodup := List.nodup_range.filter _
  range := fun g hg => List.mem_range.1 (List.mem_filter.1 hg).1
  cover := fun g hg hs => List.mem_filter.2 ⟨List.mem_range.2 hg, by simpa using hs⟩

theorem rowSum_eq {n : ℕ} {pt : (ℕ → Int) → Option ℝ} {o : Part} (ho : PartOK (dots n) n o) {l : List ℕ} (hl : GoodList n o l)
    {c : ℕ → ℕ → Int} {e : ℕ → ℝ} (hc : ∀ g < n, pt (fun k => c k g) = some (e g)) :
    rowSum pt o l c = some (∑ g ∈ (range n).filter (fun g => (blk n o.inGroup g).Nonempty), e g) := by
  unfold rowSum
  rw [foldlM_sum _ (fun g => if 0 < (o.grp g).size then e g else 0), zero_add, ← List.sum_toFinset _ hl.nodup]
  · congr 1
    rw [← sum_filter]
    apply sum_congr _ fun _ _ => rfl
    ext g
    simp only [mem_filter, List.mem_toFinset, mem_range]
    constructor
    · rintro ⟨h1, h2⟩
      exact ⟨hl.range g h1, (size_pos_iff ho (hl.range g h1)).1 h2⟩
    · rintro ⟨h1, h2⟩
      have := (size_pos_iff ho h1).2 h2
      exact ⟨hl.cover g h1 this, this⟩
  · intro g hg s
    by_cases h : 0 < (o.grp g).size
    · rw [if_pos h, if_pos h, hc g (hl.range g hg)]; rfl
    · rw [if_neg h, if_neg h, add_zero]

/-- Sum over the non-empty groups of the other set. -/
noncomputable def rowT (b : Bi) (K : ℕ) (f1 f2 : ℕ → Option ℕ) (g : ℕ) : ℝ :=
  ∑ g' ∈ (range b.n2).filter (fun g => (blk b.n2 f2 g).Nonempty), rowE (TKb K) b f1 f2 g g'

theorem ncnt_nonneg (f2 : ℕ → Option ℕ) (k v g : ℕ) : 0 ≤ ncnt b f2 k v g := sum_nonneg fun j _ => ra_nonneg k v j

section move

variable {s : View} {v old : ℕ} {slo : List ℕ} (hK : 0 < K) (hs : BCounts b K s) (hold : s.part.inGroup v = some old)
  (hl : GoodList b.n2 s.opart slo)

include hK hs hold hl

theorem row_old (x : ℕ) (hx : x < b.n1) : rowSum (pairTerm K) s.opart slo (fun k g => s.G k x g) =
    some (rowT b K s.part.inGroup s.opart.inGroup x) := by
  refine rowSum_eq hs.opart hl ?_
  intro g hg
  rw [(potK hK).eval _ fun k hk => by rw [hs.g k hk x hx g hg]; exact cnt_nonneg k x g]
  congr 1
  exact (potK hK).dep _ _ fun k hk => hs.g k hk x hx g hg

/-- The old group after the move. -/
theorem row_no {new : ℕ} (hne : new ≠ old) : rowSum (pairTerm K) s.opart slo (fun k g => s.G k old g - s.N k v g) =
    some (rowT b K (Function.update s.part.inGroup v (some new)) s.opart.inGroup old) := by
  obtain ⟨hv, ho⟩ := hs.part.range v old hold
  refine rowSum_eq hs.opart hl ?_
  intro g hg
  have e : ∀ k < K, s.G k old g - s.N k v g =
      cnt b (Function.update s.part.inGroup v (some new)) s.opart.inGroup k old g := by
    intro k hk
    rw [hs.g k hk old ho g hg, hs.n k hk v hv g hg, cnt_move hv hold hne]
    unfold nchange
    simp [hne.symm]
    ring
  rw [(potK hK).eval _ fun k hk => by rw [e k hk]; exact cnt_nonneg k old g]
  congr 1
  exact (potK hK).dep _ _ e

/-- The new group after the move. -/
theorem row_nn {new : ℕ} (hn : new < b.n1) (hne : new ≠ old) :
    rowSum (pairTerm K) s.opart slo (fun k g => s.G k new g + s.N k v g) =
    some (rowT b K (Function.update s.part.inGroup v (some new)) s.opart.inGroup new) := by
  obtain ⟨hv, ho⟩ := hs.part.range v old hold
  refine rowSum_eq hs.opart hl ?_
  intro g hg
  have e : ∀ k < K, s.G k new g + s.N k v g =
      cnt b (Function.update s.part.inGroup v (some new)) s.opart.inGroup k new g := by
    intro k hk
    rw [hs.g k hk new hn g hg, hs.n k hk v hv g hg, cnt_move hv hold hne]
    unfold nchange
    simp [hne]
  rw [(potK hK).eval _ fun k hk => by rw [e k hk]; exact cnt_nonneg k new g]
  congr 1
  exact (potK hK).dep _ _ e

/-- Definedness of the sums that are not used (new group = old group) or do not refer to an existing group. -/
theorem row_some (x : ℕ → ℕ → Int) (hx : ∀ k < K, ∀ g < b.n2, 0 ≤ x k g) :
    ∃ r, rowSum (pairTerm K) s.opart slo x = some r :=
  ⟨_, rowSum_eq hs.opart hl fun g hg => (potK hK).eval _ fun k hk => hx k hk g hg⟩

/-- The first term of the energy. -/
theorem fixed_eq : ∃ no, fixedPart K s slo v old = some (-rowT b K s.part.inGroup s.opart.inGroup old + no) ∧
    ∀ new ≠ old, no = rowT b K (Function.update s.part.inGroup v (some new)) s.opart.inGroup old := by
  obtain ⟨hv, ho⟩ := hs.part.range v old hold
  have h1 := row_old hK hs hold hl old ho
  have hne : old + 1 ≠ old := by omega
  have h2 := row_no hK hs hold hl hne
  refine ⟨rowT b K (Function.update s.part.inGroup v (some (old + 1))) s.opart.inGroup old, ?_, fun new hnew => ?_⟩
  · unfold fixedPart
    rw [h1, h2]
    rfl
  · have h3 := row_no hK hs hold hl hnew
    exact Option.some.inj (h2.symm.trans h3)

/-- The change of the energy in terms of the rows of the two groups. -/
theorem diff_eq (h : b.OK) {new : ℕ} (hn : new < b.n1) (hne : new ≠ old) :
    ∃ sam, samTerm b.n1 s.ng (s.part.grp old).size (s.part.grp new).size = some sam ∧
    bEnergy (TKb K) b (Function.update s.part.inGroup v (some new)) s.opart.inGroup -
        bEnergy (TKb K) b s.part.inGroup s.opart.inGroup =
      -rowT b K s.part.inGroup s.opart.inGroup old +
        rowT b K (Function.update s.part.inGroup v (some new)) s.opart.inGroup old -
        rowT b K s.part.inGroup s.opart.inGroup new +
        rowT b K (Function.update s.part.inGroup v (some new)) s.opart.inGroup new + sam := by
  obtain ⟨hv, ho⟩ := hs.part.range v old hold
  obtain ⟨hs', hi⟩ := tent_counts h hs hold hn hne
  have hD := bDelta_eq h (potK hK) hs hold hn hne
  have ho' : (tent b K v old new s).opart = s.opart := rfl
  generalize tent b K v old new s = s' at hs' hi ho' hD
  unfold bDelta at hD
  rw [config_eq (potK hK) hs.opart hs.g ho hn, config_eq (potK hK) hs'.opart hs'.g ho hn, hs.ng, hs'.ng, labelTerm', labelTerm'] at hD
  simp only [Option.bind_eq_bind, Option.bind_some] at hD
  rw [hi, ho', size_blk hs'.part ho, size_blk hs'.part hn, size_blk hs.part ho, size_blk hs.part hn, hi] at hD
  have hD := Option.some.inj hD
  rw [sum_add_distrib, sum_add_distrib] at hD
  have c1 : ((blk b.n1 (Function.update s.part.inGroup v (some new)) old).card : Int) = (blk b.n1 s.part.inGroup old).card - 1 :=
    card_old (net := dots b.n1) hv hold hne
  have c2 : ((blk b.n1 (Function.update s.part.inGroup v (some new)) new).card : Int) = (blk b.n1 s.part.inGroup new).card + 1 :=
    card_new (net := dots b.n1) hv hold hne
  have hu := used_move' (n := b.n1) hv hold hne ho hn
  have hle := nused_le b.n1 s.part.inGroup
  have hle' := nused_le b.n1 (Function.update s.part.inGroup v (some new))
  have hpos : 0 < (blk b.n1 s.part.inGroup old).card := card_pos.2 ⟨v, mem_blk.2 ⟨hv, hold⟩⟩
  unfold rowT
  rw [← hD, size_blk hs.part ho, size_blk hs.part hn, hs.ng]
  have lf : ∀ k : ℕ, k ≤ b.n1 → ∀ i : Int, i = k → lfact ((b.n1 : Int) - i) = some (Real.log (((b.n1 - k).factorial : ℕ) : ℝ)) := by
    rintro k hk i rfl
    exact lfact_eq hk
  unfold samTerm
  rw [c1, c2]
  have hu1 : (blk b.n1 (Function.update s.part.inGroup v (some new)) old).card = 0 ↔ (blk b.n1 s.part.inGroup old).card = 1 := by
    omega
  have hu2 : (blk b.n1 (Function.update s.part.inGroup v (some new)) new).card = 1 ↔ (blk b.n1 s.part.inGroup new).card = 0 := by
    omega
  simp only [hu1, hu2] at hu
  generalize (blk b.n1 s.part.inGroup old).card = co at *
  generalize (blk b.n1 s.part.inGroup new).card = cn at *
  generalize nused b.n1 s.part.inGroup = nu at *
  generalize nused b.n1 (Function.update s.part.inGroup v (some new)) = nu' at *
  by_cases h1 : co = 1
  · by_cases h2 : cn = 0
    · rw [if_neg (by omega), if_neg (by omega)]
      have : nu' = nu := by simp [h1, h2] at hu; omega
      refine ⟨0, rfl, ?_⟩
      rw [this]
      simp [h1, h2]
      ring
    · have e : nu = nu' + 1 := by simp [h1, h2] at hu; omega
      rw [if_pos (by omega), lf nu hle _ rfl, lf nu' hle' _ (by omega)]
      refine ⟨_, rfl, ?_⟩
      simp [h1, h2]
      ring
  · by_cases h2 : cn = 0
    · have e : nu' = nu + 1 := by simp [h1, h2] at hu; omega
      rw [if_neg (by omega), if_pos (by omega), lf nu hle _ rfl, lf nu' hle' _ (by omega)]
      refine ⟨_, rfl, ?_⟩
      simp [h1, h2]
      ring
    · rw [if_neg (by omega), if_neg (by omega)]
      refine ⟨0, rfl, ?_⟩
      simp [h1, h2, sub_eq_zero]
      ring

/-- If a group has two nodes another one is empty. -/
theorem exists_empty (h2 : 1 < (s.part.grp old).size) : ∃ g < b.n1, (s.part.grp g).size = 0 := by
  obtain ⟨hv, ho⟩ := hs.part.range v old hold
  by_contra hc
  push Not at hc
  have e : ∀ g, blk b.n1 s.part.inGroup g = (range b.n1).filter fun v => (s.part.inGroup v).getD b.n1 = g ∧ g < b.n1 := by
    intro g
    ext u
    rw [mem_blk, mem_filter, mem_range]
    constructor
    · rintro ⟨h1, h3⟩
      exact ⟨h1, by rw [h3]; rfl, (hs.part.range u g h3).2⟩
    · rintro ⟨h1, h3, h4⟩
      refine ⟨h1, ?_⟩
      obtain ⟨x, hx⟩ := Option.ne_none_iff_exists'.1 (hs.full u h1)
      rw [hx] at h3 ⊢
      exact congrArg some h3
  have hcard := card_eq_sum_card_fiberwise (s := range b.n1) (t := range b.n1) (f := fun v => (s.part.inGroup v).getD b.n1) (by
    intro u hu
    obtain ⟨x, hx⟩ := Option.ne_none_iff_exists'.1 (hs.full u (mem_range.1 hu))
    have := (hs.part.range u x hx).2
    simp only [hx, Option.getD_some]
    exact mem_coe.2 (mem_range.2 this))
  have : ∑ g ∈ range b.n1, ((range b.n1).filter fun v => (s.part.inGroup v).getD b.n1 = g).card =
      ∑ g ∈ range b.n1, (blk b.n1 s.part.inGroup g).card := by
    apply sum_congr rfl
    intro g hg
    rw [e]
    congr 1
    ext u
    simp only [mem_filter, mem_range, mem_range.1 hg, and_true]
  rw [this, card_range] at hcard
  have h1 : ∀ g ∈ range b.n1, 1 ≤ (blk b.n1 s.part.inGroup g).card := by
    intro g hg
    have := hc g (mem_range.1 hg)
    rw [size_blk hs.part (mem_range.1 hg)] at this
    omega
  rw [size_blk hs.part ho] at h2
  have := sum_lt_sum h1 ⟨old, mem_range.2 ho, by exact_mod_cast h2⟩
  simp at this
  omega

/-- The change of the energy if the node moves to group `g`. -/
noncomputable def chg (b : Bi) (K : ℕ) (s : View) (v g : ℕ) : ℝ :=
  bEnergy (TKb K) b (Function.update s.part.inGroup v (some g)) s.opart.inGroup -
    bEnergy (TKb K) b s.part.inGroup s.opart.inGroup

/-- The computed energy changes are exact. -/
theorem deltas (h : b.OK) : ∃ fix, fixedPart K s slo v old = some fix ∧
    (∀ new < b.n1, gDelta b K s slo v old fix new = some (chg b K s v new)) ∧
    ∃ e, gEmpty b K s slo v old fix = some e ∧ ∀ new < b.n1, (s.part.grp new).size = 0 → e = chg b K s v new := by
  obtain ⟨hv, ho⟩ := hs.part.range v old hold
  obtain ⟨no, hf, hno⟩ := fixed_eq hK hs hold hl
  have hpos : 0 < (s.part.grp old).size := (size_pos_iff hs.part ho).2 ⟨v, mem_blk.2 ⟨hv, hold⟩⟩
  have hle := nused_le b.n1 s.part.inGroup
  refine ⟨_, hf, ?_, ?_⟩
  · intro new hn
    unfold gDelta
    rw [row_old hK hs hold hl new hn]
    by_cases hne : new = old
    · subst hne
      obtain ⟨r, hr⟩ := row_some hK hs hold hl (fun k g => s.G k new g + s.N k v g) (by
        intro k hk g hg
        rw [hs.g k hk new hn g hg, hs.n k hk v hv g hg]
        exact add_nonneg (cnt_nonneg k new g) (ncnt_nonneg _ k v g))
      have hsam : ∃ x, samTerm b.n1 s.ng (s.part.grp new).size (s.part.grp new).size = some x := by
        unfold samTerm
        by_cases h1 : (s.part.grp new).size = 1 ∧ 0 < (s.part.grp new).size
        · rw [if_pos h1, hs.ng]
          unfold lfact
          rw [if_pos (by omega), if_pos (by omega)]
          exact ⟨_, rfl⟩
        · rw [if_neg h1, if_neg (by omega)]
          exact ⟨_, rfl⟩
      obtain ⟨x, hx⟩ := hsam
      rw [hr, hx]
      simp only [Option.bind_eq_bind, Option.bind_some, if_true]
      unfold chg
      rw [← hold, Function.update_eq_self, sub_self]
    · obtain ⟨sam, hsam, hd⟩ := diff_eq hK hs hold hl h hn hne
      rw [row_nn hK hs hold hl hn hne, hsam]
      simp only [Option.bind_eq_bind, Option.bind_some, if_neg hne]
      unfold chg
      rw [hd, hno new hne]
  · have hon : rowSum (fun _ => lfact ((K : Int) - 1)) s.opart slo (fun _ _ => 0) =
        some (∑ g ∈ (range b.n2).filter (fun g => (blk b.n2 s.opart.inGroup g).Nonempty), TKb K (fun _ => 0)) := by
      refine rowSum_eq hs.opart hl ?_
      intro g _
      unfold lfact TKb
      rw [if_pos (by omega)]
      simp
    have hnn : rowSum (pairTerm K) s.opart slo (fun k g => s.N k v g) =
        some (∑ g ∈ (range b.n2).filter (fun g => (blk b.n2 s.opart.inGroup g).Nonempty),
          TKb K (fun k => ncnt b s.opart.inGroup k v g)) := by
      refine rowSum_eq hs.opart hl ?_
      intro g hg
      rw [(potK hK).eval _ fun k hk => by rw [hs.n k hk v hv g hg]; exact ncnt_nonneg _ k v g]
      congr 1
      exact (potK hK).dep _ _ fun k hk => hs.n k hk v hv g hg
    have hsam : ∀ sn : Int, sn = 0 → gainTerm b.n1 s.ng (s.part.grp old).size =
        samTerm b.n1 s.ng (s.part.grp old).size sn := by
      rintro sn rfl
      unfold samTerm gainTerm
      rw [if_neg (show ¬ ((s.part.grp old).size = 1 ∧ (0 : Int) < 0) by omega)]
      simp only [and_true]
    have hex : ∃ x, samTerm b.n1 s.ng (s.part.grp old).size 0 = some x := by
      by_cases h2 : 1 < (s.part.grp old).size
      · obtain ⟨g, hg, h0⟩ := exists_empty hK hs hold hl h2
        obtain ⟨sam, hsam, _⟩ := diff_eq hK hs hold hl h hg (by rintro rfl; omega)
        rw [h0] at hsam
        exact ⟨_, hsam⟩
      · unfold samTerm
        rw [if_neg (by omega), if_neg (by omega)]
        exact ⟨_, rfl⟩
    obtain ⟨x, hx⟩ := hex
    unfold gEmpty
    rw [hon, hnn, hsam 0 rfl, hx]
    simp only [Option.bind_eq_bind, Option.bind_some]
    refine ⟨_, rfl, ?_⟩
    intro new hn h0
    have hne : new ≠ old := by rintro rfl; omega
    obtain ⟨sam, hsam', hd⟩ := diff_eq hK hs hold hl h hn hne
    rw [h0, hx] at hsam'
    have hemp : ¬ (blk b.n1 s.part.inGroup new).Nonempty := fun hh => by
      have := (size_pos_iff hs.part hn).2 hh
      omega
    have r1 : rowT b K s.part.inGroup s.opart.inGroup new =
        ∑ g ∈ (range b.n2).filter (fun g => (blk b.n2 s.opart.inGroup g).Nonempty), TKb K (fun _ => 0) := by
      apply sum_congr rfl
      intro g _
      exact (potK hK).dep _ _ fun k _ => cnt_empty1 hemp k g
    have r2 : rowT b K (Function.update s.part.inGroup v (some new)) s.opart.inGroup new =
        ∑ g ∈ (range b.n2).filter (fun g => (blk b.n2 s.opart.inGroup g).Nonempty),
          TKb K (fun k => ncnt b s.opart.inGroup k v g) := by
      apply sum_congr rfl
      intro g _
      apply (potK hK).dep _ _
      intro k _
      rw [cnt_move hv hold hne, cnt_empty1 hemp]
      unfold nchange
      simp [hne]
    unfold chg
    rw [hd, hno new hne, r1, r2, Option.some.inj hsam']

end move

/-! ## The choice -/

/-- The heat-bath rule: with weights `w g` of the `n` groups and their sum `Z`, group `new` is taken if `u Z` is in the
interval of length `w new` that belongs to it, the intervals being laid out in the order of the list `l`, and the
first empty group if `u Z` is beyond the intervals of the groups of the list. -/
def HeatBath (n : ℕ) (w : ℕ → ℝ) (empty : ℕ → Prop) (l : List ℕ) (u : ℝ) (new : ℕ) : Prop :=
  (∃ l1 l2, l = l1 ++ new :: l2 ∧ (l1.map w).sum < u * ∑ g ∈ range n, w g ∧
    u * ∑ g ∈ range n, w g ≤ (l1.map w).sum + w new) ∨
  ((l.map w).sum < u * ∑ g ∈ range n, w g ∧ new < n ∧ empty new ∧ ∀ g < new, ¬ empty g)

theorem scan_some {dice : ℝ} : ∀ (l : List (ℕ × ℝ)) (cum : ℝ) (last : Option (ℕ × ℝ)), cum < dice →
    dice ≤ cum + (l.map fun x => Real.exp (-x.2)).sum → ∃ l1 x l2, l = l1 ++ x :: l2 ∧ gScan dice cum last l = some x ∧
    cum + (l1.map fun x => Real.exp (-x.2)).sum < dice ∧ dice ≤ cum + (l1.map fun x => Real.exp (-x.2)).sum + Real.exp (-x.2)
  | [], cum, last, h1, h2 => by simp at h2; linarith
  | x :: l, cum, last, h1, h2 => by
    rw [gScan, if_pos h1]
    by_cases hc : cum + Real.exp (-x.2) < dice
    · obtain ⟨l1, y, l2, e, e1, e2, e3⟩ := scan_some l (cum + Real.exp (-x.2)) (some x) hc (by
        rw [List.map_cons, List.sum_cons] at h2; linarith)
      refine ⟨x :: l1, y, l2, by rw [e]; rfl, e1, ?_, ?_⟩
      · rw [List.map_cons, List.sum_cons]; linarith
      · rw [List.map_cons, List.sum_cons]; linarith
    · refine ⟨[], x, l, rfl, ?_, by simpa using h1, by simpa using not_lt.1 hc⟩
      cases l with
      | nil => rw [gScan, if_neg hc]
      | cons y l => rw [gScan, if_neg hc]

theorem scan_zero {dice : ℝ} (h : dice ≤ 0) (l : List (ℕ × ℝ)) : gScan dice 0 none l = none := by
  cases l with
  | nil => rw [gScan]; split_ifs <;> rfl
  | cons x l => rw [gScan, if_neg (by linarith)]

theorem mapM_some {f : ℕ → Option ℝ} {d : ℕ → ℝ} : ∀ (l : List ℕ), (∀ g ∈ l, f g = some (d g)) →
    (l.mapM fun g => do
      let d ← f g
      some (g, d)) = some (l.map fun g => (g, d g))
  | [], _ => rfl
  | g :: l, h => by
    rw [List.mapM_cons, h g (by simp), mapM_some l fun g hg => h g (by simp [hg])]
    rfl

/-- The sum of all weights. -/
theorem norm_eq {n : ℕ} {p : Part} {slg : List ℕ} (hg : GoodList n p slg) (hp : ∀ g < n, 0 ≤ (p.grp g).size) {d : ℕ → ℝ} {e : ℝ}
    (he : ∀ g < n, (p.grp g).size = 0 → e = d g) :
    (slg.map fun g => Real.exp (-d g)).sum + ((n : ℝ) - slg.length) * Real.exp (-e) = ∑ g ∈ range n, Real.exp (-d g) := by
  have hsub : slg.toFinset ⊆ range n := fun g h => mem_range.2 (hg.range g (List.mem_toFinset.1 h))
  rw [← List.sum_toFinset _ hg.nodup, ← sum_sdiff hsub, add_comm]
  congr 1
  have : ∀ g ∈ range n \ slg.toFinset, Real.exp (-d g) = Real.exp (-e) := by
    intro g hgm
    rw [mem_sdiff, mem_range, List.mem_toFinset] at hgm
    have h0 := hp g hgm.1
    have : (p.grp g).size = 0 := by
      by_contra hc
      exact hgm.2 (hg.cover g hgm.1 (by omega))
    rw [he g hgm.1 this]
  rw [sum_congr rfl this, sum_const, card_sdiff_of_subset hsub, card_range, List.toFinset_card_of_nodup hg.nodup, nsmul_eq_mul,
    Nat.cast_sub]
  calc slg.length = slg.toFinset.card := (List.toFinset_card_of_nodup hg.nodup).symm
    _ ≤ (range n).card := card_le_card hsub
    _ = n := card_range n

theorem length_le {n : ℕ} {p : Part} {slg : List ℕ} (hg : GoodList n p slg) : slg.length ≤ n := by
  have hsub : slg.toFinset ⊆ range n := fun g h => mem_range.2 (hg.range g (List.mem_toFinset.1 h))
  calc slg.length = slg.toFinset.card := (List.toFinset_card_of_nodup hg.nodup).symm
    _ ≤ (range n).card := card_le_card hsub
    _ = n := card_range n

theorem firstEmpty_some {n : ℕ} {p : Part} (h : ∃ g < n, (p.grp g).size = 0) :
    ∃ g < n, firstEmpty n p = some g ∧ (p.grp g).size = 0 ∧ ∀ g' < g, (p.grp g').size ≠ 0 := by
  unfold firstEmpty
  obtain ⟨g, hg, h0⟩ := h
  cases hf : (List.range n).find? fun g => decide ((p.grp g).size = 0) with
  | none =>
    rw [List.find?_eq_none] at hf
    exact absurd (by simpa using h0) (hf g (List.mem_range.2 hg))
  | some x =>
    have h1 := List.mem_range.1 (List.mem_of_find?_eq_some hf)
    have h2 := List.find?_some hf
    refine ⟨x, h1, rfl, by simpa using h2, ?_⟩
    rw [List.find?_range_eq_some] at hf
    intro g' hg'
    have := hf.2.2 g' hg'
    simpa using this

theorem choose_ok {n : ℕ} {p : Part} {slg : List ℕ} (hg : GoodList n p slg) (hp : ∀ g < n, 0 ≤ (p.grp g).size) (hn : 0 < n)
    {d : ℕ → ℝ} {e : ℝ} (he : ∀ g < n, (p.grp g).size = 0 → e = d g) {u : ℚ} (h0 : 0 < u) (h1 : u < 1) :
    ∃ new slg', gChoose n p slg (slg.map fun g => (g, d g)) e u = some (new, d new, slg') ∧ new < n ∧ slg'.Nodup ∧
      (∀ g ∈ slg', g < n) ∧ (∀ g ∈ slg, g ∈ slg') ∧ new ∈ slg' ∧
      HeatBath n (fun g => Real.exp (-d g)) (fun g => (p.grp g).size = 0) slg u new := by
  have hZ : 0 < ∑ g ∈ range n, Real.exp (-d g) := sum_pos (fun _ _ => Real.exp_pos _) ⟨0, mem_range.2 hn⟩
  have hN := norm_eq hg hp he
  have h0' : (0 : ℝ) < u := by exact_mod_cast h0
  have h1' : (u : ℝ) < 1 := by exact_mod_cast h1
  have hlen := length_le hg
  unfold gChoose
  dsimp only
  have hm : ((slg.map fun g => (g, d g)).map fun x => Real.exp (-x.2)) = slg.map fun g => Real.exp (-d g) := by
    rw [List.map_map]; rfl
  rw [hm, hN]
  have hN' : ∑ g ∈ range n, Real.exp (-d g) - ((n : ℝ) - slg.length) * Real.exp (-e) = (slg.map fun g => Real.exp (-d g)).sum := by
    linarith
  rw [hN']
  by_cases hc : (slg.map fun g => Real.exp (-d g)).sum < (∑ g ∈ range n, Real.exp (-d g)) * u
  · rw [if_pos hc]
    have hlt : slg.length < n := by
      by_contra hh
      have : slg.length = n := by omega
      rw [this, sub_self, zero_mul, add_zero] at hN
      rw [hN] at hc
      nlinarith
    have hex : ∃ g < n, (p.grp g).size = 0 := by
      by_contra hh
      push Not at hh
      have hsub : range n ⊆ slg.toFinset := by
        intro g hgm
        have hgm := mem_range.1 hgm
        have := hp g hgm
        have := hh g hgm
        exact List.mem_toFinset.2 (hg.cover g hgm (by omega))
      have := card_le_card hsub
      rw [card_range, List.toFinset_card_of_nodup hg.nodup] at this
      omega
    obtain ⟨g, hgn, hf, hz, hmin⟩ := firstEmpty_some hex
    have hH : HeatBath n (fun g => Real.exp (-d g)) (fun g => (p.grp g).size = 0) slg u g :=
      Or.inr ⟨by rw [mul_comm]; exact hc, hgn, hz, hmin⟩
    rw [hf]
    simp only [Option.bind_eq_bind, Option.bind_some]
    by_cases hin : g ∈ slg
    · rw [if_pos hin]
      exact ⟨g, slg, by rw [he g hgn hz], hgn, hg.nodup, hg.range, fun _ h => h, hin, hH⟩
    · rw [if_neg hin, if_pos hlt]
      refine ⟨g, slg ++ [g], by rw [he g hgn hz], hgn, ?_, ?_, fun _ h => List.mem_append_left _ h, by simp, hH⟩
      · rw [List.nodup_append]
        refine ⟨hg.nodup, by simp, ?_⟩
        intro a ha c hc' e
        rw [List.mem_singleton] at hc'
        subst hc' e
        exact hin ha
      · intro x hx
        rw [List.mem_append, List.mem_singleton] at hx
        rcases hx with hx | rfl
        · exact hg.range x hx
        · exact hgn
  · rw [if_neg hc]
    obtain ⟨l1, x, l2, e1, e2, e3, e4⟩ := scan_some (slg.map fun g => (g, d g)) 0 none (mul_pos hZ h0') (by
      rw [hm, zero_add]; exact not_lt.1 hc)
    rw [e2]
    obtain ⟨a, c, ha, hb1, hb2⟩ := List.map_eq_append_iff.1 e1
    obtain ⟨g, c', hc1, hg1, hc2⟩ := List.map_eq_cons_iff.1 hb2
    subst hg1 hb1 hc1
    have hin : g ∈ slg := by rw [ha]; simp
    refine ⟨g, slg, rfl, hg.range g hin, hg.nodup, hg.range, fun _ h => h, hin, Or.inl ⟨a, c', ha, ?_, ?_⟩⟩
    · rw [List.map_map, zero_add] at e3
      rw [mul_comm]; exact e3
    · rw [List.map_map, zero_add] at e4
      rw [mul_comm]; exact e4

end RC
