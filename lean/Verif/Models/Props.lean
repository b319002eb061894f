import Verif.Models.Lemmas
import Verif.Graph.RandomProps
import Mathlib.Algebra.BigOperators.Intervals
import Mathlib.Tactic.FieldSimp

/-! # C57, C58: random networks -/

set_option linter.unusedSimpArgs false

namespace MD

open GR RG

/-- All numbers are in `[0, 1)`. -/
def Good (t : Tape) : Prop := ∀ u ∈ t, 0 ≤ u ∧ u < 1

/-- The random number of the pair is below its probability; numbers are used one for each pair `(0,1), (0,2), …, (1,2), …`. -/
def Linked (S : ℕ) (P : ℕ → ℕ → ℚ) (t : Tape) (i j : ℕ) : Prop :=
  i < S ∧ j < S ∧ i ≠ j ∧ ∃ u, t[drawNo S (min i j) (max i j)]? = some u ∧ u < P (min i j) (max i j)

/-- The network in which two different nodes below `S` are linked, with weight 0, exactly if the random number of their
pair is below the probability `P` of the pair. -/
noncomputable def drawn (S : ℕ) (P : ℕ → ℕ → ℚ) (t : Tape) : WG := wg (Linked S P t)

theorem loop_pairs {S : ℕ} {net : Net} {q : ℕ → ℕ → Option ℚ} {P : ℕ → ℕ → ℚ} {t : Tape} (hn : net.n = S)
    (h : Rep net (wg fun _ _ => False)) (ht : Good t) (hl : S * (S - 1) / 2 ≤ t.length)
    (hq : ∀ i j, i < j → j < S → q i j = some (P i j)) :
    ∃ net', linkLoop q (pairs S) net t = .ok (net', t.drop (S * (S - 1) / 2)) ∧ net'.n = net.n ∧ net'.label = net.label ∧
      Rep net' (drawn S P t) := by
  rw [← pairs_length] at hl ⊢
  have hx : ∀ x ∈ pairs S, x.1 < net.n ∧ x.2 < net.n ∧ x.1 ≠ x.2 ∧ (q x.1 x.2).isSome := by
    rintro ⟨i, j⟩ hx
    have := mem_pairs.1 hx
    refine ⟨by rw [hn]; exact this.1.trans this.2, by rw [hn]; exact this.2, Nat.ne_of_lt this.1, ?_⟩
    simp only
    rw [hq i j this.1 this.2]
    rfl
  obtain ⟨net', h1, h2, h3, h4⟩ := linkLoop_ok (q := q) (xs := pairs S) h hx ht hl
  refine ⟨net', h1, h2, h3, ?_⟩
  convert h4 using 1
  unfold drawn
  apply wg_congr
  intro i j
  rw [chosen_pairs, chosen_pairs]
  constructor
  · rintro ⟨hi, hj, hij, u, hu, hlt⟩
    rcases Nat.lt_or_gt_of_ne hij with h | h
    · rw [min_eq_left h.le, max_eq_right h.le] at hu hlt
      exact Or.inr (Or.inl ⟨h, hj, u, hu, _, hq i j h hj, hlt⟩)
    · rw [min_eq_right h.le, max_eq_left h.le] at hu hlt
      exact Or.inr (Or.inr ⟨h, hi, u, hu, _, hq j i h hi, hlt⟩)
  · rintro (h | ⟨h, hj, u, hu, p, hp, hlt⟩ | ⟨h, hi, u, hu, p, hp, hlt⟩)
    · exact h.elim
    · rw [hq i j h hj] at hp
      cases hp
      refine ⟨by omega, hj, by omega, u, ?_⟩
      rw [min_eq_left h.le, max_eq_right h.le]
      exact ⟨hu, hlt⟩
    · rw [hq j i h hi] at hp
      cases hp
      refine ⟨hi, by omega, by omega, u, ?_⟩
      rw [min_eq_right h.le, max_eq_left h.le]
      exact ⟨hu, hlt⟩

/-- **C57**: `EmptyGraph` has `S` nodes labelled `1 … S`, and no links. -/
theorem C57_empty {S : ℕ} (hS : S ≤ 2147483647) :
    ∃ net, EmptyGraph S = some net ∧ net.n = S ∧ (∀ i < S, net.label i = toString (i + 1)) ∧
      Holds net (fun _ _ => none) ∧ CachesOK net := by
  obtain ⟨net, h1, h2, h3, h4, h5⟩ := createNodes_ok S hS
  refine ⟨net, h1, h2, h3, ?_, h5⟩
  convert h4 using 1
  funext i j
  simp [wg]

/-- **C57**: `ERGraph` takes one number for each pair of nodes, and links two nodes exactly if their number is below `p`. The
links have weight 0. -/
theorem C57_er {S : ℕ} (hS : S ≤ 2147483647) (p : ℚ) {t : Tape} (ht : Good t) (hl : S * (S - 1) / 2 ≤ t.length) :
    ∃ net, ERGraph S p t = .ok (net, t.drop (S * (S - 1) / 2)) ∧ net.n = S ∧
      (∀ i < S, net.label i = toString (i + 1)) ∧ Holds net (drawn S (fun _ _ => p) t) ∧ CachesOK net := by
  obtain ⟨net, h1, h2, h3, h4⟩ := createNodes_ok S hS
  obtain ⟨net', k1, k2, k3, k4, k5⟩ := loop_pairs (q := fun _ _ => some p) (P := fun _ _ => p) h2 h4 ht hl (fun _ _ _ _ => rfl)
  refine ⟨net', ?_, k2.trans h2, ?_, k4, k5⟩
  · unfold ERGraph
    rw [h1]
    simpa using k1
  · rw [k3]; exact h3

/-- What `drawn` describes is a simple undirected network. -/
theorem C57_simple (S : ℕ) (P : ℕ → ℕ → ℚ) (t : Tape) : SymSimple S (drawn S P t) := by
  refine ⟨?_, ?_, ?_⟩
  · intro i j
    unfold drawn wg
    have : Linked S P t i j ↔ Linked S P t j i := by
      unfold Linked
      rw [min_comm i j, max_comm i j]
      tauto
    by_cases h : Linked S P t i j
    · rw [if_pos h, if_pos (this.1 h)]
    · rw [if_neg h, if_neg fun h' => h (this.2 h')]
  · intro i
    unfold drawn wg
    rw [if_neg fun h => h.2.2.1 rfl]
  · intro i j h
    unfold drawn wg at h
    by_cases hh : Linked S P t i j
    · exact ⟨hh.1, hh.2.1⟩
    · rw [if_neg hh] at h; cases h

theorem drawNo_lt {S i j : ℕ} (hij : i < j) (hj : j < S) : drawNo S i j < S * (S - 1) / 2 := by
  rw [← pairs_length]
  exact (List.getElem?_eq_some_iff.1 (pairs_get hij hj)).1

/-- Different pairs use different numbers. -/
theorem C57_own_number {S i j i' j' : ℕ} (hij : i < j) (hj : j < S) (hij' : i' < j') (hj' : j' < S)
    (h : drawNo S i j = drawNo S i' j') : i = i' ∧ j = j' := by
  have h1 := pairs_get hij hj
  rw [h, pairs_get hij' hj'] at h1
  simp only [Option.some.injEq, Prod.mk.injEq] at h1
  exact ⟨h1.1.symm, h1.2.symm⟩

/-- **C57**: with probability 1 or more all pairs are linked, with 0 or less none is. -/
theorem C57_er_extremes {S : ℕ} {p : ℚ} {t : Tape} (ht : Good t) (hl : S * (S - 1) / 2 ≤ t.length) {i j : ℕ} (hi : i < S)
    (hj : j < S) (hij : i ≠ j) :
    (1 ≤ p → drawn S (fun _ _ => p) t i j = some 0) ∧ (p ≤ 0 → drawn S (fun _ _ => p) t i j = none) := by
  have hk : drawNo S (min i j) (max i j) < t.length := by
    have := drawNo_lt (S := S) (i := min i j) (j := max i j) (by omega) (by omega)
    omega
  have hu := ht _ (List.getElem_mem hk)
  constructor
  · intro hp
    unfold drawn wg
    rw [if_pos]
    exact ⟨hi, hj, hij, _, List.getElem?_eq_getElem hk, lt_of_lt_of_le hu.2 hp⟩
  · intro hp
    unfold drawn wg
    rw [if_neg]
    rintro ⟨_, _, _, u, hu', hlt⟩
    rw [List.getElem?_eq_getElem hk] at hu'
    cases hu'
    linarith [hu.1]

/-! ## Blocks -/

/-- `blk` numbers the consecutive blocks of nodes of the given sizes. -/
def Blocks (gsize : List ℕ) (blk : ℕ → ℕ) : Prop :=
  ∀ v < gsize.sum, (gsize.take (blk v)).sum ≤ v ∧ v < (gsize.take (blk v + 1)).sum

theorem blockOf_ok : ∀ (gsize : List ℕ), Blocks gsize (blockOf gsize)
  | [], v, hv => by simp at hv
  | s :: ss, v, hv => by
    unfold blockOf
    split_ifs with h
    · simp [h]
    · have := blockOf_ok ss (v - s) (by simp at hv; omega)
      simp only [List.take_succ_cons, List.sum_cons]
      omega

theorem take_sum_mono (l : List ℕ) {a b : ℕ} (h : a ≤ b) : (l.take a).sum ≤ (l.take b).sum := by
  obtain ⟨c, rfl⟩ := Nat.exists_eq_add_of_le h
  rw [List.take_add, List.sum_append]
  omega

theorem blocks_unique {gsize : List ℕ} {b b' : ℕ → ℕ} (h : Blocks gsize b) (h' : Blocks gsize b') {v : ℕ}
    (hv : v < gsize.sum) : b v = b' v := by
  have h1 := h v hv
  have h2 := h' v hv
  rcases Nat.lt_trichotomy (b v) (b' v) with c | c | c
  · have := take_sum_mono gsize (a := b v + 1) (b := b' v) c
    omega
  · exact c
  · have := take_sum_mono gsize (a := b' v + 1) (b := b v) c
    omega

/-- **C57**: `UndirectedBlockGraph` links two nodes exactly if their number is below the probability of their blocks, read
with the block of the first node (in the order of the nodes) first. -/
theorem C57_blocks {gsize : List ℕ} (hS : gsize.sum ≤ 2147483647) {blk : ℕ → ℕ} (hb : Blocks gsize blk)
    {q : ℕ → ℕ → Option ℚ} {Q : ℕ → ℕ → ℚ}
    (hq : ∀ i j, i < j → j < gsize.sum → q (blk i) (blk j) = some (Q (blk i) (blk j))) {t : Tape} (ht : Good t)
    (hl : gsize.sum * (gsize.sum - 1) / 2 ≤ t.length) :
    ∃ net, UndirectedBlockGraph gsize q t = .ok (net, t.drop (gsize.sum * (gsize.sum - 1) / 2)) ∧ net.n = gsize.sum ∧
      (∀ i < gsize.sum, net.label i = toString (i + 1)) ∧
      Holds net (drawn gsize.sum (fun i j => Q (blk i) (blk j)) t) ∧ CachesOK net := by
  obtain ⟨net, h1, h2, h3, h4⟩ := createNodes_ok gsize.sum hS
  obtain ⟨net', k1, k2, k3, k4, k5⟩ := loop_pairs (q := fun i j => q (blockOf gsize i) (blockOf gsize j))
    (P := fun i j => Q (blk i) (blk j)) h2 h4 ht hl (fun i j hij hj => by
      rw [← blocks_unique hb (blockOf_ok gsize) (v := i) (by omega), ← blocks_unique hb (blockOf_ok gsize) hj]
      exact hq i j hij hj)
  refine ⟨net', ?_, k2.trans h2, ?_, k4, k5⟩
  · unfold UndirectedBlockGraph
    rw [h1]
    simpa using k1
  · rw [k3]; exact h3

/-! ## Girvan-Newman networks -/

/-- Probability of a link in the benchmark of Girvan and Newman. -/
def gnP (ngroup gsize : ℕ) (kin kout : ℚ) (i j : ℕ) : ℚ :=
  if i / gsize = j / gsize then kin / ((gsize : ℚ) - 1) else kout / ((gsize : ℚ) * ((ngroup : ℚ) - 1))

theorem take_replicate_sum (n k s : ℕ) (h : k ≤ n) : ((List.replicate n s).take k).sum = k * s := by
  rw [List.take_replicate, List.sum_replicate, min_eq_left h]
  simp

theorem gn_blocks {ngroup gsize : ℕ} : Blocks (List.replicate ngroup gsize) (fun v => v / gsize) := by
  intro v hv
  rw [List.sum_replicate] at hv
  simp only [smul_eq_mul] at hv
  have hg : 0 < gsize := by
    rcases Nat.eq_zero_or_pos gsize with h | h
    · subst h; simp at hv
    · exact h
  have h1 : v / gsize < ngroup := Nat.div_lt_of_lt_mul (by rw [mul_comm]; exact hv)
  simp only
  rw [take_replicate_sum _ _ _ h1.le, take_replicate_sum _ _ _ h1]
  exact ⟨Nat.div_mul_le_self v gsize, by rw [mul_comm]; exact Nat.lt_mul_div_succ v hg⟩

/-- **C58**: `GirvanNewmanGraph` never divides by zero for a pair it looks at, never uses the part of its matrix that it did
not fill, and links two nodes exactly if their number is below the probability of the benchmark. -/
theorem C58_girvan_newman {ngroup gsize : ℕ} (hS : ngroup * gsize ≤ 2147483647) (kin kout : ℚ) {t : Tape} (ht : Good t)
    (hl : ngroup * gsize * (ngroup * gsize - 1) / 2 ≤ t.length) :
    ∃ net, GirvanNewmanGraph ngroup gsize kin kout t = .ok (net, t.drop (ngroup * gsize * (ngroup * gsize - 1) / 2)) ∧
      net.n = ngroup * gsize ∧ (∀ i < ngroup * gsize, net.label i = toString (i + 1)) ∧
      Holds net (drawn (ngroup * gsize) (gnP ngroup gsize kin kout) t) ∧ CachesOK net := by
  have es : (List.replicate ngroup gsize).sum = ngroup * gsize := by simp [List.sum_replicate]
  have h := C57_blocks (gsize := List.replicate ngroup gsize) (by rw [es]; exact hS) gn_blocks
    (q := gnMatrix ngroup gsize kin kout)
    (Q := fun a b => if a = b then kin / ((gsize : ℚ) - 1) else kout / ((gsize : ℚ) * ((ngroup : ℚ) - 1))) ?_ ht
    (by rw [es]; exact hl)
  · rw [es] at h
    exact h
  · intro i j hij hj
    rw [es] at hj
    have hle : i / gsize ≤ j / gsize := Nat.div_le_div_right hij.le
    have hg : 0 < gsize := by
      rcases Nat.eq_zero_or_pos gsize with h | h
      · subst h; simp at hj
      · exact h
    have hjn : j / gsize < ngroup := Nat.div_lt_of_lt_mul (by rw [mul_comm]; exact hj)
    simp only [gnMatrix]
    by_cases e : i / gsize = j / gsize
    · rw [if_pos e, if_pos e]
      unfold quot
      rw [if_neg]
      intro h0
      have : gsize = 1 := by
        have : (gsize : ℚ) = 1 := by linarith
        exact_mod_cast this
      subst this
      simp at e
      omega
    · rw [if_neg e, if_neg e, if_pos (by omega)]
      unfold quot
      rw [if_neg]
      intro h0
      rcases mul_eq_zero.1 h0 with h | h
      · have : gsize = 0 := by exact_mod_cast h
        omega
      · have : (ngroup : ℚ) = 1 := by linarith
        have h1 : ngroup = 1 := by exact_mod_cast this
        rw [h1, Nat.lt_one_iff] at hjn
        rw [hjn] at hle e
        exact e (Nat.le_zero.1 hle)

/-- The probabilities of the pairs of a node add up to `kin` inside its group and `kout` outside: these are the expected
degrees. -/
theorem C58_expected_degrees {ngroup gsize : ℕ} (hg : 2 ≤ gsize) (hn : 2 ≤ ngroup) (kin kout : ℚ) {i : ℕ}
    (hi : i < ngroup * gsize) :
    (∑ j ∈ (Finset.range (ngroup * gsize)).filter (fun j => j ≠ i ∧ j / gsize = i / gsize), gnP ngroup gsize kin kout i j)
      = kin ∧
    (∑ j ∈ (Finset.range (ngroup * gsize)).filter (fun j => j / gsize ≠ i / gsize), gnP ngroup gsize kin kout i j) = kout := by
  have hin : i / gsize < ngroup := Nat.div_lt_of_lt_mul (by rw [mul_comm]; exact hi)
  have hg1 : ((gsize : ℚ) - 1) ≠ 0 := by
    have : (2 : ℚ) ≤ gsize := by exact_mod_cast hg
    linarith
  have hn1 : ((ngroup : ℚ) - 1) ≠ 0 := by
    have : (2 : ℚ) ≤ ngroup := by exact_mod_cast hn
    linarith
  have hg0 : (gsize : ℚ) ≠ 0 := by
    have : (2 : ℚ) ≤ gsize := by exact_mod_cast hg
    linarith
  have hblock : (Finset.range (ngroup * gsize)).filter (fun j => j / gsize = i / gsize) =
      Finset.Ico (i / gsize * gsize) (i / gsize * gsize + gsize) := by
    ext j
    simp only [Finset.mem_filter, Finset.mem_range, Finset.mem_Ico]
    have hdiv : j / gsize = i / gsize ↔ i / gsize * gsize ≤ j ∧ j < i / gsize * gsize + gsize := by
      rw [Nat.div_eq_iff (by omega)]
      have : 0 < gsize := by omega
      omega
    rw [hdiv]
    constructor
    · exact fun h => h.2
    · intro h
      refine ⟨?_, h⟩
      have : (i / gsize + 1) * gsize ≤ ngroup * gsize := Nat.mul_le_mul_right _ hin
      rw [Nat.add_mul, one_mul] at this
      omega
  have hcard : ((Finset.range (ngroup * gsize)).filter (fun j => j / gsize = i / gsize)).card = gsize := by
    rw [hblock, Nat.card_Ico]; omega
  constructor
  · have e : (Finset.range (ngroup * gsize)).filter (fun j => j ≠ i ∧ j / gsize = i / gsize) =
        ((Finset.range (ngroup * gsize)).filter (fun j => j / gsize = i / gsize)).erase i := by
      ext j
      simp only [Finset.mem_filter, Finset.mem_erase]
      tauto
    have hc : ((Finset.range (ngroup * gsize)).filter (fun j => j ≠ i ∧ j / gsize = i / gsize)).card = gsize - 1 := by
      rw [e, Finset.card_erase_of_mem (by simp [hi]), hcard]
    rw [Finset.sum_congr rfl (g := fun _ => kin / ((gsize : ℚ) - 1))]
    · rw [Finset.sum_const, hc, nsmul_eq_mul, Nat.cast_sub (by omega)]
      simp only [Nat.cast_one]
      field_simp
    · intro j hj
      have := (Finset.mem_filter.1 hj).2.2
      simp [gnP, this]
  · have hc : ((Finset.range (ngroup * gsize)).filter (fun j => j / gsize ≠ i / gsize)).card = (ngroup - 1) * gsize := by
      have := Finset.card_filter_add_card_filter_not (s := Finset.range (ngroup * gsize)) (fun j => j / gsize = i / gsize)
      rw [hcard, Finset.card_range] at this
      rw [Nat.sub_mul, one_mul]
      exact Nat.eq_sub_of_add_eq' this
    rw [Finset.sum_congr rfl (g := fun _ => kout / ((gsize : ℚ) * ((ngroup : ℚ) - 1)))]
    · rw [Finset.sum_const, hc, nsmul_eq_mul, Nat.cast_mul, Nat.cast_sub (by omega)]
      simp only [Nat.cast_one]
      field_simp
    · intro j hj
      have := (Finset.mem_filter.1 hj).2
      simp [gnP, Ne.symm this]

/-! ## Examples -/

/-- Targets of the links of a node. -/
def targets (r : Res (Net × Tape)) (i : ℕ) : List (Option ℕ) :=
  match r with
  | .ok (net, _) => (net.neig i).map Link.ref
  | _ => []

/-- Four nodes, `p = 1/2`. -/
example : Good [1/4, 3/4, 1/2, 0, 9/10, 1/3] ∧
    targets (ERGraph 4 (1/2) [1/4, 3/4, 1/2, 0, 9/10, 1/3]) 0 = [some 1] ∧
    targets (ERGraph 4 (1/2) [1/4, 3/4, 1/2, 0, 9/10, 1/3]) 2 = [some 1, some 3] := by
  refine ⟨?_, by decide +kernel, by decide +kernel⟩
  unfold Good
  decide +kernel

/-- Two groups of two nodes, one link in each, none between (`kin = 1`, `kout = 0`). -/
example : targets (GirvanNewmanGraph 2 2 1 0 [1/4, 3/4, 1/2, 0, 9/10, 1/3]) 0 = [some 1] ∧
    targets (GirvanNewmanGraph 2 2 1 0 [1/4, 3/4, 1/2, 0, 9/10, 1/3]) 2 = [some 3] := by
  constructor <;> decide +kernel

/-- Groups of one node: `kin / 0` is computed but not used. -/
example : targets (GirvanNewmanGraph 3 1 1 2 [1/4, 3/4, 1/2]) 1 = [some 0, some 2] := by decide +kernel

end MD
