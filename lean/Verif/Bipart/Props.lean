import Verif.Bipart.Lemmas

/-! # C35, C36, C37, C51, C52: operations on bipartite networks -/

set_option linter.unusedSimpArgs false

namespace BP

open RG Finset

variable {b : Bi}

/-! ## Copy -/

theorem copyRow {i : ℕ} : ∀ (l : List (ℕ × ℚ)) (c : Bi), c.OK → i < c.n1 → ((c.neig1 i ++ l).map (·.1)).Nodup →
    (∀ x ∈ l, x.1 < c.n2) → (l.foldl (fun c x => addLink c i x.1 x.2) c).OK ∧
      (l.foldl (fun c x => addLink c i x.1 x.2) c).n1 = c.n1 ∧ (l.foldl (fun c x => addLink c i x.1 x.2) c).n2 = c.n2 ∧
      (l.foldl (fun c x => addLink c i x.1 x.2) c).neig1 = Function.update c.neig1 i (c.neig1 i ++ l)
  | [], c, h, _, _, _ => by simp [h]
  | x :: l, c, h, hi, hnd, hr => by
    have hl : ¬ c.Linked i x.1 := by
      intro hh
      rw [linked_map] at hh
      rw [List.map_append, List.nodup_append] at hnd
      exact hnd.2.2 _ hh x.1 (by simp) rfl
    have e := addLink_eq h x.2 hl
    have hok := withLink_ok h hi (hr x (by simp)) x.2 hl
    have en : (withLink c i x.1 x.2).neig1 i = c.neig1 i ++ [x] := by
      unfold withLink; simp
    rw [List.foldl_cons, e]
    obtain ⟨h1, h2, h3, h4⟩ := copyRow l (withLink c i x.1 x.2) hok hi (by rw [en]; simpa using hnd)
      (fun y hy => hr y (by simp [hy]))
    refine ⟨h1, h2, h3, ?_⟩
    rw [h4, en]
    unfold withLink
    simp

theorem copyRows (h : b.OK) : ∀ k ≤ b.n1,
    let c := (List.range k).foldl (fun c i => (b.neig1 i).foldl (fun c x => addLink c i x.1 x.2) c)
      ⟨b.n1, b.n2, fun _ => [], fun _ => []⟩
    c.OK ∧ c.n1 = b.n1 ∧ c.n2 = b.n2 ∧ ∀ a, c.neig1 a = if a < k then b.neig1 a else []
  | 0, _ => by
    refine ⟨⟨?_, ?_, ?_, ?_, ?_⟩, rfl, rfl, ?_⟩ <;> simp
  | k + 1, hk => by
    obtain ⟨h1, h2, h3, h4⟩ := copyRows h k (by omega)
    dsimp only
    rw [List.range_succ, List.foldl_append, List.foldl_cons, List.foldl_nil]
    generalize (List.range k).foldl (fun c i => (b.neig1 i).foldl (fun c x => addLink c i x.1 x.2) c)
      (⟨b.n1, b.n2, fun _ => [], fun _ => []⟩ : Bi) = c at h1 h2 h3 h4 ⊢
    have hk0 : c.neig1 k = [] := by rw [h4, if_neg (by omega)]
    obtain ⟨g1, g2, g3, g4⟩ := copyRow (i := k) (b.neig1 k) c h1 (by omega) (by rw [hk0]; exact h.nodup1 k)
      (fun x hx => by rw [h3]; exact h.range1 k x hx)
    refine ⟨g1, g2.trans h2, g3.trans h3, ?_⟩
    intro a
    rw [g4, hk0, List.nil_append]
    by_cases e : a = k
    · subst e; simp
    · rw [Function.update_of_ne e, h4]
      by_cases hlt : a < k
      · rw [if_pos hlt, if_pos (by omega)]
      · rw [if_neg hlt, if_neg (by omega)]

/-- **C51**: `CopyBipart` of a bipartite network has the same sizes, the same lists of neighbours (order included) for
the first set and, for the second set, a permutation of them; it is again a network whose two ends of each link
agree. -/
theorem C51_copy (h : b.OK) : (CopyBipart b).OK ∧ (CopyBipart b).n1 = b.n1 ∧ (CopyBipart b).n2 = b.n2 ∧
    (CopyBipart b).neig1 = b.neig1 ∧ ∀ j, List.Perm ((CopyBipart b).neig2 j) (b.neig2 j) := by
  obtain ⟨h1, h2, h3, h4⟩ := copyRows h b.n1 (le_refl _)
  have e : (CopyBipart b).neig1 = b.neig1 := by
    funext a
    have := h4 a
    change (CopyBipart b).neig1 a = _ at this
    rw [this]
    split_ifs with ha
    · rfl
    · symm
      rw [List.eq_nil_iff_forall_not_mem]
      rintro ⟨j, w⟩ hm
      exact ha (h.range2 j _ ((h.sym a j w).1 hm))
  refine ⟨h1, h2, h3, e, fun j => ?_⟩
  have h1' : (CopyBipart b).OK := h1
  rw [List.perm_ext_iff_of_nodup (List.Nodup.of_map _ (h1'.nodup2 j)) (List.Nodup.of_map _ (h.nodup2 j))]
  rintro ⟨i, w⟩
  rw [← h.sym, ← e]
  exact (h1'.sym i j w).symm

theorem copyRow_sorted {i : ℕ} : ∀ (l : List (ℕ × ℚ)) (c : Bi), c.OK → i < c.n1 → ((c.neig1 i ++ l).map (·.1)).Nodup →
    (∀ x ∈ l, x.1 < c.n2) → (∀ j, ((c.neig2 j).map (·.1)).Pairwise (· < ·)) → (∀ j, ∀ x ∈ c.neig2 j, x.1 ≤ i) →
    (∀ j, (((l.foldl (fun c x => addLink c i x.1 x.2) c).neig2 j).map (·.1)).Pairwise (· < ·)) ∧
      ∀ j, ∀ x ∈ (l.foldl (fun c x => addLink c i x.1 x.2) c).neig2 j, x.1 ≤ i
  | [], c, _, _, _, _, hs, hle => ⟨hs, hle⟩
  | x :: l, c, h, hi, hnd, hr, hs, hle => by
    have hl : ¬ c.Linked i x.1 := by
      intro hh
      rw [linked_map] at hh
      rw [List.map_append, List.nodup_append] at hnd
      exact hnd.2.2 _ hh x.1 (by simp) rfl
    have e := addLink_eq h x.2 hl
    have hok := withLink_ok h hi (hr x (by simp)) x.2 hl
    have en : (withLink c i x.1 x.2).neig1 i = c.neig1 i ++ [x] := by
      unfold withLink; simp
    rw [List.foldl_cons, e]
    have en2 : ∀ j, (withLink c i x.1 x.2).neig2 j = if j = x.1 then c.neig2 j ++ [(i, x.2)] else c.neig2 j := by
      intro j
      unfold withLink
      dsimp only
      by_cases ej : j = x.1
      · subst ej; simp
      · rw [Function.update_of_ne ej, if_neg ej]
    refine copyRow_sorted l (withLink c i x.1 x.2) hok hi (by rw [en]; simpa using hnd)
      (fun y hy => hr y (by simp [hy])) ?_ ?_
    · intro j
      rw [en2]
      split_ifs with ej
      · rw [List.map_append, List.pairwise_append]
        refine ⟨hs j, by simp, ?_⟩
        intro a ha a' ha'
        simp only [List.map_cons, List.map_nil, List.mem_singleton] at ha'
        subst ha'
        obtain ⟨y, hy, rfl⟩ := List.mem_map.1 ha
        refine lt_of_le_of_ne (hle j y hy) ?_
        rintro ey
        apply hl
        refine ⟨y.2, (h.sym _ _ _).2 ?_⟩
        rw [← ej, ← ey]; exact hy
      · exact hs j
    · intro j y hy
      rw [en2] at hy
      split_ifs at hy with ej
      · rw [List.mem_append, List.mem_singleton] at hy
        rcases hy with hy | rfl
        · exact hle j y hy
        · exact le_refl _
      · exact hle j y hy

theorem copyRows_sorted (h : b.OK) : ∀ k ≤ b.n1,
    let c := (List.range k).foldl (fun c i => (b.neig1 i).foldl (fun c x => addLink c i x.1 x.2) c)
      ⟨b.n1, b.n2, fun _ => [], fun _ => []⟩
    (∀ j, ((c.neig2 j).map (·.1)).Pairwise (· < ·)) ∧ ∀ j, ∀ x ∈ c.neig2 j, x.1 < k
  | 0, _ => by simp
  | k + 1, hk => by
    obtain ⟨h1, h2, h3, h4⟩ := copyRows h k (by omega)
    obtain ⟨s1, s2⟩ := copyRows_sorted h k (by omega)
    dsimp only
    rw [List.range_succ, List.foldl_append, List.foldl_cons, List.foldl_nil]
    generalize (List.range k).foldl (fun c i => (b.neig1 i).foldl (fun c x => addLink c i x.1 x.2) c)
      (⟨b.n1, b.n2, fun _ => [], fun _ => []⟩ : Bi) = c at h1 h2 h3 h4 s1 s2 ⊢
    have hk0 : c.neig1 k = [] := by rw [h4, if_neg (by omega)]
    obtain ⟨g1, g2⟩ := copyRow_sorted (i := k) (b.neig1 k) c h1 (by omega) (by rw [hk0]; exact h.nodup1 k)
      (fun x hx => by rw [h3]; exact h.range1 k x hx) s1 (fun j x hx => (s2 j x hx).le)
    exact ⟨g1, fun j x hx => Nat.lt_succ_of_le (g2 j x hx)⟩

/-- The lists of the second set are in increasing order in a copy. -/
theorem copy_sorted (h : b.OK) (j : ℕ) : (((CopyBipart b).neig2 j).map (·.1)).Pairwise (· < ·) :=
  (copyRows_sorted h b.n1 (le_refl _)).1 j

/-! ## Removal of ratings -/

theorem removeRow {i : ℕ} {r : ℚ} : ∀ (l : List (ℕ × ℚ)) (c : Bi), c.OK → (l.map (·.1)).Nodup → (∀ x ∈ l, x ∈ c.neig1 i) →
    ∃ d : Bi, l.foldlM (fun b x => if x.2 = r then RemoveLink b i x.1 else some b) c = some d ∧ d.OK ∧ d.n1 = c.n1 ∧
      d.n2 = c.n2 ∧ d.neig1 = Function.update c.neig1 i ((c.neig1 i).filter fun x => ¬ (x ∈ l ∧ x.2 = r)) ∧
      ∀ j, List.Sublist (d.neig2 j) (c.neig2 j)
  | [], c, h, _, _ => ⟨c, rfl, h, rfl, rfl, by simp, fun _ => List.Sublist.refl _⟩
  | x :: l, c, h, hnd, hm => by
    rw [List.map_cons, List.nodup_cons] at hnd
    rw [List.foldlM_cons]
    by_cases e : x.2 = r
    · have hl : c.Linked i x.1 := ⟨x.2, hm x (by simp)⟩
      rw [if_pos e, remove_eq h hl]
      have hmem : ∀ y ∈ l, y ∈ (without c i x.1).neig1 i := by
        rintro ⟨j, w⟩ hy
        rw [without_mem1]
        refine ⟨hm _ (by simp [hy]), ?_⟩
        rintro ⟨_, rfl⟩
        exact hnd.1 (List.mem_map.2 ⟨_, hy, rfl⟩)
      obtain ⟨d, hd, h1, h2, h3, h4, h5⟩ := removeRow (r := r) l (without c i x.1) (without_ok h i x.1) hnd.2 hmem
      refine ⟨d, hd, h1, h2, h3, ?_, fun j => (h5 j).trans (without_sub2 i x.1 j)⟩
      rw [h4]
      unfold without
      dsimp only
      rw [Function.update_self, Function.update_idem, List.filter_filter]
      congr 1
      apply List.filter_congr
      intro y hy
      have : y.1 = x.1 ↔ y = x :=
        ⟨fun hh => List.inj_on_of_nodup_map (h.nodup1 i) hy (hm x (by simp)) hh, fun hh => by rw [hh]⟩
      by_cases hyx : y = x
      · simp [hyx, e]
      · have : y.1 ≠ x.1 := fun hh => hyx (this.1 hh)
        simp [hyx, this]
    · rw [if_neg e]
      obtain ⟨d, hd, h1, h2, h3, h4, h5⟩ := removeRow (r := r) l c h hnd.2 (fun y hy => hm y (by simp [hy]))
      refine ⟨d, hd, h1, h2, h3, ?_, h5⟩
      rw [h4]
      congr 1
      apply List.filter_congr
      intro y hy
      by_cases hyx : y = x
      · subst hyx; simp [e]
      · simp [hyx]

theorem removeRows {r : ℚ} (h : b.OK) : ∀ k ≤ b.n1, ∃ d : Bi,
    (List.range k).foldlM (fun b i => (b.neig1 i).foldlM (fun b x => if x.2 = r then RemoveLink b i x.1 else some b) b) b = some d ∧
      d.OK ∧ d.n1 = b.n1 ∧ d.n2 = b.n2 ∧ (∀ i, d.neig1 i = if i < k then (b.neig1 i).filter (fun x => x.2 ≠ r) else b.neig1 i) ∧
      ∀ j, List.Sublist (d.neig2 j) (b.neig2 j)
  | 0, _ => ⟨b, rfl, h, rfl, rfl, fun _ => by simp, fun _ => List.Sublist.refl _⟩
  | k + 1, hk => by
    obtain ⟨c, e, h1, h2, h3, h4, h5⟩ := removeRows (r := r) h k (by omega)
    obtain ⟨d, e', g1, g2, g3, g4, g5⟩ := removeRow (i := k) (r := r) (c.neig1 k) c h1 (h1.nodup1 k) (fun _ h => h)
    refine ⟨d, ?_, g1, g2.trans h2, g3.trans h3, ?_, fun j => (g5 j).trans (h5 j)⟩
    · rw [List.range_succ, List.foldlM_append, e]
      simp only [Option.bind_eq_bind, Option.bind_some, List.foldlM_cons, List.foldlM_nil]
      rw [e']; rfl
    · intro i
      rw [g4]
      have hk0 : c.neig1 k = b.neig1 k := by rw [h4, if_neg (by omega)]
      by_cases ei : i = k
      · subst ei
        rw [Function.update_self, if_pos (by omega), hk0]
        apply List.filter_congr
        intro y hy
        simp [hy]
      · rw [Function.update_of_ne ei, h4]
        by_cases hlt : i < k
        · rw [if_pos hlt, if_pos (by omega)]
        · rw [if_neg hlt, if_neg (by omega)]

/-- **C52**: `RemoveRatings` removes exactly the links of weight `r`, from both sides, keeps the others in their order,
and never dereferences NULL. -/
theorem C52_removeRatings (h : b.OK) (r : ℚ) : ∃ d : Bi, RemoveRatings b r = some d ∧ d.OK ∧ d.n1 = b.n1 ∧ d.n2 = b.n2 ∧
    (∀ i, d.neig1 i = (b.neig1 i).filter fun x => x.2 ≠ r) ∧ ∀ j, d.neig2 j = (b.neig2 j).filter fun x => x.2 ≠ r := by
  obtain ⟨d, e, h1, h2, h3, h4, h5⟩ := removeRows (r := r) h b.n1 (le_refl _)
  have h4' : ∀ i, d.neig1 i = (b.neig1 i).filter fun x => x.2 ≠ r := by
    intro i
    rw [h4]
    split_ifs with hi
    · rfl
    · have : b.neig1 i = [] := by
        rw [List.eq_nil_iff_forall_not_mem]
        rintro ⟨j, w⟩ hm
        exact hi (h.range2 j _ ((h.sym i j w).1 hm))
      rw [this]; rfl
  refine ⟨d, e, h1, h2, h3, h4', fun j => ?_⟩
  have hsub : List.Sublist (d.neig2 j) ((b.neig2 j).filter fun x => x.2 ≠ r) := by
    have := (h5 j).filter (fun x => decide (x.2 ≠ r))
    rwa [List.filter_eq_self.2] at this
    rintro ⟨i, w⟩ hx
    rw [← h1.sym, h4'] at hx
    exact (List.mem_filter.1 hx).2
  apply hsub.eq_of_length_le
  apply List.Subperm.length_le
  apply List.subperm_of_subset
  · exact (List.Nodup.of_map _ (h.nodup2 j)).filter _
  · rintro ⟨i, w⟩ hx
    rw [List.mem_filter] at hx
    rw [← h1.sym, h4', List.mem_filter, h.sym]
    exact hx

/-! ## Unobserved pairs -/

theorem push_row {cap : ℕ} {p : ℕ → Bool} {q : ℕ → ℕ × ℕ} : ∀ (l : List ℕ) (s : List (ℕ × ℕ)),
    s.length + (l.filter fun j => !p j).length ≤ cap →
    l.foldlM (fun s j => if p j then some s else push cap s (q j)) s = some (s ++ (l.filter fun j => !p j).map q)
  | [], s, _ => by simp
  | j :: l, s, h => by
    rw [List.foldlM_cons]
    cases hp : p j with
    | true =>
      simp only [if_true]
      rw [List.filter_cons_of_neg (by simp [hp])] at h ⊢
      exact push_row l s h
    | false =>
      rw [List.filter_cons_of_pos (by simp [hp])] at h ⊢
      simp only [List.length_cons] at h
      unfold push
      simp only [Bool.false_eq_true, if_false]
      rw [if_pos (by omega)]
      simp only [Option.bind_eq_bind, Option.bind_some]
      have := push_row (cap := cap) (p := p) (q := q) l (s ++ [q j]) (by simp; omega)
      unfold push at this
      rw [this]
      simp

/-- Pairs without link, row by row. -/
def free (b : Bi) (k : ℕ) : List (ℕ × ℕ) :=
  (List.range k).flatMap fun i => ((List.range b.n2).filter fun j => !isThere (b.neig1 i) j).map fun j => (i, j)

theorem free_succ (k : ℕ) : free b (k + 1) = free b k ++ ((List.range b.n2).filter fun j => !isThere (b.neig1 k) j).map fun j => (k, j) := by
  unfold free
  rw [List.range_succ, List.flatMap_append]
  simp

theorem row_length (h : b.OK) (i : ℕ) :
    ((List.range b.n2).filter fun j => !isThere (b.neig1 i) j).length + (b.neig1 i).length = b.n2 := by
  have h1 : ((List.range b.n2).filter fun j => isThere (b.neig1 i) j).length = (b.neig1 i).length := by
    rw [← List.length_map (as := b.neig1 i) (·.1)]
    apply List.Perm.length_eq
    rw [List.perm_ext_iff_of_nodup (List.nodup_range.filter _) (h.nodup1 i)]
    intro j
    rw [List.mem_filter, isThere_map, List.mem_range]
    constructor
    · exact fun h => h.2
    · intro hm
      refine ⟨?_, hm⟩
      obtain ⟨x, hx, rfl⟩ := List.mem_map.1 hm
      exact h.range1 i x hx
  have h2 := List.length_eq_length_filter_add (l := List.range b.n2) (fun j => isThere (b.neig1 i) j)
  rw [List.length_range] at h2
  omega

theorem free_length (h : b.OK) : ∀ k, ((free b k).length : Int) + (List.range k).foldl (fun (s : Int) i => s + ((b.neig1 i).length : Int)) 0 =
    (k : Int) * b.n2
  | 0 => by simp [free]
  | k + 1 => by
    have ih := free_length h k
    have := row_length h k
    rw [free_succ, List.length_append, List.length_map, List.range_succ, List.foldl_append, List.foldl_cons, List.foldl_nil]
    push_cast
    have : (((List.range b.n2).filter fun j => !isThere (b.neig1 k) j).length : Int) + (b.neig1 k).length = b.n2 := by
      exact_mod_cast this
    linarith

theorem free_mono {k m : ℕ} (h : k ≤ m) : (free b k).length ≤ (free b m).length := by
  induction h with
  | refl => exact le_refl _
  | step _ ih => rw [free_succ, List.length_append]; omega

theorem build_rows {cap : ℕ} : ∀ k, (free b k).length ≤ cap →
    (List.range k).foldlM (fun l i => (List.range b.n2).foldlM (fun l j =>
      if isThere (b.neig1 i) j then some l else push cap l (i, j)) l) [] = some (free b k)
  | 0, _ => by simp [free]
  | k + 1, hc => by
    have e := free_succ (b := b) k
    have hc' := hc
    rw [e, List.length_append, List.length_map] at hc'
    rw [List.range_succ, List.foldlM_append, build_rows k (by omega)]
    simp only [Option.bind_eq_bind, Option.bind_some, List.foldlM_cons, List.foldlM_nil]
    rw [push_row (p := fun j => isThere (b.neig1 k) j) (q := fun j => (k, j)) _ _ hc', e]
    rfl

/-- **C35**: `BuildUnobservedSet` writes within its allocation and fills all of its `CountUnobserved` slots, with
every pair of a node of the first and a node of the second set that are not linked, each once. -/
theorem C35_unobserved (h : b.OK) : ∃ l, BuildUnobservedSet b = some l ∧ (l.length : Int) = CountUnobserved b ∧ l.Nodup ∧
    ∀ i j, (i, j) ∈ l ↔ i < b.n1 ∧ j < b.n2 ∧ ¬ b.Linked i j := by
  have hlen : ((free b b.n1).length : Int) = CountUnobserved b := by
    have := free_length h b.n1
    unfold CountUnobserved NLinksBipart
    linarith
  refine ⟨free b b.n1, build_rows b.n1 (by omega), hlen, ?_, ?_⟩
  · unfold free
    rw [List.nodup_flatMap]
    refine ⟨fun i _ => List.Nodup.map (fun a b h => (Prod.mk.inj h).2) (List.nodup_range.filter _), ?_⟩
    apply List.Pairwise.imp _ List.nodup_range
    intro a c hac x hx hx'
    obtain ⟨_, _, rfl⟩ := List.mem_map.1 hx
    obtain ⟨_, _, e⟩ := List.mem_map.1 hx'
    exact hac (Prod.mk.inj e).1.symm
  · intro i j
    unfold free
    simp only [List.mem_flatMap, List.mem_range, List.mem_map, List.mem_filter, Prod.mk.injEq]
    rw [linked_map, ← isThere_map]
    constructor
    · rintro ⟨a, h1, c, ⟨h2, h3⟩, rfl, rfl⟩
      exact ⟨h1, h2, by simpa using h3⟩
    · rintro ⟨h1, h2, h3⟩
      exact ⟨i, h1, j, ⟨h2, by simpa using h3⟩, rfl, rfl⟩

/-! ## Projection -/

/-- Weight in a list of neighbours. -/
def lw (l : List (ℕ × ℚ)) (a : ℕ) : ℚ := ((l.find? fun x => x.1 == a).map (·.2)).getD 0

theorem lw_cons (x : ℕ × ℚ) (l : List (ℕ × ℚ)) (a : ℕ) : lw (x :: l) a = if x.1 = a then x.2 else lw l a := by
  unfold lw
  by_cases e : x.1 = a
  · rw [List.find?_cons_of_pos (by simpa using e), if_pos e]; rfl
  · rw [List.find?_cons_of_neg (by simpa using e), if_neg e]

theorem lw_not_mem {l : List (ℕ × ℚ)} {a : ℕ} (h : a ∉ l.map (·.1)) : lw l a = 0 := by
  unfold lw
  rw [List.find?_eq_none.2]
  · rfl
  · intro x hx hh
    exact h (List.mem_map.2 ⟨x, hx, by simpa using hh⟩)

theorem inner_sum (a : ℕ) (c : ℚ) : ∀ (l : List (ℕ × ℚ)) (s : ℚ), (l.map (·.1)).Nodup →
    l.foldl (fun s y => if a = y.1 then s + c * y.2 else s) s = s + c * lw l a
  | [], s, _ => by simp [lw]
  | y :: l, s, h => by
    rw [List.map_cons, List.nodup_cons] at h
    rw [List.foldl_cons, inner_sum a c l _ h.2, lw_cons]
    by_cases e : a = y.1
    · subst e
      rw [if_pos rfl, if_pos rfl, lw_not_mem h.1]; ring
    · rw [if_neg e, if_neg fun h => e h.symm]

theorem outer_sum {m : ℕ} (F : ℕ → ℚ) : ∀ (l : List (ℕ × ℚ)) (s : ℚ), (l.map (·.1)).Nodup → (∀ x ∈ l, x.1 < m) →
    l.foldl (fun s x => s + x.2 * F x.1) s = s + ∑ a ∈ range m, lw l a * F a
  | [], s, _, _ => by simp [lw]
  | x :: l, s, h, hr => by
    rw [List.map_cons, List.nodup_cons] at h
    rw [List.foldl_cons, outer_sum F l _ h.2 fun y hy => hr y (by simp [hy])]
    have hm := mem_range.2 (hr x (by simp))
    rw [← add_sum_erase _ _ hm, ← add_sum_erase (range m) (fun a => lw (x :: l) a * F a) hm, lw_cons, if_pos rfl, lw_not_mem h.1]
    have : ∑ a ∈ (range m).erase x.1, lw (x :: l) a * F a = ∑ a ∈ (range m).erase x.1, lw l a * F a := by
      apply sum_congr rfl
      intro a ha
      rw [lw_cons, if_neg fun h => (mem_erase.1 ha).1 h.symm]
    rw [this]; ring

theorem sumProducts_eq {m : ℕ} {l1 l2 : List (ℕ × ℚ)} (h1 : (l1.map (·.1)).Nodup) (h2 : (l2.map (·.1)).Nodup)
    (hr : ∀ x ∈ l1, x.1 < m) : SumProductsOfCommonWeightsBipart l1 l2 = ∑ a ∈ range m, lw l1 a * lw l2 a := by
  unfold SumProductsOfCommonWeightsBipart
  have : (fun (s : ℚ) (x : ℕ × ℚ) => l2.foldl (fun s y => if x.1 = y.1 then s + x.2 * y.2 else s) s) =
      fun s x => s + x.2 * lw l2 x.1 := by
    funext s x
    exact inner_sum x.1 x.2 l2 s h2
  rw [this, outer_sum _ l1 0 h1 hr, zero_add]

/-- The list with all weights equal to one. -/
def ones (l : List (ℕ × ℚ)) : List (ℕ × ℚ) := l.map fun x => (x.1, 1)

theorem ones_fst (l : List (ℕ × ℚ)) : (ones l).map (·.1) = l.map (·.1) := by
  unfold ones; rw [List.map_map]; rfl

theorem common_ones (l1 l2 : List (ℕ × ℚ)) :
    (NCommonLinksBipart l1 l2 : ℚ) = SumProductsOfCommonWeightsBipart (ones l1) (ones l2) := by
  unfold NCommonLinksBipart SumProductsOfCommonWeightsBipart ones
  rw [List.foldl_map]
  have inner : ∀ (a : ℕ) (l : List (ℕ × ℚ)) (s : ℕ), ((l.foldl (fun s y => if a = y.1 then s + 1 else s) s : ℕ) : ℚ) =
      (l.map fun x => (x.1, (1 : ℚ))).foldl (fun s y => if a = y.1 then s + 1 * y.2 else s) (s : ℚ) := by
    intro a l
    induction l with
    | nil => intro s; rfl
    | cons y l ih =>
      intro s
      rw [List.foldl_cons, ih, List.map_cons, List.foldl_cons]
      congr 1
      split_ifs <;> simp
  have outer : ∀ (l : List (ℕ × ℚ)) (s : ℕ),
      ((l.foldl (fun s x => l2.foldl (fun s y => if x.1 = y.1 then s + 1 else s) s) s : ℕ) : ℚ) =
      l.foldl (fun s x => (l2.map fun x => (x.1, (1 : ℚ))).foldl (fun s y => if x.1 = y.1 then s + 1 * y.2 else s) s) (s : ℚ) := by
    intro l
    induction l with
    | nil => intro s; rfl
    | cons y l ih =>
      intro s
      rw [List.foldl_cons, ih, List.foldl_cons, inner]
  rw [outer]
  rfl

theorem lw_ones (l : List (ℕ × ℚ)) (a : ℕ) : lw (ones l) a = if a ∈ l.map (·.1) then 1 else 0 := by
  induction l with
  | nil => simp [ones, lw]
  | cons x l ih =>
    change lw ((x.1, 1) :: ones l) a = _
    rw [lw_cons, ih, List.map_cons]
    by_cases e : x.1 = a
    · simp [e]
    · have e' : ¬ a = x.1 := fun h => e h.symm
      rw [if_neg e]
      simp only [List.mem_cons, e', false_or]

theorem ncommon_eq (h : b.OK) (i i' : ℕ) : NCommonLinksBipart (b.neig1 i) (b.neig1 i') = (common b i i').card := by
  have h1 := common_ones (b.neig1 i) (b.neig1 i')
  rw [sumProducts_eq (m := b.n2) (by rw [ones_fst]; exact h.nodup1 i) (by rw [ones_fst]; exact h.nodup1 i')] at h1
  · simp only [lw_ones] at h1
    unfold common
    rw [card_filter]
    have h2 : (NCommonLinksBipart (b.neig1 i) (b.neig1 i') : ℚ) =
        ((∑ a ∈ range b.n2, if (∃ x ∈ b.neig1 i, x.1 = a) ∧ ∃ x ∈ b.neig1 i', x.1 = a then 1 else 0 : ℕ) : ℚ) := by
      rw [h1, Nat.cast_sum]
      apply sum_congr rfl
      intro a _
      simp only [List.mem_map]
      by_cases e1 : ∃ x ∈ b.neig1 i, x.1 = a <;> by_cases e2 : ∃ x ∈ b.neig1 i', x.1 = a <;> simp only [e1, e2] <;> simp
    exact_mod_cast h2
  · unfold ones
    intro x hx
    obtain ⟨y, hy, rfl⟩ := List.mem_map.1 hx
    exact h.range1 i y hy

/-- All pairs `i < j` below `n`, in the order of the loops, as far as row `k`. -/
def pairsUpTo (n k : ℕ) : List (ℕ × ℕ) :=
  (List.range k).flatMap fun i => (List.range' (i + 1) (n - (i + 1))).map fun j => (i, j)

/-- Adding the link of a pair if its weight is positive. -/
def addPair (W : ℕ → ℕ → Int) (neig : ℕ → List (ℕ × ℚ)) (p : ℕ × ℕ) : ℕ → List (ℕ × ℚ) :=
  if 0 < W p.1 p.2 then addBoth neig p.1 p.2 (W p.1 p.2 : ℚ) else neig

theorem project_pairs (W : ℕ → ℕ → Int) : (project b W).neig = (pairsUpTo b.n1 b.n1).foldl (addPair W) fun _ => [] := by
  unfold project pairsUpTo
  dsimp only
  have : ∀ (k : ℕ) (s : ℕ → List (ℕ × ℚ)),
      (List.range k).foldl (fun neig i => (List.range' (i + 1) (b.n1 - (i + 1))).foldl (fun neig j =>
        if 0 < W i j then addBoth neig i j (W i j : ℚ) else neig) neig) s =
      ((List.range k).flatMap fun i => (List.range' (i + 1) (b.n1 - (i + 1))).map fun j => (i, j)).foldl (addPair W) s := by
    intro k s
    rw [List.foldl_flatMap]
    congr 1
    funext s i
    rw [List.foldl_map]
    rfl
  exact this _ _

/-- What the lists contain after some pairs have been treated. -/
def Projected (W : ℕ → ℕ → Int) (P : List (ℕ × ℕ)) (neig : ℕ → List (ℕ × ℚ)) : Prop :=
  (∀ a, ((neig a).map (·.1)).Nodup) ∧ ∀ a c w, (c, w) ∈ neig a ↔
    ((a, c) ∈ P ∧ 0 < W a c ∧ w = W a c) ∨ ((c, a) ∈ P ∧ 0 < W c a ∧ w = W c a)

theorem addPair_ok {W : ℕ → ℕ → Int} {P : List (ℕ × ℕ)} {neig : ℕ → List (ℕ × ℚ)} (h : Projected W P neig) {i j : ℕ}
    (hij : i < j) (hP : ∀ p ∈ P, p.1 < p.2) (hn : (i, j) ∉ P) : Projected W (P ++ [(i, j)]) (addPair W neig (i, j)) := by
  have hji : (j, i) ∉ P := fun hh => absurd (hP _ hh) (by simp; omega)
  have hne : j ≠ i := by omega
  unfold addPair
  dsimp only
  by_cases hw : 0 < W i j
  · rw [if_pos hw]
    have n1 : j ∉ (neig i).map (·.1) := by
      intro hm
      obtain ⟨⟨c, w⟩, hx, rfl⟩ := List.mem_map.1 hm
      rcases (h.2 i c w).1 hx with hh | hh
      · exact hn hh.1
      · exact hji hh.1
    have n2 : i ∉ (neig j).map (·.1) := by
      intro hm
      obtain ⟨⟨c, w⟩, hx, rfl⟩ := List.mem_map.1 hm
      rcases (h.2 j c w).1 hx with hh | hh
      · exact hji hh.1
      · exact hn hh.1
    unfold addBoth
    rw [addAdj_new _ n1]
    dsimp only
    rw [Function.update_of_ne hne, addAdj_new _ n2]
    have app : ∀ {l : List (ℕ × ℚ)} {c : ℕ} {w : ℚ}, (l.map (·.1)).Nodup → c ∉ l.map (·.1) → ((l ++ [(c, w)]).map (·.1)).Nodup := by
      intro l c w h1 h2
      rw [List.map_append, List.nodup_append]
      refine ⟨h1, by simp, ?_⟩
      intro x hx y hy
      simp only [List.map_cons, List.map_nil, List.mem_singleton] at hy
      subst hy
      rintro rfl
      exact h2 hx
    refine ⟨?_, ?_⟩
    · intro a
      by_cases e1 : a = j
      · subst e1; rw [Function.update_self]; exact app (h.1 a) n2
      · rw [Function.update_of_ne e1]
        by_cases e2 : a = i
        · subst e2; rw [Function.update_self]; exact app (h.1 a) n1
        · rw [Function.update_of_ne e2]; exact h.1 a
    · intro a c w
      simp only [List.mem_append, List.mem_singleton, Prod.mk.injEq]
      by_cases e1 : a = j
      · subst e1
        rw [Function.update_self, List.mem_append, h.2, List.mem_singleton, Prod.mk.injEq]
        constructor
        · rintro ((hh | hh) | ⟨rfl, rfl⟩)
          · exact Or.inl ⟨Or.inl hh.1, hh.2⟩
          · exact Or.inr ⟨Or.inl hh.1, hh.2⟩
          · exact Or.inr ⟨Or.inr ⟨rfl, rfl⟩, hw, rfl⟩
        · rintro (⟨hh | hh, h2⟩ | ⟨hh | hh, h2⟩)
          · exact Or.inl (Or.inl ⟨hh, h2⟩)
          · omega
          · exact Or.inl (Or.inr ⟨hh, h2⟩)
          · rw [hh.1] at h2 ⊢; exact Or.inr ⟨rfl, h2.2⟩
      · rw [Function.update_of_ne e1]
        by_cases e2 : a = i
        · subst e2
          rw [Function.update_self, List.mem_append, h.2, List.mem_singleton, Prod.mk.injEq]
          constructor
          · rintro ((hh | hh) | ⟨rfl, rfl⟩)
            · exact Or.inl ⟨Or.inl hh.1, hh.2⟩
            · exact Or.inr ⟨Or.inl hh.1, hh.2⟩
            · exact Or.inl ⟨Or.inr ⟨rfl, rfl⟩, hw, rfl⟩
          · rintro (⟨hh | hh, h2⟩ | ⟨hh | hh, h2⟩)
            · exact Or.inl (Or.inl ⟨hh, h2⟩)
            · rw [hh.2] at h2 ⊢; exact Or.inr ⟨rfl, h2.2⟩
            · exact Or.inl (Or.inr ⟨hh, h2⟩)
            · omega
        · rw [Function.update_of_ne e2, h.2]
          simp [e1, e2]
  · rw [if_neg hw]
    refine ⟨h.1, ?_⟩
    intro a c w
    rw [h.2]
    simp only [List.mem_append, List.mem_singleton, Prod.mk.injEq]
    constructor
    · rintro (hh | hh)
      · exact Or.inl ⟨Or.inl hh.1, hh.2⟩
      · exact Or.inr ⟨Or.inl hh.1, hh.2⟩
    · rintro (⟨hh | hh, h2⟩ | ⟨hh | hh, h2⟩)
      · exact Or.inl ⟨hh, h2⟩
      · rw [hh.1, hh.2] at h2; exact absurd h2.1 hw
      · exact Or.inr ⟨hh, h2⟩
      · rw [hh.1, hh.2] at h2; exact absurd h2.1 hw

theorem addPairs_ok {W : ℕ → ℕ → Int} : ∀ (Q P : List (ℕ × ℕ)) (neig : ℕ → List (ℕ × ℚ)), Projected W P neig →
    (∀ p ∈ P ++ Q, p.1 < p.2) → (P ++ Q).Nodup → Projected W (P ++ Q) (Q.foldl (addPair W) neig)
  | [], P, neig, h, _, _ => by simpa using h
  | q :: Q, P, neig, h, hlt, hnd => by
    rw [List.foldl_cons]
    have hq : q ∉ P := by
      rw [List.nodup_append] at hnd
      intro hh
      exact hnd.2.2 q hh q (by simp) rfl
    have := addPairs_ok Q (P ++ [q]) (addPair W neig q) (addPair_ok h (hlt q (by simp)) (fun p hp => hlt p (by simp [hp])) hq)
      (by simpa using hlt) (by simpa using hnd)
    simpa using this

theorem pairs_mem (n i j : ℕ) : (i, j) ∈ pairsUpTo n n ↔ i < j ∧ j < n := by
  unfold pairsUpTo
  simp only [List.mem_flatMap, List.mem_range, List.mem_map, List.mem_range'_1, Prod.mk.injEq]
  constructor
  · rintro ⟨a, h1, b, h2, rfl, rfl⟩; omega
  · rintro ⟨h1, h2⟩; exact ⟨i, by omega, j, by omega, rfl, rfl⟩

theorem pairs_nodup (n : ℕ) : (pairsUpTo n n).Nodup := by
  unfold pairsUpTo
  rw [List.nodup_flatMap]
  refine ⟨fun i _ => List.Nodup.map (fun a b h => (Prod.mk.inj h).2) List.nodup_range', ?_⟩
  apply List.Pairwise.imp _ List.nodup_range
  intro a b hab
  intro x hx hx'
  obtain ⟨_, _, rfl⟩ := List.mem_map.1 hx
  obtain ⟨_, _, e⟩ := List.mem_map.1 hx'
  exact hab (Prod.mk.inj e).1.symm

/-- The projection for a symmetric weight. -/
theorem project_spec {W : ℕ → ℕ → Int} (hW : ∀ i j, W i j = W j i) : (project b W).Simple ∧
    ∀ i j, (project b W).link i j = if i < b.n1 ∧ j < b.n1 ∧ i ≠ j ∧ 0 < W i j then some (W i j : ℚ) else none := by
  have hP : Projected W (pairsUpTo b.n1 b.n1) (project b W).neig := by
    rw [project_pairs]
    have := addPairs_ok (W := W) (pairsUpTo b.n1 b.n1) [] (fun _ => []) ⟨by simp, by simp⟩
      (by
        rintro ⟨i, j⟩ hp
        exact ((pairs_mem b.n1 i j).1 (by simpa using hp)).1) (by simpa using pairs_nodup b.n1)
    simpa using this
  have hl : ∀ i j, (project b W).link i j = if i < b.n1 ∧ j < b.n1 ∧ i ≠ j ∧ 0 < W i j then some (W i j : ℚ) else none := by
    intro i j
    apply Option.ext
    intro w
    rw [GP.link_iff hP.1, hP.2, pairs_mem, pairs_mem, hW j i]
    by_cases hc : i < b.n1 ∧ j < b.n1 ∧ i ≠ j ∧ 0 < W i j
    · rw [if_pos hc, Option.some.injEq]
      constructor
      · rintro (hh | hh) <;> exact hh.2.2.symm
      · intro e
        rcases Nat.lt_or_gt_of_ne hc.2.2.1 with h | h
        · exact Or.inl ⟨⟨h, hc.2.1⟩, hc.2.2.2, e.symm⟩
        · exact Or.inr ⟨⟨h, hc.1⟩, hc.2.2.2, e.symm⟩
    · rw [if_neg hc]
      constructor
      · rintro (hh | hh)
        · exact absurd ⟨by omega, by omega, by omega, hh.2.1⟩ hc
        · exact absurd ⟨by omega, by omega, by omega, hh.2.1⟩ hc
      · intro h; simp at h
  refine ⟨⟨hP.1, ?_, ?_, ?_⟩, hl⟩
  · rintro i ⟨j, w⟩ hx
    have := (GP.link_iff hP.1 i j w).2 hx
    rw [hl] at this
    split_ifs at this with hc
    exact hc.2.1
  · intro i j
    rw [hl, hl, hW j i]
    by_cases hc : i < b.n1 ∧ j < b.n1 ∧ i ≠ j ∧ 0 < W i j
    · rw [if_pos hc, if_pos ⟨hc.2.1, hc.1, hc.2.2.1.symm, hc.2.2.2⟩]
    · rw [if_neg hc, if_neg fun hh => hc ⟨hh.2.1, hh.1, hh.2.2.1.symm, hh.2.2.2⟩]
  · intro i
    rw [hl, if_neg]
    rintro ⟨_, _, h, _⟩
    exact h rfl

theorem common_symm (i j : ℕ) : common b i j = common b j i := by
  unfold common
  apply filter_congr
  intro a _
  exact and_comm

/-- **C37**: `ProjectBipart` gives a simple symmetric network on the nodes of the first set, in the same order, where
two nodes are linked exactly when they share a neighbour, with weight the number of shared neighbours. -/
theorem C37_project (h : b.OK) : (ProjectBipart b).n = b.n1 ∧ (ProjectBipart b).Simple ∧
    ∀ i j, (ProjectBipart b).link i j =
      if i < b.n1 ∧ j < b.n1 ∧ i ≠ j ∧ (common b i j).Nonempty then some ((common b i j).card : ℚ) else none := by
  have hW : ∀ i j, ((NCommonLinksBipart (b.neig1 i) (b.neig1 j) : ℕ) : Int) = NCommonLinksBipart (b.neig1 j) (b.neig1 i) := by
    intro i j
    rw [ncommon_eq h, ncommon_eq h, common_symm]
  obtain ⟨h1, h2⟩ := project_spec (b := b) hW
  refine ⟨rfl, h1, ?_⟩
  intro i j
  unfold ProjectBipart
  rw [h2, ncommon_eq h]
  simp only [← card_pos, Nat.cast_pos]
  norm_cast

/-- Sum of the products of the weights to common neighbours. -/
def overlap (b : Bi) (i j : ℕ) : ℚ := ∑ a ∈ range b.n2, b.wt i a * b.wt j a

theorem overlap_eq (h : b.OK) (i j : ℕ) : SumProductsOfCommonWeightsBipart (b.neig1 i) (b.neig1 j) = overlap b i j :=
  sumProducts_eq (h.nodup1 i) (h.nodup1 j) (h.range1 i)

/-- **C37**, weighted: the weight is cut to an integer before use, and links whose sum is below one are missing; this
is what `ProjectBipartWeighted` computes. -/
theorem C37_weighted_truncated (h : b.OK) : (ProjectBipartWeighted b).Simple ∧
    ∀ i j, (ProjectBipartWeighted b).link i j =
      if i < b.n1 ∧ j < b.n1 ∧ i ≠ j ∧ 1 ≤ overlap b i j then some (⌊overlap b i j⌋ : ℚ) else none := by
  have hW : ∀ i j, toInt (SumProductsOfCommonWeightsBipart (b.neig1 i) (b.neig1 j)) =
      toInt (SumProductsOfCommonWeightsBipart (b.neig1 j) (b.neig1 i)) := by
    intro i j
    rw [overlap_eq h, overlap_eq h]
    congr 1
    exact sum_congr rfl fun a _ => mul_comm _ _
  obtain ⟨h1, h2⟩ := project_spec (b := b) hW
  refine ⟨h1, ?_⟩
  intro i j
  unfold ProjectBipartWeighted
  rw [h2, overlap_eq h]
  have e : 0 < toInt (overlap b i j) ↔ 1 ≤ overlap b i j := by
    unfold toInt
    split_ifs with h0
    · rw [Int.floor_pos]
    · constructor
      · intro hh
        have := Int.ceil_pos.1 hh
        linarith
      · intro hh; linarith
  simp only [e]
  by_cases hc : i < b.n1 ∧ j < b.n1 ∧ i ≠ j ∧ 1 ≤ overlap b i j
  · rw [if_pos hc, if_pos hc]
    unfold toInt
    rw [if_pos (by linarith [hc.2.2.2])]
  · rw [if_neg hc, if_neg hc]

/-- **C37**, weighted, for integer weights `≥ 0` (the full statement fails, see `C37_weighted_refuted`; missing:
fractional weights): the weight of the projection is the sum of products. -/
theorem C37_weighted_partial (h : b.OK) (hint : ∀ i a, ∃ m : ℕ, b.wt i a = m) :
    (ProjectBipartWeighted b).n = b.n1 ∧ (ProjectBipartWeighted b).Simple ∧
    ∀ i j, (ProjectBipartWeighted b).link i j =
      if i < b.n1 ∧ j < b.n1 ∧ i ≠ j ∧ 0 < overlap b i j then some (overlap b i j) else none := by
  obtain ⟨h1, h2⟩ := C37_weighted_truncated h
  refine ⟨rfl, h1, ?_⟩
  intro i j
  rw [h2]
  obtain ⟨m, hm⟩ : ∃ m : ℕ, overlap b i j = m := by
    choose f hf using hint
    refine ⟨∑ a ∈ range b.n2, f i a * f j a, ?_⟩
    unfold overlap
    rw [Nat.cast_sum]
    exact sum_congr rfl fun a _ => by rw [hf, hf]; norm_cast
  rw [hm, Int.floor_natCast]
  have : (1 : ℚ) ≤ m ↔ (0 : ℚ) < m := by
    rw [Nat.cast_pos, Nat.one_le_cast]; exact Iff.rfl
  simp only [this]
  norm_cast

/-! ## Randomisation -/

/-- Distinct slots of the list of links hold distinct links of the network. -/
def Listed (b : Bi) (L : List (ℕ × ℕ)) : Prop :=
  (∀ (k : ℕ) (p : ℕ × ℕ), L[k]? = some p → b.Linked p.1 p.2) ∧ ∀ (k k' : ℕ) (p : ℕ × ℕ), L[k]? = some p → L[k']? = some p → k = k'

theorem linkList_listed (h : b.OK) : Listed b (linkList b) := by
  refine ⟨?_, ?_⟩
  · intro k p hk
    have := List.mem_of_getElem? hk
    unfold linkList at this
    rw [List.mem_flatMap] at this
    obtain ⟨i, _, hm⟩ := this
    obtain ⟨x, hx, rfl⟩ := List.mem_map.1 hm
    exact ⟨x.2, hx⟩
  · have hnd : (linkList b).Nodup := by
      unfold linkList
      rw [List.nodup_flatMap]
      refine ⟨?_, ?_⟩
      · intro i _
        have := List.Nodup.map (f := fun j => (i, j)) (fun a b h => (Prod.mk.inj h).2) (h.nodup1 i)
        rw [List.map_map] at this
        exact this
      · apply List.Pairwise.imp _ List.nodup_range
        intro a c hac x hx hx'
        obtain ⟨_, _, rfl⟩ := List.mem_map.1 hx
        obtain ⟨_, _, e⟩ := List.mem_map.1 hx'
        exact hac (Prod.mk.inj e).1.symm
    intro k k' p h1 h2
    have l1 := (List.getElem?_eq_some_iff.1 h1).1
    exact (List.getElem?_inj l1 hnd).1 (h1.trans h2.symm)

theorem pickSwap_holds {L : List (ℕ × ℕ)} (h : b.OK) : ∀ (t : Tape) (t1 : Option ℕ), 0 < L.length →
    (∀ k, t1 = some k → k < L.length) → (pickSwap b L t1 t).Holds fun r => ∃ n1 n2 n3 n4, L[r.1.1]? = some (n1, n2) ∧
      L[r.1.2]? = some (n3, n4) ∧ n1 ≠ n3 ∧ n2 ≠ n4 ∧ ¬ b.Linked n1 n4 ∧ ¬ b.Linked n3 n2
  | [], t1, _, _ => by cases t1 <;> trivial
  | u :: t, none, hL, _ => by
    unfold pickSwap
    by_cases hu : 0 ≤ u ∧ u < 1
    · have hlt := floor_lt hu.2 hL
      rw [if_pos hu, if_pos hlt]
      exact pickSwap_holds h t _ hL fun k hk => by rw [← Option.some.inj hk]; exact hlt
    · rw [if_neg hu]; trivial
  | u :: t, some t1, hL, hk => by
    unfold pickSwap
    by_cases hu : 0 ≤ u ∧ u < 1
    · have hlt := floor_lt hu.2 hL
      have hk1 := hk t1 rfl
      rw [if_pos hu]
      generalize ⌊u * L.length⌋₊ = t2 at hlt ⊢
      have e1 : L[t1]? = some L[t1] := List.getElem?_eq_getElem hk1
      have e2 : L[t2]? = some L[t2] := List.getElem?_eq_getElem hlt
      generalize L[t1] = q1 at e1
      generalize L[t2] = q2 at e2
      obtain ⟨n1, n2⟩ := q1
      obtain ⟨n3, n4⟩ := q2
      rw [e1, e2]
      dsimp only
      by_cases c1 : n1 = n3 ∨ n2 = n4
      · rw [if_pos c1]; exact pickSwap_holds h t _ hL hk
      · rw [if_neg c1]
        by_cases c2 : isThere (b.neig1 n1) n4 = true ∨ isThere (b.neig2 n2) n3 = true
        · rw [if_pos c2]; exact pickSwap_holds h t _ hL fun k hk => by simp at hk
        · rw [if_neg c2]
          push Not at c1 c2
          refine ⟨n1, n2, n3, n4, e1, e2, c1.1, c1.2, ?_, ?_⟩
          · intro hh
            exact c2.1 (isThere_map.2 (linked_map.1 hh))
          · intro hh
            exact c2.2 (isThere_map.2 ((linked_map2 h).1 hh))
    · rw [if_neg hu]; trivial

theorem without_len1 (h : b.OK) {i j : ℕ} (hl : b.Linked i j) (a : ℕ) :
    (((without b i j).neig1 a).length : Int) = (b.neig1 a).length - if a = i then 1 else 0 := by
  by_cases e : a = i
  · subst e
    have := remAdj_length (remAdj_eq (h.nodup1 a) (linked_map.1 hl))
    unfold without
    dsimp only
    rw [Function.update_self, if_pos rfl]
    omega
  · unfold without
    dsimp only
    rw [Function.update_of_ne e, if_neg e, sub_zero]

theorem without_len2 (h : b.OK) {i j : ℕ} (hl : b.Linked i j) (a : ℕ) :
    (((without b i j).neig2 a).length : Int) = (b.neig2 a).length - if a = j then 1 else 0 := by
  by_cases e : a = j
  · subst e
    have := remAdj_length (remAdj_eq (h.nodup2 a) ((linked_map2 h).1 hl))
    unfold without
    dsimp only
    rw [Function.update_self, if_pos rfl]
    omega
  · unfold without
    dsimp only
    rw [Function.update_of_ne e, if_neg e, sub_zero]

theorem withLink_len1 (i j a : ℕ) (w : ℚ) :
    (((withLink b i j w).neig1 a).length : Int) = (b.neig1 a).length + if a = i then 1 else 0 := by
  unfold withLink
  dsimp only
  by_cases e : a = i
  · subst e; rw [Function.update_self, if_pos rfl]; simp
  · rw [Function.update_of_ne e, if_neg e, add_zero]

theorem withLink_len2 (i j a : ℕ) (w : ℚ) :
    (((withLink b i j w).neig2 a).length : Int) = (b.neig2 a).length + if a = j then 1 else 0 := by
  unfold withLink
  dsimp only
  by_cases e : a = j
  · subst e; rw [Function.update_self, if_pos rfl]; simp
  · rw [Function.update_of_ne e, if_neg e, add_zero]

/-- Effect of a switch. -/
theorem switch_ok (h : b.OK) {n1 n2 n3 n4 : ℕ} (l1 : b.Linked n1 n2) (l2 : b.Linked n3 n4) (h13 : n1 ≠ n3)
    (l3 : ¬ b.Linked n1 n4) (l4 : ¬ b.Linked n3 n2) : ∃ d : Bi, switch b n1 n2 n3 n4 = some d ∧ d.OK ∧ d.n1 = b.n1 ∧ d.n2 = b.n2 ∧
      (∀ a, (d.neig1 a).length = (b.neig1 a).length) ∧ (∀ a, (d.neig2 a).length = (b.neig2 a).length) ∧
      ∀ a c, d.Linked a c ↔ (b.Linked a c ∧ (a, c) ≠ (n1, n2) ∧ (a, c) ≠ (n3, n4)) ∨ (a, c) = (n1, n4) ∨ (a, c) = (n3, n2) := by
  unfold switch
  rw [remove_eq h l1]
  have ok1 := without_ok h n1 n2
  have l2' : (without b n1 n2).Linked n3 n4 := without_linked.2 ⟨l2, fun hh => h13 hh.1.symm⟩
  simp only [Option.bind_eq_bind, Option.bind_some]
  rw [remove_eq ok1 l2']
  have ok2 := without_ok ok1 n3 n4
  simp only [Option.bind_some]
  have l3' : ¬ (without (without b n1 n2) n3 n4).Linked n1 n4 := by
    rw [without_linked, without_linked]
    exact fun hh => l3 hh.1.1
  rw [addLink_eq ok2 0 l3']
  have r1 := linked_range h l1
  have r2 := linked_range h l2
  have ok3 := withLink_ok ok2 (i := n1) (j := n4) r1.1 r2.2 0 l3'
  have l4' : ¬ (withLink (without (without b n1 n2) n3 n4) n1 n4 0).Linked n3 n2 := by
    rw [withLink_linked, without_linked, without_linked]
    rintro (hh | hh)
    · exact l4 hh.1.1
    · exact h13 hh.1.symm
  rw [addLink_eq ok3 0 l4']
  have ok4 := withLink_ok ok3 (i := n3) (j := n2) r2.1 r1.2 0 l4'
  refine ⟨_, rfl, ok4, rfl, rfl, ?_, ?_, ?_⟩
  · intro a
    have e1 := withLink_len1 (b := withLink (without (without b n1 n2) n3 n4) n1 n4 0) n3 n2 a 0
    have e2 := withLink_len1 (b := without (without b n1 n2) n3 n4) n1 n4 a 0
    have e3 := without_len1 ok1 l2' a
    have e4 := without_len1 h l1 a
    omega
  · intro a
    have e1 := withLink_len2 (b := withLink (without (without b n1 n2) n3 n4) n1 n4 0) n3 n2 a 0
    have e2 := withLink_len2 (b := without (without b n1 n2) n3 n4) n1 n4 a 0
    have e3 := without_len2 ok1 l2' a
    have e4 := without_len2 h l1 a
    omega
  · intro a c
    rw [withLink_linked, withLink_linked, without_linked, without_linked]
    simp only [ne_eq, Prod.mk.injEq]
    tauto

/-- Sizes and degrees as in `b0`. -/
structure Kept (b0 b : Bi) : Prop where
  ok : b.OK
  n1 : b.n1 = b0.n1
  n2 : b.n2 = b0.n2
  deg1 : ∀ a, (b.neig1 a).length = (b0.neig1 a).length
  deg2 : ∀ a, (b.neig2 a).length = (b0.neig2 a).length

theorem swapOnce_ok {b0 : Bi} {L : List (ℕ × ℕ)} {t : Tape} (hk : Kept b0 b) (hL : Listed b L) (h0 : 0 < L.length) :
    (swapOnce (b, L, t)).Holds fun s => Kept b0 s.1 ∧ Listed s.1 s.2.1 ∧ s.2.1.length = L.length := by
  unfold swapOnce
  dsimp only
  refine (pickSwap_holds hk.ok t none h0 (fun k h => by simp at h)).bind ?_
  rintro ⟨⟨t1, t2⟩, t'⟩ ⟨n1, n2, n3, n4, e1, e2, h13, h24, l3, l4⟩
  dsimp only at e1 e2 ⊢
  rw [e1, e2]
  dsimp only
  obtain ⟨d, hd, ok, m1, m2, d1, d2, hl⟩ := switch_ok hk.ok (hL.1 _ _ e1) (hL.1 _ _ e2) h13 l3 l4
  rw [hd]
  simp only [Res.ofOption_some, Res.bind_ok]
  refine ⟨⟨ok, m1.trans hk.n1, m2.trans hk.n2, fun a => (d1 a).trans (hk.deg1 a), fun a => (d2 a).trans (hk.deg2 a)⟩, ?_, by simp⟩
  have t12 : t1 ≠ t2 := by
    rintro rfl
    rw [e1] at e2
    exact h13 (Prod.mk.inj (Option.some.inj e2)).1
  have lt1 := (List.getElem?_eq_some_iff.1 e1).1
  have lt2 := (List.getElem?_eq_some_iff.1 e2).1
  have get : ∀ k : ℕ, ((L.set t1 (n1, n4)).set t2 (n3, n2))[k]? =
      if k = t2 then some (n3, n2) else if k = t1 then some (n1, n4) else L[k]? := by
    intro k
    rw [List.getElem?_set, List.getElem?_set, List.length_set]
    by_cases a2 : k = t2
    · subst a2; simp [lt2]
    · by_cases a1 : k = t1
      · subst a1; simp [lt1, a2, Ne.symm a2]
      · simp [a1, a2, Ne.symm a1, Ne.symm a2]
  have old : ∀ (k : ℕ) (p : ℕ × ℕ), k ≠ t1 → k ≠ t2 → L[k]? = some p → p ≠ (n1, n4) ∧ p ≠ (n3, n2) ∧ p ≠ (n1, n2) ∧ p ≠ (n3, n4) := by
    intro k p a1 a2 hp
    have := hL.1 _ _ hp
    refine ⟨?_, ?_, ?_, ?_⟩
    · rintro rfl; exact l3 this
    · rintro rfl; exact l4 this
    · rintro rfl; exact a1 (hL.2 _ _ _ hp e1)
    · rintro rfl; exact a2 (hL.2 _ _ _ hp e2)
  refine ⟨?_, ?_⟩
  · intro k p hp
    rw [get] at hp
    rw [hl]
    split_ifs at hp with a2 a1
    · exact Or.inr (Or.inr (Option.some.inj hp).symm)
    · exact Or.inr (Or.inl (Option.some.inj hp).symm)
    · obtain ⟨_, _, q3, q4⟩ := old k p a1 a2 hp
      exact Or.inl ⟨hL.1 _ _ hp, q3, q4⟩
  · intro k k' p hp hp'
    rw [get] at hp hp'
    split_ifs at hp with a2 a1
    · split_ifs at hp' with c2 c1
      · rw [a2, c2]
      · rw [← hp] at hp'
        exact absurd (Prod.mk.inj (Option.some.inj hp')).1 h13
      · exact absurd (Option.some.inj hp).symm (old k' p c1 c2 hp').2.1
    · split_ifs at hp' with c2 c1
      · rw [← hp'] at hp
        exact absurd (Prod.mk.inj (Option.some.inj hp)).1 h13
      · rw [a1, c1]
      · exact absurd (Option.some.inj hp).symm (old k' p c1 c2 hp').1
    · split_ifs at hp' with c2 c1
      · exact absurd (Option.some.inj hp').symm (old k p a1 a2 hp).2.1
      · exact absurd (Option.some.inj hp').symm (old k p a1 a2 hp).1
      · exact hL.2 _ _ _ hp hp'

theorem swapLoop_ok {b0 : Bi} : ∀ (k : ℕ) (b : Bi) (L : List (ℕ × ℕ)) (t : Tape), Kept b0 b → Listed b L → (k = 0 ∨ 0 < L.length) →
    (swapLoop k (b, L, t)).Holds fun s => Kept b0 s.1
  | 0, b, L, t, hk, _, _ => hk
  | k + 1, b, L, t, hk, hL, h0 => by
    have h0 := h0.resolve_left (by omega)
    unfold swapLoop
    refine (swapOnce_ok hk hL h0).bind ?_
    rintro ⟨b', L', t'⟩ ⟨hk', hL', hlen⟩
    exact swapLoop_ok k b' L' t' hk' hL' (Or.inr (by dsimp only at hlen; omega))

theorem linkList_length (b : Bi) : ((linkList b).length : Int) = NLinksBipart b := by
  unfold linkList NLinksBipart
  generalize b.n1 = k
  induction k with
  | zero => rfl
  | succ k ih =>
    rw [List.range_succ, List.flatMap_append, List.foldl_append, List.length_append]
    push_cast
    rw [ih]
    simp

/-- **C36**: `RandomizeBipart` keeps, for every number of iterations and every stream of random numbers, the degree of
every node on both sides; both ends of every link agree afterwards and no link is repeated; nothing undefined
happens. -/
theorem C36_degrees (h : b.OK) (times : ℚ) (t : Tape) : (RandomizeBipart b times t).Holds fun r => Kept b r.1 := by
  unfold RandomizeBipart
  have := swapLoop_ok (b0 := b) ⌈times * (NLinksBipart b : ℚ)⌉.toNat b (linkList b) t ⟨h, rfl, rfl, fun _ => rfl, fun _ => rfl⟩
    (linkList_listed h) (by
      rcases Nat.eq_zero_or_pos (linkList b).length with hz | hz
      · left
        have e := linkList_length b
        rw [hz] at e
        rw [← e]; simp
      · exact Or.inr hz)
  refine this.bind ?_
  intro r hr
  exact hr

theorem pickSwap_forever {L : List (ℕ × ℕ)} (hall : ∀ p ∈ L, ∀ q ∈ L, p.1 ≠ q.1 → p.2 ≠ q.2 → b.Linked p.1 q.2) :
    ∀ (t : Tape) (t1 : Option ℕ), 0 < L.length → (∀ k, t1 = some k → k < L.length) → pickSwap b L t1 t = .starved
  | [], t1, _, _ => by cases t1 <;> rfl
  | u :: t, none, hL, _ => by
    unfold pickSwap
    by_cases hu : 0 ≤ u ∧ u < 1
    · have hlt := floor_lt hu.2 hL
      rw [if_pos hu, if_pos hlt]
      exact pickSwap_forever hall t _ hL fun k hk => by rw [← Option.some.inj hk]; exact hlt
    · rw [if_neg hu]
  | u :: t, some t1, hL, hk => by
    unfold pickSwap
    by_cases hu : 0 ≤ u ∧ u < 1
    · have hlt := floor_lt hu.2 hL
      have hk1 := hk t1 rfl
      rw [if_pos hu]
      generalize ⌊u * L.length⌋₊ = t2 at hlt ⊢
      have e1 : L[t1]? = some L[t1] := List.getElem?_eq_getElem hk1
      have e2 : L[t2]? = some L[t2] := List.getElem?_eq_getElem hlt
      have hh := hall _ (List.getElem_mem hk1) _ (List.getElem_mem hlt)
      generalize L[t1] = q1 at e1 hh
      generalize L[t2] = q2 at e2 hh
      obtain ⟨n1, n2⟩ := q1
      obtain ⟨n3, n4⟩ := q2
      rw [e1, e2]
      dsimp only at hh ⊢
      by_cases c1 : n1 = n3 ∨ n2 = n4
      · rw [if_pos c1]; exact pickSwap_forever hall t _ hL hk
      · rw [if_neg c1]
        push Not at c1
        rw [if_pos (Or.inl (isThere_map.2 (linked_map.1 (hh c1.1 c1.2))))]
        exact pickSwap_forever hall t _ hL fun k hk => by simp at hk
    · rw [if_neg hu]

/-- `RandomizeBipart` never returns when no switch is possible, for instance on a complete bipartite network or when all
links share a node, as soon as at least one iteration is asked for and there is a link. -/
theorem C36_never_returns (hall : ∀ i j i' j', b.Linked i j → b.Linked i' j' → i ≠ i' → j ≠ j' → b.Linked i j') {times : ℚ}
    (ht : 0 < times) (hl : 0 < NLinksBipart b) (t : Tape) : RandomizeBipart b times t = .starved := by
  unfold RandomizeBipart
  have hpos : 0 < ⌈times * (NLinksBipart b : ℚ)⌉.toNat := by
    rw [Int.lt_toNat, Nat.cast_zero, Int.ceil_pos]
    exact mul_pos ht (by exact_mod_cast hl)
  obtain ⟨k, hk⟩ : ∃ k, ⌈times * (NLinksBipart b : ℚ)⌉.toNat = k + 1 := ⟨_, (Nat.succ_pred_eq_of_pos hpos).symm⟩
  rw [hk]
  unfold swapLoop swapOnce
  have hlen : 0 < (linkList b).length := by
    have := linkList_length b
    omega
  have hmem : ∀ p ∈ linkList b, b.Linked p.1 p.2 := by
    intro p hp
    unfold linkList at hp
    rw [List.mem_flatMap] at hp
    obtain ⟨i, _, hm⟩ := hp
    obtain ⟨x, hx, rfl⟩ := List.mem_map.1 hm
    exact ⟨x.2, hx⟩
  rw [pickSwap_forever (fun p hp q hq h1 h2 => hall _ _ _ _ (hmem p hp) (hmem q hq) h1 h2) t none hlen (fun k h => by simp at h)]
  rfl

/-! ## Examples and counterexamples -/

/-- Two persons and two films: person 0 rated both, person 1 only film 1. -/
def small : Bi :=
  ⟨2, 2, fun i => match i with | 0 => [(0, 1), (1, 1 / 2)] | 1 => [(1, 1)] | _ => [],
    fun j => match j with | 0 => [(0, 1)] | 1 => [(0, 1 / 2), (1, 1)] | _ => []⟩

theorem small_ok : small.OK := by
  refine ⟨?_, ?_, ?_, ?_, ?_⟩
  · intro i; rcases i with _ | _ | i <;> simp [small]
  · intro i; rcases i with _ | _ | i <;> simp [small]
  · intro i x hx
    rcases i with _ | _ | i <;> simp [small] at hx ⊢ <;> (try rcases hx with rfl | rfl) <;> (try subst hx) <;> decide
  · intro i x hx
    rcases i with _ | _ | i <;> simp [small] at hx ⊢ <;> (try rcases hx with rfl | rfl) <;> (try subst hx) <;> decide
  · intro i j w
    rcases i with _ | _ | i <;> rcases j with _ | _ | j <;> simp [small]

example : BuildUnobservedSet small = some [(1, 0)] := by decide +kernel

example : (RemoveRatings small 1).map (fun d => [d.neig1 0, d.neig1 1, d.neig2 0, d.neig2 1]) =
    some [[(1, 1 / 2)], [], [], [(0, 1 / 2)]] := by decide +kernel

example : ((CopyBipart small).neig1 0, (CopyBipart small).neig2 1) = ([(0, 1), (1, 1 / 2)], [(0, 1 / 2), (1, 1)]) := by
  decide +kernel

example : (ProjectBipart small).neig 1 = [(0, 1)] := by decide +kernel

/-- The weighted projection does not have the sum of products as weight: the two persons share a film, the sum is
1/2, and they are not linked at all. -/
theorem C37_weighted_refuted : ∃ b : Bi, b.OK ∧ 0 < overlap b 0 1 ∧ (ProjectBipartWeighted b).link 0 1 = none := by
  refine ⟨small, small_ok, ?_, ?_⟩
  · decide +kernel
  · decide +kernel

/-- Two separate links. -/
def apart : Bi :=
  ⟨2, 2, fun i => match i with | 0 => [(0, 3)] | 1 => [(1, 4)] | _ => [],
    fun j => match j with | 0 => [(0, 3)] | 1 => [(1, 4)] | _ => []⟩

theorem apart_ok : apart.OK := by
  refine ⟨?_, ?_, ?_, ?_, ?_⟩
  · intro i; rcases i with _ | _ | i <;> simp [apart]
  · intro i; rcases i with _ | _ | i <;> simp [apart]
  · intro i x hx
    rcases i with _ | _ | i <;> simp [apart] at hx ⊢ <;> (try subst hx) <;> decide
  · intro i x hx
    rcases i with _ | _ | i <;> simp [apart] at hx ⊢ <;> (try subst hx) <;> decide
  · intro i j w
    rcases i with _ | _ | i <;> rcases j with _ | _ | j <;> simp [apart]

/-- The links of node 0 in the result. -/
def rowOf : Res (Bi × Tape) → Option (List (ℕ × ℚ))
  | .ok r => some (r.1.neig1 0)
  | _ => none

/-- The weights of switched links are lost: they become 0. -/
theorem C36_weights_lost : apart.OK ∧ rowOf (RandomizeBipart apart (1 / 2) [0, 1 / 2]) = some [(1, 0)] := by
  refine ⟨apart_ok, ?_⟩
  decide +kernel

end BP
