import Verif.BFS.AssortProps

/-!
# C78: transitivity
-/

set_option linter.unusedSimpArgs false

namespace BFS

variable {adj : ℕ → List ℕ} {n : ℕ}

theorem tripletSum_eq (h : Simple adj n) : ∀ (ps : List ℕ), (∀ p ∈ ps, p < n) →
    ∀ (t c : ℕ), t ≤ c → c ≤ 2147483647 → tripletSum adj n ps (t, c) =
      if c + (ps.map fun p => (adj p).length * ((adj p).length - 1)).sum ≤ 2147483647 then
        some (t + (ps.map fun p => 2 * linksAmong adj p).sum,
          c + (ps.map fun p => (adj p).length * ((adj p).length - 1)).sum)
      else none
  | [], _, t, c, _, hc => by simp [tripletSum, hc]
  | p :: ps, hps, t, c, htc, hc => by
    obtain ⟨l, st, hn, hp, hs⟩ := neighbours_spec h (hps p (by simp))
    have hk : l.length = (adj p).length := by simpa [nodes] using hp.length_eq
    have hlk := linksAmong_le h p
    have ih := tripletSum_eq h ps fun q hq => hps q (by simp [hq])
    unfold tripletSum
    rw [hn]
    simp only [Option.bind_eq_bind, Option.bind_some, hk, List.map_cons, List.sum_cons]
    by_cases h1 : 1 < (adj p).length
    · rw [if_pos h1, links_between h hp hs]
      by_cases h2 : c + (adj p).length * ((adj p).length - 1) ≤ 2147483647
      · rw [i32_some (by omega)]
        simp only [Option.bind_some]
        rw [i32_some (by omega)]
        simp only [Option.bind_some]
        rw [i32_some h2]
        simp only [Option.bind_some]
        rw [ih _ _ (by omega) h2]
        simp only [Nat.add_assoc]
      · rw [if_neg (by omega), Option.eq_none_iff_forall_ne_some]
        intro b hb
        simp only [Option.bind_eq_some_iff, i32_iff] at hb
        obtain ⟨_, ⟨_, rfl⟩, _, ⟨_, rfl⟩, _, ⟨h8, rfl⟩, _⟩ := hb
        exact h2 h8
    · rw [if_neg h1, ih _ _ htc hc]
      have e1 : (adj p).length * ((adj p).length - 1) = 0 := by
        have : (adj p).length - 1 = 0 := by omega
        rw [this, Nat.mul_zero]
      have e2 : 2 * linksAmong adj p = 0 := by omega
      rw [e1, e2]
      simp only [Nat.zero_add]

/-! ## Counting triangles and triples -/

theorem triples_card (h : Simple adj n) :
    (triples adj n).card = ∑ p ∈ Finset.range n, (adj p).length.choose 2 := by
  have e : triples adj n = ((Finset.range n).sigma (fun p => ((nbr adj p) ×ˢ (nbr adj p)).filter
      fun x : ℕ × ℕ => x.1 < x.2)).map ⟨fun x => (x.1, x.2), fun a b e => by
        obtain ⟨a1, a2⟩ := a; obtain ⟨b1, b2⟩ := b; simp at e ⊢; exact e⟩ := by
    ext ⟨p, a, b⟩
    simp only [triples, Finset.mem_filter, Finset.mem_product, Finset.mem_range, Finset.mem_map,
      Finset.mem_sigma, nbr, List.mem_toFinset, Function.Embedding.coeFn_mk, Sigma.exists, Prod.mk.injEq]
    constructor
    · rintro ⟨⟨hp, _, _⟩, ha, hb, hab⟩
      exact ⟨p, (a, b), ⟨hp, ⟨ha, hb⟩, hab⟩, rfl⟩
    · rintro ⟨p', ⟨a', b'⟩, ⟨hp, ⟨ha, hb⟩, hab⟩, e⟩
      cases e
      exact ⟨⟨hp, h.range _ hp _ ha, h.range _ hp _ hb⟩, ha, hb, hab⟩
  rw [e, Finset.card_map, Finset.card_sigma]
  apply Finset.sum_congr rfl
  intro p _
  rw [← nbr_card h p]
  generalize nbr adj p = S
  have h1 : (S ×ˢ S).card = ((S ×ˢ S).filter fun x => x.1 < x.2).card +
      ((S ×ˢ S).filter fun x => x.2 < x.1).card + ((S ×ˢ S).filter fun x => x.1 = x.2).card := by
    rw [← Finset.card_union_of_disjoint, ← Finset.card_union_of_disjoint]
    · congr 1
      ext ⟨a, b⟩
      simp only [Finset.mem_union, Finset.mem_filter]
      have := lt_trichotomy a b
      tauto
    · rw [Finset.disjoint_left]; rintro ⟨a, b⟩ hx; simp only [Finset.mem_union, Finset.mem_filter] at hx ⊢; omega
    · rw [Finset.disjoint_left]; rintro ⟨a, b⟩ hx; simp only [Finset.mem_filter] at hx ⊢; omega
  have h2 : ((S ×ˢ S).filter fun x => x.2 < x.1).card = ((S ×ˢ S).filter fun x => x.1 < x.2).card := by
    apply Finset.card_bij (fun x _ => x.swap)
    · rintro ⟨a, b⟩ hx; simp only [Finset.mem_filter, Finset.mem_product, Prod.swap] at hx ⊢; tauto
    · intro a _ b _ e; exact Prod.swap_injective e
    · rintro ⟨a, b⟩ hx
      exact ⟨(b, a), by simp only [Finset.mem_filter, Finset.mem_product] at hx ⊢; tauto, rfl⟩
  have h3 : ((S ×ˢ S).filter fun x => x.1 = x.2).card = S.card := by
    apply Finset.card_bij (fun x _ => x.1)
    · rintro ⟨a, b⟩ hx; simp only [Finset.mem_filter, Finset.mem_product] at hx; exact hx.1.1
    · rintro ⟨a, b⟩ hx ⟨c, d⟩ hy e
      simp only [Finset.mem_filter, Finset.mem_product] at hx hy e
      rw [← hx.2, ← hy.2, e]
    · intro a ha; exact ⟨(a, a), by simp [ha], rfl⟩
  rw [h2, h3, Finset.card_product] at h1
  rw [Nat.choose_two_right]
  have : S.card * (S.card - 1) = 2 * ((S ×ˢ S).filter fun x => x.1 < x.2).card := by
    rw [Nat.mul_sub_one]; omega
  omega

theorem triangles_sum (h : Simple adj n) :
    ∑ p ∈ Finset.range n, linksAmong adj p = 3 * (triangles adj n).card := by
  -- ordered: a node and a link among its neighbours
  let T (r : ℕ → ℕ → ℕ → Prop) [∀ a b c, Decidable (r a b c)] : Finset (ℕ × ℕ × ℕ) :=
    (Finset.range n ×ˢ Finset.range n ×ˢ Finset.range n).filter fun x =>
      x.2.1 < x.2.2 ∧ x.2.1 ∈ adj x.1 ∧ x.2.2 ∈ adj x.2.1 ∧ x.2.2 ∈ adj x.1 ∧ r x.1 x.2.1 x.2.2
  have e0 : ∑ p ∈ Finset.range n, linksAmong adj p = (T fun _ _ _ => True).card := by
    have e : T (fun _ _ _ => True) = ((Finset.range n).sigma (fun p => ((nbr adj p) ×ˢ (nbr adj p)).filter
        fun x : ℕ × ℕ => x.1 < x.2 ∧ x.2 ∈ adj x.1)).map ⟨fun x => (x.1, x.2), fun a b e => by
          obtain ⟨a1, a2⟩ := a; obtain ⟨b1, b2⟩ := b; simp at e ⊢; exact e⟩ := by
      ext ⟨p, a, b⟩
      simp only [T, Finset.mem_filter, Finset.mem_product, Finset.mem_range, Finset.mem_map,
        Finset.mem_sigma, nbr, List.mem_toFinset, Function.Embedding.coeFn_mk, Sigma.exists, Prod.mk.injEq]
      constructor
      · rintro ⟨⟨hp, _, _⟩, hab, ha, hl, hb, _⟩
        exact ⟨p, (a, b), ⟨hp, ⟨ha, hb⟩, hab, hl⟩, rfl⟩
      · rintro ⟨p', ⟨a', b'⟩, ⟨hp, ⟨ha, hb⟩, hab, hl⟩, e⟩
        cases e
        exact ⟨⟨hp, h.range _ hp _ ha, h.range _ hp _ hb⟩, hab, ha, hl, hb, trivial⟩
    rw [e, Finset.card_map, Finset.card_sigma]
    rfl
  have e1 : (T fun _ _ _ => True).card = (T fun p a _ => p < a).card + (T fun p a b => a < p ∧ p < b).card
      + (T fun p _ b => b < p).card := by
    rw [← Finset.card_union_of_disjoint, ← Finset.card_union_of_disjoint]
    · congr 1
      ext ⟨p, a, b⟩
      simp only [T, Finset.mem_union, Finset.mem_filter]
      constructor
      · rintro ⟨hr, hab, ha, hl, hb, _⟩
        have : p ≠ a := fun e => h.irrefl _ (e ▸ ha)
        have : p ≠ b := fun e => h.irrefl _ (e ▸ hb)
        rcases Nat.lt_or_ge p a with h1 | h1
        · exact Or.inl (Or.inl ⟨hr, hab, ha, hl, hb, h1⟩)
        · rcases Nat.lt_or_ge p b with h2 | h2
          · exact Or.inl (Or.inr ⟨hr, hab, ha, hl, hb, by omega, h2⟩)
          · exact Or.inr ⟨hr, hab, ha, hl, hb, by omega⟩
      · rintro ((hx | hx) | hx) <;> exact ⟨hx.1, hx.2.1, hx.2.2.1, hx.2.2.2.1, hx.2.2.2.2.1, trivial⟩
    · rw [Finset.disjoint_left]
      rintro ⟨p, a, b⟩ hx
      simp only [T, Finset.mem_union, Finset.mem_filter] at hx ⊢
      omega
    · rw [Finset.disjoint_left]
      rintro ⟨p, a, b⟩ hx
      simp only [T, Finset.mem_filter] at hx ⊢
      omega
  have f1 : (T fun p a _ => p < a).card = (triangles adj n).card := by
    congr 1
    ext ⟨p, a, b⟩
    simp only [T, triangles, Finset.mem_filter]
    tauto
  have f2 : (T fun p a b => a < p ∧ p < b).card = (triangles adj n).card := by
    apply Finset.card_bij (fun x _ => (x.2.1, x.1, x.2.2))
    · rintro ⟨p, a, b⟩ hx
      simp only [T, triangles, Finset.mem_filter, Finset.mem_product] at hx ⊢
      obtain ⟨⟨r1, r2, r3⟩, hab, ha, hl, hb, h1, h2⟩ := hx
      exact ⟨⟨r2, r1, r3⟩, h1, h2, h.sym _ _ ha, hb, hl⟩
    · rintro ⟨p, a, b⟩ _ ⟨p', a', b'⟩ _ e
      simp only [Prod.mk.injEq] at e ⊢; tauto
    · rintro ⟨a, p, b⟩ hx
      simp only [T, triangles, Finset.mem_filter, Finset.mem_product] at hx ⊢
      obtain ⟨⟨r1, r2, r3⟩, h1, h2, ha, hb, hl⟩ := hx
      exact ⟨(p, a, b), ⟨⟨r2, r1, r3⟩, by simp only; omega, h.sym _ _ ha, hl, hb, h1, h2⟩, rfl⟩
  have f3 : (T fun p _ b => b < p).card = (triangles adj n).card := by
    apply Finset.card_bij (fun x _ => (x.2.1, x.2.2, x.1))
    · rintro ⟨p, a, b⟩ hx
      simp only [T, triangles, Finset.mem_filter, Finset.mem_product] at hx ⊢
      obtain ⟨⟨r1, r2, r3⟩, hab, ha, hl, hb, h1⟩ := hx
      exact ⟨⟨r2, r3, r1⟩, hab, h1, hl, h.sym _ _ hb, h.sym _ _ ha⟩
    · rintro ⟨p, a, b⟩ _ ⟨p', a', b'⟩ _ e
      simp only [Prod.mk.injEq] at e ⊢; tauto
    · rintro ⟨a, b, p⟩ hx
      simp only [T, triangles, Finset.mem_filter, Finset.mem_product] at hx ⊢
      obtain ⟨⟨r1, r2, r3⟩, h1, h2, hl, hb, ha⟩ := hx
      exact ⟨(p, a, b), ⟨⟨r3, r1, r2⟩, h1, h.sym _ _ ha, hl, h.sym _ _ hb, h2⟩, rfl⟩
  rw [e0, e1, f1, f2, f3]
  omega

/-- **C78**: for an undirected network without self links, `ClusteringCoefficient2` is three times the
number of triangles divided by the number of connected triples, a number from 0 to 1 (0/0 when there
is no connected triple), exactly when twice the number of connected triples fits an `int`; otherwise
the sum overflows. -/
theorem C78_transitivity (h : Simple adj n) :
    (2 * (triples adj n).card ≤ 2147483647 → ClusteringCoefficient2 adj n =
      some (if (triples adj n).card = 0 then none
        else some (3 * ((triangles adj n).card : ℚ) / (triples adj n).card))) ∧
    (2147483647 < 2 * (triples adj n).card → ClusteringCoefficient2 adj n = none) ∧
    3 * (triangles adj n).card ≤ (triples adj n).card := by
  have h1 : ((List.range n).map fun p => (adj p).length * ((adj p).length - 1)).sum =
      2 * (triples adj n).card := by
    rw [triples_card h, ← List.sum_toFinset _ List.nodup_range, List.toFinset_range, Finset.mul_sum]
    apply Finset.sum_congr rfl
    intro p _
    rw [Nat.choose_two_right, Nat.mul_div_cancel' (Nat.even_mul_pred_self _).two_dvd]
  have h2 : ((List.range n).map fun p => 2 * linksAmong adj p).sum = 2 * (3 * (triangles adj n).card) := by
    rw [← triangles_sum h, ← List.sum_toFinset _ List.nodup_range, List.toFinset_range, Finset.mul_sum]
  have run := tripletSum_eq h (List.range n) (by simp) 0 0 (by omega) (by omega)
  rw [h1, h2] at run
  simp only [Nat.zero_add] at run
  refine ⟨fun hc => ?_, fun hc => ?_, ?_⟩
  · unfold ClusteringCoefficient2
    rw [run, if_pos hc]
    simp only [Option.bind_eq_bind, Option.bind_some]
    by_cases h0 : (triples adj n).card = 0
    · simp [h0]
    · have : (2 * (triples adj n).card) ≠ 0 := by omega
      rw [if_neg this, if_neg h0]
      have hq : ((triples adj n).card : ℚ) ≠ 0 := by exact_mod_cast h0
      show some (some _) = _
      congr 2
      push_cast
      field_simp
  · unfold ClusteringCoefficient2
    rw [run, if_neg (by omega)]
    rfl
  · rw [← triangles_sum h, triples_card h]
    apply Finset.sum_le_sum
    intro p _
    have := linksAmong_le h p
    rw [Nat.choose_two_right]
    omega

example : ClusteringCoefficient2 tailed 4 = some (some (3 / 5)) := by decide +kernel
example : (triangles tailed 4).card = 1 ∧ (triples tailed 4).card = 5 := by decide
example : ClusteringCoefficient2 tailed 4 = some (some (3 * 1 / 5)) := by
  have := (C78_transitivity tailed_simple).1 (by decide)
  rw [this, show (triples tailed 4).card = 5 by decide, show (triangles tailed 4).card = 1 by decide]
  norm_num
example : ClusteringCoefficient2 (star 1) 2 = some none := by decide +kernel

end BFS
