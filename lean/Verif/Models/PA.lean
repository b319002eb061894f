import Verif.Models.Props

/-! # C59: preferential attachment -/

set_option linter.unusedSimpArgs false

namespace MD

open GR RG

instance : LawfulMonad Res := LawfulMonad.mk' _
  (id_map := fun x => by cases x <;> rfl)
  (pure_bind := fun _ _ => rfl)
  (bind_assoc := fun x _ _ => by cases x <;> rfl)

/-- Number of older nodes that node `v` is linked to. -/
noncomputable def older (E : ℕ → ℕ → Prop) (v : ℕ) : ℕ := by
  classical exact ((Finset.range v).filter fun j => E v j).card

/-- The list of choices, two cells for each. -/
def flat (ps : List (ℕ × ℕ)) : List ℕ := ps.flatMap fun p => [p.1, p.2]

/-- State with `n` nodes, links `E` and choices `ps`. -/
structure PInv (n : ℕ) (E : ℕ → ℕ → Prop) (ps : List (ℕ × ℕ)) (s : PA) : Prop where
  n_eq : s.net.n = n
  lab : ∀ i < n, s.net.label i = numLabel i
  rep : Rep s.net (wg E)
  sym : ∀ a b, E a b → E b a
  irr : ∀ a, ¬ E a a
  supp : ∀ a b, E a b → a < n ∧ b < n
  list : s.list = flat ps
  mem : ∀ p ∈ ps, p.1 < n ∧ p.2 < n

theorem flat_length (ps : List (ℕ × ℕ)) : (flat ps).length = 2 * ps.length := by
  induction ps with
  | nil => rfl
  | cons p ps ih => simp only [flat, List.flatMap_cons, List.length_append] at ih ⊢; simp [ih]; omega

theorem flat_mem {ps : List (ℕ × ℕ)} {x : ℕ} (h : x ∈ flat ps) : ∃ p ∈ ps, x = p.1 ∨ x = p.2 := by
  simp only [flat, List.mem_flatMap] at h
  obtain ⟨p, hp, hx⟩ := h
  exact ⟨p, hp, by simpa using hx⟩

/-- The links after a choice. -/
def ext (E : ℕ → ℕ → Prop) (i j : ℕ) : ℕ → ℕ → Prop := fun a b => E a b ∨ (i ≠ j ∧ ((a = i ∧ b = j) ∨ (a = j ∧ b = i)))

theorem paLink_ok {n cap : ℕ} {E : ℕ → ℕ → Prop} {ps : List (ℕ × ℕ)} {s : PA} (h : PInv n E ps s) {i j : ℕ} (hi : i < n)
    (hj : j < n) (hc : 2 * (ps.length + 1) ≤ cap) :
    ∃ s', paLink cap i j s = .ok s' ∧ PInv n (ext E i j) (ps ++ [(i, j)]) s' := by
  unfold paLink
  rw [if_pos (by rw [h.list, flat_length]; omega)]
  refine ⟨_, rfl, ?_⟩
  have hlist : s.list ++ [i, j] = flat (ps ++ [(i, j)]) := by rw [h.list]; simp [flat]
  have hmem : ∀ p ∈ ps ++ [(i, j)], p.1 < n ∧ p.2 < n := by
    intro p hp
    rcases List.mem_append.1 hp with hp | hp
    · exact h.mem p hp
    · rw [List.mem_singleton] at hp; subst hp; exact ⟨hi, hj⟩
  have hsym : ∀ a b, ext E i j a b → ext E i j b a := by
    rintro a b (hE | ⟨h1, h2⟩)
    · exact Or.inl (h.sym a b hE)
    · exact Or.inr ⟨h1, by tauto⟩
  have hirr : ∀ a, ¬ ext E i j a a := by
    rintro a (hE | ⟨h1, h2⟩)
    · exact h.irr a hE
    · rcases h2 with ⟨rfl, h3⟩ | ⟨rfl, h3⟩
      · exact h1 h3
      · exact h1 h3.symm
  have hsupp : ∀ a b, ext E i j a b → a < n ∧ b < n := by
    rintro a b (hE | ⟨h1, h2⟩)
    · exact h.supp a b hE
    · rcases h2 with ⟨rfl, rfl⟩ | ⟨rfl, rfl⟩
      · exact ⟨hi, hj⟩
      · exact ⟨hj, hi⟩
  by_cases e : i = j
  · subst e
    have he : wg (ext E i i) = wg E := wg_congr fun a b => by simp [ext]
    refine ⟨?_, ?_, ?_, hsym, hirr, hsupp, hlist, hmem⟩
    · simp only [linkBoth_self]; exact h.n_eq
    · simp only [linkBoth_self]; exact h.lab
    · simp only [linkBoth_self, he]; exact h.rep
  · obtain ⟨b1, b2, b3⟩ := linkBoth_wg h.rep (by rw [h.n_eq]; exact hi) (by rw [h.n_eq]; exact hj) e
    refine ⟨b1.trans h.n_eq, ?_, ?_, hsym, hirr, hsupp, hlist, hmem⟩
    · simp only [b2]; exact h.lab
    · simp only
      convert b3 using 1
      exact wg_congr fun a b => by simp [ext, e]

theorem create_ok {n : ℕ} {E : ℕ → ℕ → Prop} {ps : List (ℕ × ℕ)} {s : PA} (h : PInv n E ps s) (hn : n < 2147483647) :
    ∃ net', CreateNodeGraph s.net (numLabel n) = some (n, net') ∧ PInv (n + 1) E ps { s with net := net' } := by
  obtain ⟨net', h1, h2, h3, h4⟩ := create_wg h.rep (by rw [h.n_eq]; exact h.supp) (numLabel_fits hn)
  rw [h.n_eq] at h1 h2 h3
  refine ⟨net', h1, h2, ?_, h4, h.sym, h.irr, ?_, h.list, ?_⟩
  · intro i hi
    simp only [h3]
    by_cases e : i = n
    · subst e; simp
    · rw [Function.update_of_ne e]; exact h.lab i (by omega)
  · intro a b hab
    have := h.supp a b hab
    omega
  · intro p hp
    have := h.mem p hp
    omega

theorem PInv.congr {n : ℕ} {E E' : ℕ → ℕ → Prop} {ps : List (ℕ × ℕ)} {s : PA} (h : PInv n E ps s)
    (he : ∀ a b, E a b ↔ E' a b) : PInv n E' ps s := by
  have : E = E' := by funext a b; exact propext (he a b)
  exact this ▸ h

/-! ## The complete graph at the start -/

theorem startInner {i cap : ℕ} {s : PA} {ps : List (ℕ × ℕ)} (h : PInv (i + 1) (fun a b => a ≠ b ∧ a < i ∧ b < i) ps s) (k : ℕ)
    (hk : k ≤ i) (hc : 2 * (ps.length + k) ≤ cap) (hp : ∀ v, ps.count (v, v) = 0) :
    ∃ s' ps', (List.range k).foldlM (fun s j => paLink cap i j s) s = .ok s' ∧ ps'.length = ps.length + k ∧
      (∀ v, ps'.count (v, v) = 0) ∧
      PInv (i + 1) (fun a b => a ≠ b ∧ ((a < i ∧ b < i) ∨ (a = i ∧ b < k) ∨ (b = i ∧ a < k))) ps' s' := by
  induction k with
  | zero => exact ⟨s, ps, rfl, rfl, hp, h.congr fun a b => by simp⟩
  | succ k ih =>
    obtain ⟨s', ps', h1, h2, h3, h4⟩ := ih (by omega) (by omega)
    obtain ⟨s'', k1, k2⟩ := paLink_ok (cap := cap) h4 (i := i) (j := k) (by omega) (by omega) (by omega)
    refine ⟨s'', ps' ++ [(i, k)], ?_, by simp [h2]; omega, ?_, k2.congr fun a b => ?_⟩
    · rw [List.range_succ, List.foldlM_append, h1]
      simp [k1]
    · intro v
      rw [List.count_append, h3, List.count_singleton]
      simp; omega
    · simp only [ext]
      omega

theorem paStart_prefix {S m : ℕ} (hm : S ≤ 2147483647) (k : ℕ) (hkS : k ≤ S) (hkm : k ≤ m) :
    ∃ s ps, (List.range k).foldlM (fun s i =>
      if i < S then do
        let r ← Res.ofOption (CreateNodeGraph s.net (numLabel i))
        (List.range i).foldlM (fun s j => paLink (2 * S * m) i j s) { s with net := r.2 }
      else .ub) (PA.mk CreateHeaderGraph []) = Res.ok s ∧ 2 * ps.length = k * (k - 1) ∧ (∀ v, ps.count (v, v) = 0) ∧
      PInv k (fun a b => a ≠ b ∧ a < k ∧ b < k) ps s := by
  induction k with
  | zero =>
    refine ⟨_, [], rfl, rfl, by simp, ?_⟩
    have hw : (wg fun _ _ => False) = wg fun a b => a ≠ b ∧ a < 0 ∧ b < 0 := wg_congr fun a b => by simp
    exact ⟨rfl, fun i hi => absurd hi (Nat.not_lt_zero i),
      hw ▸ rep_header, by simp, by simp, by simp, rfl, by simp⟩
  | succ k ih =>
    obtain ⟨s, ps, h1, h2, h3, h4⟩ := ih (by omega) (by omega)
    obtain ⟨net', c1, c2⟩ := create_ok h4 (by omega)
    have hk1 : (k + 1) * k = k * (k - 1) + 2 * k := by
      cases k with
      | zero => rfl
      | succ n => simp; ring
    have hcap : (k + 1) * k ≤ 2 * S * m := by
      have : (k + 1) * k ≤ S * m := Nat.mul_le_mul hkS (by omega)
      have e : 2 * S * m = 2 * (S * m) := by ring
      omega
    obtain ⟨s', ps', d1, d2, d3, d4⟩ := startInner (cap := 2 * S * m) c2 k le_rfl (by omega) h3
    refine ⟨s', ps', ?_, by rw [Nat.add_sub_cancel]; omega, d3, d4.congr fun a b => by omega⟩
    rw [List.range_succ, List.foldlM_append, h1]
    simp only [Res.bind_ok, List.foldlM_cons, List.foldlM_nil]
    rw [if_pos (by omega), c1]
    simp only [Res.ofOption_some, Res.bind_ok]
    simp only [d1, Res.bind_ok, Res.pure_eq]

/-! ## Growth -/

theorem isThere_wg {net : Net} {E : ℕ → ℕ → Prop} (h : Rep net (wg E)) {i : ℕ} (hi : i < net.n) (j : ℕ) :
    IsThereLink net i j = true ↔ E i j := by
  rw [isLink_eq h.1 hi]
  unfold wg
  by_cases e : E i j <;> simp [e]

theorem older_congr {E E' : ℕ → ℕ → Prop} {v : ℕ} (h : ∀ j < v, (E v j ↔ E' v j)) : older E v = older E' v := by
  classical
  unfold older
  congr 1
  apply Finset.filter_congr
  intro j hj
  exact h j (Finset.mem_range.1 hj)

theorem older_ext {E : ℕ → ℕ → Prop} {i j : ℕ} (hj : j < i) (h : ¬ E i j) : older (ext E i j) i = older E i + 1 := by
  classical
  unfold older
  have : (Finset.range i).filter (fun x => ext E i j i x) = insert j ((Finset.range i).filter fun x => E i x) := by
    ext x
    simp only [Finset.mem_filter, Finset.mem_range, Finset.mem_insert, MD.ext]
    constructor
    · rintro ⟨h1, h2 | ⟨h3, h4⟩⟩
      · exact Or.inr ⟨h1, h2⟩
      · rcases h4 with ⟨_, h5⟩ | ⟨h5, _⟩
        · exact Or.inl h5
        · omega
    · rintro (rfl | ⟨h1, h2⟩)
      · exact ⟨hj, Or.inr ⟨by omega, by simp⟩⟩
      · exact ⟨h1, Or.inl h2⟩
  rw [this, Finset.card_insert_of_notMem (by simp [h])]

/-- While node `i` chooses: links between older nodes do not change, `k` choices made. -/
structure Grow (i k : ℕ) (E0 : ℕ → ℕ → Prop) (ps0 : List (ℕ × ℕ)) (E : ℕ → ℕ → Prop) (ps : List (ℕ × ℕ)) (s : PA) : Prop where
  inv : PInv (i + 1) E ps s
  old : ∀ a b, a < i → b < i → (E a b ↔ E0 a b)
  len : ps.length = ps0.length + k
  cnt : older E i + ps.count (i, i) = k
  oth : ∀ v < i, ps.count (v, v) = ps0.count (v, v)
  fst : k = 0 → ∀ p ∈ ps, p.1 < i ∧ p.2 < i
  pos : 0 < k → 0 < older E i

theorem paCell_lt {l : List ℕ} {n : ℕ} (h : ∀ x ∈ l, x < n) (hn : 0 < n) (u : ℚ) : paCell l u < n := by
  unfold paCell
  rw [List.getD_eq_getElem?_getD]
  cases hx : l[⌊u * l.length⌋₊]? with
  | none => simpa using hn
  | some x => exact h x (List.mem_of_getElem? hx)

theorem paLinks_holds {i cap : ℕ} (hi : 0 < i) {E0 : ℕ → ℕ → Prop} {ps0 : List (ℕ × ℕ)} :
    ∀ (todo k : ℕ) {E : ℕ → ℕ → Prop} {ps : List (ℕ × ℕ)} {s : PA} {t : Tape}, Grow i k E0 ps0 E ps s →
      2 * (ps0.length + (k + todo)) ≤ cap →
      (paLinks cap i todo s t).Holds fun r => ∃ E ps, Grow i (k + todo) E0 ps0 E ps r.1
  | 0, k, E, ps, s, t, h, _ => ⟨E, ps, h⟩
  | todo + 1, k, E, ps, s, t, h, hc => by
    unfold paLinks
    rw [if_neg (by omega)]
    have hlt : ∀ u : ℚ, 0 ≤ u → u < 1 → paCell s.list u < i + 1 ∧ (k = 0 → paCell s.list u < i) := by
      intro u _ _
      constructor
      · apply paCell_lt _ (by omega)
        intro x hx
        rw [h.inv.list] at hx
        obtain ⟨p, hp, e⟩ := flat_mem hx
        have := h.inv.mem p hp
        omega
      · intro hk
        apply paCell_lt _ hi
        intro x hx
        rw [h.inv.list] at hx
        obtain ⟨p, hp, e⟩ := flat_mem hx
        have := h.fst hk p hp
        omega
    refine Res.Holds.bind (redraw_holds (P := fun j => j < i + 1 ∧ (k = 0 → j < i)) hlt t) ?_
    rintro ⟨j, t'⟩ ⟨⟨hj, hj0⟩, hbad⟩
    simp only at hj hj0 hbad
    obtain ⟨s', p1, p2⟩ := paLink_ok (cap := cap) h.inv (i := i) (j := j) (by omega) hj (by rw [h.len]; omega)
    simp only [p1, Res.bind_ok]
    have hE : ¬ E i j := by
      rw [← isThere_wg h.inv.rep (by rw [h.inv.n_eq]; omega) j, hbad]
      simp
    have hg : Grow i (k + 1) E0 ps0 (ext E i j) (ps ++ [(i, j)]) s' := by
      refine ⟨p2, ?_, by simp [h.len]; omega, ?_, ?_, fun h0 => absurd h0 (Nat.succ_ne_zero k), ?_⟩
      · intro a b ha hb
        rw [← h.old a b ha hb]
        unfold ext
        constructor
        · rintro (h1 | h1)
          · exact h1
          · omega
        · exact Or.inl
      · by_cases e : j = i
        · subst e
          rw [older_congr (E' := E) (by intro x _; simp [ext]), List.count_append, List.count_singleton]
          simp
          have := h.cnt
          omega
        · rw [older_ext (by omega) hE, List.count_append, List.count_singleton]
          have := h.cnt
          simp [e]
          omega
      · intro v hv
        rw [List.count_append, h.oth v hv, List.count_singleton]
        simp; omega
      · intro _
        by_cases e : j = i
        · have hk : k ≠ 0 := fun h0 => by have := hj0 h0; omega
          subst e
          rw [older_congr (E' := E) (by intro x _; simp [ext])]
          exact h.pos (by omega)
        · rw [older_ext (by omega) hE]
          omega
    have := paLinks_holds (cap := cap) hi todo (k + 1) (t := t') hg (by omega)
    rw [show k + 1 + todo = k + (todo + 1) by omega] at this
    exact this

/-- The network with `n` nodes, `m` of them at the start. -/
structure Grown (m n : ℕ) (E : ℕ → ℕ → Prop) (ps : List (ℕ × ℕ)) (s : PA) : Prop where
  inv : PInv n E ps s
  core : ∀ a b, a < m → b < m → (E a b ↔ a ≠ b)
  len : 2 * ps.length = m * (m - 1) + 2 * (m * (n - m))
  cnt : ∀ v, m ≤ v → v < n → older E v + ps.count (v, v) = m
  pos : ∀ v, m ≤ v → v < n → 0 < older E v

theorem count_zero {n : ℕ} {E : ℕ → ℕ → Prop} {ps : List (ℕ × ℕ)} {s : PA} (h : PInv n E ps s) : ps.count (n, n) = 0 := by
  rw [List.count_eq_zero]
  intro hm
  have := (h.mem _ hm).1
  simp at this

theorem paGrow_holds {S m : ℕ} (hm : 0 < m) (hmS : m ≤ S) (hS : S ≤ 2147483647) :
    ∀ (d n : ℕ) {E : ℕ → ℕ → Prop} {ps : List (ℕ × ℕ)} {s : PA} {t : Tape}, n + d = S → m ≤ n → Grown m n E ps s →
      (paGrow m (2 * S * m) (List.range' n d) s t).Holds fun r => ∃ E ps, Grown m S E ps r.1
  | 0, n, E, ps, s, t, hn, _, h => by
    have : n = S := by omega
    subst this
    exact ⟨E, ps, h⟩
  | d + 1, n, E, ps, s, t, hn, hmn, h => by
    rw [List.range'_succ]
    unfold paGrow
    obtain ⟨net', c1, c2⟩ := create_ok h.inv (by omega)
    rw [c1]
    simp only [Res.ofOption_some, Res.bind_ok]
    have hold : older E n = 0 := by
      classical
      unfold older
      rw [Finset.card_eq_zero, Finset.filter_eq_empty_iff]
      intro j _ hE
      have := (h.inv.supp _ _ hE).1
      omega
    have hg : Grow n 0 E ps E ps { s with net := net' } :=
      ⟨c2, fun _ _ _ _ => Iff.rfl, by simp, by rw [hold, count_zero h.inv], fun _ _ => rfl, fun _ => h.inv.mem, by simp⟩
    have hcap : 2 * (ps.length + (0 + m)) ≤ 2 * S * m := by
      have h1 := h.len
      have h2 : m * (m - 1) ≤ m * m := Nat.mul_le_mul_left m (by omega)
      have h3 : m * m + m * (n - m) = m * n := by rw [← Nat.mul_add]; congr 1; omega
      have h4 : m * n + m ≤ m * S := by
        have : m * (n + 1) ≤ m * S := Nat.mul_le_mul_left m (by omega)
        rw [Nat.mul_add] at this; omega
      have h5 : 2 * S * m = 2 * (m * S) := by ring
      have h6 : m * m + 2 * (m * (n - m)) ≤ 2 * (m * n) := by omega
      omega
    refine Res.Holds.bind (paLinks_holds (by omega) m 0 hg hcap) ?_
    rintro ⟨s', t'⟩ ⟨E', ps', g⟩
    simp only at g ⊢
    apply paGrow_holds hm hmS hS d (n + 1) (by omega) (by omega) (E := E') (ps := ps')
    refine ⟨g.inv, ?_, ?_, ?_, ?_⟩
    · intro a b ha hb
      rw [g.old a b (by omega) (by omega)]
      exact h.core a b ha hb
    · have h1 := h.len
      have h2 := g.len
      have h3 : m * (n + 1 - m) = m * (n - m) + m := by
        rw [show n + 1 - m = n - m + 1 by omega, Nat.mul_add]; omega
      omega
    · intro v h1 h2
      by_cases e : v = n
      · subst e
        have := g.cnt
        omega
      · rw [older_congr (E' := E) fun j hj => g.old v j (by omega) (by omega), g.oth v (by omega)]
        exact h.cnt v h1 (by omega)
    · intro v h1 h2
      by_cases e : v = n
      · subst e
        exact g.pos (by omega)
      · rw [older_congr (E' := E) fun j hj => g.old v j (by omega) (by omega)]
        exact h.pos v h1 (by omega)

/-- **C59**: what `PAGraph` guarantees for `1 ≤ m ≤ S`, whatever the random numbers: it stays in its buffers, the result is a simple
undirected network of `S` nodes labelled `1 … S` whose first `m` nodes are completely linked, and every later node has links to at
least one and at most `m` older nodes: `m` less the number of times it chose itself, which `paList` shows.

The property asks for `m` links of every later node; that is true for `m = 1` (`C59_tree`) and false for `m = 2`
(`C59_missing_links`). -/
theorem C59_pa_partial {S m : ℕ} (hm : 0 < m) (hmS : m ≤ S) (hS : S ≤ 2147483647) (t : Tape) :
    (PAGraph S m t).Holds fun r => ∃ (E : ℕ → ℕ → Prop) (ps : List (ℕ × ℕ)), r.1.net.n = S ∧
      (∀ i < S, r.1.net.label i = toString (i + 1)) ∧ Holds r.1.net (wg E) ∧ CachesOK r.1.net ∧ SymSimple S (wg E) ∧
      (∀ a b, a < m → b < m → a ≠ b → E a b) ∧ r.1.list = flat ps ∧
      ∀ v, m ≤ v → v < S → older E v + ps.count (v, v) = m ∧ 0 < older E v := by
  unfold PAGraph paStart
  obtain ⟨s, ps, h1, h2, h3, h4⟩ := paStart_prefix hS m hmS le_rfl
  rw [h1, Res.bind_ok]
  refine (paGrow_holds hm hmS hS (S - m) m (t := t) (by omega) le_rfl (E := fun a b => a ≠ b ∧ a < m ∧ b < m) (ps := ps)
    ⟨h4, fun a b ha hb => by simp [ha, hb], by simp [h2], fun v a b => by omega, fun v a b => by omega⟩).mono ?_
  rintro ⟨s', t'⟩ ⟨E, ps', g⟩
  refine ⟨E, ps', g.inv.n_eq, g.inv.lab, g.inv.rep.1, g.inv.rep.2, ⟨?_, ?_, ?_⟩, ?_, g.inv.list, ?_⟩
  · intro a b
    unfold wg
    by_cases e : E a b
    · rw [if_pos e, if_pos (g.inv.sym _ _ e)]
    · rw [if_neg e, if_neg fun e' => e (g.inv.sym _ _ e')]
  · intro a
    unfold wg
    rw [if_neg (g.inv.irr a)]
  · intro a b h
    unfold wg at h
    by_cases e : E a b
    · exact g.inv.supp a b e
    · rw [if_neg e] at h; cases h
  · intro a b ha hb hab
    exact (g.core a b ha hb).2 hab
  · intro v a b
    exact ⟨g.cnt v a b, g.pos v a b⟩

/-- **C59** for `m = 1`: every node but the first has exactly one link to an older node; the network is a tree. -/
theorem C59_tree {S : ℕ} (h0 : 0 < S) (hS : S ≤ 2147483647) (t : Tape) :
    (PAGraph S 1 t).Holds fun r => ∃ E : ℕ → ℕ → Prop, r.1.net.n = S ∧ Holds r.1.net (wg E) ∧ SymSimple S (wg E) ∧
      ∀ v, 0 < v → v < S → ∃! j, j < v ∧ E v j := by
  refine (C59_pa_partial (m := 1) (by omega) h0 hS t).mono ?_
  rintro r ⟨E, ps, h1, _, h3, _, h5, _, _, h8⟩
  refine ⟨E, h1, h3, h5, ?_⟩
  intro v hv hvS
  have := h8 v hv hvS
  have hc : older E v = 1 := by omega
  classical
  unfold older at hc
  obtain ⟨j, hj⟩ := Finset.card_eq_one.1 hc
  refine ⟨j, ?_, ?_⟩
  · have : j ∈ (Finset.range v).filter fun j => E v j := by rw [hj]; simp
    simpa using this
  · rintro x ⟨hx1, hx2⟩
    have : x ∈ (Finset.range v).filter fun j => E v j := by simp [hx1, hx2]
    rw [hj] at this
    simpa using this

/-- **C59, refutation**: the third node of `PAGraph(3, 2)` may choose itself, and is left with one link. -/
theorem C59_missing_links : Good [0, 1/2] ∧
    (match PAGraph 3 2 [0, 1/2] with
      | .ok r => (r.1.net.n, (r.1.net.neig 2).map Link.ref, r.1.list)
      | _ => (0, [], [])) = (3, [some 1], [1, 0, 2, 1, 2, 2]) := by
  constructor
  · unfold Good
    decide +kernel
  · decide +kernel

/-- More nodes at the start than nodes: the array of nodes overflows. -/
theorem C59_too_few {S m : ℕ} (h : S < m) (hS : S ≤ 2147483647) (t : Tape) : PAGraph S m t = .ub := by
  obtain ⟨s, ps, h1, _⟩ := paStart_prefix (m := m) hS S le_rfl h.le
  have e : List.range m = List.range S ++ (S :: List.range' (S + 1) (m - (S + 1))) := by
    rw [List.range_eq_range', List.range_eq_range', ← List.range'_succ, show m - (S + 1) + 1 = m - S by omega]
    have := List.range'_append_1 (s := 0) (m := S) (n := m - S)
    rw [show (0 : ℕ) + S = S by omega] at this
    rw [this, show S + (m - S) = m by omega]
  unfold PAGraph paStart
  rw [e, List.foldlM_append, h1]
  simp only [Res.bind_ok, List.foldlM_cons, lt_irrefl, if_false, Res.bind_ub]

end MD
