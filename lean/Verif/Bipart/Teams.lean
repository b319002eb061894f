import Verif.Bipart.TeamsModel
import Verif.Bipart.Lemmas
import Verif.Bipart.Build

/-! # Random modular bipartite networks -/

set_option linter.unusedSimpArgs false

namespace BP

open RG

/-! ## Specification -/

/-- Agent `k` is in module `c` when the modules follow one another. -/
def InModule (sizes : List ℕ) (k c : ℕ) : Prop :=
  ∃ r s, sizes[c]? = some s ∧ r < s ∧ k = (sizes.take c).sum + r

/-- The members of team `i` that are in module `c`. -/
def ofModule (g : List ℕ) (b : Bi) (i c : ℕ) : ℕ := ((b.neig2 i).filter fun x => g[x.1]? = some c).length

/-- The probabilities of the colours, when given, are one for each module and reach 1. -/
def ColoursOK (a : GenArgs) (t : Tape) : Prop :=
  ∀ l, a.colProb = some l → l.length = a.sizes.length ∧ 1 ≤ l.sum ∧ ∀ u ∈ t, u ≠ 0

/-! ## Modules -/

theorem assign_spec (sizes : List ℕ) : (assign sizes).1.length = sizes.sum ∧ (assign sizes).2.length = sizes.length ∧
    (∀ c, c < sizes.length → (assign sizes).2[c]? = some (sizes.take c).sum) ∧
    ∀ k c, (assign sizes).1[k]? = some c ↔ InModule sizes k c := by
  induction sizes using List.reverseRecOn with
  | nil => simp [assign, InModule]
  | append_singleton l n ih =>
    obtain ⟨h1, h2, h3, h4⟩ := ih
    have e : assign (l ++ [n]) = ((assign l).1 ++ List.replicate n (assign l).2.length, (assign l).2 ++ [(assign l).1.length]) := by
      simp [assign, List.foldl_append]
    rw [e]
    refine ⟨by simp [h1], by simp [h2], ?_, ?_⟩
    · intro c hc
      rw [List.length_append, List.length_singleton] at hc
      by_cases hl : c < l.length
      · rw [List.getElem?_append_left (by omega), h3 c hl, List.take_append_of_le_length (by omega)]
      · obtain rfl : c = l.length := by omega
        rw [List.getElem?_append_right (by omega), h2, Nat.sub_self, List.take_left, h1]
        rfl
    · intro k c
      unfold InModule
      by_cases hk : k < l.sum
      · rw [List.getElem?_append_left (by omega), h4]
        unfold InModule
        constructor
        · rintro ⟨r, s, hs, hr, rfl⟩
          have hc : c < l.length := (List.getElem?_eq_some_iff.1 hs).1
          exact ⟨r, s, by rw [List.getElem?_append_left hc]; exact hs, hr, by rw [List.take_append_of_le_length (by omega)]⟩
        · rintro ⟨r, s, hs, hr, rfl⟩
          have hc : c < l.length := by
            by_contra hc
            have := (List.getElem?_eq_some_iff.1 hs).1
            rw [List.length_append, List.length_singleton] at this
            obtain rfl : c = l.length := by omega
            rw [List.take_left] at hk
            omega
          rw [List.getElem?_append_left hc] at hs
          exact ⟨r, s, hs, hr, by rw [List.take_append_of_le_length (by omega)]⟩
      · rw [List.getElem?_append_right (by omega), h1, h2, List.getElem?_replicate]
        constructor
        · intro h
          split_ifs at h with hlt
          simp only [Option.some.injEq] at h
          subst h
          exact ⟨k - l.sum, n, by simp, hlt, by rw [List.take_left]; omega⟩
        · rintro ⟨r, s, hs, hr, rfl⟩
          have hc : c = l.length := by
            by_contra hne
            have := (List.getElem?_eq_some_iff.1 hs).1
            rw [List.length_append, List.length_singleton] at this
            have hc : c < l.length := by omega
            rw [List.getElem?_append_left hc] at hs
            rw [List.take_append_of_le_length (by omega)] at hk
            have : (l.take c).sum + s ≤ l.sum := by
              have hsum : (l.take (c + 1)).sum + (l.drop (c + 1)).sum = l.sum := List.sum_take_add_sum_drop l (c + 1)
              have : (l.take (c + 1)).sum = (l.take c).sum + s := by
                rw [List.take_add_one, hs]
                simp
              omega
            omega
          subst hc
          have hn : n = s := by simpa using hs
          subst hn
          rw [List.take_left, if_pos (by omega)]

theorem assign_lt {sizes : List ℕ} {k : ℕ} (h : k < sizes.sum) : ∃ m, (assign sizes).1[k]? = some m :=
  ⟨_, List.getElem?_eq_getElem (by rw [(assign_spec sizes).1]; exact h)⟩

/-! ## Draws -/

theorem draw_all {Q : ℚ → Prop} {t : Tape} (h : ∀ u ∈ t, Q u) :
    (draw t).Holds fun r => 0 ≤ r.1 ∧ r.1 < 1 ∧ Q r.1 ∧ ∀ u ∈ r.2, Q u := by
  cases t with
  | nil => trivial
  | cons u t =>
    simp only [draw]
    split_ifs with h1
    · exact ⟨h1.1, h1.2, h u (by simp), fun v hv => h v (by simp [hv])⟩
    · trivial

theorem redraw_all {Q : ℚ → Prop} {f : ℚ → ℕ} {bad : ℕ → Bool} {P : ℕ → Prop} (hf : ∀ u, 0 ≤ u → u < 1 → P (f u)) {t : Tape}
    (h : ∀ u ∈ t, Q u) : (redraw f bad t).Holds fun r => P r.1 ∧ bad r.1 = false ∧ ∀ u ∈ r.2, Q u := by
  induction t with
  | nil => trivial
  | cons u t ih =>
    unfold redraw
    split_ifs with h1 h2
    · exact ih fun v hv => h v (by simp [hv])
    · exact ⟨hf u h1.1 h1.2, by simpa using h2, fun v hv => h v (by simp [hv])⟩
    · trivial

theorem geometric_all {Q : ℚ → Prop} (p : ℚ) : ∀ (t : Tape) (v : ℕ), (∀ u ∈ t, Q u) →
    (geometric p v t).Holds fun r => ∀ u ∈ r.2, Q u
  | [], v, _ => trivial
  | u :: t, v, h => by
    unfold geometric
    split_ifs with h1 h2
    · exact geometric_all p t (v + 1) fun w hw => h w (by simp [hw])
    · exact fun w hw => h w (by simp [hw])
    · trivial

/-- The colour drawn with probabilities `l`: the one whose interval of cumulative probability has the dice. -/
theorem colourLoop_spec (dice : ℚ) : ∀ (l : List ℚ) (cum : ℚ) (col : ℕ), dice ≤ cum + l.sum →
    ∃ k, colourLoop dice l cum col = some (col + k) ∧ k ≤ l.length ∧ dice ≤ cum + (l.take k).sum ∧
      ∀ m, m < k → cum + (l.take m).sum < dice
  | [], cum, col, h => by
    unfold colourLoop
    rw [if_neg (by simpa using h)]
    exact ⟨0, rfl, le_rfl, h, by simp⟩
  | q :: l, cum, col, h => by
    unfold colourLoop
    by_cases hc : cum < dice
    · rw [if_pos hc]
      obtain ⟨k, e, hk, h1, h2⟩ := colourLoop_spec dice l (cum + q) (col + 1) (by rw [List.sum_cons] at h; linarith)
      refine ⟨k + 1, by simp only [e]; congr 1; omega, by simpa using hk, by rw [List.take_succ_cons, List.sum_cons]; linarith, ?_⟩
      intro m hm
      cases m with
      | zero => simpa using hc
      | succ m =>
        rw [List.take_succ_cons, List.sum_cons]
        have := h2 m (by omega)
        linarith
    · rw [if_neg hc]
      exact ⟨0, rfl, by simp, by simpa using hc, by simp⟩

theorem teamColour_ok {a : GenArgs} {t : Tape} (h : ColoursOK a t) (hn : 0 < a.sizes.length) :
    (teamColour a t).Holds fun r => (∃ c s, r.1 = some c ∧ a.sizes[c]? = some s) ∧ ColoursOK a r.2 := by
  have hget : ∀ c, c < a.sizes.length → ∃ s, a.sizes[c]? = some s := fun c hc => ⟨_, List.getElem?_eq_getElem hc⟩
  unfold teamColour
  cases hp : a.colProb with
  | some l =>
    simp only
    obtain ⟨h1, h2, h3⟩ := h l hp
    refine (draw_all h3).bind ?_
    rintro ⟨dice, t'⟩ ⟨_, d1, d2, d3⟩
    simp only at d1 d2 d3 ⊢
    obtain ⟨k, e, hk, hd, _⟩ := colourLoop_spec dice l 0 0 (by linarith)
    rw [e]
    have hk0 : k ≠ 0 := by
      rintro rfl
      simp at hd
      exact d2 (le_antisymm hd ‹_›)
    simp only [Res.ofOption_some, Res.bind_ok, Res.pure_eq, Res.holds_ok, Nat.zero_add, if_neg hk0]
    obtain ⟨s, hs⟩ := hget (k - 1) (by omega)
    refine ⟨⟨k - 1, s, rfl, hs⟩, ?_⟩
    intro l' hl'
    rw [hp] at hl'
    obtain rfl := Option.some.inj hl'
    exact ⟨h1, h2, d3⟩
  | none =>
    simp only
    refine (pick_holds hn t).bind ?_
    rintro ⟨c, t'⟩ hc
    simp only at hc
    obtain ⟨s, hs⟩ := hget c hc
    exact ⟨⟨c, s, rfl, hs⟩, fun l hl => by rw [hp] at hl; simp at hl⟩

theorem ColoursOK.rest {a : GenArgs} {t t' : Tape} (h : ColoursOK a t) (ht : (∀ u ∈ t, u ≠ 0) → ∀ u ∈ t', u ≠ 0) :
    ColoursOK a t' := fun l hl => ⟨(h l hl).1, (h l hl).2.1, ht (h l hl).2.2⟩

/-- A `Holds` statement proved for tapes with a property and for all tapes. -/
theorem colours_holds {α : Type} {a : GenArgs} {t : Tape} (h : ColoursOK a t) {x : Res (α × Tape)} {P : α → Prop}
    (hx : ∀ Q : ℚ → Prop, (∀ u ∈ t, Q u) → x.Holds fun r => P r.1 ∧ ∀ u ∈ r.2, Q u) :
    x.Holds fun r => P r.1 ∧ ColoursOK a r.2 := by
  cases hp : a.colProb with
  | some l =>
    exact (hx _ (h l hp).2.2).mono fun r hr => ⟨hr.1, h.rest fun _ => hr.2⟩
  | none =>
    exact (hx (fun _ => True) fun _ _ => trivial).mono fun r hr => ⟨hr.1, fun l hl => by rw [hp] at hl; simp at hl⟩

theorem teamSize_ok {a : GenArgs} {t : Tape} (h : ColoursOK a t) (hm : a.mmin < 0 ∨ a.mmin ≤ a.mmax) :
    (teamSize a t).Holds fun r => (0 ≤ a.mmin → a.mmin ≤ r.1 ∧ r.1 ≤ a.mmax) ∧ ColoursOK a r.2 := by
  apply colours_holds h (P := fun m => 0 ≤ a.mmin → a.mmin ≤ m ∧ m ≤ a.mmax)
  intro Q hQ
  unfold teamSize
  by_cases h1 : a.mmin < 0
  · rw [if_pos h1]
    refine (geometric_all a.geomP t 0 hQ).bind ?_
    rintro ⟨m, t'⟩ ht
    exact ⟨fun h => by omega, ht⟩
  · rw [if_neg h1]
    have hle := hm.resolve_left h1
    by_cases h2 : a.mmax ≠ a.mmin
    · rw [if_pos h2]
      refine (draw_all hQ).bind ?_
      rintro ⟨u, t'⟩ ⟨u0, u1, _, ht⟩
      simp only at u0 u1 ht
      refine ⟨fun _ => ?_, ht⟩
      simp only
      have hpos : (0 : ℚ) < ((a.mmax + 1 - a.mmin : ℤ) : ℚ) := by exact_mod_cast (by omega : (0 : ℤ) < a.mmax + 1 - a.mmin)
      constructor
      · rw [Int.le_floor]
        have : 0 ≤ u * ((a.mmax + 1 - a.mmin : ℤ) : ℚ) := mul_nonneg u0 hpos.le
        linarith
      · rw [← Int.lt_add_one_iff, Int.floor_lt]
        have : u * ((a.mmax + 1 - a.mmin : ℤ) : ℚ) < ((a.mmax + 1 - a.mmin : ℤ) : ℚ) := by nlinarith
        push_cast at this ⊢
        linarith
    · rw [if_neg h2]
      exact ⟨fun _ => ⟨le_rfl, hle⟩, hQ⟩

/-! ## Spots -/

/-- State after `j` spots of team `i`, of colour `c` with `s` agents. -/
structure TI (a : GenArgs) (i c s : ℕ) (b0 : Bi) (j : ℕ) (b : Bi) (ncol : ℕ) : Prop where
  ok : b.OK
  n1 : b.n1 = a.sizes.sum
  n2 : b.n2 = a.S2
  deg : (b.neig2 i).length = j
  others : ∀ k, k ≠ i → b.neig2 k = b0.neig2 k
  zero : ∀ k, ∀ x ∈ b.neig2 k, x.2 = 0
  cnt : ncol = ofModule (assign a.sizes).1 b i c
  full : 1 ≤ a.p → min j s ≤ ncol

theorem spot_ok {a : GenArgs} {i c s j : ℕ} {b0 : Bi} {st : Bi × ℕ × Tape} (h0 : 0 < a.sizes.sum) (hi : i < a.S2) (hs : a.sizes[c]? = some s)
    (h : TI a i c s b0 j st.1 st.2.1) (ht : ColoursOK a st.2.2) :
    (spot a i (some c) st).Holds fun r => TI a i c s b0 (j + 1) r.1 r.2.1 ∧ ColoursOK a r.2.2 := by
  obtain ⟨b, ncol, t⟩ := st
  simp only at h ht
  have hc : c < a.sizes.length := (List.getElem?_eq_some_iff.1 hs).1
  obtain ⟨A1, A2, A3, A4⟩ := assign_spec a.sizes
  -- the new link
  have step : ∀ k m (t' : Tape), k < a.sizes.sum → isThere (b.neig1 k) i = false → (assign a.sizes).1[k]? = some m →
      ∀ nc, nc = ncol + (if m = c then 1 else 0) → (1 ≤ a.p → min (j + 1) s ≤ nc) →
      TI a i c s b0 (j + 1) (addLink b k i 0) nc := by
    intro k m t' hk hno hm nc hnc hfull
    have hnl : ¬ b.Linked k i := by
      rintro ⟨w, hw⟩
      have := isThere_iff.2 ⟨w, hw⟩
      rw [hno] at this
      simp at this
    rw [addLink_eq h.ok 0 hnl]
    have e2 : (withLink b k i 0).neig2 i = b.neig2 i ++ [(k, 0)] := by simp [withLink]
    refine ⟨withLink_ok h.ok (by rw [h.n1]; exact hk) (by rw [h.n2]; exact hi) 0 hnl, h.n1, h.n2, ?_, ?_, ?_, ?_, hfull⟩
    · rw [e2, List.length_append, h.deg]; rfl
    · intro k' hk'
      rw [← h.others k' hk']
      simp [withLink, Function.update_of_ne hk']
    · intro k' x hx
      obtain ⟨x1, x2⟩ := x
      rcases withLink_mem2.1 hx with hx | ⟨_, _, rfl⟩
      · exact h.zero k' _ hx
      · rfl
    · rw [hnc, h.cnt]
      unfold ofModule
      rw [e2, List.filter_append, List.length_append]
      congr 1
      by_cases hmc : m = c
      · subst hmc; simp [hm]
      · rw [if_neg hmc, List.filter_cons_of_neg]
        · rfl
        · rw [hm]; simpa using hmc
  unfold spot
  have hdraw := colours_holds (P := fun u : ℚ => 0 ≤ u ∧ u < 1) ht
    (x := draw t) fun Q hQ => (draw_all hQ).mono fun r hr => ⟨⟨hr.1, hr.2.1⟩, hr.2.2.2⟩
  refine hdraw.bind ?_
  rintro ⟨u, t1⟩ ⟨⟨u0, u1⟩, ht1⟩
  simp only at u0 u1 ht1 ⊢
  have hsame : sameColour a (some c) ncol u = .ok (decide (u < a.p ∧ ncol < s)) := by
    unfold sameColour
    by_cases hu : u < a.p
    · rw [if_pos hu]
      simp [sizeOf, hs, hu]
    · rw [if_neg hu]
      simp [hu]
  rw [hsame]
  simp only [Res.bind_ok]
  by_cases hd : u < a.p ∧ ncol < s
  · have hd' : decide (u < a.p ∧ ncol < s) = true := by simpa using hd
    rw [hd']
    simp only [if_true]
    have hin : (targetInside a b i (some c) t1).Holds fun r => (∃ q, q < s ∧ r.1 = (a.sizes.take c).sum + q) ∧
        isThere (b.neig1 r.1) i = false ∧ ColoursOK a r.2 := by
      have := colours_holds (P := fun k => (∃ q, q < s ∧ k = (a.sizes.take c).sum + q) ∧ isThere (b.neig1 k) i = false) ht1
        (x := targetInside a b i (some c) t1) ?_
      · exact this.mono fun r hr => ⟨hr.1.1, hr.1.2, hr.2⟩
      · intro Q hQ
        unfold targetInside
        simp only [sizeOf, hs, Res.ofOption_some, Res.bind_ok, Option.bind_some, A3 c hc]
        refine (redraw_all (P := fun k => ∃ q, q < s ∧ k = (a.sizes.take c).sum + q) ?_ hQ).mono fun r hr => ⟨⟨hr.1, hr.2.1⟩, hr.2.2⟩
        intro v v0 v1
        exact ⟨_, floor_lt v1 (by omega), rfl⟩
    refine hin.bind ?_
    rintro ⟨k, t2⟩ ⟨⟨q, hq, hk⟩, hno, ht2⟩
    simp only at hk hno ht2 ⊢
    have hm : (assign a.sizes).1[k]? = some c := (A4 k c).2 ⟨q, s, hs, hq, hk⟩
    have hks : k < a.sizes.sum := by rw [← A1]; exact (List.getElem?_eq_some_iff.1 hm).1
    rw [hm]
    refine ⟨step k c t2 hks hno hm _ (by simp) ?_, ht2⟩
    intro hp
    have := h.full hp
    simp only
    omega
  · have hd' : decide (u < a.p ∧ ncol < s) = false := by simpa using hd
    rw [hd']
    simp only [Bool.false_eq_true, if_false]
    have hfull : 1 ≤ a.p → s ≤ ncol := by
      intro hp
      by_contra hlt
      exact hd ⟨by linarith, by omega⟩
    have hany : (targetAnywhere a b i t1).Holds fun r => r.1 < a.sizes.sum ∧
        isThere (b.neig1 r.1) i = false ∧ ColoursOK a r.2 := by
      have := colours_holds (P := fun k => k < a.sizes.sum ∧ isThere (b.neig1 k) i = false) ht1
        (x := targetAnywhere a b i t1) ?_
      · exact this.mono fun r hr => ⟨hr.1.1, hr.1.2, hr.2⟩
      · intro Q hQ
        unfold targetAnywhere
        refine (redraw_all (P := fun k => k < a.sizes.sum) ?_ hQ).mono fun r hr => ⟨⟨hr.1, hr.2.1⟩, hr.2.2⟩
        intro v v0 v1
        rw [A1]
        exact floor_lt v1 h0
    refine hany.bind ?_
    rintro ⟨k, t2⟩ ⟨hk, hno, ht2⟩
    simp only at hk hno ht2 ⊢
    obtain ⟨m, hm⟩ := assign_lt hk
    rw [hm]
    refine ⟨step k m t2 hk hno hm _ ?_ ?_, ht2⟩
    · by_cases e : m = c
      · simp [e]
      · simp [e]
    · intro hp
      have := hfull hp
      simp only
      split_ifs <;> omega

theorem spots_ok {a : GenArgs} {i c s : ℕ} {b0 : Bi} (h0 : 0 < a.sizes.sum) (hi : i < a.S2) (hs : a.sizes[c]? = some s) :
    ∀ (m j : ℕ) (st : Bi × ℕ × Tape), TI a i c s b0 j st.1 st.2.1 → ColoursOK a st.2.2 →
    (spots a i (some c) m st).Holds fun r => TI a i c s b0 (j + m) r.1 r.2.1 ∧ ColoursOK a r.2.2
  | 0, j, st, h, ht => ⟨h, ht⟩
  | m + 1, j, st, h, ht => by
    unfold spots
    refine (spot_ok h0 hi hs h ht).bind ?_
    rintro st' ⟨h', ht'⟩
    have := spots_ok h0 hi hs m (j + 1) st' h' ht'
    rwa [show j + 1 + m = j + (m + 1) by omega] at this

/-! ## Teams -/

/-- What is asked of team `i` of colour `col`: its size is in the range, and when agents of other modules are not
asked for (`p ≥ 1`) it has as many members of the module of its colour as possible. -/
def TeamOK (a : GenArgs) (b : Bi) (i : ℕ) (col : Option ℕ) : Prop :=
  ∃ c s, col = some c ∧ a.sizes[c]? = some s ∧
    (0 ≤ a.mmin → a.mmin ≤ ((b.neig2 i).length : ℤ) ∧ ((b.neig2 i).length : ℤ) ≤ a.mmax) ∧
    (1 ≤ a.p → min (b.neig2 i).length s ≤ ofModule (assign a.sizes).1 b i c)

/-- State before team `i`. -/
structure Teams (a : GenArgs) (i : ℕ) (b : Bi) (cols : List (Option ℕ)) : Prop where
  ok : b.OK
  n1 : b.n1 = a.sizes.sum
  n2 : b.n2 = a.S2
  len : cols.length = i
  zero : ∀ k, ∀ x ∈ b.neig2 k, x.2 = 0
  done : ∀ k col, cols[k]? = some col → TeamOK a b k col
  blank : ∀ k, i ≤ k → b.neig2 k = []

theorem teams_ok {a : GenArgs} (h0 : 0 < a.sizes.sum) (hm : a.mmin < 0 ∨ a.mmin ≤ a.mmax) :
    ∀ (todo i : ℕ) (st : Bi × List (Option ℕ) × Tape), i + todo = a.S2 → Teams a i st.1 st.2.1 → ColoursOK a st.2.2 →
    (teamLoop a todo i st).Holds fun r => Teams a a.S2 r.1 r.2.1
  | 0, i, st, hi, h, _ => by
    have : i = a.S2 := by omega
    subst this
    exact h
  | todo + 1, i, st, hi, h, ht => by
    obtain ⟨b, cols, t⟩ := st
    simp only at h ht
    have hlen : 0 < a.sizes.length := by
      by_contra hn
      have : a.sizes = [] := List.length_eq_zero_iff.1 (by omega)
      rw [this] at h0
      simp at h0
    unfold teamLoop
    refine (teamColour_ok ht hlen).bind ?_
    rintro ⟨col, t1⟩ ⟨⟨c, s, rfl, hs⟩, ht1⟩
    simp only at hs ht1 ⊢
    refine (teamSize_ok ht1 hm).bind ?_
    rintro ⟨m, t2⟩ ⟨hsize, ht2⟩
    simp only at hsize ht2 ⊢
    have hTI : TI a i c s b 0 b 0 := by
      refine ⟨h.ok, h.n1, h.n2, by rw [h.blank i le_rfl]; rfl, fun k _ => rfl, h.zero, ?_, by simp⟩
      unfold ofModule
      rw [h.blank i le_rfl]
      rfl
    refine (spots_ok h0 (by omega) hs m.toNat 0 (b, 0, t2) hTI ht2).bind ?_
    rintro ⟨b', ncol, t3⟩ ⟨h', ht3⟩
    simp only at h' ht3 ⊢
    rw [Nat.zero_add] at h'
    apply teams_ok h0 hm todo (i + 1) _ (by omega) _ ht3
    refine ⟨h'.ok, h'.n1, h'.n2, by simp [h.len], h'.zero, ?_, ?_⟩
    · intro k col hk
      simp only at hk
      by_cases e : k = i
      · subst e
        rw [List.getElem?_append_right (by rw [h.len]), h.len, Nat.sub_self] at hk
        have hk : some c = col := by simpa using hk
        refine ⟨c, s, hk.symm, hs, ?_, ?_⟩
        · intro hmin
          have := hsize hmin
          rw [h'.deg]
          omega
        · intro hp
          have := h'.full hp
          rw [h'.deg, ← h'.cnt]
          exact this
      · have hlt : k < i := by
          have := (List.getElem?_eq_some_iff.1 hk).1
          rw [List.length_append, h.len, List.length_singleton] at this
          omega
        rw [List.getElem?_append_left (by rw [h.len]; exact hlt)] at hk
        have := h.done k col hk
        unfold TeamOK ofModule at this ⊢
        rw [h'.others k e]
        exact this
    · intro k hk
      simp only
      rw [h'.others k (by omega)]
      exact h.blank k (by omega)

/-- The whole result. -/
theorem build_ok {a : GenArgs} {t : Tape} (h0 : 0 < a.sizes.sum) (hm : a.mmin < 0 ∨ a.mmin ≤ a.mmax) (hc : ColoursOK a t) :
    (BuildModularBipartiteNetwork a t).Holds fun r => Teams a a.S2 r.1.net.bi r.1.group2 ∧ r.1.group1 = (assign a.sizes).1 ∧
      r.1.net.label1 = (fun i => "A" ++ toString (i + 1)) ∧ r.1.net.label2 = fun i => "B" ++ toString (i + 1) := by
  unfold BuildModularBipartiteNetwork
  have hT : Teams a 0 (⟨(assign a.sizes).1.length, a.S2, fun _ => [], fun _ => []⟩ : Bi) [] := by
    refine ⟨⟨by simp, by simp, by simp, by simp, by simp⟩, (assign_spec a.sizes).1, rfl, rfl, by simp, by simp, by simp⟩
  refine (teams_ok h0 hm a.S2 0 (_, [], t) (by omega) hT hc).bind ?_
  rintro ⟨b, cols, t'⟩ h
  exact ⟨h, rfl, rfl, rfl⟩

/-! ## C92 -/

/-- C92. For at least one agent and a range of team sizes, every run that returns has made a bipartite network without
repeated links of all agents and `S2` teams, with agents in consecutive modules of the given sizes, every team given a
module, and a number of members in the range; for `p ≥ 1` a team has as many members of its own module as possible.
No run has undefined behaviour, provided that colours are drawn with equal probability or that the probabilities given
reach 1 and no dice is exactly 0. All links have weight 0. -/
theorem C92_teams_partial {a : GenArgs} {t : Tape} (h0 : 0 < a.sizes.sum) (hm : a.mmin < 0 ∨ a.mmin ≤ a.mmax)
    (hc : ColoursOK a t) :
    (BuildModularBipartiteNetwork a t).Holds fun r => r.1.net.bi.OK ∧ r.1.net.bi.n1 = a.sizes.sum ∧
      r.1.net.bi.n2 = a.S2 ∧ r.1.group1.length = a.sizes.sum ∧ r.1.group2.length = a.S2 ∧
      (∀ k c, r.1.group1[k]? = some c ↔ InModule a.sizes k c) ∧
      (∀ k, ∀ x ∈ r.1.net.bi.neig2 k, x.2 = 0) ∧
      ∀ i, i < a.S2 → ∃ c s, r.1.group2[i]? = some (some c) ∧ a.sizes[c]? = some s ∧
        (0 ≤ a.mmin → a.mmin ≤ ((r.1.net.bi.neig2 i).length : ℤ) ∧ ((r.1.net.bi.neig2 i).length : ℤ) ≤ a.mmax) ∧
        (1 ≤ a.p → min (r.1.net.bi.neig2 i).length s ≤ ofModule r.1.group1 r.1.net.bi i c) := by
  refine (build_ok h0 hm hc).mono ?_
  rintro r ⟨h, e, -, -⟩
  refine ⟨h.ok, h.n1, h.n2, by rw [e, (assign_spec a.sizes).1], h.len, by rw [e]; exact (assign_spec a.sizes).2.2.2, h.zero, ?_⟩
  intro i hi
  have hlt : i < r.1.group2.length := by rw [h.len]; exact hi
  have hg : r.1.group2[i]? = some r.1.group2[i] := List.getElem?_eq_getElem hlt
  obtain ⟨c, s, hcol, hs, h1, h2⟩ := h.done i _ hg
  rw [hcol] at hg
  exact ⟨c, s, hg, hs, h1, by rw [e]; exact h2⟩

/-- C92. Teams of more members than there are agents: the function never returns. -/
theorem C92_never_returns {a : GenArgs} {t : Tape} (h0 : 0 < a.sizes.sum) (hm : a.mmin ≤ a.mmax) (hc : ColoursOK a t)
    (hbig : (a.sizes.sum : ℤ) < a.mmin) (hT : 0 < a.S2) : BuildModularBipartiteNetwork a t = .starved := by
  have h := C92_teams_partial h0 (Or.inr hm) hc
  cases hr : BuildModularBipartiteNetwork a t with
  | starved => rfl
  | ub => rw [hr] at h; exact h.elim
  | ok r =>
    exfalso
    rw [hr] at h
    obtain ⟨hok, e1, -, -, -, -, -, hteam⟩ := h
    obtain ⟨c, s, -, -, hsz, -⟩ := hteam 0 hT
    have h1 := (hsz (by omega)).1
    have h2 : (r.1.net.bi.neig2 0).length ≤ r.1.net.bi.n1 := by
      have hsub : ((r.1.net.bi.neig2 0).map (·.1)).toFinset ⊆ Finset.range r.1.net.bi.n1 := by
        intro k hk
        rw [List.mem_toFinset, List.mem_map] at hk
        obtain ⟨x, hx, rfl⟩ := hk
        exact Finset.mem_range.2 (hok.range2 0 x hx)
      have := Finset.card_le_card hsub
      rw [List.toFinset_card_of_nodup (hok.nodup2 0), List.length_map, Finset.card_range] at this
      exact this
    omega

/-- C92. Refuted for given probabilities: two modules of two agents, one team of one member, each module with
probability 1/2. When the dice shows 0 no module is chosen, and the size of module -1 is read. -/
theorem C92_refuted : ∃ a : GenArgs, 0 < a.sizes.sum ∧ a.mmin ≤ a.mmax ∧
    (∀ l, a.colProb = some l → l.length = a.sizes.length ∧ l.sum = 1 ∧ ∀ q ∈ l, 0 < q) ∧
    ∀ t : Tape, BuildModularBipartiteNetwork a (0 :: 0 :: t) = .ub := by
  refine ⟨⟨[2, 2], some [1 / 2, 1 / 2], 1, 1, 1, 0, 1⟩, by decide, by decide, ?_, ?_⟩
  · rintro l h
    obtain rfl := Option.some.inj h
    refine ⟨rfl, by norm_num, ?_⟩
    intro q hq
    have : q = 1 / 2 := by simpa using hq
    rw [this]; norm_num
  · intro t
    simp [BuildModularBipartiteNetwork, teamLoop, teamColour, draw, colourLoop, teamSize, spots, spot, sameColour, sizeOf]

/-- C92. A dice other than 0 chooses the module whose interval of cumulative probability has it. -/
theorem C92_colour (a : GenArgs) (l : List ℚ) (hl : a.colProb = some l) (hs : 1 ≤ l.sum) (u : ℚ) (h0 : 0 < u) (h1 : u < 1)
    (t : Tape) : ∃ c, teamColour a (u :: t) = .ok (some c, t) ∧ c < l.length ∧ (l.take c).sum < u ∧ u ≤ (l.take (c + 1)).sum := by
  obtain ⟨k, e, hk, hd, hb⟩ := colourLoop_spec u l 0 0 (by linarith)
  have hk0 : k ≠ 0 := by
    rintro rfl
    simp at hd
    linarith
  refine ⟨k - 1, ?_, by omega, ?_, ?_⟩
  · unfold teamColour
    rw [hl]
    simp only [draw, h0.le, h1, and_self, if_true, Res.bind_ok, e, Res.ofOption_some, Nat.zero_add, if_neg hk0, Res.pure_eq]
  · have := hb (k - 1) (by omega)
    linarith
  · rw [show k - 1 + 1 = k by omega]
    linarith

/-! ## C93 -/

/-- C93. Whatever team size is given to `modularbipart`, its teams have as many members as its modules. -/
theorem C93_team_size_partial (nMod modSize nTeam teamSize : ℕ) (h1 : 0 < nMod) (h2 : 0 < modSize) (p : ℚ) (t : Tape) :
    (modularbipart nMod modSize nTeam teamSize p t).Holds fun r => r.1.net.bi.OK ∧ r.1.net.bi.n1 = nMod * modSize ∧
      r.1.net.bi.n2 = nTeam ∧ ∀ i, i < nTeam → (r.1.net.bi.neig2 i).length = modSize := by
  unfold modularbipart
  have hsum : (List.replicate nMod modSize).sum = nMod * modSize := by simp
  refine (C92_teams_partial (by rw [hsum]; positivity) (Or.inr le_rfl) (by intro l hl; simp at hl)).mono ?_
  rintro r ⟨h, e1, e2, -, -, -, -, ht⟩
  refine ⟨h, by rw [e1, hsum], e2, ?_⟩
  intro i hi
  obtain ⟨c, s, -, -, hsz, -⟩ := ht i hi
  have h3 : (modSize : ℤ) ≤ _ ∧ _ ≤ (modSize : ℤ) := hsz (Int.natCast_nonneg modSize)
  omega

/-- Sizes of the teams of a run. -/
def teamSizes (r : Res (Modular × Tape)) : List ℕ :=
  match r with
  | .ok r => (List.range r.1.net.bi.n2).map fun i => (r.1.net.bi.neig2 i).length
  | _ => []

/-- C93. Refuted: teams of one member are asked for, modules have two agents, and the team made has two. -/
theorem C93_refuted : teamSizes (modularbipart 2 2 1 1 1 [1 / 2, 0, 0, 0, 1 / 2]) = [2] := by
  decide +kernel

/-- Members of the first team of a run, and its colour. -/
def firstTeam (r : Res (Modular × Tape)) : List (ℕ × ℚ) × Option (Option ℕ) :=
  match r with
  | .ok r => (r.1.net.bi.neig2 0, r.1.group2[0]?)
  | _ => ([], none)

example : (firstTeam (BuildModularBipartiteNetwork ⟨[2, 3], none, 1, 2, 3, 0, 1⟩ [3 / 4, 1 / 2, 0, 0, 0, 0, 1 / 2, 0, 2 / 3])).1 =
    [(2, 0), (3, 0), (4, 0)] := by decide +kernel

example : (firstTeam (BuildModularBipartiteNetwork ⟨[2, 3], some [1 / 4, 3 / 4], 1, 2, 2, 0, 1 / 2⟩
    [1 / 2, 0, 0, 1 / 2, 0])).1 = [(2, 0), (0, 0)] := by decide +kernel

end BP
