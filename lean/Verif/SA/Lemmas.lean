import Verif.SA.Component

/-! # Annealing steps keep the energy (helper lemmas) -/

set_option linter.unusedSimpArgs false

namespace NC

open RG

theorem modularity_congr_k {n A k k' g} (h : ∀ i < n, k' i = k i) :
    modularity n A k' g = modularity n A k g := by
  unfold modularity
  refine Finset.sum_congr rfl fun i hi => Finset.sum_congr rfl fun j hj => ?_
  rw [h i (Finset.mem_range.1 hi), h j (Finset.mem_range.1 hj)]

/-- Modularity of `p` as a partition of the nodes of `p0`. -/
def Q (p0 : Partition) (A : ℕ → ℕ → ℚ) (p : Partition) : ℚ :=
  modularity p0.N A (strengthOf p0) (labelOf p)

theorem SameNodes.modularity {p0 p A} (h : SameNodes p0 p) (g : ℕ → ℕ) :
    NC.modularity p.N A (strengthOf p) g = NC.modularity p0.N A (strengthOf p0) g := by
  rw [h.N, modularity_congr_k h.strength]

section
variable {p0 : Partition} {adj : Adj} {A : ℕ → ℕ → ℚ}

theorem move_holds {p : Partition} (h : SameNodes p0 p) (ha : Represents adj p0.N A) {i m : ℕ}
    (hi : i < p0.N) (hm : m < p0.M) (hne : m ≠ labelOf p i) :
    ∃ p', ChangeModule i m p = some p' ∧ dEChangeModule i m p adj = some (Q p0 A p' - Q p0 A p) ∧
      SameNodes p0 p' := by
  have hi' : i < p.N := by rw [h.N]; exact hi
  have hm' : m < p.M := by rw [h.M]; exact hm
  obtain ⟨seq, hw⟩ := h.consistent.wf
  obtain ⟨p', h1, h2, h3⟩ := ChangeModule_holds h.consistent hi' hm'
  refine ⟨p', h1, ?_, h.trans h2⟩
  rw [dEChangeModule_eq hw (h.N ▸ ha) hi' hm' hne, h.modularity, h.modularity]
  congr 2
  refine (modularity_congr_eq fun j hj => ?_).symm
  rw [h3 j (by rw [h.N]; exact hj), Function.update_apply]

theorem merge_holds {p : Partition} (h : SameNodes p0 p) (hMN : p0.M ≤ p0.N)
    (ha : Represents adj p0.N A) {a b : ℕ}
    (h1 : a < p0.M) (h2 : b < p0.M) (hne : a ≠ b) :
    ∃ p', MergeModules a b p = some p' ∧ dEMergeModules a b p adj = some (Q p0 A p' - Q p0 A p) ∧
      SameNodes p0 p' ∧ Effect p0.N p0.M (labelOf p) p0.M (labelOf p') (.merge a b) := by
  have h1' : a < p.M := by rw [h.M]; exact h1
  have h2' : b < p.M := by rw [h.M]; exact h2
  obtain ⟨seq, hw⟩ := h.consistent.wf
  obtain ⟨p', e1, e2, _, e4, e5, e6⟩ := C01_step h.consistent (by rw [h.M, h.N]; exact hMN)
    (op := .merge a b) ⟨h1', h2', hne⟩
  have e7 : p'.M = p.M := e6.1
  have hs : SameNodes p p' := ⟨e2, e4, e7, e5⟩
  rw [e7, h.M, h.N] at e6
  refine ⟨p', e1, ?_, h.trans hs, e6⟩
  rw [dEMergeModules_eq hw (h.N ▸ ha) h1' h2' hne
    (g := fun i => if labelOf p i = a then b else labelOf p i) (fun _ _ => rfl), h.modularity,
    h.modularity]
  congr 2
  refine modularity_congr fun i hi j hj => ?_
  obtain ⟨_, f1, f2, f3⟩ := e6
  by_cases ci : labelOf p i = a ∨ labelOf p i = b <;> by_cases cj : labelOf p j = a ∨ labelOf p j = b
  · have := f3 i hi j hj ci cj
    have gi : (if labelOf p i = a then b else labelOf p i) = b := by
      split_ifs with h
      · rfl
      · exact ci.resolve_left h
    have gj : (if labelOf p j = a then b else labelOf p j) = b := by
      split_ifs with h
      · rfl
      · exact cj.resolve_left h
    simp only [gi, gj, this]
  · have g1 := f2 i hi ci
    push Not at cj
    have g2 := f1 j hj cj.1 cj.2
    have gi : (if labelOf p i = a then b else labelOf p i) = b := by
      split_ifs with h
      · rfl
      · exact ci.resolve_left h
    simp only [gi, if_neg cj.1, g2]
    constructor
    · intro hh; exact absurd hh.symm cj.2
    · intro hh
      rcases g1 with g1 | g1
      · exact absurd (hh.symm.trans g1) cj.1
      · exact absurd (hh.symm.trans g1) cj.2
  · have g1 := f2 j hj cj
    push Not at ci
    have g2 := f1 i hi ci.1 ci.2
    have gj : (if labelOf p j = a then b else labelOf p j) = b := by
      split_ifs with h
      · rfl
      · exact cj.resolve_left h
    simp only [gj, if_neg ci.1, g2]
    constructor
    · intro hh; exact absurd hh ci.2
    · intro hh
      rcases g1 with g1 | g1
      · exact absurd (hh.trans g1) ci.1
      · exact absurd (hh.trans g1) ci.2
  · push Not at ci cj
    rw [f1 i hi ci.1 ci.2, f1 j hj cj.1 cj.2]
    simp only [if_neg ci.1, if_neg cj.1]

theorem metropolis_holds (acc dE T t) : (metropolis acc dE T t).Holds (fun _ => True) := by
  unfold metropolis
  split_ifs
  · trivial
  · refine (draw_holds t).bind ?_
    rintro ⟨u, t'⟩ _
    trivial

/-! ## splits -/

theorem SplitOf.trans {p q r : Partition} {a b : ℕ} (hab : a ≠ b) (h : SplitOf p q a b)
    (h' : SplitOf q r a b) : SplitOf p r a b where
  toSameNodes := h.toSameNodes.trans h'.toSameNodes
  other i hi hne := by
    have := h.other i hi hne
    rw [h'.other i (by rw [h.N]; exact hi) (by rw [this]; exact hne), this]
  inside i hi he := by
    rcases h.inside i hi he with h1 | h1
    · exact h'.inside i (by rw [h.N]; exact hi) h1
    · right; rw [h'.other i (by rw [h.N]; exact hi) (by rw [h1]; exact hab.symm), h1]

theorem randomHalves_holds {p : Partition} {target empty : ℕ} (he : empty < p.M) :
    ∀ (l : List ℕ) (q : Partition) (t : Tape), SplitOf p q target empty →
      (∀ x ∈ l, x < p.N ∧ labelOf p x = target) →
      (randomHalves empty l q t).Holds (fun r => SplitOf p r.1 target empty)
  | [], q, t, h, _ => h
  | x :: xs, q, t, h, hl => by
    simp only [randomHalves]
    refine (draw_holds t).bind ?_
    rintro ⟨u, t'⟩ _
    simp only
    split_ifs
    · obtain ⟨q', h1, h2, _⟩ := h.move (hl x (by simp)).1 (hl x (by simp)).2 (Or.inr rfl) he
      simp only [h1, Res.ofOption_some, Res.bind_ok]
      exact randomHalves_holds he xs q' t' h2 (fun y hy => hl y (by simp [hy]))
    · simp only [Res.bind_ok]
      exact randomHalves_holds he xs q t' h (fun y hy => hl y (by simp [hy]))

theorem splitLoop_holds {p : Partition} {target empty : ℕ} (ht : target < p.M) (he : empty < p.M)
    (hne : target ≠ empty) (ha : Represents adj p.N A) (acc : ℚ → ℚ → ℚ → Bool)
    {indices : List ℕ} (hind : ∀ x ∈ indices, x < p.N ∧ labelOf p x = target) (hpos : indices ≠ [])
    (Tf Ts : ℚ) (limit : ℕ) :
    ∀ (fuel : ℕ) (T : ℚ) (nc : ℕ) (q : Partition) (t : Tape), SplitOf p q target empty →
      (splitLoop acc adj target empty indices Tf Ts limit fuel T nc q t).Holds
        (fun r => SplitOf p r.1 target empty) := by
  intro fuel
  induction fuel with
  | zero => intro T nc q t _; trivial
  | succ fuel ih =>
    intro T nc q t h
    unfold splitLoop
    by_cases hT : ¬ T > Tf
    · simp only [hT, not_false_eq_true, if_true]; exact h
    · simp only [hT, if_false]
      have hlen : 0 < indices.length := by rw [List.length_pos_iff]; exact hpos
      refine (pick_holds hlen t).bind ?_
      rintro ⟨r, t1⟩ hr
      simp only at hr
      have hx := hind _ (List.getElem_mem hr)
      simp only [List.getElem?_eq_getElem hr, Res.ofOption_some, Res.bind_ok]
      set x := indices[r]
      have hxN : x < q.N := by rw [h.N]; exact hx.1
      simp only [moduleOf, hxN, if_true, Res.bind_ok]
      set newg := if (q.nodes x).module = target then empty else target with hg
      have hgne : newg ≠ labelOf q x := by
        rw [hg]; change (if labelOf q x = target then empty else target) ≠ labelOf q x
        split_ifs with hh
        · rw [hh]; exact hne.symm
        · exact fun h' => hh h'.symm
      have hgin : newg = target ∨ newg = empty := by rw [hg]; split_ifs <;> simp
      have hgM : newg < p.M := by rcases hgin with h' | h' <;> rw [h'] <;> assumption
      obtain ⟨q', h1, h2, _⟩ := h.move hx.1 hx.2 hgin hgM
      obtain ⟨q'', _, h4, _⟩ := move_holds h.toSameNodes ha hx.1 hgM hgne
      simp only [h4, Res.ofOption_some, Res.bind_ok]
      refine (metropolis_holds acc _ T t1).bind ?_
      rintro ⟨ok, t2⟩ _
      cases ok with
      | true =>
        simp only [if_true, h1, Res.ofOption_some, Res.bind_ok]
        split_ifs <;> first | exact h2 | exact ih _ _ q' t2 h2
      | false =>
        simp only [if_false, Bool.false_eq_true, Res.bind_ok]
        split_ifs <;> first | exact h | exact ih _ _ q t2 h

theorem SplitModuleSA_holds {p : Partition} {target empty : ℕ} (hc : Consistent p) (ht : target < p.M)
    (he : empty < p.M) (hne : target ≠ empty) (hn : ∃ x < p.N, labelOf p x = target)
    (ha : Represents adj p.N A) (acc : ℚ → ℚ → ℚ → Bool) (fuel : ℕ) (Ti Tf Ts : ℚ) (limit : ℕ)
    (t : Tape) :
    (SplitModuleSA acc fuel target empty Ti Tf Ts limit p adj t).Holds
      (fun r => SplitOf p r.1 target empty) := by
  obtain ⟨seq, hw⟩ := hc.wf
  unfold SplitModuleSA
  simp only [hw.moduleNodes ht, Res.ofOption_some, Res.bind_ok]
  have hind : ∀ x ∈ seq target, x < p.N ∧ labelOf p x = target := fun x hx => (hw.mem target ht x).1 hx
  refine (randomHalves_holds he (seq target) p t (SplitOf.refl hc) hind).bind ?_
  rintro ⟨q, t'⟩ h
  refine splitLoop_holds ht he hne ha acc hind ?_ Tf Ts limit fuel Ti 0 q t' h
  obtain ⟨x, hx, hxt⟩ := hn
  exact List.ne_nil_of_mem ((hw.mem target ht x).2 ⟨hx, hxt⟩)

/-! ## the moves of one round -/

/-- Energy bookkeeping of a triple (partition, energy, tape). -/
def EInv (p0 : Partition) (A : ℕ → ℕ → ℚ) (s : Partition × ℚ × Tape) : Prop :=
  SameNodes p0 s.1 ∧ s.2.1 = Q p0 A s.1 - Q p0 A p0

theorem repeatM_holds {α : Type} {P : α → Prop} {step : α → Res α} (h : ∀ s, P s → (step s).Holds P) :
    ∀ n s, P s → (repeatM step n s).Holds P
  | 0, _, hs => hs
  | n + 1, s, hs => (h s hs).bind fun s' hs' => repeatM_holds h n s' hs'

theorem individualMove_holds (hN : 0 < p0.N) (ha : Represents adj p0.N A)
    (c : SAParams) (T : ℚ) (s : Partition × ℚ × Tape) (h : EInv p0 A s) :
    (individualMove c adj T s).Holds (EInv p0 A) := by
  obtain ⟨p, E, t⟩ := s
  obtain ⟨hs, hE⟩ := h
  simp only at hs hE
  simp only [individualMove]
  refine (pick_holds (by rw [hs.N]; exact hN) t).bind ?_
  rintro ⟨i, t1⟩ hi
  simp only at hi
  simp only [moduleOf, hi, if_true, Res.bind_ok]
  have hM : 0 < p.M := lt_of_le_of_lt (Nat.zero_le _) (hs.consistent.label i hi)
  refine (redraw_holds (P := fun g => g < p.M) (fun u _ hu => floor_lt hu hM) t1).bind ?_
  rintro ⟨g, t2⟩ ⟨hg, hgne⟩
  simp only at hg hgne
  have hgne' : g ≠ (p.nodes i).module := by simpa using hgne
  obtain ⟨p', h1, h2, h3⟩ := move_holds hs ha (by rw [← hs.N]; exact hi) (by rw [← hs.M]; exact hg) hgne'
  simp only [h2, Res.ofOption_some, Res.bind_ok]
  refine (metropolis_holds c.acc _ T t2).bind ?_
  rintro ⟨ok, t3⟩ _
  cases ok with
  | true =>
    simp only [if_true, h1, Res.ofOption_some, Res.bind_ok]
    exact ⟨h3, by simp only; rw [hE]; ring⟩
  | false => exact ⟨hs, hE⟩

theorem mergeMove_holds (hN : 0 < p0.N) (hMN : p0.M ≤ p0.N) (ha : Represents adj p0.N A)
    (c : SAParams) (T : ℚ) (s : Partition × ℚ × Tape) (h : EInv p0 A s) :
    (mergeMove c adj T s).Holds (EInv p0 A) := by
  obtain ⟨p, E, t⟩ := s
  obtain ⟨hs, hE⟩ := h
  simp only at hs hE
  simp only [mergeMove]
  have hN' : 0 < p.N := by rw [hs.N]; exact hN
  refine (pick_holds hN' t).bind ?_
  rintro ⟨i, t1⟩ hi
  simp only at hi
  simp only [moduleOf, hi, if_true, Res.bind_ok]
  split_ifs with hemp
  · refine (redraw_holds (P := fun g => g < p.M)
      (fun u _ hu => hs.consistent.label _ (floor_lt hu hN')) t1).bind ?_
    rintro ⟨g, t2⟩ ⟨hg, hgne⟩
    simp only at hg hgne
    have hgne' : (p.nodes i).module ≠ g := by simpa using hgne
    obtain ⟨p', h1, h2, h3, _⟩ := merge_holds hs hMN ha
      (by rw [← hs.M]; exact hs.consistent.label i hi) (by rw [← hs.M]; exact hg) hgne'
    simp only [h2, Res.ofOption_some, Res.bind_ok]
    refine (metropolis_holds c.acc _ T t2).bind ?_
    rintro ⟨ok, t3⟩ _
    cases ok with
    | true =>
      simp only [if_true, h1, Res.ofOption_some, Res.bind_ok]
      exact ⟨h3, by simp only; rw [hE]; ring⟩
    | false => exact ⟨hs, hE⟩
  · exact ⟨hs, hE⟩

/-- Undoing a split restores the modularity. -/
theorem acceptSplit_holds (hMN : p0.M ≤ p0.N) (ha : Represents adj p0.N A) (c : SAParams) (T : ℚ)
    {target empty : ℕ} (ht : target < p0.M) (he : empty < p0.M) (hne : target ≠ empty)
    {p : Partition} {E : ℚ} (hs : SameNodes p0 p) (hE : E = Q p0 A p - Q p0 A p0)
    (hemp : ∀ x < p0.N, labelOf p x ≠ empty) {q : Partition} (t : Tape)
    (hq : SplitOf p q target empty) :
    (acceptSplit c adj T target empty (q, E, t)).Holds (EInv p0 A) := by
  have hqs : SameNodes p0 q := hs.trans hq.toSameNodes
  -- labels of `q` where the two modules are identified give the groups of `p`
  have hmem : ∀ x < p0.N, (labelOf q x = target ∨ labelOf q x = empty) ↔ labelOf p x = target := by
    intro x hx
    have hx' : x < p.N := by rw [hs.N]; exact hx
    constructor
    · intro h
      by_contra hh
      rw [hq.other x hx' hh] at h
      rcases h with h | h
      · exact hh h
      · exact hemp x hx h
    · exact hq.inside x hx'
  have hoth : ∀ x < p0.N, labelOf p x ≠ target → labelOf q x = labelOf p x := by
    intro x hx h
    exact hq.other x (by rw [hs.N]; exact hx) h
  simp only [acceptSplit]
  split_ifs with hsz
  · obtain ⟨q', h1, h2, h3, h4⟩ := merge_holds hqs hMN ha ht he hne
    have hQ : Q p0 A q' = Q p0 A p := by
      refine modularity_congr fun i hi j hj => ?_
      obtain ⟨_, f1, f2, f3⟩ := h4
      by_cases ci : labelOf p i = target <;> by_cases cj : labelOf p j = target
      · rw [f3 i hi j hj ((hmem i hi).2 ci) ((hmem j hj).2 cj), ci, cj]; simp
      · have gi := f2 i hi ((hmem i hi).2 ci)
        have nj := (not_congr (hmem j hj)).2 cj
        push Not at nj
        rw [f1 j hj nj.1 nj.2, hoth j hj cj, ci]
        constructor
        · intro hh
          rcases gi with gi | gi
          · exact absurd (hh.symm.trans gi) cj
          · exact absurd (hh.symm.trans gi) (hemp j hj)
        · intro hh; exact absurd hh.symm cj
      · have gj := f2 j hj ((hmem j hj).2 cj)
        have ni := (not_congr (hmem i hi)).2 ci
        push Not at ni
        rw [f1 i hi ni.1 ni.2, hoth i hi ci, cj]
        constructor
        · intro hh
          rcases gj with gj | gj
          · exact absurd (hh.trans gj) ci
          · exact absurd (hh.trans gj) (hemp i hi)
        · intro hh; exact absurd hh ci
      · have ni := (not_congr (hmem i hi)).2 ci
        have nj := (not_congr (hmem j hj)).2 cj
        push Not at ni nj
        rw [f1 i hi ni.1 ni.2, f1 j hj nj.1 nj.2, hoth i hi ci, hoth j hj cj]
    simp only [h2, Res.ofOption_some, Res.bind_ok]
    refine (metropolis_holds c.acc _ T t).bind ?_
    rintro ⟨ok, t3⟩ _
    cases ok with
    | true =>
      exact ⟨hqs, by simp only; rw [hE, hQ]; ring⟩
    | false =>
      simp only [h1, Bool.false_eq_true, if_false, Res.ofOption_some, Res.bind_ok]
      exact ⟨h3, by simp only; rw [hE, hQ]⟩
  · refine ⟨hqs, ?_⟩
    simp only
    rw [hE]
    congr 1
    -- a trivial split only renames the module
    have hz : (∀ x < p0.N, labelOf q x ≠ target) ∨ (∀ x < p0.N, labelOf q x ≠ empty) := by
      by_contra hcon
      push Not at hcon
      obtain ⟨⟨x, hx, hxt⟩, ⟨y, hy, hye⟩⟩ := hcon
      apply hsz
      constructor
      · rw [hqs.consistent.size target (by rw [hqs.M]; exact ht)]
        exact Finset.card_ne_zero_of_mem (a := x) (by simp [hqs.N, hx]; exact hxt)
      · rw [hqs.consistent.size empty (by rw [hqs.M]; exact he)]
        exact Finset.card_ne_zero_of_mem (a := y) (by simp [hqs.N, hy]; exact hye)
    refine (modularity_congr fun i hi j hj => ?_).symm
    have lab : ∀ x < p0.N, labelOf q x = labelOf p x ∨ (labelOf p x = target ∧ labelOf q x = empty) := by
      intro x hx
      by_cases c1 : labelOf p x = target
      · rcases (hmem x hx).2 c1 with h | h
        · left; rw [h, c1]
        · right; exact ⟨c1, h⟩
      · left; exact hoth x hx c1
    have ei := hemp i hi
    have ej := hemp j hj
    rcases lab i hi with li | ⟨li, li'⟩ <;> rcases lab j hj with lj | ⟨lj, lj'⟩
    · rw [li, lj]
    · rw [li, lj, lj']
      constructor
      · intro hh; exact absurd hh ei
      · intro hh
        rcases hz with hz | hz
        · exact absurd (li.trans hh) (hz i hi)
        · exact absurd lj' (hz j hj)
    · rw [lj, li, li']
      constructor
      · intro hh; exact absurd hh.symm ej
      · intro hh
        rcases hz with hz | hz
        · exact absurd (lj.trans hh.symm) (hz j hj)
        · exact absurd li' (hz i hi)
    · rw [li, lj, li', lj']; simp

theorem nbr_range {n} (ha : Represents adj n A) : ∀ a < n, ∀ b, Nbr n adj a b → b < n := by
  rintro a hna b ⟨_, s, h1, h2, rfl⟩
  exact ha.range a hna s h1 h2

theorem splitMove_holds (hN : 0 < p0.N) (hMN : p0.M ≤ p0.N) (ha : Represents adj p0.N A)
    (hsym : ∀ a b, Nbr p0.N adj a b → Nbr p0.N adj b a)
    (c : SAParams) (T : ℚ) (s : Partition × ℚ × Tape) (h : EInv p0 A s) :
    (splitMove c adj T s).Holds (EInv p0 A) := by
  obtain ⟨p, E, t⟩ := s
  obtain ⟨hs, hE⟩ := h
  simp only at hs hE
  simp only [splitMove]
  split_ifs with hz
  · exact ⟨hs, hE⟩
  · have hN' : 0 < p.N := by rw [hs.N]; exact hN
    have ha' : Represents adj p.N A := hs.N ▸ ha
    -- an empty module is found
    have hex : ∃ e, (List.range p.M).find? (fun j => (p.modules j).size == 0) = some e := by
      rw [← Option.isSome_iff_exists, List.find?_isSome]
      rw [hs.consistent.empty] at hz
      obtain ⟨m, hm⟩ := Finset.card_ne_zero.1 hz
      simp only [Finset.mem_filter, Finset.mem_range] at hm
      refine ⟨m, by simpa using hm.1, ?_⟩
      rw [hs.consistent.size m hm.1]
      have : (Finset.range p.N).filter (fun i => (p.nodes i).module = m) = ∅ := by
        ext i; simp; intro hi; exact hm.2 i hi
      simp [this]
    obtain ⟨empty, hfind⟩ := hex
    have hemM : empty < p.M := by
      have := List.mem_of_find?_eq_some hfind; simpa using this
    have hsize0 : (p.modules empty).size = 0 := by
      have := List.find?_some hfind; simpa using this
    have hemp : ∀ x < p.N, labelOf p x ≠ empty := by
      intro x hx hxe
      rw [hs.consistent.size empty hemM] at hsize0
      exact Finset.card_ne_zero_of_mem (a := x) (by simp [hx]; exact hxe) hsize0
    simp only [hfind, Res.ofOption_some, Res.bind_ok]
    refine (redraw_holds (P := fun g => g < p.M ∧ ∃ x < p.N, labelOf p x = g)
      (fun u _ hu => ⟨hs.consistent.label _ (floor_lt hu hN'), _, floor_lt hu hN', rfl⟩) t).bind ?_
    rintro ⟨target, t1⟩ ⟨⟨htM, x, hx, hxt⟩, _⟩
    simp only at htM hxt
    have hne : target ≠ empty := fun hh => hemp x hx (hxt.trans hh)
    refine (draw_holds t1).bind ?_
    rintro ⟨u, t2⟩ _
    simp only
    have K : ∀ (q : Partition) (k : ℕ) (t3 : Tape), SplitOf p q target empty →
        (k = 1 → ∃ x < p.N, labelOf q x = target) →
        Res.Holds (EInv p0 A)
          (if k = 1 then do
            let x ← SplitModuleSA c.acc c.fuel target empty c.Ti T (95 / 100) c.nochangeLimit q adj t3
            acceptSplit c adj T target empty (x.1, E, x.2)
          else acceptSplit c adj T target empty (q, E, t3)) := by
      intro q k t3 hq hk
      have fin : ∀ r t4, SplitOf p r target empty →
          Res.Holds (EInv p0 A) (acceptSplit c adj T target empty (r, E, t4)) := fun r t4 hr =>
        acceptSplit_holds hMN ha c T (by rw [← hs.M]; exact htM) (by rw [← hs.M]; exact hemM) hne hs
          hE (by rw [← hs.N]; exact hemp) t4 hr
      split_ifs with hk1
      · refine (SplitModuleSA_holds hq.consistent (by rw [hq.M]; exact htM) (by rw [hq.M]; exact hemM)
          hne (by rw [hq.N]; exact hk hk1) (hq.N ▸ ha') c.acc c.fuel c.Ti T (95 / 100)
          c.nochangeLimit t3).bind ?_
        rintro ⟨r, t4⟩ hr
        exact fin r t4 (hq.trans hne hr)
      · exact fin q t3 hq
    by_cases hu : u < c.probaComponents
    · simp only [hu, if_true]
      refine (SplitModuleByComponent_holds hs.consistent (by rw [hs.N]; exact hsym) (nbr_range ha') htM hemM t2).bind ?_
      rintro ⟨q, k, t3⟩ ⟨h1, R, mv, hR, hD, hl⟩
      refine K q k t3 h1 (fun hk => ⟨x, hx, ?_⟩)
      simp only at hl
      rw [hl x hx, if_neg, hxt]
      rw [hD.iff x hx hxt]
      rintro ⟨r, hr, hrt, _⟩
      rw [hR.one hk r hr] at hrt
      simp at hrt
    · simp only [hu, if_false]
      exact K p 1 t2 (SplitOf.refl hs.consistent) (fun _ => ⟨x, hx, hxt⟩)

theorem collectiveMove_holds (hN : 0 < p0.N) (hMN : p0.M ≤ p0.N) (ha : Represents adj p0.N A)
    (hsym : ∀ a b, Nbr p0.N adj a b → Nbr p0.N adj b a)
    (c : SAParams) (T : ℚ) (s : Partition × ℚ × Tape) (h : EInv p0 A s) :
    (collectiveMove c adj T s).Holds (EInv p0 A) :=
  (mergeMove_holds hN hMN ha c T s h).bind fun s' hs' => splitMove_holds hN hMN ha hsym c T s' hs'

/-! ## rounds -/

/-- Invariant at round boundaries. -/
structure SInv (p0 : Partition) (A : ℕ → ℕ → ℚ) (s : SAState) : Prop where
  part : SameNodes p0 s.part
  energy : s.E = Q p0 A s.part - Q p0 A p0
  best : ∀ b, s.best = some b → SameNodes p0 b.1 ∧ b.2 = Q p0 A b.1 - Q p0 A p0
  same : ∀ q ∈ s.seen, SameNodes p0 q.1
  kept : ∀ q ∈ s.seen, q.2 = false → ∃ b, s.best = some b ∧ Q p0 A q.1 ≤ Q p0 A b.1
  null : s.best = none → ∀ q ∈ s.seen, q.2 = true
  some : ∀ b, s.best = some b → ∃ q ∈ s.seen, q.2 = false

theorem copy_holds (hMN : p0.M ≤ p0.N) {p : Partition} (h : SameNodes p0 p) :
    ∃ p', CopyPartitionStruct p = some p' ∧ SameNodes p0 p' ∧ ∀ A, Q p0 A p' = Q p0 A p := by
  obtain ⟨p', e1, e2, _, e4, e5, e6⟩ := C01_step h.consistent (by rw [h.M, h.N]; exact hMN)
    (op := .copy) trivial
  refine ⟨p', e1, h.trans ⟨e2, e4, e6.1, e5⟩, fun A => modularity_congr_eq fun i hi => ?_⟩
  exact e6.2 i (by rw [h.N]; exact hi)

theorem roundEnd_holds (hMN : p0.M ≤ p0.N) (c : SAParams) (s : SAState) (h : SInv p0 A s) :
    (roundEnd c s).Holds (fun r => SInv p0 A r.1) := by
  obtain ⟨hp, hE, hb, hs, hk, hnull, hsm⟩ := h
  have hs' : ∀ nc, ∀ q ∈ s.seen ++ [(s.part, nc)], SameNodes p0 q.1 := by
    intro nc q hq
    rcases List.mem_append.1 hq with hq | hq
    · exact hs q hq
    · rw [List.mem_singleton] at hq; rw [hq]; exact hp
  simp only [roundEnd]
  by_cases hnc : noChange s.E s.previousE = true
  · have hk' : ∀ q ∈ s.seen ++ [(s.part, true)], q.2 = false →
        ∃ b, s.best = some b ∧ Q p0 A q.1 ≤ Q p0 A b.1 := by
      intro q hq hq2
      rcases List.mem_append.1 hq with hq | hq
      · exact hk q hq hq2
      · rw [List.mem_singleton] at hq; rw [hq] at hq2; simp at hq2
    have hnull' : s.best = none → ∀ q ∈ s.seen ++ [(s.part, true)], q.2 = true := by
      intro hn q hq
      rcases List.mem_append.1 hq with hq | hq
      · exact hnull hn q hq
      · rw [List.mem_singleton] at hq; rw [hq]
    have hsm' : ∀ b, s.best = some b → ∃ q ∈ s.seen ++ [(s.part, true)], q.2 = false := by
      intro b hb
      obtain ⟨q, hq, h⟩ := hsm b hb
      exact ⟨q, by simp [hq], h⟩
    simp only [hnc, if_true]
    split_ifs with h1
    · cases hbest : s.best with
      | none =>
        exact ⟨hp, hE, by simp, hs' _, by rw [hbest] at hk'; exact hk', fun _ => hnull' hbest, by simp⟩
      | some b =>
        obtain ⟨bp, bE⟩ := b
        obtain ⟨g1, g2⟩ := hb _ hbest
        rw [hbest] at hk' hsm'
        simp only
        split_ifs with h2
        · exact ⟨hp, hE, by simpa using ⟨g1, g2⟩, hs' _, hk', by simp, hsm'⟩
        · obtain ⟨p', e1, e2, e3⟩ := copy_holds hMN g1
          simp only [e1, Res.ofOption_some, Res.bind_ok]
          exact ⟨e2, by simp only; rw [e3]; exact g2, by simpa using ⟨g1, g2⟩, hs' _, hk', by simp, hsm'⟩
    · exact ⟨hp, hE, hb, hs' _, hk', hnull', hsm'⟩
  · simp only [hnc, Bool.false_eq_true, if_false]
    have hfalse : noChange s.E s.previousE = false := by simpa using hnc
    cases hbest : s.best with
    | none =>
      obtain ⟨p', e1, e2, e3⟩ := copy_holds hMN hp
      simp only [hbest, if_true, e1, Res.ofOption_some, Res.bind_ok]
      refine ⟨hp, hE, ?_, hs' _, ?_, by simp, fun b _ => ⟨(s.part, false), by simp, rfl⟩⟩
      · rintro b hb'
        simp only [Option.some.injEq] at hb'
        subst hb'
        exact ⟨e2, by simp only; rw [e3]; exact hE⟩
      · intro q hq hq2
        rcases List.mem_append.1 hq with hq | hq
        · obtain ⟨b, hb1, _⟩ := hk q hq hq2
          rw [hbest] at hb1; simp at hb1
        · rw [List.mem_singleton] at hq
          exact ⟨(p', s.E), rfl, by rw [hq]; simp only; rw [e3]⟩
    | some b =>
      obtain ⟨bp, bE⟩ := b
      obtain ⟨g1, g2⟩ := hb _ hbest
      simp only at g1 g2
      simp only [hbest]
      by_cases hgt : s.E > bE
      · obtain ⟨p', e1, e2, e3⟩ := copy_holds hMN hp
        simp only [hgt, decide_true, if_true, e1, Res.ofOption_some, Res.bind_ok]
        refine ⟨hp, hE, ?_, hs' _, ?_, by simp, fun b _ => ⟨(s.part, false), by simp, rfl⟩⟩
        · rintro b hb'
          simp only [Option.some.injEq] at hb'
          subst hb'
          exact ⟨e2, by simp only; rw [e3]; exact hE⟩
        · intro q hq hq2
          refine ⟨(p', s.E), rfl, ?_⟩
          simp only
          rw [e3]
          rcases List.mem_append.1 hq with hq | hq
          · obtain ⟨b', hb1, hb2⟩ := hk q hq hq2
            rw [hbest] at hb1
            simp only [Option.some.injEq] at hb1
            subst hb1
            simp only at hb2
            linarith
          · rw [List.mem_singleton] at hq; rw [hq]
      · simp only [hgt, decide_false, Bool.false_eq_true, if_false]
        refine ⟨hp, hE, by intro b hb'; simp only [Option.some.injEq] at hb'; subst hb'; exact ⟨g1, g2⟩,
          hs' _, ?_, by simp, fun b _ => ⟨(s.part, false), by simp, rfl⟩⟩
        intro q hq hq2
        rcases List.mem_append.1 hq with hq | hq
        · obtain ⟨b', hb1, hb2⟩ := hk q hq hq2
          rw [hbest] at hb1
          exact ⟨b', hb1, hb2⟩
        · rw [List.mem_singleton] at hq
          refine ⟨(bp, bE), rfl, ?_⟩
          rw [hq]
          simp only
          have : s.E ≤ bE := not_lt.1 hgt
          linarith

theorem saRound_holds (hN : 0 < p0.N) (hMN : p0.M ≤ p0.N) (ha : Represents adj p0.N A)
    (hsym : ∀ a b, Nbr p0.N adj a b → Nbr p0.N adj b a)
    (c : SAParams) (T : ℚ) (s : SAState) (h : SInv p0 A s) :
    (saRound c adj T s).Holds (fun r => SInv p0 A r.1) := by
  unfold saRound
  refine (repeatM_holds (P := EInv p0 A) (individualMove_holds hN ha c T) _ _
    ⟨h.part, h.energy⟩).bind ?_
  rintro ⟨p1, E1, t1⟩ h1
  refine (repeatM_holds (P := EInv p0 A) (collectiveMove_holds hN hMN ha hsym c T) _ _ h1).bind ?_
  rintro ⟨p2, E2, t2⟩ h2
  exact roundEnd_holds hMN c _ ⟨h2.1, h2.2, h.best, h.same, h.kept, h.null, h.some⟩

theorem saLoop_holds (hN : 0 < p0.N) (hMN : p0.M ≤ p0.N) (ha : Represents adj p0.N A)
    (hsym : ∀ a b, Nbr p0.N adj a b → Nbr p0.N adj b a) (c : SAParams) :
    ∀ (fuel : ℕ) (T : ℚ) (s : SAState), SInv p0 A s →
      (saLoop c adj fuel T s).Holds (SInv p0 A)
  | 0, _, _, _ => trivial
  | fuel + 1, T, s, h => by
    unfold saLoop
    by_cases hT : ¬ T > c.Tf
    · simp only [hT, not_false_eq_true, if_true]; exact h
    · simp only [hT, if_false]
      refine (saRound_holds hN hMN ha hsym c T s h).bind ?_
      rintro ⟨s', stop⟩ hs'
      simp only
      split_ifs
      · exact hs'
      · exact saLoop_holds hN hMN ha hsym c fuel _ s' hs'

theorem saInit_inv (hc : Consistent p0) (t : Tape) : SInv p0 A (saInit p0 t) :=
  ⟨SameNodes.refl hc, by simp [saInit], by simp [saInit], by simp [saInit], by simp [saInit],
    by simp [saInit], by simp [saInit]⟩

end

end NC
