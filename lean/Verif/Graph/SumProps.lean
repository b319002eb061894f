import Verif.Graph.Compare2
import Verif.Graph.RandomProps

set_option linter.unusedSimpArgs false

/-!
# C71, C72 (`AddTwoNetworks`), C73 (`CompareTwoNetworks`)
-/

namespace GR

/-! ## C71 -/

/-- C71. For all networks `A`, `B` with distinct labels (as every network read from a file has),
`AddTwoNetworks` returns a network whose nodes are those of `A`, with the same numbers, and those of `B`
missing from `A`, each label once; whose links are, by labels, exactly the links of `A`, with the weights of
`A`, and the links of `B` that are not in `A`, with weight 1; each link is listed once. -/
theorem C71_union {A B : Net} {gA gB : WG} (hA : Holds A gA) (lA : LabelsOK A) (fA : Fit A)
    (dA : Distinct A) (hB : Holds B gB) (fB : Fit B) (dB : Distinct B) :
    ∃ S, AddTwoNetworks A B = some S ∧ A.n ≤ S.n ∧ (∀ i, i < A.n → S.label i = A.label i) ∧
      Distinct S ∧ (∀ a, HasNode S a ↔ HasNode A a ∨ HasNode B a) ∧
      (∀ a b w, HasLink S a b w ↔
        HasLink A a b w ∨ ((¬ ∃ v, HasLink A a b v) ∧ (∃ v, HasLink B a b v) ∧ w = 1)) ∧
      (∃ g, Holds S g) ∧ LabelsOK S ∧ CachesOK S := by
  -- rows of `gA` outside the network are irrelevant
  set g : WG := fun i j => if i < A.n then gA i j else none with hg
  have hA' : Holds A g := by
    intro i hi
    have : g i = gA i := by funext j; simp [hg, hi]
    rw [this]
    exact hA i hi
  obtain ⟨S0, e0, n0, c0, h0, l0, k0⟩ := C44_copy hA' lA fA dA
  have d0 : Distinct S0 := by
    intro i k hi hk e
    rw [n0] at hi hk
    rw [(c0 i hi).1, (c0 k hk).1] at e
    exact dA i k hi hk e
  have nodes0 : ∀ a, HasNode S0 a ↔ HasNode A a := by
    intro a
    constructor
    · rintro ⟨i, hi, e⟩; rw [n0] at hi; exact ⟨i, hi, by rw [← (c0 i hi).1]; exact e⟩
    · rintro ⟨i, hi, e⟩; exact ⟨i, by rw [n0]; exact hi, by rw [(c0 i hi).1]; exact e⟩
  obtain ⟨S1, e1, G⟩ := addMissing_ok dA fB dB (g := g) (fun i j hi => by simp [hg, Nat.not_lt.2 hi])
    (List.range B.n) (fun _ => False) S0 (by simp) List.nodup_range (by simp) (by simp)
    ⟨⟨h0, k0⟩, l0, by omega, fun i hi => (c0 i hi).1, d0, fun a => by simp [nodes0]⟩
  have nodes1 : ∀ a, HasNode S1 a ↔ HasNode A a ∨ HasNode B a := by
    intro a
    rw [G.nodes]
    simp [HasNode]
  obtain ⟨S, e2, n2, lab2, l2, r2⟩ := addLinks_ok hB S1.label S1.n (List.range B.n) S1 g (by simp) rfl rfl
    G.rep G.labels G.distinct (fun a ha => (nodes1 a).2 (Or.inr ha))
  have d2 : Distinct S := by
    intro i k hi hk e
    rw [n2] at hi hk
    rw [lab2] at e
    exact G.distinct i k hi hk e
  refine ⟨S, ?_, ?_, ?_, d2, ?_, ?_, ⟨_, r2.1⟩, l2, r2.2⟩
  · simp only [AddTwoNetworks, Option.bind_eq_bind, e0, Option.bind_some, e1, e2]
  · rw [n2]; exact G.size
  · intro i hi; rw [lab2]; exact G.first i hi
  · intro a
    rw [← nodes1 a]
    simp only [HasNode, n2, lab2]
  · -- links, by labels
    have hS : ∀ a b w, HasLink S a b w ↔ ∃ i j, i < S1.n ∧ j < S1.n ∧ S1.label i = a ∧ S1.label j = b ∧
        over g (FromRows B S1.label S1.n (List.range B.n)) i j = some w := by
      intro a b w
      rw [hasLink_iff r2.1, n2, lab2]
    have hL1 : ∀ a b w, (∃ i j, i < S1.n ∧ j < S1.n ∧ S1.label i = a ∧ S1.label j = b ∧ g i j = some w)
        ↔ HasLink A a b w := by
      intro a b w
      rw [hasLink_iff hA']
      constructor
      · rintro ⟨i, j, hi, hj, ea, eb, e⟩
        have hi' : i < A.n := by
          by_contra hc
          simp [hg, hc] at e
        obtain ⟨l, hl, er, _⟩ := (hA' i hi').2.2 j w e
        obtain ⟨k, hk, ek, _⟩ := (hA' i hi').2.1 l hl
        rw [er] at ek; cases ek
        exact ⟨i, j, hi', hk, by rw [← G.first i hi']; exact ea, by rw [← G.first j hk]; exact eb, e⟩
      · rintro ⟨i, j, hi, hj, ea, eb, e⟩
        have := G.size
        exact ⟨i, j, by omega, by omega, by rw [G.first i hi]; exact ea, by rw [G.first j hj]; exact eb, e⟩
    have hL2 : ∀ i j, i < S1.n → j < S1.n → (FromRows B S1.label S1.n (List.range B.n) i j ↔
        ∃ v, HasLink B (S1.label i) (S1.label j) v) := by
      intro i j hi hj
      constructor
      · rintro ⟨p, hp, _, _, lp, l, hl, q, eq, lq⟩
        rw [List.mem_range] at hp
        obtain ⟨q', hq', e', _⟩ := (hB p hp).2.1 l hl
        rw [eq] at e'; cases e'
        exact ⟨l.weight, p, q, l, hp, hq', lp.symm, lq.symm, hl, eq, rfl⟩
      · rintro ⟨v, p, q, l, hp, hq, lp, lq, hl, eq, _⟩
        exact ⟨p, by simpa using hp, hi, hj, lp.symm, l, hl, q, eq, lq.symm⟩
    intro a b w
    rw [hS]
    constructor
    · rintro ⟨i, j, hi, hj, rfl, rfl, e⟩
      unfold over at e
      cases hgij : g i j with
      | some v =>
        rw [hgij] at e
        left
        exact (hL1 _ _ _).1 ⟨i, j, hi, hj, rfl, rfl, by rw [hgij]; exact e⟩
      | none =>
        rw [hgij] at e
        right
        simp only at e
        split_ifs at e with hR
        refine ⟨?_, (hL2 i j hi hj).1 hR, (Option.some.inj e).symm⟩
        rintro ⟨v, hv⟩
        obtain ⟨i', j', hi', hj', ei, ej, ev⟩ := (hL1 _ _ _).2 hv
        have e1 := G.distinct i' i hi' hi ei
        have e2 := G.distinct j' j hj' hj ej
        subst e1; subst e2
        rw [hgij] at ev; cases ev
    · rintro (h | ⟨hno, ⟨v, hv⟩, rfl⟩)
      · obtain ⟨i, j, hi, hj, ei, ej, ev⟩ := (hL1 _ _ _).2 h
        exact ⟨i, j, hi, hj, ei, ej, by unfold over; rw [ev]⟩
      · obtain ⟨p, q, l, hp, hq, lp, lq, hl, eq, ew⟩ := hv
        obtain ⟨i, hi, ei⟩ := (nodes1 a).2 (Or.inr ⟨p, hp, lp⟩)
        obtain ⟨j, hj, ej⟩ := (nodes1 b).2 (Or.inr ⟨q, hq, lq⟩)
        refine ⟨i, j, hi, hj, ei, ej, ?_⟩
        have hn : g i j = none := by
          cases hgij : g i j with
          | none => rfl
          | some u => exact absurd ⟨u, (hL1 a b u).1 ⟨i, j, hi, hj, ei, ej, hgij⟩⟩ hno
        have hR : FromRows B S1.label S1.n (List.range B.n) i j :=
          (hL2 i j hi hj).2 ⟨v, by rw [ei, ej]; exact ⟨p, q, l, hp, hq, lp, lq, hl, eq, ew⟩⟩
        unfold over
        rw [hn]
        simp [hR]

/-- C71. Up to weights and numbering the sum does not depend on the order of the networks. -/
theorem C71_symmetric {A B : Net} {gA gB : WG} (hA : Holds A gA) (lA : LabelsOK A) (fA : Fit A)
    (dA : Distinct A) (hB : Holds B gB) (lB : LabelsOK B) (fB : Fit B) (dB : Distinct B) :
    ∃ S T, AddTwoNetworks A B = some S ∧ AddTwoNetworks B A = some T ∧
      (∀ a, HasNode S a ↔ HasNode T a) ∧
      ∀ a b, (∃ w, HasLink S a b w) ↔ ∃ w, HasLink T a b w := by
  obtain ⟨S, eS, _, _, _, nS, lS, _⟩ := C71_union hA lA fA dA hB fB dB
  obtain ⟨T, eT, _, _, _, nT, lT, _⟩ := C71_union hB lB fB dB hA fA dA
  have key : ∀ (X Y Z : Net), (∀ a b w, HasLink X a b w ↔
        HasLink Y a b w ∨ ((¬ ∃ v, HasLink Y a b v) ∧ (∃ v, HasLink Z a b v) ∧ w = 1)) →
      ∀ a b, (∃ w, HasLink X a b w) ↔ (∃ v, HasLink Y a b v) ∨ ∃ v, HasLink Z a b v := by
    intro X Y Z h a b
    constructor
    · rintro ⟨w, hw⟩
      rcases (h a b w).1 hw with h1 | ⟨_, h1, _⟩
      · exact Or.inl ⟨w, h1⟩
      · exact Or.inr h1
    · intro h1
      by_cases h2 : ∃ v, HasLink Y a b v
      · obtain ⟨v, hv⟩ := h2
        exact ⟨v, (h a b v).2 (Or.inl hv)⟩
      · exact ⟨1, (h a b 1).2 (Or.inr ⟨h2, h1.resolve_left h2, rfl⟩)⟩
  refine ⟨S, T, eS, eT, fun a => by rw [nS, nT, or_comm], fun a b => ?_⟩
  rw [key S A B lS, key T B A lT, or_comm]

/-- Nodes `x`, `y`; a link `x → y` of weight 2. -/
def sumA : Net :=
  { n := 2, label := fun i => if i = 0 then "x" else "y"
    neig := fun i => if i = 0 then [⟨"y", some 1, 2⟩] else []
    degree := fun _ => 0, strength := fun _ => 0 }

/-- Nodes `y`, `z`, `x`; links `x → y` of weight 3 and `y → z` of weight 5. -/
def sumB : Net :=
  { n := 3, label := fun i => if i = 0 then "y" else if i = 1 then "z" else "x"
    neig := fun i => if i = 2 then [⟨"y", some 0, 3⟩] else if i = 0 then [⟨"z", some 1, 5⟩] else []
    degree := fun _ => 0, strength := fun _ => 0 }

theorem sumA_good : Holds sumA (fun i j => if i = 0 ∧ j = 1 then some 2 else none) ∧ LabelsOK sumA ∧
    Fit sumA ∧ Distinct sumA := by
  refine ⟨?_, ?_, ?_, ?_⟩
  · intro i hi
    have : i = 0 ∨ i = 1 := by simp only [sumA] at hi; omega
    rcases this with rfl | rfl
    · refine ⟨by simp [sumA], by simp [sumA], ?_⟩
      intro j w hw
      simp at hw
      simp [sumA, hw]
    · refine ⟨by simp [sumA], by simp [sumA], ?_⟩
      intro j w hw
      simp at hw
  · intro i hi l hl j hj
    have : i = 0 ∨ i = 1 := by simp only [sumA] at hi; omega
    rcases this with rfl | rfl
    · simp only [sumA, if_true, List.mem_singleton] at hl
      subst hl
      simp only [Option.some.injEq] at hj
      subst hj
      simp [sumA]
    · simp [sumA] at hl
  · intro i hi
    have : i = 0 ∨ i = 1 := by simp only [sumA] at hi; omega
    rcases this with rfl | rfl <;> decide +kernel
  · intro i k hi hk e
    have h1 : i = 0 ∨ i = 1 := by simp only [sumA] at hi; omega
    have h2 : k = 0 ∨ k = 1 := by simp only [sumA] at hk; omega
    rcases h1 with rfl | rfl <;> rcases h2 with rfl | rfl <;> simp_all [sumA]

theorem sumB_good : Holds sumB (fun i j => if i = 2 ∧ j = 0 then some 3 else
      if i = 0 ∧ j = 1 then some 5 else none) ∧ Fit sumB ∧ Distinct sumB := by
  refine ⟨?_, ?_, ?_⟩
  · intro i hi
    have : i = 0 ∨ i = 1 ∨ i = 2 := by simp only [sumB] at hi; omega
    rcases this with rfl | rfl | rfl
    · refine ⟨by simp [sumB], by simp [sumB], ?_⟩
      intro j w hw
      simp at hw
      simp [sumB, hw]
    · refine ⟨by simp [sumB], by simp [sumB], ?_⟩
      intro j w hw
      simp at hw
    · refine ⟨by simp [sumB], by simp [sumB], ?_⟩
      intro j w hw
      simp at hw
      simp [sumB, hw]
  · intro i hi
    have : i = 0 ∨ i = 1 ∨ i = 2 := by simp only [sumB] at hi; omega
    rcases this with rfl | rfl | rfl <;> decide +kernel
  · intro i k hi hk e
    have h1 : i = 0 ∨ i = 1 ∨ i = 2 := by simp only [sumB] at hi; omega
    have h2 : k = 0 ∨ k = 1 ∨ k = 2 := by simp only [sumB] at hk; omega
    rcases h1 with rfl | rfl | rfl <;> rcases h2 with rfl | rfl | rfl <;> simp_all [sumB]

/-- Rows of an optional network, labels first. -/
def show? (r : Option Net) : List (String × List (String × ℚ)) :=
  match r with
  | none => []
  | some net => (List.range net.n).map fun i =>
      (net.label i, (net.neig i).map fun l => (l.nodeLabel, l.weight))

example : (∃ S, AddTwoNetworks sumA sumB = some S ∧ HasNode S "z" ∧ HasLink S "y" "z" 1) ∧
    show? (AddTwoNetworks sumA sumB) = [("x", [("y", 2)]), ("y", [("z", 1)]), ("z", [])] := by
  refine ⟨?_, by decide +kernel⟩
  obtain ⟨S, e, _, _, _, hn, hl, _⟩ := C71_union sumA_good.1 sumA_good.2.1 sumA_good.2.2.1
    sumA_good.2.2.2 sumB_good.1 sumB_good.2.1 sumB_good.2.2
  refine ⟨S, e, (hn _).2 (Or.inr ⟨1, by simp [sumB], by simp [sumB]⟩), (hl _ _ _).2 (Or.inr ⟨?_, ?_, rfl⟩)⟩
  · rintro ⟨v, i, j, l, hi, hj, ha, hb, hlm, _⟩
    have h1 : i = 0 ∨ i = 1 := by simp only [sumA] at hi; omega
    rcases h1 with rfl | rfl
    · simp [sumA] at ha
    · simp [sumA] at hlm
  · exact ⟨5, 0, 1, ⟨"z", some 1, 5⟩, by simp [sumB], by simp [sumB], by simp [sumB], by simp [sumB],
      by simp [sumB], rfl, rfl⟩

/-! ## C72 -/

/-- C72, full statement: every link of the sum has the weight it has in one of the two networks (or the
sum of the weights it has in them). -/
def C72_statement : Prop :=
  ∀ (A B S : Net) (gA gB : WG), Holds A gA → LabelsOK A → Fit A → Distinct A → Holds B gB → Fit B →
    Distinct B → AddTwoNetworks A B = some S → ∀ a b w, HasLink S a b w →
      HasLink A a b w ∨ HasLink B a b w ∨ ∃ u v, HasLink A a b u ∧ HasLink B a b v ∧ w = u + v

/-- C72 refuted: a link of weight 5 that only `B` has gets weight 1. -/
theorem C72_refuted : ¬ C72_statement := by
  intro h
  obtain ⟨S, e, _, _, _, _, hl, _⟩ := C71_union sumA_good.1 sumA_good.2.1 sumA_good.2.2.1
    sumA_good.2.2.2 sumB_good.1 sumB_good.2.1 sumB_good.2.2
  have noA : ¬ ∃ v, HasLink sumA "y" "z" v := by
    rintro ⟨v, i, j, l, hi, hj, ha, hb, hlm, _⟩
    have h1 : i = 0 ∨ i = 1 := by simp only [sumA] at hi; omega
    rcases h1 with rfl | rfl
    · simp [sumA] at ha
    · simp [sumA] at hlm
  have h1 : HasLink S "y" "z" 1 := (hl _ _ _).2 (Or.inr ⟨noA, ⟨5, 0, 1, ⟨"z", some 1, 5⟩, by simp [sumB],
    by simp [sumB], by simp [sumB], by simp [sumB], by simp [sumB], rfl, rfl⟩, rfl⟩)
  rcases h _ _ S _ _ sumA_good.1 sumA_good.2.1 sumA_good.2.2.1 sumA_good.2.2.2 sumB_good.1 sumB_good.2.1
    sumB_good.2.2 e _ _ _ h1 with h2 | h2 | ⟨u, _, h2, _⟩
  · exact noA ⟨1, h2⟩
  · rw [hasLink_iff sumB_good.1] at h2
    obtain ⟨i, j, _, _, _, _, e⟩ := h2
    split_ifs at e <;> simp at e
  · exact noA ⟨u, h2⟩

/-- C72, partial: links of `A` keep their weight; if all links of `B` have weight 1 (an unweighted network),
every link of the sum has a weight it has in `A` or in `B`. Missing: the weights of `B`. -/
theorem C72_weights_partial {A B S : Net} {gA gB : WG} (hA : Holds A gA) (lA : LabelsOK A) (fA : Fit A)
    (dA : Distinct A) (hB : Holds B gB) (fB : Fit B) (dB : Distinct B)
    (hS : AddTwoNetworks A B = some S) :
    (∀ a b w, HasLink A a b w → ∀ v, HasLink S a b v ↔ v = w) ∧
      ((∀ a b w, HasLink B a b w → w = 1) →
        ∀ a b w, HasLink S a b w → HasLink A a b w ∨ HasLink B a b w) := by
  obtain ⟨S', e, _, _, _, _, hl, _⟩ := C71_union hA lA fA dA hB fB dB
  rw [hS] at e
  obtain rfl := Option.some.inj e
  refine ⟨fun a b w hw v => ?_, fun h1 a b w hw => ?_⟩
  · rw [hl]
    constructor
    · rintro (h | ⟨h, _⟩)
      · rw [hasLink_iff hA] at h hw
        obtain ⟨i, j, hi, hj, ei, ej, ev⟩ := h
        obtain ⟨i', j', hi', hj', ei', ej', ev'⟩ := hw
        have e1 := dA i i' hi hi' (by rw [ei, ei'])
        have e2 := dA j j' hj hj' (by rw [ej, ej'])
        subst e1; subst e2
        rw [ev] at ev'
        exact Option.some.inj ev'
      · exact absurd ⟨w, hw⟩ h
    · rintro rfl; exact Or.inl hw
  · rcases (hl a b w).1 hw with h | ⟨_, ⟨v, hv⟩, rfl⟩
    · exact Or.inl h
    · exact Or.inr (h1 a b v hv ▸ hv)

example : ∃ S, AddTwoNetworks sumA sumA = some S ∧ ∀ v, HasLink S "x" "y" v ↔ v = 2 := by
  obtain ⟨S, e, _⟩ := C71_union sumA_good.1 sumA_good.2.1 sumA_good.2.2.1
    sumA_good.2.2.2 sumA_good.1 sumA_good.2.2.1 sumA_good.2.2.2
  exact ⟨S, e, (C72_weights_partial sumA_good.1 sumA_good.2.1 sumA_good.2.2.1
    sumA_good.2.2.2 sumA_good.1 sumA_good.2.2.1 sumA_good.2.2.2 e).1 "x" "y" 2
    ⟨0, 1, ⟨"y", some 1, 2⟩, by simp [sumA], by simp [sumA], by simp [sumA], by simp [sumA],
      by simp [sumA], rfl, rfl⟩⟩

end GR
