import Verif.Graph.SumProps

set_option linter.unusedSimpArgs false

/-!
# C73: `CompareTwoNetworks`
-/

namespace GR

/-- Labels of the nodes. -/
def nodeLabels (net : Net) : Finset String := (Finset.range net.n).image net.label

/-- Unordered pairs of labels of linked nodes. -/
def linksOf (net : Net) : Finset (Sym2 String) :=
  (Finset.range net.n).biUnion fun i =>
    ((net.neig i).filterMap Link.ref).toFinset.image fun j => s(net.label i, net.label j)

/-- Every link goes both ways and none is a self link. -/
structure Undirected (net : Net) (g : WG) : Prop where
  sym : ∀ i j, i < net.n → j < net.n → (g i j).isSome → (g j i).isSome
  loop : ∀ i, i < net.n → g i i = none

theorem mem_linksOf {net : Net} {g : WG} (h : Holds net g) (e : Sym2 String) :
    e ∈ linksOf net ↔ ∃ i j, i < net.n ∧ j < net.n ∧ (g i j).isSome ∧ e = s(net.label i, net.label j) := by
  simp only [linksOf, Finset.mem_biUnion, Finset.mem_range, Finset.mem_image, List.mem_toFinset,
    List.mem_filterMap]
  constructor
  · rintro ⟨i, hi, j, ⟨l, hl, er⟩, rfl⟩
    obtain ⟨k, hk, ek, eg⟩ := (h i hi).2.1 l hl
    rw [er] at ek; cases ek
    exact ⟨i, j, hi, hk, by rw [eg]; rfl, rfl⟩
  · rintro ⟨i, j, hi, hj, hg, rfl⟩
    obtain ⟨w, hw⟩ := Option.isSome_iff_exists.1 hg
    obtain ⟨l, hl, er, _⟩ := (h i hi).2.2 j w hw
    exact ⟨i, hi, j, ⟨l, hl, er⟩, rfl⟩

theorem mem_nodeLabels {net : Net} (a : String) : a ∈ nodeLabels net ↔ HasNode net a := by
  simp [nodeLabels, HasNode]

theorem card_nodeLabels {net : Net} (hd : Distinct net) : (nodeLabels net).card = net.n := by
  unfold nodeLabels
  rw [Finset.card_image_of_injOn, Finset.card_range]
  intro i hi j hj e
  exact hd i j (by simpa using hi) (by simpa using hj) e

theorem ends_isSome {X Y : Net} (dY : Distinct Y) (i j : ℕ) :
    (ends X Y i (some j)).isSome = true ↔ HasNode Y (X.label i) ∧ HasNode Y (X.label j) := by
  unfold ends
  by_cases h1 : HasNode Y (X.label i)
  · obtain ⟨a, _, _, ea⟩ := (hasNode_iff_dict dY _).1 h1
    by_cases h2 : HasNode Y (X.label j)
    · obtain ⟨b, _, _, eb⟩ := (hasNode_iff_dict dY _).1 h2
      simp [ea, eb, h1, h2]
    · simp [ea, (hasNode_iff_dict dY _).2 h2, h1, h2]
  · simp [(hasNode_iff_dict dY _).2 h1, h1]

theorem also_iff {X Y : Net} {gY : WG} (hY : Holds Y gY) (dY : Distinct Y) (i j : ℕ) :
    also X Y i (some j) = true ↔
      ∃ a b, a < Y.n ∧ b < Y.n ∧ Y.label a = X.label i ∧ Y.label b = X.label j ∧ (gY a b).isSome := by
  unfold also ends
  constructor
  · intro h
    by_cases h1 : HasNode Y (X.label i)
    · obtain ⟨a, ha, la, ea⟩ := (hasNode_iff_dict dY _).1 h1
      by_cases h2 : HasNode Y (X.label j)
      · obtain ⟨b, hb, lb, eb⟩ := (hasNode_iff_dict dY _).1 h2
        simp only [Option.bind_some, ea, eb, isLink_eq hY ha] at h
        exact ⟨a, b, ha, hb, la, lb, h⟩
      · simp [ea, (hasNode_iff_dict dY _).2 h2] at h
    · simp [(hasNode_iff_dict dY _).2 h1] at h
  · rintro ⟨a, b, ha, hb, la, lb, hg⟩
    have ea := dictFind_eq ha dY
    have eb := dictFind_eq hb dY
    rw [la] at ea
    rw [lb] at eb
    simp only [Option.bind_some, ea, eb, isLink_eq hY ha]
    exact hg

/-- Half of the number of ordered pairs is the number of unordered pairs of labels. -/
theorem half_links {X : Net} {g : WG} (h : Holds X g) (dX : Distinct X) (u : Undirected X g)
    (Q : ℕ → ℕ → Bool) (hQ : ∀ i j, Q i j = true → Q j i = true) (E : Finset (Sym2 String))
    (hE : ∀ i j, i < X.n → j < X.n → (g i j).isSome → (s(X.label i, X.label j) ∈ E ↔ Q i j = true))
    (hsub : E ⊆ linksOf X) :
    (linkedPairs X.n g Q).card / 2 = E.card := by
  have hm : ∀ i j, (i, j) ∈ linkedPairs X.n g Q ↔ (i < X.n ∧ j < X.n) ∧ (g i j).isSome ∧ Q i j = true := by
    intro i j
    simp [linkedPairs]
  rw [card_two_sym (P := linkedPairs X.n g Q) (lab := X.label)]
  · rw [Nat.mul_div_cancel_left _ (by norm_num)]
    congr 1
    ext e
    simp only [Finset.mem_image]
    constructor
    · rintro ⟨⟨i, j⟩, hp, rfl⟩
      obtain ⟨⟨hi, hj⟩, hg, hq⟩ := (hm i j).1 hp
      exact (hE i j hi hj hg).2 hq
    · intro he
      obtain ⟨i, j, hi, hj, hg, rfl⟩ := (mem_linksOf h e).1 (hsub he)
      exact ⟨(i, j), (hm i j).2 ⟨⟨hi, hj⟩, hg, (hE i j hi hj hg).1 he⟩, rfl⟩
  · intro i j hp
    obtain ⟨⟨hi, hj⟩, hg, hq⟩ := (hm i j).1 hp
    exact (hm j i).2 ⟨⟨hj, hi⟩, u.sym i j hi hj hg, hQ i j hq⟩
  · intro i hp
    obtain ⟨⟨hi, _⟩, hg, _⟩ := (hm i i).1 hp
    rw [u.loop i hi] at hg
    simp at hg
  · intro i j k l hp hq e
    exact dX i k ((hm i j).1 hp).1.1 ((hm k l).1 hq).1.1 e

open Classical in
/-- Links of `X` between nodes that `Y` has too. -/
noncomputable def within (X Y : Net) : Finset (Sym2 String) := (linksOf X).filter fun e => ∀ a ∈ e, a ∈ nodeLabels Y

theorem mem_within {X Y : Net} (e : Sym2 String) :
    e ∈ within X Y ↔ e ∈ linksOf X ∧ ∀ a ∈ e, a ∈ nodeLabels Y := by
  classical
  rw [within, Finset.mem_filter]

theorem count_half {X Y : Net} {gX gY : WG} (hX : Holds X gX) (dX : Distinct X) (uX : Undirected X gX)
    (hY : Holds Y gY) (dY : Distinct Y) (uY : Undirected Y gY) :
    ∃ c d, countLinks X Y (List.range X.n) = some (c, d) ∧ c / 2 = (within X Y).card ∧
      d / 2 = (linksOf X ∩ linksOf Y).card := by
  refine ⟨_, _, countLinks_eq hX, ?_, ?_⟩
  · apply half_links hX dX uX
    · intro i j hq
      rw [ends_isSome dY] at hq ⊢
      exact hq.symm
    · intro i j hi hj hg
      rw [ends_isSome dY, mem_within, mem_linksOf hX]
      constructor
      · rintro ⟨_, h2⟩
        exact ⟨(mem_nodeLabels _).1 (h2 _ (by simp)), (mem_nodeLabels _).1 (h2 _ (by simp))⟩
      · rintro ⟨h1, h2⟩
        refine ⟨⟨i, j, hi, hj, hg, rfl⟩, fun a ha => ?_⟩
        rw [Sym2.mem_iff] at ha
        rw [mem_nodeLabels]
        rcases ha with rfl | rfl
        · exact h1
        · exact h2
    · intro e he; exact ((mem_within e).1 he).1
  · apply half_links hX dX uX
    · intro i j hq
      rw [also_iff hY dY] at hq ⊢
      obtain ⟨a, b, ha, hb, la, lb, hg⟩ := hq
      exact ⟨b, a, hb, ha, lb, la, uY.sym a b ha hb hg⟩
    · intro i j hi hj hg
      rw [also_iff hY dY, Finset.mem_inter, mem_linksOf hX, mem_linksOf hY]
      constructor
      · rintro ⟨_, a, b, ha, hb, hg', e⟩
        rw [Sym2.eq_iff] at e
        rcases e with ⟨e1, e2⟩ | ⟨e1, e2⟩
        · exact ⟨a, b, ha, hb, e1.symm, e2.symm, hg'⟩
        · exact ⟨b, a, hb, ha, e1.symm, e2.symm, uY.sym a b ha hb hg'⟩
      · rintro ⟨a, b, ha, hb, la, lb, hg'⟩
        exact ⟨⟨i, j, hi, hj, hg, rfl⟩, a, b, ha, hb, hg', by rw [la, lb]⟩
    · exact Finset.inter_subset_left

/-- `a / b`, undefined (NaN in C) for an empty condition. -/
def ratio (a b : ℕ) : Option ℚ := if b = 0 then none else some ((a : ℚ) / b)

open Classical in
/-- C73. For all undirected networks without self links and with distinct labels, `CompareTwoNetworks`
returns: the numbers of labels of `A`, of `B` and common to both; the numbers of links of `A` (of `B`)
between nodes common to both networks, and of links common to both; and the four conditional
frequencies: of being a node of `A` given a node of `B`, of being a link of `A` given a link of `B`
between common nodes, and vice versa (NaN when the condition is never met). -/
theorem C73_compare {A B : Net} {gA gB : WG} (hA : Holds A gA) (dA : Distinct A) (uA : Undirected A gA)
    (hB : Holds B gB) (dB : Distinct B) (uB : Undirected B gB) :
    CompareTwoNetworks A B = some
      { nA_nod := (nodeLabels A).card, nB_nod := (nodeLabels B).card
        ncom_nod := (nodeLabels A ∩ nodeLabels B).card
        p_nAB := ratio (nodeLabels A ∩ nodeLabels B).card (nodeLabels B).card
        p_nBA := ratio (nodeLabels A ∩ nodeLabels B).card (nodeLabels A).card
        nA_lin := (within A B).card, nB_lin := (within B A).card
        ncom_lin := (linksOf A ∩ linksOf B).card
        p_lAB := ratio (linksOf A ∩ linksOf B).card (within B A).card
        p_lBA := ratio (linksOf A ∩ linksOf B).card (within A B).card } := by
  obtain ⟨c, d, e1, hc, hd⟩ := count_half hA dA uA hB dB uB
  obtain ⟨c', d', e2, hc', _⟩ := count_half hB dB uB hA dA uA
  have count : ∀ n, (List.range n).foldl (fun (c : ℕ) _ => c + 1) 0 = n := by
    intro n
    induction n with
    | zero => rfl
    | succ n ih => rw [List.range_succ, List.foldl_append, ih]; rfl
  have com : ∀ n, n ≤ B.n → (List.range n).foldl
      (fun (c : ℕ) (p : ℕ) => if (dictFind A (B.label p)).isSome then c + 1 else c) 0
      = ((Finset.range n).filter fun p => HasNode A (B.label p)).card := by
    intro n hn
    induction n with
    | zero => simp
    | succ n ih =>
      rw [List.range_succ, List.foldl_append, ih (by omega), Finset.range_add_one, Finset.filter_insert]
      simp only [List.foldl_cons, List.foldl_nil]
      by_cases h : HasNode A (B.label n)
      · obtain ⟨i, _, _, e⟩ := (hasNode_iff_dict dA _).1 h
        rw [if_pos h, Finset.card_insert_of_notMem (by simp)]
        simp [e]
      · simp [(hasNode_iff_dict dA _).2 h, h]
  have hcom : (List.range B.n).foldl
      (fun (c : ℕ) (p : ℕ) => if (dictFind A (B.label p)).isSome then c + 1 else c) 0
      = (nodeLabels A ∩ nodeLabels B).card := by
    rw [com B.n le_rfl]
    have : nodeLabels A ∩ nodeLabels B
        = ((Finset.range B.n).filter fun p => HasNode A (B.label p)).image B.label := by
      ext a
      simp only [Finset.mem_inter, mem_nodeLabels, Finset.mem_image, Finset.mem_filter, Finset.mem_range]
      constructor
      · rintro ⟨h1, p, hp, rfl⟩; exact ⟨p, ⟨hp, h1⟩, rfl⟩
      · rintro ⟨p, ⟨hp, h1⟩, rfl⟩; exact ⟨h1, p, hp, rfl⟩
    rw [this, Finset.card_image_of_injOn]
    intro i hi j hj e
    simp only [Finset.coe_filter, Set.mem_ofPred_eq, Finset.mem_range] at hi hj
    exact dB i j hi.1 hj.1 e
  unfold CompareTwoNetworks
  simp only [Option.bind_eq_bind, e1, e2, Option.bind_some, count, hcom, hc, hd, hc', Option.pure_def,
    card_nodeLabels dA, card_nodeLabels dB, quot, ratio]

/-- C73. The frequencies are frequencies: between 0 and 1 when they are numbers. -/
theorem C73_frequencies {A B : Net} {gA gB : WG} (hA : Holds A gA) (dA : Distinct A)
    (uA : Undirected A gA) (hB : Holds B gB) (dB : Distinct B) (uB : Undirected B gB) :
    ∃ r, CompareTwoNetworks A B = some r ∧
      ∀ p, p = r.p_nAB ∨ p = r.p_nBA ∨ p = r.p_lAB ∨ p = r.p_lBA → ∀ x, p = some x → 0 ≤ x ∧ x ≤ 1 := by
  refine ⟨_, C73_compare hA dA uA hB dB uB, ?_⟩
  have key : ∀ a b : ℕ, a ≤ b → ∀ x, ratio a b = some x → 0 ≤ x ∧ x ≤ 1 := by
    intro a b hab x hx
    unfold ratio at hx
    split_ifs at hx with h0
    obtain rfl := Option.some.inj hx
    have hb : (0 : ℚ) < b := by exact_mod_cast Nat.pos_of_ne_zero h0
    refine ⟨by positivity, ?_⟩
    rw [div_le_one hb]
    exact_mod_cast hab
  have w1 : ∀ (X Y : Net) (gX gY : WG), Holds X gX → Holds Y gY → linksOf X ∩ linksOf Y ⊆ within X Y := by
    intro X Y gX gY hX hY e he
    rw [Finset.mem_inter] at he
    rw [mem_within]
    refine ⟨he.1, fun a ha => ?_⟩
    obtain ⟨i, j, hi, hj, _, rfl⟩ := (mem_linksOf hY e).1 he.2
    rw [Sym2.mem_iff] at ha
    rw [mem_nodeLabels]
    rcases ha with rfl | rfl
    · exact ⟨i, hi, rfl⟩
    · exact ⟨j, hj, rfl⟩
  rintro p (rfl | rfl | rfl | rfl)
  · exact key _ _ (Finset.card_le_card Finset.inter_subset_right)
  · exact key _ _ (Finset.card_le_card Finset.inter_subset_left)
  · refine key _ _ (Finset.card_le_card ?_)
    rw [Finset.inter_comm]
    exact w1 B A gB gA hB hA
  · exact key _ _ (Finset.card_le_card (w1 A B gA gB hA hB))

/-- Three nodes `0`, `3`, `7`, links `0–3` and `3–7`. -/
def path3 : Net :=
  { n := 3, label := fun i => if i = 0 then "0" else if i = 1 then "3" else "7"
    neig := fun i => if i = 0 then [⟨"3", some 1, 1⟩] else
      if i = 1 then [⟨"0", some 0, 1⟩, ⟨"7", some 2, 1⟩] else [⟨"3", some 1, 1⟩]
    degree := fun _ => 0, strength := fun _ => 0 }

theorem path3_good : Holds path3 (fun i j => if (i = 0 ∧ j = 1) ∨ (i = 1 ∧ j = 0) ∨ (i = 1 ∧ j = 2) ∨
      (i = 2 ∧ j = 1) then some 1 else none) ∧ Distinct path3 ∧
    Undirected path3 (fun i j => if (i = 0 ∧ j = 1) ∨ (i = 1 ∧ j = 0) ∨ (i = 1 ∧ j = 2) ∨
      (i = 2 ∧ j = 1) then some 1 else none) := by
  refine ⟨?_, ?_, ?_, ?_⟩
  · intro i hi
    have : i = 0 ∨ i = 1 ∨ i = 2 := by simp only [path3] at hi; omega
    rcases this with rfl | rfl | rfl
    all_goals
      refine ⟨by simp [path3], by simp [path3], ?_⟩
      intro j w hw
      simp at hw
      obtain ⟨h1, rfl⟩ := hw
      first
        | (subst h1; simp [path3])
        | (rcases h1 with rfl | rfl <;> simp [path3])
  · intro i k hi hk e
    have h1 : i = 0 ∨ i = 1 ∨ i = 2 := by simp only [path3] at hi; omega
    have h2 : k = 0 ∨ k = 1 ∨ k = 2 := by simp only [path3] at hk; omega
    rcases h1 with rfl | rfl | rfl <;> rcases h2 with rfl | rfl | rfl <;> simp_all [path3]
  · intro i j _ _ h
    have h1 : (i = 0 ∧ j = 1) ∨ (i = 1 ∧ j = 0) ∨ (i = 1 ∧ j = 2) ∨ (i = 2 ∧ j = 1) := by
      by_contra hc
      simp [hc] at h
    have : (j = 0 ∧ i = 1) ∨ (j = 1 ∧ i = 0) ∨ (j = 1 ∧ i = 2) ∨ (j = 2 ∧ i = 1) := by omega
    simp [this]
  · intro i _
    rw [if_neg (by omega)]

theorem twoLinks_distinct : Distinct twoLinks := by
  intro i k hi hk e
  have h1 : i = 0 ∨ i = 1 ∨ i = 2 ∨ i = 3 := by simp only [twoLinks] at hi; omega
  have h2 : k = 0 ∨ k = 1 ∨ k = 2 ∨ k = 3 := by simp only [twoLinks] at hk; omega
  rcases h1 with rfl | rfl | rfl | rfl <;> rcases h2 with rfl | rfl | rfl | rfl <;>
    first | rfl | exact absurd e (by decide +kernel)

/-- `twoLinks` (links `0–1` and `2–3`) and the path share the nodes `0`, `3`, which are linked only in the
path. -/
example : (∃ r, CompareTwoNetworks path3 twoLinks = some r ∧ r.ncom_lin = (linksOf path3 ∩ linksOf twoLinks).card) ∧
    CompareTwoNetworks path3 twoLinks = some
      { nA_nod := 3, nB_nod := 4, ncom_nod := 2, p_nAB := some (1/2), p_nBA := some (2/3)
        nA_lin := 1, nB_lin := 0, ncom_lin := 0, p_lAB := none, p_lBA := some 0 } := by
  refine ⟨⟨_, C73_compare path3_good.1 path3_good.2.1 path3_good.2.2 twoLinks_holds.1 twoLinks_distinct
    ⟨fun i j _ _ h => by rw [twoLinks_holds.2.2.sym]; exact h, fun i _ => twoLinks_holds.2.2.loop i⟩, rfl⟩,
    by decide +kernel⟩

/-- C73, limit of the claim: links of directed networks are halved too; a single directed link common
to both networks is reported as no link and NaN. -/
theorem C73_directed_lost : CompareTwoNetworks sumA sumA = some
    { nA_nod := 2, nB_nod := 2, ncom_nod := 2, p_nAB := some 1, p_nBA := some 1
      nA_lin := 0, nB_lin := 0, ncom_lin := 0, p_lAB := none, p_lBA := none } := by
  decide +kernel

end GR
