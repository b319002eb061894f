import Verif.KState.Lemmas

/-! # C30: the sampler for K states -/

set_option linter.unusedSimpArgs false

namespace KS

open GP RG LS Finset

variable {net : Net} {K : ℕ}

/-- Consistent partition of all nodes, exact counts of ratings and of non-empty groups. -/
structure KCounts (net : Net) (K : ℕ) (s : KSt) : Prop where
  part : PartOK net net.n s.part
  full : Full net s.part
  n2g : ∀ k < K, ∀ v < net.n, ∀ g < net.n, s.N2G k v g = nodeRatings net s.part.inGroup k v g
  g2g : ∀ k < K, ∀ g < net.n, ∀ g' < net.n, s.G2G k g g' = ratings net s.part.inGroup k g g'
  ng : s.ng = (used net s.part.inGroup).card

/-- In addition the running energy is exact up to the fixed origin `off`. -/
structure KInv (net : Net) (K : ℕ) (off : ℝ) (s : KSt) : Prop extends KCounts net K s where
  energy : LSHKState net K s.part = some (s.H + off)

/-- Nothing but the random numbers and the order of lists of nodes has changed. -/
structure SameK (net : Net) (K : ℕ) (s s' : KSt) : Prop where
  inGroup : s'.part.inGroup = s.part.inGroup
  n2g : ∀ k < K, ∀ v < net.n, ∀ g < net.n, s'.N2G k v g = s.N2G k v g
  g2g : ∀ k < K, ∀ g < net.n, ∀ g' < net.n, s'.G2G k g g' = s.G2G k g g'
  ng : s'.ng = s.ng
  H : s'.H = s.H

theorem used_split (f : ℕ → Option ℕ) {a b : ℕ} (ha : a < net.n) (hb : b < net.n) (hab : b ≠ a) :
    ((used net f).card : Int) = (((used net f).erase a).erase b).card +
      (if (block net f a).Nonempty then 1 else 0) + (if (block net f b).Nonempty then 1 else 0) := by
  have hm : ∀ g < net.n, g ∈ used net f ↔ (block net f g).Nonempty := by
    intro g hg; unfold used; simp [hg]
  have key : ∀ (S : Finset ℕ) (x : ℕ), (S.card : Int) = (S.erase x).card + if x ∈ S then 1 else 0 := by
    intro S x
    by_cases h : x ∈ S
    · have := card_erase_of_mem h
      have h0 : 0 < S.card := card_pos.2 ⟨x, h⟩
      rw [if_pos h]; omega
    · rw [if_neg h, erase_eq_of_notMem h]; simp
  rw [key (used net f) a, key ((used net f).erase a) b]
  have : b ∈ (used net f).erase a ↔ (block net f b).Nonempty := by
    rw [mem_erase, hm b hb]; exact ⟨fun h => h.2, fun h => ⟨hab, h⟩⟩
  have h2 := hm a ha
  by_cases h3 : (block net f a).Nonempty <;> by_cases h4 : (block net f b).Nonempty <;>
    simp only [h3, h4, h2, this, if_true, if_false] <;> ring

section
variable {f : ℕ → Option ℕ} {v old new : ℕ} (hv : v < net.n) (hold : f v = some old) (hne : new ≠ old)
  (ho : old < net.n) (hn : new < net.n)
include hv hold hne ho hn

theorem used_move : ((used net (Function.update f v (some new))).card : Int) = (used net f).card -
    (if (block net (Function.update f v (some new)) old).card = 0 then 1 else 0) +
    (if (block net (Function.update f v (some new)) new).card = 1 then 1 else 0) := by
  rw [used_split f ho hn hne, used_split (Function.update f v (some new)) ho hn hne]
  have e : ((used net (Function.update f v (some new))).erase old).erase new = ((used net f).erase old).erase new := by
    ext g
    simp only [mem_erase, used, mem_filter]
    by_cases h1 : g = old
    · simp [h1]
    · by_cases h2 : g = new
      · simp [h2]
      · rw [block_other hv hold hne h1 h2]
  have h1 : (block net f old).Nonempty := ⟨v, v_mem hv hold hne⟩
  have h2 : (block net (Function.update f v (some new)) new).Nonempty := by
    rw [block_new hv hold hne]; exact ⟨v, by simp⟩
  have h3 := card_new hv hold hne
  have h4 : (block net f new).Nonempty ↔ ¬ (block net (Function.update f v (some new)) new).card = 1 := by
    rw [← card_pos]; omega
  have h5 : (block net (Function.update f v (some new)) old).Nonempty ↔
      ¬ (block net (Function.update f v (some new)) old).card = 0 := by
    rw [← card_pos]; omega
  rw [e]
  simp only [h1, h2, h4, h5, if_true]
  split_ifs <;> ring

end

theorem change_swap {old new : ℕ} (e : new ≠ old) (c : ℕ → Int) (g g' : ℕ) :
    change old new (fun i => - c i) g g' = change new old c g g' := by
  unfold change
  have e' := e.symm
  by_cases a1 : g = old <;> by_cases a2 : g = new <;> by_cases b1 : g' = old <;> by_cases b2 : g' = new <;>
    simp_all <;> ring

theorem nchange_swap {old new : ℕ} (hne : new ≠ old) (g : ℕ) : nchange new old g = - nchange old new g := by
  unfold nchange
  by_cases h1 : g = old <;> by_cases h2 : g = new <;> simp_all

theorem tentative_counts (h : net.Simple) {s : KSt} (hs : KCounts net K s) {v old new : ℕ}
    (hold : s.part.inGroup v = some old) (hn : new < net.n) (hne : new ≠ old) :
    KCounts net K (tentative net K v old new s) ∧
      (tentative net K v old new s).part.inGroup = Function.update s.part.inGroup v (some new) := by
  obtain ⟨hv, ho⟩ := hs.part.range v old hold
  obtain ⟨_, hp, hi⟩ := move_ok h hs.part hn hold
  refine ⟨⟨hp, full_update hs.full hi, ?_, ?_, ?_⟩, hi⟩
  · intro k hk u hu g hg
    dsimp only [tentative]
    rw [updateN2G_eq h hne 1 v _ hk, hs.n2g k hk u hu g hg, hi, nodeRatings_move h hv hold hne, one_mul]
  · intro k hk g hg g' hg'
    dsimp only [tentative, updateG2G]
    rw [if_pos hk, kUpdate_eq hne ho hn _ (fun i hi j hj => by
      rw [hs.g2g k hk i hi j hj, hs.g2g k hk j hj i hi, ratings_symm h]) hg hg', hi, ratings_move h hv hold hne,
      hs.g2g k hk g hg g' hg']
    congr 1
    unfold change
    rw [hs.n2g k hk v hv old ho, hs.n2g k hk v hv new hn, hs.n2g k hk v hv g hg, hs.n2g k hk v hv g' hg']
  · dsimp only [tentative]
    rw [hs.ng, size_eq hp ho, size_eq hp hn, hi, used_move hv hold hne ho hn]
    norm_cast

theorem undo_counts (h : net.Simple) {s : KSt} (hs : KCounts net K s) {v old new : ℕ}
    (hnew : s.part.inGroup v = some new) (ho : old < net.n) (hne : new ≠ old) :
    KCounts net K (undo net K v old new s) ∧
      (undo net K v old new s).part.inGroup = Function.update s.part.inGroup v (some old) := by
  obtain ⟨hv, hn⟩ := hs.part.range v new hnew
  obtain ⟨_, hp, hi⟩ := move_ok h hs.part ho hnew
  refine ⟨⟨hp, full_update hs.full hi, ?_, ?_, ?_⟩, hi⟩
  · intro k hk u hu g hg
    dsimp only [undo]
    rw [updateN2G_eq h hne (-1) v _ hk, hs.n2g k hk u hu g hg, hi, nodeRatings_move h hv hnew hne.symm,
      nchange_swap hne]
    ring
  · intro k hk g hg g' hg'
    dsimp only [undo, updateG2G]
    rw [if_pos hk, kUpdate_eq hne ho hn _ (fun i hi j hj => by
      rw [hs.g2g k hk i hi j hj, hs.g2g k hk j hj i hi, ratings_symm h]) hg hg', hi, ratings_move h hv hnew hne.symm,
      hs.g2g k hk g hg g' hg', change_swap hne]
    congr 1
    unfold change
    rw [hs.n2g k hk v hv old ho, hs.n2g k hk v hv new hn, hs.n2g k hk v hv g hg, hs.n2g k hk v hv g' hg']
  · dsimp only [undo]
    rw [hs.ng, size_eq hp ho, size_eq hp hn, hi, used_move hv hnew hne.symm hn ho]
    simp only [Nat.cast_eq_zero, Nat.cast_eq_one]
    ring

/-! ## The energy change -/

theorem tri_change' {n : ℕ} {U : ℕ → ℕ → ℝ} (hs : ∀ g g', U g g' = U g' g) {a b : ℕ} (ha : a < n) (hb : b < n)
    (hab : b ≠ a) (h0 : ∀ g g', g ≠ a → g ≠ b → g' ≠ a → g' ≠ b → U g g' = 0) :
    tri n U = ∑ g ∈ range n, (U a g + if g ≠ a then U b g else 0) := by
  rw [tri_change hs ha hb hab h0]
  have ha' := mem_range.2 ha
  have hb' : b ∈ (range n).erase a := mem_erase.2 ⟨hab, mem_range.2 hb⟩
  rw [← add_sum_erase _ _ ha', ← add_sum_erase _ _ hb', ← add_sum_erase (range n) (fun g => U a g + if g ≠ a then U b g else 0) ha',
    ← add_sum_erase ((range n).erase a) (fun g => U a g + if g ≠ a then U b g else 0) hb']
  have : ∀ g ∈ ((range n).erase a).erase b, (if g = a then U a a + U b a else if g = b then U b b else U a g + U b g) =
      U a g + if g ≠ a then U b g else 0 := by
    intro g hg
    have h1 := mem_erase.1 hg
    have h2 := mem_erase.1 h1.2
    rw [if_neg h2.1, if_neg h1.1, if_pos h2.1]
  rw [sum_congr rfl this]
  simp only [if_true, if_neg hab, ne_eq, hab, not_true, not_false_iff, if_false]
  rw [hs a b]
  ring

theorem configTerm_eq (h : net.Simple) (hK : 0 < K) {f : ℕ → Option ℕ} {G : ℕ → ℕ → ℕ → Int}
    (hG : ∀ k < K, ∀ g < net.n, ∀ g' < net.n, G k g g' = ratings net f k g g') {old new : ℕ} (ho : old < net.n)
    (hn : new < net.n) : configTerm K net.n G old new =
      some (∑ g ∈ range net.n, (TK net K f old g + if g ≠ old then TK net K f new g else 0)) := by
  unfold configTerm
  rw [foldlM_sum _ (fun g => TK net K f old g + if g ≠ old then TK net K f new g else 0), range_sum, zero_add]
  intro g hg s
  have hg := List.mem_range.1 hg
  unfold groupTerm
  rw [pairTerm_eq h hK (fun k hk => hG k hk old ho g hg)]
  by_cases e : g = old
  · simp [e]
  · simp only [ne_eq, e, not_false_iff, if_true]
    rw [pairTerm_eq h hK (fun k hk => hG k hk new hn g hg)]; rfl

theorem energyK_tri (f : ℕ → Option ℕ) : energyK net K f =
    tri net.n (TK net K f) - Real.log (((net.n - (used net f).card).factorial : ℕ) : ℝ) := rfl

theorem tri_sub (n : ℕ) (U V : ℕ → ℕ → ℝ) : tri n (fun g g' => U g g' - V g g') = tri n U - tri n V := by
  unfold tri
  simp only [sum_sub_distrib]
  ring

theorem labelTerm_eq (b : Bool) (f : ℕ → Option ℕ) : labelTerm net.n ((used net f).card : Int) b =
    some (if b then Real.log (((net.n - (used net f).card).factorial : ℕ) : ℝ) else 0) := by
  unfold labelTerm
  cases b with
  | false => simp
  | true => simp only [if_true]; rw [lfact_eq (used_le net f)]

/-- The computed energy change is the change of the energy. -/
theorem kDelta_eq (h : net.Simple) (hK : 0 < K) {s : KSt} (hs : KCounts net K s) {v old new : ℕ}
    (hold : s.part.inGroup v = some old) (hn : new < net.n) (hne : new ≠ old) :
    kDelta net.n K s (tentative net K v old new s) old new =
      some (energyK net K (Function.update s.part.inGroup v (some new)) - energyK net K s.part.inGroup) := by
  obtain ⟨hv, ho⟩ := hs.part.range v old hold
  obtain ⟨hs', hi⟩ := tentative_counts h hs hold hn hne
  set s' := tentative net K v old new s
  unfold kDelta
  rw [configTerm_eq h hK hs.g2g ho hn, configTerm_eq h hK hs'.g2g ho hn, hs.ng, hs'.ng, labelTerm_eq, labelTerm_eq]
  simp only [Option.bind_eq_bind, Option.bind_some]
  rw [hi]
  congr 1
  have hc : (((s'.part.grp old).size = 0) || ((s'.part.grp new).size = 1) : Bool) =
      (((s.part.grp old).size = 1) || ((s.part.grp new).size = 0) : Bool) := by
    have c1 := card_old hv hold hne
    have c2 := card_new hv hold hne
    rw [size_eq hs'.part ho, size_eq hs'.part hn, size_eq hs.part ho, size_eq hs.part hn, hi, c1, c2]
    congr 1 <;> rw [decide_eq_decide] <;> omega
  have hT := tri_change' (n := net.n) (U := fun g g' => TK net K (Function.update s.part.inGroup v (some new)) g g' - TK net K s.part.inGroup g g')
    (fun g g' => by rw [TK_symm h, TK_symm (f := s.part.inGroup) h]) ho hn hne (by
      intro g g' h1 h2 h3 h4
      have : ∀ k, ratings net (Function.update s.part.inGroup v (some new)) k g g' = ratings net s.part.inGroup k g g' := by
        intro k
        rw [ratings_move h hv hold hne]
        unfold change
        simp [h1, h2, h3, h4]
      simp only [TK, this, sub_self])
  rw [tri_sub] at hT
  have hsum : ∑ g ∈ range net.n, (TK net K (Function.update s.part.inGroup v (some new)) old g - TK net K s.part.inGroup old g +
      if g ≠ old then TK net K (Function.update s.part.inGroup v (some new)) new g - TK net K s.part.inGroup new g else 0) =
      ∑ g ∈ range net.n, (TK net K (Function.update s.part.inGroup v (some new)) old g + if g ≠ old then TK net K (Function.update s.part.inGroup v (some new)) new g else 0) -
      ∑ g ∈ range net.n, (TK net K s.part.inGroup old g + if g ≠ old then TK net K s.part.inGroup new g else 0) := by
    rw [← sum_sub_distrib]
    apply sum_congr rfl
    intro g _
    split_ifs <;> ring
  rw [hsum] at hT
  rw [energyK_tri, energyK_tri, hc]
  by_cases hb : (((s.part.grp old).size = 1) || ((s.part.grp new).size = 0) : Bool) = true
  · rw [hb]
    simp only [if_true]
    linarith
  · have hu : (used net (Function.update s.part.inGroup v (some new))).card = (used net s.part.inGroup).card := by
      have := used_move hv hold hne ho hn
      have c1 := card_old hv hold hne
      have c2 := card_new hv hold hne
      simp only [Bool.or_eq_true, decide_eq_true_eq, not_or] at hb
      rw [size_eq hs.part ho, size_eq hs.part hn] at hb
      rw [if_neg (by omega), if_neg (by omega)] at this
      omega
    rw [Bool.not_eq_true] at hb
    rw [hb, hu]
    simp only [Bool.false_eq_true, if_false]
    linarith

/-! ## The step -/

/-- What an attempt does: a node has moved and the rule for acceptance was met, or nothing has changed. -/
def Outcome (net : Net) (K : ℕ) (acc : ℝ → ℚ → Bool) (s s' : KSt) : Prop :=
  (∃ v old new, s.part.inGroup v = some old ∧ new ≠ old ∧ new < net.n ∧
      s'.part.inGroup = Function.update s.part.inGroup v (some new) ∧
      (s'.H ≤ s.H ∨ ∃ u : ℚ, 0 ≤ u ∧ u < 1 ∧ acc (s'.H - s.H) u = true)) ∨
  SameK net K s s'

theorem metropolis_rule {acc : ℝ → ℚ → Bool} {dH : ℝ} {t : Tape} : (metropolis acc dH t).Holds fun r =>
    r.1 = true → dH ≤ 0 ∨ ∃ u : ℚ, 0 ≤ u ∧ u < 1 ∧ acc dH u = true := by
  unfold metropolis
  split_ifs with h
  · exact fun _ => Or.inl h
  · refine (draw_holds t).bind ?_
    rintro ⟨u, t'⟩ hu
    exact fun ha => Or.inr ⟨u, hu.1, hu.2, ha⟩

theorem attempt_inv (h : net.Simple) (hr : Rated net K) (hK : 0 < K) (hn0 : 0 < net.n) (acc : ℝ → ℚ → Bool) {off : ℝ}
    {s : KSt} (hs : KInv net K off s) :
    (kAttempt acc net K s).Holds fun s' => KInv net K off s' ∧ Outcome net K acc s s' := by
  unfold kAttempt
  refine (pick_holds hn0 s.tape).bind ?_
  rintro ⟨v, t1⟩ hv
  dsimp only at *
  cases hg : s.part.inGroup v with
  | none => exact absurd hg (hs.full v hv)
  | some old =>
    dsimp only
    unfold destination
    refine (redraw_holds (P := fun g => g < net.n) (fun u _ h1 => floor_lt h1 hn0) t1).bind ?_
    rintro ⟨new, t2⟩ ⟨hnew, hb⟩
    dsimp only at *
    have hne : new ≠ old := by simpa using hb
    obtain ⟨_, ho⟩ := hs.part.range v old hg
    obtain ⟨hs', hi⟩ := tentative_counts h hs.toKCounts hg hnew hne
    rw [kDelta_eq h hK hs.toKCounts hg hnew hne]
    simp only [Res.ofOption_some, Res.bind_ok]
    have hE := hs.energy
    rw [hk_eq h hr hK hs.part hs.full] at hE
    have hE := Option.some.inj hE
    unfold kDecide
    refine metropolis_rule.bind ?_
    rintro ⟨a, t3⟩ ha
    dsimp only at ha ⊢
    have hH : (tentative net K v old new s).H = s.H := rfl
    cases a with
    | true =>
      simp only [if_true]
      refine ⟨⟨⟨hs'.part, hs'.full, hs'.n2g, hs'.g2g, hs'.ng⟩, ?_⟩, Or.inl ⟨v, old, new, hg, hne, hnew, hi, ?_⟩⟩
      · dsimp only
        rw [hk_eq h hr hK hs'.part hs'.full, hi, hH]
        congr 1
        linarith
      · dsimp only
        rw [hH]
        rcases ha rfl with ha | ⟨u, h0, h1, ha⟩
        · left; linarith
        · right; exact ⟨u, h0, h1, by rw [add_sub_cancel_left]; exact ha⟩
    | false =>
      simp only [Bool.false_eq_true, if_false]
      have hnew' : (tentative net K v old new s).part.inGroup v = some new := by rw [hi, Function.update_self]
      obtain ⟨hu, hi'⟩ := undo_counts h hs' hnew' ho hne
      have hi'' : (undo net K v old new (tentative net K v old new s)).part.inGroup = s.part.inGroup := by
        rw [hi', hi, Function.update_idem, ← hg, Function.update_eq_self]
      refine ⟨⟨⟨hu.part, hu.full, hu.n2g, hu.g2g, hu.ng⟩, ?_⟩, Or.inr ⟨hi'', ?_, ?_, ?_, rfl⟩⟩
      · change LSHKState net K (undo net K v old new (tentative net K v old new s)).part = some (s.H + off)
        rw [hk_eq h hr hK hu.part hu.full, hi'', hE]
      · intro k hk u hu1 g hg1
        rw [hs.n2g k hk u hu1 g hg1, ← hi'']
        exact hu.n2g k hk u hu1 g hg1
      · intro k hk g hg1 g' hg1'
        rw [hs.g2g k hk g hg1 g' hg1', ← hi'']
        exact hu.g2g k hk g hg1 g' hg1'
      · rw [hs.ng, ← hi'']
        exact hu.ng

/-- **C30**: `LSMCStepKState` keeps the counts, the number of non-empty groups and the energy exact, on
every network rated `0 … K-1`, from every consistent state, for every acceptance rule and every stream of
random numbers; it never leaves the defined behaviour. -/
theorem C30_step (h : net.Simple) (hr : Rated net K) (hK : 0 < K) (acc : ℝ → ℚ → Bool) (off : ℝ) (factor : ℕ) {s : KSt}
    (hs : KInv net K off s) : (LSMCStepKState acc net K factor s).Holds (KInv net K off) := by
  unfold LSMCStepKState
  rcases Nat.eq_zero_or_pos net.n with h0 | h0
  · rw [h0, zero_mul]; exact hs
  · exact iter_holds (fun s hs => (attempt_inv h hr hK h0 acc hs).mono fun _ h => h.1) _ s hs

/-- **C30**: a single attempt either moves one node, its acceptance rule being met by the true change of
energy, or leaves membership, counts, number of groups and energy as they were. -/
theorem C30_reject_restores (h : net.Simple) (hr : Rated net K) (hK : 0 < K) (hn0 : 0 < net.n) (acc : ℝ → ℚ → Bool) {off : ℝ}
    {s : KSt} (hs : KInv net K off s) : (kAttempt acc net K s).Holds (Outcome net K acc s) :=
  (attempt_inv h hr hK hn0 acc hs).mono fun _ h => h.2

/-- **C30**: the energy function is the one of the specification. -/
theorem C30_energy (h : net.Simple) (hr : Rated net K) (hK : 0 < K) {p : Part} (hp : PartOK net net.n p) (hf : Full net p) :
    LSHKState net K p = some (energyK net K p.inGroup) := hk_eq h hr hK hp hf

/-- With one node the step never returns (it looks for another group). -/
theorem C30_one_node (h1 : net.n = 1) {s : KSt} {factor : ℕ} (hf : 0 < factor) (acc : ℝ → ℚ → Bool)
    (h0 : s.part.inGroup 0 = some 0) : LSMCStepKState acc net K factor s = .starved := by
  unfold LSMCStepKState
  rw [h1, one_mul]
  obtain ⟨k, rfl⟩ : ∃ k, factor = k + 1 := ⟨factor - 1, by omega⟩
  unfold iter
  have : kAttempt acc net K s = .starved := by
    unfold kAttempt
    have hz : ∀ u : ℚ, 0 ≤ u → u < 1 → ⌊u * ((1 : ℕ) : ℚ)⌋₊ = 0 := by
      intro u h0 h1
      have := floor_lt (n := 1) h1 (by norm_num)
      omega
    rw [h1]
    unfold pick
    cases hd : draw s.tape with
    | starved => rfl
    | ub => have := draw_holds s.tape; rw [hd] at this; exact this.elim
    | ok r =>
      have hh := draw_holds s.tape
      rw [hd] at hh
      simp only [Res.bind_ok, Res.pure_eq]
      rw [hz r.1 hh.1 hh.2, h0]
      dsimp only
      unfold destination
      rw [redraw_forever (fun u h0 h1 => by rw [hz u h0 h1]; rfl)]
      rfl
  rw [this]
  rfl

end KS
