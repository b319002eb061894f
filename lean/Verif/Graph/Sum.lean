import Verif.Graph.SumModel
import Verif.Graph.Props
import Verif.Graph.Build

set_option linter.unusedSimpArgs false

/-!
# Lemmas for `AddTwoNetworks`
-/

namespace GR

/-- Different nodes have different labels. -/
def Distinct (net : Net) : Prop :=
  ∀ i k, i < net.n → k < net.n → net.label i = net.label k → i = k

/-- Every label fits its buffer. -/
def Fit (net : Net) : Prop := ∀ i, i < net.n → fits (net.label i) = true

/-- Some node has this label. -/
def HasNode (net : Net) (a : String) : Prop := ∃ i, i < net.n ∧ net.label i = a

/-- The network has a link of weight `w` from the node labelled `a` to the node labelled `b`. -/
def HasLink (net : Net) (a b : String) (w : ℚ) : Prop :=
  ∃ i j l, i < net.n ∧ j < net.n ∧ net.label i = a ∧ net.label j = b ∧ l ∈ net.neig i ∧
    l.ref = some j ∧ l.weight = w

theorem hasLink_iff {net : Net} {g : WG} (h : Holds net g) (a b : String) (w : ℚ) :
    HasLink net a b w ↔ ∃ i j, i < net.n ∧ j < net.n ∧ net.label i = a ∧ net.label j = b ∧
      g i j = some w := by
  constructor
  · rintro ⟨i, j, l, hi, hj, ha, hb, hl, hr, hw⟩
    obtain ⟨k, _, ek, eg⟩ := (h i hi).2.1 l hl
    rw [hr] at ek
    cases ek
    exact ⟨i, j, hi, hj, ha, hb, by rw [eg, hw]⟩
  · rintro ⟨i, j, hi, hj, ha, hb, hg⟩
    obtain ⟨l, hl, hr, hw⟩ := (h i hi).2.2 j w hg
    exact ⟨i, j, l, hi, hj, ha, hb, hl, hr, hw⟩

theorem hasNode_iff_dict {net : Net} (hd : Distinct net) (a : String) :
    (HasNode net a → ∃ i, i < net.n ∧ net.label i = a ∧ dictFind net a = some i) ∧
      (¬ HasNode net a → dictFind net a = none) := by
  constructor
  · rintro ⟨i, hi, rfl⟩
    exact ⟨i, hi, rfl, dictFind_eq hi hd⟩
  · intro h
    exact dictFind_none fun i hi e => h ⟨i, hi, e⟩

open Classical in
/-- Links of `g`, and links of weight 1 between other pairs related by `R`. -/
noncomputable def over (g : WG) (R : ℕ → ℕ → Prop) : WG :=
  fun i j => match g i j with
    | some v => some v
    | none => if R i j then some 1 else none

theorem over_false (g : WG) : over g (fun _ _ => False) = g := by
  funext i j; unfold over; cases g i j <;> simp

theorem over_over (g : WG) (R R' : ℕ → ℕ → Prop) :
    over (over g R) R' = over g (fun i j => R i j ∨ R' i j) := by
  funext i j
  unfold over
  cases hg : g i j with
  | some v => simp
  | none =>
    by_cases h : R i j
    · simp [h]
    · by_cases h' : R' i j <;> simp [h, h']

theorem over_congr (g : WG) {R R' : ℕ → ℕ → Prop} (h : ∀ i j, R i j ↔ R' i j) : over g R = over g R' := by
  have : R = R' := by funext i j; exact propext (h i j)
  rw [this]

theorem add_over (g : WG) (i j : ℕ) :
    (g.add i j true false 1).2 = over g (fun a b => a = i ∧ b = j) := by
  funext a b
  unfold WG.add over
  simp only [Bool.true_eq_false, and_false, if_false]
  cases hg : g i j with
  | some v =>
    simp only [Bool.false_eq_true, if_false]
    cases hab : g a b with
    | some v => rfl
    | none =>
      dsimp only
      rw [if_neg]
      rintro ⟨rfl, rfl⟩
      rw [hg] at hab; cases hab
  | none =>
    simp only [WG.set]
    by_cases h : a = i ∧ b = j
    · rw [if_pos h, h.1, h.2, hg]; simp
    · rw [if_neg h]
      cases g a b with
      | some v => rfl
      | none => simp [h]

/-! ## Missing nodes -/

theorem create_rep {net : Net} {g : WG} (h : Rep net g) (hs : ∀ i j, net.n ≤ i → g i j = none)
    {a : String} (ha : fits a = true) :
    ∃ net', CreateNodeGraph net a = some (net.n, net') ∧ net'.n = net.n + 1 ∧ net'.label net.n = a ∧
      (∀ i < net.n, net'.label i = net.label i) ∧ (∀ i < net.n, net'.neig i = net.neig i) ∧
      net'.neig net.n = [] ∧ Rep net' g := by
  unfold CreateNodeGraph
  rw [if_pos ha]
  refine ⟨_, rfl, rfl, by simp, fun i hi => ?_, fun i hi => ?_, by simp, ?_, ?_⟩
  · simp [Nat.ne_of_lt hi]
  · simp [Nat.ne_of_lt hi]
  · intro i hi
    dsimp only at hi ⊢
    by_cases e : i = net.n
    · subst e
      simp [hs]
    · obtain ⟨h1, h2, h3⟩ := h.1 i (by omega)
      simp only [Function.update_of_ne e]
      refine ⟨h1, fun l hl => ?_, h3⟩
      obtain ⟨j, hj, h4⟩ := h2 l hl
      exact ⟨j, by omega, h4⟩
  · intro i hi
    dsimp only at hi ⊢
    by_cases e : i = net.n
    · subst e; simp
    · simp only [Function.update_of_ne e]
      exact h.2 i (by omega)

/-- State of the sum while nodes of `B` are added: the first `A.n` nodes and all links are those of `A`. -/
structure Grown (A B : Net) (g : WG) (done : ℕ → Prop) (sum : Net) : Prop where
  rep : Rep sum g
  labels : LabelsOK sum
  size : A.n ≤ sum.n
  first : ∀ i, i < A.n → sum.label i = A.label i
  distinct : Distinct sum
  nodes : ∀ a, HasNode sum a ↔ HasNode A a ∨ ∃ p, done p ∧ B.label p = a

theorem addMissing_ok {A B : Net} {g : WG} (dA : Distinct A) (fB : Fit B) (dB : Distinct B)
    (hs : ∀ i j, A.n ≤ i → g i j = none) :
    ∀ (ps : List ℕ) (done : ℕ → Prop) (sum : Net), (∀ p ∈ ps, p < B.n) → ps.Nodup →
      (∀ p ∈ ps, ¬ done p) → (∀ p, done p → p < B.n) → Grown A B g done sum →
      ∃ sum', addMissingNodes A B ps sum = some sum' ∧
        Grown A B g (fun p => done p ∨ p ∈ ps) sum'
  | [], done, sum, _, _, _, _, h => ⟨sum, rfl, by simpa using h⟩
  | p :: ps, done, sum, hr, hn, hnd, hdr, h => by
    have hp : p < B.n := hr p (by simp)
    have hn' := List.nodup_cons.1 hn
    have key : ∃ s1, (if dictFind A (B.label p) = none then
          (CreateNodeGraph sum (B.label p)).map Prod.snd else some sum) = some s1 ∧
        Grown A B g (fun q => done q ∨ q = p) s1 := by
      by_cases hA : HasNode A (B.label p)
      · obtain ⟨i, hi, hl, hd⟩ := (hasNode_iff_dict dA _).1 hA
        refine ⟨sum, by simp [hd], h.rep, h.labels, h.size, h.first, h.distinct, fun a => ?_⟩
        rw [h.nodes]
        constructor
        · rintro (h1 | ⟨q, h1, h2⟩)
          · exact Or.inl h1
          · exact Or.inr ⟨q, Or.inl h1, h2⟩
        · rintro (h1 | ⟨q, h1 | rfl, h2⟩)
          · exact Or.inl h1
          · exact Or.inr ⟨q, h1, h2⟩
          · exact Or.inl (h2 ▸ hA)
      · have hd := (hasNode_iff_dict dA _).2 hA
        have hsz := h.size
        obtain ⟨s1, e1, e2, e3, e4, e5, e6, e7⟩ := create_rep h.rep
          (fun i j hi => hs i j (by omega)) (fB p hp)
        have hnew : ∀ i, i < sum.n → sum.label i ≠ B.label p := by
          intro i hi e
          rcases (h.nodes _).1 ⟨i, hi, e⟩ with h1 | ⟨q, h1, h2⟩
          · exact hA h1
          · have := dB q p (hdr q h1) hp h2
            subst this
            exact hnd q (by simp) h1
        refine ⟨s1, by rw [if_pos hd, e1]; rfl, e7, ?_, by omega, ?_, ?_, ?_⟩
        · intro i hi l hl j hj
          by_cases e : i = sum.n
          · subst e; rw [e6] at hl; simp at hl
          · have hi' : i < sum.n := by omega
            rw [e5 i hi'] at hl
            obtain ⟨k, hk, ek, _⟩ := (h.rep.1 i hi').2.1 l hl
            rw [hj] at ek; cases ek
            rw [e4 j hk]
            exact h.labels i hi' l hl j hj
        · intro i hi
          rw [e4 i (by omega), h.first i hi]
        · intro i k hi hk e
          by_cases a : i = sum.n <;> by_cases b : k = sum.n
          · omega
          · rw [a, e3, e4 k (by omega)] at e
            exact absurd e.symm (hnew k (by omega))
          · rw [b, e3, e4 i (by omega)] at e
            exact absurd e (hnew i (by omega))
          · rw [e4 i (by omega), e4 k (by omega)] at e
            exact h.distinct i k (by omega) (by omega) e
        · intro a
          constructor
          · rintro ⟨i, hi, rfl⟩
            by_cases ei : i = sum.n
            · exact Or.inr ⟨p, Or.inr rfl, by rw [ei, e3]⟩
            · rcases (h.nodes (s1.label i)).1 ⟨i, by omega, (e4 i (by omega)).symm⟩ with h1 | ⟨q, h1, h2⟩
              · exact Or.inl h1
              · exact Or.inr ⟨q, Or.inl h1, h2⟩
          · have up : HasNode sum a → HasNode s1 a := by
              rintro ⟨i, hi, rfl⟩; exact ⟨i, by omega, e4 i hi⟩
            rintro (h1 | ⟨q, h1 | rfl, h2⟩)
            · exact up ((h.nodes a).2 (Or.inl h1))
            · exact up ((h.nodes a).2 (Or.inr ⟨q, h1, h2⟩))
            · exact ⟨sum.n, by omega, by rw [e3, h2]⟩
    obtain ⟨s1, e1, h1⟩ := key
    obtain ⟨s2, e2, h2⟩ := addMissing_ok dA fB dB hs ps (fun q => done q ∨ q = p) s1
      (fun q hq => hr q (by simp [hq])) hn'.2
      (by
        rintro q hq (hq' | rfl)
        · exact hnd q (by simp [hq]) hq'
        · exact hn'.1 hq)
      (by rintro q (hq | rfl); exacts [hdr q hq, hp]) h1
    refine ⟨s2, ?_, ?_⟩
    · unfold addMissingNodes at e2 ⊢
      rw [List.foldlM_cons]
      simp only [Option.bind_eq_bind]
      rw [e1]
      exact e2
    · convert h2 using 2
      simp only [List.mem_cons, or_assoc]

/-! ## Links -/

/-- Nodes `i`, `j` of the sum carry the labels of the ends of a link of `B` in the list of `p`. -/
def FromRow (B : Net) (lab : ℕ → String) (n p : ℕ) (ls : List Link) (i j : ℕ) : Prop :=
  i < n ∧ j < n ∧ lab i = B.label p ∧ ∃ l ∈ ls, ∃ q, l.ref = some q ∧ lab j = B.label q

theorem addRow_ok {B : Net} {p : ℕ} (hp : p < B.n) (lab : ℕ → String) (n : ℕ) :
    ∀ (ls : List Link) (sum : Net) (g : WG), sum.n = n → sum.label = lab → Rep sum g → LabelsOK sum →
      Distinct sum → (∀ a, HasNode B a → HasNode sum a) →
      (∀ l ∈ ls, ∃ q, q < B.n ∧ l.ref = some q) →
      ∃ sum', ls.foldlM (addOneLink B p) sum = some sum' ∧ sum'.n = n ∧ sum'.label = lab ∧
        LabelsOK sum' ∧ Rep sum' (over g (FromRow B lab n p ls))
  | [], sum, g, hn, hl, h, hlo, _, _, _ => by
    refine ⟨sum, rfl, hn, hl, hlo, ?_⟩
    rw [over_congr g (R' := fun _ _ => False) (by simp [FromRow]), over_false]
    exact h
  | l :: ls, sum, g, hn, hl, h, hlo, hd, hsub, hls => by
    obtain ⟨q, hq, er⟩ := hls l (by simp)
    obtain ⟨i, hi, li, di⟩ := (hasNode_iff_dict hd _).1 (hsub (B.label p) ⟨p, hp, rfl⟩)
    obtain ⟨j, hj, lj, dj⟩ := (hasNode_iff_dict hd _).1 (hsub (B.label q) ⟨q, hq, rfl⟩)
    obtain ⟨_, a2, a3, a4⟩ := add_rep h hi hj true false 1
    rw [add_over] at a4
    have a5 := add_labels hlo i j hi true false 1
    have e1 : addOneLink B p sum l = some (AddAdjacency sum i j true false 1).2 := by
      simp [addOneLink, er, di, dj]
    have hd' : Distinct (AddAdjacency sum i j true false 1).2 := by
      intro x y hx hy e
      rw [a2] at hx hy
      rw [a3] at e
      exact hd x y hx hy e
    obtain ⟨s, e2, b1, b2, b3, b4⟩ := addRow_ok hp lab n ls _ _ (by rw [a2, hn]) (by rw [a3, hl]) a4 a5 hd'
      (by
        intro a ha
        obtain ⟨x, hx, ex⟩ := hsub a ha
        exact ⟨x, by rw [a2]; exact hx, by rw [a3]; exact ex⟩)
      (fun m hm => hls m (by simp [hm]))
    refine ⟨s, ?_, b1, b2, b3, ?_⟩
    · rw [List.foldlM_cons, e1]
      exact e2
    · rw [over_over] at b4
      rw [over_congr g (R' := fun a b => (a = i ∧ b = j) ∨ FromRow B lab n p ls a b)]
      · exact b4
      · intro a b
        unfold FromRow
        constructor
        · rintro ⟨ha, hb, la, m, hm, r, er', lb⟩
          rcases List.mem_cons.1 hm with rfl | hm
          · left
            rw [er] at er'
            cases er'
            rw [← hn] at ha hb
            rw [← hl] at la lb
            exact ⟨hd a i ha hi (by rw [la, li]), hd b j hb hj (by rw [lb, lj])⟩
          · exact Or.inr ⟨ha, hb, la, m, hm, r, er', lb⟩
        · rintro (⟨rfl, rfl⟩ | ⟨ha, hb, la, m, hm, r, er', lb⟩)
          · exact ⟨hn ▸ hi, hn ▸ hj, hl ▸ li, l, by simp, q, er, hl ▸ lj⟩
          · exact ⟨ha, hb, la, m, by simp [hm], r, er', lb⟩

/-- The same for all lists in `ps`. -/
def FromRows (B : Net) (lab : ℕ → String) (n : ℕ) (ps : List ℕ) (i j : ℕ) : Prop :=
  ∃ p ∈ ps, FromRow B lab n p (B.neig p) i j

theorem addLinks_ok {B : Net} {gB : WG} (hB : Holds B gB) (lab : ℕ → String) (n : ℕ) :
    ∀ (ps : List ℕ) (sum : Net) (g : WG), (∀ p ∈ ps, p < B.n) → sum.n = n → sum.label = lab →
      Rep sum g → LabelsOK sum → Distinct sum → (∀ a, HasNode B a → HasNode sum a) →
      ∃ sum', addLinksOf B ps sum = some sum' ∧ sum'.n = n ∧ sum'.label = lab ∧
        LabelsOK sum' ∧ Rep sum' (over g (FromRows B lab n ps))
  | [], sum, g, _, hn, hl, h, hlo, _, _ => by
    refine ⟨sum, rfl, hn, hl, hlo, ?_⟩
    rw [over_congr g (R' := fun _ _ => False) (by simp [FromRows]), over_false]
    exact h
  | p :: ps, sum, g, hr, hn, hl, h, hlo, hd, hsub => by
    have hp := hr p (by simp)
    obtain ⟨s1, e1, b1, b2, b3, b4⟩ := addRow_ok hp lab n (B.neig p) sum g hn hl h hlo hd hsub
      (by
        intro l hl
        obtain ⟨q, hq, er, _⟩ := (hB p hp).2.1 l hl
        exact ⟨q, hq, er⟩)
    obtain ⟨s2, e2, c1, c2, c3, c4⟩ := addLinks_ok hB lab n ps s1 _ (fun q hq => hr q (by simp [hq]))
      b1 b2 b4 b3
      (by
        intro x y hx hy e
        rw [b1, ← hn] at hx hy
        rw [b2, ← hl] at e
        exact hd x y hx hy e)
      (by
        intro a ha
        obtain ⟨x, hx, ex⟩ := hsub a ha
        exact ⟨x, by rw [b1, ← hn]; exact hx, by rw [b2, ← hl]; exact ex⟩)
    refine ⟨s2, ?_, c1, c2, c3, ?_⟩
    · unfold addLinksOf at e2 ⊢
      rw [List.foldlM_cons]
      simp only [Option.bind_eq_bind]
      rw [e1]
      exact e2
    · rw [over_over] at c4
      rw [over_congr g (R' := fun a b => FromRow B lab n p (B.neig p) a b ∨ FromRows B lab n ps a b)]
      · exact c4
      · intro a b
        simp [FromRows]

end GR
