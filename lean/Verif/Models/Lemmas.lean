import Verif.Models.Model
import Verif.Graph.Adj
import Mathlib.Data.List.Induction
import Mathlib.Tactic.NormNum
import Mathlib.Tactic.Ring

/-! # Lemmas on the construction of networks -/

set_option linter.unusedSimpArgs false

namespace MD

open GR RG

/-! ## Labels -/

theorem utf8_le (l : List Char) : (String.ofList l).utf8ByteSize ≤ 4 * l.length := by
  induction l using List.reverseRecOn with
  | nil => simp
  | append_singleton l c ih =>
    rw [String.ofList_append]
    have h1 : (String.ofList [c]).utf8ByteSize ≤ 4 := by
      have : String.ofList [c] = "".push c := by simp
      rw [this, String.utf8ByteSize_push]
      have := c.utf8Size_le_four
      simpa using this
    simp only [String.utf8ByteSize_append, List.length_append, List.length_singleton]
    omega

theorem numLabel_fits {i : ℕ} (h : i < 2147483647) : fits (numLabel i) = true := by
  have h1 : (Nat.toDigits 10 (i + 1)).length ≤ 10 :=
    (Nat.length_toDigits_le_iff (by norm_num) (by norm_num)).2 (by omega)
  have := utf8_le (Nat.toDigits 10 (i + 1))
  rw [← Nat.toString_eq_ofList_toDigits] at this
  unfold fits numLabel
  rw [decide_eq_true_eq]
  omega

theorem numLabel_inj {i j : ℕ} (h : numLabel i = numLabel j) : i = j := by
  unfold numLabel at h
  rw [Nat.toString_eq_ofList_toDigits, Nat.toString_eq_ofList_toDigits] at h
  have h2 : Nat.toDigits 10 (i + 1) = Nat.toDigits 10 (j + 1) := by
    simpa using congrArg String.toList h
  have := congrArg (fun l => Nat.ofDigitChars 10 l 0) h2
  simp only [Nat.ofDigitChars_toDigits (b := 10) (by norm_num) (by norm_num)] at this
  omega

/-! ## Networks whose links all have weight 0 -/

open Classical in
/-- Links given by a relation, all of weight 0. -/
noncomputable def wg (E : ℕ → ℕ → Prop) : WG := fun i j => if E i j then some 0 else none

theorem wg_congr {E E' : ℕ → ℕ → Prop} (h : ∀ i j, E i j ↔ E' i j) : wg E = wg E' := by
  have : E = E' := by funext i j; exact propext (h i j)
  rw [this]

theorem add_wg {net : Net} {E : ℕ → ℕ → Prop} (h : Rep net (wg E)) {i j : ℕ} (hi : i < net.n) (hj : j < net.n)
    (hij : i ≠ j) :
    (AddAdjacency net i j false false 0).2.n = net.n ∧ (AddAdjacency net i j false false 0).2.label = net.label ∧
    Rep (AddAdjacency net i j false false 0).2 (wg fun a b => E a b ∨ (a = i ∧ b = j)) := by
  obtain ⟨_, h2, h3, h4⟩ := add_rep h hi hj false false 0
  refine ⟨h2, h3, ?_⟩
  convert h4 using 1
  unfold WG.add
  rw [if_neg (by simp [hij])]
  by_cases he : E i j
  · have : wg E i j = some 0 := by simp [wg, he]
    rw [this]
    simp only [Bool.false_eq_true, if_false]
    apply wg_congr
    intro a b
    constructor
    · rintro (h | ⟨rfl, rfl⟩)
      · exact h
      · exact he
    · exact Or.inl
  · have : wg E i j = none := by simp [wg, he]
    rw [this]
    funext a b
    simp only [wg, WG.set]
    by_cases hab : a = i ∧ b = j
    · simp [hab]
    · rw [if_neg hab]
      by_cases hE : E a b
      · rw [if_pos (Or.inl hE), if_pos hE]
      · rw [if_neg (by tauto), if_neg hE]

theorem linkBoth_wg {net : Net} {E : ℕ → ℕ → Prop} (h : Rep net (wg E)) {i j : ℕ} (hi : i < net.n) (hj : j < net.n)
    (hij : i ≠ j) :
    (linkBoth net i j).n = net.n ∧ (linkBoth net i j).label = net.label ∧
    Rep (linkBoth net i j) (wg fun a b => E a b ∨ (a = i ∧ b = j) ∨ (a = j ∧ b = i)) := by
  obtain ⟨h1, h2, h3⟩ := add_wg h hi hj hij
  obtain ⟨k1, k2, k3⟩ := add_wg h3 (i := j) (j := i) (by rw [h1]; exact hj) (by rw [h1]; exact hi) (Ne.symm hij)
  refine ⟨k1.trans h1, k2.trans h2, ?_⟩
  unfold linkBoth
  convert k3 using 1
  apply wg_congr
  intro a b
  tauto

theorem linkBoth_self (net : Net) (i : ℕ) : linkBoth net i i = net := by
  unfold linkBoth AddAdjacency
  simp

/-- A new node. -/
theorem create_wg {net : Net} {E : ℕ → ℕ → Prop} (h : Rep net (wg E)) (hE : ∀ a b, E a b → a < net.n ∧ b < net.n)
    {l : String} (hl : fits l = true) :
    ∃ net', CreateNodeGraph net l = some (net.n, net') ∧ net'.n = net.n + 1 ∧
      net'.label = Function.update net.label net.n l ∧ Rep net' (wg E) := by
  unfold CreateNodeGraph
  rw [if_pos hl]
  refine ⟨_, rfl, rfl, rfl, ?_, ?_⟩
  · intro i hi
    simp only at hi
    by_cases e : i = net.n
    · subst e
      simp only [Function.update_self]
      refine ⟨by simp, by simp, ?_⟩
      intro j w hw
      simp only [wg] at hw
      split_ifs at hw with hh
      exact absurd (hE _ _ hh).1 (lt_irrefl _)
    · have hi' : i < net.n := by omega
      obtain ⟨a1, a2, a3⟩ := h.1 i hi'
      simp only [Function.update_of_ne e]
      refine ⟨a1, ?_, a3⟩
      intro l hl
      obtain ⟨j, hj, b⟩ := a2 l hl
      exact ⟨j, by omega, b⟩
  · intro i hi
    simp only at hi
    by_cases e : i = net.n
    · subst e
      simp
    · have hi' : i < net.n := by omega
      simp only [Function.update_of_ne e]
      exact h.2 i hi'

theorem rep_header : Rep CreateHeaderGraph (wg fun _ _ => False) := by
  constructor <;> (intro i hi; exact absurd hi (Nat.not_lt_zero i))

theorem createNodes_ok (S : ℕ) (hS : S ≤ 2147483647) :
    ∃ net, createNodes S = some net ∧ net.n = S ∧ (∀ i < S, net.label i = numLabel i) ∧
      Rep net (wg fun _ _ => False) := by
  unfold createNodes
  induction S with
  | zero => exact ⟨_, rfl, rfl, fun i hi => absurd hi (Nat.not_lt_zero i), rep_header⟩
  | succ S ih =>
    obtain ⟨net, h1, h2, h3, h4⟩ := ih (by omega)
    obtain ⟨net', k1, k2, k3, k4⟩ := create_wg h4 (by simp) (numLabel_fits (i := S) (by omega))
    refine ⟨net', ?_, by omega, ?_, k4⟩
    · rw [List.range_succ, List.foldlM_append, h1]
      simp [k1]
    · intro i hi
      rw [k3, h2]
      by_cases e : i = S
      · subst e; simp
      · rw [Function.update_of_ne e]
        exact h3 i (by omega)

/-! ## The loop over pairs -/

/-- Pair `(a, b)` was among the pairs of `xs` and its number was below the probability. -/
def chosen (q : ℕ → ℕ → Option ℚ) (xs : List (ℕ × ℕ)) (t : Tape) (a b : ℕ) : Prop :=
  ∃ u, ((a, b), u) ∈ xs.zip t ∧ ∃ p, q a b = some p ∧ u < p

theorem linkLoop_ok {q : ℕ → ℕ → Option ℚ} : ∀ {xs : List (ℕ × ℕ)} {net : Net} {E : ℕ → ℕ → Prop} {t : Tape},
    Rep net (wg E) → (∀ x ∈ xs, x.1 < net.n ∧ x.2 < net.n ∧ x.1 ≠ x.2 ∧ (q x.1 x.2).isSome) →
    (∀ u ∈ t, 0 ≤ u ∧ u < 1) → xs.length ≤ t.length →
    ∃ net', linkLoop q xs net t = .ok (net', t.drop xs.length) ∧ net'.n = net.n ∧ net'.label = net.label ∧
      Rep net' (wg fun a b => E a b ∨ chosen q xs t a b ∨ chosen q xs t b a)
  | [], net, E, t, h, _, _, _ => by
    refine ⟨net, rfl, rfl, rfl, ?_⟩
    convert h using 1
    apply wg_congr
    simp [chosen]
  | x :: xs, net, E, [], _, _, _, hl => by simp at hl
  | x :: xs, net, E, u :: t, h, hx, ht, hl => by
    obtain ⟨x1, x2, x3, x4⟩ := hx x (by simp)
    obtain ⟨p, hp⟩ := Option.isSome_iff_exists.1 x4
    have hu := ht u (by simp)
    have hd : draw (u :: t) = .ok (u, t) := by simp [draw, hu]
    have hch : ∀ a b, chosen q (x :: xs) (u :: t) a b ↔ ((a, b) = x ∧ u < p) ∨ chosen q xs t a b := by
      intro a b
      simp only [chosen, List.zip_cons_cons, List.mem_cons, Prod.mk.injEq]
      constructor
      · rintro ⟨v, ⟨e1, e2⟩ | hv, r, hr, hlt⟩
        · left
          refine ⟨e1, ?_⟩
          subst e1
          simp only at hp
          rw [hp] at hr
          cases hr
          rw [← e2]; exact hlt
        · exact Or.inr ⟨v, hv, r, hr, hlt⟩
      · rintro (⟨e1, hlt⟩ | ⟨v, hv, r, hr, hlt⟩)
        · refine ⟨u, Or.inl ⟨e1, rfl⟩, p, ?_, hlt⟩
          subst e1; exact hp
        · exact ⟨v, Or.inr hv, r, hr, hlt⟩
    simp only [linkLoop, hd, Res.bind_ok, hp, Res.ofOption_some]
    have hl' : xs.length ≤ t.length := by simpa using hl
    by_cases hup : u < p
    · rw [if_pos hup]
      obtain ⟨b1, b2, b3⟩ := linkBoth_wg h x1 x2 x3
      obtain ⟨net', c1, c2, c3, c4⟩ := linkLoop_ok (q := q) (xs := xs) (t := t) b3
        (by rw [b1]; exact fun y hy => hx y (by simp [hy])) (fun v hv => ht v (by simp [hv])) hl'
      refine ⟨net', by simpa using c1, c2.trans b1, c3.trans b2, ?_⟩
      convert c4 using 1
      apply wg_congr
      intro a b
      rw [hch, hch]
      simp only [Prod.ext_iff, hup, and_true]
      tauto
    · rw [if_neg hup]
      obtain ⟨net', c1, c2, c3, c4⟩ := linkLoop_ok (q := q) (xs := xs) (t := t) h
        (fun y hy => hx y (by simp [hy])) (fun v hv => ht v (by simp [hv])) hl'
      refine ⟨net', by simpa using c1, c2, c3, ?_⟩
      convert c4 using 1
      apply wg_congr
      intro a b
      rw [hch, hch]
      simp [hup]

/-! ## The pairs -/

theorem mem_pairs {S a b : ℕ} : (a, b) ∈ pairs S ↔ a < b ∧ b < S := by
  simp only [pairs, List.mem_flatMap, List.mem_range, List.mem_map, List.mem_range'_1, Prod.mk.injEq]
  constructor
  · rintro ⟨i, hi, j, hj, rfl, rfl⟩
    omega
  · rintro ⟨h1, h2⟩
    exact ⟨a, by omega, b, by omega, rfl, rfl⟩

/-- Row `i`. -/
def row (S i : ℕ) : List (ℕ × ℕ) := (List.range' (i + 1) (S - (i + 1))).map fun j => (i, j)

theorem rows_length (S i : ℕ) : ((List.range i).flatMap (row S)).length = ∑ k ∈ Finset.range i, (S - (k + 1)) := by
  induction i with
  | zero => simp
  | succ i ih =>
    rw [List.range_succ, List.flatMap_append, List.length_append, ih, Finset.sum_range_succ]
    simp [row]

/-- Number of the pair `(i, j)`, `i < j`, in the order of the loops: the pairs of the rows before, and those of the row. -/
def drawNo (S i j : ℕ) : ℕ := (∑ k ∈ Finset.range i, (S - (k + 1))) + (j - (i + 1))

theorem pairs_get {S i j : ℕ} (hij : i < j) (hj : j < S) : (pairs S)[drawNo S i j]? = some (i, j) := by
  have e : pairs S = (List.range i).flatMap (row S) ++ (row S i ++ (List.range' (i + 1) (S - (i + 1))).flatMap (row S)) := by
    have : List.range S = List.range i ++ (i :: List.range' (i + 1) (S - (i + 1))) := by
      rw [List.range_eq_range', List.range_eq_range', ← List.range'_succ, show S - (i + 1) + 1 = S - i by omega]
      have := List.range'_append_1 (s := 0) (m := i) (n := S - i)
      rw [show (0 : ℕ) + i = i by omega] at this
      rw [this, show i + (S - i) = S by omega]
    unfold pairs
    rw [this, List.flatMap_append, List.flatMap_cons]
    rfl
  rw [e, drawNo, List.getElem?_append_right (by rw [rows_length]; omega), rows_length,
    show (∑ k ∈ Finset.range i, (S - (k + 1))) + (j - (i + 1)) - ∑ k ∈ Finset.range i, (S - (k + 1)) = j - (i + 1) by omega,
    List.getElem?_append_left (by simp [row]; omega)]
  simp only [row, List.getElem?_map]
  rw [List.getElem?_range' (by omega)]
  simp; omega

theorem sum_rows (S i : ℕ) (h : i ≤ S) :
    2 * ∑ k ∈ Finset.range i, (S - (k + 1)) + i * i + i = 2 * S * i := by
  induction i with
  | zero => simp
  | succ i ih =>
    have := ih (by omega)
    rw [Finset.sum_range_succ]
    obtain ⟨d, rfl⟩ := Nat.exists_eq_add_of_le h
    have e : i + 1 + d - (i + 1) = d := by omega
    rw [e]
    nlinarith

theorem pairs_length (S : ℕ) : (pairs S).length = S * (S - 1) / 2 := by
  have h1 : (pairs S).length = ∑ k ∈ Finset.range S, (S - (k + 1)) := rows_length S S
  have h2 := sum_rows S S le_rfl
  rw [← h1] at h2
  have h3 : S * (S - 1) + S = S * S := by
    cases S with
    | zero => rfl
    | succ n => simp; ring
  have h4 : 2 * S * S = 2 * (S * S) := by ring
  omega

theorem pairs_nodup (S : ℕ) : (pairs S).Nodup := by
  unfold pairs
  rw [List.nodup_flatMap]
  constructor
  · intro i _
    exact List.Nodup.map (fun a b h => (Prod.ext_iff.1 h).2) List.nodup_range'
  · rw [List.pairwise_iff_getElem]
    intro i j hi hj hij
    simp only [List.getElem_range, Function.onFun]
    intro x hx hy
    simp only [List.mem_map] at hx hy
    obtain ⟨a, _, rfl⟩ := hx
    obtain ⟨b, _, hb⟩ := hy
    have := (Prod.ext_iff.1 hb).1
    simp at this
    omega

theorem chosen_pairs {q : ℕ → ℕ → Option ℚ} {S : ℕ} {t : Tape} {a b : ℕ} :
    chosen q (pairs S) t a b ↔ a < b ∧ b < S ∧ ∃ u, t[drawNo S a b]? = some u ∧ ∃ p, q a b = some p ∧ u < p := by
  unfold chosen
  constructor
  · rintro ⟨u, hu, p, hp, hlt⟩
    have hm := mem_pairs.1 (List.of_mem_zip hu).1
    refine ⟨hm.1, hm.2, u, ?_, p, hp, hlt⟩
    obtain ⟨k, hk⟩ := List.mem_iff_getElem?.1 hu
    rw [List.getElem?_zip_eq_some] at hk
    have h2 := pairs_get hm.1 hm.2
    obtain ⟨hk1, hk1'⟩ := List.getElem?_eq_some_iff.1 hk.1
    obtain ⟨h21, h2'⟩ := List.getElem?_eq_some_iff.1 h2
    have := (List.Nodup.getElem_inj_iff (pairs_nodup S)).1 (hk1'.trans h2'.symm)
    rw [← this]
    exact hk.2
  · rintro ⟨hab, hb, u, hu, p, hp, hlt⟩
    refine ⟨u, ?_, p, hp, hlt⟩
    rw [List.mem_iff_getElem?]
    refine ⟨drawNo S a b, ?_⟩
    rw [List.getElem?_zip_eq_some]
    exact ⟨pairs_get hab hb, hu⟩

end MD
