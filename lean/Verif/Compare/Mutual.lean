import Verif.Compare.Spec
import Mathlib.Algebra.BigOperators.Group.List.Basic
import Mathlib.Algebra.Order.BigOperators.Group.List

/-! # C26: mutual information -/

set_option linter.unusedSimpArgs false

namespace CP

variable {α : Type} [DecidableEq α]

/-! ## Sums over lists -/

theorem sum_swap {β γ : Type} (f : β → γ → ℝ) (l : List β) (m : List γ) :
    (l.map fun x => (m.map fun y => f x y).sum).sum = (m.map fun y => (l.map fun x => f x y).sum).sum := by
  induction l with
  | nil => simp
  | cons x l ih =>
    simp only [List.map_cons, List.sum_cons, ih]
    rw [← List.sum_map_add]

theorem sum_le {β : Type} {f g : β → ℝ} {l : List β} (h : ∀ x ∈ l, f x ≤ g x) : (l.map f).sum ≤ (l.map g).sum :=
  List.sum_le_sum h

/-- Equal sums of ordered terms are equal term by term. -/
theorem sum_eq_terms {β : Type} {f g : β → ℝ} : ∀ {l : List β}, (∀ x ∈ l, f x ≤ g x) → (l.map f).sum = (l.map g).sum →
    ∀ x ∈ l, f x = g x
  | [], _, _, x, hx => by simp at hx
  | y :: l, h, e, x, hx => by
    simp only [List.map_cons, List.sum_cons] at e
    have h1 := h y (by simp)
    have h2 := sum_le fun x hx => h x (List.mem_cons_of_mem y hx)
    rcases List.mem_cons.1 hx with rfl | hx
    · linarith
    · exact sum_eq_terms (fun x hx => h x (List.mem_cons_of_mem y hx)) (by linarith) x hx

theorem sum_neg {β : Type} (f : β → ℝ) (l : List β) : (l.map fun x => -f x).sum = -(l.map f).sum := by
  induction l with
  | nil => simp
  | cons x l ih => simp only [List.map_cons, List.sum_cons, ih]; ring

theorem foldl_add {β : Type} (f : β → ℝ) : ∀ (l : List β) (s : ℝ), l.foldl (fun s x => s + f x) s = s + (l.map f).sum
  | [], s => by simp
  | x :: l, s => by rw [List.foldl_cons, foldl_add f l, List.map_cons, List.sum_cons]; ring

theorem foldlM_add {β : Type} {f : β → Option ℝ} {g : β → ℝ} : ∀ (l : List β) (s : ℝ), (∀ x ∈ l, f x = some (g x)) →
    l.foldlM (fun s x => do let y ← f x; some (s + y)) s = some (s + (l.map g).sum)
  | [], s, _ => by simp
  | x :: l, s, h => by
    rw [List.foldlM_cons, h x (by simp)]
    simp only [Option.bind_eq_bind, Option.bind_some]
    have := foldlM_add (f := f) (g := g) l (s + g x) fun y hy => h y (by simp [hy])
    simp only [Option.bind_eq_bind] at this
    rw [this, List.map_cons, List.sum_cons, add_assoc]

/-! ## Sizes and overlaps -/

theorem partitionSize_eq (P : List (List α)) : PartitionSize P = P.flatten.length := by
  unfold PartitionSize
  have : ∀ (P : List (List α)) (s : ℕ), P.foldl (fun s g => s + g.length) s = s + P.flatten.length := by
    intro P
    induction P with
    | nil => intro s; simp
    | cons g P ih => intro s; rw [List.foldl_cons, ih]; simp; ring
  rw [this, zero_add]

theorem overlap_filter (g1 g2 : List α) : overlap g1 g2 = (g1.filter fun x => x ∈ g2).length := by
  unfold overlap
  have : ∀ (l : List α) (s : ℕ), l.foldl (fun s x => if g2.any (· == x) then s + 1 else s) s =
      s + (l.filter fun x => x ∈ g2).length := by
    intro l
    induction l with
    | nil => intro s; simp
    | cons x l ih =>
      intro s
      rw [List.foldl_cons, ih]
      have e : (g2.any (· == x) = true) ↔ x ∈ g2 := by
        rw [List.any_eq_true]
        constructor
        · rintro ⟨y, hy, hh⟩; rw [← eq_of_beq hh]; exact hy
        · intro h; exact ⟨x, h, by simp⟩
      by_cases hx : x ∈ g2
      · rw [if_pos (e.2 hx), List.filter_cons_of_pos (by simpa using hx), List.length_cons]; ring
      · rw [if_neg (fun h => hx (e.1 h)), List.filter_cons_of_neg (by simpa using hx)]
  rw [this, zero_add]

theorem overlap_comm {g1 g2 : List α} (h1 : g1.Nodup) (h2 : g2.Nodup) : overlap g1 g2 = overlap g2 g1 := by
  rw [overlap_filter, overlap_filter]
  apply List.Perm.length_eq
  rw [List.perm_ext_iff_of_nodup (h1.filter _) (h2.filter _)]
  intro x
  simp [List.mem_filter, and_comm]

theorem overlap_le_left (g1 g2 : List α) : overlap g1 g2 ≤ g1.length := by
  rw [overlap_filter]; exact List.length_filter_le _ _

theorem overlap_le_right {g1 g2 : List α} (h1 : g1.Nodup) (h2 : g2.Nodup) : overlap g1 g2 ≤ g2.length := by
  rw [overlap_comm h1 h2]; exact overlap_le_left _ _

theorem overlap_pos {g1 g2 : List α} : 0 < overlap g1 g2 ↔ ∃ x ∈ g1, x ∈ g2 := by
  rw [overlap_filter, List.length_pos_iff_exists_mem]
  simp [List.mem_filter]

theorem group_nodup {P : List (List α)} (h : P.flatten.Nodup) {g : List α} (hg : g ∈ P) : g.Nodup :=
  (List.nodup_flatten.1 h).1 g hg

/-- Every node of `g` is in exactly one group of `Q`. -/
theorem sum_overlap {Q : List (List α)} (hQ : Q.flatten.Nodup) : ∀ (g : List α), (∀ x ∈ g, x ∈ Q.flatten) →
    (Q.map fun g2 => (overlap g g2 : ℝ)).sum = g.length
  | [], _ => by
    simp [overlap]
  | x :: g, h => by
    have ih := sum_overlap hQ g fun y hy => h y (by simp [hy])
    have e : ∀ g2 ∈ Q, (overlap (x :: g) g2 : ℝ) = (g2.count x : ℝ) + overlap g g2 := by
      intro g2 hg2
      rw [overlap_filter, overlap_filter]
      by_cases hx : x ∈ g2
      · rw [List.filter_cons_of_pos (by simpa using hx), List.count_eq_one_of_mem (group_nodup hQ hg2) hx]
        push_cast [List.length_cons]; ring
      · rw [List.filter_cons_of_neg (by simpa using hx), List.count_eq_zero_of_not_mem hx]
        push_cast; ring
    rw [List.map_congr_left e, List.sum_map_add, ih]
    have hc : (Q.map fun g2 => (g2.count x : ℝ)).sum = 1 := by
      have h1 := List.count_eq_one_of_mem hQ (h x (by simp))
      rw [List.count_flatten] at h1
      have : ∀ l : List (List α), (l.map fun g2 => (g2.count x : ℝ)).sum = ((l.map (List.count x)).sum : ℕ) := by
        intro l
        induction l with
        | nil => simp
        | cons a l ih => simp [ih]
      rw [this, h1]; simp
    rw [hc]; push_cast [List.length_cons]; ring

theorem sum_length (P : List (List α)) : (P.map fun g => (g.length : ℝ)).sum = (P.flatten.length : ℝ) := by
  induction P with
  | nil => simp
  | cons g P ih => simp [ih]

/-! ## The function in terms of sums -/

/-- `s log (s / S)`. -/
noncomputable def eterm (S : ℕ) (g : List α) : ℝ := (g.length : ℝ) * Real.log ((g.length : ℝ) / S)

/-- `c log (c S / (s s'))`. -/
noncomputable def jterm (S : ℕ) (g1 g2 : List α) : ℝ :=
  (overlap g1 g2 : ℝ) * Real.log ((overlap g1 g2 : ℝ) * S / (g1.length * g2.length))

theorem entropy_eq (S : ℕ) (P : List (List α)) : entropy S P = (P.map (eterm S)).sum := by
  unfold entropy
  have : (fun (H : ℝ) (g : List α) => if 0 < g.length then H + (g.length : ℝ) * Real.log ((g.length : ℝ) / S) else H) =
      fun H g => H + eterm S g := by
    funext H g
    unfold eterm
    split_ifs with h
    · rfl
    · have : g.length = 0 := by omega
      rw [this]; simp
  rw [this, foldl_add, zero_add]

theorem overlap_nil_left (g : List α) : overlap [] g = 0 := rfl

theorem overlap_nil_right (g : List α) : overlap g [] = 0 := by rw [overlap_filter]; simp

theorem jointTerm_eq {S : ℕ} (hS : S * S ≤ INT_MAX) {g1 g2 : List α} (h1 : g1.length ≤ S) (h2 : g2.length ≤ S) :
    jointTerm S g1 g2 = some (jterm S g1 g2) := by
  unfold jointTerm jterm
  split_ifs with ho hb
  · push_cast; rfl
  · exfalso
    apply hb
    have := overlap_le_left g1 g2
    exact ⟨(Nat.mul_le_mul (this.trans h1) (le_refl _)).trans hS, (Nat.mul_le_mul h1 h2).trans hS⟩
  · have : overlap g1 g2 = 0 := by omega
    rw [this]; simp

theorem joint_eq {S : ℕ} (hS : S * S ≤ INT_MAX) {P Q : List (List α)} (hP : ∀ g ∈ P, g.length ≤ S) (hQ : ∀ g ∈ Q, g.length ≤ S) :
    joint S P Q = some ((P.map fun g1 => (Q.map fun g2 => jterm S g1 g2).sum).sum) := by
  unfold joint
  have inner : ∀ g1 ∈ P, ∀ H : ℝ, (Q.foldlM (fun H g2 =>
        if 0 < g2.length then do
          let x ← jointTerm S g1 g2
          some (H + x)
        else some H) H) = some (H + (Q.map fun g2 => jterm S g1 g2).sum) := by
    intro g1 hg1
    have : ∀ (l : List (List α)) (H : ℝ), (∀ g ∈ l, g.length ≤ S) → (l.foldlM (fun H g2 =>
        if 0 < g2.length then do
          let x ← jointTerm S g1 g2
          some (H + x)
        else some H) H) = some (H + (l.map fun g2 => jterm S g1 g2).sum) := by
      intro l
      induction l with
      | nil => intro H _; simp
      | cons g2 l ih =>
        intro H hl
        rw [List.foldlM_cons]
        by_cases h0 : 0 < g2.length
        · rw [if_pos h0, jointTerm_eq hS (hP g1 hg1) (hl g2 (by simp))]
          simp only [Option.bind_eq_bind, Option.bind_some]
          have := ih (H + jterm S g1 g2) fun g hg => hl g (by simp [hg])
          simp only [Option.bind_eq_bind] at this
          rw [this, List.map_cons, List.sum_cons, add_assoc]
        · rw [if_neg h0]
          have hz : jterm S g1 g2 = 0 := by
            have : g2 = [] := List.eq_nil_of_length_eq_zero (by omega)
            unfold jterm
            rw [this, overlap_nil_right]; simp
          simp only [Option.bind_eq_bind, Option.bind_some]
          have := ih H fun g hg => hl g (by simp [hg])
          simp only [Option.bind_eq_bind] at this
          rw [this, List.map_cons, List.sum_cons, hz, zero_add]
    exact fun H => this Q H hQ
  have outer : ∀ (l : List (List α)) (H : ℝ), (∀ g ∈ l, g ∈ P) → (l.foldlM (fun H g1 =>
      if 0 < g1.length then
        Q.foldlM (fun H g2 =>
          if 0 < g2.length then do
            let x ← jointTerm S g1 g2
            some (H + x)
          else some H) H
      else some H) H) = some (H + (l.map fun g1 => (Q.map fun g2 => jterm S g1 g2).sum).sum) := by
    intro l
    induction l with
    | nil => intro H _; simp
    | cons g1 l ih =>
      intro H hl
      rw [List.foldlM_cons]
      by_cases h0 : 0 < g1.length
      · rw [if_pos h0, inner g1 (hl g1 (by simp))]
        simp only [Option.bind_eq_bind, Option.bind_some]
        have := ih (H + (Q.map fun g2 => jterm S g1 g2).sum) fun g hg => hl g (by simp [hg])
        simp only [Option.bind_eq_bind] at this
        rw [this, List.map_cons, List.sum_cons, add_assoc]
      · rw [if_neg h0]
        have hz : (Q.map fun g2 => jterm S g1 g2).sum = 0 := by
          have : g1 = [] := List.eq_nil_of_length_eq_zero (by omega)
          rw [this]
          apply List.sum_eq_zero
          intro x hx
          obtain ⟨g2, _, rfl⟩ := List.mem_map.1 hx
          unfold jterm
          rw [overlap_nil_left]; simp
        simp only [Option.bind_eq_bind, Option.bind_some]
        have := ih H fun g hg => hl g (by simp [hg])
        simp only [Option.bind_eq_bind] at this
        rw [this, List.map_cons, List.sum_cons, hz, zero_add]
  rw [outer P 0 fun _ h => h, zero_add]

/-! ## Inequalities -/

variable {P Q : List (List α)}

theorem same_length (h : SameNodes P Q) : P.flatten.length = Q.flatten.length :=
  List.Perm.length_eq ((List.perm_ext_iff_of_nodup h.nodupP h.nodupQ).2 h.same)

theorem SameNodes.symm (h : SameNodes P Q) : SameNodes Q P := ⟨h.nodupQ, h.nodupP, fun x => (h.same x).symm⟩

theorem length_le {g : List α} (hg : g ∈ P) : g.length ≤ P.flatten.length := (List.sublist_flatten_of_mem hg).length_le

theorem jterm_comm (S : ℕ) {g1 g2 : List α} (h1 : g1.Nodup) (h2 : g2.Nodup) : jterm S g1 g2 = jterm S g2 g1 := by
  unfold jterm
  rw [overlap_comm h1 h2, mul_comm (g1.length : ℝ)]

/-- Joint information. -/
noncomputable def info (S : ℕ) (P Q : List (List α)) : ℝ := (P.map fun g1 => (Q.map fun g2 => jterm S g1 g2).sum).sum

theorem info_comm (h : SameNodes P Q) (S : ℕ) : info S P Q = info S Q P := by
  unfold info
  rw [sum_swap]
  congr 1
  apply List.map_congr_left
  intro g2 hg2
  congr 1
  apply List.map_congr_left
  intro g1 hg1
  exact jterm_comm S (group_nodup h.nodupP hg1) (group_nodup h.nodupQ hg2)

/-- `c log (c S / (s s')) ≤ c log (S / s)`, with equality only if the overlap is all of the second group. -/
theorem jterm_le {S : ℕ} (hS : 0 < S) {g1 g2 : List α} (h1 : g1.Nodup) (h2 : g2.Nodup) :
    jterm S g1 g2 ≤ (overlap g1 g2 : ℝ) * Real.log (S / g1.length) ∧
      (0 < overlap g1 g2 → jterm S g1 g2 = (overlap g1 g2 : ℝ) * Real.log (S / g1.length) → overlap g1 g2 = g2.length) ∧
      (overlap g1 g2 = g2.length → jterm S g1 g2 = (overlap g1 g2 : ℝ) * Real.log (S / g1.length)) := by
  unfold jterm
  rcases Nat.eq_zero_or_pos (overlap g1 g2) with h0 | h0
  · rw [h0]; simp
  have hle := overlap_le_right h1 h2
  have hle1 := overlap_le_left g1 g2
  have c0 : (0 : ℝ) < overlap g1 g2 := by exact_mod_cast h0
  have n0 : (0 : ℝ) < g1.length := by exact_mod_cast h0.trans_le hle1
  have m0 : (0 : ℝ) < g2.length := by exact_mod_cast h0.trans_le hle
  have S0 : (0 : ℝ) < S := by exact_mod_cast hS
  have cm : (overlap g1 g2 : ℝ) ≤ g2.length := by exact_mod_cast hle
  have e : (overlap g1 g2 : ℝ) * S / (g1.length * g2.length) = (S / g1.length) * (overlap g1 g2 / g2.length) := by
    field_simp
  have q1 : (overlap g1 g2 : ℝ) / g2.length ≤ 1 := by rw [div_le_one m0]; exact cm
  have q0 : 0 < (overlap g1 g2 : ℝ) / g2.length := div_pos c0 m0
  rw [e, Real.log_mul (div_pos S0 n0).ne' q0.ne']
  refine ⟨?_, ?_, ?_⟩
  · have := Real.log_nonpos q0.le q1
    nlinarith
  · intro _ hh
    have hz : Real.log ((overlap g1 g2 : ℝ) / g2.length) = 0 := by
      have := mul_left_cancel₀ c0.ne' hh
      linarith
    have : (overlap g1 g2 : ℝ) / g2.length = 1 := Real.eq_one_of_pos_of_log_eq_zero q0 hz
    rw [div_eq_one_iff_eq m0.ne'] at this
    exact_mod_cast this
  · intro hh
    rw [hh, div_self m0.ne', Real.log_one, add_zero]

theorem row_le (h : SameNodes P Q) {S : ℕ} (hS : 0 < S) {g1 : List α} (hg1 : g1 ∈ P) :
    (Q.map fun g2 => jterm S g1 g2).sum ≤ -eterm S g1 := by
  have h1 : (Q.map fun g2 => jterm S g1 g2).sum ≤ (Q.map fun g2 => (overlap g1 g2 : ℝ) * Real.log (S / g1.length)).sum :=
    sum_le fun g2 hg2 => (jterm_le hS (group_nodup h.nodupP hg1) (group_nodup h.nodupQ hg2)).1
  refine h1.trans (le_of_eq ?_)
  rw [List.sum_map_mul_right, sum_overlap h.nodupQ g1 fun x hx => (h.same x).1 (List.mem_flatten.2 ⟨g1, hg1, hx⟩)]
  unfold eterm
  rw [← inv_div, Real.log_inv]; ring

theorem row_value (h : SameNodes P Q) {S : ℕ} {g1 : List α} (hg1 : g1 ∈ P) :
    (Q.map fun g2 => (overlap g1 g2 : ℝ) * Real.log (S / g1.length)).sum = -eterm S g1 := by
  rw [List.sum_map_mul_right, sum_overlap h.nodupQ g1 fun x hx => (h.same x).1 (List.mem_flatten.2 ⟨g1, hg1, hx⟩)]
  unfold eterm
  rw [← inv_div, Real.log_inv]; ring

theorem info_le (h : SameNodes P Q) {S : ℕ} (hS : 0 < S) : info S P Q ≤ -entropy S P := by
  unfold info
  rw [entropy_eq]
  have := sum_le (l := P) fun g1 hg1 => row_le h hS hg1
  refine this.trans (le_of_eq ?_)
  exact sum_neg _ _

theorem info_eq_iff (h : SameNodes P Q) {S : ℕ} (hS : 0 < S) : info S P Q = -entropy S P ↔
    ∀ g1 ∈ P, ∀ g2 ∈ Q, 0 < overlap g1 g2 → overlap g1 g2 = g2.length := by
  have e0 : -entropy S P = (P.map fun g1 => -eterm S g1).sum := by
    rw [entropy_eq, sum_neg]
  constructor
  · intro e g1 hg1 g2 hg2 ho
    rw [e0] at e
    have r1 := sum_eq_terms (fun g1 hg1 => row_le h hS hg1) e g1 hg1
    rw [← row_value h hg1] at r1
    have r2 := sum_eq_terms (fun g2 hg2 => (jterm_le hS (group_nodup h.nodupP hg1) (group_nodup h.nodupQ hg2)).1) r1 g2 hg2
    exact (jterm_le hS (group_nodup h.nodupP hg1) (group_nodup h.nodupQ hg2)).2.1 ho r2
  · intro hh
    rw [e0]
    unfold info
    congr 1
    apply List.map_congr_left
    intro g1 hg1
    rw [← row_value h hg1]
    congr 1
    apply List.map_congr_left
    intro g2 hg2
    rcases Nat.eq_zero_or_pos (overlap g1 g2) with h0 | h0
    · unfold jterm; rw [h0]; simp
    · exact (jterm_le hS (group_nodup h.nodupP hg1) (group_nodup h.nodupQ hg2)).2.2 (hh g1 hg1 g2 hg2 h0)

/-- `c log (c S / (s s')) ≥ c - s s' / S`. -/
theorem jterm_ge {S : ℕ} (hS : 0 < S) {g1 g2 : List α} (h1 : g1.Nodup) (h2 : g2.Nodup) :
    (overlap g1 g2 : ℝ) - g1.length * g2.length / S ≤ jterm S g1 g2 := by
  unfold jterm
  have S0 : (0 : ℝ) < S := by exact_mod_cast hS
  rcases Nat.eq_zero_or_pos (overlap g1 g2) with h0 | h0
  · rw [h0]
    have : (0 : ℝ) ≤ g1.length * g2.length / S := by positivity
    simp; exact this
  have hle := overlap_le_right h1 h2
  have hle1 := overlap_le_left g1 g2
  have c0 : (0 : ℝ) < overlap g1 g2 := by exact_mod_cast h0
  have n0 : (0 : ℝ) < g1.length := by exact_mod_cast h0.trans_le hle1
  have m0 : (0 : ℝ) < g2.length := by exact_mod_cast h0.trans_le hle
  have hx : 0 < (overlap g1 g2 : ℝ) * S / (g1.length * g2.length) := by positivity
  have := Real.one_sub_inv_le_log_of_pos hx
  have h3 := mul_le_mul_of_nonneg_left this c0.le
  refine le_trans (le_of_eq ?_) h3
  rw [inv_div]
  field_simp

theorem info_nonneg (h : SameNodes P Q) (hS : 0 < P.flatten.length) : 0 ≤ info P.flatten.length P Q := by
  set S := P.flatten.length with hSdef
  have S0 : (0 : ℝ) < S := by exact_mod_cast hS
  unfold info
  have h1 : (P.map fun g1 => (Q.map fun g2 => (overlap g1 g2 : ℝ) - g1.length * g2.length / S).sum).sum ≤
      (P.map fun g1 => (Q.map fun g2 => jterm S g1 g2).sum).sum :=
    sum_le fun g1 hg1 => sum_le fun g2 hg2 => jterm_ge hS (group_nodup h.nodupP hg1) (group_nodup h.nodupQ hg2)
  refine le_trans (le_of_eq ?_) h1
  have h2 : ∀ g1 ∈ P, (Q.map fun g2 => (overlap g1 g2 : ℝ) - g1.length * g2.length / S).sum = 0 := by
    intro g1 hg1
    have : (Q.map fun g2 => (overlap g1 g2 : ℝ) - g1.length * g2.length / S) =
        Q.map fun g2 => (overlap g1 g2 : ℝ) + (-(g1.length : ℝ) / S) * g2.length := by
      apply List.map_congr_left
      intro g2 _
      ring
    rw [this, List.sum_map_add, List.sum_map_mul_left,
      sum_overlap h.nodupQ g1 fun x hx => (h.same x).1 (List.mem_flatten.2 ⟨g1, hg1, hx⟩), sum_length, ← same_length h, ← hSdef]
    field_simp
    ring
  symm
  apply List.sum_eq_zero
  intro x hx
  obtain ⟨g1, hg1, rfl⟩ := List.mem_map.1 hx
  exact h2 g1 hg1

theorem eterm_nonpos {S : ℕ} {g : List α} (h : g.length ≤ S) : eterm S g ≤ 0 := by
  unfold eterm
  apply mul_nonpos_of_nonneg_of_nonpos (by positivity)
  apply Real.log_nonpos (by positivity)
  rcases Nat.eq_zero_or_pos S with h0 | h0
  · rw [h0]; simp
  · rw [div_le_one (by exact_mod_cast h0)]; exact_mod_cast h

theorem entropy_nonpos {S : ℕ} (h : ∀ g ∈ P, g.length ≤ S) : entropy S P ≤ 0 := by
  rw [entropy_eq]
  have := sum_le (g := fun _ => (0 : ℝ)) (l := P) fun g hg => eterm_nonpos (h g hg)
  simpa using this

theorem group_unique {P : List (List α)} (hP : P.flatten.Nodup) {g g' : List α} (hg : g ∈ P) (hg' : g' ∈ P) {x : α}
    (hx : x ∈ g) (hx' : x ∈ g') : g = g' := by
  by_contra hne
  haveI : Std.Symm (List.Disjoint (α := α)) := ⟨fun _ _ h => h.symm⟩
  exact ((List.nodup_flatten.1 hP).2.forall hg hg' hne) hx hx'

/-- The entropy vanishes exactly if all nodes are in one group. -/
theorem entropy_zero_iff (hP : P.flatten.Nodup) : entropy P.flatten.length P = 0 ↔ ¬ Divided P := by
  rw [entropy_eq]
  have hle : ∀ g ∈ P, eterm P.flatten.length g ≤ 0 := fun g hg => eterm_nonpos (length_le hg)
  constructor
  · rintro e ⟨x, hx, y, hy, hxy⟩
    obtain ⟨g, hg, hxg⟩ := List.mem_flatten.1 hx
    have hz := sum_eq_terms (g := fun _ => 0) (l := P) hle (by rw [e]; simp) g hg
    have hpos : 0 < g.length := List.length_pos_of_mem hxg
    have hSpos : 0 < P.flatten.length := List.length_pos_of_mem hx
    have g0 : (0 : ℝ) < g.length := by exact_mod_cast hpos
    have S0 : (0 : ℝ) < P.flatten.length := by exact_mod_cast hSpos
    unfold eterm at hz
    have hlog := (mul_eq_zero.1 hz).resolve_left g0.ne'
    have := Real.eq_one_of_pos_of_log_eq_zero (div_pos g0 S0) hlog
    rw [div_eq_one_iff_eq S0.ne'] at this
    have hlen : g.length = P.flatten.length := by exact_mod_cast this
    have heq : g = P.flatten := (List.sublist_flatten_of_mem hg).eq_of_length hlen
    exact hxy ⟨g, hg, hxg, by rw [heq]; exact hy⟩
  · intro hd
    apply List.sum_eq_zero
    intro z hz
    obtain ⟨g, hg, rfl⟩ := List.mem_map.1 hz
    unfold eterm
    rcases Nat.eq_zero_or_pos g.length with h0 | h0
    · rw [h0]; simp
    · have hall : ∀ y ∈ P.flatten, y ∈ g := by
        intro y hy
        by_contra hyg
        obtain ⟨x, hx⟩ := List.exists_mem_of_length_pos h0
        apply hd
        refine ⟨x, List.mem_flatten.2 ⟨g, hg, hx⟩, y, hy, ?_⟩
        rintro ⟨g', hg', hxg', hyg'⟩
        have : g' = g := group_unique hP hg' hg hxg' hx
        exact hyg (this ▸ hyg')
      have hlen : g.length = P.flatten.length := le_antisymm (length_le hg) (by
        apply List.Subperm.length_le
        exact List.subperm_of_subset hP hall)
      rw [hlen, div_self (by rw [← hlen]; exact_mod_cast h0.ne'), Real.log_one, mul_zero]

/-- Groups that meet contain each other: the divisions are the same. -/
theorem together_iff (h : SameNodes P Q) : (∀ x y, Together P x y ↔ Together Q x y) ↔
    ∀ g1 ∈ P, ∀ g2 ∈ Q, 0 < overlap g1 g2 → overlap g1 g2 = g2.length ∧ overlap g1 g2 = g1.length := by
  have all : ∀ {g1 g2 : List α}, g1.Nodup → (overlap g1 g2 = g1.length ↔ ∀ x ∈ g1, x ∈ g2) := by
    intro g1 g2 _
    rw [overlap_filter, List.length_filter_eq_length_iff]
    simp
  constructor
  · intro ht g1 hg1 g2 hg2 ho
    obtain ⟨x, hx1, hx2⟩ := overlap_pos.1 ho
    have n1 := group_nodup h.nodupP hg1
    have n2 := group_nodup h.nodupQ hg2
    refine ⟨?_, ?_⟩
    · rw [overlap_comm n1 n2, all n2]
      intro y hy
      obtain ⟨g, hg, hxg, hyg⟩ := (ht x y).2 ⟨g2, hg2, hx2, hy⟩
      rw [group_unique h.nodupP hg1 hg hx1 hxg]; exact hyg
    · rw [all n1]
      intro y hy
      obtain ⟨g, hg, hxg, hyg⟩ := (ht x y).1 ⟨g1, hg1, hx1, hy⟩
      rw [group_unique h.nodupQ hg2 hg hx2 hxg]; exact hyg
  · intro hh x y
    constructor
    · rintro ⟨g1, hg1, hx, hy⟩
      obtain ⟨g2, hg2, hx2⟩ := List.mem_flatten.1 ((h.same x).1 (List.mem_flatten.2 ⟨g1, hg1, hx⟩))
      exact ⟨g2, hg2, hx2, (all (group_nodup h.nodupP hg1)).1 (hh g1 hg1 g2 hg2 (overlap_pos.2 ⟨x, hx, hx2⟩)).2 y hy⟩
    · rintro ⟨g2, hg2, hx, hy⟩
      obtain ⟨g1, hg1, hx1⟩ := List.mem_flatten.1 ((h.same x).2 (List.mem_flatten.2 ⟨g2, hg2, hx⟩))
      have := (hh g1 hg1 g2 hg2 (overlap_pos.2 ⟨x, hx1, hx⟩)).1
      rw [overlap_comm (group_nodup h.nodupP hg1) (group_nodup h.nodupQ hg2)] at this
      exact ⟨g1, hg1, hx1, (all (group_nodup h.nodupQ hg2)).1 this y hy⟩

/-! ## Theorems -/

theorem value (h : SameNodes P Q) (hI : P.flatten.length * P.flatten.length ≤ INT_MAX) : MutualInformation P Q =
    if entropy P.flatten.length P + entropy P.flatten.length Q = 0 then none
    else some (-2 * info P.flatten.length P Q / (entropy P.flatten.length P + entropy P.flatten.length Q)) := by
  unfold MutualInformation
  rw [partitionSize_eq]
  dsimp only
  rw [joint_eq hI (fun g hg => length_le hg) (fun g hg => by rw [same_length h]; exact length_le hg)]
  rfl

/-- **C26**: for two divisions of the same at most 46340 nodes, of which at least one has two non-empty groups,
`MutualInformation` lies between 0 and 1, is the same in both orders, and is 1 exactly when both divide the nodes in
the same way. -/
theorem C26_mutualInformation (h : SameNodes P Q) (hI : P.flatten.length ≤ 46340) (hd : Divided P ∨ Divided Q) :
    ∃ x, MutualInformation P Q = some x ∧ MutualInformation Q P = some x ∧ 0 ≤ x ∧ x ≤ 1 ∧
      (x = 1 ↔ ∀ u v, Together P u v ↔ Together Q u v) := by
  have hS : 0 < P.flatten.length := by
    rcases hd with ⟨x, hx, _⟩ | ⟨x, hx, _⟩
    · exact List.length_pos_of_mem hx
    · exact List.length_pos_of_mem ((h.same x).2 hx)
  have hI' : P.flatten.length * P.flatten.length ≤ INT_MAX :=
    (Nat.mul_le_mul hI hI).trans (by unfold INT_MAX; norm_num)
  have hlen := same_length h
  have v1 := value h hI'
  have v2 := value h.symm (by rw [← hlen]; exact hI')
  rw [← hlen, ← info_comm h, add_comm] at v2
  have p0 : entropy P.flatten.length P ≤ 0 := entropy_nonpos fun g hg => length_le hg
  have q0 : entropy P.flatten.length Q ≤ 0 := entropy_nonpos fun g hg => by rw [hlen]; exact length_le hg
  have hneg : entropy P.flatten.length P + entropy P.flatten.length Q < 0 := by
    have hP := entropy_zero_iff h.nodupP
    have hQ := entropy_zero_iff h.nodupQ
    rw [← hlen] at hQ
    rcases hd with hd | hd
    · have : entropy P.flatten.length P ≠ 0 := fun e => (hP.1 e) hd
      have := lt_of_le_of_ne p0 this
      linarith
    · have : entropy P.flatten.length Q ≠ 0 := fun e => (hQ.1 e) hd
      have := lt_of_le_of_ne q0 this
      linarith
  rw [if_neg hneg.ne] at v1 v2
  refine ⟨_, v1, v2, ?_, ?_, ?_⟩
  · apply div_nonneg_of_nonpos _ hneg.le
    have := info_nonneg h hS
    linarith
  · rw [div_le_one_of_neg hneg]
    have i1 := info_le h hS
    have i2 := info_le h.symm hS
    rw [← info_comm h] at i2
    linarith
  · rw [div_eq_one_iff_eq hneg.ne]
    have i1 := info_le h hS
    have i2 := info_le h.symm hS
    rw [← info_comm h] at i2
    have e1 := info_eq_iff h hS
    have e2 := info_eq_iff h.symm hS
    rw [← info_comm h] at e2
    rw [together_iff h]
    constructor
    · intro e
      have a1 := e1.1 (by linarith)
      have a2 := e2.1 (by linarith)
      intro g1 hg1 g2 hg2 ho
      refine ⟨a1 g1 hg1 g2 hg2 ho, ?_⟩
      have c := overlap_comm (group_nodup h.nodupP hg1) (group_nodup h.nodupQ hg2)
      rw [c] at ho ⊢
      exact a2 g2 hg2 g1 hg1 ho
    · intro hh
      have a1 := e1.2 fun g1 hg1 g2 hg2 ho => (hh g1 hg1 g2 hg2 ho).1
      have a2 := e2.2 fun g2 hg2 g1 hg1 ho => by
        have c := overlap_comm (group_nodup h.nodupP hg1) (group_nodup h.nodupQ hg2)
        rw [← c] at ho ⊢
        exact (hh g1 hg1 g2 hg2 ho).2
      linarith

/-- **C26**: a division against itself gives 1. -/
theorem C26_self (hP : P.flatten.Nodup) (hI : P.flatten.length ≤ 46340) (hd : Divided P) : MutualInformation P P = some 1 := by
  obtain ⟨x, h1, _, _, _, h5⟩ := C26_mutualInformation ⟨hP, hP, fun _ => Iff.rfl⟩ hI (Or.inl hd)
  rw [h1, h5.2 fun _ _ => Iff.rfl]

/-- If all nodes are in one group in both divisions the result is 0/0. -/
theorem C26_undivided (h : SameNodes P Q) (hI : P.flatten.length ≤ 46340) (h1 : ¬ Divided P) (h2 : ¬ Divided Q) :
    MutualInformation P Q = none := by
  have hI' : P.flatten.length * P.flatten.length ≤ INT_MAX :=
    (Nat.mul_le_mul hI hI).trans (by unfold INT_MAX; norm_num)
  rw [value h hI', (entropy_zero_iff h.nodupP).2 h1, same_length h, (entropy_zero_iff h.nodupQ).2 h2, if_pos (by norm_num)]

/-- From 46341 nodes on a product of `int`s overflows, here for a group of `n` nodes and one with a single node. -/
theorem C26_overflow {n : ℕ} (hn : 46341 ≤ n) : MutualInformation [List.range n, [n]] [List.range n, [n]] = none := by
  unfold MutualInformation
  have : joint (PartitionSize [List.range n, [n]]) [List.range n, [n]] [List.range n, [n]] = none := by
    rw [partitionSize_eq]
    unfold joint
    have ho : overlap (List.range n) (List.range n) = n := by
      rw [overlap_filter, List.filter_eq_self.2 (by simp)]; simp
    have hj : jointTerm ([List.range n, [n]].flatten.length) (List.range n) (List.range n) = none := by
      unfold jointTerm
      rw [ho, if_pos (by omega), if_neg]
      rintro ⟨_, h2⟩
      rw [List.length_range] at h2
      have := Nat.mul_le_mul hn hn
      unfold INT_MAX at h2
      omega
    rw [List.foldlM_cons, if_pos (by simp; omega), List.foldlM_cons, if_pos (by simp; omega), hj]
    rfl
  dsimp only
  rw [this]
  rfl

/-- The hypotheses hold for two divisions of three nodes. -/
example : SameNodes [[1, 2], [3]] [[2], [], [3, 1]] ∧ Divided [[1, 2], [3]] := by
  refine ⟨⟨by decide, by decide, fun x => ?_⟩, 1, by decide, 3, by decide, ?_⟩
  · simp; tauto
  · rintro ⟨g, hg, h1, h3⟩
    simp only [List.mem_cons, List.not_mem_nil, or_false] at hg
    rcases hg with rfl | rfl
    · simp at h3
    · simp at h1

end CP
