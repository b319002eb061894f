import Verif.Group.LookupModel
import Verif.Group.Spec
import Mathlib.Tactic.Ring
import Mathlib.Data.List.Basic
import Mathlib.Algebra.BigOperators.Fin
import Mathlib.Algebra.BigOperators.Ring.Finset

/-!
# C169: lists of groups and lookups
-/

namespace GP

open RG

/-! ## Specification -/

/-- In memory `h` the cells at `l` hang, in this order, from the cell at `p`. -/
def Hangs (h : GMem) : (p : ℕ) → (l : List ℕ) → Prop
  | p, [] => ∃ c, h p = some c ∧ c.next = 0
  | p, q :: l => (∃ c, h p = some c ∧ c.next = q ∧ q ≠ 0) ∧ Hangs h q l

/-- Size of the group at an address, 0 if there is none. -/
def sizeAt (h : GMem) (q : ℕ) : Int := (h q).elim 0 (·.size)

/-- Label of the group at an address. -/
def labelAt (h : GMem) (q : ℕ) : Option Int := (h q).map (·.label)

theorem Hangs.head {h : GMem} : ∀ {l : List ℕ} {p : ℕ}, Hangs h p l → ∃ c, h p = some c
  | [], _, ⟨c, hc, _⟩ => ⟨c, hc⟩
  | _ :: _, _, ⟨⟨c, hc, _⟩, _⟩ => ⟨c, hc⟩

theorem Hangs.congr {h h' : GMem} : ∀ {l : List ℕ} {p : ℕ}, Hangs h p l →
    (∀ q ∈ p :: l, h' q = h q) → Hangs h' p l
  | [], p, ⟨c, hc, hn⟩, he => ⟨c, by rw [he p (by simp), hc], hn⟩
  | q :: l, p, ⟨⟨c, hc, hn⟩, hl⟩, he =>
    ⟨⟨c, by rw [he p (by simp), hc], hn⟩, hl.congr fun r hr => he r (List.mem_cons_of_mem _ hr)⟩

/-- A cell whose size and label are the same, and whose contents may point elsewhere. -/
def SameGroup (h h' : GMem) (q : ℕ) : Prop := sizeAt h' q = sizeAt h q ∧ labelAt h' q = labelAt h q

theorem CompressCells_all : ∀ (l : List ℕ) (p : ℕ) (h : GMem) (fuel : ℕ), Hangs h p l →
    (p :: l).Nodup → l.length < fuel →
    ∃ h', CompressCells fuel p h = .ok h' ∧ Hangs h' p (l.filter fun q => sizeAt h q ≠ 0) ∧
      (∀ q ∈ l, sizeAt h q = 0 → h' q = none) ∧
      (∀ q ∈ l, sizeAt h q ≠ 0 → SameGroup h h' q) ∧ SameGroup h h' p ∧ (∀ q ∉ p :: l, h' q = h q)
  | [], p, h, fuel, hl, _, hf => by
    obtain ⟨f, rfl⟩ : ∃ f, fuel = f + 1 := ⟨fuel - 1, by simp at hf; omega⟩
    obtain ⟨c, hc, hn⟩ := hl
    refine ⟨h, ?_, ⟨c, hc, hn⟩, by simp, by simp, ⟨rfl, rfl⟩, fun _ _ => rfl⟩
    simp only [CompressCells, hc, hn, if_true]
  | q :: l, p, h, fuel, hl, hnd, hf => by
    obtain ⟨f, rfl⟩ : ∃ f, fuel = f + 1 := ⟨fuel - 1, by simp at hf; omega⟩
    obtain ⟨⟨c, hc, hn, hq⟩, hl⟩ := hl
    obtain ⟨d, hd⟩ := hl.head
    have hpq : p ≠ q := fun e => by subst e; simp at hnd
    have hpl : p ∉ l := fun e => by simp [e] at hnd
    have hql : q ∉ l := fun e => by simp [e] at hnd
    have hlnd : l.Nodup := (List.nodup_cons.1 (List.nodup_cons.1 hnd).2).2
    have hs : sizeAt h q = d.size := by simp [sizeAt, hd]
    by_cases hz : d.size = 0
    · -- the cell is taken out
      set h1 : GMem := Function.update (Function.update h p (some { c with next := d.next })) q none with h1d
      have e1 : ∀ r, r ≠ p → r ≠ q → h1 r = h r := by
        intro r hr hr'
        rw [h1d, Function.update_of_ne hr', Function.update_of_ne hr]
      have ep : h1 p = some { c with next := d.next } := by
        rw [h1d, Function.update_of_ne hpq, Function.update_self]
      have eq : h1 q = none := by rw [h1d, Function.update_self]
      have hl1 : Hangs h1 p l := by
        cases l with
        | nil =>
          obtain ⟨d', hd', hn'⟩ := hl
          rw [hd] at hd'; cases hd'
          exact ⟨_, ep, hn'⟩
        | cons r l =>
          obtain ⟨⟨d', hd', hn', hr⟩, hl⟩ := hl
          rw [hd] at hd'; cases hd'
          refine ⟨⟨_, ep, hn', hr⟩, hl.congr fun s hm => e1 s ?_ ?_⟩
          · rintro rfl; exact hpl hm
          · rintro rfl; exact hql hm
      obtain ⟨h', r1, r2, r3, r4, r5, r6⟩ := CompressCells_all l p h1 f hl1
        (List.nodup_cons.2 ⟨hpl, hlnd⟩) (by simp at hf; omega)
      have es : ∀ r ∈ l, sizeAt h1 r = sizeAt h r := by
        intro r hr
        unfold sizeAt
        rw [e1 r (fun e => hpl (e ▸ hr)) (fun e => hql (e ▸ hr))]
      have el : ∀ r ∈ l, labelAt h1 r = labelAt h r := by
        intro r hr
        unfold labelAt
        rw [e1 r (fun e => hpl (e ▸ hr)) (fun e => hql (e ▸ hr))]
      refine ⟨h', ?_, ?_, ?_, ?_, ?_, ?_⟩
      · simp only [CompressCells, hc, hn, if_neg hq, hd, if_pos hz]
        rw [← r1, h1d]
      · rw [List.filter_cons, if_neg (by simp [hs, hz])]
        rw [List.filter_congr (q := fun r => decide (sizeAt h1 r ≠ 0)) fun r hr => by rw [es r hr]]
        exact r2
      · intro r hr h0
        rcases List.mem_cons.1 hr with rfl | hr
        · rw [r6 r (by simp [Ne.symm hpq, hql]), eq]
        · exact r3 r hr (by rw [es r hr]; exact h0)
      · intro r hr h0
        rcases List.mem_cons.1 hr with rfl | hr
        · exact absurd (hs.trans hz) h0
        · have := r4 r hr (by rw [es r hr]; exact h0)
          exact ⟨this.1.trans (es r hr), this.2.trans (el r hr)⟩
      · refine ⟨r5.1.trans ?_, r5.2.trans ?_⟩
        · simp [sizeAt, ep, hc]
        · simp [labelAt, ep, hc]
      · intro r hr
        simp only [List.mem_cons, not_or] at hr
        rw [r6 r (by simp [hr.1, hr.2.2]), e1 r hr.1 hr.2.1]
    · obtain ⟨h', r1, r2, r3, r4, r5, r6⟩ := CompressCells_all l q h f hl (List.nodup_cons.1 hnd).2
        (by simp at hf; omega)
      have ep : h' p = h p := r6 p (by simp [hpq, hpl])
      refine ⟨h', ?_, ?_, ?_, ?_, ?_, ?_⟩
      · simp only [CompressCells, hc, hn, if_neg hq, hd, if_neg hz]
        exact r1
      · rw [List.filter_cons, if_pos (by simp [hs, hz])]
        exact ⟨⟨c, by rw [ep, hc], hn, hq⟩, r2⟩
      · intro r hr h0
        rcases List.mem_cons.1 hr with rfl | hr
        · exact absurd (hs ▸ h0) hz
        · exact r3 r hr h0
      · intro r hr h0
        rcases List.mem_cons.1 hr with rfl | hr
        · exact r5
        · exact r4 r hr h0
      · exact ⟨by simp [sizeAt, ep], by simp [labelAt, ep]⟩
      · intro r hr
        simp only [List.mem_cons, not_or] at hr
        exact r6 r (by simp [hr.2.1, hr.2.2])

theorem NGroups_all : ∀ (l : List ℕ) (p k : ℕ) (h : GMem) (fuel : ℕ), Hangs h p l → l.length < fuel →
    NGroups fuel p k h = .ok (k + l.length)
  | [], p, k, h, fuel, hl, hf => by
    obtain ⟨f, rfl⟩ : ∃ f, fuel = f + 1 := ⟨fuel - 1, by simp at hf; omega⟩
    obtain ⟨c, hc, hn⟩ := hl
    simp [NGroups, hc, hn]
  | q :: l, p, k, h, fuel, hl, hf => by
    obtain ⟨f, rfl⟩ : ∃ f, fuel = f + 1 := ⟨fuel - 1, by simp at hf; omega⟩
    obtain ⟨⟨c, hc, hn, hq⟩, hl⟩ := hl
    simp only [NGroups, hc, hn, if_neg hq]
    rw [NGroups_all l q (k + 1) h f hl (by simp at hf; omega)]
    simp only [List.length_cons]
    congr 1; omega

theorem NNonEmptyCells_all : ∀ (l : List ℕ) (p k : ℕ) (h : GMem) (fuel : ℕ), Hangs h p l →
    l.length < fuel → NNonEmptyCells fuel p k h = .ok (k + (l.filter fun q => 0 < sizeAt h q).length)
  | [], p, k, h, fuel, hl, hf => by
    obtain ⟨f, rfl⟩ : ∃ f, fuel = f + 1 := ⟨fuel - 1, by simp at hf; omega⟩
    obtain ⟨c, hc, hn⟩ := hl
    simp [NNonEmptyCells, hc, hn]
  | q :: l, p, k, h, fuel, hl, hf => by
    obtain ⟨f, rfl⟩ : ∃ f, fuel = f + 1 := ⟨fuel - 1, by simp at hf; omega⟩
    obtain ⟨⟨c, hc, hn, hq⟩, hl⟩ := hl
    obtain ⟨d, hd⟩ := hl.head
    have hs : sizeAt h q = d.size := by simp [sizeAt, hd]
    simp only [NNonEmptyCells, hc, hn, if_neg hq, hd]
    rw [NNonEmptyCells_all l q _ h f hl (by simp at hf; omega), List.filter_cons, hs]
    by_cases hp : 0 < d.size
    · simp only [hp, if_true, decide_true, List.length_cons]
      congr 1; omega
    · simp [hp]

/-- **C169** (`CompressPart`): for every list of groups in memory, the call is defined, ends, leaves in
their order exactly the groups that are not empty, with their labels and sizes, frees each of the
others, and touches no other memory. -/
theorem C169_compress {h : GMem} {p : ℕ} {l : List ℕ} (hl : Hangs h p l) (hnd : (p :: l).Nodup)
    {fuel : ℕ} (hf : l.length < fuel) :
    ∃ h', CompressCells fuel p h = .ok h' ∧ Hangs h' p (l.filter fun q => sizeAt h q ≠ 0) ∧
      (∀ q ∈ l, h' q = none ↔ sizeAt h q = 0) ∧
      (∀ q ∈ l, sizeAt h q ≠ 0 → sizeAt h' q = sizeAt h q ∧ labelAt h' q = labelAt h q) ∧
      (∀ q ∉ p :: l, h' q = h q) := by
  obtain ⟨h', r1, r2, r3, r4, _, r6⟩ := CompressCells_all l p h fuel hl hnd hf
  refine ⟨h', r1, r2, fun q hq => ⟨fun e => ?_, r3 q hq⟩, r4, r6⟩
  by_contra h0
  have := (r4 q hq h0).1
  rw [sizeAt, e] at this
  exact h0 this.symm

/-- **C169** (`NGroups`, `NNonEmptyGroups`): the numbers of groups and of groups with a positive size;
if no size is negative, the second is what the first gives after `CompressPart`. -/
theorem C169_counts {h : GMem} {p : ℕ} {l : List ℕ} (hl : Hangs h p l) (hnd : (p :: l).Nodup)
    {fuel : ℕ} (hf : l.length < fuel) :
    NGroups fuel p 0 h = .ok l.length ∧
    NNonEmptyCells fuel p 0 h = .ok (l.filter fun q => 0 < sizeAt h q).length ∧
    ((∀ q ∈ l, 0 ≤ sizeAt h q) →
      (CompressCells fuel p h).bind (NGroups fuel p 0) = NNonEmptyCells fuel p 0 h) := by
  refine ⟨by simpa using NGroups_all l p 0 h fuel hl hf, by simpa using NNonEmptyCells_all l p 0 h fuel hl hf,
    fun hpos => ?_⟩
  obtain ⟨h', r1, r2, -⟩ := CompressCells_all l p h fuel hl hnd hf
  rw [r1, NNonEmptyCells_all l p 0 h fuel hl hf]
  change NGroups fuel p 0 h' = _
  rw [NGroups_all _ p 0 h' fuel r2 (lt_of_le_of_lt (List.length_filter_le _ _) hf)]
  congr 2
  rw [List.filter_congr (q := fun q => decide (0 < sizeAt h q))]
  intro q hq
  have := hpos q hq
  by_cases h0 : sizeAt h q = 0
  · simp [h0]
  · have : 0 < sizeAt h q := by omega
    simp [h0, this]

/-- **C169** (`GetGroup`): the first group with the label, NULL exactly if there is none. -/
theorem C169_group (label : Int) : ∀ {l : List ℕ} {p : ℕ} {h : GMem} {fuel : ℕ}, Hangs h p l →
    l.length < fuel → GetGroup label fuel p h = .ok ((l.find? fun q => labelAt h q = some label).getD 0)
  | [], p, h, fuel, hl, hf => by
    obtain ⟨f, rfl⟩ : ∃ f, fuel = f + 1 := ⟨fuel - 1, by simp at hf; omega⟩
    obtain ⟨c, hc, hn⟩ := hl
    simp [GetGroup, hc, hn]
  | q :: l, p, h, fuel, hl, hf => by
    obtain ⟨f, rfl⟩ : ∃ f, fuel = f + 1 := ⟨fuel - 1, by simp at hf; omega⟩
    obtain ⟨⟨c, hc, hn, hq⟩, hl⟩ := hl
    obtain ⟨d, hd⟩ := hl.head
    have hs : labelAt h q = some d.label := by simp [labelAt, hd]
    simp only [GetGroup, hc, hn, if_neg hq, hd]
    rw [List.find?_cons]
    by_cases e : d.label = label
    · simp [e, hs]
    · rw [if_neg e, C169_group label hl (by simp at hf; omega)]
      simp [hs, e]

/-- **C169** (`GetGroup` after `CompressPart`): with different labels, a group that is not empty is
still found, at the same place, and one that was empty is not. -/
theorem C169_found {h : GMem} {p : ℕ} {l : List ℕ} (hl : Hangs h p l) (hnd : (p :: l).Nodup)
    (hd : ∀ q ∈ l, ∀ r ∈ l, labelAt h q = labelAt h r → q = r)
    {fuel : ℕ} (hf : l.length < fuel) {q : ℕ} (hq : q ∈ l) {label : Int} (hlab : labelAt h q = some label) :
    (CompressCells fuel p h).bind (GetGroup label fuel p) = .ok (if sizeAt h q = 0 then 0 else q) := by
  obtain ⟨h', r1, r2, r3, r4, -⟩ := CompressCells_all l p h fuel hl hnd hf
  rw [r1]
  change GetGroup label fuel p h' = _
  rw [C169_group label r2 (lt_of_le_of_lt (List.length_filter_le _ _) hf)]
  congr 1
  by_cases h0 : sizeAt h q = 0
  · rw [if_pos h0, List.find?_eq_none.2]
    · rfl
    · intro r hr
      rw [List.mem_filter] at hr
      have hr0 : sizeAt h r ≠ 0 := by simpa using hr.2
      simp only [decide_eq_true_eq]
      intro e
      have := hd r hr.1 q hq (by rw [← (r4 r hr.1 hr0).2, e, hlab])
      exact hr0 (this ▸ h0)
  · rw [if_neg h0]
    cases hfd : (l.filter fun q => sizeAt h q ≠ 0).find? fun q => labelAt h' q = some label with
    | none =>
      have := List.find?_eq_none.1 hfd q (List.mem_filter.2 ⟨hq, by simpa using h0⟩)
      simp only [decide_eq_true_eq] at this
      exact absurd ((r4 q hq h0).2.trans hlab) this
    | some r =>
      have h1 := List.mem_filter.1 (List.mem_of_find?_eq_some hfd)
      have h2 := List.find?_some hfd
      simp only [decide_eq_true_eq] at h2
      have hr0 : sizeAt h r ≠ 0 := by simpa using h1.2
      exact hd r h1.1 q hq (by rw [← (r4 r h1.1 hr0).2, h2, hlab])

/-- **C169** (`GetLink`): the first link to the node if there is one; otherwise NULL is dereferenced. -/
theorem C169_link (n2 : ℕ) : ∀ l : List (ℕ × ℚ),
    (∀ i, GetLink n2 l = some i ↔ ∃ w, l[i]? = some (n2, w) ∧ ∀ j < i, ∀ x, l[j]? = some x → x.1 ≠ n2) ∧
    (GetLink n2 l = none ↔ ∀ x ∈ l, x.1 ≠ n2)
  | [] => by simp [GetLink]
  | x :: l => by
    obtain ⟨h1, h2⟩ := C169_link n2 l
    by_cases e : x.1 = n2
    · simp only [GetLink, ne_eq, e, not_true_eq_false, if_false]
      refine ⟨fun i => ⟨?_, ?_⟩, by simp [e]⟩
      · intro hi
        obtain rfl : 0 = i := by simpa using hi
        exact ⟨x.2, by simp [← e], by simp⟩
      · rintro ⟨w, -, hj⟩
        cases i with
        | zero => rfl
        | succ i => exact absurd e (hj 0 (by omega) x (by simp))
    · simp only [GetLink, ne_eq, e, not_false_eq_true, if_true]
      constructor
      · intro i
        cases i with
        | zero =>
          simp only [List.getElem?_cons_zero, Option.some.injEq]
          constructor
          · intro hh
            obtain ⟨k, -, hk⟩ := Option.map_eq_some_iff.1 hh
            omega
          · rintro ⟨w, rfl, -⟩
            exact absurd rfl e
        | succ i =>
          have : Option.map (fun x => x + 1) (GetLink n2 l) = some (i + 1) ↔ GetLink n2 l = some i := by
            simp [Option.map_eq_some_iff]
          rw [this, h1 i]
          simp only [List.getElem?_cons_succ]
          refine exists_congr fun w => and_congr_right fun _ => ⟨?_, ?_⟩
          · intro hj j hlt y hy
            cases j with
            | zero => simp at hy; subst hy; exact e
            | succ j => exact hj j (by omega) y (by simpa using hy)
          · intro hj j hlt y hy
            exact hj (j + 1) (by omega) y (by simpa using hy)
      · rw [Option.map_eq_none_iff, h2]
        simp [e]

theorem strength_sum (f : ℕ → Int) (m : ℕ) : ∀ (l : List (ℕ × ℚ)) (s : Int → ℚ),
    (∀ x ∈ l, -1 ≤ f x.1 ∧ f x.1 < m) →
    (∑ k ∈ Finset.range (m + 1), l.foldl (fun s x => if f x.1 = (k : Int) - 1 then s + x.2 else s) (s ((k : Int) - 1))) =
      l.foldl (fun s x => s + x.2) (∑ k ∈ Finset.range (m + 1), s ((k : Int) - 1))
  | [], s, _ => rfl
  | x :: l, s, hx => by
    simp only [List.foldl_cons]
    have := strength_sum f m l (fun i => if f x.1 = i then s i + x.2 else s i)
      (fun y hy => hx y (List.mem_cons_of_mem _ hy))
    rw [this]
    congr 1
    obtain ⟨h1, h2⟩ := hx x (by simp)
    obtain ⟨k0, hk0⟩ : ∃ k0 : ℕ, f x.1 = (k0 : Int) - 1 := ⟨(f x.1 + 1).toNat, by omega⟩
    have hlt : k0 < m + 1 := by omega
    rw [hk0]
    have e : ∀ k : ℕ, (if (k0 : Int) - 1 = (k : Int) - 1 then s ((k : Int) - 1) + x.2 else s ((k : Int) - 1)) =
        s ((k : Int) - 1) + (if k0 = k then x.2 else 0) := by
      intro k
      by_cases hk : k0 = k
      · subst hk; simp
      · have : ¬ (k0 : Int) - 1 = (k : Int) - 1 := by omega
        simp [hk, this]
    simp only [e]
    rw [Finset.sum_add_distrib, Finset.sum_ite_eq]
    simp [hlt]

/-- **C169** (`StrengthToGroupByNum`): the strengths towards the labels `-1, 0, …, m - 1` add up to the
strength of the node when all groups have labels below `m`. -/
theorem C169_strengths (net : Net) (p : Part) (v m : ℕ)
    (hm : ∀ x ∈ net.neig v, ∀ g, p.inGroup x.1 = some g → g < m) :
    ∑ k ∈ Finset.range (m + 1), StrengthToGroupByNum net p v ((k : Int) - 1) = NodeStrength net v := by
  have := strength_sum (fun u => labelNum (p.inGroup u)) m (net.neig v) (fun _ => 0) ?_
  · simpa [StrengthToGroupByNum, NodeStrength] using this
  · intro x hx
    have := hm x hx
    cases hg : p.inGroup x.1 with
    | none => simp only [labelNum]; omega
    | some g => have := this g hg; simp only [labelNum]; omega

/-- **C169** (`ResetNetGroup`): afterwards every node of the network is in no group, the groups are
untouched, and the strength of a node towards any group is 0. -/
theorem C169_reset (net : Net) (p : Part) :
    (∀ v < net.n, (ResetNetGroup net p).inGroup v = none) ∧ (ResetNetGroup net p).grp = p.grp ∧
    ∀ v, (∀ x ∈ net.neig v, x.1 < net.n) → ∀ g : ℕ, StrengthToGroupByNum net (ResetNetGroup net p) v g = 0 := by
  refine ⟨fun v hv => by simp [ResetNetGroup, hv], rfl, fun v hv g => ?_⟩
  have : ∀ (l : List (ℕ × ℚ)) (s : ℚ), (∀ x ∈ l, x.1 < net.n) →
      l.foldl (fun s x => if labelNum ((ResetNetGroup net p).inGroup x.1) = (g : Int) then s + x.2
        else s) s = s := by
    intro l
    induction l with
    | nil => intro s _; rfl
    | cons x l ih =>
      intro s hx
      rw [List.foldl_cons, if_neg, ih _ fun y hy => hx y (List.mem_cons_of_mem _ hy)]
      have : (ResetNetGroup net p).inGroup x.1 = none := by simp [ResetNetGroup, hx x (by simp)]
      rw [this]
      simp only [labelNum]
      omega
  exact this _ 0 hv

example : StrengthToGroupByNum ⟨3, fun _ => [(1, 2), (2, 5)]⟩ ⟨fun _ => Grp.empty, fun v => if v = 1 then some 0 else none⟩ 0 0 = 2 ∧
    StrengthToGroupByNum ⟨3, fun _ => [(1, 2), (2, 5)]⟩ ⟨fun _ => Grp.empty, fun v => if v = 1 then some 0 else none⟩ 0 (-1) = 5 := by
  decide +kernel

/-- Three groups hanging from the header at address 1; the second is empty. -/
def exMem : GMem := fun q =>
  if q = 1 then some ⟨0, 0, 2⟩ else if q = 2 then some ⟨4, 3, 3⟩ else if q = 3 then some ⟨5, 0, 4⟩
  else if q = 4 then some ⟨6, 1, 0⟩ else none

example : Hangs exMem 1 [2, 3, 4] ∧ ([1, 2, 3, 4] : List ℕ).Nodup := by
  refine ⟨⟨⟨_, rfl, rfl, by decide⟩, ⟨_, rfl, rfl, by decide⟩, ⟨_, rfl, rfl, by decide⟩, _, rfl, rfl⟩, by decide⟩

example : (CompressCells 4 1 exMem).bind (NGroups 4 1 0) = .ok 2 ∧ NGroups 4 1 0 exMem = .ok 3 ∧
    GetGroup 6 4 1 exMem = .ok 4 ∧ GetGroup 7 4 1 exMem = .ok 0 ∧
    (CompressCells 4 1 exMem).bind (GetGroup 5 4 1) = .ok 0 := ⟨rfl, rfl, rfl, rfl, rfl⟩

example : GetLink 3 [(1, 1), (3, 2), (3, 5)] = some 1 ∧ GetLink 2 [(1, 1), (3, 2)] = none := by decide +kernel

end GP
