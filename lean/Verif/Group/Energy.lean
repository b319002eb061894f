import Verif.Group.Props
import Verif.Group.SAModel
import Mathlib.Algebra.Order.BigOperators.Group.Finset
import Mathlib.Algebra.Order.BigOperators.Ring.Finset
import Mathlib.Algebra.BigOperators.Field

/-! # C24: modularity and its changes -/

set_option linter.unusedSimpArgs false

namespace GP

variable {net : Net} {m : ℕ} {p : Part}

/-- Every node is in a group. -/
def Full (net : Net) (p : Part) : Prop := ∀ v < net.n, p.inGroup v ≠ none

/-- Sum of the degrees. -/
def degSum (net : Net) : Int := ∑ v ∈ Finset.range net.n, ∑ j ∈ Finset.range net.n, net.a v j

/-- Modularity of a division `f` of the nodes, as usually written:
`1/2L ∑ᵢⱼ (Aᵢⱼ - kᵢ kⱼ / 2L) [f i = f j]`, where `2L` is the sum of the degrees `kᵢ`. -/
def newman (net : Net) (f : ℕ → Option ℕ) : ℚ :=
  (1 / (degSum net : ℚ)) * ∑ i ∈ Finset.range net.n, ∑ j ∈ Finset.range net.n,
    if f i = f j then
      (net.a i j : ℚ) - ((∑ k ∈ Finset.range net.n, net.a i k : Int) : ℚ) *
        ((∑ k ∈ Finset.range net.n, net.a j k : Int) : ℚ) / degSum net
    else 0

/-- Sum over groups of sums over members. -/
theorem sum_members {R : Type} [AddCommMonoid R] (hp : PartOK net m p) (hf : Full net p) (F : ℕ → R) :
    ∑ g ∈ Finset.range m, ∑ v ∈ members net p g, F v = ∑ v ∈ Finset.range net.n, F v := by
  unfold members
  simp only [Finset.sum_filter]
  rw [Finset.sum_comm]
  apply Finset.sum_congr rfl
  intro v hv
  have hv' := Finset.mem_range.1 hv
  obtain ⟨g, hg⟩ := Option.ne_none_iff_exists'.1 (hf v hv')
  have hgm := (hp.range v g hg).2
  rw [hg]
  simp only [Option.some.injEq]
  rw [Finset.sum_ite_eq, if_pos (Finset.mem_range.2 hgm)]

theorem D_eq (hp : PartOK net m p) {g : ℕ} (hg : g < m) :
    (p.grp g).totlinks + (p.grp g).inlinks =
      ∑ v ∈ members net p g, ∑ j ∈ Finset.range net.n, net.a v j :=
  ((countOK_iff (members_subset net p g)).1 (hp.groups g hg).links).2.1

theorem links2_eq (hp : PartOK net m p) (hf : Full net p) :
    ∑ g ∈ Finset.range m, ((p.grp g).totlinks + (p.grp g).inlinks) = degSum net := by
  rw [degSum, ← sum_members hp hf]
  exact Finset.sum_congr rfl fun g hg => D_eq hp (Finset.mem_range.1 hg)

/-- Term of a group in the energy. -/
def gterm (p : Part) (L : ℚ) (g : ℕ) : ℚ :=
  term (p.grp g).inlinks ((p.grp g).totlinks + (p.grp g).inlinks) L

theorem Modularity_eq (hp : PartOK net m p) (hf : Full net p) (hL : degSum net ≠ 0) :
    Modularity m p = some (∑ g ∈ Finset.range m, gterm p (degSum net) g) := by
  unfold Modularity
  rw [links2_eq hp hf, if_neg hL]
  refine congrArg some (Finset.sum_congr rfl fun g _ => ?_)
  unfold gterm term
  push_cast
  ring

theorem gterm_members (hp : PartOK net m p) {g : ℕ} (hg : g < m) (L : ℚ) :
    gterm p L g = ∑ i ∈ members net p g, ∑ j ∈ members net p g,
      ((net.a i j : ℚ) / L - ((∑ k ∈ Finset.range net.n, net.a i k : Int) : ℚ) *
        ((∑ k ∈ Finset.range net.n, net.a j k : Int) : ℚ) / (L * L)) := by
  have h1 := (hp.groups g hg).links.1
  have h2 := D_eq hp hg
  have h1' : 2 * ((p.grp g).inlinks : ℚ) =
      ∑ i ∈ members net p g, ∑ j ∈ members net p g, (net.a i j : ℚ) := by exact_mod_cast h1
  have h2' : ((p.grp g).totlinks : ℚ) + (p.grp g).inlinks =
      ∑ i ∈ members net p g, ((∑ k ∈ Finset.range net.n, net.a i k : Int) : ℚ) := by exact_mod_cast h2
  unfold gterm term
  rw [h1', h2', Finset.sum_mul_sum]
  simp only [Finset.sum_sub_distrib, Finset.sum_div]

/-- **C24**: `Modularity` is the modularity of the division of the nodes. -/
theorem C24_modularity (hp : PartOK net m p) (hf : Full net p) (hL : degSum net ≠ 0) :
    Modularity m p = some (newman net p.inGroup) := by
  rw [Modularity_eq hp hf hL]
  refine congrArg some ?_
  rw [Finset.sum_congr rfl fun g hg => gterm_members hp (Finset.mem_range.1 hg) _]
  have h1 : ∀ g ∈ Finset.range m, ∑ i ∈ members net p g, ∑ j ∈ members net p g,
      ((net.a i j : ℚ) / (degSum net : ℚ) - ((∑ k ∈ Finset.range net.n, net.a i k : Int) : ℚ) *
        ((∑ k ∈ Finset.range net.n, net.a j k : Int) : ℚ) / ((degSum net : ℚ) * degSum net)) =
      ∑ i ∈ members net p g, ∑ j ∈ Finset.range net.n, if p.inGroup i = p.inGroup j then
      ((net.a i j : ℚ) / (degSum net : ℚ) - ((∑ k ∈ Finset.range net.n, net.a i k : Int) : ℚ) *
        ((∑ k ∈ Finset.range net.n, net.a j k : Int) : ℚ) / ((degSum net : ℚ) * degSum net)) else 0 := by
    intro g _
    apply Finset.sum_congr rfl
    intro i hi
    have hi' := (mem_members.1 hi).2
    rw [hi', ← Finset.sum_filter]
    unfold members
    simp only [eq_comm]
  rw [Finset.sum_congr rfl h1, sum_members hp hf]
  unfold newman
  rw [Finset.mul_sum]
  apply Finset.sum_congr rfl
  intro i _
  rw [Finset.mul_sum]
  apply Finset.sum_congr rfl
  intro j _
  split_ifs with h
  · have : (degSum net : ℚ) ≠ 0 := by exact_mod_cast hL
    field_simp
  · simp

/-- Sum of the strengths (weighted degrees). -/
def strengthSum (net : Net) : ℚ := ∑ v ∈ Finset.range net.n, ∑ j ∈ Finset.range net.n, net.w v j

/-- Weighted modularity of a division `f` of the nodes: `1/2W ∑ᵢⱼ (wᵢⱼ - sᵢ sⱼ / 2W) [f i = f j]`,
where `sᵢ` is the sum of the weights of the links of `i` and `2W` the sum of the strengths. -/
def newmanW (net : Net) (f : ℕ → Option ℕ) : ℚ :=
  (1 / strengthSum net) * ∑ i ∈ Finset.range net.n, ∑ j ∈ Finset.range net.n,
    if f i = f j then
      net.w i j - (∑ k ∈ Finset.range net.n, net.w i k) * (∑ k ∈ Finset.range net.n, net.w j k) /
        strengthSum net
    else 0

/-- **C24**: `ModularityWeight` is the weighted modularity of the division of the nodes; and it
divides by 0 exactly when the weights add up to 0. -/
theorem C24_modularity_weighted (hp : PartOK net m p) (hf : Full net p) :
    ModularityWeight m p = if strengthSum net = 0 then none else some (newmanW net p.inGroup) := by
  have hD : ∀ g < m, (p.grp g).totlinksW + (p.grp g).inlinksW =
      ∑ v ∈ members net p g, ∑ j ∈ Finset.range net.n, net.w v j := fun g hg =>
    ((countOK_iff (members_subset net p g)).1 (hp.groups g hg).weights).2.1
  have hL : ∑ g ∈ Finset.range m, ((p.grp g).totlinksW + (p.grp g).inlinksW) = strengthSum net := by
    rw [strengthSum, ← sum_members hp hf]
    exact Finset.sum_congr rfl fun g hg => hD g (Finset.mem_range.1 hg)
  unfold ModularityWeight
  simp only [hL]
  by_cases h0 : strengthSum net = 0
  · rw [if_pos h0, if_pos h0]
  rw [if_neg h0, if_neg h0]
  refine congrArg some ?_
  have h1 : ∀ g ∈ Finset.range m, 2 * (p.grp g).inlinksW / strengthSum net -
      ((p.grp g).inlinksW + (p.grp g).totlinksW) * ((p.grp g).inlinksW + (p.grp g).totlinksW) /
        (strengthSum net * strengthSum net) =
      ∑ i ∈ members net p g, ∑ j ∈ Finset.range net.n, if p.inGroup i = p.inGroup j then
        (net.w i j / strengthSum net - (∑ k ∈ Finset.range net.n, net.w i k) *
          (∑ k ∈ Finset.range net.n, net.w j k) / (strengthSum net * strengthSum net)) else 0 := by
    intro g hg
    have h2 := (hp.groups g (Finset.mem_range.1 hg)).weights.1
    rw [add_comm (p.grp g).inlinksW, hD g (Finset.mem_range.1 hg), h2, Finset.sum_mul_sum]
    simp only [Finset.sum_div]
    rw [← Finset.sum_sub_distrib]
    apply Finset.sum_congr rfl
    intro i hi
    have hi' := (mem_members.1 hi).2
    rw [← Finset.sum_sub_distrib, hi', ← Finset.sum_filter]
    unfold members
    simp only [eq_comm]
  rw [Finset.sum_congr rfl h1, sum_members hp hf]
  unfold newmanW
  rw [Finset.mul_sum]
  apply Finset.sum_congr rfl
  intro i _
  rw [Finset.mul_sum]
  apply Finset.sum_congr rfl
  intro j _
  split_ifs with h
  · field_simp
  · simp

/-- Equal divisions have equal modularity, whatever the numbers of the groups. -/
theorem newman_congr {f f' : ℕ → Option ℕ}
    (h : ∀ i < net.n, ∀ j < net.n, (f i = f j ↔ f' i = f' j)) : newman net f = newman net f' := by
  unfold newman
  congr 1
  apply Finset.sum_congr rfl
  intro i hi
  apply Finset.sum_congr rfl
  intro j hj
  have := h i (Finset.mem_range.1 hi) j (Finset.mem_range.1 hj)
  by_cases e : f i = f j
  · rw [if_pos e, if_pos (this.1 e)]
  · rw [if_neg e, if_neg fun e' => e (this.2 e')]

/-- Two terms of a sum change. -/
theorem sum_two {F F' : ℕ → ℚ} {a b : ℕ} (ha : a < m) (hb : b < m) (hab : a ≠ b)
    (h : ∀ g < m, g ≠ a → g ≠ b → F' g = F g) :
    ∑ g ∈ Finset.range m, F' g - ∑ g ∈ Finset.range m, F g = (F' a - F a) + (F' b - F b) := by
  have hb' : b ∈ (Finset.range m).erase a := Finset.mem_erase.2 ⟨fun e => hab e.symm, Finset.mem_range.2 hb⟩
  have key : ∀ G : ℕ → ℚ, ∑ g ∈ Finset.range m, G g =
      G a + (G b + ∑ g ∈ ((Finset.range m).erase a).erase b, G g) := by
    intro G
    rw [Finset.add_sum_erase _ G hb', Finset.add_sum_erase _ G (Finset.mem_range.2 ha)]
  rw [key F, key F']
  have : ∑ g ∈ ((Finset.range m).erase a).erase b, F' g = ∑ g ∈ ((Finset.range m).erase a).erase b, F g := by
    apply Finset.sum_congr rfl
    intro g hg
    have h1 := Finset.mem_erase.1 hg
    have h2 := Finset.mem_erase.1 h1.2
    exact h g (Finset.mem_range.1 h2.2) h2.1 h1.1
  rw [this]; ring

theorem full_update (hf : Full net p) {p' : Part} {v g : ℕ}
    (h : p'.inGroup = Function.update p.inGroup v (some g)) : Full net p' := by
  intro u hu
  rw [h]
  by_cases e : u = v
  · subst e; simp
  · rw [Function.update_of_ne e]; exact hf u hu

/-- **C24**: the energy change computed for moving a node is the difference of the modularities. -/
theorem C24_move (h : net.Simple) (hp : PartOK net m p) (hf : Full net p) (hL : degSum net ≠ 0)
    {v old new : ℕ} (hnew : new < m) (hv : p.inGroup v = some old) (hne : old ≠ new) :
    ∃ q q', Modularity m p = some q ∧ Modularity m (MoveNode net v old new p).2 = some q' ∧
      dEMove net p (degSum net) v old new = q' - q := by
  obtain ⟨_, hp', hi⟩ := move_ok h hp hnew hv
  have hold := (hp.range v old hv).2
  refine ⟨_, _, Modularity_eq hp hf hL, Modularity_eq hp' (full_update hf hi) hL, ?_⟩
  have hin : v ∈ (p.grp old).nodes := by
    rw [← List.mem_toFinset, (hp.groups old hold).mem]
    exact mem_members.2 ⟨(hp.range v old hv).1, hv⟩
  have hne' : new ≠ old := fun e => hne e.symm
  rw [sum_two hold hnew hne]
  · unfold gterm dEMove
    simp only [MoveNode, RemoveNodeFromGroup, AddNodeToGroup, if_pos hin]
    simp only [one_ne_zero, if_false, Function.update_self, Function.update_of_ne hne,
      Function.update_of_ne hne', NLinksToGroup]
    push_cast
    unfold term
    ring
  · intro g _ h1 h2
    unfold gterm
    simp only [MoveNode, RemoveNodeFromGroup, AddNodeToGroup, if_pos hin]
    simp only [one_ne_zero, if_false, Function.update_of_ne h1, Function.update_of_ne h2]

theorem counts_eq {p' : Part} (hp : PartOK net m p) (hp' : PartOK net m p') {g : ℕ} (hg : g < m)
    (h : members net p' g = members net p g) :
    (p'.grp g).inlinks = (p.grp g).inlinks ∧
      (p'.grp g).totlinks + (p'.grp g).inlinks = (p.grp g).totlinks + (p.grp g).inlinks := by
  have h1 := (hp.groups g hg).links.1
  have h2 := (hp'.groups g hg).links.1
  rw [h] at h2
  have h3 := D_eq hp hg
  have h4 := D_eq hp' hg
  rw [h] at h4
  exact ⟨by omega, by omega⟩

theorem NG2GLinks_eq (h : net.Simple) (hp : PartOK net m p) {g1 g2 : ℕ} (hg1 : g1 < m) (hne : g1 ≠ g2) :
    NG2GLinks net p g1 g2 = ∑ i ∈ members net p g1, ∑ j ∈ members net p g2, net.a i j := by
  unfold NG2GLinks
  rw [if_neg hne, foldl_nodes _ (hp.groups g1 hg1).nodup, (hp.groups g1 hg1).mem]
  exact Finset.sum_congr rfl fun v _ => NLinksToGroup_eq h p v g2

theorem sq_union {a : ℕ → ℕ → Int} (hsym : ∀ i j, a i j = a j i) {S T : Finset ℕ} (hd : Disjoint S T) :
    ∑ i ∈ S ∪ T, ∑ j ∈ S ∪ T, a i j =
      ∑ i ∈ S, ∑ j ∈ S, a i j + ∑ i ∈ T, ∑ j ∈ T, a i j + 2 * ∑ i ∈ S, ∑ j ∈ T, a i j := by
  rw [Finset.sum_union hd]
  simp only [Finset.sum_union hd, Finset.sum_add_distrib]
  have : ∑ i ∈ T, ∑ j ∈ S, a i j = ∑ i ∈ S, ∑ j ∈ T, a i j := by
    rw [Finset.sum_comm]
    exact Finset.sum_congr rfl fun i _ => Finset.sum_congr rfl fun j _ => hsym j i
  rw [this]; ring

/-- **C24**: the energy change computed for a merge is the difference of the modularities. -/
theorem C24_merge (h : net.Simple) (hp : PartOK net m p) (hf : Full net p) (hL : degSum net ≠ 0)
    {g1 g2 : ℕ} (hg1 : g1 < m) (hg2 : g2 < m) (hne : g1 ≠ g2) :
    ∃ p' q q', MergeGroups net g1 g2 p = some p' ∧ Modularity m p = some q ∧
      Modularity m p' = some q' ∧ dEMerge net p (degSum net) g1 g2 = q' - q := by
  obtain ⟨p', e, hp', hi⟩ := merge_ok h hp hg1 hg2 hne
  have hf' : Full net p' := by
    intro u hu
    rw [hi]
    dsimp only
    split_ifs
    · simp
    · exact hf u hu
  refine ⟨p', _, _, e, Modularity_eq hp hf hL, Modularity_eq hp' hf' hL, ?_⟩
  have m1 : members net p' g1 = ∅ := by
    rw [Finset.eq_empty_iff_forall_notMem]
    intro u hu
    have := (mem_members.1 hu).2
    rw [hi] at this
    dsimp only at this
    split_ifs at this with h1
    · exact hne (Option.some.inj this).symm
    · exact h1 this
  have m2 : members net p' g2 = members net p g1 ∪ members net p g2 := by
    ext u
    rw [Finset.mem_union, mem_members, mem_members, mem_members, hi]
    dsimp only
    split_ifs with h1
    · simp only [h1, and_true, Option.some.injEq]
      exact ⟨Or.inl, fun h => h.elim id And.left⟩
    · simp [h1]
  have mo : ∀ g, g ≠ g1 → g ≠ g2 → members net p' g = members net p g := by
    intro g h1 h2
    ext u
    rw [mem_members, mem_members, hi]
    dsimp only
    split_ifs with h3
    · have a1 : ¬ g2 = g := fun e => h2 e.symm
      have a2 : ¬ g1 = g := fun e => h1 e.symm
      simp [h3, a1, a2]
    · rfl
  have hd : Disjoint (members net p g1) (members net p g2) := by
    rw [Finset.disjoint_left]
    intro u h1 h2
    have := (mem_members.1 h1).2.symm.trans (mem_members.1 h2).2
    exact hne (Option.some.inj this)
  have i1 : (p'.grp g1).inlinks = 0 := by
    have := (hp'.groups g1 hg1).links.1
    rw [m1] at this
    simp at this
    omega
  have d1 : (p'.grp g1).totlinks + (p'.grp g1).inlinks = 0 := by
    rw [D_eq hp' hg1, m1]; simp
  have i2 : (p'.grp g2).inlinks = (p.grp g1).inlinks + (p.grp g2).inlinks + NG2GLinks net p g1 g2 := by
    have a0 := (hp'.groups g2 hg2).links.1
    have a1 := (hp.groups g1 hg1).links.1
    have a2 := (hp.groups g2 hg2).links.1
    rw [m2, sq_union (a_sym h) hd, ← NG2GLinks_eq h hp hg1 hne] at a0
    omega
  have d2 : (p'.grp g2).totlinks + (p'.grp g2).inlinks =
      (p.grp g1).totlinks + (p.grp g1).inlinks + (p.grp g2).totlinks + (p.grp g2).inlinks := by
    rw [D_eq hp' hg2, m2, Finset.sum_union hd, ← D_eq hp hg1, ← D_eq hp hg2]; ring
  rw [sum_two hg1 hg2 hne]
  · have d1' : ((p'.grp g1).totlinks : ℚ) + (p'.grp g1).inlinks = 0 := by exact_mod_cast d1
    have d2' : ((p'.grp g2).totlinks : ℚ) + (p'.grp g2).inlinks =
      (p.grp g1).totlinks + (p.grp g1).inlinks + (p.grp g2).totlinks + (p.grp g2).inlinks := by
      exact_mod_cast d2
    have i2' : ((p'.grp g2).inlinks : ℚ) =
        (p.grp g1).inlinks + (p.grp g2).inlinks + NG2GLinks net p g1 g2 := by exact_mod_cast i2
    unfold gterm dEMerge
    rw [d1', d2', i1, i2']
    unfold term
    push_cast
    ring
  · intro g hg h1 h2
    obtain ⟨a1, a2⟩ := counts_eq hp hp' hg (mo g h1 h2)
    unfold gterm
    have a2' : ((p'.grp g).totlinks : ℚ) + (p'.grp g).inlinks = (p.grp g).totlinks + (p.grp g).inlinks := by
      exact_mod_cast a2
    rw [a1, ← a2', a1]

/-- The example network, 0 and 1 in group 0, 2 in 1 and 3 in 2: a move and a merge of modularity
change 1/8 and 5/32. -/
def start : Part :=
  AddNodeToGroup tailed 2 3 (AddNodeToGroup tailed 1 2 (AddNodeToGroup tailed 0 1
    (AddNodeToGroup tailed 0 0 Part.empty)))

/-- Weighted value of the same division; it differs from the one that ignores the weights. -/
example : ModularityWeight 3 start = some (newmanW tailed start.inGroup) ∧
    newmanW tailed start.inGroup ≠ newman tailed start.inGroup := by
  constructor <;> decide +kernel

example : PartOK tailed 3 start ∧ Full tailed start ∧ degSum tailed = 8 ∧
    start.inGroup 2 = some 1 ∧ dEMove tailed start 8 2 1 0 = 1 / 8 ∧
    dEMerge tailed start 8 1 2 = 5 / 32 := by
  refine ⟨?_, ?_, by decide +kernel, by decide +kernel, by decide +kernel, by decide +kernel⟩
  · have h := tailed_simple
    refine add_ok h (add_ok h (add_ok h (add_ok h (empty_ok _ _) ?_ ?_ ?_) ?_ ?_ ?_) ?_ ?_ ?_) ?_ ?_ ?_
    all_goals decide +kernel
  · unfold Full; decide +kernel

/-! ## Bounds -/

theorem a_nonneg (i j : ℕ) : 0 ≤ net.a i j := by unfold Net.a; split_ifs <;> decide

/-- Modularity is at least -1, so that it is always better than the initial value -100 of the best
energy. -/
theorem Modularity_ge (hp : PartOK net m p) (hf : Full net p) (hL : degSum net ≠ 0) {q : ℚ}
    (hq : Modularity m p = some q) : -1 ≤ q := by
  rw [Modularity_eq hp hf hL] at hq
  cases hq
  have hLpos : (0 : ℚ) < degSum net := by
    have : 0 ≤ degSum net := Finset.sum_nonneg fun i _ => Finset.sum_nonneg fun j _ => a_nonneg i j
    have : 0 < degSum net := by omega
    exact_mod_cast this
  have hD0 : ∀ g ∈ Finset.range m, (0 : ℚ) ≤ (p.grp g).totlinks + (p.grp g).inlinks := by
    intro g hg
    have := D_eq hp (Finset.mem_range.1 hg)
    have h0 : 0 ≤ (p.grp g).totlinks + (p.grp g).inlinks := by
      rw [this]; exact Finset.sum_nonneg fun i _ => Finset.sum_nonneg fun j _ => a_nonneg i j
    exact_mod_cast h0
  have hsum : ∑ g ∈ Finset.range m, (((p.grp g).totlinks : ℚ) + (p.grp g).inlinks) = degSum net := by
    exact_mod_cast links2_eq hp hf
  have h1 : ∀ g ∈ Finset.range m,
      -((((p.grp g).totlinks : ℚ) + (p.grp g).inlinks) / degSum net) ≤ gterm p (degSum net) g := by
    intro g hg
    have hi : (0 : ℚ) ≤ (p.grp g).inlinks := by
      have := (hp.groups g (Finset.mem_range.1 hg)).links.1
      have h0 : 0 ≤ ∑ i ∈ members net p g, ∑ j ∈ members net p g, net.a i j :=
        Finset.sum_nonneg fun i _ => Finset.sum_nonneg fun j _ => a_nonneg i j
      have : 0 ≤ (p.grp g).inlinks := by omega
      exact_mod_cast this
    have hle : ((p.grp g).totlinks : ℚ) + (p.grp g).inlinks ≤ degSum net := by
      rw [← hsum]
      exact Finset.single_le_sum (f := fun g => ((p.grp g).totlinks : ℚ) + (p.grp g).inlinks) hD0 hg
    have hD := hD0 g hg
    unfold gterm term
    generalize ((p.grp g).totlinks : ℚ) + (p.grp g).inlinks = D at *
    have e1 : D * D / ((degSum net : ℚ) * degSum net) ≤ D / degSum net := by
      rw [div_le_div_iff₀ (by positivity) hLpos]
      nlinarith [mul_nonneg hD hLpos.le, mul_le_mul_of_nonneg_left hle (mul_nonneg hD hLpos.le)]
    have e2 : 0 ≤ 2 * ((p.grp g).inlinks : ℚ) / degSum net := by positivity
    linarith
  have h2 := Finset.sum_le_sum h1
  rw [Finset.sum_neg_distrib, ← Finset.sum_div, hsum, div_self hLpos.ne'] at h2
  exact h2

end GP
