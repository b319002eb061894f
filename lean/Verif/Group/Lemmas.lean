import Verif.Group.Spec
import Mathlib.Tactic.Ring
import Mathlib.Tactic.Linarith
import Mathlib.Tactic.LinearCombination
import Mathlib.Algebra.BigOperators.Ring.Finset
import Mathlib.Algebra.BigOperators.Group.Finset.Piecewise
import Mathlib.Algebra.BigOperators.Group.Finset.Sigma

set_option linter.unusedSimpArgs false

namespace GP

/-! ## Rows as sums -/

section
variable {R : Type} [CommRing R]

theorem foldl_sum {α : Type} (f : α → R) : ∀ (l : List α) (s : R),
    l.foldl (fun s x => s + f x) s = s + (l.map f).sum
  | [], s => by simp
  | a :: l, s => by rw [List.foldl_cons, foldl_sum f l]; simp; ring

/-- Value of an entry. -/
def ev (φ : ℚ → R) : Option ℚ → R
  | some w => φ w
  | none => 0

/-- A row of distinct targets as a sum over nodes. -/
theorem row_sum (φ : ℚ → R) (P : ℕ → Prop) [DecidablePred P] {n : ℕ} : ∀ (l : List (ℕ × ℚ)),
    (l.map (·.1)).Nodup → (∀ x ∈ l, x.1 < n) →
    (l.map fun x => if P x.1 then φ x.2 else 0).sum =
      ∑ j ∈ Finset.range n, if P j then ev φ ((l.find? fun x => x.1 = j).map (·.2)) else 0
  | [], _, _ => by simp [ev]
  | (k, w) :: l, hn, hr => by
    simp only [List.map_cons, List.nodup_cons] at hn
    have ih := row_sum φ P l hn.2 (fun x hx => hr x (by simp [hx]))
    have hk : k ∈ Finset.range n := Finset.mem_range.2 (hr (k, w) (by simp))
    rw [List.map_cons, List.sum_cons, ih]
    rw [← Finset.add_sum_erase _ _ hk, ← Finset.add_sum_erase (a := k) (f := fun j => if P j then
      ev φ ((((k, w) :: l).find? fun x => x.1 = j).map (·.2)) else 0) _ hk]
    have h0 : (l.find? fun x => x.1 = k) = none := by
      rw [List.find?_eq_none]
      intro x hx
      simp only [decide_eq_true_eq]
      intro e
      exact hn.1 (List.mem_map.2 ⟨x, hx, e⟩)
    have h1 : ∀ j ∈ (Finset.range n).erase k, (if P j then
        ev φ ((((k, w) :: l).find? fun x => x.1 = j).map (·.2)) else 0)
        = (if P j then ev φ ((l.find? fun x => x.1 = j).map (·.2)) else 0) := by
      intro j hj
      have : ¬ k = j := fun e => (Finset.ne_of_mem_erase hj) e.symm
      rw [List.find?_cons_of_neg (by simpa using this)]
    rw [Finset.sum_congr rfl h1]
    simp only [h0]
    simp [ev]

end

theorem NodeDegree_eq {net : Net} (h : net.Simple) (v : ℕ) :
    NodeDegree net v = ∑ j ∈ Finset.range net.n, net.a v j := by
  have := row_sum (R := Int) (fun _ => 1) (fun _ => True) (net.neig v) (h.nodup v) (h.range v)
  simp only [if_true] at this
  unfold NodeDegree Net.a Net.link
  rw [show ((net.neig v).length : Int) = ((net.neig v).map fun _ => (1 : Int)).sum by simp, this]
  apply Finset.sum_congr rfl
  intro j _
  cases ((net.neig v).find? fun x => x.1 = j).map (·.2) <;> simp [ev]

theorem NodeStrength_eq {net : Net} (h : net.Simple) (v : ℕ) :
    NodeStrength net v = ∑ j ∈ Finset.range net.n, net.w v j := by
  have := row_sum (R := ℚ) id (fun _ => True) (net.neig v) (h.nodup v) (h.range v)
  simp only [if_true, id] at this
  unfold NodeStrength Net.w Net.link
  rw [foldl_sum, zero_add, this]
  apply Finset.sum_congr rfl
  intro j _
  cases ((net.neig v).find? fun x => x.1 = j).map (·.2) <;> simp [ev]

theorem NLinksToGroup_eq {net : Net} (h : net.Simple) (p : Part) (v g : ℕ) :
    NLinksToGroup net p v g = ∑ j ∈ members net p g, net.a v j := by
  have := row_sum (R := Int) (fun _ => 1) (fun j => p.inGroup j = some g) (net.neig v) (h.nodup v) (h.range v)
  unfold NLinksToGroup members Net.a Net.link
  have h1 : (fun (s : Int) (x : ℕ × ℚ) => if p.inGroup x.1 = some g then s + 1 else s)
      = fun s x => s + if p.inGroup x.1 = some g then 1 else 0 := by
    funext s x; split_ifs <;> simp
  rw [h1, foldl_sum, zero_add, this, Finset.sum_filter]
  apply Finset.sum_congr rfl
  intro j _
  cases ((net.neig v).find? fun x => x.1 = j).map (·.2) <;> simp [ev]

theorem StrengthToGroup_eq {net : Net} (h : net.Simple) (p : Part) (v g : ℕ) :
    StrengthToGroup net p v g = ∑ j ∈ members net p g, net.w v j := by
  have := row_sum (R := ℚ) id (fun j => p.inGroup j = some g) (net.neig v) (h.nodup v) (h.range v)
  unfold StrengthToGroup members Net.w Net.link
  have h1 : (fun (s : ℚ) (x : ℕ × ℚ) => if p.inGroup x.1 = some g then s + x.2 else s)
      = fun s x => s + if p.inGroup x.1 = some g then x.2 else 0 := by
    funext s x; split_ifs <;> simp
  rw [h1, foldl_sum, zero_add]
  simp only [id] at this
  rw [this, Finset.sum_filter]
  apply Finset.sum_congr rfl
  intro j _
  cases ((net.neig v).find? fun x => x.1 = j).map (·.2) <;> simp [ev]

theorem a_sym {net : Net} (h : net.Simple) (i j : ℕ) : net.a i j = net.a j i := by
  unfold Net.a; rw [h.sym]

theorem w_sym {net : Net} (h : net.Simple) (i j : ℕ) : net.w i j = net.w j i := by
  unfold Net.w; rw [h.sym]

theorem a_self {net : Net} (h : net.Simple) (i : ℕ) : net.a i i = 0 := by
  unfold Net.a; rw [h.irrefl]; rfl

theorem w_self {net : Net} (h : net.Simple) (i : ℕ) : net.w i i = 0 := by
  unfold Net.w; rw [h.irrefl]; rfl

/-! ## Adding and removing a member -/

section
variable {R : Type} [CommRing R] {n : ℕ} {a : ℕ → ℕ → R}

/-- The conditions in a form that is easy to update. -/
theorem countOK_iff {S : Finset ℕ} (hS : S ⊆ Finset.range n) {tot inn out : R} :
    CountOK n a S tot inn out ↔ 2 * inn = ∑ i ∈ S, ∑ j ∈ S, a i j ∧
      tot + inn = ∑ i ∈ S, ∑ j ∈ Finset.range n, a i j ∧ out = tot - inn := by
  have hsplit : ∑ i ∈ S, ∑ j ∈ Finset.range n, a i j =
      ∑ i ∈ S, ∑ j ∈ (Finset.range n) \ S, a i j + ∑ i ∈ S, ∑ j ∈ S, a i j := by
    rw [← Finset.sum_add_distrib]
    apply Finset.sum_congr rfl
    intro i _
    exact (Finset.sum_sdiff hS).symm
  unfold CountOK
  constructor
  · rintro ⟨h1, h2, h3⟩
    refine ⟨h1, ?_, by rw [h3]; ring⟩
    rw [hsplit, ← h1, ← h2, h3]; ring
  · rintro ⟨h1, h2, h3⟩
    refine ⟨h1, ?_, by rw [h3]; ring⟩
    rw [hsplit, ← h1] at h2
    rw [h3]
    linear_combination h2

theorem sq_insert (hsym : ∀ i j, a i j = a j i) (hself : ∀ i, a i i = 0) {S : Finset ℕ} {v : ℕ}
    (hv : v ∉ S) : ∑ i ∈ insert v S, ∑ j ∈ insert v S, a i j =
      ∑ i ∈ S, ∑ j ∈ S, a i j + 2 * ∑ j ∈ S, a v j := by
  rw [Finset.sum_insert hv]
  simp only [Finset.sum_insert hv, hself, zero_add, Finset.sum_add_distrib]
  have : ∑ i ∈ S, a i v = ∑ j ∈ S, a v j := Finset.sum_congr rfl fun i _ => hsym i v
  rw [this]; ring

theorem CountOK.add (hsym : ∀ i j, a i j = a j i) (hself : ∀ i, a i i = 0) {S : Finset ℕ}
    (hS : S ⊆ Finset.range n) {v : ℕ} (hvn : v < n) (hv : v ∉ S) {tot inn out : R}
    (h : CountOK n a S tot inn out) :
    CountOK n a (insert v S) (tot + (∑ j ∈ Finset.range n, a v j - ∑ j ∈ S, a v j))
      (inn + ∑ j ∈ S, a v j)
      (tot + (∑ j ∈ Finset.range n, a v j - ∑ j ∈ S, a v j) - (inn + ∑ j ∈ S, a v j)) := by
  rw [countOK_iff hS] at h
  rw [countOK_iff (Finset.insert_subset (Finset.mem_range.2 hvn) hS)]
  refine ⟨?_, ?_, rfl⟩
  · rw [sq_insert hsym hself hv, mul_add, h.1]
  · rw [Finset.sum_insert hv, ← h.2.1]; ring

theorem CountOK.remove (hsym : ∀ i j, a i j = a j i) (hself : ∀ i, a i i = 0) {S : Finset ℕ}
    (hS : S ⊆ Finset.range n) {v : ℕ} (hv : v ∈ S) {tot inn out : R}
    (h : CountOK n a S tot inn out) :
    CountOK n a (S.erase v) (tot - (∑ j ∈ Finset.range n, a v j - ∑ j ∈ S, a v j))
      (inn - ∑ j ∈ S, a v j)
      (tot - (∑ j ∈ Finset.range n, a v j - ∑ j ∈ S, a v j) - (inn - ∑ j ∈ S, a v j)) := by
  rw [countOK_iff hS] at h
  rw [countOK_iff ((Finset.erase_subset _ _).trans hS)]
  have hk : ∑ j ∈ S, a v j = ∑ j ∈ S.erase v, a v j := by
    rw [← Finset.add_sum_erase S _ hv, hself, zero_add]
  have hsq := sq_insert hsym hself (Finset.notMem_erase v S)
  rw [Finset.insert_erase hv] at hsq
  refine ⟨?_, ?_, rfl⟩
  · rw [mul_sub, h.1, hsq, hk]; ring
  · rw [show ∑ i ∈ S.erase v, ∑ j ∈ Finset.range n, a i j =
      ∑ i ∈ S, ∑ j ∈ Finset.range n, a i j - ∑ j ∈ Finset.range n, a v j by
        rw [← Finset.add_sum_erase S _ hv]; ring, ← h.2.1]
    ring

end

/-! ## Operations -/

variable {net : Net} {m : ℕ} {p : Part}

theorem members_subset (net : Net) (p : Part) (g : ℕ) : members net p g ⊆ Finset.range net.n :=
  Finset.filter_subset _ _

theorem mem_members {v g : ℕ} : v ∈ members net p g ↔ v < net.n ∧ p.inGroup v = some g := by
  simp [members]

/-- A node outside the group joins it. -/
theorem GroupOK.add (h : net.Simple) {S : Finset ℕ} {G : Grp} (hG : GroupOK net S G)
    (hS : S ⊆ Finset.range net.n) {v : ℕ} (hv : v < net.n) (hvS : v ∉ S) {k kd : Int} {kw kdw : ℚ}
    (hk : k = ∑ j ∈ S, net.a v j) (hkw : kw = ∑ j ∈ S, net.w v j)
    (hd : kd = ∑ j ∈ Finset.range net.n, net.a v j) (hdw : kdw = ∑ j ∈ Finset.range net.n, net.w v j) :
    GroupOK net (insert v S)
      { nodes := G.nodes ++ [v], size := G.size + 1, totlinks := G.totlinks + (kd - k),
        inlinks := G.inlinks + k, outlinks := G.totlinks + (kd - k) - (G.inlinks + k),
        totlinksW := G.totlinksW + (kdw - kw), inlinksW := G.inlinksW + kw,
        outlinksW := G.totlinksW + (kdw - kw) - (G.inlinksW + kw) } := by
  subst hk hkw hd hdw
  have hvn : v ∉ G.nodes := by
    intro hm; exact hvS (hG.mem ▸ List.mem_toFinset.2 hm)
  refine ⟨?_, ?_, ?_, hG.links.add (a_sym h) (a_self h) hS hv hvS,
    hG.weights.add (w_sym h) (w_self h) hS hv hvS⟩
  · rw [List.nodup_append]
    refine ⟨hG.nodup, by simp, ?_⟩
    intro x hx y hy
    simp at hy
    rintro rfl
    exact hvn (hy ▸ hx)
  · rw [List.toFinset_append, hG.mem]
    ext x; simp [or_comm]
  · rw [hG.size, Finset.card_insert_of_notMem hvS]; push_cast; rfl

/-- A member leaves. -/
theorem GroupOK.remove (h : net.Simple) {S : Finset ℕ} {G : Grp} (hG : GroupOK net S G)
    (hS : S ⊆ Finset.range net.n) {v : ℕ} (hvS : v ∈ S) {k kd : Int} {kw kdw : ℚ}
    (hk : k = ∑ j ∈ S, net.a v j) (hkw : kw = ∑ j ∈ S, net.w v j)
    (hd : kd = ∑ j ∈ Finset.range net.n, net.a v j) (hdw : kdw = ∑ j ∈ Finset.range net.n, net.w v j) :
    GroupOK net (S.erase v)
      { nodes := G.nodes.erase v, size := G.size - 1, totlinks := G.totlinks - (kd - k),
        inlinks := G.inlinks - k, outlinks := G.totlinks - (kd - k) - (G.inlinks - k),
        totlinksW := G.totlinksW - (kdw - kw), inlinksW := G.inlinksW - kw,
        outlinksW := G.totlinksW - (kdw - kw) - (G.inlinksW - kw) } := by
  subst hk hkw hd hdw
  refine ⟨hG.nodup.erase v, ?_, ?_, hG.links.remove (a_sym h) (a_self h) hS hvS,
    hG.weights.remove (w_sym h) (w_self h) hS hvS⟩
  · ext x
    rw [List.mem_toFinset, hG.nodup.mem_erase_iff, Finset.mem_erase, ← hG.mem, List.mem_toFinset]
  · have := Finset.card_erase_add_one hvS
    simp only [hG.size]
    omega

theorem members_add {v g : ℕ} (hv : v < net.n) (hf : p.inGroup v = none) (g' : ℕ) :
    members net (AddNodeToGroup net g v p) g' =
      if g' = g then insert v (members net p g) else members net p g' := by
  ext u
  unfold AddNodeToGroup members
  by_cases hu : u = v
  · subst hu
    split_ifs with hg
    · subst hg; simp [hv]
    · have : ¬ g = g' := fun e => hg e.symm
      simp [this, hf]
  · split_ifs with hg
    · subst hg; simp [hu]
    · simp [hu]

theorem add_ok (h : net.Simple) (hp : PartOK net m p) {v g : ℕ} (hv : v < net.n) (hg : g < m)
    (hf : p.inGroup v = none) : PartOK net m (AddNodeToGroup net g v p) := by
  constructor
  · intro g' hg'
    rw [members_add hv hf]
    by_cases e : g' = g
    · subst e
      rw [if_pos rfl]
      simp only [AddNodeToGroup, Function.update_self]
      exact (hp.groups g' hg').add h (members_subset _ _ _) hv
        (by rw [mem_members]; simp [hf]) (NLinksToGroup_eq h p v g') (StrengthToGroup_eq h p v g')
        (NodeDegree_eq h v) (NodeStrength_eq h v)
    · rw [if_neg e]
      simp only [AddNodeToGroup, Function.update_of_ne e]
      exact hp.groups g' hg'
  · intro u g' hu
    simp only [AddNodeToGroup] at hu
    by_cases huv : u = v
    · subst huv
      simp at hu
      subst hu
      exact ⟨hv, hg⟩
    · rw [Function.update_of_ne huv] at hu
      exact hp.range u g' hu

/-- A move, when the node is in the old group. -/
theorem move_ok (h : net.Simple) (hp : PartOK net m p) {v g1 g2 : ℕ} (hg2 : g2 < m)
    (hv : p.inGroup v = some g1) :
    (MoveNode net v g1 g2 p).1 = 1 ∧ PartOK net m (MoveNode net v g1 g2 p).2 ∧
      (MoveNode net v g1 g2 p).2.inGroup = Function.update p.inGroup v (some g2) := by
  obtain ⟨hvn, hg1⟩ := hp.range v g1 hv
  have hG := hp.groups g1 hg1
  have hvm : v ∈ members net p g1 := mem_members.2 ⟨hvn, hv⟩
  have hin : v ∈ (p.grp g1).nodes := by
    rw [← List.mem_toFinset, hG.mem]; exact hvm
  have hrem := hG.remove h (members_subset _ _ _) hvm (NLinksToGroup_eq h p v g1)
    (StrengthToGroup_eq h p v g1) (NodeDegree_eq h v) (NodeStrength_eq h v)
  obtain ⟨G1, hr, hrem⟩ : ∃ G1, RemoveNodeFromGroup net g1 v p =
      (1, { p with grp := Function.update p.grp g1 G1 }) ∧ GroupOK net ((members net p g1).erase v) G1 := by
    refine ⟨_, ?_, hrem⟩
    unfold RemoveNodeFromGroup
    rw [if_pos hin]
  unfold MoveNode
  simp only [hr]
  rw [if_neg (by decide)]
  refine ⟨rfl, ?_, rfl⟩
  -- groups in the intermediate state, with the members other than `v`
  have hmid : ∀ g < m, GroupOK net ((members net p g).erase v) ((Function.update p.grp g1 G1) g) := by
    intro g hg
    by_cases e : g = g1
    · subst e; rw [Function.update_self]; exact hrem
    · rw [Function.update_of_ne e, Finset.erase_eq_of_notMem]
      · exact hp.groups g hg
      · rw [mem_members, hv]
        simp only [Option.some.injEq, not_and]
        exact fun _ e' => e e'.symm
  have hmem : ∀ g, members net (AddNodeToGroup net g2 v { p with grp := Function.update p.grp g1 G1 }) g
      = if g = g2 then insert v ((members net p g).erase v) else (members net p g).erase v := by
    intro g
    ext u
    rw [mem_members]
    simp only [AddNodeToGroup]
    by_cases hu : u = v
    · subst hu
      rw [Function.update_self]
      split_ifs with e
      · subst e; simp [hvn]
      · have : ¬ g2 = g := fun e' => e e'.symm
        simp [this]
    · rw [Function.update_of_ne hu]
      split_ifs with e <;> simp [hu, mem_members]
  constructor
  · intro g hg
    rw [hmem]
    by_cases e : g = g2
    · subst e
      rw [if_pos rfl]
      simp only [AddNodeToGroup, Function.update_self]
      refine (hmid g hg).add h ((Finset.erase_subset _ _).trans (members_subset _ _ _)) hvn
        (Finset.notMem_erase _ _) ?_ ?_ (NodeDegree_eq h v) (NodeStrength_eq h v)
      · rw [NLinksToGroup_eq h]
        have e1 : members net { p with grp := Function.update p.grp g1 G1 } g = members net p g := rfl
        rw [e1]
        by_cases hvg : v ∈ members net p g
        · rw [← Finset.add_sum_erase _ _ hvg, a_self h, zero_add]
        · rw [Finset.erase_eq_of_notMem hvg]
      · rw [StrengthToGroup_eq h]
        have e1 : members net { p with grp := Function.update p.grp g1 G1 } g = members net p g := rfl
        rw [e1]
        by_cases hvg : v ∈ members net p g
        · rw [← Finset.add_sum_erase _ _ hvg, w_self h, zero_add]
        · rw [Finset.erase_eq_of_notMem hvg]
    · rw [if_neg e]
      simp only [AddNodeToGroup, Function.update_of_ne e]
      exact hmid g hg
  · intro u g hu
    simp only [AddNodeToGroup] at hu
    by_cases huv : u = v
    · subst huv
      simp at hu
      subst hu
      exact ⟨hvn, hg2⟩
    · rw [Function.update_of_ne huv] at hu
      exact hp.range u g hu

/-- A move from a group where the node is not. -/
theorem move_absent (hp : PartOK net m p) {v g1 g2 : ℕ} (hg1 : g1 < m)
    (hv : p.inGroup v ≠ some g1) : MoveNode net v g1 g2 p = (0, p) := by
  have hin : v ∉ (p.grp g1).nodes := by
    rw [← List.mem_toFinset, (hp.groups g1 hg1).mem, mem_members]
    exact fun hh => hv hh.2
  unfold MoveNode RemoveNodeFromGroup
  simp [hin]

theorem mergeLoop_ok (h : net.Simple) {g1 g2 : ℕ} (hg1 : g1 < m) (hg2 : g2 < m) (hne : g1 ≠ g2) :
    ∀ (fuel : ℕ) (p : Part), PartOK net m p → (p.grp g1).nodes.length < fuel →
      ∃ p', mergeLoop net g1 g2 fuel p = some p' ∧ PartOK net m p' ∧
        p'.inGroup = fun u => if p.inGroup u = some g1 then some g2 else p.inGroup u
  | 0, p, _, hf => by omega
  | fuel + 1, p, hp, hf => by
    unfold mergeLoop
    have hG := hp.groups g1 hg1
    cases hn : (p.grp g1).nodes with
    | nil =>
      refine ⟨p, rfl, hp, ?_⟩
      funext u
      rw [if_neg]
      intro hu
      have : u ∈ members net p g1 := mem_members.2 ⟨(hp.range u g1 hu).1, hu⟩
      rw [← hG.mem, hn] at this
      simp at this
    | cons v l =>
      have hv : p.inGroup v = some g1 := by
        have : v ∈ members net p g1 := by rw [← hG.mem, hn]; simp
        exact (mem_members.1 this).2
      obtain ⟨h1, h2, h3⟩ := move_ok h hp hg2 hv
      have hlen : ((MoveNode net v g1 g2 p).2.grp g1).nodes.length < fuel := by
        have e1 := (h2.groups g1 hg1)
        have e2 : (members net (MoveNode net v g1 g2 p).2 g1) = (members net p g1).erase v := by
          ext u
          rw [Finset.mem_erase, mem_members, mem_members, h3]
          by_cases hu : u = v
          · subst hu
            have : ¬ g2 = g1 := fun e => hne e.symm
            simp [this]
          · simp [hu]
        have e3 : ((MoveNode net v g1 g2 p).2.grp g1).nodes.length = ((members net p g1).erase v).card := by
          rw [← e2, ← e1.mem, List.toFinset_card_of_nodup e1.nodup]
        have e4 : (p.grp g1).nodes.length = (members net p g1).card := by
          rw [← hG.mem, List.toFinset_card_of_nodup hG.nodup]
        have e5 := Finset.card_erase_add_one (s := members net p g1) (a := v)
          (by rw [← hG.mem, hn]; simp)
        omega
      obtain ⟨p', e, hp', hi⟩ := mergeLoop_ok h hg1 hg2 hne fuel _ h2 hlen
      refine ⟨p', e, hp', ?_⟩
      rw [hi, h3]
      funext u
      by_cases hu : u = v
      · subst hu
        have : ¬ g2 = g1 := fun e => hne e.symm
        simp [hv, this]
      · simp [hu]

theorem merge_ok (h : net.Simple) (hp : PartOK net m p) {g1 g2 : ℕ} (hg1 : g1 < m) (hg2 : g2 < m)
    (hne : g1 ≠ g2) : ∃ p', MergeGroups net g1 g2 p = some p' ∧ PartOK net m p' ∧
      p'.inGroup = fun u => if p.inGroup u = some g1 then some g2 else p.inGroup u :=
  mergeLoop_ok h hg1 hg2 hne _ p hp (by omega)

theorem empty_ok (net : Net) (m : ℕ) : PartOK net m Part.empty := by
  constructor
  · intro g _
    have : members net Part.empty g = ∅ := by simp [members, Part.empty]
    rw [this]
    constructor <;> simp [Part.empty, Grp.empty, CountOK]
  · intro v g hv; simp [Part.empty] at hv

end GP
