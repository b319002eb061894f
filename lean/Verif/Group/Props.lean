import Verif.Group.Map
import Mathlib.Tactic.NormNum

/-! # C23: the counters of groups -/

set_option linter.unusedSimpArgs false

namespace GP

/-- Effect of an operation (`none`: the call does not return). -/
def Op.run (net : Net) (p : Part) : Op → Option Part
  | .add v g => some (AddNodeToGroup net g v p)
  | .move v g1 g2 => some (MoveNode net v g1 g2 p).2
  | .merge g1 g2 => MergeGroups net g1 g2 p

/-- Admissible histories. -/
inductive Hist (net : Net) (m : ℕ) : List Op → Part → Prop
  | nil : Hist net m [] Part.empty
  | step {os p o p'} : Hist net m os p → o.ok net m p → o.run net p = some p' →
      Hist net m (os ++ [o]) p'

/-- Where the nodes are after a history, computed without groups. -/
def place (os : List Op) : ℕ → Option ℕ := os.foldl (fun f o => o.spec f) (fun _ => none)

theorem step_ok {net : Net} (h : net.Simple) {m : ℕ} {p : Part} (hp : PartOK net m p) {o : Op}
    (ho : o.ok net m p) : ∃ p', o.run net p = some p' ∧ PartOK net m p' ∧
      p'.inGroup = o.spec p.inGroup := by
  cases o with
  | add v g =>
    obtain ⟨hv, hg, hf⟩ := ho
    refine ⟨_, rfl, add_ok h hp hv hg hf, ?_⟩
    funext u
    simp only [AddNodeToGroup, Op.spec, Function.update_apply]
  | move v g1 g2 =>
    obtain ⟨hv, hg1, hg2⟩ := ho
    refine ⟨_, rfl, ?_⟩
    by_cases e : p.inGroup v = some g1
    · obtain ⟨_, h2, h3⟩ := move_ok h hp hg2 e
      refine ⟨h2, ?_⟩
      rw [h3]
      funext u
      by_cases hu : u = v
      · subst hu; simp [Op.spec, e]
      · simp [Op.spec, hu]
    · rw [move_absent hp hg1 e]
      refine ⟨hp, ?_⟩
      funext u
      simp [Op.spec, e]
  | merge g1 g2 =>
    obtain ⟨hg1, hg2, hne⟩ := ho
    obtain ⟨p', e, hp', hi⟩ := merge_ok h hp hg1 hg2 hne
    exact ⟨p', e, hp', by rw [hi]; rfl⟩

/-- **C23** (partial: `RemoveNodeFromGroup` as a separate step is missing, see `C23_remove_breaks`;
`MergeGroups(g, g)` is missing, see `C23_merge_with_itself`).  Full claim: after any sequence of
`AddNodeToGroup`, `RemoveNodeFromGroup`, `MoveNode`, `MergeGroups` all counters equal a recount.

For every simple symmetric network and every history of additions of unassigned nodes, moves and
merges: the next operation returns; nodes are where the history says; sizes, link and weight counters
of every group equal those counted from its members; and `MapPartToNet` would change nothing. -/
theorem C23_history_partial {net : Net} (h : net.Simple) {m : ℕ} {os : List Op} {p : Part}
    (hh : Hist net m os p) :
    p.inGroup = place os ∧
    (∀ g < m, GroupOK net ((Finset.range net.n).filter fun v => place os v = some g) (p.grp g)) ∧
    (∀ g < m, (MapPartToNet net m p).grp g = p.grp g) ∧
    (∀ o : Op, o.ok net m p → ∃ p', o.run net p = some p') := by
  have key : PartOK net m p ∧ p.inGroup = place os := by
    induction hh with
    | nil => exact ⟨empty_ok net m, rfl⟩
    | step _ ho e ih =>
      obtain ⟨p', e', hp', hi⟩ := step_ok h ih.1 ho
      rw [e] at e'
      cases e'
      refine ⟨hp', ?_⟩
      rw [hi, ih.2]
      simp [place]
  obtain ⟨hp, hi⟩ := key
  refine ⟨hi, ?_, (map_id h hp).2, ?_⟩
  · intro g hg
    have := hp.groups g hg
    unfold members at this
    rwa [hi] at this
  · intro o ho
    obtain ⟨p', e, _⟩ := step_ok h hp ho
    exact ⟨p', e⟩

/-- What `MapPartToNet` computes is the recount, whatever the counters and the `inGroup` fields
were, as long as the lists of the groups are disjoint. -/
theorem C23_map_recounts {net : Net} (h : net.Simple) {m : ℕ} {p : Part} (hp : ListsOK net m p) :
    ∀ g < m, ((MapPartToNet net m p).grp g).nodes = (p.grp g).nodes ∧
      GroupOK net (p.grp g).nodes.toFinset ((MapPartToNet net m p).grp g) := by
  intro g hg
  refine ⟨by simp only [MapPartToNet, if_pos hg, mapCounts], ?_⟩
  have := (map_ok h hp).groups g hg
  rwa [map_members hp hg] at this

/-- A triangle with a tail: links 0-1 (weight 2), 0-2 (1), 1-2 (1/2), 2-3 (3). -/
def tailed : Net :=
  { n := 4
    neig := fun v => match v with
      | 0 => [(1, 2), (2, 1)]
      | 1 => [(0, 2), (2, 1/2)]
      | 2 => [(0, 1), (1, 1/2), (3, 3)]
      | 3 => [(2, 3)]
      | _ => [] }

theorem tailed_simple : tailed.Simple := by
  have hnil : ∀ i, 4 ≤ i → tailed.neig i = [] := by
    intro i hi
    match i, hi with
    | 0, hi => omega
    | 1, hi => omega
    | 2, hi => omega
    | 3, hi => omega
    | i + 4, _ => rfl
  have hl : ∀ i j, 4 ≤ j → tailed.link i j = none := by
    intro i j hj
    unfold Net.link
    rw [Option.map_eq_none_iff, List.find?_eq_none]
    intro x hx
    simp only [decide_eq_true_eq]
    intro e
    have : ∀ i, ∀ x ∈ tailed.neig i, x.1 < 4 := by
      intro i x hx
      rcases Nat.lt_or_ge i 4 with hi | hi
      · exact (show ∀ i < 4, ∀ x ∈ tailed.neig i, x.1 < 4 by decide +kernel) i hi x hx
      · rw [hnil i hi] at hx; simp at hx
    have := this i x hx
    omega
  have hl' : ∀ i j, 4 ≤ i → tailed.link i j = none := by
    intro i j hi
    unfold Net.link; rw [hnil i hi]; rfl
  constructor
  · intro i
    rcases Nat.lt_or_ge i 4 with hi | hi
    · exact (show ∀ i < 4, ((tailed.neig i).map (·.1)).Nodup by decide +kernel) i hi
    · rw [hnil i hi]; simp
  · intro i
    rcases Nat.lt_or_ge i 4 with hi | hi
    · exact (show ∀ i < 4, ∀ x ∈ tailed.neig i, x.1 < 4 by decide +kernel) i hi
    · rw [hnil i hi]; simp
  · intro i j
    rcases Nat.lt_or_ge i 4 with hi | hi
    · rcases Nat.lt_or_ge j 4 with hj | hj
      · exact (show ∀ i < 4, ∀ j < 4, tailed.link i j = tailed.link j i by decide +kernel) i hi j hj
      · rw [hl i j hj, hl' j i hj]
    · rw [hl' i j hi, hl j i hi]
  · intro i
    rcases Nat.lt_or_ge i 4 with hi | hi
    · exact (show ∀ i < 4, tailed.link i i = none by decide +kernel) i hi
    · exact hl i i hi

/-- Four additions, a move and a merge; the counters at the end. -/
example : ∃ p, Hist tailed 3 [.add 0 0, .add 1 0, .add 2 1, .add 3 2, .move 1 0 1, .merge 2 1] p ∧
    (p.grp 1).inlinks = 2 ∧ (p.grp 1).outlinks = 2 ∧ (p.grp 1).inlinksW = 7/2 ∧ (p.grp 2).size = 0 := by
  refine ⟨_, .step (.step (.step (.step (.step (.step .nil ?_ rfl) ?_ rfl) ?_ rfl) ?_ rfl) ?_ rfl) ?_ rfl,
    ?_, ?_, ?_, ?_⟩
  all_goals (try unfold Op.ok)
  all_goals decide +kernel

/-- **C23, refutation**: `RemoveNodeFromGroup` leaves the `inGroup` field of the node. Two linked
nodes are added to a group and removed again: the group is empty, but has -1 inner and 1 total
links. -/
theorem C23_remove_breaks :
    let p := AddNodeToGroup tailed 0 1 (AddNodeToGroup tailed 0 0 Part.empty)
    let q := (RemoveNodeFromGroup tailed 0 1 (RemoveNodeFromGroup tailed 0 0 p).2).2
    (q.grp 0).nodes = [] ∧ (q.grp 0).size = 0 ∧ (q.grp 0).inlinks = -1 ∧ (q.grp 0).totlinks = 1 ∧
      ¬ GroupOK tailed ∅ (q.grp 0) := by
  refine ⟨by decide +kernel, by decide +kernel, by decide +kernel, by decide +kernel, ?_⟩
  intro h
  have := h.links.1
  simp at this
  revert this
  decide +kernel

/-- A single removal from a consistent partition gives right counters (the fault shows at the next
count): the members counted are those of the list. -/
theorem C23_one_removal {net : Net} (h : net.Simple) {m : ℕ} {p : Part} (hp : PartOK net m p)
    {v g : ℕ} (hv : p.inGroup v = some g) :
    (RemoveNodeFromGroup net g v p).1 = 1 ∧
    GroupOK net ((members net p g).erase v) ((RemoveNodeFromGroup net g v p).2.grp g) := by
  obtain ⟨hvn, hg⟩ := hp.range v g hv
  have hvm : v ∈ members net p g := mem_members.2 ⟨hvn, hv⟩
  have hG := hp.groups g hg
  have hin : v ∈ (p.grp g).nodes := by
    rw [← List.mem_toFinset, hG.mem]; exact hvm
  have hrem := hG.remove h (members_subset _ _ _) hvm (NLinksToGroup_eq h p v g)
    (StrengthToGroup_eq h p v g) (NodeDegree_eq h v) (NodeStrength_eq h v)
  unfold RemoveNodeFromGroup
  rw [if_pos hin]
  refine ⟨rfl, ?_⟩
  simp only [Function.update_self]
  exact hrem

/-- **C23, refutation**: merging a non-empty group with itself never ends, whatever the number of
turns. -/
theorem C23_merge_with_itself (net : Net) (p : Part) (g : ℕ) (hg : (p.grp g).nodes ≠ []) (fuel : ℕ) :
    mergeLoop net g g fuel p = none := by
  induction fuel generalizing p with
  | zero => rfl
  | succ fuel ih =>
    unfold mergeLoop
    cases hn : (p.grp g).nodes with
    | nil => exact absurd hn hg
    | cons v l =>
      apply ih
      have hin : v ∈ (p.grp g).nodes := by rw [hn]; simp
      simp [MoveNode, RemoveNodeFromGroup, AddNodeToGroup, hin]

example : ((AddNodeToGroup tailed 0 1 Part.empty).grp 0).nodes ≠ [] := by decide +kernel

end GP
