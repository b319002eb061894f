import Verif.Group.FastModel
import Verif.Group.Props

/-! # C120: the fast group operations agree with the full ones -/

namespace GP

/-- What the fast operations are supposed to get right: lists, sizes and `inGroup` fields. -/
structure Alike (p q : Part) : Prop where
  nodes : ∀ g, (p.grp g).nodes = (q.grp g).nodes
  size : ∀ g, (p.grp g).size = (q.grp g).size
  inGroup : p.inGroup = q.inGroup

/-- A call of one of the four operations. -/
inductive Call where
  | add (v g : ℕ)
  | remove (v g : ℕ)
  | move (v g1 g2 : ℕ)
  | merge (g1 g2 : ℕ)
deriving DecidableEq, Repr

/-- With the full operations: return value (1 for those without) and new state; `none`: the call
does not return. -/
def Call.full (net : Net) (p : Part) : Call → Option (Int × Part)
  | .add v g => some (1, AddNodeToGroup net g v p)
  | .remove v g => some (RemoveNodeFromGroup net g v p)
  | .move v g1 g2 => some (MoveNode net v g1 g2 p)
  | .merge g1 g2 => (MergeGroups net g1 g2 p).map (fun q => (1, q))

/-- With the fast operations. -/
def Call.fast (p : Part) : Call → Option (Int × Part)
  | .add v g => some (1, AddNodeToGroupFast g v p)
  | .remove v g => some (RemoveNodeFromGroupFast g v p)
  | .move v g1 g2 => some (MoveNodeFast v g1 g2 p)
  | .merge g1 g2 => (MergeGroupsFast g1 g2 p).map (fun q => (1, q))

/-- A sequence of calls: the list of return values and the last state. -/
def runCalls (step : Part → Call → Option (Int × Part)) : List Call → Part → Option (List Int × Part)
  | [], p => some ([], p)
  | c :: cs, p => do
    let r ← step p c
    let s ← runCalls step cs r.2
    pure (r.1 :: s.1, s.2)

/-- The same outcome up to counters. -/
def SameOut {α : Type} : Option (α × Part) → Option (α × Part) → Prop
  | none, none => True
  | some r, some s => r.1 = s.1 ∧ Alike r.2 s.2
  | _, _ => False

theorem add_alike (net : Net) {p q : Part} (h : Alike p q) (g v : ℕ) :
    Alike (AddNodeToGroupFast g v p) (AddNodeToGroup net g v q) := by
  refine ⟨?_, ?_, ?_⟩
  · intro k
    by_cases hk : k = g
    · subst hk; simp [AddNodeToGroupFast, AddNodeToGroup, h.nodes]
    · simp [AddNodeToGroupFast, AddNodeToGroup, hk, h.nodes]
  · intro k
    by_cases hk : k = g
    · subst hk; simp [AddNodeToGroupFast, AddNodeToGroup, h.size]
    · simp [AddNodeToGroupFast, AddNodeToGroup, hk, h.size]
  · simp only [AddNodeToGroupFast, AddNodeToGroup, h.inGroup]

theorem remove_alike (net : Net) {p q : Part} (h : Alike p q) (g v : ℕ) :
    (RemoveNodeFromGroupFast g v p).1 = (RemoveNodeFromGroup net g v q).1 ∧
    Alike (RemoveNodeFromGroupFast g v p).2 (RemoveNodeFromGroup net g v q).2 := by
  unfold RemoveNodeFromGroupFast RemoveNodeFromGroup
  by_cases hv : v ∈ (p.grp g).nodes
  · have hv' : v ∈ (q.grp g).nodes := h.nodes g ▸ hv
    simp only [if_pos hv, if_pos hv']
    refine ⟨trivial, ?_, ?_, h.inGroup⟩
    · intro k
      by_cases hk : k = g
      · subst hk; simp [h.nodes]
      · simp [hk, h.nodes]
    · intro k
      by_cases hk : k = g
      · subst hk; simp [h.size]
      · simp [hk, h.size]
  · have hv' : v ∉ (q.grp g).nodes := h.nodes g ▸ hv
    simp only [if_neg hv, if_neg hv']
    exact ⟨trivial, h⟩

theorem move_alike (net : Net) {p q : Part} (h : Alike p q) (v g1 g2 : ℕ) :
    (MoveNodeFast v g1 g2 p).1 = (MoveNode net v g1 g2 q).1 ∧
    Alike (MoveNodeFast v g1 g2 p).2 (MoveNode net v g1 g2 q).2 := by
  obtain ⟨e, a⟩ := remove_alike net h g1 v
  unfold MoveNodeFast MoveNode
  simp only [e]
  split
  · exact ⟨rfl, a⟩
  · exact ⟨rfl, add_alike net a g2 v⟩

theorem mergeLoop_alike (net : Net) (g1 g2 fuel : ℕ) : ∀ {p q : Part}, Alike p q →
    SameOut ((mergeLoopFast g1 g2 fuel p).map (fun r => ((1 : Int), r)))
      ((mergeLoop net g1 g2 fuel q).map (fun r => ((1 : Int), r))) := by
  induction fuel with
  | zero => intro p q _; trivial
  | succ fuel ih =>
    intro p q h
    rw [mergeLoopFast, mergeLoop, h.nodes g1]
    cases (q.grp g1).nodes with
    | nil => exact ⟨rfl, h⟩
    | cons v vs => exact ih (move_alike net h v g1 g2).2

theorem call_alike (net : Net) {p q : Part} (h : Alike p q) (c : Call) :
    SameOut (c.fast p) (c.full net q) := by
  cases c with
  | add v g => exact ⟨rfl, add_alike net h g v⟩
  | remove v g => exact remove_alike net h g v
  | move v g1 g2 => exact move_alike net h v g1 g2
  | merge g1 g2 =>
    have := mergeLoop_alike net g1 g2 ((p.grp g1).nodes.length + 1) h
    simp only [Call.fast, Call.full, MergeGroupsFast, MergeGroups]
    rw [← h.nodes g1]
    exact this

/-- **C120** (agreement).  Any sequence of additions, removals, moves and merges (merging a group
with itself included) gives with the fast operations the same return values, lists, sizes and
`inGroup` fields as with the full ones, and one hangs exactly when the other does. -/
theorem C120_same (net : Net) (cs : List Call) : ∀ {p q : Part}, Alike p q →
    SameOut (runCalls Call.fast cs p) (runCalls (Call.full net) cs q) := by
  induction cs with
  | nil => intro p q h; exact ⟨rfl, h⟩
  | cons c cs ih =>
    intro p q h
    have hc := call_alike net h c
    rw [runCalls, runCalls]
    revert hc
    cases c.fast p with
    | none =>
      cases c.full net q with
      | none => intro _; trivial
      | some s => intro h; exact h.elim
    | some r =>
      cases c.full net q with
      | none => intro h; exact h.elim
      | some s =>
        rintro ⟨e, a⟩
        have := ih a
        revert this
        simp only [Option.bind_eq_bind, Option.bind_some, Option.pure_def]
        cases runCalls Call.fast cs r.2 with
        | none =>
          cases runCalls (Call.full net) cs s.2 with
          | none => intro _; trivial
          | some t => intro h; exact h.elim
        | some r' =>
          cases runCalls (Call.full net) cs s.2 with
          | none => intro h; exact h.elim
          | some t =>
            rintro ⟨e', a'⟩
            exact ⟨by simp only [e, e'], a'⟩

theorem mapInGroup_congr {p q : Part} (h : ∀ g, (p.grp g).nodes = (q.grp g).nodes) (m : ℕ) :
    mapInGroup m p = mapInGroup m q := by
  unfold mapInGroup
  simp only [h]

/-- **C120** (deferred counting).  When the partitions agree on lists and sizes, mapping them to
the network gives the same groups with the same counters, and the same `inGroup` fields: nothing is
lost by using the fast operations and counting once at the end. -/
theorem C120_map (net : Net) (m : ℕ) {p q : Part} (h : Alike p q) :
    (MapPartToNet net m p).inGroup = (MapPartToNet net m q).inGroup ∧
    ∀ g < m, (MapPartToNet net m p).grp g = (MapPartToNet net m q).grp g := by
  have e := mapInGroup_congr h.nodes m
  refine ⟨e, ?_⟩
  intro g hg
  simp only [MapPartToNet, if_pos hg, e]
  unfold mapCounts NLinksToGroup StrengthToGroup
  simp only [h.nodes g]
  have hs := h.size g
  rw [Grp.mk.injEq]
  exact ⟨rfl, hs, rfl, rfl, rfl, rfl, rfl, rfl⟩

/-- The call of an operation of C23. -/
def Op.call : Op → Call
  | .add v g => .add v g
  | .move v g1 g2 => .move v g1 g2
  | .merge g1 g2 => .merge g1 g2

theorem runCalls_append (step : Part → Call → Option (Int × Part)) (cs ds : List Call) : ∀ p,
    runCalls step (cs ++ ds) p = (runCalls step cs p).bind (fun r =>
      (runCalls step ds r.2).map (fun s => (r.1 ++ s.1, s.2))) := by
  induction cs with
  | nil => intro p; simp [runCalls]
  | cons c cs ih =>
    intro p
    rw [List.cons_append, runCalls, runCalls]
    cases step p c with
    | none => rfl
    | some r =>
      simp only [Option.bind_eq_bind, Option.bind_some, ih, Option.pure_def]
      cases runCalls step cs r.2 with
      | none => rfl
      | some s =>
        simp only [Option.bind_some]
        cases runCalls step ds s.2 <;> rfl

theorem full_of_run {net : Net} {p p' : Part} {o : Op} (h : o.run net p = some p') :
    ∃ x, o.call.full net p = some (x, p') := by
  cases o with
  | add v g => simp only [Op.run, Option.some.injEq] at h; exact ⟨1, by rw [← h]; rfl⟩
  | move v g1 g2 =>
    simp only [Op.run, Option.some.injEq] at h
    exact ⟨(MoveNode net v g1 g2 p).1, by rw [← h]; rfl⟩
  | merge g1 g2 =>
    simp only [Op.run] at h
    exact ⟨1, by simp only [Op.call, Call.full, h, Option.map_some]⟩

theorem runCalls_hist {net : Net} {m : ℕ} {os : List Op} {q : Part} (hq : Hist net m os q) :
    ∃ rs, runCalls (Call.full net) (os.map Op.call) Part.empty = some (rs, q) := by
  induction hq with
  | nil => exact ⟨[], rfl⟩
  | step _ _ hr ih =>
    obtain ⟨rs, e⟩ := ih
    obtain ⟨x, ex⟩ := full_of_run hr
    refine ⟨rs ++ [x], ?_⟩
    rw [List.map_append, runCalls_append, e, Option.bind_some]
    simp only [List.map_cons, List.map_nil, runCalls, ex, Option.bind_eq_bind, Option.bind_some,
      Option.pure_def, Option.map_some]

/-- **C120** (whole histories).  In a simple symmetric network start from empty groups and run any
history of additions of unassigned nodes, moves and merges of two groups with the fast operations:
it comes to an end, the nodes are where the history says, and after mapping the partition once at
the end the members and every counter of every group are right. -/
theorem C120_history {net : Net} (h : net.Simple) {m : ℕ} {os : List Op} {q : Part}
    (hq : Hist net m os q) : ∃ rs p, runCalls Call.fast (os.map Op.call) Part.empty = some (rs, p) ∧
      p.inGroup = place os ∧
      ∀ g < m, GroupOK net ((Finset.range net.n).filter fun v => place os v = some g)
        ((MapPartToNet net m p).grp g) := by
  have hp : PartOK net m q ∧ q.inGroup = place os := by
    induction hq with
    | nil =>
      refine ⟨⟨?_, by intro v g e; simp [Part.empty] at e⟩, rfl⟩
      intro g _
      refine ⟨?_, ?_, ?_, ?_, ?_⟩ <;> simp [Part.empty, Grp.empty, members, CountOK]
    | step _ ho hr ih =>
      obtain ⟨p', e, hp', hi⟩ := step_ok h ih.1 ho
      rw [hr] at e
      cases e
      refine ⟨hp', ?_⟩
      rw [hi, ih.2]
      simp only [place, List.foldl_append, List.foldl_cons, List.foldl_nil]
  obtain ⟨rs, e⟩ := runCalls_hist hq
  have hs := C120_same net (os.map Op.call) (p := Part.empty) (q := Part.empty)
    ⟨fun _ => rfl, fun _ => rfl, rfl⟩
  rw [e] at hs
  revert hs
  cases hr : runCalls Call.fast (os.map Op.call) Part.empty with
  | none => intro h; exact h.elim
  | some r =>
    rintro ⟨_, a⟩
    refine ⟨r.1, r.2, rfl, a.inGroup.trans hp.2, ?_⟩
    intro g hg
    have e := (C120_map net m a).2 g hg
    rw [e, (map_id h hp.1).2 g hg]
    have := hp.1.groups g hg
    unfold members at this
    rwa [hp.2] at this

/-- **C120** (`MapPartToNetFast`).  The lists, sizes and `inGroup` fields are those of
`MapPartToNet`, and all counters are 0. -/
theorem C120_map_fast (net : Net) (m : ℕ) (p : Part) :
    Alike (MapPartToNetFast m p) (MapPartToNet net m p) ∧
    ∀ g < m, ((MapPartToNetFast m p).grp g).totlinks = 0 ∧ ((MapPartToNetFast m p).grp g).inlinks = 0 ∧
      ((MapPartToNetFast m p).grp g).outlinks = 0 ∧ ((MapPartToNetFast m p).grp g).totlinksW = 0 ∧
      ((MapPartToNetFast m p).grp g).inlinksW = 0 ∧ ((MapPartToNetFast m p).grp g).outlinksW = 0 := by
  refine ⟨⟨?_, ?_, rfl⟩, ?_⟩
  · intro g
    by_cases hg : g < m
    · simp only [MapPartToNetFast, MapPartToNet, if_pos hg, mapCounts]
    · simp only [MapPartToNetFast, MapPartToNet, if_neg hg]
  · intro g
    by_cases hg : g < m
    · simp only [MapPartToNetFast, MapPartToNet, if_pos hg, mapCounts]
    · simp only [MapPartToNetFast, MapPartToNet, if_neg hg]
  · intro g hg
    simp only [MapPartToNetFast, if_pos hg, Grp.empty]
    exact ⟨trivial, trivial, trivial, trivial, trivial, trivial⟩

example : (runCalls Call.fast [.add 0 0, .add 1 0, .add 2 1, .add 3 1, .move 2 1 0, .move 2 1 0,
      .merge 1 0, .remove 3 1] Part.empty).map (fun r => (r.1, (r.2.grp 0).nodes, (r.2.grp 0).size)) =
    some ([1, 1, 1, 1, 1, 0, 1, 0], [0, 1, 2, 3], 4) := by decide +kernel

end GP
