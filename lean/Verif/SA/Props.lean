import Verif.SA.Lemmas
import Verif.CSR.Props

/-!
# C07 - C10: simulated annealing of netcarto

All theorems are for every tape of random values, every acceptance rule, every parameter choice
and every number of iterations.
-/

namespace NC

open RG

/-- Standing hypotheses: a consistent partition with at least one node and no more modules than
nodes, and an adjacency array that stores a symmetric weight matrix, with symmetric slots. -/
structure SAInput (p : Partition) (adj : Adj) (A : ℕ → ℕ → ℚ) : Prop where
  consistent : Consistent p
  nodes : 0 < p.N
  modules : p.M ≤ p.N
  repr : Represents adj p.N A
  symm : ∀ a b, Nbr p.N adj a b → Nbr p.N adj b a

theorem SameNodes.PM {p0 p adj A} (h : SameNodes p0 p) (ha : Represents adj p0.N A) (d : Bool) :
    PartitionModularity p adj d = some (Q p0 A p - if d then diagonal p0.N (strengthOf p0) else 0) := by
  rw [C04_modularity h.consistent (h.N ▸ ha) d, h.modularity, Q]
  congr 2
  cases d
  · rfl
  · simp only [if_true, diagonal, h.N]
    refine Finset.sum_congr rfl fun i hi => ?_
    rw [h.strength i (Finset.mem_range.1 hi)]

/-! ## C09: splits touch only the target module -/

/-- **C09 (components).** For every tape: no undefined behaviour (in particular the two fixed-size
stacks never overflow and the traversal terminates), and nodes move only from the target to the
second module. -/
theorem C09_SplitModuleByComponent {p : Partition} {adj : Adj} {A : ℕ → ℕ → ℚ} (h : SAInput p adj A)
    {target empty : ℕ} (ht : target < p.M) (he : empty < p.M) (t : Tape) :
    (SplitModuleByComponent target empty p adj t).Holds (fun r => SplitOf p r.1 target empty) :=
  (SplitModuleByComponent_holds h.consistent h.symm (nbr_range h.repr) ht he t).mono fun _ hr => hr.1

/-- **C09 (nested annealing).** Likewise for `SplitModuleSA`, for a non-empty target. -/
theorem C09_SplitModuleSA {p : Partition} {adj : Adj} {A : ℕ → ℕ → ℚ} (h : SAInput p adj A)
    {target empty : ℕ} (ht : target < p.M) (he : empty < p.M) (hne : target ≠ empty)
    (hn : ∃ x < p.N, labelOf p x = target) (acc : ℚ → ℚ → ℚ → Bool) (fuel : ℕ) (Ti Tf Ts : ℚ)
    (limit : ℕ) (t : Tape) :
    (SplitModuleSA acc fuel target empty Ti Tf Ts limit p adj t).Holds
      (fun r => SplitOf p r.1 target empty) :=
  SplitModuleSA_holds h.consistent ht he hne hn h.repr acc fuel Ti Tf Ts limit t

/-- **C09 (union).** Consequence for an empty second module: the two modules together contain
exactly the nodes of the original target, and all other modules are the same sets. -/
theorem C09_union {p p' : Partition} {target empty : ℕ} (h : SplitOf p p' target empty)
    (hempty : ∀ x < p.N, labelOf p x ≠ empty) :
    (∀ x < p.N, (labelOf p' x = target ∨ labelOf p' x = empty) ↔ labelOf p x = target) ∧
    (∀ m, m ≠ target → m ≠ empty → ∀ x < p.N, (labelOf p' x = m ↔ labelOf p x = m)) := by
  have h1 : ∀ x < p.N, (labelOf p' x = target ∨ labelOf p' x = empty) ↔ labelOf p x = target := by
    intro x hx
    constructor
    · intro hh
      by_contra hc
      rw [h.other x hx hc] at hh
      exact hh.elim hc (hempty x hx)
    · exact h.inside x hx
  refine ⟨h1, fun m hmt hme x hx => ?_⟩
  by_cases hc : labelOf p x = target
  · have := (h1 x hx).2 hc
    constructor
    · intro hh; rcases this with h2 | h2
      · exact absurd (hh.symm.trans h2) hmt
      · exact absurd (hh.symm.trans h2) hme
    · intro hh; exact absurd (hh.symm.trans hc) hmt
  · rw [h.other x hx hc]

/-! ## C10: what the component split really does -/

/-- **C10 (partial).** Full claim: the number returned is the number of connected components of
the subgraph induced by the target, each of them stays in one piece, and with at least two of
them one is moved.  What holds: the same with *components of the whole graph* in place of those of
the induced subgraph (`Conn`, not `ConnIn`).  Missing: the traversal also walks through nodes
outside the target, so the claim for the induced subgraph is false, see
`C10_counts_components_of_whole_graph`. -/
theorem C10_component_split_partial {p : Partition} {adj : Adj} {A : ℕ → ℕ → ℚ}
    (h : SAInput p adj A) {target empty : ℕ} (ht : target < p.M) (he : empty < p.M)
    (t : Tape) :
    (SplitModuleByComponent target empty p adj t).Holds (fun r =>
      ClassCount (fun x => x < p.N ∧ labelOf p x = target) (Conn p.N adj) r.2.1 ∧
      (∀ x < p.N, ∀ y < p.N, labelOf p x = target → labelOf p y = target → Conn p.N adj x y →
        labelOf r.1 x = labelOf r.1 y) ∧
      (r.2.1 = 1 → ∀ x < p.N, labelOf r.1 x = labelOf p x) ∧
      (2 ≤ r.2.1 → (∃ x < p.N, labelOf p x = target ∧ labelOf r.1 x = empty) ∧
        ∃ x < p.N, labelOf p x = target ∧ labelOf r.1 x = target)) := by
  refine (SplitModuleByComponent_holds h.consistent h.symm (nbr_range h.repr) ht he t).mono ?_
  rintro ⟨q, k, t'⟩ ⟨hq, R, mv, hR, hD, hl⟩
  simp only at hR hl ⊢
  have hsep : ∀ r ∈ R, ∀ r' ∈ R, Conn p.N adj r.1 r'.1 → r = r' := by
    intro r hr r' hr' hc
    by_contra hne
    have hp : R.Pairwise (fun a b => ¬ Conn p.N adj a.1 b.1 ∧ ¬ Conn p.N adj b.1 a.1) :=
      hR.sep.imp (fun h' => ⟨h', fun hh => h' (Conn.symm h.symm hh)⟩)
    obtain ⟨i, hi, rfl⟩ := List.getElem_of_mem hr
    obtain ⟨j, hj, rfl⟩ := List.getElem_of_mem hr'
    rw [List.pairwise_iff_getElem] at hp
    rcases lt_trichotomy i j with hij | hij | hij
    · exact (hp i j hi hj hij).1 hc
    · subst hij; exact hne rfl
    · exact (hp j i hj hi hij).2 hc
  refine ⟨⟨R.map Prod.fst, by simpa using hR.len, ?_, ?_, ?_⟩, ?_, ?_, ?_⟩
  · intro r hr
    obtain ⟨r', hr', rfl⟩ := List.mem_map.1 hr
    exact hR.mem r' hr'
  · rw [List.pairwise_map]; exact hR.sep
  · rintro x ⟨hx, hxt⟩
    obtain ⟨r, hr, hc⟩ := hD.cover x hx hxt
    exact ⟨r.1, List.mem_map.2 ⟨r, hr, rfl⟩, hc⟩
  · intro x hx y hy hxt hyt hxy
    rw [hl x hx, hl y hy, hxt, hyt]
    have : x ∈ mv ↔ y ∈ mv := by
      rw [hD.iff x hx hxt, hD.iff y hy hyt]
      constructor
      · rintro ⟨r, h1, h2, h3⟩; exact ⟨r, h1, h2, Relation.ReflTransGen.trans h3 hxy⟩
      · rintro ⟨r, h1, h2, h3⟩
        exact ⟨r, h1, h2, Relation.ReflTransGen.trans h3 (Conn.symm h.symm hxy)⟩
    simp only [this]
  · intro hk x hx
    rw [hl x hx, if_neg]
    intro hm
    obtain ⟨r, hr, hrt, _⟩ := (hD.iff x hx (hD.sub x hm).2).1 hm
    rw [hR.one hk r hr] at hrt
    simp at hrt
  · intro hk
    obtain ⟨r, hr, hrt⟩ := hR.second hk
    obtain ⟨r', hr', hrf⟩ := hR.first (by omega)
    have m1 := hR.mem r hr
    have m2 := hR.mem r' hr'
    refine ⟨⟨r.1, m1.1, m1.2, ?_⟩, ⟨r'.1, m2.1, m2.2, ?_⟩⟩
    · rw [hl _ m1.1, if_pos ((hD.iff _ m1.1 m1.2).2 ⟨r, hr, hrt, Relation.ReflTransGen.refl⟩)]
    · rw [hl _ m2.1, if_neg, m2.2]
      rw [hD.iff _ m2.1 m2.2]
      rintro ⟨r'', h1, h2, h3⟩
      have := hsep r'' h1 r' hr' h3
      rw [this, hrf] at h2
      simp at h2

/-! ## C07, C08 -/

/-- The states of `GeneralSA` at round boundaries: the initial one and whatever a round (at any
temperature) leads to. -/
inductive Boundary (c : SAParams) (adj : Adj) (p0 : Partition) (t : Tape) : SAState → Prop
  | init : Boundary c adj p0 t (saInit p0 t)
  | step {s s' : SAState} {T : ℚ} {stop : Bool} : Boundary c adj p0 t s →
      saRound c adj T s = .ok (s', stop) → Boundary c adj p0 t s'

theorem Boundary.inv {c adj p0 t s A} (h : SAInput p0 adj A) (hb : Boundary c adj p0 t s) :
    SInv p0 A s := by
  induction hb with
  | init => exact saInit_inv h.consistent t
  | @step s s' T stop _ hr ih =>
    have := saRound_holds h.nodes h.modules h.repr h.symm c T s ih
    rw [hr] at this
    exact this

/-- **C07.** At every round boundary the running energy is the modularity of the current partition
minus that of the initial partition, the saved best energy is the same for the saved best
partition, both partitions are consistent over the same nodes, and the next round is free of
undefined behaviour. -/
theorem C07_energy {p0 : Partition} {adj : Adj} {A : ℕ → ℕ → ℚ} (h : SAInput p0 adj A)
    (c : SAParams) (t : Tape) (s : SAState) (hb : Boundary c adj p0 t s) (d : Bool) :
    (∃ q0 q, PartitionModularity p0 adj d = some q0 ∧ PartitionModularity s.part adj d = some q ∧
      SameNodes p0 s.part ∧ s.E = q - q0) ∧
    (∀ bp bE, s.best = some (bp, bE) → ∃ q0 q, PartitionModularity p0 adj d = some q0 ∧
      PartitionModularity bp adj d = some q ∧ SameNodes p0 bp ∧ bE = q - q0) ∧
    (∀ T, saRound c adj T s ≠ .ub) := by
  have hi := hb.inv h
  refine ⟨⟨_, _, (SameNodes.refl h.consistent).PM h.repr d, hi.part.PM h.repr d, hi.part, ?_⟩, ?_, ?_⟩
  · rw [hi.energy]; ring
  · intro bp bE hbest
    obtain ⟨g1, g2⟩ := hi.best _ hbest
    refine ⟨_, _, (SameNodes.refl h.consistent).PM h.repr d, g1.PM h.repr d, g1, ?_⟩
    simp only at g2
    rw [g2]; ring
  · intro T hub
    have := saRound_holds h.nodes h.modules h.repr h.symm c T s hi
    rw [hub] at this
    exact this

/-- The loop of `GeneralSA` only goes through such boundaries. -/
theorem C07_loop_boundary {c : SAParams} {adj : Adj} {p0 : Partition} {t : Tape} :
    ∀ (fuel : ℕ) (T : ℚ) (s s' : SAState), Boundary c adj p0 t s →
      saLoop c adj fuel T s = .ok s' → Boundary c adj p0 t s'
  | 0, _, _, _, _, h => by simp [saLoop] at h
  | fuel + 1, T, s, s', hb, h => by
    unfold saLoop at h
    by_cases hT : ¬ T > c.Tf
    · simp only [hT, not_false_eq_true, if_true, Res.ok.injEq] at h
      exact h ▸ hb
    · simp only [hT, if_false] at h
      cases hr : saRound c adj T s with
      | ok r =>
        obtain ⟨s1, stop⟩ := r
        simp only [hr, Res.bind_ok] at h
        have hb1 := Boundary.step hb hr
        cases stop with
        | true => simp only [if_true, Res.ok.injEq] at h; exact h ▸ hb1
        | false =>
          simp only [Bool.false_eq_true, if_false] at h
          exact C07_loop_boundary fuel _ s1 s' hb1 h
      | starved => simp [hr] at h
      | ub => simp [hr] at h

/-- **C08 (partial).** Full claim: when `GeneralSA` returns, the caller gets a consistent partition
(never NULL) whose modularity is at least that of every partition current at an earlier round
boundary.  What holds: the call has no undefined behaviour; a non-NULL result is consistent over
the same nodes and at least as good as the partition of every earlier round whose energy was found
*changed* (ghost flag `false`); the result is NULL exactly when no round was found changed.
Missing: non-NULL and optimality in general are false, see the theorems below. -/
theorem C08_result_partial {p0 : Partition} {adj : Adj} {A : ℕ → ℕ → ℚ} (h : SAInput p0 adj A)
    (c : SAParams) (t : Tape) (d : Bool) :
    (GeneralSA c p0 adj t).Holds (fun r =>
      (∀ p', r.1 = some p' → SameNodes p0 p' ∧
        ∀ q ∈ r.2, q.2 = false → ∃ x y, PartitionModularity q.1 adj d = some x ∧
          PartitionModularity p' adj d = some y ∧ x ≤ y) ∧
      (r.1 = none ↔ ∀ q ∈ r.2, q.2 = true)) := by
  unfold GeneralSA
  refine (saLoop_holds h.nodes h.modules h.repr h.symm c c.fuel c.Ti _
    (saInit_inv h.consistent t)).bind ?_
  intro s hs
  refine ⟨?_, ?_⟩
  · intro p' hp'
    simp only [Option.map_eq_some_iff] at hp'
    obtain ⟨b, hb, rfl⟩ := hp'
    obtain ⟨g1, g2⟩ := hs.best b hb
    refine ⟨g1, fun q hq hq2 => ?_⟩
    obtain ⟨b', hb', hle⟩ := hs.kept q hq hq2
    rw [hb] at hb'
    simp only [Option.some.injEq] at hb'
    subst hb'
    exact ⟨_, _, (hs.same q hq).PM h.repr d, g1.PM h.repr d, by linarith⟩
  · simp only [Option.map_eq_none_iff]
    constructor
    · exact hs.null
    · intro hall
      by_contra hne
      obtain ⟨b, hb⟩ := Option.ne_none_iff_exists'.1 hne
      obtain ⟨q, hq, hq2⟩ := hs.some b hb
      rw [hall q hq] at hq2
      simp at hq2

/-- **C08 refuted (NULL, limit 1).** With a no-change limit of 1, whenever `GeneralSA` returns, the
caller's pointer is NULL, whatever the network, the tape and the other parameters: the first round
compares with the initial energy 0 and always counts as "no change". -/
theorem C08_limit_one_always_null (c : SAParams) (p : Partition) (adj : Adj) (t : Tape)
    (hl : c.nochangeLimit = 1) (r : Option Partition × List (Partition × Bool))
    (h : GeneralSA c p adj t = .ok r) : r.1 = none := by
  have hloop : ∀ fuel T s', saLoop c adj fuel T (saInit p t) = .ok s' → s'.best = none := by
    intro fuel T s' h
    cases fuel with
    | zero => simp [saLoop] at h
    | succ fuel =>
      unfold saLoop at h
      by_cases hT : ¬ T > c.Tf
      · simp only [hT, not_false_eq_true, if_true, Res.ok.injEq] at h
        rw [← h]; rfl
      · simp only [hT, if_false, saRound] at h
        cases h1 : repeatM (individualMove c adj T) (individualMovements c (saInit p t).part.N)
            ((saInit p t).part, (saInit p t).E, (saInit p t).tape) with
        | starved => simp [h1] at h
        | ub => simp [h1] at h
        | ok r1 =>
          simp only [h1, Res.bind_ok] at h
          cases h2 : repeatM (collectiveMove c adj T) (collectiveMovements c (saInit p t).part.N)
              (r1.1, r1.2.1, r1.2.2) with
          | starved => simp [h2] at h
          | ub => simp [h2] at h
          | ok r2 =>
            have hnc : noChange r2.2.1 0 = true := by
              unfold noChange epsMod; simp
            simp only [h2, Res.bind_ok] at h
            simp only [roundEnd, saInit, hnc, if_true, hl, zero_add, Res.bind_ok] at h
            rw [← Res.ok.inj h]
  unfold GeneralSA at h
  cases hs : saLoop c adj c.fuel c.Ti (saInit p t) with
  | starved => simp [hs] at h
  | ub => simp [hs] at h
  | ok s =>
    simp only [hs, Res.bind_ok, Res.pure_eq, Res.ok.injEq] at h
    rw [← h]
    simp [hloop _ _ _ hs]

/-- **C08 refuted (NULL, no round).** With an initial temperature that is not above the final one
the result is NULL as well. -/
theorem C08_no_round_null (c : SAParams) (p : Partition) (adj : Adj) (t : Tape) (hT : c.Ti ≤ c.Tf)
    (hf : 0 < c.fuel) : GeneralSA c p adj t = .ok (none, []) := by
  obtain ⟨n, hn⟩ : ∃ n, c.fuel = n + 1 := ⟨c.fuel - 1, by omega⟩
  unfold GeneralSA
  rw [hn]
  unfold saLoop
  have : ¬ c.Ti > c.Tf := not_lt.2 hT
  simp [this, saInit]

theorem redraw_starved {f : ℚ → ℕ} {bad : ℕ → Bool} (h : ∀ u, 0 ≤ u → u < 1 → bad (f u) = true) :
    ∀ t, redraw f bad t = .starved
  | [] => rfl
  | u :: t => by
    unfold redraw
    split_ifs with h1 h2
    · exact redraw_starved h t
    · exact absurd (h u h1.1 h1.2) h2
    · rfl

/-- **C08 refuted (termination).** With a single module `GeneralSA` does not return for any stream of
random values (as soon as the temperature loop is entered): the loop that draws a module different
from the current one never ends. -/
theorem C08_single_module_never_returns {p : Partition} {adj : Adj} (hc : Consistent p) (hM : p.M = 1)
    (c : SAParams) (hT : c.Tf < c.Ti) (t : Tape) (hN : 0 < p.N)
    (r : Option Partition × List (Partition × Bool)) : GeneralSA c p adj t ≠ .ok r := by
  have hmove : ∀ T E t, ∃ x, individualMove c adj T (p, E, t) = x ∧ (x = .starved) := by
    intro T E t
    refine ⟨_, rfl, ?_⟩
    simp only [individualMove]
    cases h1 : pick p.N t with
    | starved => rfl
    | ub => have := pick_holds hN t; rw [h1] at this; exact absurd this (Res.holds_ub _)
    | ok x =>
      have hx := pick_holds hN t
      rw [h1] at hx
      have hlab := hc.label x.1 hx
      rw [hM] at hlab
      have h0 : (p.nodes x.1).module = 0 := by omega
      have hs : redraw (fun u => ⌊u * p.M⌋₊) (fun g => g == (p.nodes x.1).module) x.2 = .starved := by
        apply redraw_starved
        intro u _ hu
        have : ⌊u * (p.M : ℚ)⌋₊ < p.M := floor_lt hu (by omega)
        rw [h0]; simp only [beq_iff_eq]; omega
      have hx' : x.1 < p.N := hx
      simp only [Res.bind_ok, moduleOf, hx', if_true, hs, Res.bind_starved]
  have hpos : ∃ n, individualMovements c p.N = n + 1 := by
    have : 0 < individualMovements c p.N := by
      unfold individualMovements
      split_ifs with h
      · omega
      · rw [Nat.floor_pos]; linarith
    exact ⟨_, (Nat.succ_pred_eq_of_pos this).symm⟩
  intro h
  unfold GeneralSA at h
  cases hf : c.fuel with
  | zero => rw [hf] at h; simp [saLoop] at h
  | succ n =>
    obtain ⟨k, hk⟩ := hpos
    obtain ⟨x, hx, rfl⟩ := hmove c.Ti 0 t
    rw [hf] at h
    unfold saLoop at h
    simp [hT, saRound, saInit, hk, repeatM, hx] at h

/-! ### A concrete run -/

/-- Two nodes, one link of weight 1 (normalised), each node in its own module. -/
def duo : Option (Adj × Partition) := do
  let p ← CreatePartition 2 2
  let (a, p) ← EdgeListToAdjaArray [⟨0, 1, 1⟩] (CreateAdjaArray 2 1) p true
  let p ← AssignNodesToModules p (fun _ => 0)
  return (a, p)

def duoParams : SAParams where
  acc := fun _ _ u => decide (u < 1 / 2)
  fac := 1
  Ti := 1
  Tf := 95 / 100
  Ts := 96 / 100
  probaComponents := 0
  nochangeLimit := 5
  fuel := 10

/-- The random values of the run.  Round 1: node 0 joins node 1 (accepted), nine rejected
proposals, two trivial splits.  Round 2: ten rejected proposals, one accepted split, one merge
followed by an accepted split. -/
def duoTape : Tape :=
  [0, 1 / 2] ++ (List.replicate 9 [0, 0, 3 / 4]).flatten ++
  [0, 0, 0, 3 / 4, 3 / 4] ++ [0, 0, 0, 3 / 4, 3 / 4] ++
  (List.replicate 10 [0, 0, 3 / 4]).flatten ++
  [0, 0, 0, 3 / 4, 3 / 4, 0, 0, 0] ++ [0, 1 / 2, 0, 0, 3 / 4, 3 / 4, 0, 0, 0]

/-- Does the run return, with modularity `y` for the result and some boundary partition of
modularity `x`? -/
def duoRun (x y : ℚ) : Bool :=
  match duo with
  | none => false
  | some (a, p) =>
    match GeneralSA duoParams p a duoTape with
    | .ok (some r, seen) => decide (PartitionModularity r a false = some y) &&
        seen.any (fun q => decide (PartitionModularity q.1 a false = some x))
    | _ => false

theorem duoRun_true : duoRun (1 / 2) 0 = true := by decide +kernel

/-- **C08 refuted (best partition dropped).** There is a run that returns a partition of modularity 0
although the partition current at an earlier round boundary had modularity 1/2.  (The decisions
taken agree with the rule `u < exp(dE/T)`: the only energy decreases are `-1/2` at temperatures
`1` and `0.96`, accepted with `u = 0` and rejected with `u = 3/4`.) -/
theorem C08_best_partition_dropped : ∃ a p r seen q, duo = some (a, p) ∧
    GeneralSA duoParams p a duoTape = .ok (some r, seen) ∧ q ∈ seen ∧
    PartitionModularity r a false = some 0 ∧ PartitionModularity q.1 a false = some (1 / 2) := by
  have h := duoRun_true
  unfold duoRun at h
  split at h
  · simp at h
  · rename_i a p hd
    split at h
    · rename_i r seen hg
      simp only [Bool.and_eq_true, decide_eq_true_eq, List.any_eq_true] at h
      obtain ⟨h1, q, hq, h2⟩ := h
      exact ⟨a, p, r, seen, q, hd, hg, hq, h1, h2⟩
    · simp at h

/-! ## The hypotheses are met by everything the loader produces -/

theorem mem_incident_of {W : ℚ} {i j : ℕ} {es : List Edge} {e : Edge} (he : e ∈ es)
    (h : (e.u = i ∧ e.v = j) ∨ (e.v = i ∧ e.u = j)) (hne : i ≠ j) :
    j ∈ (incident W i es).map Prod.fst := by
  induction es with
  | nil => simp at he
  | cons f es ih =>
    simp only [incident]
    rcases List.mem_cons.1 he with rfl | he
    · rcases h with ⟨h1, h2⟩ | ⟨h1, h2⟩
      · simp [h1, h2]
      · have : ¬ j = i := fun hh => hne hh.symm
        simp [this, h1, h2]
    · have := ih he
      split_ifs <;> simp_all

/-- **C06/C07 link.** For every simple edge list, creating the partition, loading the edges and
dispatching the nodes gives an input that meets the hypotheses of the annealing theorems. -/
theorem C07_loader_meets_hypotheses (edges : List Edge) (N M : ℕ) (nrm : Bool) (draws : ℕ → ℕ)
    (hN : 0 < N) (hMN : M ≤ N) (hl : LoopFree N edges) (hd : NoDuplicates edges)
    (hdraw : ∀ i, draws i < M ∨ N = M) :
    ∃ p0 a p1 p, CreatePartition N M = some p0 ∧
      EdgeListToAdjaArray edges (CreateAdjaArray N edges.length) p0 nrm = some (a, p1) ∧
      AssignNodesToModules p1 draws = some p ∧
      SAInput p a (weightMatrix (if nrm then 2 * totalWeight edges else 1) edges) ∧ p.N = N := by
  have hc : CreatePartition N M = some
      { N := N, M := M, nempty := M
        nodes := fun i => { id := i, strength := 0, module := 0, prev := none, next := none }
        modules := fun m => { id := m, size := 0, strength := 0, first := none, last := none } } := by
    simp [CreatePartition, not_lt.2 hMN]
  rw [hc]
  generalize hp0 : ({ N := N, M := M, nempty := M
                      nodes := fun i => { id := i, strength := 0, module := 0, prev := none, next := none }
                      modules := fun m => { id := m, size := 0, strength := 0, first := none, last := none } } : Partition) = p0
  have e0 : p0.N = N := by rw [← hp0]
  have e00 : ∀ i < N, (p0.nodes i).strength = 0 := by intro i _; rw [← hp0]
  obtain ⟨a, p1, h1, h2, h3, h4, h5, h6, h7, h8, h9, h10, h11, h12⟩ :=
    C06_rows edges N p0 nrm e0 hl e00
  have e1 : p0.M = M := by rw [← hp0]
  have e2 : p0.nempty = M := by rw [← hp0]
  have hf : Fresh p1 := by
    refine ⟨by rw [h9, h8, e0, e1]; exact hMN, by rw [h10, h9, e1, e2], ?_, ?_, ?_, ?_, ?_, ?_, ?_, ?_⟩
    · intro i hi; rw [h12 i (by rw [h8, e0] at hi; exact hi), ← hp0]
    · intro i hi; rw [h12 i (by rw [h8, e0] at hi; exact hi), ← hp0]
    · intro i hi; rw [h12 i (by rw [h8, e0] at hi; exact hi), ← hp0]
    all_goals intro m _; rw [h11, ← hp0]
  obtain ⟨p, seq, hr, hw, hrel⟩ := AssignNodesToModules_spec hf
    (draws := draws) (by rw [h9, h8, e0, e1]; exact hdraw)
  have hpN : p.N = N := by rw [hrel.N, h8, e0]
  refine ⟨p0, a, p1, p, rfl, h1, hr, ⟨hw.consistent, by rw [hpN]; exact hN, by
    rw [hrel.M, hrel.N, h9, h8, e0, e1]; exact hMN, ?_, ?_⟩, hpN⟩
  · rw [hpN]; exact C06_represents edges N p0 nrm a p1 e0 hl hd e00 h1
  · rw [hpN]
    rintro x y ⟨hx, s, s1, s2, rfl⟩
    obtain ⟨g1, g2⟩ := rowOf_get s1 s2
    have hmem : (a.neighbors s, a.strength s) ∈ incident (if nrm then 2 * totalWeight edges else 1) x edges := by
      rw [← h4 x hx, ← g2]; exact List.getElem_mem g1
    obtain ⟨e, he, hee⟩ := mem_incident hmem
    simp only at hee
    have hle := hl e he
    have hyN : a.neighbors s < N := by
      rcases hee with ⟨_, b⟩ | ⟨_, b⟩ <;> rw [b] <;> tauto
    have hne : a.neighbors s ≠ x := by
      rcases hee with ⟨c, b⟩ | ⟨c, b⟩ <;> rw [b, ← c]
      · exact fun hh => hle.2.2 hh.symm
      · exact hle.2.2
    have hback := mem_incident_of (W := if nrm then 2 * totalWeight edges else 1)
      (i := a.neighbors s) (j := x) he (by rcases hee with ⟨c, b⟩ | ⟨c, b⟩ <;> rw [b, c] <;> simp) hne
    rw [← h4 _ hyN, rowOf, List.map_map] at hback
    obtain ⟨t, ht, htx⟩ := List.mem_map.1 hback
    rw [List.mem_range'_1] at ht
    exact ⟨hyN, t, ht.1, by omega, htx⟩

example : ∃ p adj A, SAInput p adj A ∧ p.N = 4 := by
  obtain ⟨p0, a, p1, p, h0, h1, h2, h3⟩ := C07_loader_meets_hypotheses paw 4 4 true id (by omega) (by omega)
    (by intro e he; simp [paw] at he; rcases he with rfl | rfl | rfl | rfl <;> decide)
    (by unfold NoDuplicates paw; decide) (fun _ => Or.inr rfl)
  exact ⟨p, a, _, h3⟩

/-! ## C10 refuted for the induced subgraph -/

/-- The path 0 - 1 - 2 with nodes 0 and 2 in module 0, node 1 in module 1, module 2 empty. -/
def hat : Option (Adj × Partition) := do
  let p ← CreatePartition 3 3
  let (a, p) ← EdgeListToAdjaArray [⟨0, 1, 1⟩, ⟨1, 2, 1⟩] (CreateAdjaArray 3 2) p false
  let p ← AssignNodesToModules p (fun _ => 0)
  let p ← ChangeModule 2 0 p
  return (a, p)

theorem hat_isolated {a : Adj} {p : Partition}
    (h : ∀ x < 3, ∀ s < 4, ¬ (a.idx x ≤ s ∧ s < a.idx (x + 1) ∧ labelOf p x = 0 ∧
      labelOf p (a.neighbors s) = 0)) (hb : ∀ x < 3, a.idx (x + 1) ≤ 4)
    (hl : labelOf p 0 = 0 ∧ labelOf p 1 ≠ 0 ∧ labelOf p 2 = 0) :
    ClassCount (fun x => x < 3 ∧ labelOf p x = 0)
      (ConnIn 3 a (fun x => x < 3 ∧ labelOf p x = 0)) 2 := by
  have key : ∀ x y, ConnIn 3 a (fun x => x < 3 ∧ labelOf p x = 0) x y → x = y := by
    intro x y hxy
    induction hxy with
    | refl => rfl
    | tail _ hbc ih =>
      obtain ⟨⟨h1, h2⟩, ⟨h3, h4⟩, _, s, s1, s2, s3⟩ := hbc
      exact absurd ⟨s1, s2, h2, by rw [s3]; exact h4⟩
        (h _ h1 s (lt_of_lt_of_le s2 (hb _ h1)))
  refine ⟨[0, 2], rfl, ?_, ?_, ?_⟩
  · intro r hr
    simp only [List.mem_cons, List.not_mem_nil, or_false] at hr
    rcases hr with rfl | rfl
    · exact ⟨by omega, hl.1⟩
    · exact ⟨by omega, hl.2.2⟩
  · simp only [List.pairwise_cons, List.mem_singleton, forall_eq, List.not_mem_nil,
      false_implies, implies_true, List.Pairwise.nil, and_true]
    intro hh
    exact absurd (key _ _ hh) (by omega)
  · rintro x ⟨hx, hx0⟩
    interval_cases x
    · exact ⟨0, by simp, Relation.ReflTransGen.refl⟩
    · exact absurd hx0 hl.2.1
    · exact ⟨2, by simp, Relation.ReflTransGen.refl⟩

/-- **C10 refuted.** On the path 0 - 1 - 2 with target module {0, 2}, the split reports one component and
moves nothing for every tape, although the subgraph induced by {0, 2} has no link at all, hence two
components. -/
theorem C10_counts_components_of_whole_graph : ∃ a p, hat = some (a, p) ∧
    (∀ t, ∃ p', SplitModuleByComponent 0 2 p a t = .ok (p', 1, t) ∧
      ∀ x < 3, labelOf p' x = labelOf p x) ∧
    ClassCount (fun x => x < 3 ∧ labelOf p x = 0) (ConnIn 3 a (fun x => x < 3 ∧ labelOf p x = 0)) 2 := by
  refine ⟨_, _, rfl, ?_, ?_⟩
  · intro t
    refine ⟨_, rfl, ?_⟩
    decide +kernel
  · exact hat_isolated (by decide +kernel) (by decide +kernel) (by decide +kernel)

end NC
