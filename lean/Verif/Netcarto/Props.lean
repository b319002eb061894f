import Verif.Netcarto.Load

/-! # C137-C139: what the program `netcarto` prints -/

set_option linter.unusedSimpArgs false

namespace NCP

open NC RG FIO Finset

variable {labels : List String} {p : Partition} {a : Adj} {V : Finset String} {A : String → String → ℚ} {k : String → ℚ}

/-- The clustering step: it ends with a partition of the same nodes without empty modules; undefined behaviour happens
only when the annealing leaves NULL, and then no round of it was found changed. -/
theorem cluster_spec (hL : Loaded labels p a V A k) (o : Options) (t : Tape) :
    (∀ p', cluster o labels.length p a t = .ok p' → Consistent p' ∧ p'.N = p.N ∧ (∀ m < p'.M, ∃ i < p'.N, labelOf p' i = m) ∧
      ∀ i < p'.N, strengthOf p' i = strengthOf p i) ∧
    (cluster o labels.length p a t = .ub → ∃ p1 seen, AssignNodesToModules p (fun _ => 0) = some p1 ∧
      GeneralSA (saParams o labels.length) p1 a t = .ok (none, seen) ∧ ∀ q ∈ seen, q.2 = true) := by
  obtain ⟨p1, seq, e1, hw, hr⟩ := AssignNodesToModules_spec hL.fresh (draws := fun _ => 0) (fun _ => Or.inr hL.M.symm)
  obtain ⟨A', ha, -, -⟩ := hL.repr
  have hin : SAInput p1 a A' := ⟨hw.consistent, by rw [hr.N]; exact hL.pos, by rw [hr.N, hr.M, hL.M], by rw [hr.N]; exact ha,
    by rw [hr.N]; exact hL.symm⟩
  have hg := C08_result_partial hin (saParams o labels.length) t false
  have hcl : cluster o labels.length p a t = (GeneralSA (saParams o labels.length) p1 a t).bind fun r =>
      match r.1 with
      | none => .ub
      | some p => Res.ofOption (CompressPartition p) := by
    unfold cluster
    rw [e1]
    rfl
  rw [hcl]
  cases hgs : GeneralSA (saParams o labels.length) p1 a t with
  | starved => exact ⟨fun p' h => (by simp [Res.bind] at h), fun h => (by simp [Res.bind] at h)⟩
  | ub => rw [hgs] at hg; exact absurd hg (Res.holds_ub _)
  | ok r =>
    rw [hgs] at hg
    obtain ⟨g1, g2⟩ := hg
    obtain ⟨b, seen⟩ := r
    cases b with
    | none =>
      refine ⟨fun p' h => (by simp [Res.bind] at h), fun _ => ⟨p1, seen, e1, hgs, g2.1 rfl⟩⟩
    | some q =>
      obtain ⟨hq, -⟩ := g1 q rfl
      obtain ⟨q', c1, c2, c3, -, -, c6, -, -, c9, -⟩ := C05_compress hq.consistent (by rw [hq.N, hr.N]; exact hL.pos)
      constructor
      · intro p' h
        simp only [Res.bind, c1, Res.ofOption_some, Res.ok.injEq] at h
        subst h
        refine ⟨c2, by rw [c3, hq.N, hr.N], ?_, ?_⟩
        · intro m hm; rw [c3]; exact c6 m hm
        · intro i hi
          rw [c3] at hi
          rw [c9 i hi, hq.strength i (by rw [← hq.N]; exact hi)]
          exact hr.strength i
      · intro h
        simp [Res.bind, c1] at h

/-- The run of the program on a network that has been loaded. -/
theorem run_spec {o : Options} {junk : Junk} {strtod : String → Option ℚ} {lines : List (List String)}
    (hl : load o junk strtod lines = some (labels, p, a)) (hL : Loaded labels p a V A k) (t : Tape) :
    (∀ out, netcarto o junk strtod lines t = .ok out → ∃ G, Clustering V G ∧
      out = ⟨newman V A k G, newman V A k G - ∑ x ∈ V, k x * k x, clusterLines G⟩) ∧
    (netcarto o junk strtod lines t = .ub → ∃ p1 seen, AssignNodesToModules p (fun _ => 0) = some p1 ∧
      GeneralSA (saParams o labels.length) p1 a t = .ok (none, seen) ∧ ∀ q ∈ seen, q.2 = true) := by
  obtain ⟨h1, h2⟩ := cluster_spec hL o t
  have hrun : netcarto o junk strtod lines t = (cluster o labels.length p a t).bind fun p => Res.ofOption (report labels p a) := by
    unfold netcarto
    rw [hl]
    rfl
  rw [hrun]
  cases hc : cluster o labels.length p a t with
  | starved => exact ⟨fun p' h => (by simp [Res.bind] at h), fun h => (by simp [Res.bind] at h)⟩
  | ub => exact ⟨fun p' h => (by simp [Res.bind] at h), fun _ => h2 hc⟩
  | ok p' =>
    obtain ⟨g1, g2, g3, g4⟩ := h1 p' hc
    obtain ⟨A', ha, hA, -⟩ := hL.repr
    obtain ⟨G, r1, -, -, r4⟩ := report_spec hL.nodup g1 (by rw [g2, hL.N]) g3 (g2.symm ▸ ha) (A := A) (k := k)
      (by rw [g2]; exact hA) (fun i hi => by rw [g4 i hi]; exact hL.strength i (g2 ▸ hi))
    rw [hL.set] at r1 r4
    refine ⟨?_, ?_⟩
    · intro out h
      simp only [Res.bind, r4, Res.ofOption_some, Res.ok.injEq] at h
      exact ⟨G, r1, h.symm⟩
    · intro h
      simp [Res.bind, r4] at h

/-- **C137**, partial (ordinary networks): the full claim is that the program always prints a clustering of the labels of the
file with its modularity; it may crash instead (`C137_crash`). For every well-formed file of a simple network, all options, and all random
numbers: what is printed is a clustering of the labels (every label once, no empty line), and the two numbers are its modularity
without and with the diagonal terms of the null model; and the program crashes only when the annealing never found a round
changed. -/
theorem C137_output_partial {o : Options} (hb : o.bipartite = false) (hi : o.invert = false) (junk : Junk) {strtod : String → Option ℚ}
    {lines : List (List String)} {recs : List Rec} (h : List.Forall₂ (Line o.weighted strtod) lines recs) (hs : Simple recs)
    (ht : total recs ≠ 0) (t : Tape) :
    (∀ out, netcarto o junk strtod lines t = .ok out → ∃ G, Clustering (nodes recs) G ∧
      out.text = clusterLines G ∧ out.modularity = newman (nodes recs) (link recs) (strength recs) G ∧
      out.modularityDiag = newman (nodes recs) (link recs) (strength recs) G - ∑ x ∈ nodes recs, strength recs x ^ 2) ∧
    (netcarto o junk strtod lines t = .ub → ∃ labels p a p1 seen, load o junk strtod lines = some (labels, p, a) ∧
      AssignNodesToModules p (fun _ => 0) = some p1 ∧
      GeneralSA (saParams o labels.length) p1 a t = .ok (none, seen) ∧ ∀ q ∈ seen, q.2 = true) := by
  have hne : recs ≠ [] := by rintro rfl; simp [total] at ht
  obtain ⟨labels, p, a, hl, hL⟩ := load_uni hb hi (junk := junk) h hs hne
  obtain ⟨h1, h2⟩ := run_spec hl hL t
  refine ⟨?_, ?_⟩
  · intro out hout
    obtain ⟨G, g1, g2⟩ := h1 out hout
    exact ⟨G, g1, by rw [g2], by rw [g2], by rw [g2]; simp only [sq]⟩
  · intro hu
    obtain ⟨p1, seen, hh⟩ := h2 hu
    exact ⟨labels, p, a, p1, seen, hl, hh⟩

/-- **C137**, partial (bipartite networks, `-b` or `-b -t`): the same for the labels of the first (with `-t` the second) column and the
projected network, when the memory read without having been written (see C12) holds 0 and a number that is not that of a
label. -/
theorem C137_bipartite_partial {o : Options} (hb : o.bipartite = true) {junk : Junk} {strtod : String → Option ℚ}
    {lines : List (List String)} {recs : List Rec} (h : List.Forall₂ (Line o.weighted strtod) lines recs)
    (hs : Distinct (columns o.invert recs)) (ht : total recs ≠ 0) (hj0 : junk.strength = 0)
    (hj : (actors (columns o.invert recs)).card ≤ junk.edge.u) (t : Tape) :
    (∀ out, netcarto o junk strtod lines t = .ok out → ∃ G, Clustering (actors (columns o.invert recs)) G ∧
      out.text = clusterLines G ∧
      out.modularity = newman (actors (columns o.invert recs)) (coLink (columns o.invert recs)) (actorShare (columns o.invert recs)) G ∧
      out.modularityDiag = newman (actors (columns o.invert recs)) (coLink (columns o.invert recs)) (actorShare (columns o.invert recs)) G -
        ∑ x ∈ actors (columns o.invert recs), actorShare (columns o.invert recs) x ^ 2) ∧
    (netcarto o junk strtod lines t = .ub → ∃ labels p a p1 seen, load o junk strtod lines = some (labels, p, a) ∧
      AssignNodesToModules p (fun _ => 0) = some p1 ∧
      GeneralSA (saParams o labels.length) p1 a t = .ok (none, seen) ∧ ∀ q ∈ seen, q.2 = true) := by
  have hne : recs ≠ [] := by rintro rfl; simp [total] at ht
  obtain ⟨labels, p, a, hl, hL⟩ := load_bi hb h hs hne hj0 hj
  obtain ⟨h1, h2⟩ := run_spec hl hL t
  refine ⟨?_, ?_⟩
  · intro out hout
    obtain ⟨G, g1, g2⟩ := h1 out hout
    exact ⟨G, g1, by rw [g2], by rw [g2], by rw [g2]; simp only [sq]⟩
  · intro hu
    obtain ⟨p1, seen, hh⟩ := h2 hu
    exact ⟨labels, p, a, p1, seen, hl, hh⟩

/-! ## Crashes -/

/-- **C137**, refuted: a malformed line makes the program use variables that have not been set, instead of ending with a
message: the value returned by the reader is not looked at. -/
theorem C137_malformed (o : Options) (junk : Junk) {strtod : String → Option ℚ} {pre post : List (List String)} {bad : List String}
    {recs : List Rec} (h : List.Forall₂ (Line o.weighted strtod) pre recs) (hbad : Bad o.weighted strtod bad) (t : Tape) :
    netcarto o junk strtod (pre ++ bad :: post) t = .ub := by
  obtain ⟨x, e, rfl⟩ := C13_error (post := post) h hbad (bipartite := o.bipartite.toNat + o.invert.toNat) (by
    cases o.bipartite <;> cases o.invert <;> simp)
  have : load o junk strtod (pre ++ bad :: post) = none := by
    unfold load; rw [e]; rfl
  unfold netcarto
  rw [this]; rfl

/-- **C137**, refuted: with `-t` but without `-b` the labels of the second column are numbered apart, and the network is read as if the
numbers were those of the first column: the labels are those of the first column only, -/
theorem C137_invert_alone {o : Options} (hb : o.bipartite = false) (hi : o.invert = true) {junk : Junk} {strtod : String → Option ℚ}
    {lines : List (List String)} {recs : List Rec} (h : List.Forall₂ (Line o.weighted strtod) lines recs)
    (hl : load o junk strtod lines = some (labels, p, a)) : labels.toFinset = actors recs := by
  obtain ⟨edges, labels', e, -, -, hnum, -⟩ := C13_read h (bipartite := 1) (by omega)
  have := (numbering_map (hnum rfl).1).2.2
  unfold load at hl
  simp only [hb, hi, Bool.toNat_false, Bool.toNat_true, Nat.zero_add, e, Option.bind_eq_bind, Option.bind_some, Bool.false_eq_true,
    if_false, Option.pure_def, Option.bind_eq_some_iff, Option.some.injEq, Prod.mk.injEq] at hl
  obtain ⟨_, _, _, _, rfl, _⟩ := hl
  exact this

/-- and if the second column has more labels than the first the program leaves its arrays. -/
theorem C137_invert_crash (o : Options) (hb : o.bipartite = false) (hi : o.invert = true) (hw : o.weighted = false) (junk : Junk)
    (strtod : String → Option ℚ) (t : Tape) : netcarto o junk strtod [["a", "x"], ["a", "y"]] t = .ub := by
  have : load o junk strtod [["a", "x"], ["a", "y"]] = none := by
    unfold load
    rw [hb, hi, hw]
    rfl
  unfold netcarto
  rw [this]; rfl

/-- The options of `netcarto -f file`. A value drawn that is at least 3/8 never accepts a loss of 1/2 at a temperature of at most
1/2, since `exp (-1) < 3/8`; so for the values below the acceptance agrees with the one in the program. -/
def defaults : Options := ⟨false, false, false, 1, 97 / 100, 1 / 2, fun _ _ u => decide (u < 3 / 8), 100⟩

/-- Values drawn, all 7/16 or 9/16. -/
def crashTape : Tape := (List.range 2000).map fun i => if i % 11 ∈ [0, 3, 5, 6, 10] then 7 / 16 else 9 / 16

def isUb (r : Res Printed) : Bool := match r with
  | .ub => true
  | _ => false

theorem crash_true : isUb (netcarto defaults ⟨0, 0, ⟨9, 9, 0⟩⟩ (fun _ => none) [["a", "b"]] crashTape) = true := by decide +kernel

/-- **C137**, refuted: with the default options, on a file with one link, the program may crash: the first round finds the best
clustering, no later round is found changed, and the annealing leaves NULL. -/
theorem C137_crash : netcarto defaults ⟨0, 0, ⟨9, 9, 0⟩⟩ (fun _ => none) [["a", "b"]] crashTape = .ub := by
  have := crash_true
  unfold isUb at this
  split at this
  · assumption
  · simp at this

/-! ## Runs -/

/-- Options that make short runs: everything is accepted in the first round, and no loss later. -/
def quick : Options := ⟨false, false, false, 1 / 10, 1 / 10 ^ 40, 1 / 2, fun _ T _ => decide (T > 1 / 10), 1000⟩

def quickTape : Tape := (List.range 1000).map fun i => (((i * 7919 + i * i * 3 + 12345) % 1000 : ℕ) : ℚ) / 1000

def textOf (r : Res Printed) : Option (ℚ × ℚ × List Char) := match r with
  | .ok o => some (o.modularity, o.modularityDiag, o.text)
  | _ => none

/-- A triangle with a pendant node. -/
example : textOf (netcarto quick ⟨0, 0, ⟨9, 9, 0⟩⟩ (fun _ => none) [["a", "b"], ["b", "c"], ["a", "c"], ["c", "d"]] quickTape) =
    some (9 / 32, 0, ['c', '\t', 'd', '\t', '\n', 'b', '\t', 'a', '\t', '\n']) := by decide +kernel

/-- Two teams of two and three actors. -/
example : textOf (netcarto { quick with bipartite := true } ⟨0, 0, ⟨9, 9, 0⟩⟩ (fun _ => none)
    [["a", "x"], ["b", "x"], ["c", "y"], ["d", "y"], ["a", "y"]] quickTape) =
    some (7 / 20, 7 / 100, ['c', '\t', 'a', '\t', 'd', '\t', '\n', 'b', '\t', '\n']) := by decide +kernel

def triangle : List Rec := [("a", "b", 1), ("b", "c", 1), ("a", "c", 1), ("c", "d", 1)]

example : Simple triangle ∧ total triangle ≠ 0 ∧ Clustering (nodes triangle) [["c", "d"], ["b", "a"]] ∧
    newman (nodes triangle) (link triangle) (strength triangle) [["c", "d"], ["b", "a"]] = 9 / 32 := by
  refine ⟨⟨by unfold triangle; decide, by unfold triangle; decide⟩, by decide +kernel, ⟨by decide, by decide, ?_⟩, by decide +kernel⟩
  intro x
  have : nodes triangle = [["c", "d"], ["b", "a"]].flatten.toFinset := by decide +kernel
  rw [this, List.mem_toFinset]

def teams : List Rec := [("a", "x", 1), ("b", "x", 1), ("c", "y", 1), ("d", "y", 1), ("a", "y", 1)]

example : Distinct (columns false teams) ∧ (actors (columns false teams)).card ≤ 9 ∧
    newman (actors teams) (coLink teams) (actorShare teams) [["c", "a", "d"], ["b"]] = 7 / 20 := by
  refine ⟨by unfold Distinct columns teams; decide, by decide +kernel, by decide +kernel⟩

end NCP
