import Verif.Graph.Copy
import Mathlib.Algebra.Order.Field.Rat
import Mathlib.Data.Rat.Floor
import Mathlib.Algebra.BigOperators.Ring.Finset
import Mathlib.Algebra.BigOperators.Group.Finset.Sigma
import Mathlib.Tactic.NormNum

set_option linter.unusedSimpArgs false

/-!
# Networks: C15 (edits and queries), C16 (files), C19, C20, C44 (copies), C45 (total number of links)
-/

namespace GR

/-! ## C15 -/

/-- C15. Take any network that holds the links of `g`, each once, and whose caches are empty or right.
After any history of `AddAdjacency`, `RemoveLink`, `NodeDegree`, `NodeStrength`, `IsThereLink`
between its nodes, that removes only links that exist, every answer is the one obtained from the
weight function: the current number of links, the current sum of weights.  The network holds
exactly the links of the resulting weight function, each once. -/
theorem C15_history {net : Net} {g : WG} (h : Holds net g) (hc : CachesOK net) (ops : List Op)
    (hr : ∀ o ∈ ops, o.inRange net.n) {outs : List Out} {g' : WG}
    (hs : runOps (specStep net.n) g ops = some (outs, g')) :
    ∃ net', runOps netStep net ops = some (outs, net') ∧ net'.n = net.n ∧ Holds net' g' ∧
      CachesOK net' := by
  have := run_rep ops (net := net) (g := g) ⟨h, hc⟩ hr
  rw [hs] at this
  obtain ⟨net', e, hn, h1, h2⟩ := this
  exact ⟨net', e, hn, h1, h2⟩

/-- C15. Removing a link that does not exist is undefined behaviour, at once. -/
theorem C15_removing_absent_is_undefined {net : Net} {g : WG} (h : Holds net g) {i j : ℕ}
    (hi : i < net.n) (hj : j < net.n) (hg : g i j = none) (sym : Bool) :
    RemoveLink net i j sym = none := by
  have hrow := dropLink_row (h i hi) hj
  rw [hg] at hrow
  have : dropLink j ((resetCaches (resetCaches net i) j).neig i) = none := hrow
  unfold RemoveLink
  simp [this]

/-- Nothing in a history permits self links. -/
def Op.noAuto : Op → Prop
  | .add _ _ auto _ _ => auto = false
  | _ => True

theorem specStep_noloop {n : ℕ} {g g' : WG} {o : Op} {r : Out} (ho : o.noAuto)
    (hs : specStep n g o = some (r, g')) (hg : ∀ i, g i i = none) : ∀ i, g' i i = none := by
  intro i
  cases o with
  | add a b auto add w =>
    simp only [specStep, Option.some.injEq, Prod.mk.injEq] at hs
    obtain ⟨_, rfl⟩ := hs
    simp only [Op.noAuto] at ho
    subst ho
    have hset : ∀ v, a ≠ b → (g.set a b v) i i = none := by
      intro v hab
      unfold WG.set
      rw [if_neg, hg]
      rintro ⟨rfl, rfl⟩; exact hab rfl
    unfold WG.add
    by_cases hab : a = b
    · rw [if_pos ⟨hab, rfl⟩]; exact hg i
    · rw [if_neg (fun h => hab h.1)]
      cases g a b with
      | none => exact hset _ hab
      | some v =>
        cases add with
        | true => exact hset _ hab
        | false => exact hg i
  | remove a b sym =>
    simp only [specStep] at hs
    cases hrm : g.remove a b sym with
    | none => simp [hrm] at hs
    | some g1 =>
      rw [hrm] at hs
      simp only [Option.map_some, Option.some.injEq, Prod.mk.injEq] at hs
      obtain ⟨_, rfl⟩ := hs
      unfold WG.remove at hrm
      have hset : ∀ (f : WG) a b, f i i = none → (f.set a b none) i i = none := by
        intro f a b hf
        unfold WG.set
        split_ifs
        · rfl
        · exact hf
      split_ifs at hrm
      · rw [← Option.some.inj hrm]; exact hset _ _ _ (hset _ _ _ (hg i))
      · rw [← Option.some.inj hrm]; exact hset _ _ _ (hg i)
  | degree a => simp only [specStep, Option.some.injEq, Prod.mk.injEq] at hs; rw [← hs.2]; exact hg i
  | strength a => simp only [specStep, Option.some.injEq, Prod.mk.injEq] at hs; rw [← hs.2]; exact hg i
  | isLink a b => simp only [specStep, Option.some.injEq, Prod.mk.injEq] at hs; rw [← hs.2]; exact hg i

theorem spec_noloop {n : ℕ} : ∀ (ops : List Op) {g g' : WG} {rs : List Out},
    (∀ o ∈ ops, o.noAuto) → runOps (specStep n) g ops = some (rs, g') → (∀ i, g i i = none) →
    ∀ i, g' i i = none
  | [], g, g', rs, _, hs, hg => by
    simp only [runOps, Option.some.injEq, Prod.mk.injEq] at hs
    rw [← hs.2]; exact hg
  | o :: os, g, g', rs, ho, hs, hg => by
    simp only [runOps, Option.bind_eq_bind] at hs
    cases h1 : specStep n g o with
    | none => rw [h1] at hs; simp at hs
    | some p =>
      obtain ⟨r, g1⟩ := p
      rw [h1] at hs
      simp only [Option.bind_some] at hs
      cases h2 : runOps (specStep n) g1 os with
      | none => rw [h2] at hs; simp at hs
      | some q =>
        obtain ⟨rs2, g2⟩ := q
        rw [h2] at hs
        have : g2 = g' := by
          have := Option.some.inj hs
          simpa using (Prod.mk.inj this).2
        subst this
        exact spec_noloop os (fun o' ho' => ho o' (by simp [ho'])) h2
          (specStep_noloop (ho o (by simp)) h1 hg)

/-- C15. Without permission for self links no history creates one: no node ever lists itself. -/
theorem C15_no_self_links {net : Net} {g : WG} (h : Holds net g) (hc : CachesOK net)
    (hg : ∀ i, g i i = none) (ops : List Op) (hr : ∀ o ∈ ops, o.inRange net.n)
    (ha : ∀ o ∈ ops, o.noAuto) {outs : List Out} {net' : Net}
    (hrun : runOps netStep net ops = some (outs, net')) :
    ∀ i, i < net.n → ∀ l ∈ net'.neig i, l.ref ≠ some i := by
  have := run_rep ops (net := net) (g := g) ⟨h, hc⟩ hr
  cases hs : runOps (specStep net.n) g ops with
  | none => rw [hs] at this; rw [this] at hrun; simp at hrun
  | some p =>
    obtain ⟨rs, g'⟩ := p
    rw [hs] at this
    obtain ⟨net1, e, hn, hrep⟩ := this
    rw [hrun] at e
    obtain ⟨rfl, rfl⟩ := Prod.mk.inj (Option.some.inj e)
    intro i hi l hl el
    obtain ⟨j, _, ej, hgj⟩ := (hrep.1 i (by omega)).2.1 l hl
    rw [el] at ej
    obtain rfl : i = j := by simpa using ej
    rw [spec_noloop ops ha hs hg i] at hgj
    simp at hgj

/-- Three nodes, no links. -/
def threeNodes : Net :=
  { n := 3, label := fun i => toString i, neig := fun _ => [], degree := fun _ => 0, strength := fun _ => 0 }

/-- A history with queries between the edits. -/
def sampleHistory : List Op :=
  [.add 0 1 false false 2, .add 1 0 false false 2, .degree 0, .add 0 2 false true (1/2),
   .add 2 0 false true (1/2), .degree 0, .strength 0, .add 0 2 false true 1, .strength 0,
   .remove 0 1 true, .degree 0, .isLink 0 1, .add 1 1 false false 1, .degree 1]

example : ∃ net', runOps netStep threeNodes sampleHistory =
    some ([.int 1, .int 1, .nat 1, .int 1, .int 1, .nat 2, .rat (5/2), .int 1, .rat (7/2), .unit,
      .nat 1, .bool false, .int 0, .nat 0], net') := by
  have h : Holds threeNodes (fun _ _ => none) := by
    intro i _; exact ⟨by simp [threeNodes], by simp [threeNodes], by simp⟩
  have hc : CachesOK threeNodes := by intro i _; simp [threeNodes]
  have hr : ∀ o ∈ sampleHistory, o.inRange threeNodes.n := by
    simp [sampleHistory, Op.inRange, threeNodes]
  have hsome : ((runOps (specStep 3) (fun _ _ => none) sampleHistory).map Prod.fst) =
    some [.int 1, .int 1, .nat 1, .int 1, .int 1, .nat 2, .rat (5/2), .int 1, .rat (7/2), .unit,
      .nat 1, .bool false, .int 0, .nat 0] := by decide +kernel
  obtain ⟨⟨outs, g'⟩, hs, e⟩ := Option.map_eq_some_iff.1 hsome
  simp only at e
  subst e
  obtain ⟨net', e, _⟩ := C15_history h hc sampleHistory hr hs
  exact ⟨net', e⟩

/-- C15, negative part. `AddAdjacencySoft` does not reset the caches: after a query, an insertion and
a query the second answer is stale (1 instead of 2 links, 1 instead of 6 of strength). The network
builders that use it (`CopyNetwork`) query nothing before rewiring resets the caches, see
`C44_copy`. -/
theorem C15_soft_insertion_stale :
    let net0 := (AddAdjacency threeNodes 0 1 false false 1).2
    let net1 := (NodeStrength (NodeDegree net0 0).2 0).2
    let net2 := (AddAdjacencySoft net1 0 "2" false false 5).2
    (net2.neig 0).length = 2 ∧ ((net2.neig 0).map Link.weight).sum = 6 ∧
      (NodeDegree net2 0).1 = 1 ∧ (NodeStrength net2 0).1 = 1 := by
  decide +kernel

/-! ## C16 -/

/-- C16. Reading well formed lines `ls` gives a network with one node per distinct label, numbered
by first appearance, that holds exactly the links the file describes: a link from `a` to `b` when
some line says so (or its mirror, when symmetric), with the first weight stated, or the sum of all
the weights stated when weights are added; self links only when permitted; labels of links agree
with labels of their targets; degree and strength queries are right on it (C15). -/
theorem C16_build (weighted auto add sym : Bool) (strtod : String → Option ℚ)
    (lines : List (List String)) (ls : List (String × String × ℚ))
    (h : List.Forall₂ (LineSays weighted strtod) lines ls) :
    ∃ net, FBuildNetwork lines weighted auto add sym strtod = some (some net) ∧
      (List.range net.n).map net.label = firstLabels ls ∧
      Holds net (fun i j => if i < net.n ∧ j < net.n then
        fileWeight auto add sym ls (net.label i) (net.label j) else none) ∧
      LabelsOK net ∧ CachesOK net ∧ ∀ i, i < net.n → fits (net.label i) = true := by
  obtain ⟨net, dict, g, e, hb, hs⟩ := buildLoop_prefix (auto := auto) (add := add) (sym := sym)
    (done := []) [] h BI.nil (by intro a b ha; simp [labelsOf] at ha)
  simp only [List.append_nil, List.nil_append] at e hb hs
  have hidx : ∀ i, i < net.n → net.label i ∈ labelsOf ls ∧
      (order (labelsOf ls)).idxOf (net.label i) = i := by
    intro i hi
    have h1 := hb.labels i hi
    obtain ⟨hlt, e1⟩ := List.getElem?_eq_some_iff.1 h1
    refine ⟨mem_order.1 (e1 ▸ List.getElem_mem hlt), ?_⟩
    rw [← e1]
    exact (nodup_order _).idxOf_getElem i hlt
  have hg : ∀ i j, g i j = if i < net.n ∧ j < net.n then
        fileWeight auto add sym ls (net.label i) (net.label j) else none := by
    intro i j
    split_ifs with hij
    · obtain ⟨m1, e1⟩ := hidx i hij.1
      obtain ⟨m2, e2⟩ := hidx j hij.2
      have := hs _ _ m1 m2
      rw [e1, e2, weightOf_expand] at this
      exact this
    · cases hgg : g i j with
      | none => rfl
      | some v => exact (hij (hb.supp i j (by simp [hgg]))).elim
  refine ⟨net, ?_, ?_, ?_, hb.links, hb.rep.2, ?_⟩
  · unfold FBuildNetwork
    rw [e]; rfl
  · have : firstLabels ls = order (labelsOf ls) := rfl
    rw [this]
    apply List.ext_getElem?
    intro i
    by_cases hi : i < net.n
    · rw [hb.labels i hi]; simp [hi]
    · rw [List.getElem?_eq_none (by simpa using hi),
        List.getElem?_eq_none (by rw [← hb.size]; simpa using hi)]
  · have : (fun i j => if i < net.n ∧ j < net.n then
        fileWeight auto add sym ls (net.label i) (net.label j) else none) = g := by
      funext i j; exact (hg i j).symm
    rw [this]; exact hb.rep.1
  · intro i hi; exact hb.fit _ (hidx i hi).1

/-- C16. With the symmetric switch the file describes a symmetric relation: the link from `a` to `b`
exists when the one from `b` to `a` does.  The two weights agree. -/
theorem C16_symmetric (auto add : Bool) (ls : List (String × String × ℚ)) (a b : String) :
    fileWeight auto add true ls a b = fileWeight auto add true ls b a := by
  have hst : statedWeights true ls a b = statedWeights true ls b a := by
    unfold statedWeights
    congr 1
    funext l
    obtain ⟨x, y, w⟩ := l
    simp only
    by_cases hxy : x = y
    · subst hxy
      by_cases h1 : x = a ∧ x = b
      · obtain ⟨rfl, rfl⟩ := h1; simp
      · have h2 : ¬ (x = b ∧ x = a) := fun h => h1 ⟨h.2, h.1⟩
        simp [h1, h2]
    · by_cases h1 : x = a ∧ y = b
      · obtain ⟨rfl, rfl⟩ := h1
        have h3 : ¬ y = x := fun e => hxy e.symm
        simp [hxy, h3]
      · by_cases h2 : y = a ∧ x = b
        · obtain ⟨rfl, rfl⟩ := h2
          have h3 : ¬ y = x := fun e => hxy e.symm
          simp [hxy, h3]
        · have h1' : ¬ (y = b ∧ x = a) := fun h => h1 ⟨h.2, h.1⟩
          have h2' : ¬ (x = b ∧ y = a) := fun h => h2 ⟨h.2, h.1⟩
          simp [h1, h2, h1', h2']
  unfold fileWeight
  rw [hst]
  by_cases hab : a = b
  · subst hab; rfl
  · have hba : ¬ b = a := fun e => hab e.symm
    simp [hab, hba]

/-- C16. A line without enough fields, after any number of good lines, makes the call return NULL,
whatever follows. -/
theorem C16_malformed (weighted auto add sym : Bool) (strtod : String → Option ℚ)
    (lines tail : List (List String)) (ls : List (String × String × ℚ)) (bad : List String)
    (h : List.Forall₂ (LineSays weighted strtod) lines ls) (hbad : LineBad weighted strtod bad) :
    FBuildNetwork (lines ++ bad :: tail) weighted auto add sym strtod = some none := by
  obtain ⟨net, dict, g, e, hb, hs⟩ := buildLoop_prefix (auto := auto) (add := add) (sym := sym)
    (done := []) (bad :: tail) h BI.nil (by intro a b ha; simp [labelsOf] at ha)
  unfold FBuildNetwork
  rw [e]
  have hrl : readLine weighted strtod bad = some none := by
    obtain ⟨hf, hc⟩ := hbad
    cases weighted with
    | true =>
      simp only [if_true] at hc
      match bad, hf, hc with
      | [], _, _ => rfl
      | [a], hf, _ => simp [readLine, hf a (by simp)]
      | [a, b], hf, _ => simp [readLine, hf a (by simp), hf b (by simp)]
      | a :: b :: c :: rest, hf, hc =>
        rcases hc with hc | ⟨a', b', c', r', e, hn⟩
        · simp only [List.length_cons] at hc; omega
        · obtain ⟨_, _, rfl, _⟩ : a = a' ∧ b = b' ∧ c = c' ∧ rest = r' := by simpa using e
          simp [readLine, hf a (by simp), hf b (by simp), hn]
    | false =>
      simp only [Bool.false_eq_true, if_false] at hc
      match bad, hf, hc with
      | [], _, _ => rfl
      | [a], hf, _ => simp [readLine, hf a (by simp)]
      | a :: b :: rest, _, hc => simp at hc; omega
  simp [buildLoop, hrl]

/-- C16, limit of the claim. A first label of 100 bytes or more overflows its buffer. -/
theorem C16_long_label_overflows (weighted auto add sym : Bool) (strtod : String → Option ℚ)
    (a b : String) (rest : List String) (tail : List (List String)) (ha : fits a = false) :
    FBuildNetwork ((a :: b :: rest) :: tail) weighted auto add sym strtod = none := by
  have : readLine weighted strtod (a :: b :: rest) = none := by simp [readLine, ha]
  simp [FBuildNetwork, buildLoop, this]

/-- Some one-digit numbers; enough for the examples. -/
def natStr (s : String) : Option ℚ :=
  if s = "1" then some 1 else if s = "2" then some 2 else if s = "3" then some 3
  else if s = "4" then some 4 else if s = "5" then some 5 else none

/-- A file in which a link is stated three times, once mirrored, and a self link. -/
def sampleFile : List (List String) :=
  [["b", "a", "2"], ["a", "c", "1"], ["a", "b", "5"], ["c", "c", "4"], ["b", "a", "3"]]

def sampleLines : List (String × String × ℚ) :=
  [("b", "a", 2), ("a", "c", 1), ("a", "b", 5), ("c", "c", 4), ("b", "a", 3)]

theorem sampleFile_says : List.Forall₂ (LineSays true natStr) sampleFile sampleLines := by
  have key : ∀ a b c : String, ∀ w : ℚ, fits a = true → fits b = true → natStr c = some w →
      LineSays true natStr [a, b, c] (a, b, w) := by
    intro a b c w h1 h2 h3
    exact ⟨h1, h2, by simp [h3]⟩
  unfold sampleFile sampleLines
  refine .cons (key _ _ _ _ ?_ ?_ ?_) (.cons (key _ _ _ _ ?_ ?_ ?_) (.cons (key _ _ _ _ ?_ ?_ ?_)
    (.cons (key _ _ _ _ ?_ ?_ ?_) (.cons (key _ _ _ _ ?_ ?_ ?_) .nil)))) <;> decide +kernel

example : ∃ net, FBuildNetwork sampleFile true false true true natStr = some (some net) ∧
    (List.range net.n).map net.label = ["b", "a", "c"] := by
  obtain ⟨net, e, hl, _⟩ := C16_build true false true true natStr sampleFile sampleLines sampleFile_says
  exact ⟨net, e, by rw [hl]; decide +kernel⟩

example : fileWeight false true true sampleLines "a" "b" = some 10 ∧
    fileWeight false false true sampleLines "a" "b" = some 2 ∧
    fileWeight false true false sampleLines "a" "b" = some 5 ∧
    fileWeight false true true sampleLines "c" "c" = none ∧
    fileWeight true true true sampleLines "c" "c" = some 4 := by decide +kernel

/-! ## C44 -/

/-- C44. `CopyNetwork` of a network with distinct labels returns a network with the same nodes,
numbers and labels, the same adjacency lists in the same order with the same weights, and empty
caches, so all queries on the copy are right. -/
theorem C44_copy {src : Net} {g : WG} (h : Holds src g) (hl : LabelsOK src)
    (hf : ∀ i, i < src.n → fits (src.label i) = true)
    (hd : ∀ i k, i < src.n → k < src.n → src.label i = src.label k → i = k) :
    ∃ net, CopyNetwork src = some net ∧ net.n = src.n ∧
      (∀ i, i < src.n → net.label i = src.label i ∧ net.neig i = src.neig i) ∧
      Holds net g ∧ LabelsOK net ∧ CachesOK net := by
  obtain ⟨net, e, hn, h1, h2, h3⟩ := copy_ok h hl hf hd
  refine ⟨net, e, hn, fun i hi => ⟨h1 i hi, h2 i hi⟩, ?_, ?_, ?_⟩
  · intro i hi
    rw [hn] at hi ⊢
    rw [h2 i hi]
    exact h i hi
  · intro i hi l hlm j hj
    rw [hn] at hi
    rw [h2 i hi] at hlm
    obtain ⟨k, hk, ek, _⟩ := (h i hi).2.1 l hlm
    rw [hj] at ek
    obtain rfl : j = k := by simpa using ek
    rw [h1 j hk]
    exact hl i hi l hlm j hj
  · intro i hi
    rw [hn] at hi
    simp [h3 i hi]

/-- C44. In particular, every network read from a file can be copied, and the copy equals it. -/
theorem C44_copy_of_file (weighted auto add sym : Bool) (strtod : String → Option ℚ)
    (lines : List (List String)) (ls : List (String × String × ℚ))
    (h : List.Forall₂ (LineSays weighted strtod) lines ls) :
    ∃ net net', FBuildNetwork lines weighted auto add sym strtod = some (some net) ∧
      CopyNetwork net = some net' ∧ net'.n = net.n ∧
      ∀ i, i < net.n → net'.label i = net.label i ∧ net'.neig i = net.neig i := by
  obtain ⟨net, e, hlab, hh, hl, _, hf⟩ := C16_build weighted auto add sym strtod lines ls h
  obtain ⟨net', e', hn, h1, _⟩ := C44_copy hh hl hf (by
    intro i k hi hk eik
    have hnd : ((List.range net.n).map net.label).Nodup := by rw [hlab]; exact nodup_order _
    exact List.inj_on_of_nodup_map hnd (by simpa using hi) (by simpa using hk) eik)
  exact ⟨net, net', e, e', hn, h1⟩

example : ∃ net net', FBuildNetwork sampleFile true true true true natStr = some (some net) ∧
    CopyNetwork net = some net' ∧ net'.n = net.n := by
  obtain ⟨net, net', e, e', hn, _⟩ :=
    C44_copy_of_file true true true true natStr sampleFile sampleLines sampleFile_says
  exact ⟨net, net', e, e', hn⟩

/-- C44, limit of the claim: with two nodes of equal label the copy is not faithful (the links of
the first node end at the wrong node). -/
theorem C44_equal_labels_break :
    let net0 : Net := { threeNodes with label := fun i => if i = 2 then "1" else toString i }
    let net1 := (AddAdjacency net0 0 1 false false 1).2
    ((CopyNetwork net1).map fun net => (net.neig 0).map Link.ref) = some [some 2] ∧
      (net1.neig 0).map Link.ref = [some 1] := by
  decide +kernel

/-! ## C45 and C20 -/

theorem sumDegrees_eq (f : ℕ → ℕ) : ∀ (todo i : ℕ) {net : Net} {g : WG}, Rep net g →
    todo + i ≤ net.n →
    (sumDegrees f todo i net).1 = ∑ k ∈ Finset.range todo, f (g.degree net.n (i + k)) ∧
    (sumDegrees f todo i net).2.n = net.n ∧
    (sumDegrees f todo i net).2.neig = net.neig ∧
    (sumDegrees f todo i net).2.label = net.label ∧ Rep (sumDegrees f todo i net).2 g
  | 0, i, net, g, h, _ => by simp [sumDegrees]; exact h
  | todo + 1, i, net, g, h, hi => by
    obtain ⟨h1, h2, h2', h3⟩ := degree_net h.2 (i := i) (by omega)
    have hrep : Rep (NodeDegree net i).2 g := by
      refine ⟨?_, h3⟩
      intro k hk
      rw [h1] at hk ⊢
      rw [h2]; exact h.1 k hk
    obtain ⟨ih1, ih2, ih3, ih4, ih5⟩ := sumDegrees_eq f todo (i + 1) hrep (by rw [h1]; omega)
    simp only [sumDegrees]
    refine ⟨?_, by rw [ih2, h1], by rw [ih3, h2], by rw [ih4, h2'], ih5⟩
    rw [ih1, Finset.sum_range_succ', degree_answer h.2 (by omega : i < net.n),
      row_length (h.1 i (by omega)), h1, add_comm]
    congr 1
    apply Finset.sum_congr rfl
    intro k _
    rw [show i + 1 + k = i + (k + 1) by omega]

/-- C20, the property refuted: degrees 1, 1, 0 give 0 where the mean of squares is 2/3. -/
theorem C20_truncated :
    let net := (AddAdjacency (AddAdjacency threeNodes 0 1 false false 1).2 1 0 false false 1).2
    ((AverageSquaredDegree net).map Prod.fst) = some 0 ∧
      ((NodeDegree net 0).1 ^ 2 + (NodeDegree net 1).1 ^ 2 + (NodeDegree net 2).1 ^ 2 : ℚ) / 3 = 2 / 3 := by
  decide +kernel

/-- C20, partial. Full statement (false, see `C20_truncated`): on a network with at least one node
`AverageSquaredDegree` returns the mean of the squared degrees. What holds: it returns the floor
of it, so it is right exactly when the number of nodes divides the sum of squares. -/
theorem C20_average_squared_degree_partial {net : Net} {g : WG} (h : Holds net g) (hc : CachesOK net)
    (hn : 0 < net.n) :
    ∃ v net', AverageSquaredDegree net = some (v, net') ∧
      v = ⌊((∑ i ∈ Finset.range net.n, (g.degree net.n i) ^ 2 : ℕ) : ℚ) / net.n⌋ ∧
      (v = ((∑ i ∈ Finset.range net.n, (g.degree net.n i) ^ 2 : ℕ) : ℚ) / net.n ↔
        net.n ∣ ∑ i ∈ Finset.range net.n, (g.degree net.n i) ^ 2) := by
  have hs := (sumDegrees_eq (fun k => k * k) net.n 0 (net := net) (g := g) ⟨h, hc⟩ (by omega)).1
  have hs' : (sumDegrees (fun k => k * k) net.n 0 net).1
      = ∑ i ∈ Finset.range net.n, (g.degree net.n i) ^ 2 := by
    rw [hs]
    apply Finset.sum_congr rfl
    intro k _
    rw [Nat.zero_add]; ring
  set S := ∑ i ∈ Finset.range net.n, (g.degree net.n i) ^ 2 with hS
  refine ⟨((S / net.n : ℕ) : ℚ), _, by simp only [AverageSquaredDegree]; rw [if_neg (by omega), hs'], ?_, ?_⟩
  · rw [Rat.floor_natCast_div_natCast]; norm_cast
  · have hq : (net.n : ℚ) ≠ 0 := by exact_mod_cast hn.ne'
    rw [eq_div_iff hq]
    constructor
    · intro e
      have : S / net.n * net.n = S := by exact_mod_cast e
      exact ⟨S / net.n, by rw [mul_comm]; exact this.symm⟩
    · intro hd
      exact_mod_cast Nat.div_mul_cancel hd

/-- C45. `TotalNLinks` of a directed network is the number of links; of a symmetric network without
self links, the number of linked pairs.  The query changes only caches. -/
theorem C45_total_links {net : Net} {g : WG} (h : Holds net g) (hc : CachesOK net) (sym : Bool)
    (hsym : sym = true → (∀ i j, (g i j).isSome = (g j i).isSome) ∧ ∀ i, g i i = none) :
    (TotalNLinks net sym).1 = ((Finset.range net.n ×ˢ Finset.range net.n).filter fun p =>
        (g p.1 p.2).isSome ∧ (sym = true → p.2 < p.1)).card ∧
      (TotalNLinks net sym).2.neig = net.neig ∧ (TotalNLinks net sym).2.label = net.label ∧
      (TotalNLinks net sym).2.n = net.n ∧ Holds (TotalNLinks net sym).2 g ∧
      CachesOK (TotalNLinks net sym).2 := by
  obtain ⟨h1, h2, h3, h4, h5⟩ := sumDegrees_eq id net.n 0 (net := net) (g := g) ⟨h, hc⟩ (by omega)
  have htot : (sumDegrees id net.n 0 net).1
      = ((Finset.range net.n ×ˢ Finset.range net.n).filter fun p => (g p.1 p.2).isSome).card := by
    rw [h1, Finset.card_filter, Finset.sum_product]
    apply Finset.sum_congr rfl
    intro k _
    rw [Nat.zero_add, id, WG.degree, Finset.card_filter]
  unfold TotalNLinks
  simp only
  refine ⟨?_, h3, h4, h2, h5.1, h5.2⟩
  cases sym with
  | false => simp [htot]
  | true =>
    obtain ⟨hs, hl⟩ := hsym rfl
    simp only [if_true, forall_const, htot]
    set A := (Finset.range net.n ×ˢ Finset.range net.n).filter fun p => (g p.1 p.2).isSome with hA
    have e1 : A.card = (A.filter fun p => p.2 < p.1).card + (A.filter fun p => ¬ p.2 < p.1).card :=
      (Finset.card_filter_add_card_filter_not _).symm
    have e2 : (A.filter fun p => ¬ p.2 < p.1).card = (A.filter fun p => p.2 < p.1).card := by
      apply Finset.card_bij (fun p _ => (p.2, p.1))
      · rintro ⟨a, b⟩ hp
        simp only [hA, Finset.mem_filter, Finset.mem_product, Finset.mem_range] at hp ⊢
        refine ⟨⟨⟨hp.1.1.2, hp.1.1.1⟩, by rw [hs]; exact hp.1.2⟩, ?_⟩
        rcases Nat.lt_trichotomy a b with h | h | h
        · exact h
        · subst h; rw [hl] at hp; simp at hp
        · exact (hp.2 h).elim
      · rintro ⟨a, b⟩ _ ⟨c, d⟩ _ e
        simp only [Prod.mk.injEq] at e ⊢
        exact ⟨e.2, e.1⟩
      · rintro ⟨a, b⟩ hp
        simp only [hA, Finset.mem_filter, Finset.mem_product, Finset.mem_range] at hp
        refine ⟨(b, a), ?_, rfl⟩
        simp only [hA, Finset.mem_filter, Finset.mem_product, Finset.mem_range]
        exact ⟨⟨⟨hp.1.1.2, hp.1.1.1⟩, by rw [hs]; exact hp.1.2⟩, by omega⟩
    have e3 : (A.filter fun p => p.2 < p.1) = (Finset.range net.n ×ˢ Finset.range net.n).filter
        fun p => (g p.1 p.2).isSome ∧ p.2 < p.1 := by
      rw [hA, Finset.filter_filter]
    rw [e1, e2, e3]
    omega

/-- C45. `AverageDegree` is the mean degree, in both modes, under the same conditions. -/
theorem C45_average_degree {net : Net} {g : WG} (h : Holds net g) (hc : CachesOK net) (sym : Bool)
    (hsym : sym = true → (∀ i j, (g i j).isSome = (g j i).isSome) ∧ ∀ i, g i i = none)
    (hn : 0 < net.n) :
    ∃ net', AverageDegree net sym =
      some ((∑ i ∈ Finset.range net.n, (g.degree net.n i : ℚ)) / net.n, net') := by
  have h1 := (sumDegrees_eq id net.n 0 (net := net) (g := g) ⟨h, hc⟩ (by omega)).1
  have hS : ((sumDegrees id net.n 0 net).1 : ℚ) = ∑ i ∈ Finset.range net.n, (g.degree net.n i : ℚ) := by
    rw [h1]; simp
  unfold AverageDegree
  simp only [if_neg (by omega : ¬ net.n = 0)]
  cases sym with
  | false =>
    refine ⟨(TotalNLinks net false).2, ?_⟩
    simp only [TotalNLinks, Bool.false_eq_true, if_false, hS]
  | true =>
    -- the sum of degrees is even
    have h2 := (C45_total_links h hc false (by simp)).1
    have h3 := (C45_total_links h hc true hsym).1
    obtain ⟨hs, hl⟩ := hsym rfl
    have heven : 2 * ((sumDegrees id net.n 0 net).1 / 2) = (sumDegrees id net.n 0 net).1 := by
      have hh : (sumDegrees id net.n 0 net).1 % 2 = 0 := by
        have e : (sumDegrees id net.n 0 net).1
            = ∑ i ∈ Finset.range net.n, ∑ j ∈ Finset.range net.n, if (g i j).isSome then 1 else 0 := by
          rw [h1]
          apply Finset.sum_congr rfl
          intro k _
          rw [Nat.zero_add, id, WG.degree, Finset.card_filter]
        rw [e]
        have key : ∀ m : ℕ, (∑ i ∈ Finset.range m, ∑ j ∈ Finset.range m,
            if (g i j).isSome then 1 else 0) % 2 = 0 := by
          intro m
          induction m with
          | zero => simp
          | succ m ih =>
            have e2 : (∑ i ∈ Finset.range (m + 1), ∑ j ∈ Finset.range (m + 1),
                if (g i j).isSome then 1 else 0)
                = (∑ i ∈ Finset.range m, ∑ j ∈ Finset.range m, if (g i j).isSome then 1 else 0)
                  + 2 * ∑ i ∈ Finset.range m, if (g i m).isSome then 1 else 0 := by
              rw [Finset.sum_range_succ]
              have e3 : ∀ i, (∑ j ∈ Finset.range (m + 1), if (g i j).isSome then 1 else 0)
                  = (∑ j ∈ Finset.range m, if (g i j).isSome then 1 else 0)
                    + if (g i m).isSome then 1 else 0 := fun i => Finset.sum_range_succ _ _
              have e4 : (∑ j ∈ Finset.range m, if (g m j).isSome then 1 else 0)
                  = ∑ i ∈ Finset.range m, if (g i m).isSome then 1 else 0 := by
                apply Finset.sum_congr rfl
                intro i _; rw [hs]
              simp only [e3, hl m, Option.isSome_none, Bool.false_eq_true, if_false, add_zero,
                Finset.sum_add_distrib]
              rw [e4]; ring
            rw [e2]; omega
        exact key net.n
      omega
    refine ⟨(TotalNLinks net true).2, ?_⟩
    simp only [TotalNLinks, if_true, heven, hS]

/-- C45, limit of the claim: a self link counts as half a link, rounded down (one self link and one
ordinary link count as 1, so do an ordinary link alone). -/
theorem C45_self_link_lost :
    let net1 := (AddAdjacency (AddAdjacency threeNodes 0 1 false false 1).2 1 0 false false 1).2
    let net2 := (AddAdjacency net1 2 2 true false 1).2
    (TotalNLinks net1 true).1 = 1 ∧ (TotalNLinks net2 true).1 = 1 := by
  decide +kernel

theorem holds_sample : ∃ g, Holds (AddAdjacency (AddAdjacency threeNodes 0 1 false false 1).2 1 0 false
    false 1).2 g ∧ CachesOK (AddAdjacency (AddAdjacency threeNodes 0 1 false false 1).2 1 0 false
    false 1).2 ∧ (∀ i j, (g i j).isSome = (g j i).isSome) ∧ (∀ i, g i i = none) := by
  have h : Rep threeNodes (fun _ _ => none) :=
    ⟨fun i _ => ⟨by simp [threeNodes], by simp [threeNodes], by simp⟩,
      fun i _ => by simp [threeNodes]⟩
  have h1 := (add_rep h (i := 0) (j := 1) (by decide) (by decide) false false 1).2.2.2
  have h2 := (add_rep h1 (i := 1) (j := 0) (by decide) (by decide) false false 1).2.2.2
  have e : ((WG.add (fun _ _ => none) 0 1 false false 1).2.add 1 0 false false 1).2
      = fun i j => if (i = 0 ∧ j = 1) ∨ (i = 1 ∧ j = 0) then some 1 else none := by
    have h0 : WG.set (fun _ _ => none) 0 1 (some 1) 1 0 = none := by decide +kernel
    funext i j
    simp only [WG.add, Nat.zero_ne_one, Nat.one_ne_zero, false_and, if_false, h0]
    unfold WG.set
    by_cases a : i = 0 ∧ j = 1 <;> by_cases b : i = 1 ∧ j = 0 <;> simp [a, b]
  rw [e] at h2
  refine ⟨_, h2.1, h2.2, ?_, ?_⟩
  · intro i j
    have : ((i = 0 ∧ j = 1) ∨ (i = 1 ∧ j = 0)) ↔ ((j = 0 ∧ i = 1) ∨ (j = 1 ∧ i = 0)) := by tauto
    simp only [this]
  · intro i
    show (if _ then _ else _) = _
    rw [if_neg (by omega)]

example : (TotalNLinks (AddAdjacency (AddAdjacency threeNodes 0 1 false false 1).2 1 0 false
    false 1).2 true).1 = 1 := by
  obtain ⟨g, h, hc, hs, hl⟩ := holds_sample
  have := (C45_total_links h hc true (fun _ => ⟨hs, hl⟩)).2
  decide +kernel

/-! ## C19 -/

/-- C19 refuted. `IsThereNode` compares addresses: with the queried label stored anywhere else than in
the buffer of a node, it answers 0, also when nodes have this label. -/
theorem C19_only_own_buffers (addr : ℕ) (nodes : List (ℕ × String)) (label : String)
    (h : ∀ p ∈ nodes, p.1 ≠ addr) :
    IsThereNode addr (nodes.map Prod.fst) = false ∧
      (label ∈ nodes.map Prod.snd → ¬ (IsThereNode addr (nodes.map Prod.fst) = true ↔
        label ∈ nodes.map Prod.snd)) := by
  have : IsThereNode addr (nodes.map Prod.fst) = false := by
    simp only [IsThereNode, List.any_map, List.any_eq_false]
    intro p hp
    simpa using h p hp
  refine ⟨this, fun hm hiff => ?_⟩
  have := hiff.2 hm
  simp_all

example : IsThereNode 500 [100, 200] = false ∧ "a" ∈ [((100 : ℕ), "a"), (200, "b")].map Prod.snd := by
  decide

/-- C19, partial. Full statement (false): `IsThereNode(label, net)` is 1 exactly when some node has
that label, wherever the string is stored. What holds: it is 1 exactly when the address passed is
the address of the label buffer of a node, and then that node has the label. -/
theorem C19_is_there_node_partial (addr : ℕ) (nodes : List (ℕ × String)) (mem : ℕ → String)
    (hmem : ∀ p ∈ nodes, mem p.1 = p.2) :
    (IsThereNode addr (nodes.map Prod.fst) = true ↔ ∃ p ∈ nodes, p.1 = addr) ∧
      (IsThereNode addr (nodes.map Prod.fst) = true → mem addr ∈ nodes.map Prod.snd) := by
  have h1 : IsThereNode addr (nodes.map Prod.fst) = true ↔ ∃ p ∈ nodes, p.1 = addr := by
    simp [IsThereNode]
  refine ⟨h1, fun h => ?_⟩
  obtain ⟨p, hp, rfl⟩ := h1.1 h
  exact List.mem_map.2 ⟨p, hp, (hmem p hp).symm⟩

example : IsThereNode 200 ([((100 : ℕ), "a"), (200, "b")].map Prod.fst) = true := by decide

end GR
