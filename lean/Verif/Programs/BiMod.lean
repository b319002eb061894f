import Verif.Programs.Groups
import Verif.Bipart.Build
import Verif.Bipart.ModProps

/-! # C155, C156: the programs bipartitemodularity and bipartitemodularity_w, in terms of labels -/

set_option linter.unusedSimpArgs false
set_option linter.unusedSectionVars false

namespace PG

open RG Finset BP

/-- The network is the one said by the lines. -/
structure SaidBi (b : LBi) (ls : List (String × String × ℚ)) : Prop where
  ok : b.bi.OK
  nodup1 : b.labels1.Nodup
  nodup2 : b.labels2.Nodup
  mem1 : b.labels1.toFinset = column1 ls
  mem2 : b.labels2.toFinset = column2 ls
  link : ∀ i j, i < b.bi.n1 → j < b.bi.n2 → ∀ w, (j, w) ∈ b.bi.neig1 i ↔ fileLink false ls (b.label1 i) (b.label2 j) = some w

theorem fileLink_turned (ls : List (String × String × ℚ)) (a b : String) : fileLink false (turned ls) b a = fileLink false ls a b := by
  unfold fileLink turned
  rw [List.filter_map, List.map_map]
  have : ((fun l : String × String × ℚ => decide (l.1 = b ∧ l.2.1 = a)) ∘ fun l => (l.2.1, l.1, l.2.2)) =
      fun l : String × String × ℚ => decide (l.1 = a ∧ l.2.1 = b) := by
    funext l; simp [and_comm, Bool.and_comm]
  rw [this]
  rfl

theorem SaidBi.swap {b : LBi} {ls : List (String × String × ℚ)} (h : SaidBi b ls) : SaidBi b.swap (turned ls) where
  ok := swap_ok h.ok
  nodup1 := h.nodup2
  nodup2 := h.nodup1
  mem1 := by
    have : column1 (turned ls) = column2 ls := by unfold column1 column2 turned; simp [Function.comp_def]
    rw [this]; exact h.mem2
  mem2 := by
    have : column2 (turned ls) = column1 ls := by unfold column1 column2 turned; simp [Function.comp_def]
    rw [this]; exact h.mem1
  link := fun i j hi hj w => by
    rw [fileLink_turned]
    exact (h.ok.sym j i w).symm.trans (h.link j i hj hi w)

theorem said_build {weighted : Bool} {strtod : String → Option ℚ} {lines : List (List String)} {ls : List (String × String × ℚ)}
    (h : List.Forall₂ (GR.LineSays weighted strtod) lines ls) :
    ∃ b, FBuildNetworkBipart lines weighted false strtod = some (some b) ∧ SaidBi b ls := by
  obtain ⟨b, h1, h2, h3, h4, h5⟩ := C90_build weighted false strtod lines ls h
  refine ⟨b, h1, h2, ?_, ?_, ?_, ?_, h5⟩
  · rw [h3]; unfold firstOf; simp [List.nodup_dedup]
  · rw [h4]; unfold firstOf; simp [List.nodup_dedup]
  · rw [h3]; unfold firstOf column1; ext; simp
  · rw [h4]; unfold firstOf column2; ext; simp

section

variable {b : LBi} {ls : List (String × String × ℚ)}

theorem inj_of_nodup {n : ℕ} {f : ℕ → String} (h : ((List.range n).map f).Nodup) {i j : ℕ} (hi : i < n) (hj : j < n) (e : f i = f j) :
    i = j := List.inj_on_of_nodup_map h (List.mem_range.2 hi) (List.mem_range.2 hj) e

theorem injOn_of_nodup {n : ℕ} {f : ℕ → String} (h : ((List.range n).map f).Nodup) : Set.InjOn f (range n : Finset ℕ) :=
  fun i hi j hj e => inj_of_nodup h (by simpa using hi) (by simpa using hj) e

theorem labels_image (n : ℕ) (f : ℕ → String) : ((List.range n).map f).toFinset = (range n).image f := by ext; simp

theorem sum_labels {n : ℕ} {f : ℕ → String} (h : ((List.range n).map f).Nodup) (F : String → ℚ) :
    ∑ x ∈ ((List.range n).map f).toFinset, F x = ∑ i ∈ range n, F (f i) := by
  rw [labels_image, sum_image (injOn_of_nodup h)]

theorem card_labels {n : ℕ} {f : ℕ → String} (h : ((List.range n).map f).Nodup) (p : String → Prop) [DecidablePred p]
    [DecidablePred fun i => p (f i)] :
    (((List.range n).map f).toFinset.filter p).card = ((range n).filter fun i => p (f i)).card := by
  rw [labels_image, filter_image, card_image_of_injOn fun i hi j hj e =>
    injOn_of_nodup h (by simp at hi ⊢; exact hi.1) (by simp at hj ⊢; exact hj.1) e]
  congr 1
  ext
  simp

theorem line_iff (a c : String) : Line ls a c ↔ ∃ w, fileLink false ls a c = some w := by
  unfold Line fileLink
  cases hf : (ls.filter fun l => l.1 = a ∧ l.2.1 = c) with
  | nil =>
    simp only [List.map_nil, reduceCtorEq, exists_false, iff_false]
    rintro ⟨l, hl, h1, h2⟩
    rw [List.filter_eq_nil_iff] at hf
    exact hf l hl (by simp [h1, h2])
  | cons l r =>
    simp only [List.map_cons, Bool.false_eq_true, if_false, Option.some.injEq, exists_eq', iff_true]
    have : l ∈ ls.filter fun l => l.1 = a ∧ l.2.1 = c := by rw [hf]; simp
    rw [List.mem_filter] at this
    exact ⟨l, this.1, by simpa using this.2⟩

theorem weight_eq (a c : String) : weight ls a c = (fileLink false ls a c).getD 0 := by
  unfold weight fileLink
  rw [← List.head?_filter]
  cases (ls.filter fun l => l.1 = a ∧ l.2.1 = c) <;> simp

theorem SaidBi.linked (h : SaidBi b ls) {i j : ℕ} (hi : i < b.bi.n1) (hj : j < b.bi.n2) :
    b.bi.Linked i j ↔ Line ls (b.label1 i) (b.label2 j) := by
  rw [line_iff]
  exact exists_congr fun w => h.link i j hi hj w

theorem SaidBi.wt (h : SaidBi b ls) {i j : ℕ} (hi : i < b.bi.n1) (hj : j < b.bi.n2) :
    b.bi.wt i j = weight ls (b.label1 i) (b.label2 j) := by
  rw [weight_eq]
  cases hw : fileLink false ls (b.label1 i) (b.label2 j) with
  | some w => exact lw_mem (h.ok.nodup1 i) ((h.link i j hi hj w).2 hw)
  | none =>
    exact lw_not_mem fun hm => by
      obtain ⟨w, hm⟩ := linked_map.2 hm
      rw [h.link i j hi hj, hw] at hm
      cases hm

theorem SaidBi.deg1 (h : SaidBi b ls) {i : ℕ} (hi : i < b.bi.n1) : BP.deg1 b.bi i = teams ls (b.label1 i) := by
  classical
  unfold BP.deg1 teams
  rw [← h.mem2]
  unfold LBi.labels2
  rw [card_labels h.nodup2]
  congr 1
  ext j
  simp only [mem_filter, mem_range]
  exact and_congr_right fun hj => h.linked hi hj

theorem SaidBi.deg2 (h : SaidBi b ls) {j : ℕ} (hj : j < b.bi.n2) : BP.deg2 b.bi j = size ls (b.label2 j) := by
  classical
  unfold BP.deg2 size
  rw [← h.mem1]
  unfold LBi.labels1
  rw [card_labels h.nodup1]
  congr 1
  ext i
  simp only [mem_filter, mem_range]
  exact and_congr_right fun hi => h.linked hi hj

theorem SaidBi.common (h : SaidBi b ls) {i i' : ℕ} (hi : i < b.bi.n1) (hi' : i' < b.bi.n1) :
    (BP.common b.bi i i').card = shared ls (b.label1 i) (b.label1 i') := by
  classical
  unfold BP.common shared
  rw [← h.mem2]
  unfold LBi.labels2
  rw [card_labels h.nodup2]
  congr 1
  ext j
  simp only [mem_filter, mem_range]
  refine and_congr_right fun hj => ?_
  rw [← h.linked hi hj, ← h.linked hi' hj]
  have : ∀ i, (∃ x ∈ b.bi.neig1 i, x.1 = j) ↔ b.bi.Linked i j := fun i =>
    ⟨fun ⟨x, hx, e⟩ => ⟨x.2, by rw [← e]; exact hx⟩, fun ⟨w, hw⟩ => ⟨_, hw, rfl⟩⟩
  rw [this, this]

/-! ## The groups -/

theorem seek_eq {label : ℕ → String} {a : String} : ∀ (todo i : ℕ),
    (∀ k, seek label a todo i = some k → i ≤ k ∧ k < i + todo ∧ label k = a) ∧
    (seek label a todo i = none ↔ ∀ k, i ≤ k → k < i + todo → label k ≠ a)
  | 0, i => ⟨fun k h => by simp [seek] at h, by simp [seek]; omega⟩
  | todo + 1, i => by
    obtain ⟨h1, h2⟩ := seek_eq (label := label) (a := a) todo (i + 1)
    unfold seek
    split_ifs with h
    · refine ⟨fun k e => ?_, ?_⟩
      · cases e; exact ⟨le_rfl, by omega, h⟩
      · simp only [reduceCtorEq, false_iff, not_forall]
        exact ⟨i, le_rfl, by omega, by simpa using h⟩
    · refine ⟨fun k e => ?_, ?_⟩
      · obtain ⟨a1, a2, a3⟩ := h1 k e
        exact ⟨by omega, by omega, a3⟩
      · rw [h2]
        constructor
        · intro hh k hk hk'
          rcases Nat.eq_or_lt_of_le hk with rfl | hk
          · exact h
          · exact hh k hk (by omega)
        · intro hh k hk hk'
          exact hh k (by omega) (by omega)

theorem mapM_some {α β : Type} {f : α → Option β} : ∀ (l : List α), (∀ x ∈ l, (f x).isSome) →
    ∃ r, l.mapM f = some r ∧ List.Forall₂ (fun x y => f x = some y) l r
  | [], _ => ⟨[], rfl, .nil⟩
  | x :: l, h => by
    obtain ⟨y, hy⟩ := Option.isSome_iff_exists.1 (h x (by simp))
    obtain ⟨r, h1, h2⟩ := mapM_some l fun z hz => h z (by simp [hz])
    exact ⟨y :: r, by rw [List.mapM_cons, hy, h1]; rfl, .cons hy h2⟩

theorem mapM_none {α β : Type} {f : α → Option β} : ∀ (l : List α), (∃ x ∈ l, f x = none) → l.mapM f = none
  | [], h => by simp at h
  | x :: l, h => by
    rw [List.mapM_cons]
    cases hx : f x with
    | none => rfl
    | some y =>
      have : l.mapM f = none := mapM_none l (by
        obtain ⟨z, hz, e⟩ := h
        rcases List.mem_cons.1 hz with rfl | hz
        · rw [hx] at e; cases e
        · exact ⟨z, hz, e⟩)
      rw [this]; rfl

/-- The groups as lists of strings. -/
def asStrings (P : List (List (List Char))) : List (List String) := P.map fun g => g.map String.ofList

theorem mapPart_ok {label : ℕ → String} {n : ℕ} {P : List (List (List Char))}
    (h : ∀ g ∈ P, ∀ l ∈ g, ∃ i < n, label i = String.ofList l) :
    ∃ part, mapPart label n P = some part ∧ part.map (fun g => g.map label) = asStrings P ∧ ∀ g ∈ part, ∀ i ∈ g, i < n := by
  have key : ∀ g : List (List Char), (∀ l ∈ g, ∃ i < n, label i = String.ofList l) →
      ∃ r, (g.mapM fun l => seek label (String.ofList l) n 0) = some r ∧ r.map label = g.map String.ofList ∧ ∀ i ∈ r, i < n := by
    intro g hg
    obtain ⟨r, h1, h2⟩ := mapM_some (f := fun l => seek label (String.ofList l) n 0) g fun l hl => by
      obtain ⟨i, hi, e⟩ := hg l hl
      by_contra hno
      rw [Option.not_isSome_iff_eq_none, (seek_eq n 0).2] at hno
      exact hno i (by omega) (by omega) e
    refine ⟨r, h1, ?_, ?_⟩
    · clear h1 hg
      induction h2 with
      | nil => rfl
      | cons hxy _ ih => rw [List.map_cons, List.map_cons, ih, ((seek_eq n 0).1 _ hxy).2.2]
    · intro i hi
      clear h1 hg
      induction h2 with
      | nil => simp at hi
      | cons hxy _ ih =>
        rcases List.mem_cons.1 hi with rfl | hi
        · have := ((seek_eq n 0).1 _ hxy).2.1; omega
        · exact ih hi
  induction P with
  | nil => exact ⟨[], rfl, rfl, by simp⟩
  | cons g P ih =>
    obtain ⟨r, k1, k2, k3⟩ := key g (h g (by simp))
    obtain ⟨part, h1, h2, h3⟩ := ih fun g hg => h g (by simp [hg])
    refine ⟨r :: part, ?_, ?_, ?_⟩
    · unfold mapPart at h1 ⊢
      rw [List.mapM_cons, k1, h1]; rfl
    · rw [List.map_cons, k2, h2]; rfl
    · intro g hg
      rcases List.mem_cons.1 hg with rfl | hg
      exacts [k3, h3 g hg]

theorem mapPart_none {label : ℕ → String} {n : ℕ} {P : List (List (List Char))}
    (h : ∃ g ∈ P, ∃ l ∈ g, ∀ i < n, label i ≠ String.ofList l) : mapPart label n P = none := by
  obtain ⟨g, hg, l, hl, hn⟩ := h
  unfold mapPart
  apply mapM_none
  refine ⟨g, hg, mapM_none _ ⟨l, hl, ?_⟩⟩
  rw [(seek_eq n 0).2]
  intro k _ hk
  exact hn k (by omega)

theorem SaidBi.mem_column (h : SaidBi b ls) (a : String) : a ∈ column1 ls ↔ ∃ i < b.bi.n1, b.label1 i = a := by
  rw [← h.mem1]; unfold LBi.labels1; simp

/-- Lookup of the labels, and what the groups of nodes say about labels. -/
theorem SaidBi.part (h : SaidBi b ls) {P : List (List (List Char))} (hP : (asStrings P).flatten.Nodup)
    (hin : ∀ a ∈ (asStrings P).flatten, a ∈ column1 ls) :
    ∃ part, mapPart b.label1 b.bi.n1 P = some part ∧ PartOK b.bi.n1 part ∧
      ∀ i j, i < b.bi.n1 → j < b.bi.n1 → (together part i j ↔ SameGroup (asStrings P) (b.label1 i) (b.label1 j)) := by
  obtain ⟨part, h1, h2, h3⟩ := mapPart_ok (label := b.label1) (n := b.bi.n1) (P := P) (by
    intro g hg l hl
    refine (h.mem_column _).1 (hin _ ?_)
    rw [List.mem_flatten]
    exact ⟨g.map String.ofList, List.mem_map.2 ⟨g, hg, rfl⟩, List.mem_map.2 ⟨l, hl, rfl⟩⟩)
  refine ⟨part, h1, ⟨?_, h3⟩, ?_⟩
  · rw [← h2, ← List.map_flatten] at hP
    exact hP.of_map _
  · intro i j hi hj
    unfold together SameGroup
    rw [← h2]
    have back : ∀ g ∈ part, ∀ k < b.bi.n1, b.label1 k ∈ g.map b.label1 → k ∈ g := by
      intro g hg k hk hm
      obtain ⟨k', hk', e⟩ := List.mem_map.1 hm
      rwa [inj_of_nodup h.nodup1 hk (h3 g hg k' hk') e.symm]
    constructor
    · rintro ⟨g, hg, a, c⟩
      exact ⟨g.map b.label1, List.mem_map.2 ⟨g, hg, rfl⟩, List.mem_map.2 ⟨i, a, rfl⟩, List.mem_map.2 ⟨j, c, rfl⟩⟩
    · rintro ⟨g', hg', a, c⟩
      obtain ⟨g, hg, rfl⟩ := List.mem_map.1 hg'
      exact ⟨g, hg, back g hg i hi a, back g hg j hj c⟩

theorem SaidBi.biMod (h : SaidBi b ls) {P : List (List String)} {part : List (List ℕ)}
    (ht : ∀ i j, i < b.bi.n1 → j < b.bi.n1 → (together part i j ↔ SameGroup P (b.label1 i) (b.label1 j))) :
    BP.biMod b.bi part = biModularity ls P := by
  classical
  unfold BP.biMod biModularity pairSum
  have e2 : ∀ F : String → ℚ, ∑ x ∈ column2 ls, F x = ∑ j ∈ range b.bi.n2, F (b.label2 j) := fun F => by
    rw [← h.mem2]; exact sum_labels h.nodup2 F
  have e1 : ∀ F : String → ℚ, ∑ x ∈ column1 ls, F x = ∑ j ∈ range b.bi.n1, F (b.label1 j) := fun F => by
    rw [← h.mem1]; exact sum_labels h.nodup1 F
  rw [e1]
  refine sum_congr rfl fun i hi => ?_
  rw [e1]
  refine sum_congr rfl fun j hj => ?_
  rw [mem_range] at hi hj
  have hc : (i ≠ j ∧ together part i j) ↔ (b.label1 i ≠ b.label1 j ∧ SameGroup P (b.label1 i) (b.label1 j)) := by
    rw [ht i j hi hj]
    exact and_congr_left fun _ => not_congr ⟨fun e => by rw [e], fun e => inj_of_nodup h.nodup1 hi hj e⟩
  rw [if_congr hc rfl rfl]
  have d2 : ∀ G : ℕ → ℚ, ∑ j ∈ range b.bi.n2, G (BP.deg2 b.bi j) = ∑ x ∈ column2 ls, G (size ls x) := fun G => by
    rw [e2]
    exact sum_congr rfl fun j hj => by rw [h.deg2 (mem_range.1 hj)]
  beta_reduce
  rw [d2 (fun m => (m : ℚ) * ((m : ℚ) - 1)), d2 (fun m => (m : ℚ)), h.deg1 hi, h.deg1 hj, h.common hi hj]

theorem SaidBi.str2 (h : SaidBi b ls) {j : ℕ} (hj : j < b.bi.n2) : ∑ i ∈ range b.bi.n1, b.bi.wt i j = strength2 ls (b.label2 j) := by
  unfold strength2
  rw [← h.mem1]
  unfold LBi.labels1
  rw [sum_labels h.nodup1]
  exact sum_congr rfl fun i hi => h.wt (mem_range.1 hi) hj

theorem SaidBi.str1 (h : SaidBi b ls) {i : ℕ} (hi : i < b.bi.n1) : ∑ j ∈ range b.bi.n2, b.bi.wt i j = strength1 ls (b.label1 i) := by
  unfold strength1
  rw [← h.mem2]
  unfold LBi.labels2
  rw [sum_labels h.nodup2]
  exact sum_congr rfl fun j hj => h.wt hi (mem_range.1 hj)

theorem SaidBi.sum_str2 (h : SaidBi b ls) (G : ℚ → ℚ) :
    ∑ j ∈ range b.bi.n2, G (∑ i ∈ range b.bi.n1, b.bi.wt i j) = ∑ x ∈ column2 ls, G (strength2 ls x) := by
  rw [← h.mem2]
  unfold LBi.labels2
  rw [sum_labels h.nodup2]
  exact sum_congr rfl fun j hj => by rw [h.str2 (mem_range.1 hj)]

theorem SaidBi.biModW (h : SaidBi b ls) {P : List (List String)} {part : List (List ℕ)}
    (ht : ∀ i j, i < b.bi.n1 → j < b.bi.n1 → (together part i j ↔ SameGroup P (b.label1 i) (b.label1 j))) :
    BP.biModW b.bi part = biModularityW ls P := by
  classical
  unfold BP.biModW biModularityW pairSum
  have e2 : ∀ F : String → ℚ, ∑ x ∈ column2 ls, F x = ∑ j ∈ range b.bi.n2, F (b.label2 j) := fun F => by
    rw [← h.mem2]; exact sum_labels h.nodup2 F
  have e1 : ∀ F : String → ℚ, ∑ x ∈ column1 ls, F x = ∑ j ∈ range b.bi.n1, F (b.label1 j) := fun F => by
    rw [← h.mem1]; exact sum_labels h.nodup1 F
  rw [e1]
  refine sum_congr rfl fun i hi => ?_
  rw [e1]
  refine sum_congr rfl fun j hj => ?_
  rw [mem_range] at hi hj
  have hc : (i ≠ j ∧ together part i j) ↔ (b.label1 i ≠ b.label1 j ∧ SameGroup P (b.label1 i) (b.label1 j)) := by
    rw [ht i j hi hj]
    exact and_congr_left fun _ => not_congr ⟨fun e => by rw [e], fun e => inj_of_nodup h.nodup1 hi hj e⟩
  rw [if_congr hc rfl rfl]
  have d : ∑ a ∈ range b.bi.n2, b.bi.wt i a * b.bi.wt j a =
      ∑ x ∈ column2 ls, weight ls (b.label1 i) x * weight ls (b.label1 j) x := by
    rw [e2]
    exact sum_congr rfl fun a ha => by rw [h.wt hi (mem_range.1 ha), h.wt hj (mem_range.1 ha)]
  beta_reduce
  rw [h.sum_str2 (fun w => w * (w - 1)), h.sum_str2 (fun w => w), h.str1 hi, h.str1 hj, d]

end

/-! ## The programs -/

/-- The two files: the network, whose lines are `ls`, and the groups `P`, in which no label is twice; every label of the groups is
one of the nodes to be grouped: those of the first column, or those of the second if the network is inverted. `ls'` are the lines
with the nodes to be grouped first. -/
structure BiFiles (weighted : Bool) (strtod : String → Option ℚ) (atoi : String → Int) (files : String → Option (List Char))
    (f fp inv : String) (ls' : List (String × String × ℚ)) (P : List (List (List Char))) : Prop where
  network : ∃ text ls, files f = some text ∧ List.Forall₂ (GR.LineSays weighted strtod) (GR.fileFields text) ls ∧
    ls' = if atoi inv = 1 then turned ls else ls
  groups : ∃ text, files fp = some text ∧ SaysGroups text P []
  nonempty : P ≠ []
  once : (asStrings P).flatten.Nodup
  known : ∀ a ∈ (asStrings P).flatten, a ∈ column1 ls'

section

variable {weighted : Bool} {strtod : String → Option ℚ} {atoi : String → Int} {files : String → Option (List Char)}
  {f fp inv : String} {ls : List (String × String × ℚ)} {P : List (List (List Char))}

theorem loadBi_ok {text : List Char} (h1 : files f = some text) (h2 : List.Forall₂ (GR.LineSays weighted strtod) (GR.fileFields text) ls) :
    ∃ b, loadBi files weighted strtod f = .ok b ∧ SaidBi b ls := by
  obtain ⟨b, k1, k2⟩ := said_build h2
  refine ⟨b, ?_, k2⟩
  unfold loadBi
  rw [h1]
  simp only [k1]

theorem run_ok (h : BiFiles weighted strtod atoi files f fp inv ls P) (rest : List String) :
    ∃ b part, SaidBi b ls ∧ PartOK b.bi.n1 part ∧
      (∀ i j, i < b.bi.n1 → j < b.bi.n1 → (together part i j ↔ SameGroup (asStrings P) (b.label1 i) (b.label1 j))) ∧
      mapPart b.label1 b.bi.n1 P = some part ∧
      bipartitemodularity weighted strtod atoi files (f :: fp :: inv :: rest) =
        .ok (if weighted then ModularityBipartWeighted b.bi part else ModularityBipart b.bi part) := by
  obtain ⟨text, ls0, h1, h2, h3⟩ := h.network
  obtain ⟨b, k1, k2⟩ := loadBi_ok h1 h2
  have hs : SaidBi (if atoi inv = 1 then b.swap else b) ls := by
    rw [h3]
    split_ifs
    exacts [k2.swap, k2]
  obtain ⟨part, p1, p2, p3⟩ := hs.part h.once h.known
  refine ⟨_, part, hs, p2, p3, p1, ?_⟩
  simp only [bipartitemodularity, k1, readPart_ok h.groups h.nonempty, Res.bind_ok, p1, Res.ofOption]
  rfl

/-- **C155**: the program bipartitemodularity prints the bipartite modularity of the groups of labels. The degrees must not be too
large for products of `int`s, and some team must have two members. -/
theorem C155_bipartitemodularity (h : BiFiles false strtod atoi files f fp inv ls P) (h1 : ∀ a ∈ column1 ls, teams ls a ≤ 46340)
    (h2 : ∀ b ∈ column2 ls, size ls b ≤ 65535) (hd : ∃ b ∈ column2 ls, 2 ≤ size ls b) (rest : List String) :
    bipartitemodularity false strtod atoi files (f :: fp :: inv :: rest) = .ok (some (biModularity ls (asStrings P))) := by
  obtain ⟨b, part, hs, p2, p3, _, hr⟩ := run_ok h rest
  have m2 : ∀ {x}, x ∈ column2 ls ↔ ∃ j < b.bi.n2, b.label2 j = x := by
    intro x
    rw [← hs.mem2]; unfold LBi.labels2; simp
  rw [hr, if_neg (by simp), C60_formula hs.ok p2, hs.biMod p3]
  · intro i
    by_cases hi : i < b.bi.n1
    · rw [hs.deg1 hi]
      exact h1 _ ((hs.mem_column _).2 ⟨i, hi, rfl⟩)
    · classical
      have : BP.deg1 b.bi i = 0 := by
        unfold BP.deg1
        rw [card_eq_zero, filter_eq_empty_iff]
        rintro j _ ⟨w, hw⟩
        exact hi (hs.ok.range2 j _ ((hs.ok.sym i j w).1 hw))
      omega
  · intro j
    by_cases hj : j < b.bi.n2
    · rw [hs.deg2 hj]
      exact h2 _ (m2.2 ⟨j, hj, rfl⟩)
    · classical
      have : BP.deg2 b.bi j = 0 := by
        unfold BP.deg2
        rw [card_eq_zero, filter_eq_empty_iff]
        rintro i _ ⟨w, hw⟩
        exact hj (hs.ok.range1 i _ hw)
      omega
  · obtain ⟨x, hx, h2⟩ := hd
    obtain ⟨j, hj, rfl⟩ := m2.1 hx
    exact ⟨j, hj, by rw [hs.deg2 hj]; exact h2⟩

/-- **C156**: the program bipartitemodularity_w prints `biModularityW`, which is the bipartite modularity only for weights one. -/
theorem C156_weighted (h : BiFiles true strtod atoi files f fp inv ls P) (h1 : ∑ b ∈ column2 ls, strength2 ls b ≠ 0)
    (h2 : ∑ b ∈ column2 ls, strength2 ls b * (strength2 ls b - 1) ≠ 0) (rest : List String) :
    bipartitemodularity true strtod atoi files (f :: fp :: inv :: rest) = .ok (some (biModularityW ls (asStrings P))) := by
  obtain ⟨b, part, hs, p2, p3, _, hr⟩ := run_ok h rest
  rw [hr, if_pos rfl, C63_weighted_partial hs.ok p2, hs.biModW p3]
  · rw [hs.sum_str2 fun w => w]; exact h1
  · rw [hs.sum_str2 fun w => w * (w - 1)]; exact h2

/-- If all weights are one, both programs print the same. -/
theorem C156_unit_weights (h : ∀ l ∈ ls, l.2.2 = 1) (P : List (List String)) : biModularityW ls P = biModularity ls P := by
  classical
  have hw : ∀ a b, weight ls a b = if Line ls a b then 1 else 0 := by
    intro a b
    unfold weight Line
    cases hf : ls.find? fun l => l.1 = a ∧ l.2.1 = b with
    | none =>
      rw [List.find?_eq_none] at hf
      rw [if_neg]
      · rfl
      · rintro ⟨l, hl, h1, h2⟩
        exact hf l hl (by simp [h1, h2])
    | some l =>
      have h1 := List.mem_of_find?_eq_some hf
      have h2 := List.find?_some hf
      rw [if_pos ⟨l, h1, by simpa using h2⟩]
      exact h l h1
  have s1 : ∀ a, strength1 ls a = teams ls a := by
    intro a
    unfold strength1 teams
    simp only [hw, sum_boole]
  have s2 : ∀ b, strength2 ls b = size ls b := by
    intro b
    unfold strength2 size
    simp only [hw, sum_boole]
  have s3 : ∀ a a', ∑ b ∈ column2 ls, weight ls a b * weight ls a' b = shared ls a a' := by
    intro a a'
    unfold shared
    simp only [hw, ite_mul, one_mul, zero_mul, ← ite_and, sum_boole]
  unfold biModularityW biModularity
  simp only [s1, s2, s3]

theorem foldlM_none {α : Type} {g : ℚ → α → Option ℚ} : ∀ (l : List α) (s : ℚ), (∃ x ∈ l, ∀ s, g s x = none) → l.foldlM g s = none
  | [], s, h => by simp at h
  | x :: l, s, h => by
    rw [List.foldlM_cons]
    cases hx : g s x with
    | none => rfl
    | some s' =>
      refine foldlM_none l s' ?_
      obtain ⟨y, hy, e⟩ := h
      rcases List.mem_cons.1 hy with rfl | hy
      · rw [e] at hx; cases hx
      · exact ⟨y, hy, e⟩

/-- If no team has two members but some group has two, the program divides by zero. -/
theorem C155_no_pairs (h : BiFiles false strtod atoi files f fp inv ls P) (h1 : ∀ b ∈ column2 ls, size ls b ≤ 1)
    (h2 : ∃ g ∈ P, 2 ≤ g.length) (rest : List String) :
    bipartitemodularity false strtod atoi files (f :: fp :: inv :: rest) = .ok none := by
  obtain ⟨b, part, hs, p2, p3, p4, hr⟩ := run_ok h rest
  rw [hr, if_neg (by simp)]
  congr 1
  have hd : ∀ j, (b.bi.neig2 j).length ≤ 1 := by
    intro j
    rw [deg2_eq hs.ok]
    by_cases hj : j < b.bi.n2
    · rw [hs.deg2 hj]
      exact h1 _ (by rw [← hs.mem2]; unfold LBi.labels2; simp; exact ⟨j, hj, rfl⟩)
    · classical
      have : BP.deg2 b.bi j = 0 := by
        unfold BP.deg2
        rw [card_eq_zero, filter_eq_empty_iff]
        rintro i _ ⟨w, hw⟩
        exact hj (hs.ok.range1 i _ hw)
      omega
  have hsum : (List.range b.bi.n2).foldl (fun s a => s + (umul (b.bi.neig2 a).length (b.bi.neig2 a).length : ℚ)) 0 =
      (List.range b.bi.n2).foldl (fun s a => s + ((b.bi.neig2 a).length : ℚ)) 0 := by
    congr 1
    funext s a
    congr 2
    have := hd a
    interval_cases (b.bi.neig2 a).length <;> rfl
  obtain ⟨g, hg, hg2⟩ : ∃ g ∈ part, 2 ≤ g.length := by
    obtain ⟨g, hg, hl⟩ := h2
    obtain ⟨part', q1, q2, _⟩ := mapPart_ok (label := b.label1) (n := b.bi.n1) (P := P) (by
      intro g hg l hl
      refine (hs.mem_column _).1 (h.known _ ?_)
      rw [List.mem_flatten]
      exact ⟨g.map String.ofList, List.mem_map.2 ⟨g, hg, rfl⟩, List.mem_map.2 ⟨l, hl, rfl⟩⟩)
    rw [p4, Option.some.injEq] at q1
    subst q1
    have : g.map String.ofList ∈ part.map fun g => g.map b.label1 := by
      rw [q2]; exact List.mem_map.2 ⟨g, hg, rfl⟩
    obtain ⟨g', hg', e⟩ := List.mem_map.1 this
    refine ⟨g', hg', ?_⟩
    have := congrArg List.length e
    simp at this
    omega
  obtain ⟨p, hp⟩ : ∃ p, p ∈ upper g := by
    match g, hg2 with
    | x :: y :: g, _ => exact ⟨(x, y), by simp [upper]⟩
  unfold ModularityBipart
  simp only [Option.bind_eq_bind, hsum, sub_self]
  unfold pairLoop
  rw [foldlM_none]
  · rfl
  · refine ⟨g, hg, fun s => foldlM_none _ _ ⟨p, hp, fun s => ?_⟩⟩
    simp [quot]

/-- What ends badly: fewer than three arguments; a file that is not there; a line of the network without enough fields; a label of
the groups that is no node. -/
theorem C155_crash (weighted : Bool) (strtod : String → Option ℚ) (atoi : String → Int) (files : String → Option (List Char)) :
    (∀ argv, argv.length < 3 → bipartitemodularity weighted strtod atoi files argv = .ub) ∧
    (∀ f argv, files f = none → bipartitemodularity weighted strtod atoi files (f :: argv) = .ub) ∧
    (∀ f argv text lines toks rest ls, files f = some text → GR.fileFields text = lines ++ toks :: rest →
      List.Forall₂ (GR.LineSays weighted strtod) lines ls → GR.LineBad weighted strtod toks →
      bipartitemodularity weighted strtod atoi files (f :: argv) = .ub) ∧
    (∀ f fp inv argv text ls P textP, files f = some text → List.Forall₂ (GR.LineSays weighted strtod) (GR.fileFields text) ls →
      files fp = some textP → SaysGroups textP P [] →
      (∃ a ∈ (asStrings P).flatten, a ∉ column1 (if atoi inv = 1 then turned ls else ls)) →
      bipartitemodularity weighted strtod atoi files (f :: fp :: inv :: argv) = .ub) := by
  have hload : ∀ f, loadBi files weighted strtod f = .ub → ∀ argv, bipartitemodularity weighted strtod atoi files (f :: argv) = .ub := by
    intro f hf argv
    match argv with
    | [] => rfl
    | [_] => rfl
    | fp :: inv :: argv => simp only [bipartitemodularity, hf]; rfl
  refine ⟨?_, ?_, ?_, ?_⟩
  · intro argv h
    match argv, h with
    | [], _ => rfl
    | [_], _ => rfl
    | [_, _], _ => rfl
  · intro f argv h
    exact hload f (by unfold loadBi; rw [h]) argv
  · intro f argv text lines toks rest ls h1 h2 h3 h4
    exact hload f (by unfold loadBi; simp only [h1, h2, C90_bad_line weighted false strtod lines rest ls h3 toks h4]) argv
  · intro f fp inv argv text ls P textP h1 h2 h3 h4 ⟨a, ha, hno⟩
    obtain ⟨b, k1, k2⟩ := loadBi_ok h1 h2
    have hs : SaidBi (if atoi inv = 1 then b.swap else b) (if atoi inv = 1 then turned ls else ls) := by
      split_ifs
      exacts [k2.swap, k2]
    have hP : P ≠ [] := by
      rintro rfl
      simp [asStrings] at ha
    have hn : mapPart (if atoi inv = 1 then b.swap else b).label1 (if atoi inv = 1 then b.swap else b).bi.n1 P = none := by
      apply mapPart_none
      rw [List.mem_flatten] at ha
      obtain ⟨g', hg', hm⟩ := ha
      obtain ⟨g, hg, rfl⟩ := List.mem_map.1 hg'
      obtain ⟨l, hl, rfl⟩ := List.mem_map.1 hm
      exact ⟨g, hg, l, hl, fun i hi e => hno ((hs.mem_column _).2 ⟨i, hi, e⟩)⟩
    simp only [bipartitemodularity, k1, readPart_ok ⟨_, h3, h4⟩ hP, Res.bind_ok, hn, Res.ofOption]
    rfl

end

/-! ## Examples -/

/-- Two teams, `x` with `a` and `b`, `y` with `b` and `c`. -/
def textB : List Char := "a x\nb x 7\n b\ty\nc y\n".toList

/-- Its lines. -/
def linesB : List (String × String × ℚ) := [("a", "x", 1), ("b", "x", 1), ("b", "y", 1), ("c", "y", 1)]

theorem fieldsB : GR.fileFields textB = [["a", "x"], ["b", "x", "7"], ["b", "y"], ["c", "y"]] := by decide

theorem saysB (strtod : String → Option ℚ) : List.Forall₂ (GR.LineSays false strtod) (GR.fileFields textB) linesB := by
  rw [fieldsB]
  unfold linesB
  refine .cons ?_ (.cons ?_ (.cons ?_ (.cons ?_ .nil))) <;>
    exact ⟨by decide, by decide, by simp⟩

/-- The files: groups of the members, or of the teams. -/
def filesB (name : String) : Option (List Char) :=
  if name = "net" then some textB else if name = "members" then some "a b /// c ///".toList
  else if name = "teams" then some "x y ///".toList else none

/-- Only the argument 1 inverts. -/
def atoiB (s : String) : Int := if s = "1" then 1 else 0

theorem teams_le (ls : List (String × String × ℚ)) (a : String) : teams ls a ≤ ls.length := by
  classical
  exact (card_le_card (filter_subset _ _)).trans ((List.toFinset_card_le _).trans (by simp))

theorem size_le (ls : List (String × String × ℚ)) (a : String) : size ls a ≤ ls.length := by
  classical
  exact (card_le_card (filter_subset _ _)).trans ((List.toFinset_card_le _).trans (by simp))

theorem two_le_size {ls : List (String × String × ℚ)} {a a' b : String} (h : Line ls a b) (h' : Line ls a' b) (hne : a ≠ a') :
    2 ≤ size ls b := by
  classical
  rw [← card_pair hne]
  unfold size
  apply card_le_card
  have hc : ∀ a, Line ls a b → a ∈ column1 ls := by
    rintro a ⟨l, hl, rfl, _⟩
    unfold column1
    simp only [List.mem_toFinset, List.mem_map]
    exact ⟨l, hl, rfl⟩
  intro x hx
  rw [mem_filter]
  rcases mem_insert.1 hx with rfl | hx
  · exact ⟨hc _ h, h⟩
  · rw [mem_singleton] at hx
    subst hx
    exact ⟨hc _ h', h'⟩

theorem filesB_members (strtod : String → Option ℚ) :
    BiFiles false strtod atoiB filesB "net" "members" "0" linesB [["a".toList, "b".toList], ["c".toList]] :=
  ⟨⟨textB, linesB, by decide, saysB strtod, by simp [atoiB]⟩, ⟨"a b /// c ///".toList, by decide, ⟨by decide, by decide, by decide⟩⟩, by simp,
    by decide, by decide⟩

/-- The members in groups. -/
example (strtod : String → Option ℚ) : bipartitemodularity false strtod atoiB filesB ["net", "members", "0"] =
    .ok (some (biModularity linesB [["a", "b"], ["c"]])) :=
  C155_bipartitemodularity (filesB_members strtod) (fun a _ => (teams_le _ a).trans (by decide)) (fun a _ => (size_le _ a).trans (by decide))
    ⟨"x", by decide, two_le_size (a := "a") (a' := "b") ⟨("a", "x", 1), by simp [linesB], rfl, rfl⟩
      ⟨("b", "x", 1), by simp [linesB], rfl, rfl⟩ (by decide)⟩ []

/-- The teams in groups. -/
example (strtod : String → Option ℚ) : bipartitemodularity false strtod atoiB filesB ["net", "teams", "1"] =
    .ok (some (biModularity (turned linesB) [["x", "y"]])) :=
  C155_bipartitemodularity (P := [["x".toList, "y".toList]])
    ⟨⟨textB, linesB, by decide, saysB strtod, by simp [atoiB]⟩, ⟨"x y ///".toList, by decide, ⟨by decide, by decide, by decide⟩⟩, by simp,
      by decide, by decide⟩ (fun a _ => (teams_le _ a).trans (by decide)) (fun a _ => (size_le _ a).trans (by decide))
    ⟨"b", by decide, two_le_size (a := "x") (a' := "y") ⟨("x", "b", 1), by simp [linesB, turned], rfl, rfl⟩
      ⟨("y", "b", 1), by simp [linesB, turned], rfl, rfl⟩ (by decide)⟩ []

/-- Groups of teams when the members are expected. -/
example (strtod : String → Option ℚ) : bipartitemodularity false strtod atoiB filesB ["net", "teams", "0"] = .ub :=
  (C155_crash false strtod atoiB filesB).2.2.2 "net" "teams" "0" [] textB linesB [["x".toList, "y".toList]] "x y ///".toList (by decide)
    (saysB strtod) (by decide) ⟨by decide, by decide, by decide⟩ ⟨"x", by decide, by decide⟩

/-- One team each. -/
example (strtod : String → Option ℚ) : bipartitemodularity false strtod atoiB
    (fun name => if name = "net" then some "a x\nb y\n".toList else some "a b ///".toList) ["net", "groups", "0"] = .ok none := by
  refine C155_no_pairs (ls := [("a", "x", 1), ("b", "y", 1)]) (P := [["a".toList, "b".toList]])
    ⟨⟨_, [("a", "x", 1), ("b", "y", 1)], if_pos rfl, ?_, by simp [atoiB]⟩, ⟨"a b ///".toList, by decide, ⟨by decide, by decide, by decide⟩⟩, by simp,
      by decide, by decide⟩ ?_ ⟨_, by simp; rfl, by decide⟩ []
  · have : GR.fileFields "a x\nb y\n".toList = [["a", "x"], ["b", "y"]] := by decide
    rw [this]
    exact .cons ⟨by decide, by decide, by simp⟩ (.cons ⟨by decide, by decide, by simp⟩ .nil)
  · intro b hb
    classical
    unfold size
    rw [card_le_one]
    intro a ha a' ha'
    obtain ⟨l, hl, rfl, hb1⟩ := (mem_filter.1 ha).2
    obtain ⟨l', hl', rfl, hb2⟩ := (mem_filter.1 ha').2
    simp only [List.mem_cons, List.not_mem_nil, or_false] at hl hl'
    rcases hl with rfl | rfl <;> rcases hl' with rfl | rfl <;> first | rfl | (simp only at hb1 hb2; rw [← hb2] at hb1; exact absurd hb1 (by decide))

/-- Weights. -/
example : bipartitemodularity true (fun s => if s = "2" then some 2 else none) atoiB
    (fun name => if name = "net" then some "a x 2\nb x 2\n".toList else some "a b ///".toList) ["net", "groups", "0"] =
    .ok (some (biModularityW [("a", "x", 2), ("b", "x", 2)] [["a", "b"]])) := by
  refine C156_weighted (P := [["a".toList, "b".toList]])
    ⟨⟨_, [("a", "x", 2), ("b", "x", 2)], if_pos rfl, ?_, by simp [atoiB]⟩, ⟨"a b ///".toList, by decide, ⟨by decide, by decide, by decide⟩⟩, by simp,
      by decide, by decide⟩ ?_ ?_ []
  · have : GR.fileFields "a x 2\nb x 2\n".toList = [["a", "x", "2"], ["b", "x", "2"]] := by decide
    rw [this]
    exact .cons ⟨by decide, by decide, by simp⟩ (.cons ⟨by decide, by decide, by simp⟩ .nil)
  · simp [column1, column2, strength2, weight]
  · simp [column1, column2, strength2, weight]
    norm_num

end PG
