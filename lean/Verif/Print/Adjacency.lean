import Verif.Print.Model
import Verif.Graph.Sum

/-!
# C117: a network written by `FPrintNetAdjacencyList` and read by `FBuildNetwork`
-/

set_option linter.unusedSimpArgs false

namespace GR

open FIO (isSpace)

/-- What `%s` can read back: at least one character, no white space. -/
def Word (s : String) : Prop := s.toList ≠ [] ∧ ∀ c ∈ s.toList, isSpace c = false

theorem newline_space : isSpace '\n' = true := by decide

theorem lines_snoc (l s : List Char) : ∀ cur, (∀ c ∈ l, c ≠ '\n') → linesFrom cur (l ++ '\n' :: s) = (cur ++ l) :: linesFrom [] s := by
  induction l with
  | nil => intro cur _; simp [linesFrom]
  | cons c l ih =>
    intro cur h
    have hc : c ≠ '\n' := h c (by simp)
    rw [List.cons_append, linesFrom, if_neg hc, ih _ fun c hc => h c (by simp [hc])]
    simp

theorem words_snoc (w s : List Char) : ∀ cur, cur ++ w ≠ [] → (∀ c ∈ w, isSpace c = false) →
    wordsFrom cur (w ++ ' ' :: s) = (cur ++ w) :: wordsFrom [] s := by
  induction w with
  | nil =>
    intro cur h _
    have hs : isSpace ' ' = true := by decide
    have : cur ≠ [] := by simpa using h
    simp [wordsFrom, hs, this]
  | cons c w ih =>
    intro cur _ h
    have hc := h c (by simp)
    rw [List.cons_append, wordsFrom, if_neg (by simp [hc]), ih _ (by simp) fun c hc => h c (by simp [hc])]
    simp

theorem words_last (w : List Char) : ∀ cur, cur ++ w ≠ [] → (∀ c ∈ w, isSpace c = false) →
    wordsFrom cur w = [cur ++ w] := by
  induction w with
  | nil =>
    intro cur h _
    have : cur ≠ [] := by simpa using h
    simp [wordsFrom, this]
  | cons c w ih =>
    intro cur _ h
    have hc := h c (by simp)
    rw [wordsFrom, if_neg (by simp [hc]), ih _ (by simp) fun c hc => h c (by simp [hc])]
    simp

/-- Fields of the line of a link. -/
def linkFields (showG : ℚ → String) (weighted : Bool) (l : String × String × ℚ) : List String :=
  if weighted then [l.1, l.2.1, showG l.2.2] else [l.1, l.2.1]

theorem no_newline {s : String} (h : Word s) : ∀ c ∈ s.toList, c ≠ '\n' := by
  rintro c hc rfl
  have := h.2 _ hc
  rw [newline_space] at this
  cases this

theorem fields_line {showG : ℚ → String} {weighted : Bool} (hg : weighted = true → ∀ w, Word (showG w)) {a b : String} (ha : Word a)
    (hb : Word b) (w : ℚ) (s : List Char) :
    fileFields (linkLine showG weighted a b w ++ s) = linkFields showG weighted (a, b, w) :: fileFields s := by
  have sp : (' ' : Char) ≠ '\n' := by decide
  unfold fileFields
  cases weighted with
  | true =>
    have hg := hg rfl w
    have e : linkLine showG true a b w ++ s = (a.toList ++ ' ' :: (b.toList ++ ' ' :: (showG w).toList)) ++ '\n' :: s := by
      simp [linkLine]
    rw [e, lines_snoc]
    · rw [List.nil_append, List.map_cons, words_snoc _ _ _ (by simpa using ha.1) ha.2,
        words_snoc _ _ _ (by simpa using hb.1) hb.2, words_last _ _ (by simpa using hg.1) hg.2]
      simp [linkFields]
    · intro c hc
      simp only [List.mem_append, List.mem_cons] at hc
      rcases hc with hc | rfl | hc | rfl | hc
      · exact no_newline ha c hc
      · exact sp
      · exact no_newline hb c hc
      · exact sp
      · exact no_newline hg c hc
  | false =>
    have e : linkLine showG false a b w ++ s = (a.toList ++ ' ' :: b.toList) ++ '\n' :: s := by simp [linkLine]
    rw [e, lines_snoc]
    · rw [List.nil_append, List.map_cons, words_snoc _ _ _ (by simpa using ha.1) ha.2,
        words_last _ _ (by simpa using hb.1) hb.2]
      simp [linkFields]
    · intro c hc
      simp only [List.mem_append, List.mem_cons] at hc
      rcases hc with hc | rfl | hc
      · exact no_newline ha c hc
      · exact sp
      · exact no_newline hb c hc

theorem lines_last : ∀ (s cur : List Char), cur ++ s ≠ [] → (cur ++ s).getLast? ≠ some '\n' →
    linesFrom cur (s ++ ['\n']) = linesFrom cur s
  | [], cur, h, _ => by
    rw [List.append_nil] at h
    simp [linesFrom, h]
  | [c], cur, h, hl => by
    have hc : c ≠ '\n' := by rintro rfl; simp at hl
    simp [linesFrom, hc]
  | c :: d :: s, cur, h, hl => by
    rw [List.cons_append, linesFrom, linesFrom]
    split_ifs
    · rw [lines_last (d :: s) [] (by simp) (by simpa using hl)]
    · rw [lines_last (d :: s) (cur ++ [c]) (by simp) (by simpa using hl)]

/-- **C117**, for files not written by the program: the last line counts whether or not it is ended. -/
theorem C117_last_line {s : List Char} (h : s ≠ []) (hl : s.getLast? ≠ some '\n') : fileFields (s ++ ['\n']) = fileFields s := by
  unfold fileFields
  rw [lines_last s [] (by simpa using h) (by simpa using hl)]

theorem fields_nil : fileFields [] = [] := by simp [fileFields, linesFrom]

example : fileFields "a b".toList = [["a", "b"]] := by decide +kernel

/-! ## The links of a network as a list -/

/-- Links of a row, by labels. -/
def rowEntries (net : Net) (i : ℕ) (ls : List Link) : List (String × String × ℚ) :=
  ls.filterMap fun l => l.ref.map fun j => (net.label i, net.label j, l.weight)

/-- Links of the network, by labels. -/
def entries (net : Net) : List (String × String × ℚ) := (List.range net.n).flatMap fun i => rowEntries net i (net.neig i)

/-- Links that are printed. -/
def printed (sym : Bool) (e : String × String × ℚ) : Bool := decide (sym = false ∨ e.1 ≤ e.2.1)

theorem printRow_fields {showG : ℚ → String} {net : Net} {weighted sym : Bool} (hg : weighted = true → ∀ w, Word (showG w))
    (hw : ∀ i < net.n, Word (net.label i)) {i : ℕ} (hi : i < net.n) : ∀ (ls : List Link),
    (∀ l ∈ ls, ∃ j, j < net.n ∧ l.ref = some j) → ∃ s, printRow showG net weighted sym i ls = some s ∧
      ∀ t, fileFields (s ++ t) = ((rowEntries net i ls).filter (printed sym)).map (linkFields showG weighted) ++ fileFields t
  | [], _ => ⟨[], rfl, fun t => by simp [rowEntries]⟩
  | l :: ls, h => by
    obtain ⟨j, hj, e⟩ := h l (by simp)
    obtain ⟨s, hs, hf⟩ := printRow_fields (sym := sym) hg hw hi ls fun l hl => h l (by simp [hl])
    have er : rowEntries net i (l :: ls) = (net.label i, net.label j, l.weight) :: rowEntries net i ls := by
      simp [rowEntries, e]
    by_cases hp : sym = false ∨ net.label i ≤ net.label j
    · refine ⟨linkLine showG weighted (net.label i) (net.label j) l.weight ++ s, ?_, ?_⟩
      · simp only [printRow, e, hs, Option.bind_eq_bind, Option.bind_some, Option.pure_def, if_pos hp]
      · intro t
        rw [List.append_assoc, fields_line hg (hw i hi) (hw j hj), hf, er,
          List.filter_cons_of_pos (by simpa [printed] using hp)]
        rfl
    · refine ⟨s, ?_, ?_⟩
      · simp only [printRow, e, hs, Option.bind_eq_bind, Option.bind_some, Option.pure_def, if_neg hp]
      · intro t
        rw [hf, er, List.filter_cons_of_neg (by simpa [printed] using hp)]

theorem printRows_fields {showG : ℚ → String} {net : Net} {g : WG} (h : Holds net g) {weighted sym : Bool}
    (hg : weighted = true → ∀ w, Word (showG w)) (hw : ∀ i < net.n, Word (net.label i)) : ∀ (is : List ℕ), (∀ i ∈ is, i < net.n) →
    ∃ s, printRows showG net weighted sym is = some s ∧ fileFields s =
      ((is.flatMap fun i => rowEntries net i (net.neig i)).filter (printed sym)).map (linkFields showG weighted)
  | [], _ => ⟨[], rfl, by simp [fields_nil]⟩
  | i :: is, hi => by
    have hi' := hi i (by simp)
    obtain ⟨s, hs, hf⟩ := printRow_fields (showG := showG) (sym := sym) hg hw hi' (net.neig i) fun l hl => by
      obtain ⟨j, hj, e, _⟩ := (h i hi').2.1 l hl
      exact ⟨j, hj, e⟩
    obtain ⟨t, ht, hft⟩ := printRows_fields (showG := showG) h (sym := sym) hg hw is fun i hx => hi i (by simp [hx])
    refine ⟨s ++ t, by simp [printRows, hs, ht], ?_⟩
    rw [hf, hft]
    simp

/-! ## Directed entries with distinct ends -/

/-- The two ends of an entry. -/
def ends2 (e : String × String × ℚ) : String × String := (e.1, e.2.1)

theorem stated_unique {es : List (String × String × ℚ)} (hn : (es.map ends2).Nodup) {a b : String} {w : ℚ}
    (h : (a, b, w) ∈ es) : stated es a b = [w] := by
  induction es with
  | nil => cases h
  | cons e es ih =>
    rw [List.map_cons, List.nodup_cons] at hn
    have hz : ∀ es : List (String × String × ℚ), (a, b) ∉ es.map ends2 → stated es a b = [] := by
      intro es h
      unfold stated
      rw [List.flatMap_eq_nil_iff]
      intro x hx
      rw [if_neg]
      rintro ⟨rfl, rfl⟩
      exact h (List.mem_map.2 ⟨x, hx, rfl⟩)
    have e1 : stated (e :: es) a b = (if e.1 = a ∧ e.2.1 = b then [e.2.2] else []) ++ stated es a b := rfl
    rcases List.mem_cons.1 h with rfl | h
    · rw [e1, hz es hn.1]; simp
    · rw [e1, ih hn.2 h, if_neg, List.nil_append]
      rintro ⟨rfl, rfl⟩
      exact hn.1 (List.mem_map.2 ⟨_, h, rfl⟩)

theorem stated_mem {es : List (String × String × ℚ)} {a b : String} {w : ℚ} (h : w ∈ stated es a b) : (a, b, w) ∈ es := by
  obtain ⟨e, he, hw⟩ := List.mem_flatMap.1 h
  split_ifs at hw with hc
  · obtain ⟨rfl, rfl⟩ := hc
    obtain rfl := List.mem_singleton.1 hw
    exact he
  · cases hw

theorem weight_iff {es : List (String × String × ℚ)} (hn : (es.map ends2).Nodup) (auto add : Bool) (a b : String) (w : ℚ) :
    weightOf auto add es a b = some w ↔ (a = b → auto = true) ∧ (a, b, w) ∈ es := by
  unfold weightOf
  by_cases hc : a = b ∧ auto = false
  · rw [if_pos hc]
    constructor
    · intro h; cases h
    · rintro ⟨h, _⟩
      rw [h hc.1] at hc
      cases hc.2
  · rw [if_neg hc]
    have hc' : a = b → auto = true := fun e => by
      cases auto
      · exact absurd ⟨e, rfl⟩ hc
      · rfl
    constructor
    · intro h
      refine ⟨hc', ?_⟩
      cases hs : stated es a b with
      | nil => rw [hs] at h; cases h
      | cons v vs =>
        have hv : (a, b, v) ∈ es := stated_mem (by rw [hs]; simp)
        have e := stated_unique hn hv
        rw [hs] at h e
        obtain ⟨-, rfl⟩ := List.cons.inj e
        cases add <;> simp at h <;> rw [← h] <;> exact hv
    · rintro ⟨_, h⟩
      rw [stated_unique hn h]
      cases add <;> simp

theorem mem_entries {net : Net} {g : WG} (h : Holds net g) {a b : String} {w : ℚ} :
    (a, b, w) ∈ entries net ↔ HasLink net a b w := by
  unfold entries rowEntries
  simp only [List.mem_flatMap, List.mem_range, List.mem_filterMap, Option.map_eq_some_iff]
  constructor
  · rintro ⟨i, hi, l, hl, j, hj, e⟩
    obtain ⟨k, hk, ek, _⟩ := (h i hi).2.1 l hl
    rw [hj] at ek
    cases ek
    simp only [Prod.mk.injEq] at e
    exact ⟨i, j, l, hi, hk, e.1, e.2.1, hl, hj, e.2.2⟩
  · rintro ⟨i, j, l, hi, hj, rfl, rfl, hl, hr, rfl⟩
    exact ⟨i, hi, l, hl, j, hr, rfl⟩

theorem entries_nodup {net : Net} {g : WG} (h : Holds net g) (hd : Distinct net) : ((entries net).map ends2).Nodup := by
  unfold entries
  rw [List.map_flatMap]
  refine List.nodup_flatMap.2 ⟨?_, ?_⟩
  · intro i hi
    have hi := List.mem_range.1 hi
    have hn := (h i hi).1
    have hr : ∀ l ∈ net.neig i, ∃ j, j < net.n ∧ l.ref = some j := fun l hl => by
      obtain ⟨j, hj, e, _⟩ := (h i hi).2.1 l hl
      exact ⟨j, hj, e⟩
    generalize net.neig i = ls at hn hr
    induction ls with
    | nil => simp [rowEntries]
    | cons l ls ih =>
      obtain ⟨j, hj, e⟩ := hr l (by simp)
      rw [List.map_cons, List.nodup_cons] at hn
      have er : rowEntries net i (l :: ls) = (net.label i, net.label j, l.weight) :: rowEntries net i ls := by
        simp [rowEntries, e]
      rw [er, List.map_cons, List.nodup_cons]
      refine ⟨?_, ih hn.2 fun l hl => hr l (by simp [hl])⟩
      intro hm
      obtain ⟨x, hx, ex⟩ := List.mem_map.1 hm
      unfold rowEntries at hx
      obtain ⟨l', hl', e'⟩ := List.mem_filterMap.1 hx
      obtain ⟨k, hk, e'⟩ := Option.map_eq_some_iff.1 e'
      subst e'
      obtain ⟨k', hk', ek'⟩ := hr l' (by simp [hl'])
      rw [hk] at ek'
      cases ek'
      have := hd k j hk' hj (Prod.mk.inj ex).2
      subst this
      exact hn.1 (List.mem_map.2 ⟨l', hl', by rw [hk, e]⟩)
  · refine List.Pairwise.imp_of_mem ?_ (List.nodup_range)
    intro i k hi hk hne x hx hy
    obtain ⟨e1, h1, rfl⟩ := List.mem_map.1 hx
    obtain ⟨e2, h2, e3⟩ := List.mem_map.1 hy
    unfold rowEntries at h1 h2
    obtain ⟨l1, _, h1⟩ := List.mem_filterMap.1 h1
    obtain ⟨l2, _, h2⟩ := List.mem_filterMap.1 h2
    obtain ⟨j1, _, rfl⟩ := Option.map_eq_some_iff.1 h1
    obtain ⟨j2, _, rfl⟩ := Option.map_eq_some_iff.1 h2
    exact hne (hd i k (List.mem_range.1 hi) (List.mem_range.1 hk) (Prod.mk.inj e3).1.symm)

/-- Entries after the weights have passed through the file. -/
def reread (val : ℚ → ℚ) (e : String × String × ℚ) : String × String × ℚ := (e.1, e.2.1, val e.2.2)

theorem expand_nodup {ls : List (String × String × ℚ)} (hn : (ls.map ends2).Nodup) (sym : Bool)
    (ho : sym = true → ∀ e ∈ ls, e.1 ≤ e.2.1) : ((ls.flatMap (expand sym)).map ends2).Nodup := by
  cases sym with
  | false =>
    have : ls.flatMap (expand false) = ls := by
      have : expand false = fun l => [l] := by funext l; simp [expand]
      rw [this]; simp
    rw [this]; exact hn
  | true =>
    have ho := ho rfl
    rw [List.map_flatMap]
    refine List.nodup_flatMap.2 ⟨?_, ?_⟩
    · intro e _
      unfold expand
      split_ifs with h
      · simp [ends2, h.2]
      · simp
    · have hp := List.pairwise_map.1 hn
      refine List.Pairwise.imp_of_mem ?_ hp
      intro x y hx hy hne z hz1 hz2
      have hx := ho x hx
      have hy := ho y hy
      have key : ∀ {e : String × String × ℚ}, z ∈ (expand true e).map ends2 → z = (e.1, e.2.1) ∨ z = (e.2.1, e.1) := by
        intro e h
        unfold expand at h
        split_ifs at h with hc
        · simpa [ends2] using h
        · left; simpa [ends2] using h
      apply hne
      rcases key hz1 with e1 | e1 <;> rcases key hz2 with e2 | e2 <;> rw [e1] at e2 <;> obtain ⟨p, q⟩ := Prod.mk.inj e2
      · exact e2
      · have : x.1 = x.2.1 := String.le_antisymm hx (by rw [p, q]; exact hy)
        unfold ends2; rw [← p, ← q, this]
      · have : x.1 = x.2.1 := String.le_antisymm hx (by rw [p, q]; exact hy)
        unfold ends2; rw [← p, ← q, this]
      · unfold ends2; rw [p, q]

/-! ## C117 -/

/-- **C117**: a network (distinct labels that are words and fit their buffers; symmetric if the symmetric switch is used) is
written without undefined behaviour, and reading the file with the same switches gives a network with a link from `a` to
`b` exactly when the first had one, with the weight that reading back the printed number gives (1 without weights); self
links need `auto_link_sw`. Its nodes are the ends of the links: isolated nodes are lost. -/
theorem C117_round_trip {net : Net} {g : WG} (h : Holds net g) (hd : Distinct net) (hf : Fit net)
    (hw : ∀ i < net.n, Word (net.label i)) (weighted auto add sym : Bool) (hs : sym = true → ∀ i j, g i j = g j i)
    {showG : ℚ → String} {strtod : String → Option ℚ} {val : ℚ → ℚ}
    (hg : weighted = true → ∀ w, Word (showG w) ∧ strtod (showG w) = some (val w)) :
    ∃ s net', FPrintNetAdjacencyList showG net weighted sym = some s ∧
      FBuildNetwork (fileFields s) weighted auto add sym strtod = some (some net') ∧ Distinct net' ∧
      (∀ a b w, HasLink net' a b w ↔ (a = b → auto = true) ∧ ∃ v, HasLink net a b v ∧ w = if weighted then val v else 1) ∧
      ∀ a, HasNode net' a ↔ ∃ b v, HasLink net a b v ∨ HasLink net b a v := by
  obtain ⟨s, e, hfs⟩ := printRows_fields (showG := showG) h (sym := sym) (fun hx w => (hg hx w).1) hw (List.range net.n)
    fun i hi => List.mem_range.1 hi
  set wt : ℚ → ℚ := fun v => if weighted then val v else 1 with hwt
  set ls := (((entries net).filter (printed sym)).map (reread wt)) with hls
  have hsays : List.Forall₂ (LineSays weighted strtod) (fileFields s) ls := by
    rw [hfs, hls, List.forall₂_map_left_iff, List.forall₂_map_right_iff]
    refine List.forall₂_same.2 ?_
    rintro ⟨a, b, w⟩ hx
    obtain ⟨i, j, l, hi, hj, rfl, rfl, _⟩ := (mem_entries h).1 (List.mem_filter.1 hx).1
    refine ⟨hf i hi, hf j hj, ?_⟩
    cases weighted with
    | true =>
      simp only [if_true]
      exact ⟨showG w, [], by simp [linkFields, reread], by simp [reread, hwt, (hg rfl w).2]⟩
    | false =>
      simp only [Bool.false_eq_true, if_false]
      exact ⟨⟨[], by simp [linkFields, reread]⟩, by simp [reread, hwt]⟩
  obtain ⟨net', hb, hn, hH, -, -, -⟩ := C16_build weighted auto add sym strtod _ ls hsays
  have hlab : ∀ a, HasNode net' a ↔ a ∈ firstLabels ls := by
    intro a
    rw [← hn]
    simp only [HasNode, List.mem_map, List.mem_range]
  have hmemls : ∀ a b w, (a, b, w) ∈ ls ↔ (sym = false ∨ a ≤ b) ∧ ∃ v, HasLink net a b v ∧ w = wt v := by
    intro a b w
    rw [hls]
    simp only [List.mem_map, List.mem_filter, printed, decide_eq_true_eq]
    constructor
    · rintro ⟨⟨a', b', v⟩, ⟨hm, hp⟩, e⟩
      obtain ⟨rfl, rfl, rfl⟩ : a' = a ∧ b' = b ∧ wt v = w := by simpa [reread] using e
      exact ⟨hp, v, (mem_entries h).1 hm, rfl⟩
    · rintro ⟨hp, v, hm, rfl⟩
      exact ⟨(a, b, v), ⟨(mem_entries h).2 hm, hp⟩, rfl⟩
  have hsw : sym = true → ∀ a b v, HasLink net a b v ↔ HasLink net b a v := by
    intro hx a b v
    rw [hasLink_iff h, hasLink_iff h]
    constructor
    · rintro ⟨i, j, hi, hj, rfl, rfl, e⟩; exact ⟨j, i, hj, hi, rfl, rfl, by rw [hs hx]; exact e⟩
    · rintro ⟨i, j, hi, hj, rfl, rfl, e⟩; exact ⟨j, i, hj, hi, rfl, rfl, by rw [hs hx]; exact e⟩
  have hnd : ((ls.flatMap (expand sym)).map ends2).Nodup := by
    apply expand_nodup
    · rw [hls, List.map_map]
      exact ((entries_nodup h hd).sublist ((List.filter_sublist).map _))
    · intro hx x hxm
      rcases x with ⟨a, b, w⟩
      rcases ((hmemls a b w).1 hxm).1 with hz | hz
      · rw [hx] at hz; cases hz
      · exact hz
  have hexp : ∀ a b w, (a, b, w) ∈ ls.flatMap (expand sym) ↔ ∃ v, HasLink net a b v ∧ w = wt v := by
    intro a b w
    rw [List.mem_flatMap]
    constructor
    · rintro ⟨⟨a', b', w'⟩, hm, hx⟩
      obtain ⟨-, v, hv, rfl⟩ := (hmemls _ _ _).1 hm
      unfold expand at hx
      rcases List.mem_cons.1 hx with hx | hx
      · obtain ⟨rfl, rfl, rfl⟩ : a = a' ∧ b = b' ∧ w = wt v := by simpa using hx
        exact ⟨v, hv, rfl⟩
      · split_ifs at hx with hc
        · obtain ⟨rfl, rfl, rfl⟩ : a = b' ∧ b = a' ∧ w = wt v := by simpa using hx
          exact ⟨v, (hsw hc.1 _ _ _).1 hv, rfl⟩
        · cases hx
    · rintro ⟨v, hv, rfl⟩
      by_cases hp : sym = false ∨ a ≤ b
      · exact ⟨(a, b, wt v), (hmemls _ _ _).2 ⟨hp, v, hv, rfl⟩, by simp [expand]⟩
      · have hx : sym = true := by
          cases sym
          · exact absurd (Or.inl rfl) hp
          · rfl
        have hba : ¬ a ≤ b := fun h => hp (Or.inr h)
        refine ⟨(b, a, wt v), (hmemls _ _ _).2 ⟨Or.inr ((String.le_total b a).resolve_right hba), v, (hsw hx _ _ _).1 hv, rfl⟩, ?_⟩
        have hne : b ≠ a := fun e => hba (by rw [e]; exact String.le_refl _)
        simp [expand, hx, hne]
  have hd' : Distinct net' := by
    intro i k hi hk ek
    have hnd : ((List.range net'.n).map net'.label).Nodup := by
      rw [hn]; exact nodup_order _
    exact List.inj_on_of_nodup_map hnd (List.mem_range.2 hi) (List.mem_range.2 hk) ek
  have hnode : ∀ a, HasNode net' a ↔ ∃ b v, HasLink net a b v ∨ HasLink net b a v := by
    intro a
    rw [hlab]
    change a ∈ order (labelsOf ls) ↔ _
    rw [mem_order]
    unfold labelsOf
    rw [List.mem_flatMap]
    constructor
    · rintro ⟨⟨x, y, w⟩, hm, ha⟩
      obtain ⟨-, v, hv, -⟩ := (hmemls _ _ _).1 hm
      rcases List.mem_pair.1 ha with rfl | rfl
      · exact ⟨y, v, Or.inl hv⟩
      · exact ⟨x, v, Or.inr hv⟩
    · rintro ⟨b, v, hv⟩
      have : ∃ x y, HasLink net x y v ∧ (a = x ∨ a = y) := by
        rcases hv with hv | hv
        · exact ⟨a, b, hv, Or.inl rfl⟩
        · exact ⟨b, a, hv, Or.inr rfl⟩
      obtain ⟨x, y, hv, ha⟩ := this
      obtain ⟨⟨p, q, w⟩, hm, hx⟩ := List.mem_flatMap.1 ((hexp x y (wt v)).2 ⟨v, hv, rfl⟩)
      refine ⟨(p, q, w), hm, List.mem_pair.2 ?_⟩
      unfold expand at hx
      rcases List.mem_cons.1 hx with hx | hx
      · obtain ⟨rfl, rfl, rfl⟩ : x = p ∧ y = q ∧ wt v = w := by simpa using hx
        exact ha
      · split_ifs at hx with hc
        · obtain ⟨rfl, rfl, rfl⟩ : x = q ∧ y = p ∧ wt v = w := by simpa using hx
          exact ha.symm
        · cases hx
  refine ⟨s, net', e, hb, hd', ?_, hnode⟩
  intro a b w
  rw [hasLink_iff hH]
  have hfw : ∀ a b, fileWeight auto add sym ls a b = some w ↔ (a = b → auto = true) ∧ ∃ v, HasLink net a b v ∧ w = wt v := by
    intro a b
    rw [← weightOf_expand, weight_iff hnd, hexp]
  constructor
  · rintro ⟨i, j, hi, hj, rfl, rfl, hx⟩
    rw [if_pos ⟨hi, hj⟩] at hx
    exact (hfw _ _).1 hx
  · rintro ⟨ha, v, hv, hx⟩
    obtain ⟨i, hi, rfl⟩ := (hnode a).2 ⟨b, v, Or.inl hv⟩
    obtain ⟨j, hj, rfl⟩ := (hnode b).2 ⟨_, v, Or.inr hv⟩
    refine ⟨i, j, hi, hj, rfl, rfl, ?_⟩
    rw [if_pos ⟨hi, hj⟩]
    exact (hfw _ _).2 ⟨ha, v, hv, hx⟩

/-- **C117**: with numbers that are printed exactly (`%g` keeps six digits), self links permitted and no isolated nodes, what is
read is the network that was written, up to the order of nodes and links. -/
theorem C117_same {net : Net} {g : WG} (h : Holds net g) (hd : Distinct net) (hf : Fit net)
    (hw : ∀ i < net.n, Word (net.label i)) (hi : ∀ i < net.n, net.neig i ≠ []) (add sym : Bool)
    (hs : sym = true → ∀ i j, g i j = g j i) {showG : ℚ → String} {strtod : String → Option ℚ}
    (hg : ∀ w, Word (showG w)) (hx : ∀ w, strtod (showG w) = some w) :
    ∃ s net', FPrintNetAdjacencyList showG net true sym = some s ∧
      FBuildNetwork (fileFields s) true true add sym strtod = some (some net') ∧ Distinct net' ∧
      (∀ a b w, HasLink net' a b w ↔ HasLink net a b w) ∧ ∀ a, HasNode net' a ↔ HasNode net a := by
  obtain ⟨s, net', h1, h2, h3, h4, h5⟩ := C117_round_trip h hd hf hw true true add sym hs (val := id) (strtod := strtod)
    fun _ w => ⟨hg w, hx w⟩
  refine ⟨s, net', h1, h2, h3, ?_, ?_⟩
  · intro a b w
    rw [h4]
    simp
  · intro a
    rw [h5]
    constructor
    · rintro ⟨b, v, ⟨i, j, l, hi, hj, e1, e2, _⟩ | ⟨i, j, l, hi, hj, e1, e2, _⟩⟩
      · exact ⟨i, hi, e1⟩
      · exact ⟨j, hj, e2⟩
    · rintro ⟨i, hn, rfl⟩
      obtain ⟨l, hl⟩ := List.exists_mem_of_ne_nil _ (hi i hn)
      obtain ⟨j, hj, e, _⟩ := (h i hn).2.1 l hl
      exact ⟨net.label j, l.weight, Or.inl ⟨i, j, l, hn, hj, rfl, rfl, hl, e, rfl⟩⟩

/-- **C117**: the degree file has one line per node in order, with the number of its links. -/
theorem C117_degrees {net : Net} (hc : CachesOK net) : ∀ (is : List ℕ), (∀ i ∈ is, i < net.n) →
    (FPrintDegrees net is).1 = is.map fun i => (net.label i, (net.neig i).length) := by
  intro is
  have key : ∀ (is : List ℕ) (m : Net), CachesOK m → m.n = net.n → m.label = net.label → m.neig = net.neig →
      (∀ i ∈ is, i < net.n) → (FPrintDegrees m is).1 = is.map fun i => (net.label i, (net.neig i).length) := by
    intro is
    induction is with
    | nil => intros; rfl
    | cons i is ih =>
      intro m hm e1 e2 e3 hi
      have hin : i < m.n := by rw [e1]; exact hi i (by simp)
      obtain ⟨k1, k2⟩ := degree_net hm hin
      have e : (NodeDegree m i).2.n = m.n ∧ (NodeDegree m i).2.label = m.label ∧ (NodeDegree m i).2.neig = m.neig := by
        unfold NodeDegree; split_ifs <;> simp
      unfold FPrintDegrees
      rw [List.map_cons]
      dsimp only
      rw [degree_answer hm hin, e2, e3]
      congr 1
      refine ih _ ?_ (e.1.trans e1) (e.2.1.trans e2) (e.2.2.trans e3) fun i h => hi i (by simp [h])
      exact k2.2.2
  exact key is net hc rfl rfl rfl

/-! ## Examples -/

/-- Three nodes in a line, one with a link to itself, and a node alone. -/
def lineNet : Net :=
  ⟨4, fun i => if i = 0 then "b" else if i = 1 then "a" else if i = 2 then "c" else "alone",
    fun i => match i with
      | 0 => [⟨"a", some 1, 2⟩]
      | 1 => [⟨"b", some 0, 2⟩, ⟨"c", some 2, 3⟩]
      | 2 => [⟨"a", some 1, 3⟩, ⟨"c", some 2, 5⟩]
      | _ => [],
    fun _ => 0, fun _ => 0⟩

/-- Its file, each link once, and without the switch. -/
example : (FPrintNetAdjacencyList (fun w => toString w.num) lineNet true true).map String.ofList =
      some "a b 2\na c 3\nc c 5\n" ∧
    (FPrintNetAdjacencyList (fun w => toString w.num) lineNet false false).map String.ofList =
      some "b a\na b\na c\nc a\nc c\n" := by decide +kernel

/-- Reading it: the node alone is lost, and the nodes are in another order. -/
theorem C117_isolated_lost : ∃ s net', FPrintNetAdjacencyList (fun w => toString w.num) lineNet true true = some s ∧
    FBuildNetwork (fileFields s) true true false true natStr = some (some net') ∧ net'.n = 3 ∧
      (List.range 3).map net'.label = ["a", "b", "c"] ∧ net'.neig 2 = [⟨"a", some 0, 3⟩, ⟨"c", some 2, 5⟩] := by
  refine ⟨"a b 2\na c 3\nc c 5\n".toList, _, by decide +kernel, rfl, ?_, ?_, ?_⟩ <;> decide +kernel

example : (FPrintDegrees lineNet (List.range 4)).1 = [("b", 1), ("a", 2), ("c", 2), ("alone", 0)] := by decide +kernel

/-- A label with a blank is not read back: the second field is then part of the first label. -/
example : fileFields (linkLine (fun _ => "1") true "a b" "c" 1) = [["a", "b", "c", "1"]] := by decide +kernel

end GR
