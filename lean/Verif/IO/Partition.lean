import Verif.IO.Model
import Verif.IO.Spec
import Mathlib.Tactic.Common

/-! # C25, C53: files of partitions -/

set_option linter.unusedSimpArgs false

namespace FIO

theorem takeWhile_append_stop {f : Char → Bool} {l r : List Char} (hl : ∀ c ∈ l, f c = true) (hr : ∀ c ∈ r.head?, f c = false) :
    (l ++ r).takeWhile f = l ∧ (l ++ r).dropWhile f = r := by
  induction l with
  | nil =>
    cases r with
    | nil => simp
    | cons c r => simp [hr c (by simp)]
  | cons a l ih =>
    have := ih fun c hc => hl c (by simp [hc])
    simp [hl a (by simp), this]

/-! ## Files of words -/

/-- Words, each on its line. -/
def words (ws : List (List Char)) : List Char := ws.flatMap fun w => w ++ ['\n']

/-- A word: not empty and without white space. -/
def IsWord (w : List Char) : Prop := w ≠ [] ∧ (∀ c ∈ w, isSpace c = false) ∧ fits w = true

theorem GoodWord.isWord {w} (h : GoodWord w) : IsWord w := by
  refine ⟨h.nonempty, ?_, by simpa [fits] using h.short⟩
  intro c hc
  have := h.space c hc
  simp [isSpace, this]

theorem isWord_slashes : IsWord slashes := by
  refine ⟨by simp [slashes], by decide, by decide⟩

theorem words_head {ws : List (List Char)} (h : ∀ w ∈ ws, IsWord w) : ∀ c ∈ (words ws).head?, isSpace c = false := by
  intro c hc
  cases ws with
  | nil => simp [words] at hc
  | cons w ws =>
    obtain ⟨h1, h2, _⟩ := h w (by simp)
    cases w with
    | nil => exact absurd rfl h1
    | cons a w =>
      simp [words] at hc
      subst hc
      exact h2 a (by simp)

theorem words_eq_nil {ws : List (List Char)} : words ws = [] ↔ ws = [] := by
  cases ws <;> simp [words]

theorem scanWord_words {w : List Char} {ws : List (List Char)} (h : ∀ v ∈ w :: ws, IsWord v) :
    scanWord (words (w :: ws)) = some (w, words ws) := by
  have hw := h w (by simp)
  have h0 : (words (w :: ws)).dropWhile isSpace = words (w :: ws) := by
    have := (takeWhile_append_stop (f := isSpace) (l := []) (r := words (w :: ws)) (by simp) (words_head h)).2
    simpa using this
  unfold scanWord
  simp only [h0]
  rw [if_neg (by rw [words_eq_nil]; simp)]
  have e : words (w :: ws) = w ++ '\n' :: words ws := by simp [words]
  rw [e]
  obtain ⟨a, b⟩ := takeWhile_append_stop (f := fun c => !isSpace c) (l := w) (r := '\n' :: words ws)
    (fun c hc => by simp [hw.2.1 c hc]) (by simp; decide)
  rw [a, b]
  have h2 := (takeWhile_append_stop (f := isSpace) (l := ['\n']) (r := words ws) (by simp; decide)
    (words_head fun v hv => h v (by simp [hv]))).2
  simp only [List.singleton_append] at h2
  rw [h2]

theorem words_length (ws : List (List Char)) : ws.length ≤ (words ws).length := by
  induction ws with
  | nil => simp
  | cons w ws ih => simp [words] at ih ⊢; omega

theorem readGroup_words : ∀ (ls : List (List Char)) (fuel : ℕ) (label : List Char) (rest g : List (List Char)),
    (∀ v ∈ ls, IsWord v) → (∀ v ∈ rest, IsWord v) → (∀ v ∈ label :: ls, v ≠ slashes) → ls.length + 1 < fuel →
    readGroup fuel (words (ls ++ slashes :: rest)) label g = .ok (g ++ label :: ls, words rest)
  | [], fuel, label, rest, g, _, hr, hn, hf => by
    obtain ⟨f, rfl⟩ : ∃ f, fuel = f + 2 := ⟨fuel - 2, by simp at hf; omega⟩
    rw [readGroup, if_neg (hn label (by simp)), List.nil_append,
      scanWord_words (by intro v hv; rcases List.mem_cons.1 hv with rfl | hv; exacts [isWord_slashes, hr v hv])]
    simp only [isWord_slashes.2.2, if_true]
    rw [readGroup, if_pos rfl]
  | l :: ls, fuel, label, rest, g, hl, hr, hn, hf => by
    obtain ⟨f, rfl⟩ : ∃ f, fuel = f + 1 := ⟨fuel - 1, by simp at hf; omega⟩
    have hall : ∀ v ∈ l :: (ls ++ slashes :: rest), IsWord v := by
      intro v hv
      simp only [List.mem_cons, List.mem_append] at hv
      rcases hv with rfl | hv | rfl | hv
      · exact hl v (by simp)
      · exact hl v (by simp [hv])
      · exact isWord_slashes
      · exact hr v hv
    rw [readGroup, if_neg (hn label (by simp)), List.cons_append, scanWord_words hall]
    simp only [(hl l (by simp)).2.2, if_true]
    rw [readGroup_words ls f l rest _ (fun v hv => hl v (by simp [hv])) hr (fun v hv => hn v (by simp at hv ⊢; tauto)) (by simp at hf ⊢; omega)]
    simp

/-- The words of a file with these groups. -/
def groupWords (P : List (List (List Char))) : List (List Char) := P.flatMap fun g => g ++ [slashes]

theorem groupWords_isWord {P : List (List (List Char))} (h : ∀ g ∈ P, ∀ l ∈ g, GoodWord l) : ∀ v ∈ groupWords P, IsWord v := by
  intro v hv
  simp only [groupWords, List.mem_flatMap, List.mem_append, List.mem_singleton] at hv
  obtain ⟨g, hg, h1 | rfl⟩ := hv
  · exact (h g hg v h1).isWord
  · exact isWord_slashes

theorem readGroups_words : ∀ (P : List (List (List Char))) (fuel : ℕ) (Q : List (List (List Char))), P ≠ [] → (∀ g ∈ P, g ≠ []) →
    (∀ g ∈ P, ∀ l ∈ g, GoodWord l) → P.length < fuel → readGroups fuel (words (groupWords P)) Q = .ok (Q ++ P)
  | [], _, _, h, _, _, _ => absurd rfl h
  | g :: P, fuel, Q, _, hne, hgood, hf => by
    obtain ⟨f, rfl⟩ : ∃ f, fuel = f + 1 := ⟨fuel - 1, by simp at hf; omega⟩
    obtain ⟨l, ls, rfl⟩ : ∃ l ls, g = l :: ls := by
      cases g with
      | nil => exact absurd rfl (hne [] (by simp))
      | cons l ls => exact ⟨l, ls, rfl⟩
    have hw := groupWords_isWord hgood
    have hwP := groupWords_isWord (P := P) fun g hg => hgood g (by simp [hg])
    have e : groupWords ((l :: ls) :: P) = l :: (ls ++ slashes :: groupWords P) := by simp [groupWords]
    rw [e] at hw ⊢
    rw [readGroups, scanWord_words hw]
    have hl := hgood (l :: ls) (by simp)
    simp only [(hl l (by simp)).isWord.2.2, if_true]
    have hlen : ls.length + 1 < (words (ls ++ slashes :: groupWords P)).length + 1 := by
      have := words_length (ls ++ slashes :: groupWords P)
      simp at this ⊢; omega
    rw [readGroup_words ls _ l _ [] (fun v hv => (hl v (by simp [hv])).isWord) hwP
      (fun v hv => (hl v hv).notSeparator) hlen]
    simp only [Rd.bind, List.nil_append]
    by_cases hP : P = []
    · subst hP
      simp [groupWords, words]
    · have : words (groupWords P) ≠ [] := by
        rw [Ne, words_eq_nil]
        cases P with
        | nil => exact absurd rfl hP
        | cons a b => simp [groupWords]
      rw [if_neg this, readGroups_words P f _ hP (fun g hg => hne g (by simp [hg])) (fun g hg => hgood g (by simp [hg])) (by simp at hf; omega)]
      simp

theorem fold_words (g : List (List Char)) (out : List Char) : g.foldl (fun out l => out ++ l ++ ['\n']) out = out ++ words g := by
  induction g generalizing out with
  | nil => simp [words]
  | cons a g ih => rw [List.foldl_cons, ih]; simp [words]

theorem print_eq (P : List (List (List Char))) : FPrintPartition P = words (groupWords (P.filter fun g => g ≠ [])) := by
  have key : ∀ (P : List (List (List Char))) (out : List Char), P.foldl (fun out g =>
      if 0 < g.length then g.foldl (fun out l => out ++ l ++ ['\n']) out ++ slashes ++ ['\n'] else out) out =
      out ++ words (groupWords (P.filter fun g => g ≠ [])) := by
    intro P
    induction P with
    | nil => intro out; simp [words, groupWords]
    | cons g P ih =>
      intro out
      rw [List.foldl_cons, ih]
      by_cases hg : g = []
      · subst hg; simp
      · rw [if_pos (List.length_pos_iff.2 hg), fold_words]
        simp [hg, groupWords, words]
  exact (key P []).trans (List.nil_append _)

/-- **C25**: reading back the file written for a partition gives its groups that are not empty, with their labels, in the
same order. -/
theorem C25_round_trip {P : List (List (List Char))} (hgood : ∀ g ∈ P, ∀ l ∈ g, GoodWord l) (hne : ∃ g ∈ P, g ≠ []) :
    FCreatePartition (FPrintPartition P) = .ok (P.filter fun g => g ≠ []) := by
  rw [print_eq]
  unfold FCreatePartition
  obtain ⟨g, hg, hg'⟩ := hne
  have hne : (P.filter fun g => g ≠ []) ≠ [] := by
    intro hh
    have : g ∈ P.filter fun g => g ≠ [] := by simp [hg, hg']
    rw [hh] at this; simp at this
  refine (readGroups_words _ _ [] hne (fun g hg => by simp at hg; exact hg.2) (fun g hg => hgood g (List.mem_filter.1 hg).1) ?_).trans (by simp)
  have h1 := words_length (groupWords (P.filter fun g => g ≠ []))
  have h2 : (P.filter fun g => g ≠ []).length ≤ (groupWords (P.filter fun g => g ≠ [])).length := by
    generalize (P.filter fun g => g ≠ []) = Q
    induction Q with
    | nil => simp
    | cons a Q ih => simp [groupWords] at ih ⊢; omega
  omega

/-- **C25**: a partition without nodes is written as an empty file, and reading an empty file uses a label that was never
read. -/
theorem C25_empty {P : List (List (List Char))} (h : ∀ g ∈ P, g = []) : FCreatePartition (FPrintPartition P) = .ub := by
  rw [print_eq]
  have : (P.filter fun g => g ≠ []) = [] := by
    rw [List.filter_eq_nil_iff]; intro g hg; simp [h g hg]
  rw [this]; rfl

/-- **C25**: a file whose last group is not closed is never read to its end. -/
theorem C25_unclosed {P : List (List (List Char))} {g : List (List Char)} (hgood : ∀ g ∈ P, ∀ l ∈ g, GoodWord l) (hne : ∀ g ∈ P, g ≠ [])
    (hg : g ≠ []) (hg' : ∀ l ∈ g, GoodWord l) : FCreatePartition (FPrintPartition P ++ words g) = .hang := by
  rw [print_eq, List.filter_eq_self.2 (by simpa using hne)]
  have open_group : ∀ (ls : List (List Char)) (fuel : ℕ) (label : List Char) (acc : List (List Char)), (∀ v ∈ label :: ls, GoodWord v) →
      readGroup fuel (words ls) label acc = .hang := by
    intro ls
    induction ls with
    | nil =>
      intro fuel label acc h
      cases fuel with
      | zero => rfl
      | succ f => rw [readGroup, if_neg (show label ≠ slashes from (h label (by simp)).notSeparator)]; rfl
    | cons l ls ih =>
      intro fuel label acc h
      cases fuel with
      | zero => rfl
      | succ f =>
        rw [readGroup, if_neg (show label ≠ slashes from (h label (by simp)).notSeparator), scanWord_words (fun v hv => (h v (by simp at hv ⊢; tauto)).isWord)]
        simp only [(h l (by simp)).isWord.2.2, if_true]
        exact ih f l _ fun v hv => h v (by simp at hv ⊢; tauto)
  have key : ∀ (P : List (List (List Char))) (fuel : ℕ) (Q : List (List (List Char))), (∀ g ∈ P, g ≠ []) →
      (∀ g ∈ P, ∀ l ∈ g, GoodWord l) → readGroups fuel (words (groupWords P ++ g)) Q = .hang := by
    intro P
    induction P with
    | nil =>
      intro fuel Q _ _
      cases fuel with
      | zero => rfl
      | succ f =>
        obtain ⟨l, ls, rfl⟩ : ∃ l ls, g = l :: ls := by
          cases g with
          | nil => exact absurd rfl hg
          | cons l ls => exact ⟨l, ls, rfl⟩
        rw [readGroups, show groupWords [] ++ (l :: ls) = l :: ls from rfl, scanWord_words (fun v hv => (hg' v hv).isWord)]
        simp only [(hg' l (by simp)).isWord.2.2, if_true]
        rw [open_group ls _ l [] hg']; rfl
    | cons a P ih =>
      intro fuel Q hne hgood
      cases fuel with
      | zero => rfl
      | succ f =>
        obtain ⟨l, ls, rfl⟩ : ∃ l ls, a = l :: ls := by
          cases a with
          | nil => exact absurd rfl (hne [] (by simp))
          | cons l ls => exact ⟨l, ls, rfl⟩
        have hl := hgood (l :: ls) (by simp)
        have hrest : ∀ v ∈ groupWords P ++ g, IsWord v := by
          intro v hv
          rcases List.mem_append.1 hv with hv | hv
          · exact groupWords_isWord (fun g hg => hgood g (by simp [hg])) v hv
          · exact (hg' v hv).isWord
        have hw : ∀ v ∈ l :: (ls ++ slashes :: (groupWords P ++ g)), IsWord v := by
          intro v hv
          simp only [List.mem_cons, List.mem_append] at hv
          rcases hv with rfl | hv | rfl | hv
          · exact (hl v (by simp)).isWord
          · exact (hl v (by simp [hv])).isWord
          · exact isWord_slashes
          · exact hrest v (by simpa using hv)
        have e : groupWords ((l :: ls) :: P) ++ g = l :: (ls ++ slashes :: (groupWords P ++ g)) := by simp [groupWords]
        rw [e, readGroups, scanWord_words hw]
        simp only [(hl l (by simp)).isWord.2.2, if_true]
        have hlen : ls.length + 1 < (words (ls ++ slashes :: (groupWords P ++ g))).length + 1 := by
          have := words_length (ls ++ slashes :: (groupWords P ++ g))
          simp at this ⊢; omega
        rw [readGroup_words ls _ l _ [] (fun v hv => (hl v (by simp [hv])).isWord) hrest (fun v hv => (hl v hv).notSeparator) hlen]
        simp only [Rd.bind]
        rw [if_neg (by rw [words_eq_nil]; simp [hg])]
        exact ih f _ (fun g hg => hne g (by simp [hg])) (fun g hg => hgood g (by simp [hg]))
  have e : words (groupWords P) ++ words g = words (groupWords P ++ g) := by simp [words]
  rw [e]
  exact key P _ _ hne hgood

example : GoodWord ['n', '1'] := ⟨by simp, by decide, by decide, by decide⟩

example : FCreatePartition (FPrintPartition [[['a'], ['b']], [], [['c']]]) = .ok [[['a'], ['b']], [['c']]] := by decide +kernel

/-! ## Files of lines -/

/-- Labels, each followed by a separator. -/
def items (its : List (List Char × Char)) : List Char := its.flatMap fun it => it.1 ++ [it.2]

/-- A label and its separator. -/
def IsItem (it : List Char × Char) : Prop := GoodLabel it.1 ∧ isSep it.2 = true

/-- Fold. -/
def foldRd {σ : Type} (step : σ → List Char → Char → Rd σ) : σ → List (List Char × Char) → Rd σ
  | st, [] => .ok st
  | st, it :: its => (step st it.1 it.2).bind fun st => foldRd step st its

theorem GoodLabel.noSep {l} (h : GoodLabel l) : ∀ c ∈ l, isSep c = false := by
  intro c hc
  have h1 : c ≠ '\t' := by rintro rfl; exact h.tab hc
  have h2 : c ≠ '\n' := by rintro rfl; exact h.newline hc
  simp [isSep, h1, h2]

theorem items_head {its : List (List Char × Char)} (h : ∀ it ∈ its, IsItem it) : ∀ c ∈ (items its).head?, isSep c = false := by
  intro c hc
  cases its with
  | nil => simp [items] at hc
  | cons w ws =>
    obtain ⟨h1, _⟩ := h w (by simp)
    obtain ⟨l, s⟩ := w
    cases l with
    | nil => exact absurd rfl h1.nonempty
    | cons a w =>
      simp [items] at hc
      subst hc
      exact h1.noSep a (by simp)

theorem scanLabel_item {l : List Char} {c : Char} {r : List Char} (old : Option Char) (h : IsItem (l, c))
    (hr : ∀ x ∈ r.head?, isSep x = false) : scanLabel old (l ++ c :: r) = .ok (l, some c, r) := by
  obtain ⟨hl, hc⟩ := h
  obtain ⟨a, b⟩ := takeWhile_append_stop (f := fun c => !isSep c) (l := l) (r := c :: r)
    (fun c hc => by simp [hl.noSep c hc]) (by simpa using hc)
  obtain ⟨a', b'⟩ := takeWhile_append_stop (f := isSep) (l := [c]) (r := r) (by simpa using hc) hr
  simp only [List.singleton_append] at a' b'
  unfold scanLabel
  simp only [a, b, a', b']
  rw [if_neg (by simpa [fits] using hl.short)]

theorem items_eq_nil {its : List (List Char × Char)} : items its = [] ↔ its = [] := by
  cases its <;> simp [items]

theorem items_cons (it : List Char × Char) (its) : items (it :: its) = it.1 ++ it.2 :: items its := by simp [items]

theorem scanLoop_items {σ : Type} (step : σ → List Char → Char → Rd σ) : ∀ (its : List (List Char × Char)) (fuel : ℕ) (old : Option Char)
    (st : σ), its ≠ [] → (∀ it ∈ its, IsItem it) → its.length ≤ fuel → scanLoop step fuel old st (items its) = foldRd step st its
  | [], _, _, _, h, _, _ => absurd rfl h
  | it :: its, fuel, old, st, _, h, hf => by
    obtain ⟨f, rfl⟩ : ∃ f, fuel = f + 1 := ⟨fuel - 1, by simp at hf; omega⟩
    have hi := h it (by simp)
    obtain ⟨l, c⟩ := it
    obtain ⟨a, l', rfl⟩ : ∃ a l', l = a :: l' := by
      cases l with
      | nil => exact absurd rfl hi.1.nonempty
      | cons a l' => exact ⟨a, l', rfl⟩
    have hs := scanLabel_item (r := items its) old hi (items_head fun it h' => h it (by simp [h']))
    rw [items_cons]
    simp only at hs ⊢
    rw [List.cons_append] at hs ⊢
    rw [scanLoop]
    simp only [hi.1.noSep a (by simp), Bool.false_eq_true, if_false, hs, Rd.bind]
    rw [foldRd]
    cases hst : step st (a :: l') c with
    | ub => rfl
    | hang => rfl
    | ok st' =>
      simp only [Rd.bind]
      by_cases hn : its = []
      · subst hn; simp [items, foldRd]
      · rw [if_neg (by rw [items_eq_nil]; exact hn)]
        exact scanLoop_items step its f _ st' hn (fun it h' => h it (by simp [h'])) (by simp at hf; omega)

/-- The labels of a line with their separators. -/
def lineItems : List (List Char) → List (List Char × Char)
  | [] => []
  | [l] => [(l, '\n')]
  | l :: l' :: ls => (l, '\t') :: lineItems (l' :: ls)

theorem items_append (a b) : items (a ++ b) = items a ++ items b := by simp [items]

theorem items_line : ∀ g : List (List Char), g ≠ [] → items (lineItems g) = (List.intersperse ['\t'] g).flatten ++ ['\n']
  | [], h => absurd rfl h
  | [l], _ => by simp [lineItems, items]
  | l :: l' :: ls, _ => by
    rw [lineItems, items_cons, items_line (l' :: ls) (by simp)]
    simp

theorem items_lines {P : List (List (List Char))} (h : ∀ g ∈ P, g ≠ []) : items (P.flatMap lineItems) = lines P := by
  induction P with
  | nil => rfl
  | cons g P ih =>
    rw [List.flatMap_cons, items_append, items_line g (h g (by simp)), ih fun g hg => h g (by simp [hg])]
    simp [lines]

theorem lineItems_isItem : ∀ {g : List (List Char)}, (∀ l ∈ g, GoodLabel l) → ∀ it ∈ lineItems g, IsItem it
  | [], _, it, hit => by simp [lineItems] at hit
  | [l], h, it, hit => by
    simp [lineItems] at hit; subst hit; exact ⟨h l (by simp), rfl⟩
  | l :: l' :: ls, h, it, hit => by
    rw [lineItems] at hit
    rcases List.mem_cons.1 hit with rfl | hit
    · exact ⟨h l (by simp), rfl⟩
    · exact lineItems_isItem (fun x hx => h x (by simp at hx ⊢; tauto)) it hit

theorem lineItems_ne {g : List (List Char)} (h : g ≠ []) : lineItems g ≠ [] := by
  match g, h with
  | [l], _ => simp [lineItems]
  | l :: l' :: ls, _ => simp [lineItems]

theorem foldRd_append {σ : Type} (step : σ → List Char → Char → Rd σ) (a b st) :
    foldRd step st (a ++ b) = (foldRd step st a).bind fun st => foldRd step st b := by
  induction a generalizing st with
  | nil => rfl
  | cons it a ih =>
    rw [List.cons_append, foldRd, foldRd]
    cases step st it.1 it.2 with
    | ok s => simp only [Rd.bind]; exact ih s
    | ub => rfl
    | hang => rfl

/-- Reading a clean file is a fold over its items. -/
theorem scan_lines {σ : Type} (step : σ → List Char → Char → Rd σ) (st : σ) {P : List (List (List Char))} (hP : P ≠ []) (hne : ∀ g ∈ P, g ≠ [])
    (hgood : ∀ g ∈ P, ∀ l ∈ g, GoodLabel l) :
    scanLoop step ((lines P).length + 1) none st (lines P) = foldRd step st (P.flatMap lineItems) := by
  rw [← items_lines hne]
  apply scanLoop_items
  · cases P with
    | nil => exact absurd rfl hP
    | cons g P => simp [lineItems_ne (hne g (by simp))]
  · intro it hit
    obtain ⟨g, hg, h⟩ := List.mem_flatMap.1 hit
    exact lineItems_isItem (hgood g hg) it h
  · generalize P.flatMap lineItems = its
    induction its with
    | nil => simp
    | cons a its ih => simp [items] at ih ⊢; omega

theorem fold_line : ∀ (g : List (List Char)) (done : List (List (List Char))) (cur : List (List Char)), g ≠ [] →
    foldRd readStep (done, cur) (lineItems g) = .ok (done ++ [cur ++ g], [])
  | [], _, _, h => absurd rfl h
  | [l], done, cur, _ => by simp [lineItems, foldRd, readStep, Rd.bind]
  | l :: l' :: ls, done, cur, _ => by
    rw [lineItems, foldRd]
    simp only [readStep, Rd.bind, show ('\t' = '\n') = False by decide, if_false]
    rw [fold_line (l' :: ls) done _ (by simp)]
    simp

/-- **C53**: `FReadPartition` on a clean file gives the groups of the file in their order, followed by an empty group. -/
theorem C53_read {P : List (List (List Char))} (hP : P ≠ []) (hne : ∀ g ∈ P, g ≠ []) (hgood : ∀ g ∈ P, ∀ l ∈ g, GoodLabel l) :
    FReadPartition (lines P) = .ok (P ++ [[]]) := by
  unfold FReadPartition
  rw [scan_lines readStep _ hP hne hgood]
  have : ∀ (P : List (List (List Char))) (done : List (List (List Char))), (∀ g ∈ P, g ≠ []) →
      foldRd readStep (done, []) (P.flatMap lineItems) = .ok (done ++ P, []) := by
    intro P
    induction P with
    | nil => intro done _; simp [foldRd]
    | cons g P ih =>
      intro done h
      rw [List.flatMap_cons, foldRd_append, fold_line g done [] (h g (by simp))]
      simp only [Rd.bind]
      rw [ih _ fun g hg => h g (by simp [hg])]
      simp
  rw [this P [] hne]
  simp [Rd.bind]

/-- **C53**: a file that starts with an empty line is never read to its end; two separators in a row overflow `sep`; an
empty file makes the function use a label that was never read. -/
theorem C53_defects : (∀ s, FReadPartition ('\n' :: s) = .hang) ∧
    (∀ (l : List Char) (c d : Char) (s : List Char), GoodLabel l → isSep c → isSep d → FReadPartition (l ++ c :: d :: s) = .ub) ∧
    FReadPartition [] = .ub := by
  refine ⟨fun s => rfl, ?_, rfl⟩
  intro l c d s hl hc hd
  obtain ⟨x, l', rfl⟩ : ∃ a l', l = a :: l' := by
    cases l with
    | nil => exact absurd rfl hl.nonempty
    | cons a l' => exact ⟨a, l', rfl⟩
  obtain ⟨a, b⟩ := takeWhile_append_stop (f := fun c => !isSep c) (l := x :: l') (r := c :: d :: s)
    (fun c hc => by simp [hl.noSep c hc]) (by simpa using hc)
  have hs : scanLabel none (x :: l' ++ c :: d :: s) = .ub := by
    unfold scanLabel
    simp only [a, b]
    rw [if_neg (by have := hl.short; simp [fits] at this ⊢; omega)]
    simp [hc, hd]
  rw [List.cons_append] at hs ⊢
  rw [FReadPartition, scanLoop]
  simp only [hl.noSep x (by simp), Bool.false_eq_true, if_false, hs, Rd.bind]

example : FReadPartition (lines [[['a'], ['b', ' ', 'c']], [['d']]]) = .ok [[['a'], ['b', ' ', 'c']], [['d']], []] := by decide +kernel

end FIO
