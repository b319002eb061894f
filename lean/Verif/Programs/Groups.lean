import Verif.Programs.PartModel
import Verif.Programs.PartSpec
import Verif.Compare.Mutual

/-! # C154: files of groups and the program mutualinfo -/

set_option linter.unusedSimpArgs false

namespace PG

open FIO (isSpace slashes scanWord readGroup readGroups FCreatePartition fits)

theorem space_eq : space = isSpace := by
  funext c
  unfold space isSpace
  rw [Bool.eq_iff_iff]
  simp only [decide_eq_true_eq, Bool.or_eq_true, beq_iff_eq]
  generalize '\x0b' = v
  generalize '\x0c' = f
  constructor
  · intro h
    rcases List.mem_cons.1 h with h | h
    · tauto
    rcases List.mem_cons.1 h with h | h
    · tauto
    rcases List.mem_cons.1 h with h | h
    · tauto
    rcases List.mem_cons.1 h with h | h
    · tauto
    rcases List.mem_cons.1 h with h | h
    · tauto
    exact Or.inr (List.mem_singleton.1 h)
  · rintro (((((rfl | rfl) | rfl) | rfl) | rfl) | rfl)
    all_goals simp only [List.mem_cons, true_or, or_true]

theorem endMark_eq : endMark = slashes := by decide

theorem wordsOf_nil : wordsOf [] = [] := by simp [wordsOf]

theorem wordsOf_space {c : Char} {s : List Char} (h : isSpace c = true) : wordsOf (c :: s) = wordsOf s := by
  unfold wordsOf
  rw [List.splitOnP_cons_eq_if_modifyHead, space_eq, if_pos h]
  simp

theorem wordsOf_dropWhile (s : List Char) : wordsOf (s.dropWhile isSpace) = wordsOf s := by
  induction s with
  | nil => rfl
  | cons c s ih =>
    by_cases h : isSpace c = true
    · rw [List.dropWhile_cons_of_pos h, wordsOf_space h, ih]
    · rw [List.dropWhile_cons_of_neg h]

theorem split_word {w r : List Char} (hw : ∀ c ∈ w, isSpace c = false) (hr : ∀ c ∈ r.head?, isSpace c = true) :
    ∃ t, r.splitOnP space = [] :: t ∧ (w ++ r).splitOnP space = w :: t := by
  induction w with
  | nil =>
    cases r with
    | nil => exact ⟨[], by simp, by simp⟩
    | cons c r =>
      have := hr c (by simp)
      exact ⟨r.splitOnP space, by rw [List.splitOnP_cons_eq_if_modifyHead, space_eq, if_pos this],
        by rw [List.nil_append, List.splitOnP_cons_eq_if_modifyHead, space_eq, if_pos this]⟩
  | cons a w ih =>
    obtain ⟨t, h1, h2⟩ := ih fun c hc => hw c (by simp [hc])
    refine ⟨t, h1, ?_⟩
    rw [List.cons_append, List.splitOnP_cons_eq_if_modifyHead, space_eq, if_neg (by simp [hw a (by simp)]), ← space_eq, h2]
    rfl

theorem wordsOf_word {w r : List Char} (h0 : w ≠ []) (hw : ∀ c ∈ w, isSpace c = false) (hr : ∀ c ∈ r.head?, isSpace c = true) :
    wordsOf (w ++ r) = w :: wordsOf r := by
  obtain ⟨t, h1, h2⟩ := split_word hw hr
  unfold wordsOf
  rw [h1, h2]
  simp [h0]

theorem mem_takeWhile {p : Char → Bool} {l : List Char} {c : Char} (h : c ∈ l.takeWhile p) : p c = true := by
  induction l with
  | nil => simp at h
  | cons a l ih =>
    by_cases ha : p a = true
    · rw [List.takeWhile_cons_of_pos ha] at h
      rcases List.mem_cons.1 h with rfl | h
      exacts [ha, ih h]
    · rw [List.takeWhile_cons_of_neg ha] at h
      simp at h

theorem head_dropWhile {p : Char → Bool} : ∀ (l : List Char), ∀ c ∈ (l.dropWhile p).head?, p c = false
  | [], c, h => by simp at h
  | a :: l, c, h => by
    by_cases ha : p a = true
    · rw [List.dropWhile_cons_of_pos ha] at h
      exact head_dropWhile l c h
    · rw [List.dropWhile_cons_of_neg ha] at h
      simp only [List.head?_cons, Option.mem_some_iff] at h
      subst h
      simpa using ha

/-- `fscanf("%s\n")` gives the next word, and the end of the file is reached after the last one. -/
theorem scanWord_eq (s : List Char) :
    match wordsOf s with
    | [] => scanWord s = none
    | w :: ws => ∃ r, scanWord s = some (w, r) ∧ wordsOf r = ws ∧ (r = [] ↔ ws = []) := by
  set d := s.dropWhile isSpace with hd
  have e : wordsOf s = wordsOf d := (wordsOf_dropWhile s).symm
  rw [e]
  have hh := head_dropWhile (p := isSpace) s
  rw [← hd] at hh
  by_cases h0 : d = []
  · rw [h0, wordsOf_nil]
    simp only
    unfold scanWord
    simp only [← hd]
    rw [if_pos h0]
  · have hsplit : d.takeWhile (fun c => !isSpace c) ++ d.dropWhile (fun c => !isSpace c) = d := List.takeWhile_append_dropWhile
    set w := d.takeWhile (fun c => !isSpace c) with hw
    set r := d.dropWhile (fun c => !isSpace c) with hr
    have hw0 : w ≠ [] := by
      obtain ⟨c, l, hc⟩ := List.exists_cons_of_ne_nil h0
      rw [hc] at hh
      have := hh c (by simp)
      rw [hw, hc, List.takeWhile_cons_of_pos (by simp [this])]
      simp
    have hws : ∀ c ∈ w, isSpace c = false := fun c hc => by
      have := mem_takeWhile (hw ▸ hc)
      simpa using this
    have hrs : ∀ c ∈ r.head?, isSpace c = true := fun c hc => by
      have := head_dropWhile (p := fun c => !isSpace c) d c (hr ▸ hc)
      simpa using this
    rw [← hsplit, wordsOf_word hw0 hws hrs]
    refine ⟨r.dropWhile isSpace, ?_, wordsOf_dropWhile r, ?_⟩
    · unfold scanWord
      simp only [← hd]
      rw [if_neg h0, ← hw, ← hr]
    · constructor
      · intro h
        rw [← wordsOf_dropWhile, h, wordsOf_nil]
      · intro h
        rw [← wordsOf_dropWhile] at h
        by_contra hne
        have hx := head_dropWhile (p := isSpace) r
        obtain ⟨c, l, hc⟩ := List.exists_cons_of_ne_nil hne
        have hcc := hx c (by rw [hc]; simp)
        have hs : (r.dropWhile isSpace).takeWhile (fun c => !isSpace c) ++ (r.dropWhile isSpace).dropWhile (fun c => !isSpace c) =
          r.dropWhile isSpace := List.takeWhile_append_dropWhile
        rw [← hs, wordsOf_word] at h
        · cases h
        · rw [hc, List.takeWhile_cons_of_pos (by simp [hcc])]; simp
        · intro c hc
          simpa using mem_takeWhile hc
        · intro c hc
          simpa using head_dropWhile (p := fun c => !isSpace c) _ c hc

theorem words_le (s : List Char) : (wordsOf s).length ≤ s.length := by
  generalize hn : (wordsOf s).length = n
  induction n generalizing s with
  | zero => omega
  | succ n ih =>
    have h := scanWord_eq s
    cases hw : wordsOf s with
    | nil => rw [hw] at hn; simp at hn
    | cons w ws =>
      rw [hw] at h hn
      obtain ⟨r, h1, h2, _⟩ := h
      have := ih r (by rw [h2]; simpa using hn)
      have hl : r.length < s.length := by
        unfold scanWord at h1
        simp only at h1
        split_ifs at h1 with h0
        simp only [Option.some.injEq, Prod.mk.injEq] at h1
        obtain ⟨h3, h4⟩ := h1
        have e1 : ∀ (p : Char → Bool) (l : List Char), (l.takeWhile p).length + (l.dropWhile p).length = l.length := fun p l => by
          rw [← List.length_append, List.takeWhile_append_dropWhile]
        have a := e1 isSpace s
        have b := e1 (fun c => !isSpace c) (s.dropWhile isSpace)
        have c := e1 isSpace ((s.dropWhile isSpace).dropWhile fun c => !isSpace c)
        rw [h4] at c
        rw [h3] at b
        have : w ≠ [] := by
          have : w ∈ wordsOf s := by rw [hw]; simp
          unfold wordsOf at this
          simpa using (List.mem_filter.1 this).2
        have := List.length_pos_iff.2 this
        omega
      omega

theorem scan_cons {s : List Char} {w : List Char} {ws : List (List Char)} (h : wordsOf s = w :: ws) :
    ∃ r, scanWord s = some (w, r) ∧ wordsOf r = ws ∧ (r = [] ↔ ws = []) := by
  have := scanWord_eq s
  rw [h] at this
  exact this

theorem scan_nil {s : List Char} (h : wordsOf s = []) : scanWord s = none := by
  have := scanWord_eq s
  rw [h] at this
  exact this

/-- A group up to its end. -/
theorem readGroup_closed : ∀ (g : List (List Char)) (fuel : ℕ) (s label : List Char) (acc rest : List (List Char)),
    label ≠ slashes → slashes ∉ g → wordsOf s = g ++ slashes :: rest → (∀ w ∈ wordsOf s, w.length < 100) → g.length + 1 < fuel →
    ∃ r, readGroup fuel s label acc = .ok (acc ++ label :: g, r) ∧ wordsOf r = rest ∧ (r = [] ↔ rest = [])
  | [], fuel, s, label, acc, rest, hl, _, hs, hf, hn => by
    obtain ⟨f, rfl⟩ : ∃ f, fuel = f + 2 := ⟨fuel - 2, by simp at hn; omega⟩
    obtain ⟨r, h1, h2, h3⟩ := scan_cons hs
    refine ⟨r, ?_, h2, h3⟩
    rw [readGroup, if_neg hl, h1]
    simp only
    rw [if_pos (by decide), readGroup, if_pos rfl]
  | w :: g, fuel, s, label, acc, rest, hl, hg, hs, hf, hn => by
    obtain ⟨f, rfl⟩ : ∃ f, fuel = f + 1 := ⟨fuel - 1, by simp at hn; omega⟩
    obtain ⟨r, h1, h2, h3⟩ := scan_cons hs
    have hw : w ≠ slashes := fun h => hg (by simp [h])
    obtain ⟨r', k1, k2, k3⟩ := readGroup_closed g f r w (acc ++ [label]) rest hw (fun h => hg (by simp [h])) h2
      (fun v hv => hf v (by rw [hs]; rw [h2] at hv; simp at hv ⊢; tauto)) (by simp at hn ⊢; omega)
    refine ⟨r', ?_, k2, k3⟩
    rw [readGroup, if_neg hl, h1]
    simp only
    rw [if_pos (by simpa [fits] using hf w (by rw [hs]; simp)), k1]
    simp

/-- A group that does not end: the program neither. -/
theorem readGroup_open : ∀ (g : List (List Char)) (fuel : ℕ) (s label : List Char) (acc : List (List Char)),
    label ≠ slashes → slashes ∉ g → wordsOf s = g → (∀ w ∈ wordsOf s, w.length < 100) →
    readGroup fuel s label acc = .hang
  | g, 0, _, _, _, _, _, _, _ => rfl
  | [], fuel + 1, s, label, acc, hl, _, hs, _ => by
    rw [readGroup, if_neg hl, scan_nil hs]
  | w :: g, fuel + 1, s, label, acc, hl, hg, hs, hf => by
    obtain ⟨r, h1, h2, h3⟩ := scan_cons hs
    rw [readGroup, if_neg hl, h1]
    simp only
    rw [if_pos (by simpa [fits] using hf w (by rw [hs]; simp))]
    exact readGroup_open g fuel r w _ (fun h => hg (by simp [h])) (fun h => hg (by simp [h])) h2
      (fun v hv => hf v (by rw [hs]; rw [h2] at hv; simp [hv]))

theorem readGroups_eq : ∀ (P : List (List (List Char))) (g : List (List Char)) (fuel : ℕ) (s : List Char) (Q : List (List (List Char))),
    wordsOf s = (P.flatMap fun g => g ++ [slashes]) ++ g → (∀ w ∈ wordsOf s, w.length < 100) → (∀ h ∈ g :: P, slashes ∉ h) →
    P.length + 1 ≤ fuel → wordsOf s ≠ [] →
    readGroups fuel s Q = if g = [] then .ok (Q ++ P) else .hang
  | [], g, fuel, s, Q, hs, hf, hm, hn, h0 => by
    obtain ⟨f, rfl⟩ : ∃ f, fuel = f + 1 := ⟨fuel - 1, by simp at hn; omega⟩
    simp only [List.flatMap_nil, List.nil_append] at hs
    have hg : g ≠ [] := by rwa [hs] at h0
    obtain ⟨w, g, rfl⟩ := List.exists_cons_of_ne_nil hg
    obtain ⟨r, h1, h2, h3⟩ := scan_cons hs
    have hm' := hm (w :: g) (by simp)
    rw [if_neg hg, readGroups, h1]
    simp only
    rw [if_pos (by simpa [fits] using hf w (by rw [hs]; simp)),
      readGroup_open g _ r w [] (fun h => hm' (by simp [h])) (fun h => hm' (by simp [h])) h2
        (fun v hv => hf v (by rw [hs]; rw [h2] at hv; simp [hv]))]
    rfl
  | h :: P, g, fuel, s, Q, hs, hf, hm, hn, h0 => by
    obtain ⟨f, rfl⟩ : ∃ f, fuel = f + 1 := ⟨fuel - 1, by simp at hn; omega⟩
    set rest := (P.flatMap fun g => g ++ [slashes]) ++ g with hrest
    have hs' : wordsOf s = h ++ slashes :: rest := by rw [hs]; simp [hrest]
    have key : ∀ r', wordsOf r' = rest → (r' = [] ↔ rest = []) →
        (if r' = [] then FIO.Rd.ok (Q ++ [h]) else readGroups f r' (Q ++ [h])) = if g = [] then FIO.Rd.ok (Q ++ h :: P) else .hang := by
      intro r' k2 k3
      by_cases hr : rest = []
      · rw [if_pos (k3.2 hr)]
        have : P = [] ∧ g = [] := by
          rw [hrest] at hr
          rw [List.append_eq_nil_iff] at hr
          refine ⟨?_, hr.2⟩
          cases P with
          | nil => rfl
          | cons a b => simp at hr
        rw [this.1, if_pos this.2]
      · rw [if_neg fun h => hr (k3.1 h), readGroups_eq P g f r' (Q ++ [h]) k2
          (fun v hv => hf v (by rw [hs']; rw [k2] at hv; simp [hv])) (fun v hv => hm v (by simp at hv ⊢; tauto))
          (by simp at hn; omega) (by rw [k2]; exact hr)]
        simp
    rw [readGroups]
    cases h with
    | nil =>
      obtain ⟨r, h1, h2, h3⟩ := scan_cons hs'
      rw [h1]
      simp only
      rw [if_pos (by decide), readGroup, if_pos rfl]
      exact key r h2 h3
    | cons w h =>
      obtain ⟨r, h1, h2, h3⟩ := scan_cons hs'
      have hm' := hm (w :: h) (by simp)
      rw [h1]
      simp only
      rw [if_pos (by simpa [fits] using hf w (by rw [hs']; simp))]
      obtain ⟨r', k1, k2, k3⟩ := readGroup_closed h (r.length + 1) r w [] rest (fun h => hm' (by simp [h])) (fun h => hm' (by simp [h])) h2
        (fun v hv => hf v (by rw [hs']; rw [h2] at hv; simp at hv ⊢; tauto)) (by
          have := words_le r
          rw [h2] at this
          simp at this
          omega)
      rw [k1]
      exact key r' k2 k3

theorem FCreatePartition_eq {text : List Char} {P : List (List (List Char))} {g : List (List Char)} (h : SaysGroups text P g) :
    FCreatePartition text = if wordsOf text = [] then .ub else if g = [] then .ok P else .hang := by
  obtain ⟨h1, h2, h3⟩ := h
  rw [endMark_eq] at h1 h3
  unfold FCreatePartition
  split_ifs with h0 hg
  · rw [readGroups, scan_nil h0]
  all_goals
    rw [readGroups_eq P g _ text [] h1 h2 h3 ?_ h0]
    · simp [hg]
    · have := words_le text
      rw [h1] at this
      have hp : P.length ≤ (P.flatMap fun g => g ++ [slashes]).length := by
        clear * -
        induction P with
        | nil => simp
        | cons a P ih => simp at ih ⊢; omega
      simp at this hp
      omega

/-- **C154**: what a file of groups becomes. Whatever the white space, its groups are those between the words `///` in order, also
empty ones. Without a word the label is not initialised; if the last group is not closed the program never ends. -/
theorem C154_groups {files : String → Option (List Char)} {f : String} {text : List Char} (hf : files f = some text)
    {P : List (List (List Char))} {g : List (List Char)} (h : SaysGroups text P g) :
    readPart files f = if wordsOf text = [] then .ub else if g = [] then .ok P else .starved := by
  unfold readPart
  rw [hf]
  simp only [FCreatePartition_eq h]
  split_ifs <;> rfl

/-! ## The program mutualinfo -/

section

variable {α : Type} [DecidableEq α] {P Q : List (List α)}

theorem list_sum_mul {β : Type} (c : ℝ) (F G : β → ℝ) (h : ∀ x, F x = c * G x) (l : List β) : (l.map F).sum = c * (l.map G).sum := by
  induction l with
  | nil => simp
  | cons a l ih => rw [List.map_cons, List.sum_cons, ih, h, List.map_cons, List.sum_cons]; ring

theorem entropy_share {n : ℕ} (hn : 0 < n) (P : List (List α)) : CP.entropy n P = -(n * entropy n P) := by
  have hn' : (n : ℝ) ≠ 0 := by positivity
  rw [CP.entropy_eq, list_sum_mul n _ (fun g => share n g * Real.log (share n g))]
  · unfold entropy; ring
  · intro g
    unfold CP.eterm share
    field_simp

theorem info_share {n : ℕ} (hn : 0 < n) (P Q : List (List α)) : CP.info n P Q = n * commonInfo n P Q := by
  have hn' : (n : ℝ) ≠ 0 := by positivity
  unfold CP.info commonInfo
  apply list_sum_mul
  intro g
  apply list_sum_mul
  intro h
  have hb : CP.overlap g h = (both g h).length := by rw [CP.overlap_filter]; rfl
  unfold CP.jterm share
  rw [hb]
  have e : ((both g h).length : ℝ) * n / (g.length * h.length) = (both g h).length / n / (g.length / n * (h.length / n)) := by
    by_cases h1 : (g.length : ℝ) = 0
    · simp [h1]
    by_cases h2 : (h.length : ℝ) = 0
    · simp [h2]
    field_simp
  rw [e]
  field_simp

theorem MutualInformation_eq (h : CP.SameNodes P Q) (hI : P.flatten.length ≤ 46340) (hd : CP.Divided P ∨ CP.Divided Q) :
    CP.MutualInformation P Q = some (2 * commonInfo P.flatten.length P Q / (entropy P.flatten.length P + entropy P.flatten.length Q)) := by
  have hS : 0 < P.flatten.length := by
    rcases hd with ⟨x, hx, _⟩ | ⟨x, hx, _⟩
    · exact List.length_pos_of_mem hx
    · exact List.length_pos_of_mem ((h.same x).2 hx)
  have hI' : P.flatten.length * P.flatten.length ≤ CP.INT_MAX :=
    (Nat.mul_le_mul hI hI).trans (by unfold CP.INT_MAX; norm_num)
  obtain ⟨x, hx, _⟩ := CP.C26_mutualInformation h hI hd
  rw [CP.value h hI'] at hx ⊢
  split_ifs at hx ⊢ with h0
  congr 1
  rw [info_share hS, entropy_share hS, entropy_share hS]
  rw [entropy_share hS, entropy_share hS] at h0
  have hn' : (P.flatten.length : ℝ) ≠ 0 := by positivity
  have h0' : entropy P.flatten.length P + entropy P.flatten.length Q ≠ 0 := fun h => h0 (by linear_combination (-(P.flatten.length : ℝ)) * h)
  have h0'' : -(↑P.flatten.length * entropy P.flatten.length P) + -(↑P.flatten.length * entropy P.flatten.length Q) ≠ 0 := h0
  rw [div_eq_div_iff h0'' h0']
  ring

end

/-- Two files of groups of the same labels. -/
structure TwoFiles (files : String → Option (List Char)) (f1 f2 : String) (P Q : List (List (List Char))) : Prop where
  first : ∃ text, files f1 = some text ∧ SaysGroups text P []
  second : ∃ text, files f2 = some text ∧ SaysGroups text Q []
  some1 : P ≠ []
  some2 : Q ≠ []
  same : CP.SameNodes P Q

theorem readPart_ok {files : String → Option (List Char)} {f : String} {P : List (List (List Char))}
    (h : ∃ text, files f = some text ∧ SaysGroups text P []) (h0 : P ≠ []) : readPart files f = .ok P := by
  obtain ⟨text, h1, h2⟩ := h
  rw [C154_groups h1 h2, if_neg, if_pos rfl]
  rw [h2.words]
  obtain ⟨g, P, rfl⟩ := List.exists_cons_of_ne_nil h0
  simp

/-- **C154**: the program mutualinfo prints the normalized mutual information `2 I / (H + H')` of two divisions of the same labels, of
which one has at least two groups that are not empty. It is between 0 and 1, does not depend on the order of the two files, and is 1
exactly if the groups are the same. -/
theorem C154_mutualinfo {files : String → Option (List Char)} {f1 f2 : String} {P Q : List (List (List Char))}
    (h : TwoFiles files f1 f2 P Q) (hI : P.flatten.length ≤ 46340) (hd : CP.Divided P ∨ CP.Divided Q) (rest : List String) :
    ∃ x, x = 2 * commonInfo P.flatten.length P Q / (entropy P.flatten.length P + entropy P.flatten.length Q) ∧
      mutualinfo files (f1 :: f2 :: rest) = .ok (some x) ∧ mutualinfo files (f2 :: f1 :: rest) = .ok (some x) ∧
      0 ≤ x ∧ x ≤ 1 ∧ (x = 1 ↔ ∀ u v, CP.Together P u v ↔ CP.Together Q u v) := by
  obtain ⟨x, h1, h2, h3, h4, h5⟩ := CP.C26_mutualInformation h.same hI hd
  have e := MutualInformation_eq h.same hI hd
  rw [h1, Option.some.injEq] at e
  refine ⟨x, e, ?_, ?_, h3, h4, h5⟩
  all_goals
    unfold mutualinfo
    simp only [readPart_ok h.first h.some1, readPart_ok h.second h.some2, RG.Res.bind_ok, h1, h2]
    rfl

/-- If all labels are in one group in both files the number is 0/0. -/
theorem C154_undivided {files : String → Option (List Char)} {f1 f2 : String} {P Q : List (List (List Char))}
    (h : TwoFiles files f1 f2 P Q) (hI : P.flatten.length ≤ 46340) (h1 : ¬ CP.Divided P) (h2 : ¬ CP.Divided Q) (rest : List String) :
    mutualinfo files (f1 :: f2 :: rest) = .ok none := by
  unfold mutualinfo
  simp only [readPart_ok h.first h.some1, readPart_ok h.second h.some2, RG.Res.bind_ok, CP.C26_undivided h.same hI h1 h2]
  rfl

/-- With fewer than two arguments, or a file that is not there or without a word, there is undefined behaviour; with a first file
whose last group is not closed the program does not end. -/
theorem C154_crash (files : String → Option (List Char)) :
    mutualinfo files [] = .ub ∧ (∀ f, mutualinfo files [f] = .ub) ∧
    (∀ f argv, files f = none ∨ (∃ text, files f = some text ∧ wordsOf text = []) → mutualinfo files (f :: argv) = .ub) ∧
    ∀ f text P g, files f = some text → SaysGroups text P g → g ≠ [] → ∀ f' argv, mutualinfo files (f :: f' :: argv) = .starved := by
  refine ⟨rfl, fun _ => rfl, ?_, ?_⟩
  · intro f argv h
    have : readPart files f = .ub := by
      rcases h with h | ⟨text, h, h0⟩
      · unfold readPart; rw [h]
      · rw [C154_groups h (P := []) (g := []) ⟨by simp [h0], by simp [h0], by simp⟩, if_pos h0]
    cases argv with
    | nil => rfl
    | cons f' argv => simp only [mutualinfo, this]; rfl
  · intro f text P g h1 h2 h3 f' argv
    have h0 : wordsOf text ≠ [] := by
      rw [h2.words]
      simp [h3]
    simp only [mutualinfo]
    rw [C154_groups h1 h2, if_neg h0, if_neg h3]
    rfl

/-! ## Examples -/

/-- A file of groups with all kinds of white space and an empty group. -/
def textG : List Char := "a b\n ///\tc\n\n/// ///\n".toList

theorem saysG : SaysGroups textG [["a".toList, "b".toList], ["c".toList], []] [] :=
  ⟨by decide, by decide, by decide⟩

example : readPart (fun _ => some textG) "f" = .ok [["a".toList, "b".toList], ["c".toList], []] :=
  readPart_ok ⟨_, rfl, saysG⟩ (by simp)

/-- The same labels in other groups. -/
def textH : List Char := "c ///\na\n///\nb\n///".toList

theorem saysH : SaysGroups textH [["c".toList], ["a".toList], ["b".toList]] [] :=
  ⟨by decide, by decide, by decide⟩

theorem twoGH : TwoFiles (fun f => if f = "g" then some textG else some textH) "g" "h"
    [["a".toList, "b".toList], ["c".toList], []] [["c".toList], ["a".toList], ["b".toList]] :=
  ⟨⟨_, rfl, saysG⟩, ⟨_, rfl, saysH⟩, by simp, by simp, ⟨by decide, by decide, fun x => by simp; tauto⟩⟩

theorem dividedG : CP.Divided [["a".toList, "b".toList], ["c".toList], []] := by
  refine ⟨"a".toList, by simp, "c".toList, by simp, ?_⟩
  rintro ⟨g, hg, h1, h2⟩
  simp only [List.mem_cons, List.not_mem_nil, or_false] at hg
  rcases hg with rfl | rfl | rfl <;> revert h1 h2 <;> decide

example : ∃ x, mutualinfo (fun f => if f = "g" then some textG else some textH) ["g", "h"] = .ok (some x) ∧ x ≠ 1 := by
  obtain ⟨x, _, h1, _, _, _, h2⟩ := C154_mutualinfo twoGH (by decide) (Or.inl dividedG) []
  refine ⟨x, h1, fun h => ?_⟩
  obtain ⟨g, hg, k1, k2⟩ := (h2.1 h "a".toList "b".toList).1 ⟨_, by simp; left; rfl, by decide, by decide⟩
  simp only [List.mem_cons, List.not_mem_nil, or_false] at hg
  rcases hg with rfl | rfl | rfl <;> revert k1 k2 <;> decide

example : mutualinfo (fun _ => some textG) ["f", "f"] = .ok (some 1) := by
  obtain ⟨x, _, h1, _, _, _, h2⟩ := C154_mutualinfo (files := fun _ => some textG) (f1 := "f") (f2 := "f")
    ⟨⟨_, rfl, saysG⟩, ⟨_, rfl, saysG⟩, by simp, by simp, ⟨by decide, by decide, fun _ => Iff.rfl⟩⟩ (by decide) (Or.inl dividedG) []
  rw [h1, h2.2 fun _ _ => Iff.rfl]

example : mutualinfo (fun _ => some "a b ///".toList) ["f", "f"] = .ok none := by
  have hn : ¬ CP.Divided [["a".toList, "b".toList]] := by
    rintro ⟨x, hx, y, hy, h⟩
    exact h ⟨_, List.mem_singleton.2 rfl, by simpa using hx, by simpa using hy⟩
  have hs : SaysGroups "a b ///".toList [["a".toList, "b".toList]] [] := ⟨by decide, by decide, by decide⟩
  exact C154_undivided ⟨⟨_, rfl, hs⟩, ⟨_, rfl, hs⟩, by simp, by simp, ⟨by decide, by decide, fun _ => Iff.rfl⟩⟩ (by decide) hn hn []

/-- Without `///` at the end the program never ends. -/
example : mutualinfo (fun _ => some "a /// b".toList) ["f", "f"] = .starved :=
  (C154_crash _).2.2.2 "f" _ [["a".toList]] ["b".toList] rfl ⟨by decide, by decide, by decide⟩ (by simp) _ _

end PG
