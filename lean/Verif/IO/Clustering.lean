import Verif.IO.Partition
import Verif.IO.Assign
import Verif.NC.Props

/-! # C14: clusterings written and read by netcarto -/

set_option linter.unusedSimpArgs false

namespace FIO

open NC

/-! ## What is read from a clean file -/

theorem findLabel_eq {labels : ℕ → List Char} {N i : ℕ} (hi : i < N) (hinj : ∀ a < N, ∀ b < N, labels a = labels b → a = b) :
    findLabel labels N (labels i) = some i := by
  unfold findLabel
  have : ((List.range N).find? fun a => labels a = labels i).isSome := by
    rw [List.find?_isSome]; exact ⟨i, by simpa using hi, by simp⟩
  obtain ⟨a, ha⟩ := Option.isSome_iff_exists.1 this
  rw [ha]
  have h1 := List.find?_some ha
  have h2 := List.mem_of_find?_eq_some ha
  simp at h1 h2
  rw [hinj a h2 i hi h1]

theorem ids_line (labels : ℕ → List Char) (N : ℕ) (hinj : ∀ a < N, ∀ b < N, labels a = labels b → a = b) :
    ∀ (g : List ℕ) (p : Partition) (seq : ℕ → List ℕ) (S : ℕ → Prop) (j : ℕ) (nn : Int), g ≠ [] → g.Nodup → (∀ x ∈ g, x < N ∧ ¬ S x) →
    PW p seq S → p.N = N → j < p.M → (∀ x, ¬ S x → x < N → (p.nodes x).next = none ∧ (p.nodes x).prev = none) →
    ∃ p' seq', foldRd (assignStep labels) { p := p, j := j, nnode := nn } (lineItems (g.map labels)) =
        .ok { p := p', j := j + 1, nnode := nn - g.length } ∧ PW p' seq' (fun x => S x ∨ x ∈ g) ∧ p'.N = N ∧ p'.M = p.M ∧
      (∀ x, (p'.nodes x).module = if x ∈ g then j else (p.nodes x).module) ∧ (∀ x, (p'.nodes x).id = (p.nodes x).id) ∧
      (∀ x, (p'.nodes x).strength = (p.nodes x).strength) ∧
      (∀ x, ¬ S x → x ∉ g → p'.nodes x = p.nodes x)
  | [], _, _, _, _, _, h, _, _, _, _, _, _ => absurd rfl h
  | [a], p, seq, S, j, nn, _, _, hg, hp, hN, hj, hfree => by
    obtain ⟨haN, haS⟩ := hg a (by simp)
    obtain ⟨p', e, hp', hN', hM', hs', hm', hi', hx'⟩ := assignOne_any hp hj haS (hfree a haS haN).1 (hfree a haS haN).2
    refine ⟨p', _, ?_, by simpa using hp', hN'.trans hN, hM', by simpa using hm', hi', hs', by simpa using hx'⟩
    simp only [List.map_cons, List.map_nil, lineItems, foldRd, assignStep, hN, findLabel_eq haN hinj, e, Rd.ofOption, Rd.bind, if_true]
    simp
  | a :: b :: g, p, seq, S, j, nn, _, hnd, hg, hp, hN, hj, hfree => by
    obtain ⟨haN, haS⟩ := hg a (by simp)
    obtain ⟨p1, e, hp1, hN1, hM1, hs1, hm1, hi1, hx1⟩ := assignOne_any hp hj haS (hfree a haS haN).1 (hfree a haS haN).2
    rw [List.nodup_cons] at hnd
    obtain ⟨p', seq', e', hp', hN', hM', hm', hi', hs', hx'⟩ := ids_line labels N hinj (b :: g) p1 _ _ j (nn - 1) (by simp) hnd.2
      (fun x hx => ⟨(hg x (by simp at hx ⊢; tauto)).1, by
        rintro (h1 | rfl)
        · exact (hg x (by simp at hx ⊢; tauto)).2 h1
        · exact hnd.1 hx⟩) hp1 (hN1.trans hN) (by rw [hM1]; exact hj)
      (fun x hx hxN => by
        rw [hx1 x (fun h => hx (Or.inl h)) (fun h => hx (Or.inr h))]
        exact hfree x (fun h => hx (Or.inl h)) hxN)
    refine ⟨p', seq', ?_, ?_, hN', hM'.trans hM1, ?_, fun x => (hi' x).trans (hi1 x), fun x => (hs' x).trans (hs1 x), ?_⟩
    · simp only [List.map_cons, lineItems, foldRd, assignStep, hN, findLabel_eq haN hinj, e, Rd.ofOption, Rd.bind,
        show ('\t' = '\n') = False by decide, if_false]
      simp only [List.map_cons] at e'
      rw [e']
      congr 2
      simp only [List.length_cons]; push_cast; ring
    · have : (fun x => (S x ∨ x = a) ∨ x ∈ b :: g) = fun x => S x ∨ x ∈ a :: b :: g := by
        funext x; simp only [List.mem_cons]; exact propext or_assoc
      rw [← this]; exact hp'
    · intro x
      rw [hm', hm1]
      by_cases h1 : x = a
      · subst h1; simp [hnd.1]
      · simp [h1]
    · intro x hx hxg
      simp only [List.mem_cons, not_or] at hxg
      rw [hx' x (by rintro (h | h); exacts [hx h, hxg.1 h]) (by simp [hxg]), hx1 x hx hxg.1]

theorem ids_lines (labels : ℕ → List Char) (N : ℕ) (hinj : ∀ a < N, ∀ b < N, labels a = labels b → a = b) :
    ∀ (G : List (List ℕ)) (p : Partition) (seq : ℕ → List ℕ) (S : ℕ → Prop) (j : ℕ) (nn : Int), (∀ g ∈ G, g ≠ []) → G.flatten.Nodup →
    (∀ x ∈ G.flatten, x < N ∧ ¬ S x) → PW p seq S → p.N = N → j + G.length ≤ p.M →
    (∀ x, ¬ S x → x < N → (p.nodes x).next = none ∧ (p.nodes x).prev = none) →
    ∃ p' seq', foldRd (assignStep labels) { p := p, j := j, nnode := nn } ((G.map (·.map labels)).flatMap lineItems) =
        .ok { p := p', j := j + G.length, nnode := nn - G.flatten.length } ∧ PW p' seq' (fun x => S x ∨ x ∈ G.flatten) ∧ p'.N = N ∧
      p'.M = p.M ∧ (∀ k g, G[k]? = some g → ∀ x ∈ g, (p'.nodes x).module = j + k) ∧
      (∀ x, x ∉ G.flatten → (p'.nodes x).module = (p.nodes x).module) ∧ (∀ x, (p'.nodes x).id = (p.nodes x).id) ∧
      (∀ x, (p'.nodes x).strength = (p.nodes x).strength)
  | [], p, seq, S, j, nn, _, _, _, hp, hN, _, _ => by
    refine ⟨p, seq, ?_, by simpa using hp, hN, rfl, by simp, by simp, by simp, by simp⟩
    simp [foldRd]
  | g :: G, p, seq, S, j, nn, hne, hnd, hg, hp, hN, hj, hfree => by
    simp only [List.flatten_cons] at hnd hg
    rw [List.nodup_append] at hnd
    obtain ⟨nd1, nd2, nd3⟩ := hnd
    obtain ⟨p1, seq1, e1, hp1, hN1, hM1, hm1, hi1, hs1, hx1⟩ := ids_line labels N hinj g p seq S j nn (hne g (by simp)) nd1
      (fun x hx => hg x (by simp [hx])) hp hN (by simp at hj; omega) hfree
    obtain ⟨p', seq', e', hp', hN', hM', hm', ho', hi', hs'⟩ := ids_lines labels N hinj G p1 seq1 _ (j + 1) (nn - g.length)
      (fun g hg => hne g (by simp [hg])) nd2 (fun x hx => ⟨(hg x (by simp only [List.mem_append]; exact Or.inr hx)).1, by
        rintro (h1 | h1)
        · exact (hg x (by simp only [List.mem_append]; exact Or.inr hx)).2 h1
        · exact nd3 x h1 x hx rfl⟩) hp1 hN1 (by rw [hM1]; simp at hj; omega)
      (fun x hx hxN => by
        rw [hx1 x (fun h => hx (Or.inl h)) (fun h => hx (Or.inr h))]
        exact hfree x (fun h => hx (Or.inl h)) hxN)
    refine ⟨p', seq', ?_, ?_, hN', hM'.trans hM1, ?_, ?_, fun x => (hi' x).trans (hi1 x), fun x => (hs' x).trans (hs1 x)⟩
    · rw [List.map_cons, List.flatMap_cons, foldRd_append, e1]
      simp only [Rd.bind]
      rw [e']
      congr 2
      · simp only [List.length_cons]; omega
      · simp only [List.flatten_cons, List.length_append]; push_cast; ring
    · have : (fun x => (S x ∨ x ∈ g) ∨ x ∈ G.flatten) = fun x => S x ∨ x ∈ (g :: G).flatten := by
        funext x; simp only [List.flatten_cons, List.mem_append]; exact propext or_assoc
      rw [← this]; exact hp'
    · intro k h hk x hx
      cases k with
      | zero =>
        simp at hk; subst hk
        rw [ho' x (fun hh => nd3 x hx x hh rfl), hm1, if_pos hx]; omega
      | succ k =>
        simp at hk
        rw [hm' k h hk x hx]; omega
    · intro x hx
      simp only [List.flatten_cons, List.mem_append, not_or] at hx
      rw [ho' x hx.2, hm1, if_neg hx.1]

/-- **C14**, partial: the full claim is that reading what `ClusteringOutput` has written gives back the clustering
(`C14_round_trip_fails` shows that it never does). Here the reader gets a clean file instead (no separator at the end of the lines,
no empty lines) with the groups `G` of nodes: the result is a consistent partition without empty modules whose module `k` is
the group of line `k`, and no node is left. -/
theorem C14_read_partial {labels : ℕ → List Char} {p : Partition} (hf : Fresh p) (hN : 0 < p.N) (hinj : ∀ a < p.N, ∀ b < p.N, labels a = labels b → a = b)
    (hl : ∀ i < p.N, GoodLabel (labels i)) {G : List (List ℕ)} (hne : ∀ g ∈ G, g ≠ []) (hnd : G.flatten.Nodup)
    (hmem : ∀ i, i ∈ G.flatten ↔ i < p.N) (hM : G.length ≤ p.M) :
    ∃ p', AssignNodesToModulesFromFile (lines (G.map (·.map labels))) p labels = .ok (0, p') ∧ Consistent p' ∧ p'.N = p.N ∧
      p'.M = G.length ∧ (∀ k g, G[k]? = some g → ∀ i ∈ g, labelOf p' i = k) ∧ (∀ i < p.N, strengthOf p' i = strengthOf p i) := by
  obtain ⟨q, seq, e, hq, hqN, hqM, hqm, _, hqi, hqs⟩ := ids_lines labels p.N hinj G p _ _ 0 p.N hne hnd
    (fun x hx => ⟨(hmem x).1 hx, id⟩) hf.pw rfl (by omega) (fun x _ hx => ⟨hf.next x hx, hf.prev x hx⟩)
  have hlen : (G.flatten.length : Int) = p.N := by
    have : G.flatten.toFinset = Finset.range p.N := by ext i; rw [List.mem_toFinset, hmem, Finset.mem_range]
    have h2 := List.toFinset_card_of_nodup hnd
    rw [this, Finset.card_range] at h2
    rw [← h2]
  have hw : WF q seq := hq.wf (fun i => by rw [hqN, ← hmem i]; simp) (fun i hi => by rw [hqi]; exact hf.id i (by omega))
  have hc := hw.consistent
  obtain ⟨p', hr, hc', hN', hsum, _, hall, _, hkeep, hst, _⟩ := C05_compress hc (by omega)
  have hgroup : ∀ i < p.N, ∃ k g, G[k]? = some g ∧ i ∈ g ∧ k < G.length := by
    intro i hi
    obtain ⟨g, hg, hig⟩ := List.mem_flatten.1 ((hmem i).2 hi)
    obtain ⟨k, hk, e⟩ := List.mem_iff_getElem.1 hg
    exact ⟨k, g, by rw [List.getElem?_eq_getElem hk, e], hig, hk⟩
  have hnempty : q.nempty + G.length ≤ q.M := by
    rw [hc.empty]
    have hsub : (Finset.range q.M).filter (fun m => ∀ i < q.N, (q.nodes i).module ≠ m) ⊆ (Finset.range q.M) \ (Finset.range G.length) := by
      intro m hm
      rw [Finset.mem_filter] at hm
      rw [Finset.mem_sdiff]
      refine ⟨hm.1, fun hmG => ?_⟩
      rw [Finset.mem_range] at hmG
      have hmem' := List.getElem_mem hmG
      obtain ⟨i, hi⟩ := List.exists_mem_of_ne_nil _ (hne _ hmem')
      have hiN : i < p.N := (hmem i).1 (List.mem_flatten.2 ⟨_, hmem', hi⟩)
      exact hm.2 i (by omega) (by rw [hqm m _ (List.getElem?_eq_getElem hmG) i hi]; omega)
    have h1 := Finset.card_le_card hsub
    rw [Finset.card_sdiff_of_subset (by intro x hx; rw [Finset.mem_range] at *; omega), Finset.card_range, Finset.card_range] at h1
    omega
  have hlab : ∀ k g, G[k]? = some g → ∀ i ∈ g, labelOf p' i = k := by
    intro k g hk i hi
    have hkl : k < G.length := (List.getElem?_eq_some_iff.1 hk).1
    have hiN : i < p.N := (hmem i).1 (List.mem_flatten.2 ⟨g, List.mem_of_getElem? hk, hi⟩)
    have : labelOf q i = k := by have := hqm k g hk i hi; unfold labelOf; omega
    rw [← this]
    exact hkeep i (by omega) (by omega)
  refine ⟨p', ?_, hc', hN'.trans hqN, ?_, hlab, ?_⟩
  · unfold AssignNodesToModulesFromFile
    have hG : G ≠ [] := by
      rintro rfl
      have := (hmem 0).2 hN
      simp at this
    rw [scan_lines _ _ (by simpa using hG)
      (by intro g hg; obtain ⟨h, hh, rfl⟩ := List.mem_map.1 hg; simpa using hne h hh)
      (by
        intro g hg l hl'
        obtain ⟨h, hh, rfl⟩ := List.mem_map.1 hg
        obtain ⟨i, hi, rfl⟩ := List.mem_map.1 hl'
        exact hl i ((hmem i).1 (List.mem_flatten.2 ⟨h, hh, hi⟩))), e]
    simp only [Rd.bind, hr, Rd.ofOption, hlen, sub_self]
  · have h1 : G.length ≤ p'.M := by omega
    have h2 : p'.M ≤ G.length := by
      by_contra hlt
      obtain ⟨i, hi, e⟩ := hall G.length (by omega)
      obtain ⟨k, g, hk, hig, hkl⟩ := hgroup i (by omega)
      rw [hlab k g hk i hig] at e
      omega
    omega
  · intro i hi
    rw [hst i (by omega)]
    exact hqs i

/-! ## What `ClusteringOutput` writes -/

/-- The text for the modules. -/
def clusterText (labels : ℕ → List Char) (L : List (List ℕ)) : List Char :=
  L.flatMap fun l => l.flatMap (fun i => labels i ++ ['\t']) ++ ['\n']

theorem output_eq {p : Partition} {seq : ℕ → List ℕ} (h : WF p seq) (labels : ℕ → List Char) :
    ClusteringOutput p labels = some (clusterText labels ((List.range p.M).map seq)) := by
  have inner : ∀ (l : List ℕ) (out : List Char), (∀ i ∈ l, (p.nodes i).id = i) →
      l.foldl (fun out i => out ++ labels (p.nodes i).id ++ ['\t']) out = out ++ l.flatMap (fun i => labels i ++ ['\t']) := by
    intro l
    induction l with
    | nil => intro out _; simp
    | cons a l ih => intro out hl; rw [List.foldl_cons, ih _ fun i hi => hl i (by simp [hi]), hl a (by simp)]; simp
  have outer : ∀ (ms : List ℕ) (out : List Char), (∀ m ∈ ms, m < p.M) → ms.foldlM (fun out m => do
      let l ← moduleNodes p m
      some (l.foldl (fun out i => out ++ labels (p.nodes i).id ++ ['\t']) out ++ ['\n'])) out =
      some (out ++ clusterText labels (ms.map seq)) := by
    intro ms
    induction ms with
    | nil => intro out _; simp [clusterText]
    | cons m ms ih =>
      intro out hm
      have hm' := hm m (by simp)
      rw [List.foldlM_cons, h.moduleNodes hm']
      simp only [Option.bind_eq_bind, Option.bind_some]
      rw [inner _ _ fun i hi => h.nodeId i ((h.mem m hm' i).1 hi).1]
      simp only [Option.bind_eq_bind] at ih
      rw [ih _ fun x hx => hm x (by simp [hx])]
      simp [clusterText]
  exact outer _ _ (by simp)

theorem assignStep_not_hang (labels : ℕ → List Char) (st l c) : assignStep labels st l c ≠ .hang := by
  unfold assignStep
  cases findLabel labels st.p.N l with
  | none => simp
  | some i =>
    cases h : assignOne st.p i st.j with
    | none => simp [h, Rd.ofOption, Rd.bind]
    | some p => simp [h, Rd.ofOption, Rd.bind]

/-- A line as `ClusteringOutput` writes it overflows `sep`. -/
theorem scan_line_ub (labels labels' : ℕ → List Char) : ∀ (l : List ℕ) (fuel : ℕ) (old : Option Char) (st : ASt) (rest : List Char), l ≠ [] →
    (∀ i ∈ l, labels i ≠ [] ∧ ∀ c ∈ labels i, isSep c = false) → l.length ≤ fuel →
    scanLoop (assignStep labels') fuel old st (l.flatMap (fun i => labels i ++ ['\t']) ++ '\n' :: rest) = .ub
  | [], _, _, _, _, h, _, _ => absurd rfl h
  | i :: l, fuel, old, st, rest, _, hl, hf => by
    obtain ⟨f, rfl⟩ : ∃ f, fuel = f + 1 := ⟨fuel - 1, by simp at hf; omega⟩
    obtain ⟨hne, hsep⟩ := hl i (by simp)
    generalize hw : labels i = w at hne hsep
    obtain ⟨x, w', rfl⟩ : ∃ x w', w = x :: w' := by
      cases w with
      | nil => exact absurd rfl hne
      | cons x w' => exact ⟨x, w', rfl⟩
    rw [List.flatMap_cons, hw]
    generalize hr : l.flatMap (fun i => labels i ++ ['\t']) ++ '\n' :: rest = r
    have e : (x :: w' ++ ['\t']) ++ l.flatMap (fun i => labels i ++ ['\t']) ++ '\n' :: rest = x :: w' ++ '\t' :: r := by
      rw [← hr]; simp
    rw [e]
    obtain ⟨a, b⟩ := takeWhile_append_stop (f := fun c => !isSep c) (l := x :: w') (r := '\t' :: r)
      (fun c hc => by simp [hsep c hc]) (by simp; decide)
    by_cases hfit : fits (x :: w') = true
    · by_cases hlnil : l = []
      · subst hlnil
        have hs : scanLabel old (x :: w' ++ '\t' :: r) = .ub := by
          unfold scanLabel
          simp only [a, b]
          rw [if_neg (by simp [hfit]), ← hr]
          simp [isSep]
        rw [List.cons_append] at hs ⊢
        rw [scanLoop]
        simp only [hsep x (by simp), Bool.false_eq_true, if_false, hs, Rd.bind]
      · have hhead : ∀ c ∈ r.head?, isSep c = false := by
          intro c hc
          rw [← hr] at hc
          cases l with
          | nil => exact absurd rfl hlnil
          | cons k l =>
            obtain ⟨hne', hsep'⟩ := hl k (by simp)
            cases hv : labels k with
            | nil => exact absurd hv hne'
            | cons y v =>
              rw [hv] at hsep'
              rw [List.flatMap_cons, hv] at hc
              simp at hc; subst hc; exact hsep' y (by simp)
        have hs : scanLabel old (x :: w' ++ '\t' :: r) = .ok (x :: w', some '\t', r) := by
          obtain ⟨a', b'⟩ := takeWhile_append_stop (f := isSep) (l := ['\t']) (r := r) (by simp; decide) hhead
          simp only [List.singleton_append] at a' b'
          unfold scanLabel
          simp only [a, b, a', b']
          rw [if_neg (by simp [hfit])]
        rw [List.cons_append] at hs ⊢
        rw [scanLoop]
        simp only [hsep x (by simp), Bool.false_eq_true, if_false, hs, Rd.bind]
        cases hst : assignStep labels' st (x :: w') '\t' with
        | ub => rfl
        | hang => exact absurd hst (assignStep_not_hang _ _ _ _)
        | ok st' =>
          simp only
          have hrn : r ≠ [] := by rw [← hr]; simp
          rw [if_neg hrn, ← hr]
          exact scan_line_ub labels labels' l f _ st' rest hlnil (fun i hi => hl i (by simp [hi])) (by simp at hf; omega)
    · have hs : scanLabel old (x :: w' ++ '\t' :: r) = .ub := by
        unfold scanLabel
        simp only [a]
        rw [if_pos hfit]
      rw [List.cons_append] at hs ⊢
      rw [scanLoop]
      simp only [hsep x (by simp), Bool.false_eq_true, if_false, hs, Rd.bind]

/-- **C14**, refuted: no clustering written by `ClusteringOutput` can be read back. The tabulation after the last label of the
first line and the end of the line overflow `sep`; and if the first module is empty the reader never ends. This is so for every
consistent partition, whatever the partition `q` and the labels given to the reader. -/
theorem C14_round_trip_fails {p : Partition} (h : Consistent p) (hN : 0 < p.N) {labels : ℕ → List Char} (hl : ∀ i < p.N, GoodLabel (labels i))
    (q : Partition) (labels' : ℕ → List Char) : ∃ s, ClusteringOutput p labels = some s ∧
      ((∃ i < p.N, labelOf p i = 0) → AssignNodesToModulesFromFile s q labels' = .ub) ∧
      ((¬ ∃ i < p.N, labelOf p i = 0) → AssignNodesToModulesFromFile s q labels' = .hang) := by
  obtain ⟨seq, hw⟩ := h.wf
  have hM : 0 < p.M := by have := h.label 0 hN; omega
  refine ⟨_, output_eq hw labels, ?_, ?_⟩
  all_goals obtain ⟨M, hM'⟩ : ∃ M, p.M = M + 1 := ⟨p.M - 1, by omega⟩
  all_goals rw [hM', List.range_succ_eq_map, List.map_cons]
  all_goals unfold clusterText
  all_goals rw [List.flatMap_cons]
  · rintro ⟨i, hi, h0⟩
    have hi0 : i ∈ seq 0 := (hw.mem 0 hM i).2 ⟨hi, h0⟩
    have hne : seq 0 ≠ [] := by intro hh; rw [hh] at hi0; simp at hi0
    rw [List.append_assoc, List.singleton_append]
    unfold AssignNodesToModulesFromFile
    rw [scan_line_ub labels labels' (seq 0) _ none _ _ hne
      (fun i hi => by have := hl i ((hw.mem 0 hM i).1 hi).1; exact ⟨this.nonempty, this.noSep⟩)
      (by
        simp only [List.length_append, List.length_flatMap]
        have : (seq 0).length ≤ ((seq 0).map fun i => (labels i).length + ['\t'].length).sum := by
          generalize seq 0 = l
          induction l with
          | nil => simp
          | cons a l ih => simp at ih ⊢; omega
        omega)]
    rfl
  · intro hno
    have hne : seq 0 = [] := by
      rw [List.eq_nil_iff_forall_not_mem]
      intro i hi
      have := (hw.mem 0 hM i).1 hi
      exact hno ⟨i, this.1, this.2⟩
    rw [hne]
    rfl

/-! ## Examples -/

/-- Three nodes in two modules. -/
def fresh3 : Partition :=
  { N := 3, M := 3, nempty := 3
    nodes := fun i => { id := i, module := 0, strength := 1, prev := none, next := none }
    modules := fun m => { id := m, size := 0, strength := 0, first := none, last := none } }

example : Fresh fresh3 := ⟨le_rfl, rfl, fun _ _ => rfl, fun _ _ => rfl, fun _ _ => rfl, fun _ _ => rfl, fun _ _ => rfl,
  fun _ _ => rfl, fun _ _ => rfl, fun _ _ => rfl⟩

/-- Labels `a`, `b`, `c`. -/
def abc (i : ℕ) : List Char := if i = 0 then ['a'] else if i = 1 then ['b'] else ['c']

example : lines [[abc 2, abc 0], [abc 1]] = ['c', '\t', 'a', '\n', 'b', '\n'] := by decide

/-- Modules read from a file. -/
def readModules (s : List Char) : Rd (Int × List ℕ) :=
  (AssignNodesToModulesFromFile s fresh3 abc).bind fun r => .ok (r.1, (List.range 3).map fun i => (r.2.nodes i).module)

example : readModules ['c', '\t', 'a', '\n', 'b', '\n'] = .ok (0, [0, 1, 0]) := by decide +kernel
example : readModules ['c', '\t', 'a', '\t', '\n', 'b', '\t', '\n'] = .ub := by decide +kernel
example : readModules ['\n', 'c', '\t', 'a', '\n'] = .hang := by decide +kernel

end FIO
