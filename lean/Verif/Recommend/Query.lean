import Verif.Recommend.QueryModel
import Verif.Recommend.Score
import Verif.Bipart.Build

/-! # C130, C131: queries and the recommender programs -/

namespace RC

open RG BP

/-! ## Lists of labels -/

theorem firstOf_snoc (xs : List String) (a : String) :
    firstOf (xs ++ [a]) = if a ∈ xs then firstOf xs else firstOf xs ++ [a] := by
  unfold firstOf
  rw [List.reverse_append, List.reverse_singleton, List.singleton_append]
  by_cases h : a ∈ xs
  · rw [if_pos h, List.dedup_cons_of_mem (by simpa using h)]
  · rw [if_neg h, List.dedup_cons_of_notMem (by simpa using h), List.reverse_cons]

theorem mem_firstOf {xs : List String} {a : String} : a ∈ firstOf xs ↔ a ∈ xs := by
  simp [firstOf]

theorem nodup_firstOf (xs : List String) : (firstOf xs).Nodup := by
  unfold firstOf
  exact List.nodup_reverse.2 (List.nodup_dedup _)

theorem firstOf_nodup {xs : List String} (h : xs.Nodup) : firstOf xs = xs := by
  unfold firstOf
  rw [List.Nodup.dedup (List.nodup_reverse.2 h), List.reverse_reverse]

theorem firstOf_append (xs ys : List String) : firstOf (firstOf xs ++ ys) = firstOf (xs ++ ys) := by
  induction ys using List.reverseRecOn with
  | nil => rw [List.append_nil, List.append_nil, firstOf_nodup (nodup_firstOf xs)]
  | append_singleton ys a ih =>
    rw [← List.append_assoc, ← List.append_assoc, firstOf_snoc, firstOf_snoc, ih]
    simp only [List.mem_append, mem_firstOf]

/-! ## Nodes -/

/-- `d` is `b` with more nodes and the same links. -/
structure Ext (b d : LBi) : Prop where
  ok : d.bi.OK
  n1 : b.bi.n1 ≤ d.bi.n1
  n2 : b.bi.n2 ≤ d.bi.n2
  neig1 : d.bi.neig1 = b.bi.neig1
  neig2 : d.bi.neig2 = b.bi.neig2
  label1 : ∀ i < b.bi.n1, d.label1 i = b.label1 i
  label2 : ∀ i < b.bi.n2, d.label2 i = b.label2 i

theorem Ext.refl {b : LBi} (h : b.bi.OK) : Ext b b := ⟨h, le_rfl, le_rfl, rfl, rfl, fun _ _ => rfl, fun _ _ => rfl⟩

theorem Ext.trans {b d e : LBi} (h : Ext b d) (h' : Ext d e) : Ext b e :=
  ⟨h'.ok, h.n1.trans h'.n1, h.n2.trans h'.n2, h'.neig1.trans h.neig1, h'.neig2.trans h.neig2,
    fun i hi => (h'.label1 i (lt_of_lt_of_le hi h.n1)).trans (h.label1 i hi),
    fun i hi => (h'.label2 i (lt_of_lt_of_le hi h.n2)).trans (h.label2 i hi)⟩

theorem find_some {n : ℕ} {label : ℕ → String} {a : String} {i : ℕ} (h : findLabel n label a = some i) :
    i < n ∧ label i = a := by
  unfold findLabel at h
  exact ⟨List.mem_range.1 (List.mem_of_find?_eq_some h), by simpa using List.find?_some h⟩

theorem find_none {n : ℕ} {label : ℕ → String} {a : String} (h : findLabel n label a = none) :
    a ∉ (List.range n).map label := by
  unfold findLabel at h
  rw [List.find?_eq_none] at h
  intro hm
  obtain ⟨i, hi, e⟩ := List.mem_map.1 hm
  exact h i hi (by simpa using e)

theorem find_at {n : ℕ} {label : ℕ → String} {i : ℕ} (hd : ((List.range n).map label).Nodup) (hi : i < n) :
    findLabel n label (label i) = some i := by
  cases h : findLabel n label (label i) with
  | none => exact absurd (List.mem_map.2 ⟨i, List.mem_range.2 hi, rfl⟩) (find_none h)
  | some j =>
    obtain ⟨hj, e⟩ := find_some h
    rw [List.inj_on_of_nodup_map hd (List.mem_range.2 hj) (List.mem_range.2 hi) e]

theorem row_empty {b : Bi} (h : b.OK) : b.neig1 b.n1 = [] ∧ b.neig2 b.n2 = [] := by
  constructor
  · apply List.eq_nil_iff_forall_not_mem.2
    rintro ⟨j, w⟩ hx
    have := h.range2 _ _ ((h.sym _ _ _).1 hx)
    simp at this
  · apply List.eq_nil_iff_forall_not_mem.2
    rintro ⟨j, w⟩ hx
    have := h.range1 _ _ ((h.sym _ _ _).2 hx)
    simp at this

theorem labels_grow {n : ℕ} {label : ℕ → String} {a : String} :
    (List.range (n + 1)).map (Function.update label n a) = (List.range n).map label ++ [a] := by
  rw [List.range_succ, List.map_append]
  congr 1
  · apply List.map_congr_left
    intro i hi
    rw [Function.update_of_ne]
    have := List.mem_range.1 hi
    omega
  · simp

theorem touch1_spec {b : LBi} (h : b.bi.OK) (hd : b.labels1.Nodup) (a : String) :
    Ext b (touch1 b a).2 ∧ (touch1 b a).1 < (touch1 b a).2.bi.n1 ∧ (touch1 b a).2.label1 (touch1 b a).1 = a ∧
      (touch1 b a).2.labels1 = firstOf (b.labels1 ++ [a]) ∧ (touch1 b a).2.labels2 = b.labels2 := by
  unfold touch1
  cases hf : findLabel b.bi.n1 b.label1 a with
  | some i =>
    obtain ⟨hi, e⟩ := find_some hf
    have hm : a ∈ b.labels1 := List.mem_map.2 ⟨i, List.mem_range.2 hi, e⟩
    exact ⟨Ext.refl h, hi, e, by rw [firstOf_snoc, if_pos hm, firstOf_nodup hd], rfl⟩
  | none =>
    have hm : a ∉ b.labels1 := find_none hf
    have hrow : Function.update b.bi.neig1 b.bi.n1 [] = b.bi.neig1 := by
      rw [← (row_empty h).1]; exact Function.update_eq_self _ _
    refine ⟨⟨?_, by simp, le_rfl, hrow, rfl, ?_, fun _ _ => rfl⟩, by simp, by simp, ?_, rfl⟩
    · simp only [hrow]
      exact ⟨h.nodup1, h.nodup2, h.range1, fun i x hx => (h.range2 i x hx).trans (Nat.lt_succ_self _), h.sym⟩
    · intro i hi
      exact Function.update_of_ne (by omega) _ _
    · rw [firstOf_snoc, if_neg hm, firstOf_nodup hd]
      exact labels_grow

theorem touch2_spec {b : LBi} (h : b.bi.OK) (hd : b.labels2.Nodup) (a : String) :
    Ext b (touch2 b a).2 ∧ (touch2 b a).1 < (touch2 b a).2.bi.n2 ∧ (touch2 b a).2.label2 (touch2 b a).1 = a ∧
      (touch2 b a).2.labels2 = firstOf (b.labels2 ++ [a]) ∧ (touch2 b a).2.labels1 = b.labels1 := by
  unfold touch2
  cases hf : findLabel b.bi.n2 b.label2 a with
  | some i =>
    obtain ⟨hi, e⟩ := find_some hf
    have hm : a ∈ b.labels2 := List.mem_map.2 ⟨i, List.mem_range.2 hi, e⟩
    exact ⟨Ext.refl h, hi, e, by rw [firstOf_snoc, if_pos hm, firstOf_nodup hd], rfl⟩
  | none =>
    have hm : a ∉ b.labels2 := find_none hf
    have hrow : Function.update b.bi.neig2 b.bi.n2 [] = b.bi.neig2 := by
      rw [← (row_empty h).2]; exact Function.update_eq_self _ _
    refine ⟨⟨?_, le_rfl, by simp, rfl, hrow, fun _ _ => rfl, ?_⟩, by simp, by simp, ?_, rfl⟩
    · simp only [hrow]
      exact ⟨h.nodup1, h.nodup2, fun i x hx => (h.range1 i x hx).trans (Nat.lt_succ_self _), h.range2, h.sym⟩
    · intro i hi
      exact Function.update_of_ne (by omega) _ _
    · rw [firstOf_snoc, if_neg hm, firstOf_nodup hd]
      exact labels_grow

/-! ## The loop -/

/-- The words of well formed lines of queries. -/
def wordsOf (qs : List (String × String)) : List String := qs.flatMap fun q => [q.1, q.2]

/-- Contents of a buffer after the queries. -/
def lastOr (p : Option String) (f : String × String → String) : List (String × String) → Option String
  | [] => p
  | q :: qs => lastOr (some (f q)) f qs

theorem queryLoop_spec : ∀ (qs : List (String × String)) (k : ℕ) (rest : List String) (p1 p2 : Option String) (b : LBi),
    b.bi.OK → b.labels1.Nodup → b.labels2.Nodup → (∀ q ∈ qs, GR.fits q.1 ∧ GR.fits q.2) →
    ∃ d r, queryLoop (qs.length + k) (wordsOf qs ++ rest) p1 p2 b =
        (queryLoop k rest (lastOr p1 Prod.fst qs) (lastOr p2 Prod.snd qs) d).map (fun x => (x.1, r ++ x.2)) ∧
      Ext b d ∧ d.labels1 = firstOf (b.labels1 ++ qs.map Prod.fst) ∧ d.labels2 = firstOf (b.labels2 ++ qs.map Prod.snd) ∧
      r.map (fun q => (d.label1 q.1, d.label2 q.2)) = qs ∧ ∀ q ∈ r, q.1 < d.bi.n1 ∧ q.2 < d.bi.n2
  | [], k, rest, p1, p2, b, h, h1, h2, _ => by
    refine ⟨b, [], ?_, Ext.refl h, ?_, ?_, rfl, by simp⟩
    · simp only [List.length_nil, Nat.zero_add, wordsOf, List.flatMap_nil, List.nil_append, lastOr]
      cases queryLoop k rest p1 p2 b <;> rfl
    · rw [List.map_nil, List.append_nil, firstOf_nodup h1]
    · rw [List.map_nil, List.append_nil, firstOf_nodup h2]
  | (a, c) :: qs, k, rest, p1, p2, b, h, h1, h2, hq => by
    obtain ⟨e1, l1, n1, m1, s1⟩ := touch1_spec h h1 a
    have h2' : (touch1 b a).2.labels2.Nodup := by rw [s1]; exact h2
    obtain ⟨e2, l2, n2, m2, s2⟩ := touch2_spec e1.ok h2' c
    have h1'' : (touch2 (touch1 b a).2 c).2.labels1.Nodup := by rw [s2, m1]; exact nodup_firstOf _
    have h2'' : (touch2 (touch1 b a).2 c).2.labels2.Nodup := by rw [m2]; exact nodup_firstOf _
    obtain ⟨d, r, hr, hE, hl1, hl2, hlab, hrange⟩ := queryLoop_spec qs k rest (some a) (some c) (touch2 (touch1 b a).2 c).2 e2.ok h1'' h2''
      (fun q hq' => hq q (by simp [hq']))
    refine ⟨d, ((touch1 b a).1, (touch2 (touch1 b a).2 c).1) :: r, ?_, (e1.trans e2).trans hE, ?_, ?_, ?_, ?_⟩
    · have hw : wordsOf ((a, c) :: qs) ++ rest = a :: c :: (wordsOf qs ++ rest) := by simp [wordsOf]
      have hlen : ((a, c) :: qs).length + k = (qs.length + k) + 1 := by simp; omega
      rw [hw, hlen, queryLoop]
      simp only [scanPair]
      rw [if_pos (hq (a, c) (by simp)), hr]
      simp only [lastOr]
      cases queryLoop k rest (lastOr (some a) Prod.fst qs) (lastOr (some c) Prod.snd qs) d <;> rfl
    · rw [hl1, s2, m1, firstOf_append, List.append_assoc, List.map_cons, List.singleton_append]
    · rw [hl2, m2, s1, firstOf_append, List.append_assoc, List.map_cons, List.singleton_append]
    · rw [List.map_cons, hlab]
      congr 1
      refine Prod.ext ?_ ?_
      · exact ((hE.label1 _ (lt_of_lt_of_le l1 e2.n1)).trans (e2.label1 _ l1)).trans n1
      · exact (hE.label2 _ l2).trans n2
    · intro q hq'
      rcases List.mem_cons.1 hq' with rfl | hq'
      · exact ⟨lt_of_lt_of_le (lt_of_lt_of_le l1 e2.n1) hE.n1, lt_of_lt_of_le l2 hE.n2⟩
      · exact hrange q hq'

theorem Ext.has {b d : LBi} (h : b.bi.OK) (e : Ext b d) (x y : String) (w : ℚ) : d.Has x y w ↔ b.Has x y w := by
  unfold LBi.Has
  rw [e.neig1]
  constructor
  · rintro ⟨i, j, _, _, hx, hy, hm⟩
    have hj := h.range1 i _ hm
    have hi := h.range2 j _ ((h.sym i j w).1 hm)
    exact ⟨i, j, hi, hj, by rw [← e.label1 i hi]; exact hx, by rw [← e.label2 j hj]; exact hy, hm⟩
  · rintro ⟨i, j, hi, hj, hx, hy, hm⟩
    exact ⟨i, j, lt_of_lt_of_le hi e.n1, lt_of_lt_of_le hj e.n2, by rw [e.label1 i hi]; exact hx, by rw [e.label2 j hj]; exact hy, hm⟩

/-- **C130**.  Reading well formed queries gives one query per line, in order, to nodes with the labels of the line; labels that the
network does not have yet are appended as nodes without links, once each and in order of appearance; links and labels of the network
stay as they are. -/
theorem C130_queries {b : LBi} (h : b.bi.OK) (h1 : b.labels1.Nodup) (h2 : b.labels2.Nodup) (qs : List (String × String))
    (hq : ∀ q ∈ qs, GR.fits q.1 ∧ GR.fits q.2) :
    ∃ d r, ReadQueries (wordsOf qs) qs.length b = some (d, r) ∧ d.bi.OK ∧
      d.labels1 = firstOf (b.labels1 ++ qs.map Prod.fst) ∧ d.labels2 = firstOf (b.labels2 ++ qs.map Prod.snd) ∧
      (∀ x y w, d.Has x y w ↔ b.Has x y w) ∧
      r.map (fun q => (d.label1 q.1, d.label2 q.2)) = qs ∧ ∀ q ∈ r, q.1 < d.bi.n1 ∧ q.2 < d.bi.n2 := by
  obtain ⟨d, r, hr, hE, hl1, hl2, hlab, hrange⟩ := queryLoop_spec qs 0 [] none none b h h1 h2 hq
  refine ⟨d, r, ?_, hE.ok, hl1, hl2, hE.has h, hlab, hrange⟩
  rw [List.append_nil] at hr
  unfold ReadQueries
  rw [Nat.add_zero] at hr
  rw [hr]
  simp [queryLoop]

theorem lastOr_getLast (p : Option String) (f : String × String → String) : ∀ (qs : List (String × String)) (q : String × String),
    qs.getLast? = some q → lastOr p f qs = some (f q)
  | [x], q, h => by simp at h; subst h; rfl
  | x :: y :: qs, q, h => by
    rw [List.getLast?_cons_cons] at h
    exact lastOr_getLast (some (f x)) f (y :: qs) q h

theorem repeat_query {d : LBi} {i j : ℕ} (h1 : d.labels1.Nodup) (h2 : d.labels2.Nodup) (hi : i < d.bi.n1) (hj : j < d.bi.n2)
    (hf : GR.fits (d.label1 i) ∧ GR.fits (d.label2 j)) : ∀ k, queryLoop k [] (some (d.label1 i)) (some (d.label2 j)) d =
      some (d, List.replicate k (i, j))
  | 0 => rfl
  | k + 1 => by
    have t1 : touch1 d (d.label1 i) = (i, d) := by unfold touch1; rw [find_at h1 hi]
    have t2 : touch2 d (d.label2 j) = (j, d) := by unfold touch2; rw [find_at h2 hj]
    rw [queryLoop]
    simp only [scanPair]
    rw [if_pos hf]
    simp only [t1, t2]
    rw [repeat_query h1 h2 hi hj hf k]
    simp [List.replicate_succ]

/-- **C130** (blank lines).  The number of queries is the number of lines, but `fscanf` skips blank lines: `k` blank lines make the last
query be read `k` more times; a file of blank lines only makes uninitialised buffers be used. -/
theorem C130_blank_lines {b : LBi} (h : b.bi.OK) (h1 : b.labels1.Nodup) (h2 : b.labels2.Nodup) (qs : List (String × String))
    (hq : ∀ q ∈ qs, GR.fits q.1 ∧ GR.fits q.2) (k : ℕ) :
    (qs ≠ [] → ∃ d r, ReadQueries (wordsOf qs) (qs.length + k) b = some (d, r) ∧
      r.map (fun q => (d.label1 q.1, d.label2 q.2)) = qs ++ List.replicate k (qs.getLast?.getD ("", ""))) ∧
    ReadQueries [] (k + 1) b = none := by
  refine ⟨?_, rfl⟩
  intro hne
  obtain ⟨d, r, hr, hE, hl1, hl2, hlab, hrange⟩ := queryLoop_spec qs k [] none none b h h1 h2 hq
  have n1 : d.labels1.Nodup := by rw [hl1]; exact nodup_firstOf _
  have n2 : d.labels2.Nodup := by rw [hl2]; exact nodup_firstOf _
  rw [List.append_nil] at hr
  obtain ⟨⟨a, c⟩, hlast⟩ : ∃ q, qs.getLast? = some q := ⟨_, List.getLast?_eq_some_getLast hne⟩
  have hlr : (r.map fun q => (d.label1 q.1, d.label2 q.2)).getLast? = some (a, c) := by rw [hlab, hlast]
  rw [List.getLast?_map] at hlr
  obtain ⟨⟨i, j⟩, hij, e⟩ := Option.map_eq_some_iff.1 hlr
  have hm := List.mem_of_getLast? hij
  simp only [Prod.mk.injEq] at e
  obtain ⟨rfl, rfl⟩ := e
  have hfit := hq _ (List.mem_of_getLast? hlast)
  refine ⟨d, r ++ List.replicate k (i, j), ?_, ?_⟩
  · unfold ReadQueries
    rw [hr, lastOr_getLast _ _ _ _ hlast, lastOr_getLast _ _ _ _ hlast,
      repeat_query n1 n2 (hrange _ hm).1 (hrange _ hm).2 hfit k]
    rfl
  · rw [List.map_append, hlab, List.map_replicate, hlast]
    rfl

/-! ## The programs -/

/-- Ratings said by a file are among `0 … K-1`. -/
def RatedFile (K : ℕ) (ls : List (String × String × ℚ)) : Prop := ∀ l ∈ ls, ∃ k < K, l.2.2 = ((k : ℕ) : ℚ)

theorem fileLink_mem {ls : List (String × String × ℚ)} {x y : String} {w : ℚ} (h : fileLink false ls x y = some w) :
    ∃ l ∈ ls, l.2.2 = w := by
  unfold fileLink at h
  cases hl : (ls.filter fun l => l.1 = x ∧ l.2.1 = y).map fun l => l.2.2 with
  | nil => rw [hl] at h; cases h
  | cons v vs =>
    rw [hl] at h
    have hv : v = w := by simpa using h
    have : v ∈ (ls.filter fun l => l.1 = x ∧ l.2.1 = y).map fun l => l.2.2 := by rw [hl]; simp
    obtain ⟨l, hm, e⟩ := List.mem_map.1 this
    exact ⟨l, (List.mem_filter.1 hm).1, e.trans hv⟩

/-- Files and what they give: the network of ratings with the nodes of the queries. -/
theorem files_ok {strtod : String → Option ℚ} {ratings : List (List String)} {ls : List (String × String × ℚ)} {K : ℕ}
    (hls : List.Forall₂ (GR.LineSays true strtod) ratings ls) (hK : RatedFile K ls) (qs : List (String × String))
    (hq : ∀ q ∈ qs, GR.fits q.1 ∧ GR.fits q.2) (hne : ls ≠ [] ∨ qs ≠ []) :
    ∃ b d r, FBuildNetworkBipart ratings true false strtod = some (some b) ∧
      ReadQueries (wordsOf qs) qs.length b = some (d, r) ∧ d.bi.OK ∧ d.bi.Rated K ∧ 0 < d.bi.n1 ∧ 0 < d.bi.n2 ∧
      d.labels1 = firstOf (ls.map (·.1) ++ qs.map Prod.fst) ∧ d.labels2 = firstOf (ls.map (·.2.1) ++ qs.map Prod.snd) ∧
      (∀ i j, i < d.bi.n1 → j < d.bi.n2 → ∀ w, (j, w) ∈ d.bi.neig1 i ↔ fileLink false ls (d.label1 i) (d.label2 j) = some w) ∧
      r.map (fun q => (d.label1 q.1, d.label2 q.2)) = qs ∧ ∀ q ∈ r, q.1 < d.bi.n1 ∧ q.2 < d.bi.n2 := by
  obtain ⟨b, hb, hok, hb1, hb2, hlink⟩ := C90_build true false strtod ratings ls hls
  have h1 : b.labels1.Nodup := by rw [hb1]; exact nodup_firstOf _
  have h2 : b.labels2.Nodup := by rw [hb2]; exact nodup_firstOf _
  obtain ⟨d, r, hr, hd, hd1, hd2, hhas, hlab, hrange⟩ := C130_queries hok h1 h2 qs hq
  rw [hb1, firstOf_append] at hd1
  rw [hb2, firstOf_append] at hd2
  have hbhas : ∀ x y w, b.Has x y w ↔ fileLink false ls x y = some w := by
    intro x y w
    constructor
    · rintro ⟨i, j, hi, hj, rfl, rfl, hm⟩
      exact (hlink i j hi hj w).1 hm
    · intro hf
      have hx : x ∈ b.labels1 ∧ y ∈ b.labels2 := by
        rw [hb1, hb2, mem_firstOf, mem_firstOf]
        unfold fileLink at hf
        cases hl : (ls.filter fun l => l.1 = x ∧ l.2.1 = y) with
        | nil => rw [hl] at hf; cases hf
        | cons l rest =>
          have : l ∈ ls.filter fun l => l.1 = x ∧ l.2.1 = y := by rw [hl]; simp
          rw [List.mem_filter] at this
          simp only [decide_eq_true_eq] at this
          exact ⟨List.mem_map.2 ⟨l, this.1, this.2.1⟩, List.mem_map.2 ⟨l, this.1, this.2.2⟩⟩
      obtain ⟨i, hi, rfl⟩ := List.mem_map.1 hx.1
      obtain ⟨j, hj, rfl⟩ := List.mem_map.1 hx.2
      have hi := List.mem_range.1 hi
      have hj := List.mem_range.1 hj
      exact ⟨i, j, hi, hj, rfl, rfl, (hlink i j hi hj w).2 hf⟩
  have hn1 : d.labels1.Nodup := by rw [hd1]; exact nodup_firstOf _
  have hn2 : d.labels2.Nodup := by rw [hd2]; exact nodup_firstOf _
  have hdl : ∀ i j, i < d.bi.n1 → j < d.bi.n2 → ∀ w, (j, w) ∈ d.bi.neig1 i ↔ fileLink false ls (d.label1 i) (d.label2 j) = some w := by
    intro i j hi hj w
    rw [← hbhas, ← hhas]
    constructor
    · intro hm; exact ⟨i, j, hi, hj, rfl, rfl, hm⟩
    · rintro ⟨i', j', hi', hj', e1, e2, hm⟩
      rw [List.inj_on_of_nodup_map hn1 (List.mem_range.2 hi') (List.mem_range.2 hi) e1,
        List.inj_on_of_nodup_map hn2 (List.mem_range.2 hj') (List.mem_range.2 hj) e2] at hm
      exact hm
  have hlen1 : d.labels1.length = d.bi.n1 := by simp [LBi.labels1]
  have hlen2 : d.labels2.length = d.bi.n2 := by simp [LBi.labels2]
  refine ⟨b, d, r, hb, hr, hd, ?_, ?_, ?_, hd1, hd2, hdl, hlab, hrange⟩
  · rintro i ⟨j, w⟩ hx
    have hj := hd.range1 i _ hx
    have hi := hd.range2 j _ ((hd.sym i j w).1 hx)
    obtain ⟨l, hl, e⟩ := fileLink_mem ((hdl i j hi hj w).1 hx)
    obtain ⟨k, hk, ek⟩ := hK l hl
    exact ⟨k, hk, by rw [← ek, e]⟩
  · rw [← hlen1, hd1, List.length_pos_iff]
    intro hnil
    rcases hne with hne | hne
    · obtain ⟨l, t, rfl⟩ := List.exists_cons_of_ne_nil hne
      have := mem_firstOf (xs := (l :: t).map (·.1) ++ qs.map Prod.fst) (a := l.1)
      rw [hnil] at this
      simp at this
    · obtain ⟨l, t, rfl⟩ := List.exists_cons_of_ne_nil hne
      have := mem_firstOf (xs := ls.map (·.1) ++ (l :: t).map Prod.fst) (a := l.1)
      rw [hnil] at this
      simp at this
  · rw [← hlen2, hd2, List.length_pos_iff]
    intro hnil
    rcases hne with hne | hne
    · obtain ⟨l, t, rfl⟩ := List.exists_cons_of_ne_nil hne
      have := mem_firstOf (xs := (l :: t).map (·.2.1) ++ qs.map Prod.snd) (a := l.2.1)
      rw [hnil] at this
      simp at this
    · obtain ⟨l, t, rfl⟩ := List.exists_cons_of_ne_nil hne
      have := mem_firstOf (xs := ls.map (·.2.1) ++ (l :: t).map Prod.snd) (a := l.2)
      rw [hnil] at this
      simp at this

theorem flatten_words (qs : List (String × String)) : (qs.map fun q => [q.1, q.2]).flatten = wordsOf qs := by
  simp [wordsOf, List.flatMap]

/-- **C131** (`multi_recommend_2`).  For well formed files, ratings 0 and 1: one line is printed per line of the file of queries, in
order, with its two labels and a score, the mean over `nIter` sampled pairs of partitions of the estimate of the probability of rating 1,
strictly between 0 and 1.  The estimates are made on the network `c` of the ratings in the file whose pair is not in a query. -/
theorem C131_two (acc : ℝ → ℚ → Bool) {strtod : String → Option ℚ} {ratings : List (List String)} {ls : List (String × String × ℚ)}
    (hls : List.Forall₂ (GR.LineSays true strtod) ratings ls) (hK : RatedFile 2 ls) (qs : List (String × String))
    (hq : ∀ q ∈ qs, GR.fits q.1 ∧ GR.fits q.2) (hne : ls ≠ [] ∨ qs ≠ []) {nIter : ℕ} (hn : 0 < nIter) (warm : List ℕ)
    (decorStep fuel : ℕ) (t : Tape) :
    (recommend2 acc strtod ratings (qs.map fun q => [q.1, q.2]) nIter warm decorStep fuel t).Holds fun out =>
      out.map (fun l => (l.1, l.2.1)) = qs ∧
      ∃ (d : LBi) (c : Bi) (S : List _), c.OK ∧ c.n1 = d.bi.n1 ∧ c.n2 = d.bi.n2 ∧ d.labels1.Nodup ∧ d.labels2.Nodup ∧
        (∀ i j, i < c.n1 → j < c.n2 → ∀ w, (j, w) ∈ c.neig1 i ↔
          fileLink false ls (d.label1 i) (d.label2 j) = some w ∧ (d.label1 i, d.label2 j) ∉ qs) ∧
        S.length = nIter ∧ (∀ f ∈ S, Assigned c f) ∧
        ∀ l ∈ out, ∃ i < c.n1, ∃ j < c.n2, d.label1 i = l.1 ∧ d.label2 j = l.2.1 ∧
          ∃ x, l.2.2 = some x ∧ x = Means c 2 nIter S 1 (i, j) ∧ 0 < x ∧ x < 1 := by
  obtain ⟨b, d, r, hb, hr, hd, hrated, p1, p2, hl1, hl2, hlink, hlab, hrange⟩ := files_ok hls hK qs hq hne
  unfold recommend2
  rw [hb]
  simp only [Res.ofOption_some, Res.bind_ok, List.length_map, flatten_words]
  rw [hr]
  simp only [Res.ofOption_some, Res.bind_ok]
  have hn1 : d.labels1.Nodup := by rw [hl1]; exact nodup_firstOf _
  have hn2 : d.labels2.Nodup := by rw [hl2]; exact nodup_firstOf _
  refine Res.Holds.bind (C50_score2 hd hrated p1 p2 acc r hn warm decorStep true fuel t) ?_
  rintro score ⟨c, ⟨hc, ec1, ec2, hcn⟩, S, hS, hA, hsc⟩
  rw [Res.pure_eq, Res.holds_ok]
  refine ⟨?_, d, c, S, hc, ec1, ec2, hn1, hn2, ?_, hS, hA, ?_⟩
  · rw [List.map_map, ← hlab]; rfl
  · intro i j hi hj w
    rw [ec1] at hi
    rw [ec2] at hj
    rw [hcn, List.mem_filter, hlink i j hi hj w]
    simp only [decide_eq_true_eq]
    refine and_congr_right fun _ => not_congr ?_
    rw [← hlab]
    constructor
    · intro hm; exact List.mem_map.2 ⟨_, hm, rfl⟩
    · intro hm
      obtain ⟨q, hq1, e⟩ := List.mem_map.1 hm
      simp only [Prod.mk.injEq] at e
      have hr' := hrange q hq1
      have e1 := List.inj_on_of_nodup_map hn1 (List.mem_range.2 hr'.1) (List.mem_range.2 hi) e.1
      have e2 := List.inj_on_of_nodup_map hn2 (List.mem_range.2 hr'.2) (List.mem_range.2 hj) e.2
      rw [← e1, ← e2]; exact hq1
  · intro l hl
    obtain ⟨q, hq1, rfl⟩ := List.mem_map.1 hl
    have hr' := hrange q hq1
    obtain ⟨x, hx, hm, h0, h1⟩ := hsc q hr'.1 hr'.2
    exact ⟨q.1, by rw [ec1]; exact hr'.1, q.2, by rw [ec2]; exact hr'.2, rfl, rfl, x, hx, hm, h0, h1⟩

/-- **C131** (`multi_recommend_k`).  For well formed files with ratings `0 … K-1`: one line per query, in order, with `K` scores that
are positive and add up to 1. -/
theorem C131_many (acc : ℝ → ℚ → Bool) {strtod : String → Option ℚ} {K : ℕ} (hK0 : 0 < K) {ratings : List (List String)}
    {ls : List (String × String × ℚ)} (hls : List.Forall₂ (GR.LineSays true strtod) ratings ls) (hK : RatedFile K ls)
    (qs : List (String × String)) (hq : ∀ q ∈ qs, GR.fits q.1 ∧ GR.fits q.2) (hne : ls ≠ [] ∨ qs ≠ []) {nIter : ℕ} (hn : 0 < nIter)
    (warm : List ℕ) (decorStep fuel : ℕ) (t : Tape) :
    (recommendK acc strtod K ratings (qs.map fun q => [q.1, q.2]) nIter warm decorStep fuel t).Holds fun out =>
      out.map (fun l => (l.1, l.2.1)) = qs ∧
      ∀ l ∈ out, ∃ xs : List ℚ, l.2.2 = xs.map some ∧ xs.length = K ∧ (∀ x ∈ xs, 0 < x) ∧ xs.sum = 1 := by
  obtain ⟨b, d, r, hb, hr, hd, hrated, p1, p2, hl1, hl2, hlink, hlab, hrange⟩ := files_ok hls hK qs hq hne
  unfold recommendK
  rw [hb]
  simp only [Res.ofOption_some, Res.bind_ok, List.length_map, flatten_words]
  rw [hr]
  simp only [Res.ofOption_some, Res.bind_ok]
  refine Res.Holds.bind (C50_distribution hd hrated hK0 p1 p2 acc r hn warm decorStep fuel t) ?_
  intro score hsc
  rw [Res.pure_eq, Res.holds_ok]
  refine ⟨?_, ?_⟩
  · rw [List.map_map, ← hlab]; rfl
  · intro l hl
    obtain ⟨q, hq1, rfl⟩ := List.mem_map.1 hl
    have hr' := hrange q hq1
    obtain ⟨f, hf, hsum⟩ := hsc q hr'.1 hr'.2
    refine ⟨(List.range K).map f, ?_, by simp, ?_, ?_⟩
    · rw [List.map_map]
      apply List.map_congr_left
      intro k hk
      exact (hf k (List.mem_range.1 hk)).1
    · intro x hx
      obtain ⟨k, hk, rfl⟩ := List.mem_map.1 hx
      exact (hf k (List.mem_range.1 hk)).2
    · rw [← hsum]
      rfl

/-- **C131, refutation** (arguments).  Both programs check for one argument less than they use: called without the seed they do not print
how to use them, but pass NULL to `atoi`. -/
theorem C131_seed_missing (p o q k : String) : args2 [p, o, q] = .undefined ∧ argsK [p, k, o, q] = .undefined := ⟨rfl, rfl⟩

/-- **C131** (arguments).  With all arguments the programs run with the file of ratings, the file of queries and the seed in this order, after the
number of ratings for `multi_recommend_k`; what follows them is ignored. With fewer than two, or three, they print how to use them. -/
theorem C131_arguments (p k o q s : String) (rest : List String) : args2 (p :: o :: q :: s :: rest) = .run [o, q, s] ∧
    argsK (p :: k :: o :: q :: s :: rest) = .run [k, o, q, s] ∧ args2 [p] = .usage ∧ args2 [p, o] = .usage ∧
    argsK [p] = .usage ∧ argsK [p, k] = .usage ∧ argsK [p, k, o] = .usage := by
  refine ⟨?_, ?_, rfl, rfl, rfl, rfl, rfl⟩
  · unfold args2
    rw [if_neg (by simp)]
    rfl
  · unfold argsK
    rw [if_neg (by simp)]
    rfl

/-- A network of two ratings. -/
def pairNet : LBi :=
  ⟨⟨1, 2, fun i => if i = 0 then [(0, 1), (1, 0)] else [], fun j => if j = 0 then [(0, 1)] else if j = 1 then [(0, 0)] else []⟩,
    fun i => if i = 0 then "ann" else "", fun j => if j = 0 then "up" else if j = 1 then "jaws" else ""⟩

/-- The second query has a new person, the third a new film. -/
example : (ReadQueries (wordsOf [("ann", "jaws"), ("bob", "up"), ("bob", "alien")]) 3 pairNet).map
    (fun x => (x.1.labels1, x.1.labels2, x.2)) =
    some (["ann", "bob"], ["up", "jaws", "alien"], [(0, 1), (1, 0), (1, 2)]) := by decide +kernel

/-- A blank line at the end repeats the last query. -/
example : (ReadQueries (wordsOf [("ann", "jaws"), ("bob", "up")]) 3 pairNet).map (fun x => x.2) =
    some [(0, 1), (1, 0), (1, 0)] := by decide +kernel

/-- Reading of the numbers of the example. -/
def digit (s : String) : Option ℚ := if s = "0" then some 0 else if s = "1" then some 1 else none

/-- The hypotheses of `C131_two` on a file of three ratings, one of them queried, and a query about a new film. -/
example : List.Forall₂ (GR.LineSays true digit) [["ann", "up", "1"], ["ann", "jaws", "0"], ["bob", "up", "1"]]
      [("ann", "up", 1), ("ann", "jaws", 0), ("bob", "up", 1)] ∧
    RatedFile 2 [("ann", "up", 1), ("ann", "jaws", 0), ("bob", "up", 1)] ∧
    ∀ q ∈ [("bob", "up"), ("bob", "alien")], GR.fits q.1 ∧ GR.fits q.2 := by
  refine ⟨by simp [GR.LineSays, digit, GR.fits]; decide, ?_, by decide⟩
  intro l hl
  simp only [List.mem_cons, List.not_mem_nil, or_false] at hl
  rcases hl with rfl | rfl | rfl
  · exact ⟨1, by norm_num, by norm_num⟩
  · exact ⟨0, by norm_num, by norm_num⟩
  · exact ⟨1, by norm_num, by norm_num⟩

end RC
