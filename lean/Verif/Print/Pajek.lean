import Verif.Print.BiModel
import Verif.Print.Adjacency
import Verif.Bipart.Build

/-!
# C118 and C119: bipartite networks written and read; Pajek files
-/

set_option linter.unusedSimpArgs false

namespace BP

open GR (linkLine Word fileFields linkFields fields_line fields_nil ends2 LineSays)

/-- The links by labels. -/
def biEntries (b : LBi) : List (String × String × ℚ) :=
  (List.range b.bi.n1).flatMap fun i => (b.bi.neig1 i).map fun l => (b.label1 i, b.label2 l.1, l.2)

theorem print_fields {showG : ℚ → String} {weighted : Bool} (hg : weighted = true → ∀ w, Word (showG w)) :
    ∀ (es : List (String × String × ℚ)), (∀ e ∈ es, Word e.1 ∧ Word e.2.1) →
      fileFields (es.flatMap fun e => linkLine showG weighted e.1 e.2.1 e.2.2) = es.map (linkFields showG weighted)
  | [], _ => by simp [fields_nil]
  | e :: es, h => by
    obtain ⟨h1, h2⟩ := h e (by simp)
    rw [List.flatMap_cons, fields_line hg h1 h2, print_fields hg es fun e he => h e (by simp [he])]
    rfl

theorem print_eq (showG : ℚ → String) (b : LBi) (weighted : Bool) :
    FPrintBipart showG b weighted = (biEntries b).flatMap fun e => linkLine showG weighted e.1 e.2.1 e.2.2 := by
  unfold FPrintBipart biEntries
  rw [List.flatMap_assoc]
  congr 1
  funext i
  rw [List.flatMap_map]

theorem mem_biEntries {b : LBi} (h : b.bi.OK) {x y : String} {w : ℚ} : (x, y, w) ∈ biEntries b ↔ b.Has x y w := by
  unfold biEntries LBi.Has
  simp only [List.mem_flatMap, List.mem_range, List.mem_map, Prod.mk.injEq]
  constructor
  · rintro ⟨i, hi, ⟨j, v⟩, hl, rfl, rfl, rfl⟩
    exact ⟨i, j, hi, h.range1 i _ hl, rfl, rfl, hl⟩
  · rintro ⟨i, j, hi, hj, rfl, rfl, hm⟩
    exact ⟨i, hi, (j, w), hm, rfl, rfl, rfl⟩

theorem biEntries_nodup {b : LBi} (h : b.bi.OK) (h1 : b.labels1.Nodup) (h2 : b.labels2.Nodup) :
    ((biEntries b).map ends2).Nodup := by
  unfold biEntries
  rw [List.map_flatMap]
  refine List.nodup_flatMap.2 ⟨?_, ?_⟩
  · intro i _
    rw [List.map_map]
    refine List.Nodup.map_on ?_ (List.Nodup.of_map _ (h.nodup1 i))
    intro x hx y hy e
    have e2 := (Prod.mk.inj e).2
    have := List.inj_on_of_nodup_map h2 (List.mem_range.2 (h.range1 i x hx)) (List.mem_range.2 (h.range1 i y hy)) e2
    exact List.inj_on_of_nodup_map (h.nodup1 i) hx hy this
  · refine List.Pairwise.imp_of_mem ?_ (List.nodup_range)
    intro i k hi hk hne x hx hy
    dsimp only at hx hy
    rw [List.map_map] at hx hy
    obtain ⟨l1, _, rfl⟩ := List.mem_map.1 hx
    obtain ⟨l2, _, e⟩ := List.mem_map.1 hy
    exact hne (List.inj_on_of_nodup_map h1 hi hk (Prod.mk.inj e).1.symm)

theorem fileLink_iff {es : List (String × String × ℚ)} (hn : (es.map ends2).Nodup) (add : Bool) (a b : String) (w : ℚ) :
    fileLink add es a b = some w ↔ (a, b, w) ∈ es := by
  have e : (es.filter fun l => l.1 = a ∧ l.2.1 = b).map (fun l => l.2.2) = GR.stated es a b := by
    unfold GR.stated
    induction es with
    | nil => rfl
    | cons x es ih =>
      rw [List.map_cons, List.nodup_cons] at hn
      rw [List.flatMap_cons, ← ih hn.2]
      by_cases hx : x.1 = a ∧ x.2.1 = b
      · rw [List.filter_cons_of_pos (by simpa using hx), if_pos hx]; rfl
      · rw [List.filter_cons_of_neg (by simpa using hx), if_neg hx]; rfl
  unfold fileLink
  rw [e]
  constructor
  · intro h
    cases hs : GR.stated es a b with
    | nil => rw [hs] at h; cases h
    | cons v vs =>
      have hv : (a, b, v) ∈ es := GR.stated_mem (by rw [hs]; simp)
      have e := GR.stated_unique hn hv
      rw [hs] at h e
      obtain ⟨-, rfl⟩ := List.cons.inj e
      cases add <;> simp at h <;> rw [← h] <;> exact hv
  · intro h
    rw [GR.stated_unique hn h]
    cases add <;> simp

/-- **C118**: a bipartite network whose labels are words, fit their buffers and are distinct within each set (the same label may
be in both), written by `FPrintBipart` and read by `FBuildNetworkBipart`, has exactly the same links, each with the weight
that reading the printed number gives (1 without weights), and as nodes of each set those that have links. -/
theorem C118_round_trip {b : LBi} (h : b.bi.OK) (h1 : b.labels1.Nodup) (h2 : b.labels2.Nodup)
    (w1 : ∀ a ∈ b.labels1 ++ b.labels2, Word a ∧ GR.fits a = true) (weighted add : Bool) {showG : ℚ → String}
    {strtod : String → Option ℚ} {val : ℚ → ℚ}
    (hg : weighted = true → ∀ w, Word (showG w) ∧ strtod (showG w) = some (val w)) :
    ∃ b', FBuildNetworkBipart (fileFields (FPrintBipart showG b weighted)) weighted add strtod = some (some b') ∧ b'.bi.OK ∧
      b'.labels1.Nodup ∧ b'.labels2.Nodup ∧
      (∀ x y w, b'.Has x y w ↔ ∃ v, b.Has x y v ∧ w = if weighted then val v else 1) ∧
      (∀ x, x ∈ b'.labels1 ↔ ∃ y w, b.Has x y w) ∧ ∀ y, y ∈ b'.labels2 ↔ ∃ x w, b.Has x y w := by
  have hin : ∀ e ∈ biEntries b, e.1 ∈ b.labels1 ++ b.labels2 ∧ e.2.1 ∈ b.labels1 ++ b.labels2 := by
    rintro ⟨x, y, w⟩ he
    obtain ⟨i, j, hi, hj, rfl, rfl, _⟩ := (mem_biEntries h).1 he
    exact ⟨List.mem_append_left _ (List.mem_map.2 ⟨i, List.mem_range.2 hi, rfl⟩),
      List.mem_append_right _ (List.mem_map.2 ⟨j, List.mem_range.2 hj, rfl⟩)⟩
  set wt : ℚ → ℚ := fun v => if weighted then val v else 1 with hwt
  set ls := (biEntries b).map (GR.reread wt) with hls
  have hsays : List.Forall₂ (LineSays weighted strtod) (fileFields (FPrintBipart showG b weighted)) ls := by
    rw [print_eq, print_fields (fun hx w => (hg hx w).1) _ fun e he => ⟨(w1 _ (hin e he).1).1, (w1 _ (hin e he).2).1⟩, hls,
      List.forall₂_map_left_iff, List.forall₂_map_right_iff]
    refine List.forall₂_same.2 ?_
    rintro ⟨x, y, w⟩ hx
    refine ⟨(w1 _ (hin _ hx).1).2, (w1 _ (hin _ hx).2).2, ?_⟩
    cases weighted with
    | true =>
      simp only [if_true]
      exact ⟨showG w, [], by simp [linkFields, GR.reread], by simp [GR.reread, hwt, (hg rfl w).2]⟩
    | false =>
      simp only [Bool.false_eq_true, if_false]
      exact ⟨⟨[], by simp [linkFields, GR.reread]⟩, by simp [GR.reread, hwt]⟩
  obtain ⟨b', hb, hok, l1, l2, hm⟩ := C90_build weighted add strtod _ ls hsays
  have hnd : (ls.map ends2).Nodup := by
    rw [hls, List.map_map]
    exact biEntries_nodup h h1 h2
  have hmem : ∀ x y w, (x, y, w) ∈ ls ↔ ∃ v, b.Has x y v ∧ w = wt v := by
    intro x y w
    rw [hls, List.mem_map]
    constructor
    · rintro ⟨⟨x', y', v⟩, hv, e⟩
      obtain ⟨rfl, rfl, rfl⟩ : x' = x ∧ y' = y ∧ wt v = w := by simpa [GR.reread] using e
      exact ⟨v, (mem_biEntries h).1 hv, rfl⟩
    · rintro ⟨v, hv, rfl⟩
      exact ⟨(x, y, v), (mem_biEntries h).2 hv, rfl⟩
  have m1 : ∀ x, x ∈ b'.labels1 ↔ ∃ y w, b.Has x y w := by
    intro x
    rw [l1]
    change x ∈ GR.order _ ↔ _
    rw [GR.mem_order, List.mem_map]
    constructor
    · rintro ⟨⟨x', y, w⟩, hx, rfl⟩
      obtain ⟨v, hv, _⟩ := (hmem _ _ _).1 hx
      exact ⟨y, v, hv⟩
    · rintro ⟨y, v, hv⟩
      exact ⟨(x, y, wt v), (hmem _ _ _).2 ⟨v, hv, rfl⟩, rfl⟩
  have m2 : ∀ y, y ∈ b'.labels2 ↔ ∃ x w, b.Has x y w := by
    intro y
    rw [l2]
    change y ∈ GR.order _ ↔ _
    rw [GR.mem_order, List.mem_map]
    constructor
    · rintro ⟨⟨x, y', w⟩, hx, rfl⟩
      obtain ⟨v, hv, _⟩ := (hmem _ _ _).1 hx
      exact ⟨x, v, hv⟩
    · rintro ⟨x, v, hv⟩
      exact ⟨(x, y, wt v), (hmem _ _ _).2 ⟨v, hv, rfl⟩, rfl⟩
  refine ⟨b', hb, hok, ?_, ?_, ?_, m1, m2⟩
  · rw [l1]; exact GR.nodup_order _
  · rw [l2]; exact GR.nodup_order _
  · intro x y w
    change _ ↔ ∃ v, b.Has x y v ∧ w = wt v
    rw [← hmem, ← fileLink_iff hnd add]
    constructor
    · rintro ⟨i, j, hi, hj, rfl, rfl, hx⟩
      exact (hm i j hi hj w).1 hx
    · intro hx
      obtain ⟨v, hv, _⟩ := (hmem _ _ _).1 ((fileLink_iff hnd add _ _ _).1 hx)
      obtain ⟨i, hi, e1⟩ := List.mem_map.1 ((m1 x).2 ⟨y, v, hv⟩)
      obtain ⟨j, hj, e2⟩ := List.mem_map.1 ((m2 y).2 ⟨x, v, hv⟩)
      refine ⟨i, j, List.mem_range.1 hi, List.mem_range.1 hj, e1, e2, ?_⟩
      rw [hm i j (List.mem_range.1 hi) (List.mem_range.1 hj), e1, e2]
      exact hx

/-- Two authors, two papers; the second author has none. -/
def papers : LBi :=
  ⟨⟨2, 2, fun i => if i = 0 then [(1, 2), (0, 1)] else [], fun j => if j = 0 then [(0, 1)] else if j = 1 then [(0, 2)] else []⟩,
    fun i => if i = 0 then "x" else "idle", fun j => if j = 0 then "x" else "y"⟩

/-- The author without papers is lost, and the papers change places. -/
theorem C118_isolated_lost : ∃ b', FBuildNetworkBipart (fileFields (FPrintBipart (fun w => toString w.num) papers true)) true true
    smallNum = some (some b') ∧ b'.labels1 = ["x"] ∧ b'.labels2 = ["y", "x"] ∧ b'.bi.neig1 0 = [(0, 2), (1, 1)] :=
  ⟨_, rfl, by decide +kernel, by decide +kernel, by decide +kernel⟩

end BP

namespace GR

/-- The links of a Pajek file. -/
def plinks (ls : List PLine) : List (ℕ × ℕ × Option ℚ) :=
  ls.filterMap fun l => match l with | .link i j w => some (i, j, w) | _ => none

/-- The vertices of a Pajek file. -/
def pvertices (ls : List PLine) : List (ℕ × String) :=
  ls.filterMap fun l => match l with | .vertex i s => some (i, s) | _ => none

theorem pajekRow_ok {net : Net} {g : WG} (h : Holds net g) (weighted sym : Bool) {i : ℕ} (hi : i < net.n) :
    ∃ r, pajekRow weighted sym i (net.neig i) = some r ∧ pvertices r = [] ∧
      ((plinks r).map fun l => (l.1, l.2.1)).Nodup ∧
      ∀ a b w, (a, b, w) ∈ plinks r ↔ ∃ j v, a = i + 1 ∧ b = j + 1 ∧ (sym = false ∨ i ≤ j) ∧ g i j = some v ∧
        w = if weighted then some v else none := by
  have hrow := h i hi
  have key : ∀ ls : List Link, (ls.map Link.ref).Nodup → (∀ l ∈ ls, ∃ j, l.ref = some j) →
      ∃ r, pajekRow weighted sym i ls = some r ∧ pvertices r = [] ∧ ((plinks r).map fun l => (l.1, l.2.1)).Nodup ∧
        ∀ a b w, (a, b, w) ∈ plinks r ↔ ∃ l ∈ ls, ∃ j, l.ref = some j ∧ a = i + 1 ∧ b = j + 1 ∧ (sym = false ∨ i ≤ j) ∧
          w = if weighted then some l.weight else none := by
    intro ls
    induction ls with
    | nil => intro _ _; exact ⟨[], rfl, rfl, by simp [plinks], by simp [plinks]⟩
    | cons l ls ih =>
      intro hn hr
      rw [List.map_cons, List.nodup_cons] at hn
      obtain ⟨r, e, hv, hnd, hm⟩ := ih hn.2 fun l hl => hr l (by simp [hl])
      obtain ⟨j, hj⟩ := hr l (by simp)
      by_cases hp : sym = false ∨ i ≤ j
      · refine ⟨.link (i + 1) (j + 1) (if weighted then some l.weight else none) :: r, ?_, ?_, ?_, ?_⟩
        · simp only [pajekRow, hj, e, Option.bind_eq_bind, Option.bind_some, Option.pure_def, if_pos hp]
        · exact hv
        · change ((i + 1, j + 1) :: (plinks r).map fun l => (l.1, l.2.1)).Nodup
          rw [List.nodup_cons]
          refine ⟨?_, hnd⟩
          intro hx
          obtain ⟨⟨a, b, w⟩, h1, h2⟩ := List.mem_map.1 hx
          obtain ⟨l', hl', k, hk, _, rfl, _⟩ := (hm a b w).1 h1
          have : k = j := by have := (Prod.mk.inj h2).2; simp only at this; omega
          subst this
          exact hn.1 (List.mem_map.2 ⟨l', hl', by rw [hk, hj]⟩)
        · intro a b w
          change (a, b, w) ∈ (i + 1, j + 1, _) :: plinks r ↔ _
          rw [List.mem_cons, hm]
          constructor
          · rintro (hx | ⟨l', hl', hx⟩)
            · obtain ⟨rfl, rfl, rfl⟩ := Prod.mk.inj hx |>.imp_right Prod.mk.inj
              exact ⟨l, by simp, j, hj, rfl, rfl, hp, rfl⟩
            · exact ⟨l', by simp [hl'], hx⟩
          · rintro ⟨l', hl', k, hk, rfl, rfl, hx, rfl⟩
            rcases List.mem_cons.1 hl' with rfl | hl'
            · rw [hj] at hk; cases hk; left; rfl
            · right; exact ⟨l', hl', k, hk, rfl, rfl, hx, rfl⟩
      · refine ⟨r, ?_, hv, hnd, ?_⟩
        · simp only [pajekRow, hj, e, Option.bind_eq_bind, Option.bind_some, Option.pure_def, if_neg hp]
        · intro a b w
          rw [hm]
          constructor
          · rintro ⟨l', hl', hx⟩; exact ⟨l', by simp [hl'], hx⟩
          · rintro ⟨l', hl', k, hk, rfl, rfl, hx, rfl⟩
            rcases List.mem_cons.1 hl' with rfl | hl'
            · rw [hj] at hk; cases hk; exact absurd hx hp
            · exact ⟨l', hl', k, hk, rfl, rfl, hx, rfl⟩
  obtain ⟨r, e, hv, hnd, hm⟩ := key _ hrow.1 fun l hl => by
    obtain ⟨j, _, e, _⟩ := hrow.2.1 l hl; exact ⟨j, e⟩
  refine ⟨r, e, hv, hnd, ?_⟩
  intro a b w
  rw [hm]
  constructor
  · rintro ⟨l, hl, j, hj, rfl, rfl, hp, rfl⟩
    obtain ⟨k, _, ek, hg⟩ := hrow.2.1 l hl
    rw [hj] at ek; cases ek
    exact ⟨j, _, rfl, rfl, hp, hg, rfl⟩
  · rintro ⟨j, v, rfl, rfl, hp, hg, rfl⟩
    obtain ⟨l, hl, hr, rfl⟩ := hrow.2.2 j v hg
    exact ⟨l, hl, j, hr, rfl, rfl, hp, rfl⟩

theorem plinks_append (a b : List PLine) : plinks (a ++ b) = plinks a ++ plinks b := by
  unfold plinks; rw [List.filterMap_append]

theorem pvertices_append (a b : List PLine) : pvertices (a ++ b) = pvertices a ++ pvertices b := by
  unfold pvertices; rw [List.filterMap_append]

theorem pajekRows_ok {net : Net} {g : WG} (h : Holds net g) (weighted sym : Bool) : ∀ (is : List ℕ), is.Nodup → (∀ i ∈ is, i < net.n) →
    ∃ r, pajekRows net weighted sym is = some r ∧ pvertices r = [] ∧ ((plinks r).map fun l => (l.1, l.2.1)).Nodup ∧
      ∀ a b w, (a, b, w) ∈ plinks r ↔ ∃ i ∈ is, ∃ j v, a = i + 1 ∧ b = j + 1 ∧ (sym = false ∨ i ≤ j) ∧ g i j = some v ∧
        w = if weighted then some v else none
  | [], _, _ => ⟨[], rfl, rfl, by simp [plinks], by simp [plinks]⟩
  | i :: is, hn, hi => by
    rw [List.nodup_cons] at hn
    obtain ⟨r, e, hv, hnd, hm⟩ := pajekRow_ok h weighted sym (hi i (by simp))
    obtain ⟨t, e', hv', hnd', hm'⟩ := pajekRows_ok h weighted sym is hn.2 fun i h => hi i (by simp [h])
    refine ⟨r ++ t, by simp [pajekRows, e, e'], by rw [pvertices_append, hv, hv']; rfl, ?_, ?_⟩
    · rw [plinks_append, List.map_append, List.nodup_append]
      refine ⟨hnd, hnd', ?_⟩
      intro x hx y hy e
      subst e
      obtain ⟨⟨a, b, w⟩, h1, rfl⟩ := List.mem_map.1 hx
      obtain ⟨⟨a', b', w'⟩, h2, e2⟩ := List.mem_map.1 hy
      obtain ⟨_, _, rfl, rfl, _⟩ := (hm _ _ _).1 h1
      obtain ⟨k, hk, _, _, rfl, rfl, _⟩ := (hm' _ _ _).1 h2
      have : k = i := by have := (Prod.mk.inj e2).1; simp only at this; omega
      exact hn.1 (this ▸ hk)
    · intro a b w
      rw [plinks_append, List.mem_append, hm, hm']
      simp only [List.mem_cons, exists_eq_or_imp]

theorem pvertices_map (f : ℕ → ℕ × String) (is : List ℕ) :
    pvertices (is.map fun i => PLine.vertex (f i).1 (f i).2) = is.map f := by
  induction is with
  | nil => rfl
  | cons i is ih => rw [List.map_cons, List.map_cons, ← ih]; rfl

theorem plinks_map (f : ℕ → ℕ × String) (is : List ℕ) : plinks (is.map fun i => PLine.vertex (f i).1 (f i).2) = [] := by
  induction is with
  | nil => rfl
  | cons i is ih => rw [List.map_cons, ← ih]; rfl

/-- **C119**: the Pajek file of a network starts with the number of vertices, lists every node once, isolated nodes too, numbered
from 1 in order with its label, and has a line for a pair of numbers exactly when there is that link (with the symmetric
switch: and the first number is not larger), with its weight if asked; no pair is repeated. -/
theorem C119_pajek {net : Net} {g : WG} (h : Holds net g) (weighted sym : Bool) :
    ∃ f rest, FPrintPajekFile net weighted sym = some f ∧ f = .vertices net.n none :: rest ∧
      pvertices f = (List.range net.n).map (fun i => (i + 1, net.label i)) ∧
      (PLine.edges ∈ f ↔ sym = true) ∧ (PLine.arcs ∈ f ↔ sym = false) ∧
      ((plinks f).map fun l => (l.1, l.2.1)).Nodup ∧
      ∀ a b w, (a, b, w) ∈ plinks f ↔ ∃ i j v, i < net.n ∧ a = i + 1 ∧ b = j + 1 ∧ (sym = false ∨ i ≤ j) ∧ g i j = some v ∧
        w = if weighted then some v else none := by
  obtain ⟨r, e, hv, hnd, hm⟩ := pajekRows_ok h weighted sym (List.range net.n) List.nodup_range fun i hi => List.mem_range.1 hi
  have nolinks : ∀ l ∈ r, l ≠ .edges ∧ l ≠ .arcs := by
    have row : ∀ (i : ℕ) (ls : List Link) (r : List PLine), pajekRow weighted sym i ls = some r → ∀ l ∈ r, l ≠ .edges ∧ l ≠ .arcs := by
      intro i ls
      induction ls with
      | nil => intro r hr l hl; cases hr; cases hl
      | cons x ls ih =>
        intro r hr l hl
        simp only [pajekRow, Option.bind_eq_bind, Option.pure_def, Option.bind_eq_some_iff, Option.some.injEq] at hr
        obtain ⟨j, _, t, ht, rfl⟩ := hr
        by_cases hc : sym = false ∨ i ≤ j
        · rw [if_pos hc] at hl
          rcases List.mem_cons.1 hl with rfl | hl
          · simp
          · exact ih t ht l hl
        · rw [if_neg hc] at hl
          exact ih t ht l hl
    have rows : ∀ (is : List ℕ) (r : List PLine), pajekRows net weighted sym is = some r → ∀ l ∈ r, l ≠ .edges ∧ l ≠ .arcs := by
      intro is
      induction is with
      | nil => intro r hr l hl; cases hr; cases hl
      | cons i is ih =>
        intro r hr l hl
        simp only [pajekRows, Option.bind_eq_bind, Option.pure_def, Option.bind_eq_some_iff, Option.some.injEq] at hr
        obtain ⟨a, ha, b, hb, rfl⟩ := hr
        rcases List.mem_append.1 hl with hl | hl
        · exact row _ _ _ ha l hl
        · exact ih b hb l hl
    exact rows _ _ e
  have ef : FPrintPajekFile net weighted sym = some (.vertices net.n none ::
      ((List.range net.n).map fun i => PLine.vertex (i + 1) (net.label i)) ++ (if sym then .edges else .arcs) :: r) := by
    unfold FPrintPajekFile; rw [e]; rfl
  have hpl : plinks (.vertices net.n none ::
      ((List.range net.n).map fun i => PLine.vertex (i + 1) (net.label i)) ++ (if sym then .edges else .arcs) :: r) = plinks r := by
    rw [plinks_append]
    have e1 : plinks (.vertices net.n none :: ((List.range net.n).map fun i => PLine.vertex (i + 1) (net.label i))) = [] :=
      plinks_map (fun i => (i + 1, net.label i)) _
    rw [e1, List.nil_append]
    cases sym <;> rfl
  refine ⟨_, _, ef, List.cons_append, ?_, ?_, ?_, ?_, ?_⟩
  · rw [pvertices_append]
    have e1 : pvertices (.vertices net.n none :: ((List.range net.n).map fun i => PLine.vertex (i + 1) (net.label i))) =
        (List.range net.n).map (fun i => (i + 1, net.label i)) := pvertices_map (fun i => (i + 1, net.label i)) _
    have e2 : pvertices ((if sym then PLine.edges else .arcs) :: r) = [] := by
      cases sym <;> exact hv
    rw [e1, e2, List.append_nil]
  · cases sym <;> simp
    intro hx; exact (nolinks _ hx).1 rfl
  · cases sym <;> simp
    intro hx; exact (nolinks _ hx).2 rfl
  · rw [hpl]; exact hnd
  · intro a b w
    rw [hpl, hm]
    constructor
    · rintro ⟨i, hi, j, v, hx⟩; exact ⟨i, j, v, List.mem_range.1 hi, hx⟩
    · rintro ⟨i, j, v, hi, hx⟩; exact ⟨i, List.mem_range.2 hi, j, v, hx⟩

/-- **C119**: with the symmetric switch, every linked pair of a symmetric network is on exactly one line, in one of the two orders. -/
theorem C119_each_once {net : Net} {g : WG} (h : Holds net g) (hs : ∀ i j, g i j = g j i) (weighted : Bool) :
    ∃ f, FPrintPajekFile net weighted true = some f ∧ ∀ i < net.n, ∀ j < net.n,
      ((plinks f).filter fun l => (l.1 = i + 1 ∧ l.2.1 = j + 1) ∨ (l.1 = j + 1 ∧ l.2.1 = i + 1)).length =
        if (g i j).isSome then 1 else 0 := by
  obtain ⟨f, _, ef, _, _, _, _, hnd, hm⟩ := C119_pajek h weighted true
  refine ⟨f, ef, ?_⟩
  have key : ∀ i < net.n, ∀ j < net.n, i ≤ j →
      ((plinks f).filter fun l => (l.1 = i + 1 ∧ l.2.1 = j + 1) ∨ (l.1 = j + 1 ∧ l.2.1 = i + 1)).length =
        if (g i j).isSome then 1 else 0 := by
    intro i hi j hj hij
    have hall : ∀ l ∈ (plinks f).filter fun l => (l.1 = i + 1 ∧ l.2.1 = j + 1) ∨ (l.1 = j + 1 ∧ l.2.1 = i + 1),
        (l.1, l.2.1) = (i + 1, j + 1) ∧ (g i j).isSome = true := by
      rintro ⟨a, b, w⟩ hl
      obtain ⟨hl, hc⟩ := List.mem_filter.1 hl
      obtain ⟨p, q, v, hp, rfl, rfl, ho, hg, _⟩ := (hm _ _ _).1 hl
      have ho : p ≤ q := by simpa using ho
      have hc : (p + 1 = i + 1 ∧ q + 1 = j + 1) ∨ (p + 1 = j + 1 ∧ q + 1 = i + 1) := by simpa using hc
      have : p = i ∧ q = j := by omega
      obtain ⟨rfl, rfl⟩ := this
      exact ⟨rfl, by rw [hg]; rfl⟩
    cases hg : g i j with
    | none =>
      rw [if_neg (by simp), List.length_eq_zero_iff, List.eq_nil_iff_forall_not_mem]
      intro l hl
      have := (hall l hl).2
      rw [hg] at this; cases this
    | some v =>
      rw [if_pos (by simp)]
      have hin := (hm (i + 1) (j + 1) (if weighted then some v else none)).2 ⟨i, j, v, hi, rfl, rfl, Or.inr hij, hg, rfl⟩
      have hin' : (i + 1, j + 1, (if weighted then some v else none)) ∈
          (plinks f).filter fun l => (l.1 = i + 1 ∧ l.2.1 = j + 1) ∨ (l.1 = j + 1 ∧ l.2.1 = i + 1) :=
        List.mem_filter.2 ⟨hin, by simp⟩
      have hnd' : (((plinks f).filter fun l => (l.1 = i + 1 ∧ l.2.1 = j + 1) ∨ (l.1 = j + 1 ∧ l.2.1 = i + 1)).map
          fun l => (l.1, l.2.1)).Nodup := hnd.sublist ((List.filter_sublist).map _)
      generalize (plinks f).filter _ = L at hall hin' hnd'
      match L, hin', hnd', hall with
      | [x], _, _, _ => rfl
      | x :: y :: L, _, hn, ha =>
        have e1 := (ha x (by simp)).1
        have e2 := (ha y (by simp)).1
        simp [e1, e2] at hn
  intro i hi j hj
  rcases le_total i j with hij | hij
  · exact key i hi j hj hij
  · rw [hs i j, ← key j hj i hi hij]
    congr 2
    funext l
    simp only [decide_eq_decide]
    exact or_comm

/-- **C119**: in the Pajek file of a bipartite network the vertices are numbered from 1, those of the first set before those of the
second, and there is one edge per link, from the first set to the second. -/
theorem C119_bipartite {b : BP.LBi} (h : b.bi.OK) (weighted : Bool) :
    (∃ rest, FPrintPajekFileBipart b weighted = .vertices (b.bi.n1 + b.bi.n2) (some b.bi.n1) :: rest) ∧
    pvertices (FPrintPajekFileBipart b weighted) = (List.range b.bi.n1).map (fun i => (i + 1, b.label1 i)) ++
      (List.range b.bi.n2).map (fun j => (j + b.bi.n1 + 1, b.label2 j)) ∧
    ((plinks (FPrintPajekFileBipart b weighted)).map fun l => (l.1, l.2.1)).Nodup ∧
    ∀ x y w, (x, y, w) ∈ plinks (FPrintPajekFileBipart b weighted) ↔ ∃ i j v, i < b.bi.n1 ∧ j < b.bi.n2 ∧ x = i + 1 ∧
      y = j + b.bi.n1 + 1 ∧ (j, v) ∈ b.bi.neig1 i ∧ w = if weighted then some v else none := by
  have row : ∀ (i : ℕ) (ls : List (ℕ × ℚ)), plinks (ls.map fun l => PLine.link (i + 1) (l.1 + b.bi.n1 + 1)
      (if weighted then some l.2 else none)) = ls.map fun l => (i + 1, l.1 + b.bi.n1 + 1, if weighted then some l.2 else none) := by
    intro i ls
    induction ls with
    | nil => rfl
    | cons l ls ih => rw [List.map_cons, List.map_cons, ← ih]; rfl
  have rowv : ∀ (i : ℕ) (ls : List (ℕ × ℚ)), pvertices (ls.map fun l => PLine.link (i + 1) (l.1 + b.bi.n1 + 1)
      (if weighted then some l.2 else none)) = [] := by
    intro i ls
    induction ls with
    | nil => rfl
    | cons l ls ih => rw [List.map_cons, ← ih]; rfl
  have rows : ∀ is : List ℕ, plinks (is.flatMap fun i => (b.bi.neig1 i).map fun l => PLine.link (i + 1) (l.1 + b.bi.n1 + 1)
      (if weighted then some l.2 else none)) = is.flatMap fun i => (b.bi.neig1 i).map fun l =>
        (i + 1, l.1 + b.bi.n1 + 1, if weighted then some l.2 else none) := by
    intro is
    induction is with
    | nil => rfl
    | cons i is ih => rw [List.flatMap_cons, plinks_append, ih, row, List.flatMap_cons]
  have rowsv : ∀ is : List ℕ, pvertices (is.flatMap fun i => (b.bi.neig1 i).map fun l => PLine.link (i + 1) (l.1 + b.bi.n1 + 1)
      (if weighted then some l.2 else none)) = [] := by
    intro is
    induction is with
    | nil => rfl
    | cons i is ih => rw [List.flatMap_cons, pvertices_append, ih, rowv]; rfl
  have e1 : plinks (FPrintPajekFileBipart b weighted) = (List.range b.bi.n1).flatMap fun i => (b.bi.neig1 i).map fun l =>
        (i + 1, l.1 + b.bi.n1 + 1, if weighted then some l.2 else none) := by
    rw [← rows]
    unfold FPrintPajekFileBipart
    rw [plinks_append, plinks_append]
    have z1 : plinks (.vertices (b.bi.n1 + b.bi.n2) (some b.bi.n1) :: (List.range b.bi.n1).map fun i => PLine.vertex (i + 1) (b.label1 i))
        = [] := plinks_map (fun i => (i + 1, b.label1 i)) _
    have z2 : plinks ((List.range b.bi.n2).map fun j => PLine.vertex (j + b.bi.n1 + 1) (b.label2 j)) = [] :=
      plinks_map (fun j => (j + b.bi.n1 + 1, b.label2 j)) _
    rw [z1, z2]
    rfl
  refine ⟨⟨_, by unfold FPrintPajekFileBipart; rw [List.cons_append, List.cons_append]⟩, ?_, ?_, ?_⟩
  · unfold FPrintPajekFileBipart
    rw [pvertices_append, pvertices_append]
    have z1 : pvertices (.vertices (b.bi.n1 + b.bi.n2) (some b.bi.n1) :: (List.range b.bi.n1).map fun i => PLine.vertex (i + 1) (b.label1 i))
        = (List.range b.bi.n1).map (fun i => (i + 1, b.label1 i)) := pvertices_map (fun i => (i + 1, b.label1 i)) _
    have z2 : pvertices ((List.range b.bi.n2).map fun j => PLine.vertex (j + b.bi.n1 + 1) (b.label2 j)) =
        (List.range b.bi.n2).map (fun j => (j + b.bi.n1 + 1, b.label2 j)) := pvertices_map (fun j => (j + b.bi.n1 + 1, b.label2 j)) _
    rw [z1, z2]
    change _ ++ pvertices ((List.range b.bi.n1).flatMap _) = _
    rw [rowsv, List.append_nil]
  · rw [e1, List.map_flatMap]
    refine List.nodup_flatMap.2 ⟨?_, ?_⟩
    · intro i _
      rw [List.map_map]
      refine List.Nodup.map_on ?_ (List.Nodup.of_map _ (h.nodup1 i))
      intro x hx y hy e
      have : x.1 = y.1 := by have := (Prod.mk.inj e).2; simp at this; exact this
      exact List.inj_on_of_nodup_map (h.nodup1 i) hx hy this
    · refine (List.nodup_range).imp ?_
      intro i k hne x hx hy
      dsimp only at hx hy
      rw [List.map_map] at hx hy
      obtain ⟨_, _, rfl⟩ := List.mem_map.1 hx
      obtain ⟨_, _, e⟩ := List.mem_map.1 hy
      have := (Prod.mk.inj e).1
      simp at this
      exact hne this.symm
  · intro x y w
    rw [e1]
    simp only [List.mem_flatMap, List.mem_range, List.mem_map, Prod.mk.injEq]
    constructor
    · rintro ⟨i, hi, ⟨j, v⟩, hl, rfl, rfl, rfl⟩
      exact ⟨i, j, v, hi, h.range1 i _ hl, rfl, rfl, hl, rfl⟩
    · rintro ⟨i, j, v, hi, hj, rfl, rfl, hl, rfl⟩
      exact ⟨i, hi, (j, v), hl, rfl, rfl, rfl⟩

/-- **C119**: the partition file has one line per node in order; nodes of the same group get the same number, which is positive, and
nodes of different groups different ones; nodes without group get 0. -/
theorem C119_partition (net : Net) (inGroup : ℕ → Option ℕ) : ∃ c : ℕ → ℤ,
    FPrintPajekPartitionFile net inGroup = .vertices net.n none :: (List.range net.n).map (fun i => .member (c i)) ∧
      (∀ i j, c i = c j ↔ inGroup i = inGroup j) ∧ ∀ i, 0 ≤ c i ∧ (c i = 0 ↔ inGroup i = none) := by
  let c : Option ℕ → ℤ := fun o => match o with | some g => (g : ℤ) + 1 | none => -1 + 1
  have cs : ∀ g : ℕ, c (some g) = (g : ℤ) + 1 := fun _ => rfl
  have cn : c none = 0 := rfl
  refine ⟨fun i => c (inGroup i), rfl, ?_, ?_⟩
  · intro i j
    dsimp only
    generalize inGroup i = x
    generalize inGroup j = y
    cases x <;> cases y <;> simp only [cs, cn, reduceCtorEq, iff_true, iff_false, Option.some.injEq] <;> omega
  · intro i
    dsimp only
    generalize inGroup i = x
    cases x <;> simp only [cs, cn, reduceCtorEq, iff_true, iff_false] <;> first | omega | simp

example : FPrintPajekFile lineNet true true = some [.vertices 4 none, .vertex 1 "b", .vertex 2 "a", .vertex 3 "c", .vertex 4 "alone",
    .edges, .link 1 2 (some 2), .link 2 3 (some 3), .link 3 3 (some 5)] := by decide +kernel

example : FPrintPajekFileBipart BP.papers false = [.vertices 4 (some 2), .vertex 1 "x", .vertex 2 "idle", .vertex 3 "x", .vertex 4 "y",
    .edges, .link 1 4 none, .link 1 3 none] := by decide +kernel

example : FPrintPajekPartitionFile lineNet (fun i => if i = 0 then some 1 else if i = 3 then none else some 0) =
    [.vertices 4 none, .member 2, .member 1, .member 1, .member 0] := by decide +kernel

end GR
