import Verif.BFS.Model
import Verif.BFS.Spec
import Mathlib.Data.List.Nodup
import Mathlib.Data.Nat.Find
import Mathlib.Data.Finset.Card
import Mathlib.Data.Finset.Range
import Mathlib.Tactic.Linarith

set_option linter.unusedSimpArgs false

namespace BFS

variable {adj : ℕ → List ℕ} {s : ℕ}

/-! ## Distances -/

theorem Reach.dist {v : ℕ} (h : Reach adj s v) : ∃ d, IsDist adj s v d := by
  classical
  refine ⟨Nat.find h, Nat.find_spec h, fun k hk => Nat.find_min' h hk⟩

theorem IsDist.unique {v d d' : ℕ} (h : IsDist adj s v d) (h' : IsDist adj s v d') : d = d' :=
  Nat.le_antisymm (h.2 _ h'.1) (h'.2 _ h.1)

theorem IsDist.zero {v : ℕ} (h : IsDist adj s v 0) : v = s := by
  cases h.1; rfl

theorem isDist_self : IsDist adj s s 0 := ⟨.refl s, fun _ _ => Nat.zero_le _⟩

theorem IsDist.pred {v d : ℕ} (h : IsDist adj s v (d + 1)) : ∃ u, IsDist adj s u d ∧ v ∈ adj u := by
  cases h.1 with
  | @step _ _ u _ hw hm =>
    refine ⟨u, ⟨hw, fun k hk => ?_⟩, hm⟩
    have := h.2 (k + 1) (.step hk hm)
    omega

theorem IsDist.succ {u v d : ℕ} (h : IsDist adj s u d) (hm : v ∈ adj u)
    (hn : ∀ k, k ≤ d → ¬ IsDist adj s v k) : IsDist adj s v (d + 1) := by
  obtain ⟨k, hk⟩ := Reach.dist ⟨d + 1, .step h.1 hm⟩
  have h1 : k ≤ d + 1 := hk.2 _ (.step h.1 hm)
  have h2 : ¬ k ≤ d := fun hle => hn k hle hk
  have : k = d + 1 := by omega
  rwa [← this]

/-! ## Invariant -/

/-- Nodes in a list. -/
def nodes (l : List Entry) : List ℕ := l.map Entry.node

/-- Add a predecessor to the entry of `v` if it is at distance `dist`. -/
def upd (v : ℕ) (p : Option ℕ) (dist : ℕ) (e : Entry) : Entry :=
  if e.node = v ∧ e.d = dist then { e with pred := e.pred ++ [p] } else e

@[simp] theorem upd_node (v : ℕ) (p : Option ℕ) (dist : ℕ) (e : Entry) :
    (upd v p dist e).node = e.node := by unfold upd; split_ifs <;> rfl

@[simp] theorem upd_d (v : ℕ) (p : Option ℕ) (dist : ℕ) (e : Entry) :
    (upd v p dist e).d = e.d := by unfold upd; split_ifs <;> rfl

theorem addPred_eq {v : ℕ} {p : Option ℕ} {dist : ℕ} : ∀ {l : List Entry}, (nodes l).Nodup →
    addPred v p dist l = l.map (upd v p dist)
  | [], _ => rfl
  | e :: es, h => by
    simp only [nodes, List.map_cons, List.nodup_cons] at h
    simp only [addPred, List.map_cons]
    by_cases hv : e.node = v
    · rw [if_pos hv]
      have : es.map (upd v p dist) = es := by
        conv_rhs => rw [← List.map_id es]
        apply List.map_congr_left
        intro x hx
        have : x.node ≠ v := by
          intro e1
          exact h.1 (List.mem_map.2 ⟨x, hx, by rw [e1, hv]⟩)
        simp [upd, this]
      rw [this]
      simp [upd, hv]
    · rw [if_neg hv, addPred_eq h.2]
      simp [upd, hv]

/-- `A` are the entries already expanded, `R` the rest; `D` nodes of the list `A ++ R`. `done` are the
neighbours already treated of the entry being expanded (of node `u`). -/
structure Inv (adj : ℕ → List ℕ) (s d : ℕ) (A B C : List Entry) (state : ℕ → Bool)
    (u : ℕ) (done : List ℕ) : Prop where
  nodup : (nodes (A ++ B ++ C)).Nodup
  st : ∀ v, state v = true ↔ v ∈ nodes (A ++ B ++ C)
  da : ∀ e ∈ A, e.d ≤ d
  db : ∀ e ∈ B, e.d = d
  dc : ∀ e ∈ C, e.d = d + 1
  dist : ∀ e ∈ A ++ B ++ C, IsDist adj s e.node e.d
  closed : ∀ e ∈ A, ∀ v ∈ adj e.node, v ∈ nodes (A ++ B ++ C)
  closed' : ∀ v ∈ done, v ∈ nodes (A ++ B ++ C)
  compl : ∀ v k, k ≤ d → IsDist adj s v k → v ∈ nodes (A ++ B ++ C)
  pred0 : ∀ e ∈ A ++ B ++ C, e.d = 0 → e.pred = [none]
  pred : (∀ i, (adj i).Nodup) → ∀ e ∈ A ++ B ++ C, e.d ≠ 0 → e.pred =
    (A.filter fun a => a.d + 1 = e.d ∧ e.node ∈ adj a.node).map (fun a => some a.node) ++
      if e.d = d + 1 ∧ e.node ∈ done then [some u] else []

theorem nodes_map_upd (v : ℕ) (p : Option ℕ) (dist : ℕ) (l : List Entry) :
    nodes (l.map (upd v p dist)) = nodes l := by
  simp [nodes, List.map_map, Function.comp_def]

theorem map_upd_id {v : ℕ} {p : Option ℕ} {dist : ℕ} {l : List Entry} (h : ∀ e ∈ l, e.d ≠ dist) :
    l.map (upd v p dist) = l := by
  conv_rhs => rw [← List.map_id l]
  apply List.map_congr_left
  intro e he
  simp [upd, h e he]

/-- One `Enqueue` of a neighbour `v` of the entry being expanded. -/
theorem enqueue_inv {d : ℕ} {A B C : List Entry} {q : Q} {eu : Entry} {done : List ℕ} {v : ℕ}
    (hl : q.list = A ++ (eu :: B) ++ C)
    (h : Inv adj s d A (eu :: B) C q.state eu.node done) (hv : v ∈ adj eu.node)
    (hnd : (∀ i, (adj i).Nodup) → v ∉ done) :
    ∃ C', (Enqueue v (some eu.node) A.length (d + 1) q).list = A ++ (eu :: B) ++ C' ∧
      Inv adj s d A (eu :: B) C' (Enqueue v (some eu.node) A.length (d + 1) q).state eu.node
        (done ++ [v]) ∧ C.length ≤ C'.length := by
  unfold Enqueue
  have heu : IsDist adj s eu.node d := by
    have := h.dist eu (by simp)
    rwa [h.db eu (by simp)] at this
  by_cases hst : q.state v = false
  · rw [if_pos hst]
    have hnew : v ∉ nodes (A ++ eu :: B ++ C) := by
      intro hm
      rw [(h.st v).2 hm] at hst
      simp at hst
    have hdv : IsDist adj s v (d + 1) := heu.succ hv fun k hk hkk => hnew (h.compl v k hk hkk)
    refine ⟨C ++ [{ node := v, d := d + 1, pred := [some eu.node] }], by simp [hl], ?_, by simp⟩
    have hnodes : nodes (A ++ eu :: B ++ (C ++ [{ node := v, d := d + 1, pred := [some eu.node] }]))
        = nodes (A ++ eu :: B ++ C) ++ [v] := by simp [nodes]
    constructor
    · rw [hnodes, List.nodup_append]
      exact ⟨h.nodup, by simp, by intro a ha b hb; simp at hb; rintro rfl; exact hnew (hb ▸ ha)⟩
    · intro w
      rw [hnodes]
      by_cases hw : w = v
      · subst hw; simp
      · simp only [Function.update_of_ne hw, h.st w, List.mem_append, List.mem_singleton, hw, or_false]
    · exact h.da
    · exact h.db
    · intro e he
      rcases List.mem_append.1 he with he | he
      · exact h.dc e he
      · simp at he; subst he; rfl
    · intro e he
      rw [← List.append_assoc] at he
      rcases List.mem_append.1 he with he | he
      · exact h.dist e he
      · simp at he; subst he; exact hdv
    · intro e he w hw
      rw [hnodes]; exact List.mem_append_left _ (h.closed e he w hw)
    · intro w hw
      rw [hnodes]
      rcases List.mem_append.1 hw with hw | hw
      · exact List.mem_append_left _ (h.closed' w hw)
      · simp at hw; simp [hw]
    · intro w k hk hkk
      rw [hnodes]; exact List.mem_append_left _ (h.compl w k hk hkk)
    · intro e he h0
      rw [← List.append_assoc] at he
      rcases List.mem_append.1 he with he | he
      · exact h.pred0 e he h0
      · simp at he; subst he; simp at h0
    · intro hadj e he h0
      rw [← List.append_assoc] at he
      rcases List.mem_append.1 he with he | he
      · rw [h.pred hadj e he h0]
        have hne : e.node ≠ v := by
          intro hev
          have hm : e.node ∈ nodes (A ++ eu :: B ++ C) := List.mem_map_of_mem (f := Entry.node) (by assumption)
          exact hnew (hev ▸ hm)
        simp [hne]
      · simp only [List.mem_singleton] at he
        subst he
        have hA : (A.filter fun a => a.d + 1 = d + 1 ∧ v ∈ adj a.node) = [] := by
          rw [List.filter_eq_nil_iff]
          intro a ha
          simp only [decide_eq_true_eq, not_and]
          intro _ hva
          exact hnew (h.closed a ha v hva)
        simp only [hA]; simp
  · rw [if_neg hst]
    have hin : v ∈ nodes (A ++ eu :: B ++ C) := (h.st v).1 (by simpa using hst)
    have htake : q.list.take A.length = A := by rw [hl, List.append_assoc]; simp
    have hdrop : q.list.drop A.length = (eu :: B) ++ C := by rw [hl, List.append_assoc]; simp
    have hndr : (nodes ((eu :: B) ++ C)).Nodup := by
      have := h.nodup
      rw [List.append_assoc] at this
      simp only [nodes, List.map_append] at this ⊢
      exact (List.nodup_append.1 this).2.1
    have hBid : (eu :: B).map (upd v (some eu.node) (d + 1)) = eu :: B :=
      map_upd_id fun e he => by rw [h.db e he]; omega
    refine ⟨C.map (upd v (some eu.node) (d + 1)), ?_, ?_, by simp⟩
    · simp only [htake, hdrop]
      rw [addPred_eq hndr, List.map_append, hBid, List.append_assoc]
    have hnodes : nodes (A ++ eu :: B ++ C.map (upd v (some eu.node) (d + 1)))
        = nodes (A ++ eu :: B ++ C) := by
      have := nodes_map_upd v (some eu.node) (d + 1) C
      simp only [nodes, List.map_append] at this ⊢
      rw [this]
    constructor
    · rw [hnodes]; exact h.nodup
    · rw [hnodes]; exact h.st
    · exact h.da
    · exact h.db
    · intro e he
      obtain ⟨x, hx, rfl⟩ := List.mem_map.1 he
      rw [upd_d]; exact h.dc x hx
    · intro e he
      rcases List.mem_append.1 he with he | he
      · exact h.dist e (by simp only [List.mem_append]; simp only [List.mem_append] at he; tauto)
      · obtain ⟨x, hx, rfl⟩ := List.mem_map.1 he
        rw [upd_d, upd_node]; exact h.dist x (by simp [hx])
    · rw [hnodes]; exact h.closed
    · rw [hnodes]
      intro w hw
      rcases List.mem_append.1 hw with hw | hw
      · exact h.closed' w hw
      · simp at hw; rw [hw]; exact hin
    · rw [hnodes]; exact h.compl
    · intro e he h0
      rcases List.mem_append.1 he with he | he
      · exact h.pred0 e (by simp only [List.mem_append]; simp only [List.mem_append] at he; tauto) h0
      · obtain ⟨x, hx, rfl⟩ := List.mem_map.1 he
        rw [upd_d, h.dc x hx] at h0; omega
    · intro hadj e he h0
      have hvd := hnd hadj
      rcases List.mem_append.1 he with he | he
      · have hed : e.d ≠ d + 1 := by
          rcases List.mem_append.1 he with he | he
          · have := h.da e he; omega
          · rw [h.db e he]; omega
        rw [h.pred hadj e (by simp only [List.mem_append]; simp only [List.mem_append] at he; tauto) h0]
        simp [hed]
      · obtain ⟨x, hx, rfl⟩ := List.mem_map.1 he
        have hxd := h.dc x hx
        have hp := h.pred hadj x (by simp [hx]) (by omega)
        rw [upd_d, upd_node]
        unfold upd
        by_cases hxv : x.node = v
        · rw [if_pos ⟨hxv, hxd⟩]
          simp only [hp]
          have : ¬ x.node ∈ done := by rw [hxv]; exact hvd
          rw [hxv] at this
          simp [this, hxd, hxv]
        · rw [if_neg (fun hh => hxv hh.1), hp]
          simp [hxv]

/-- All neighbours of the entry being expanded. -/
theorem enqueueAll_inv {d : ℕ} {A B : List Entry} {eu : Entry} :
    ∀ (vs done : List ℕ) (C : List Entry) (q : Q), q.list = A ++ (eu :: B) ++ C →
      Inv adj s d A (eu :: B) C q.state eu.node done → (∀ v ∈ vs, v ∈ adj eu.node) →
      ((∀ i, (adj i).Nodup) → (done ++ vs).Nodup) →
      ∃ C', (vs.foldl (fun q v => Enqueue v (some eu.node) A.length (d + 1) q) q).list
          = A ++ (eu :: B) ++ C' ∧
        Inv adj s d A (eu :: B) C'
          (vs.foldl (fun q v => Enqueue v (some eu.node) A.length (d + 1) q) q).state eu.node
          (done ++ vs) ∧ C.length ≤ C'.length
  | [], done, C, q, hl, h, _, _ => ⟨C, hl, by simpa using h, le_rfl⟩
  | v :: vs, done, C, q, hl, h, hvs, hnd => by
    obtain ⟨C1, h1, h2, h3⟩ := enqueue_inv hl h (hvs v (by simp)) (fun hadj => by
      have := hnd hadj
      rw [List.nodup_append] at this
      intro hm
      exact this.2.2 v hm v (by simp) rfl)
    obtain ⟨C2, h4, h5, h6⟩ := enqueueAll_inv vs (done ++ [v]) C1 _ h1 h2
      (fun w hw => hvs w (by simp [hw])) (by simpa using hnd)
    exact ⟨C2, h4, by simpa using h5, by omega⟩

/-- Outside an expansion. -/
abbrev InvO (adj : ℕ → List ℕ) (s d : ℕ) (A B C : List Entry) (state : ℕ → Bool) : Prop :=
  Inv adj s d A B C state 0 []

theorem Inv.start {d u : ℕ} {A B C : List Entry} {state : ℕ → Bool} (h : InvO adj s d A B C state) :
    Inv adj s d A B C state u [] :=
  ⟨h.nodup, h.st, h.da, h.db, h.dc, h.dist, h.closed, h.closed', h.compl, h.pred0, by
    intro hadj e he h0
    rw [h.pred hadj e he h0]
    simp⟩

/-- The expanded entry joins `A`. -/
theorem Inv.finish {d : ℕ} {A B C : List Entry} {eu : Entry} {state : ℕ → Bool}
    (h : Inv adj s d A (eu :: B) C state eu.node (adj eu.node)) :
    InvO adj s d (A ++ [eu]) B C state := by
  have hl : A ++ [eu] ++ B ++ C = A ++ eu :: B ++ C := by simp
  have hed : eu.d = d := h.db eu (by simp)
  constructor
  · rw [hl]; exact h.nodup
  · rw [hl]; exact h.st
  · intro e he
    rcases List.mem_append.1 he with he | he
    · exact h.da e he
    · simp at he; subst he; omega
  · intro e he; exact h.db e (by simp [he])
  · exact h.dc
  · rw [hl]; exact h.dist
  · rw [hl]
    intro e he v hv
    rcases List.mem_append.1 he with he | he
    · exact h.closed e he v hv
    · simp at he; subst he; exact h.closed' v hv
  · simp
  · rw [hl]; exact h.compl
  · rw [hl]; exact h.pred0
  · rw [hl]
    intro hadj e he h0
    rw [h.pred hadj e he h0, List.filter_append, List.map_append]
    simp only [List.not_mem_nil, and_false, if_false, List.append_nil]
    congr 1
    rw [List.filter_cons, hed]
    by_cases hc : e.d = d + 1 ∧ e.node ∈ adj eu.node
    · have : d + 1 = e.d ∧ e.node ∈ adj eu.node := ⟨hc.1.symm, hc.2⟩
      simp [hc]
    · have : ¬ (d + 1 = e.d ∧ e.node ∈ adj eu.node) := fun hh => hc ⟨hh.1.symm, hh.2⟩
      simp [hc, this]

/-- The layer is finished: go on with the next distance. -/
theorem Inv.next {d : ℕ} {A C : List Entry} {state : ℕ → Bool} (h : InvO adj s d A [] C state) :
    InvO adj s (d + 1) A C [] state := by
  have hl : A ++ C ++ [] = A ++ [] ++ C := by simp
  constructor
  · rw [hl]; exact h.nodup
  · rw [hl]; exact h.st
  · intro e he; have := h.da e he; omega
  · exact h.dc
  · simp
  · rw [hl]; exact h.dist
  · rw [hl]; exact h.closed
  · simp
  · rw [hl]
    intro v k hk hkk
    by_cases hkd : k ≤ d
    · exact h.compl v k hkd hkk
    · obtain rfl : k = d + 1 := by omega
      obtain ⟨u, hu, hm⟩ := hkk.pred
      have hin := h.compl u d le_rfl hu
      obtain ⟨e, he, rfl⟩ := List.mem_map.1 hin
      have hed : e.d = d := (h.dist e he).unique hu
      simp only [List.append_nil, List.mem_append] at he
      rcases he with he | he
      · exact h.closed e he v hm
      · have := h.dc e he; omega
  · rw [hl]; exact h.pred0
  · rw [hl]
    intro hadj e he h0
    rw [h.pred hadj e he h0]
    simp

/-! ## Loops -/

theorem renew_inv {d : ℕ} : ∀ (B A C : List Entry) (q : Q) (fuel : ℕ), B.length < fuel →
    q.list = A ++ B ++ C → InvO adj s d A B C q.state →
    ∃ q' C', RenewQueue adj d fuel A.length q = some (A.length + B.length, q') ∧
      q'.list = A ++ B ++ C' ∧ InvO adj s d (A ++ B) [] C' q'.state ∧ C.length ≤ C'.length
  | [], A, C, q, fuel, hf, hl, h => by
    obtain ⟨f, rfl⟩ : ∃ f, fuel = f + 1 := ⟨fuel - 1, by omega⟩
    refine ⟨q, C, ?_, hl, by simpa using h, le_rfl⟩
    unfold RenewQueue
    cases C with
    | nil =>
      have : q.list[A.length]? = none := by rw [hl]; simp
      simp [this]
    | cons c C =>
      have : q.list[A.length]? = some c := by rw [hl]; simp
      have hc : ¬ c.d = d := by have := h.dc c (by simp); omega
      simp [this, hc]
  | eu :: B, A, C, q, fuel, hf, hl, h => by
    obtain ⟨f, rfl⟩ : ∃ f, fuel = f + 1 := ⟨fuel - 1, by omega⟩
    have hget : q.list[A.length]? = some eu := by rw [hl]; simp
    obtain ⟨C1, h1, h2, h3⟩ := enqueueAll_inv (adj eu.node) [] C q hl (h.start (u := eu.node))
      (fun _ hv => hv) (fun hadj => by simpa using hadj eu.node)
    have h2' := Inv.finish (by simpa using h2)
    obtain ⟨q', C', e, hl', hi', hlen⟩ := renew_inv B (A ++ [eu]) C1
      (EnqueueAdjaList adj eu.node A.length (d + 1) q) f (by simp at hf; omega)
      (by simpa [EnqueueAdjaList] using h1) h2'
    refine ⟨q', C', ?_, by simpa using hl', by simpa using hi', by omega⟩
    unfold RenewQueue
    simp only [hget, h.db eu (by simp), if_true]
    have : A.length + 1 = (A ++ [eu]).length := by simp
    rw [this, e]
    simp; omega

/-- A search that has ended: `list` are all reachable nodes with their distances. -/
structure Final (adj : ℕ → List ℕ) (s : ℕ) (q : Q) : Prop where
  nodup : (nodes q.list).Nodup
  st : ∀ v, q.state v = true ↔ v ∈ nodes q.list
  dist : ∀ e ∈ q.list, IsDist adj s e.node e.d
  reach : ∀ v, v ∈ nodes q.list ↔ Reach adj s v
  sorted : q.list.Pairwise fun a b => a.d ≤ b.d
  pred0 : ∀ e ∈ q.list, e.d = 0 → e.pred = [none]
  pred : (∀ i, (adj i).Nodup) → ∀ e ∈ q.list, e.d ≠ 0 → e.pred =
    (q.list.filter fun a => a.d + 1 = e.d ∧ e.node ∈ adj a.node).map (fun a => some a.node)

theorem reach_of_closed {l : List Entry} (hs : s ∈ nodes l)
    (hc : ∀ e ∈ l, ∀ v ∈ adj e.node, v ∈ nodes l) : ∀ k v, Walk adj k s v → v ∈ nodes l := by
  intro k v h
  induction h with
  | refl => exact hs
  | step _ hm ih =>
    obtain ⟨e, he, rfl⟩ := List.mem_map.1 (ih hs)
    exact hc e he _ hm

theorem mem_bound {n : ℕ} (hadj : ∀ i < n, ∀ j ∈ adj i, j < n) (hs : s < n) {k v : ℕ}
    (h : Walk adj k s v) : v < n := by
  induction h with
  | refl => exact hs
  | step _ hm ih => exact hadj _ (ih hs) _ hm

theorem length_bound {n : ℕ} (hadj : ∀ i < n, ∀ j ∈ adj i, j < n) (hs : s < n) {l : List Entry}
    (hnd : (nodes l).Nodup) (hd : ∀ e ∈ l, IsDist adj s e.node e.d) : l.length ≤ n := by
  have h1 : (nodes l).toFinset ⊆ Finset.range n := by
    intro v hv
    obtain ⟨e, he, rfl⟩ := List.mem_map.1 (List.mem_toFinset.1 hv)
    exact Finset.mem_range.2 (mem_bound hadj hs (hd e he).1)
  have := Finset.card_le_card h1
  rw [List.toFinset_card_of_nodup hnd] at this
  simpa [nodes] using this

/-- Invariant between rounds: sorted by distance as well. -/
structure Mid (adj : ℕ → List ℕ) (s d : ℕ) (A B : List Entry) (state : ℕ → Bool) : Prop where
  inv : InvO adj s d A B [] state
  sorted : (A ++ B).Pairwise fun a b => a.d ≤ b.d

theorem nodup_filter_d {l : List Entry} {d : ℕ} : (nodes (l.filter fun e => e.d = d)).Sublist (nodes l) :=
  List.Sublist.map _ List.filter_sublist

theorem expand_final {n : ℕ} (hadj : ∀ i < n, ∀ j ∈ adj i, j < n) (hs : s < n) :
    ∀ (fuel d : ℕ) (A B : List Entry) (q : Q), q.list = A ++ B → Mid adj s d A B q.state →
      n + 1 ≤ fuel + A.length → (B = [] → 1 ≤ fuel) →
      ∃ D, expand adj n fuel d A.length q = some D ∧ Final adj s D.q ∧
        nodes D.q.list = nodes (A ++ B) ++ (D.rounds.map Round.after).flatten ∧
        (∀ r ∈ D.rounds, r.grew = r.after.length) ∧ D.lp = D.q.list.length ∧
        (∀ i r, D.rounds[i]? = some r → ∀ v ∈ r.after, IsDist adj s v (d + 1 + i)) ∧
        D.d = d + D.rounds.length
  | 0, d, A, B, q, hl, h, hf, hB => by
    have := length_bound hadj hs h.inv.nodup h.inv.dist
    simp at this
    omega
  | fuel + 1, d, A, B, q, hl, h, hf, hB => by
    have hlen := length_bound hadj hs h.inv.nodup h.inv.dist
    simp only [List.append_nil, List.length_append] at hlen
    obtain ⟨q', C', e, hl', hi', _⟩ := renew_inv B A [] q (n + 1) (by omega) (by simpa using hl) h.inv
    have hnx := hi'.next
    have hAB : A.length + B.length = (A ++ B).length := by simp
    have hsort : (A ++ B ++ C').Pairwise fun a b => a.d ≤ b.d := by
      rw [List.pairwise_append]
      refine ⟨h.sorted, ?_, ?_⟩
      · apply List.pairwise_of_forall_mem_list
        intro a ha b hb
        rw [hi'.dc a ha, hi'.dc b hb]
      · intro a ha b hb
        have := hi'.da a ha; have := hi'.dc b hb; omega
    have hdrop : q'.list.drop (A ++ B).length = C' := by rw [hl']; simp
    have hcdist : ∀ v ∈ C'.map Entry.node, IsDist adj s v (d + 1) := by
      intro v hv
      obtain ⟨c, hc, rfl⟩ := List.mem_map.1 hv
      rw [← hi'.dc c hc]
      exact hi'.dist c (by simp [hc])
    have hgrew : q'.list.length - q.list.length = C'.length := by
      rw [hl', hl]; simp; omega
    unfold expand
    simp only [e, Option.bind_eq_bind, Option.bind_some, hAB, hdrop, hgrew]
    by_cases hC : C' = []
    · subst hC
      have : q'.list.length = q.list.length := by rw [hl', hl]; simp
      rw [if_neg (by simpa using this)]
      have hL : q'.list = A ++ B := by rw [hl']; simp
      refine ⟨_, rfl, ?_, by simp [hL], by simp, by simp [hL], by
        intro i r hr v hv
        cases i with
        | zero => simp at hr; subst hr; simp at hv
        | succ i => simp at hr, by simp⟩
      have hcl : ∀ e ∈ q'.list, ∀ v ∈ adj e.node, v ∈ nodes q'.list := by
        rw [hL]; simpa using hi'.closed
      have hsm : s ∈ nodes q'.list := by
        rw [hL]; simpa using hi'.compl s 0 (Nat.zero_le _) isDist_self
      refine ⟨by rw [hL]; simpa using hi'.nodup, by rw [hL]; simpa using hi'.st,
        by rw [hL]; simpa using hi'.dist, ?_, by rw [hL]; exact h.sorted,
        by rw [hL]; simpa using hi'.pred0, by rw [hL]; simpa using hi'.pred⟩
      intro v
      constructor
      · intro hv
        obtain ⟨e, he, rfl⟩ := List.mem_map.1 hv
        rw [hL] at he
        exact ⟨_, (hi'.dist e (by simpa using he)).1⟩
      · rintro ⟨k, hk⟩
        exact reach_of_closed hsm hcl k v hk
    · have hpos : 0 < C'.length := List.length_pos_iff.2 hC
      have : ¬ q'.list.length = q.list.length := by rw [hl', hl]; simp; omega
      rw [if_pos this]
      by_cases hBe : B = []
      · -- the previous layer cannot be empty
        exfalso
        subst hBe
        cases C' with
        | nil => simp at hC
        | cons c C' =>
          have hcd := hi'.dc c (by simp)
          have hc := hi'.dist c (by simp)
          rw [hcd] at hc
          have hcn : c.node ∈ nodes A := by
            obtain ⟨u', hu', hm'⟩ := hc.pred
            have hin' := h.inv.compl u' d le_rfl hu'
            obtain ⟨e0, he0, rfl⟩ := List.mem_map.1 hin'
            have he0' : e0 ∈ A := by simpa using he0
            simpa using h.inv.closed e0 he0' _ hm'
          have hnd := hi'.nodup
          simp only [nodes, List.append_nil, List.map_append, List.map_cons, List.nodup_append] at hnd
          exact hnd.2.2 c.node hcn c.node (by simp) rfl
      · have hBp : 0 < B.length := List.length_pos_iff.2 hBe
        obtain ⟨D, hD, hF, hn, hg, hlp, hr, hd⟩ :=
          expand_final hadj hs fuel (d + 1) (A ++ B) C' q' hl' ⟨hnx, hsort⟩
            (by simp; omega) (fun h => (hC h).elim)
        rw [hD]
        refine ⟨_, rfl, hF, ?_, ?_, hlp, ?_, ?_⟩
        · simp only [hn, List.map_cons, List.flatten_cons]
          simp [nodes]
        · intro r hr'
          rcases List.mem_cons.1 hr' with rfl | hr'
          · simp
          · exact hg r hr'
        · intro i r hi v hv
          cases i with
          | zero =>
            simp only [List.getElem?_cons_zero, Option.some.injEq] at hi
            subst hi
            exact hcdist v hv
          | succ i =>
            simp only [List.getElem?_cons_succ] at hi
            have := hr i r hi v hv
            rwa [show d + 1 + 1 + i = d + 1 + (i + 1) by omega] at this
        · simp [hd]; omega

/-- What a whole search gives. -/
structure Found (adj : ℕ → List ℕ) (n s : ℕ) (D : Done) : Prop where
  run : search adj n s = some D
  final : Final adj s D.q
  nodes : nodes D.q.list = s :: (D.rounds.map Round.after).flatten
  grew : ∀ r ∈ D.rounds, r.grew = r.after.length
  layer : ∀ i r, D.rounds[i]? = some r → ∀ v ∈ r.after, IsDist adj s v (i + 1)

theorem search_final {n : ℕ} (hadj : ∀ i < n, ∀ j ∈ adj i, j < n) (hs : s < n) :
    ∃ D, Found adj n s D := by
  have he : Enqueue s none 0 0 Q.empty = { list := [⟨s, 0, [none]⟩], state := Function.update (fun _ => false) s true } := by
    simp [Enqueue, Q.empty]
  obtain ⟨D, h1, h2, h3, h4, _, h6, _⟩ := expand_final hadj hs (n + 1) 0 [] [⟨s, 0, [none]⟩]
    { list := [⟨s, 0, [none]⟩], state := Function.update (fun _ => false) s true } rfl (by
      refine ⟨?_, by simp⟩
      constructor
      · simp [BFS.nodes]
      · intro v
        by_cases hv : v = s
        · subst hv; simp [BFS.nodes]
        · simp [BFS.nodes, hv]
      · simp
      · simp
      · simp
      · simp [isDist_self]
      · simp
      · simp
      · intro v k hk hkk
        obtain rfl : k = 0 := by omega
        simp [BFS.nodes, hkk.zero]
      · simp
      · simp) (by simp) (by simp)
  refine ⟨D, ?_, h2, by simpa [BFS.nodes] using h3, h4, ?_⟩
  · unfold search; rw [he]; exact h1
  · intro i r hi v hv
    have := h6 i r hi v hv
    rwa [show 0 + 1 + i = i + 1 by omega] at this

end BFS
