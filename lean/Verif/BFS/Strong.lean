import Verif.BFS.StrongModel
import Verif.BFS.Clusters
import Mathlib.Data.Set.Card

/-!
# C81, C82: strongly connected sets
-/

set_option linter.unusedSimpArgs false

namespace BFS

variable {adj : ℕ → List ℕ} {n : ℕ}

/-! ## Specification -/

/-- Each of the two nodes can be reached from the other. -/
def Strong (adj : ℕ → List ℕ) (u v : ℕ) : Prop := Reach adj u v ∧ Reach adj v u

/-- The strongly connected components of the network. -/
def strongComponents (adj : ℕ → List ℕ) (n : ℕ) : Set (Set ℕ) :=
  {X | ∃ p < n, X = {v | Strong adj p v}}

theorem Reach.refl (p : ℕ) : Reach adj p p := ⟨0, .refl p⟩
theorem Strong.refl (p : ℕ) : Strong adj p p := ⟨.refl p, .refl p⟩
theorem Strong.symm {u v : ℕ} (h : Strong adj u v) : Strong adj v u := ⟨h.2, h.1⟩
theorem Strong.trans {u v w : ℕ} (h : Strong adj u v) (h' : Strong adj v w) : Strong adj u w :=
  ⟨h.1.trans h'.1, h'.2.trans h.2⟩
theorem Reach.one {u v : ℕ} (h : v ∈ adj u) : Reach adj u v := ⟨1, .step (.refl u) h⟩

theorem Reach.lt (hadj : InRange adj n) {s v : ℕ} (hs : s < n) (h : Reach adj s v) : v < n := by
  obtain ⟨k, hk⟩ := h
  exact mem_bound hadj hs hk

/-! ## `AreConnectedList` -/

theorem areConnected_spec (hadj : InRange adj n) {s : ℕ} (hs : s < n) (set : ℕ → Bool) :
    ∃ b, AreConnectedList adj n s set = some b ∧
      (b = true ↔ ∃ v, v ≠ s ∧ Reach adj s v ∧ set v = true) := by
  obtain ⟨D, h⟩ := search_final hadj hs
  refine ⟨_, by unfold AreConnectedList; rw [h.run]; rfl, ?_⟩
  have hn := h.nodes
  have hnd := h.final.nodup
  rw [hn, List.nodup_cons] at hnd
  simp only [List.any_eq_true]
  constructor
  · rintro ⟨r, hr, v, hv, hset⟩
    have hmem : v ∈ (D.rounds.map Round.after).flatten :=
      List.mem_flatten.2 ⟨r.after, List.mem_map_of_mem hr, hv⟩
    refine ⟨v, fun e => hnd.1 (e ▸ hmem), ?_, hset⟩
    exact (h.final.reach v).1 (by rw [hn]; exact List.mem_cons_of_mem _ hmem)
  · rintro ⟨v, hne, hr, hset⟩
    have := (h.final.reach v).2 hr
    rw [hn, List.mem_cons] at this
    rcases this with e | hm
    · exact (hne e).elim
    · obtain ⟨l, hl, hv⟩ := List.mem_flatten.1 hm
      obtain ⟨r, hr, rfl⟩ := List.mem_map.1 hl
      exact ⟨r, hr, v, hv, hset⟩

/-! ## One level -/

/-- What a list keeps when entries are taken out of it: their nodes stay marked. -/
structure Loose (d : ℕ) (A B C : List Entry) (state : ℕ → Bool) : Prop where
  nodup : (nodes (A ++ B ++ C)).Nodup
  st : ∀ v ∈ nodes (A ++ B ++ C), state v = true
  db : ∀ e ∈ B, e.d = d
  dc : ∀ e ∈ C, e.d = d + 1

/-- From `(C, state)` to `(C', state')` by looking at the nodes in `X`. -/
structure Saw (C C' : List Entry) (state state' : ℕ → Bool) (X : ℕ → Prop) : Prop where
  st : ∀ v, state' v = true ↔ state v = true ∨ X v
  mem : ∀ v, v ∈ nodes C' ↔ v ∈ nodes C ∨ (state v = false ∧ X v)

theorem Saw.refl (C : List Entry) (state : ℕ → Bool) : Saw C C state state fun _ => False :=
  ⟨by simp, by simp⟩

theorem Saw.trans {C C' C'' : List Entry} {s s' s'' : ℕ → Bool} {X Y : ℕ → Prop} (h : Saw C C' s s' X)
    (h' : Saw C' C'' s' s'' Y) : Saw C C'' s s'' fun v => X v ∨ Y v := by
  refine ⟨fun v => ?_, fun v => ?_⟩
  · rw [h'.st, h.st]; tauto
  · rw [h'.mem, h.mem]
    have hs : s' v = false ↔ ¬ (s v = true ∨ X v) := by rw [← h.st v]; simp
    rw [hs]
    have : s v = false ↔ ¬ s v = true := by simp
    rw [this]
    tauto

theorem enqueue_loose {d : ℕ} {A B C : List Entry} {q : Q} {eu : Entry} {v : ℕ}
    (hl : q.list = A ++ (eu :: B) ++ C) (h : Loose d A (eu :: B) C q.state) :
    ∃ C', (Enqueue v (some eu.node) A.length (d + 1) q).list = A ++ (eu :: B) ++ C' ∧
      Loose d A (eu :: B) C' (Enqueue v (some eu.node) A.length (d + 1) q).state ∧
      Saw C C' q.state (Enqueue v (some eu.node) A.length (d + 1) q).state fun w => w = v := by
  unfold Enqueue
  by_cases hst : q.state v = false
  · rw [if_pos hst]
    have hnew : v ∉ nodes (A ++ eu :: B ++ C) := by
      intro hm
      rw [h.st v hm] at hst
      simp at hst
    refine ⟨C ++ [{ node := v, d := d + 1, pred := [some eu.node] }], by simp [hl], ?_, ?_⟩
    · have hnodes : nodes (A ++ eu :: B ++ (C ++ [{ node := v, d := d + 1, pred := [some eu.node] }]))
          = nodes (A ++ eu :: B ++ C) ++ [v] := by simp [nodes]
      constructor
      · rw [hnodes, List.nodup_append]
        exact ⟨h.nodup, by simp, by intro a ha b hb; simp at hb; rintro rfl; exact hnew (hb ▸ ha)⟩
      · intro w hw
        rw [hnodes] at hw
        by_cases hwv : w = v
        · subst hwv; simp
        · simp only [Function.update_of_ne hwv]
          rcases List.mem_append.1 hw with hw | hw
          · exact h.st w hw
          · simp at hw; exact (hwv hw).elim
      · exact h.db
      · intro e he
        rcases List.mem_append.1 he with he | he
        · exact h.dc e he
        · simp at he; subst he; rfl
    · refine ⟨fun w => ?_, fun w => ?_⟩
      · by_cases hw : w = v
        · subst hw; simp
        · simp [Function.update_of_ne hw, hw]
      · by_cases hw : w = v
        · subst hw; simp [nodes, hst]
        · simp [nodes, hw]
  · rw [if_neg hst]
    have hst' : q.state v = true := by simpa using hst
    have htake : q.list.take A.length = A := by rw [hl, List.append_assoc]; simp
    have hdrop : q.list.drop A.length = (eu :: B) ++ C := by rw [hl, List.append_assoc]; simp
    have hndr : (nodes ((eu :: B) ++ C)).Nodup := by
      have := h.nodup
      rw [List.append_assoc] at this
      simp only [nodes, List.map_append] at this ⊢
      exact (List.nodup_append.1 this).2.1
    have hBid : (eu :: B).map (upd v (some eu.node) (d + 1)) = eu :: B :=
      map_upd_id fun e he => by rw [h.db e he]; omega
    refine ⟨C.map (upd v (some eu.node) (d + 1)), ?_, ?_, ?_⟩
    · simp only [htake, hdrop]
      rw [addPred_eq hndr, List.map_append, hBid, List.append_assoc]
    · have hnodes : nodes (A ++ eu :: B ++ C.map (upd v (some eu.node) (d + 1)))
          = nodes (A ++ eu :: B ++ C) := by
        have := nodes_map_upd v (some eu.node) (d + 1) C
        simp only [nodes, List.map_append] at this ⊢
        rw [this]
      constructor
      · rw [hnodes]; exact h.nodup
      · rw [hnodes]; exact h.st
      · exact h.db
      · intro e he
        obtain ⟨x, hx, rfl⟩ := List.mem_map.1 he
        rw [upd_d]; exact h.dc x hx
    · refine ⟨fun w => ?_, fun w => ?_⟩
      · constructor
        · exact Or.inl
        · rintro (hw | rfl)
          · exact hw
          · exact hst'
      · rw [nodes_map_upd]
        constructor
        · exact Or.inl
        · rintro (hw | ⟨hw, rfl⟩)
          · exact hw
          · rw [hst'] at hw; simp at hw

theorem enqueueAll_loose {d : ℕ} {A B : List Entry} {eu : Entry} :
    ∀ (vs : List ℕ) (C : List Entry) (q : Q), q.list = A ++ (eu :: B) ++ C →
      Loose d A (eu :: B) C q.state →
      ∃ C', (vs.foldl (fun q v => Enqueue v (some eu.node) A.length (d + 1) q) q).list
          = A ++ (eu :: B) ++ C' ∧
        Loose d A (eu :: B) C' (vs.foldl (fun q v => Enqueue v (some eu.node) A.length (d + 1) q) q).state ∧
        Saw C C' q.state (vs.foldl (fun q v => Enqueue v (some eu.node) A.length (d + 1) q) q).state
          fun w => w ∈ vs
  | [], C, q, hl, h => ⟨C, hl, h, by simpa using Saw.refl C q.state⟩
  | v :: vs, C, q, hl, h => by
    obtain ⟨C1, h1, h2, h3⟩ := enqueue_loose (v := v) hl h
    obtain ⟨C2, h4, h5, h6⟩ := enqueueAll_loose vs C1 _ h1 h2
    refine ⟨C2, h4, h5, ?_⟩
    have := h3.trans h6
    refine ⟨fun w => by rw [List.mem_cons]; exact this.st w, fun w => by rw [List.mem_cons]; exact this.mem w⟩

theorem Loose.finish {d : ℕ} {A B C : List Entry} {eu : Entry} {state : ℕ → Bool}
    (h : Loose d A (eu :: B) C state) : Loose d (A ++ [eu]) B C state := by
  have hl : A ++ [eu] ++ B ++ C = A ++ eu :: B ++ C := by simp
  exact ⟨by rw [hl]; exact h.nodup, by rw [hl]; exact h.st, fun e he => h.db e (by simp [he]), h.dc⟩

theorem renew_loose {d : ℕ} : ∀ (B A C : List Entry) (q : Q) (fuel : ℕ), B.length < fuel →
    q.list = A ++ B ++ C → Loose d A B C q.state →
    ∃ q' C', RenewQueue adj d fuel A.length q = some (A.length + B.length, q') ∧
      q'.list = A ++ B ++ C' ∧ Loose d (A ++ B) [] C' q'.state ∧
      Saw C C' q.state q'.state fun w => ∃ e ∈ B, w ∈ adj e.node
  | [], A, C, q, fuel + 1, _, hl, h => by
    refine ⟨q, C, ?_, hl, by simpa using h, by simpa using Saw.refl C q.state⟩
    unfold RenewQueue
    cases C with
    | nil =>
      have : q.list[A.length]? = none := by rw [hl]; simp
      simp [this]
    | cons c C =>
      have : q.list[A.length]? = some c := by rw [hl]; simp
      have hc : ¬ c.d = d := by have := h.dc c (by simp); omega
      simp [this, hc]
  | eu :: B, A, C, q, fuel + 1, hf, hl, h => by
    have hget : q.list[A.length]? = some eu := by rw [hl]; simp
    obtain ⟨C1, h1, h2, h3⟩ := enqueueAll_loose (adj eu.node) C q hl h
    obtain ⟨q', C', e, h4, h5, h6⟩ := renew_loose (d := d) B (A ++ [eu]) C1
      (EnqueueAdjaList adj eu.node A.length (d + 1) q) fuel
      (by simp at hf; omega) (by simpa [EnqueueAdjaList] using h1) (Loose.finish (by simpa [EnqueueAdjaList] using h2))
    refine ⟨q', C', ?_, by simpa using h4, by simpa using h5, ?_⟩
    · unfold RenewQueue
      simp only [hget, h.db eu (by simp), if_true]
      have : A.length + 1 = (A ++ [eu]).length := by simp
      rw [this, e]
      simp; omega
    · have := h3.trans h6
      refine ⟨fun w => ?_, fun w => ?_⟩
      · rw [this.st w]; simp
      · rw [this.mem w]; simp

/-! ## Taking out nodes of other sets -/

theorem prune_spec (hadj : InRange adj n) {p : ℕ} : ∀ (C : List Entry) (this : ℕ → Bool),
    (nodes C).Nodup → (∀ e ∈ C, e.node < n ∧ Reach adj p e.node ∧ this e.node = false) →
    this p = true → (∀ v, this v = true → Strong adj p v) →
    ∃ kept this', prune adj n C this = some (kept, this') ∧ kept.Sublist C ∧
      (∀ e ∈ C, e ∈ kept ↔ Strong adj p e.node) ∧
      ∀ v, this' v = true ↔ this v = true ∨ v ∈ nodes kept
  | [], this, _, _, _, _ => ⟨[], this, rfl, List.Sublist.refl _, by simp, by simp [nodes]⟩
  | e :: es, this, hnd, hC, hp, hthis => by
    obtain ⟨hen, her, het⟩ := hC e (by simp)
    simp only [nodes, List.map_cons, List.nodup_cons] at hnd
    obtain ⟨b, hb, hbi⟩ := areConnected_spec hadj hen this
    have hbs : b = true ↔ Strong adj p e.node := by
      rw [hbi]
      constructor
      · rintro ⟨v, _, hr, hv⟩
        exact ⟨her, hr.trans (hthis v hv).2⟩
      · intro hs
        exact ⟨p, fun e' => by rw [e'] at hp; rw [hp] at het; simp at het, hs.2, hp⟩
    have hnot : ∀ x ∈ es, x ≠ e := fun x hx e' => hnd.1 (e' ▸ List.mem_map_of_mem hx)
    unfold prune
    rw [hb]
    simp only [Option.bind_eq_bind, Option.bind_some]
    by_cases hbt : b = true
    · rw [if_pos hbt]
      obtain ⟨kept, this', h1, h2, h3, h4⟩ := prune_spec hadj es (Function.update this e.node true) hnd.2
        (fun x hx => ⟨(hC x (by simp [hx])).1, (hC x (by simp [hx])).2.1, by
          rw [Function.update_of_ne]
          · exact (hC x (by simp [hx])).2.2
          · exact fun e' => hnd.1 (e' ▸ List.mem_map_of_mem hx)⟩)
        (by by_cases hpe : p = e.node <;> simp [Function.update, hpe, hp])
        (fun v hv => by
          by_cases hve : v = e.node
          · rw [hve]; exact hbs.1 hbt
          · rw [Function.update_of_ne hve] at hv; exact hthis v hv)
      refine ⟨e :: kept, this', by rw [h1]; rfl, h2.cons_cons e, ?_, ?_⟩
      · intro x hx
        rcases List.mem_cons.1 hx with rfl | hx
        · simp [hbs.1 hbt]
        · rw [List.mem_cons, h3 x hx]
          simp [hnot x hx]
      · intro v
        rw [h4 v]
        by_cases hve : v = e.node
        · simp [hve, nodes]
        · simp [Function.update_of_ne hve, nodes, hve]
    · rw [if_neg hbt]
      obtain ⟨kept, this', h1, h2, h3, h4⟩ := prune_spec hadj es this hnd.2
        (fun x hx => hC x (by simp [hx])) hp hthis
      refine ⟨kept, this', h1, h2.cons e, ?_, h4⟩
      intro x hx
      rcases List.mem_cons.1 hx with rfl | hx
      · have : ¬ Strong adj p x.node := fun hs => hbt (hbs.2 hs)
        simp only [this, iff_false]
        intro hm
        exact hnd.1 (List.mem_map_of_mem (h2.subset hm))
      · exact h3 x hx

/-! ## One set -/

/-- State of the loop: `A` expanded, `B` not yet. -/
structure SInv (adj : ℕ → List ℕ) (n p d : ℕ) (A B : List Entry) (state this : ℕ → Bool) : Prop where
  loose : Loose d A B [] state
  strong : ∀ v ∈ nodes (A ++ B), Strong adj p v
  this : ∀ v, this v = true ↔ v ∈ nodes (A ++ B)
  seen : ∀ v, state v = true → Reach adj p v ∧ (Strong adj p v → v ∈ nodes (A ++ B))
  closed : ∀ e ∈ A, ∀ v ∈ adj e.node, state v = true
  start : p ∈ nodes (A ++ B)

theorem sinv_length (hadj : InRange adj n) {p d : ℕ} {A B : List Entry} {state this : ℕ → Bool} (hp : p < n)
    (h : SInv adj n p d A B state this) : (A ++ B).length ≤ n := by
  have h1 : (nodes (A ++ B)).toFinset ⊆ Finset.range n := by
    intro v hv
    rw [Finset.mem_range]
    exact (h.strong v (List.mem_toFinset.1 hv)).1.lt hadj hp
  have h2 := Finset.card_le_card h1
  rw [List.toFinset_card_of_nodup (by simpa using h.loose.nodup), Finset.card_range] at h2
  simpa [nodes] using h2

theorem strongGrow_spec (hadj : InRange adj n) {p : ℕ} (hp : p < n) :
    ∀ (fuel d : ℕ) (A B : List Entry) (q : Q) (this : ℕ → Bool), q.list = A ++ B →
      SInv adj n p d A B q.state this → n + 2 ≤ fuel + (A ++ B).length →
      ∃ S, strongGrow adj n fuel d A.length q this = some S ∧ S.Nodup ∧ ∀ v, v ∈ S ↔ Strong adj p v
  | 0, d, A, B, q, this, hl, h, hf => by
    have := sinv_length hadj hp h
    omega
  | fuel + 1, d, A, B, q, this, hl, h, hf => by
    have hlen := sinv_length hadj hp h
    obtain ⟨q', C, e, hl', hlo, hsaw⟩ := renew_loose (adj := adj) B A [] q (n + 1)
      (by simp at hlen; omega) (by simpa using hl) (by simpa using h.loose)
    have hCnew : ∀ e ∈ C, q.state e.node = false ∧ ∃ b ∈ B, e.node ∈ adj b.node := by
      intro e he
      have := (hsaw.mem e.node).1 (List.mem_map_of_mem he)
      simpa [nodes] using this
    have hreach : ∀ e ∈ C, Reach adj p e.node := by
      intro e he
      obtain ⟨_, b, hb, hm⟩ := hCnew e he
      exact (h.strong b.node (List.mem_map_of_mem (by simp [hb]))).1.trans (Reach.one hm)
    have hnd := hlo.nodup
    simp only [List.append_nil, nodes, List.map_append, List.nodup_append] at hnd
    have hps : this p = true := (h.this p).2 h.start
    obtain ⟨kept, this', hpr, hsub, hkept, hthis'⟩ := prune_spec hadj (p := p) C this hnd.2.1
      (fun e he => ⟨(hreach e he).lt hadj hp, hreach e he, by
        by_contra ht
        have := (h.this e.node).1 (by simpa using ht)
        have := h.loose.st e.node (by simpa using this)
        rw [(hCnew e he).1] at this
        simp at this⟩)
      hps (fun v hv => h.strong v ((h.this v).1 hv))
    have htake : q'.list.take (A ++ B).length = A ++ B := by rw [hl', List.take_left]
    have hdrop : q'.list.drop (A ++ B).length = C := by rw [hl', List.drop_left]
    have elp : A.length + B.length = (A ++ B).length := by simp
    -- the new state
    have hnext : SInv adj n p (d + 1) (A ++ B) kept q'.state this' := by
      refine ⟨⟨?_, ?_, ?_, by simp⟩, ?_, ?_, ?_, ?_, ?_⟩
      · have h1 := hlo.nodup
        simp only [List.append_nil] at h1 ⊢
        exact h1.sublist (List.Sublist.map _ (List.Sublist.append (List.Sublist.refl _) hsub))
      · intro v hv
        apply hlo.st v
        simp only [List.append_nil, nodes, List.map_append, List.mem_append] at hv ⊢
        rcases hv with hv | hv
        · exact Or.inl hv
        · exact Or.inr ((List.Sublist.map _ hsub).subset hv)
      · intro e he; exact hlo.dc e (hsub.subset he)
      · intro v hv
        simp only [nodes, List.map_append, List.mem_append] at hv
        rcases hv with hv | hv
        · exact h.strong v (by simpa [nodes] using hv)
        · obtain ⟨x, hx, rfl⟩ := List.mem_map.1 hv
          exact (hkept x (hsub.subset hx)).1 hx
      · intro v
        rw [hthis' v, h.this v]
        simp only [nodes, List.map_append, List.mem_append]
      · intro v hv
        rw [hsaw.st v] at hv
        rcases hv with hv | hv
        · have := h.seen v hv
          refine ⟨this.1, fun hs => ?_⟩
          have := this.2 hs
          simp only [nodes, List.map_append, List.mem_append] at this ⊢
          exact Or.inl this
        · obtain ⟨b, hb, hm⟩ := hv
          refine ⟨(h.strong b.node (List.mem_map_of_mem (by simp [hb]))).1.trans (Reach.one hm), fun hs => ?_⟩
          by_cases hq : q.state v = true
          · have := (h.seen v hq).2 hs
            simp only [nodes, List.map_append, List.mem_append] at this ⊢
            exact Or.inl this
          · have : v ∈ nodes C := (hsaw.mem v).2 (Or.inr ⟨by simpa using hq, b, hb, hm⟩)
            obtain ⟨x, hx, rfl⟩ := List.mem_map.1 this
            have := (hkept x hx).2 hs
            simp only [nodes, List.map_append, List.mem_append]
            exact Or.inr (List.mem_map_of_mem this)
      · intro e he v hv
        rw [hsaw.st v]
        rcases List.mem_append.1 he with he | he
        · exact Or.inl (h.closed e he v hv)
        · exact Or.inr ⟨e, he, hv⟩
      · have := h.start
        simp only [nodes, List.map_append, List.mem_append] at this ⊢
        exact Or.inl this
    unfold strongGrow
    rw [e]
    simp only [Option.bind_eq_bind, Option.bind_some]
    rw [elp, htake, hdrop, hpr]
    simp only [Option.bind_some]
    by_cases hk : kept = []
    · subst hk
      rw [if_neg (by simp [hl])]
      refine ⟨_, rfl, by simpa [nodes] using h.loose.nodup, ?_⟩
      intro v
      simp only [List.append_nil]
      show v ∈ nodes (A ++ B) ↔ _
      constructor
      · exact h.strong v
      · rintro ⟨⟨k, hw⟩, hback⟩
        have key : ∀ k v, Walk adj k p v → Reach adj v p → v ∈ nodes (A ++ B) := by
          intro k
          induction k with
          | zero => intro v hw _; cases hw; exact h.start
          | succ k ih =>
            intro v hw hb
            cases hw with
            | @step _ _ u _ hw hm =>
              have hu := ih u hw ((Reach.one hm).trans hb)
              obtain ⟨x, hx, rfl⟩ := List.mem_map.1 hu
              have hst := hnext.closed x hx v hm
              have := (hnext.seen v hst).2 ⟨⟨k + 1, .step hw hm⟩, hb⟩
              simpa using this
        exact key k v hw hback
    · have hpos : 0 < kept.length := List.length_pos_iff.2 hk
      rw [if_pos (by simp [hl]; omega)]
      exact strongGrow_spec hadj hp fuel (d + 1) (A ++ B) kept _ this' rfl hnext (by
        simp only [List.length_append] at hf ⊢; omega)

theorem strongSet_spec (hadj : InRange adj n) {p : ℕ} (hp : p < n) :
    ∃ S, strongSet adj n p = some S ∧ S.Nodup ∧ ∀ v, v ∈ S ↔ Strong adj p v := by
  have he : Enqueue p none 0 0 Q.empty =
      { list := [⟨p, 0, [none]⟩], state := Function.update (fun _ => false) p true } := by
    simp [Enqueue, Q.empty]
  unfold strongSet
  rw [he]
  refine strongGrow_spec hadj hp (n + 1) 0 [] [⟨p, 0, [none]⟩] _ _ rfl ?_ (by simp)
  refine ⟨⟨by simp [nodes], by simp [nodes], by simp, by simp⟩, ?_, ?_, ?_, by simp, by simp [nodes]⟩
  · intro v hv; simp [nodes] at hv; subst hv; exact Strong.refl _
  · intro v; simp [nodes]
  · intro v hv
    by_cases hvp : v = p
    · subst hvp; exact ⟨.refl _, fun _ => by simp [nodes]⟩
    · simp [Function.update_of_ne hvp] at hv

/-! ## All sets -/

/-- The sets found so far. -/
structure SetsInv (adj : ℕ → List ℕ) (n : ℕ) (selected : ℕ → Bool) (anod : ℕ) (sets : List (List ℕ)) : Prop where
  nodup : sets.flatten.Nodup
  strong : ∀ S ∈ sets, ∃ p < n, ∀ v, v ∈ S ↔ Strong adj p v
  sel : ∀ v, selected v = true ↔ v ∈ sets.flatten
  len : sets.flatten.length = anod

theorem SetsInv.lt (hadj : InRange adj n) {sel : ℕ → Bool} {anod : ℕ} {sets : List (List ℕ)}
    (h : SetsInv adj n sel anod sets) : ∀ v ∈ sets.flatten, v < n := by
  intro v hv
  obtain ⟨S, hS, hv⟩ := List.mem_flatten.1 hv
  obtain ⟨p, hp, hS'⟩ := h.strong S hS
  exact ((hS' v).1 hv).1.lt hadj hp

theorem SetsInv.le (hadj : InRange adj n) {sel : ℕ → Bool} {anod : ℕ} {sets : List (List ℕ)}
    (h : SetsInv adj n sel anod sets) : anod ≤ n := by
  have h1 : sets.flatten.toFinset ⊆ Finset.range n := by
    intro v hv
    rw [Finset.mem_range]
    exact h.lt hadj v (List.mem_toFinset.1 hv)
  have h2 := Finset.card_le_card h1
  rwa [List.toFinset_card_of_nodup h.nodup, Finset.card_range, h.len] at h2

theorem SetsInv.all (hadj : InRange adj n) {sel : ℕ → Bool} {anod : ℕ} {sets : List (List ℕ)}
    (h : SetsInv adj n sel anod sets) (hn : n ≤ anod) : ∀ v < n, v ∈ sets.flatten := by
  have h1 : sets.flatten.toFinset ⊆ Finset.range n := by
    intro v hv
    rw [Finset.mem_range]
    exact h.lt hadj v (List.mem_toFinset.1 hv)
  have h2 := Finset.eq_of_subset_of_card_le h1 (by
    rw [List.toFinset_card_of_nodup h.nodup, Finset.card_range, h.len]; exact hn)
  intro v hv
  rw [← List.mem_toFinset, h2]
  exact Finset.mem_range.2 hv

theorem firstUnselected_spec {sel : ℕ → Bool} {v : ℕ} (hv : v < n) (hs : sel v = false) :
    ∃ p, firstUnselected sel n = some p ∧ p < n ∧ sel p = false := by
  unfold firstUnselected
  cases hf : (List.range n).find? fun v => !sel v with
  | none =>
    rw [List.find?_eq_none] at hf
    have := hf v (by simpa using hv)
    simp [hs] at this
  | some p =>
    refine ⟨p, rfl, by simpa using List.mem_of_find?_eq_some hf, ?_⟩
    have := List.find?_some hf
    simpa using this

/-- One turn of the outer loops. -/
theorem turn_spec (hadj : InRange adj n) {sel : ℕ → Bool} {anod : ℕ} {sets : List (List ℕ)}
    (h : SetsInv adj n sel anod sets) (hlt : anod < n) :
    ∃ p S, firstUnselected sel n = some p ∧ strongSet adj n p = some S ∧ S.length ≠ 0 ∧
      SetsInv adj n (fun v => sel v || S.contains v) (anod + S.length) (sets ++ [S]) := by
  obtain ⟨v, hv, hvs⟩ : ∃ v < n, sel v = false := by
    by_contra hno
    push Not at hno
    have hall : ∀ v < n, v ∈ sets.flatten := fun v hv => (h.sel v).1 (by simpa using hno v hv)
    have h1 : Finset.range n ⊆ sets.flatten.toFinset := by
      intro v hv
      exact List.mem_toFinset.2 (hall v (Finset.mem_range.1 hv))
    have h2 := Finset.card_le_card h1
    rw [List.toFinset_card_of_nodup h.nodup, Finset.card_range, h.len] at h2
    omega
  obtain ⟨p, hp1, hp2, hp3⟩ := firstUnselected_spec hv hvs
  obtain ⟨S, hS1, hS2, hS3⟩ := strongSet_spec hadj hp2
  refine ⟨p, S, hp1, hS1, ?_, ?_, ?_, ?_, ?_⟩
  · intro h0
    have : p ∈ S := (hS3 p).2 (Strong.refl p)
    rw [List.length_eq_zero_iff.1 h0] at this
    simp at this
  · rw [List.flatten_append, List.nodup_append]
    refine ⟨h.nodup, by simpa using hS2, ?_⟩
    intro a ha b hb hab
    subst hab
    simp only [List.flatten_cons, List.flatten_nil, List.append_nil] at hb
    obtain ⟨T, hT, haT⟩ := List.mem_flatten.1 ha
    obtain ⟨q, hq, hT'⟩ := h.strong T hT
    have : p ∈ T := (hT' p).2 (((hT' a).1 haT).trans ((hS3 a).1 hb).symm)
    have : sel p = true := (h.sel p).2 (List.mem_flatten.2 ⟨T, hT, this⟩)
    rw [hp3] at this
    simp at this
  · intro T hT
    rcases List.mem_append.1 hT with hT | hT
    · exact h.strong T hT
    · simp at hT; subst hT; exact ⟨p, hp2, hS3⟩
  · intro v
    simp [h.sel v, List.contains_iff_mem]
  · simp [h.len]

theorem strongSets_spec (hadj : InRange adj n) : ∀ (fuel : ℕ) (sel : ℕ → Bool) (anod : ℕ)
    (sets : List (List ℕ)), SetsInv adj n sel anod sets → anod < n → n + 1 ≤ fuel + anod →
    ∃ sets' sel' anod', strongSets adj n fuel sel anod sets = some sets' ∧
      SetsInv adj n sel' anod' sets' ∧ n ≤ anod'
  | 0, _, _, _, _, _, _ => by omega
  | fuel + 1, sel, anod, sets, h, hlt, hf => by
    obtain ⟨p, S, h1, h2, h3, h4⟩ := turn_spec hadj h hlt
    unfold strongSets
    rw [h1]
    simp only [Option.bind_eq_bind, Option.bind_some]
    rw [h2]
    simp only [Option.bind_some]
    by_cases hc : anod + S.length < n
    · rw [if_pos hc]
      exact strongSets_spec hadj fuel _ _ _ h4 hc (by omega)
    · rw [if_neg hc]
      exact ⟨_, _, _, rfl, h4, by omega⟩

/-- The sets found are the strongly connected components, each once. -/
theorem sets_components (hadj : InRange adj n) {sel : ℕ → Bool} {anod : ℕ} {sets : List (List ℕ)}
    (h : SetsInv adj n sel anod sets) (hn : n ≤ anod) (hne : ∀ S ∈ sets, S ≠ []) :
    (strongComponents adj n).ncard = sets.length := by
  classical
  let f : List ℕ → Set ℕ := fun S => {v | v ∈ S}
  have himg : strongComponents adj n = ↑((sets.map f).toFinset : Finset (Set ℕ)) := by
    ext X
    simp only [strongComponents, Set.mem_ofPred_eq, List.coe_toFinset, List.mem_map]
    constructor
    · rintro ⟨p, hp, rfl⟩
      obtain ⟨S, hS, hpS⟩ := List.mem_flatten.1 (h.all hadj hn p hp)
      obtain ⟨q, hq, hS'⟩ := h.strong S hS
      refine ⟨S, hS, ?_⟩
      ext v
      simp only [f, Set.mem_ofPred_eq, hS' v]
      have hqp := (hS' p).1 hpS
      exact ⟨fun hv => hqp.symm.trans hv, fun hv => hqp.trans hv⟩
    · rintro ⟨S, hS, rfl⟩
      obtain ⟨q, hq, hS'⟩ := h.strong S hS
      refine ⟨q, hq, ?_⟩
      ext v
      simp only [f, Set.mem_ofPred_eq, hS' v]
  have hnd : (sets.map f).Nodup := by
    have hpw := (List.nodup_flatten.1 h.nodup).2
    rw [List.Nodup, List.pairwise_map]
    refine List.Pairwise.imp_of_mem ?_ hpw
    intro a b ha _ hab he
    obtain ⟨v, hv⟩ := List.exists_mem_of_ne_nil _ (hne a ha)
    have : v ∈ f b := he ▸ hv
    exact hab hv this
  rw [himg, Set.ncard_coe_finset, List.toFinset_card_of_nodup hnd, List.length_map]

/-- **C81**: `CountStronglyConnectedSets` is the number of strongly connected components. -/
theorem C81_count (hadj : InRange adj n) (hn : 0 < n) :
    CountStronglyConnectedSets adj n = some (strongComponents adj n).ncard := by
  have h0 : SetsInv adj n (fun _ => false) 0 [] := ⟨by simp, by simp, by simp, by simp⟩
  obtain ⟨sets, sel, anod, h1, h2, h3⟩ := strongSets_spec hadj (n + 1) _ _ _ h0 hn (by omega)
  unfold CountStronglyConnectedSets
  rw [h1, sets_components hadj h2 h3]
  · rfl
  · intro S hS hS0
    obtain ⟨p, hp, hS'⟩ := h2.strong S hS
    have := (hS' p).2 (Strong.refl p)
    rw [hS0] at this
    simp at this

/-- **C81**: it is 1 exactly when every node can be reached from every other. -/
theorem C81_one (hadj : InRange adj n) (hn : 0 < n) :
    CountStronglyConnectedSets adj n = some 1 ↔ ∀ u < n, ∀ v < n, Reach adj u v := by
  rw [C81_count hadj hn, Option.some.injEq, Set.ncard_eq_one]
  constructor
  · rintro ⟨X, hX⟩ u hu v hv
    have hu' : {w | Strong adj u w} = X := by
      have : {w | Strong adj u w} ∈ strongComponents adj n := ⟨u, hu, rfl⟩
      rwa [hX, Set.mem_singleton_iff] at this
    have hv' : {w | Strong adj v w} = X := by
      have : {w | Strong adj v w} ∈ strongComponents adj n := ⟨v, hv, rfl⟩
      rwa [hX, Set.mem_singleton_iff] at this
    have : v ∈ {w | Strong adj u w} := by rw [hu', ← hv']; exact Strong.refl v
    exact this.1
  · intro hall
    refine ⟨{w | Strong adj 0 w}, ?_⟩
    ext X
    rw [Set.mem_singleton_iff]
    constructor
    · rintro ⟨p, hp, rfl⟩
      ext v
      have h0p : Strong adj 0 p := ⟨hall 0 hn p hp, hall p hp 0 hn⟩
      exact ⟨fun h => h0p.trans h, fun h => h0p.symm.trans h⟩
    · rintro rfl
      exact ⟨0, hn, rfl⟩

theorem C81_empty : CountStronglyConnectedSets adj 0 = none := rfl

/-! ## The largest set -/

theorem strong_ncard {S : List ℕ} {p : ℕ} (hnd : S.Nodup) (h : ∀ v, v ∈ S ↔ Strong adj p v) :
    {v | Strong adj p v}.ncard = S.length := by
  have : {v | Strong adj p v} = ↑S.toFinset := by ext v; simp [h v]
  rw [this, Set.ncard_coe_finset, List.toFinset_card_of_nodup hnd]

theorem strongLoop_spec (hadj : InRange adj n) (thres : Int) : ∀ (fuel : ℕ) (sel : ℕ → Bool) (anod : ℕ)
    (best : List ℕ) (sets : List (List ℕ)), SetsInv adj n sel anod sets → anod < n → n + 1 ≤ fuel + anod →
    (∀ S ∈ sets, S.length ≤ best.length) → (best ∈ sets ∨ best = []) →
    ∃ S, strongLoop adj n thres fuel sel anod best = some S ∧ S.Nodup ∧
      (∃ p < n, ∀ v, v ∈ S ↔ Strong adj p v) ∧
      (thres < S.length ∨ ∀ q < n, {v | Strong adj q v}.ncard ≤ S.length)
  | 0, _, _, _, _, _, _, _, _, _ => by omega
  | fuel + 1, sel, anod, best, sets, h, hlt, hf, hbig, hin => by
    obtain ⟨p, S, h1, h2, h3, h4⟩ := turn_spec hadj h hlt
    have hmem : ∀ T ∈ sets ++ [S], T.Nodup ∧ ∃ p < n, ∀ v, v ∈ T ↔ Strong adj p v := by
      intro T hT
      exact ⟨(List.nodup_flatten.1 h4.nodup).1 T hT, h4.strong T hT⟩
    set best' := if best.length < S.length then S else best with hb'
    have hbig' : ∀ T ∈ sets ++ [S], T.length ≤ best'.length := by
      intro T hT
      rw [hb']
      rcases List.mem_append.1 hT with hT | hT
      · have := hbig T hT
        split_ifs <;> omega
      · simp at hT; subst hT
        split_ifs <;> omega
    have hin' : best' ∈ sets ++ [S] := by
      rw [hb']
      split_ifs with hc
      · simp
      · rcases hin with hin | hin
        · simp [hin]
        · subst hin
          simp at hc
          simp [hc] at h3
    unfold strongLoop
    rw [h1]
    simp only [Option.bind_eq_bind, Option.bind_some]
    rw [h2]
    simp only [Option.bind_some, ← hb']
    by_cases hc : best.length < S.length ∧ (n / 2 < S.length ∨ thres < (S.length : Int))
    · rw [if_pos hc]
      have hbS : best' = S := by rw [hb', if_pos hc.1]
      obtain ⟨hSn, hSs⟩ := hmem S (by simp)
      refine ⟨best', rfl, by rw [hbS]; exact hSn, by rw [hbS]; exact hSs, ?_⟩
      rw [hbS]
      rcases hc.2 with hn2 | ht
      · right
        intro q hq
        obtain ⟨p', hp', hS'⟩ := hSs
        obtain ⟨T, hT1, hT2, hT3⟩ := strongSet_spec hadj hq
        rw [strong_ncard hT2 hT3]
        by_cases hqp : Strong adj p' q
        · have : T.length = S.length := by
            rw [← strong_ncard hT2 hT3, ← strong_ncard hSn hS']
            congr 1
            ext v
            exact ⟨fun hv => hqp.trans hv, fun hv => hqp.symm.trans hv⟩
          omega
        · have hdis : Disjoint T.toFinset S.toFinset := by
            rw [Finset.disjoint_left]
            intro v hv hvS
            rw [List.mem_toFinset] at hv hvS
            exact hqp (((hS' v).1 hvS).trans ((hT3 v).1 hv).symm)
          have hsub : T.toFinset ∪ S.toFinset ⊆ Finset.range n := by
            intro v hv
            rw [Finset.mem_range]
            rcases Finset.mem_union.1 hv with hv | hv <;> rw [List.mem_toFinset] at hv
            · exact ((hT3 v).1 hv).1.lt hadj hq
            · exact ((hS' v).1 hv).1.lt hadj hp'
          have := Finset.card_le_card hsub
          rw [Finset.card_union_of_disjoint hdis, List.toFinset_card_of_nodup hT2,
            List.toFinset_card_of_nodup hSn, Finset.card_range] at this
          omega
      · exact Or.inl ht
    · rw [if_neg hc]
      by_cases hc2 : anod + S.length < n
      · rw [if_pos hc2]
        exact strongLoop_spec hadj thres fuel _ _ best' _ h4 hc2 (by omega) hbig' (Or.inl hin')
      · rw [if_neg hc2]
        obtain ⟨hn', hs'⟩ := hmem best' hin'
        refine ⟨best', rfl, hn', hs', Or.inr ?_⟩
        intro q hq
        obtain ⟨T, hT, hqT⟩ := List.mem_flatten.1 (h4.all hadj (by omega) q hq)
        obtain ⟨hTn, r, hr, hT'⟩ := hmem T hT
        have hTq : ∀ v, v ∈ T ↔ Strong adj q v := by
          intro v
          have hrq := (hT' q).1 hqT
          rw [hT' v]
          exact ⟨fun hv => hrq.symm.trans hv, fun hv => hrq.trans hv⟩
        rw [strong_ncard hTn hTq]
        exact hbig' T hT

/-- **C82**: `GetLargestStronglyConnectedSet` returns the nodes of a strongly connected component, each
once.  It is one of the largest, unless it has more than `thres` nodes. -/
theorem C82_largest (hadj : InRange adj n) (hn : 0 < n) (thres : Int) :
    ∃ S, GetLargestStronglyConnectedSet adj n thres = some S ∧ S.Nodup ∧
      (∃ p < n, ∀ v, v ∈ S ↔ Strong adj p v) ∧
      (thres < S.length ∨ ∀ q < n, {v | Strong adj q v}.ncard ≤ S.length) := by
  have h0 : SetsInv adj n (fun _ => false) 0 [] := ⟨by simp, by simp, by simp, by simp⟩
  exact strongLoop_spec hadj thres (n + 1) _ _ [] [] h0 hn (by omega) (by simp) (Or.inr rfl)

/-! ## Examples: a ring of three nodes that leads to a ring of two, and a source -/

/-- Links 0 → 1 → 2 → 0, 2 → 3, 3 ↔ 4, 5 → 0. -/
def rings : ℕ → List ℕ
  | 0 => [1] | 1 => [2] | 2 => [3, 0] | 3 => [4] | 4 => [3] | 5 => [0] | _ => []

theorem rings_range : InRange rings 6 := by unfold InRange; decide

example : CountStronglyConnectedSets rings 6 = some 3 := by decide +kernel
example : strongSet rings 6 3 = some [3, 4] ∧ strongSet rings 6 0 = some [0, 1, 2] := by decide +kernel
example : GetLargestStronglyConnectedSet rings 6 100 = some [0, 1, 2] := by decide +kernel
example : (strongComponents rings 6).ncard = 3 := by
  have := C81_count rings_range (by norm_num)
  rw [show CountStronglyConnectedSets rings 6 = some 3 by decide +kernel] at this
  exact (Option.some.inj this).symm

/-- With a threshold the first large enough component is returned: here 2 nodes, not 3. -/
def rings' : ℕ → List ℕ
  | 0 => [1] | 1 => [0] | 2 => [3] | 3 => [4] | 4 => [2] | _ => []

example : GetLargestStronglyConnectedSet rings' 7 1 = some [0, 1] ∧
    GetLargestStronglyConnectedSet rings' 7 100 = some [2, 3, 4] := by decide +kernel

end BFS
