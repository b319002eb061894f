import Verif.Search.Spec
import Mathlib.Tactic.Linarith

/-! # C110: insertion in search trees -/

set_option linter.unusedSimpArgs false

namespace TS

variable {K L : Type}

/-! ## Paths -/

/-- Keys left of the place under a path. -/
def before : List (Crumb K) → List K
  | [] => []
  | c :: path => before path ++ if c.right then c.other.keys ++ [c.key] else []

/-- Keys right of the place under a path. -/
def after : List (Crumb K) → List K
  | [] => []
  | c :: path => (if c.right then [] else c.key :: c.other.keys) ++ after path

theorem keys_plug : ∀ (path : List (Crumb K)) (t : Tree K), (plug path t).keys = before path ++ t.keys ++ after path
  | [], t => by simp [plug, before, after]
  | c :: path, t => by
    rw [plug, keys_plug path, before, after]
    unfold Crumb.join
    cases c.right <;> simp [Tree.keys]

@[simp] theorem keys_paint (b : Bool) (t : Tree K) : (t.paint b).keys = t.keys := by cases t <;> rfl
@[simp] theorem size_paint (b : Bool) (t : Tree K) : (t.paint b).size = t.size := by cases t <;> rfl

/-- A subtree of colour `c` and black height `n` fits under the path. -/
def PathOK : Bool → ℕ → List (Crumb K) → Prop
  | _, _, [] => True
  | c, n, p :: path => if p.red then c = false ∧ RB false n p.other ∧ PathOK true n path
    else ∃ b, RB b n p.other ∧ PathOK false (n + 1) path

theorem RB.isRed {c : Bool} {n : ℕ} {t : Tree K} (h : RB c n t) : t.isRed = c := by cases h <;> rfl

theorem plug_rb : ∀ {path : List (Crumb K)} {c : Bool} {n : ℕ} {t : Tree K}, RB c n t → PathOK c n path →
    ∃ c n, RB c n (plug path t)
  | [], c, n, _, h, _ => ⟨c, n, h⟩
  | p :: path, c, n, t, h, hp => by
    rw [plug]
    unfold PathOK at hp
    obtain ⟨right, red, key, other⟩ := p
    dsimp only at hp
    cases red with
    | true =>
      rw [if_pos rfl] at hp
      obtain ⟨rfl, h1, h2⟩ := hp
      refine plug_rb (path := path) ?_ h2
      unfold Crumb.join
      cases right
      · exact .red h h1
      · exact .red h1 h
    | false =>
      rw [if_neg (by simp)] at hp
      obtain ⟨b, h1, h2⟩ := hp
      refine plug_rb (path := path) ?_ h2
      unfold Crumb.join
      cases right
      · exact .black h h1
      · exact .black h1 h

/-- A path extended by a node. -/
theorem pathOK_left {path : List (Crumb K)} {c : Bool} {n : ℕ} {l r : Tree K} {k : K} {red : Bool}
    (h : RB c n (.node red l k r)) (hp : PathOK c n path) :
    ∃ c' m, RB c' m l ∧ PathOK c' m ({ right := false, red := red, key := k, other := r } :: path) := by
  cases h with
  | red h1 h2 => exact ⟨_, _, h1, by unfold PathOK; rw [if_pos rfl]; exact ⟨rfl, h2, hp⟩⟩
  | black h1 h2 => exact ⟨_, _, h1, by unfold PathOK; rw [if_neg (by simp)]; exact ⟨_, h2, hp⟩⟩

theorem pathOK_right {path : List (Crumb K)} {c : Bool} {n : ℕ} {l r : Tree K} {k : K} {red : Bool}
    (h : RB c n (.node red l k r)) (hp : PathOK c n path) :
    ∃ c' m, RB c' m r ∧ PathOK c' m ({ right := true, red := red, key := k, other := l } :: path) := by
  cases h with
  | red h1 h2 => exact ⟨_, _, h2, by unfold PathOK; rw [if_pos rfl]; exact ⟨rfl, h1, hp⟩⟩
  | black h1 h2 => exact ⟨_, _, h2, by unfold PathOK; rw [if_neg (by simp)]; exact ⟨_, h1, hp⟩⟩

/-- Not both children red. -/
def calm : Tree K → Prop
  | .nil => True
  | .node _ l _ r => (r.isRed && l.isRed) = false

/-- Both children black. -/
def blackKids : Tree K → Prop
  | .nil => True
  | .node _ l _ r => l.isRed = false ∧ r.isRed = false

theorem blackKids.calm {t : Tree K} (h : blackKids t) : calm t := by
  cases t with
  | nil => trivial
  | node c l k r => simp [TS.calm, h.1]

theorem RB.paint_black {n : ℕ} {t : Tree K} (h : RB true n t) : RB false (n + 1) (t.paint false) ∧ blackKids t ∧
    blackKids (t.paint false) := by
  cases h with
  | red h1 h2 => exact ⟨.black h1 h2, ⟨h1.isRed, h2.isRed⟩, ⟨h1.isRed, h2.isRed⟩⟩

variable [LinearOrder L] (lab : K → L)

/-- The child of a node on the side of `x`. -/
def toward (x : L) : Tree K → Tree K
  | .nil => .nil
  | .node _ l k r => if x < lab k then l else r

/-- The path to that child. -/
def extend (x : L) (path : List (Crumb K)) : Tree K → List (Crumb K)
  | .nil => path
  | .node c l k r => (if x < lab k then { right := false, red := c, key := k, other := r }
      else { right := true, red := c, key := k, other := l }) :: path

theorem toward_node (x : L) (c : Bool) (l r : Tree K) (k : K) :
    toward lab x (.node c l k r) = if x < lab k then l else r := rfl

theorem extend_node (x : L) (path : List (Crumb K)) (c : Bool) (l r : Tree K) (k : K) :
    extend lab x path (.node c l k r) = (if x < lab k then { right := false, red := c, key := k, other := r }
      else { right := true, red := c, key := k, other := l }) :: path := rfl

/-- `x` belongs under the path. -/
def Between (x : L) (path : List (Crumb K)) : Prop := (∀ y ∈ before path, lab y < x) ∧ ∀ y ∈ after path, x < lab y

/-- What holds of the stale locations: where one could be read, no split occurs. -/
structure Cond (x : L) (path : List (Crumb K)) (t : Tree K) (stale : ℕ) : Prop where
  le : stale ≤ 2
  top : path = [] → t.isRed = false
  parent : ∀ p rest, path = p :: rest → p.red = true → (rest = [] ∨ 1 ≤ stale) → calm t
  sib : stale ≤ 1 → ∀ p rest, path = p :: rest → t.isRed = true → p.other.isRed = false
  uncle : ∀ p g rest, path = p :: g :: rest → p.red = true → ¬ calm t → g.other.isRed = false
  double : 2 ≤ stale → path ≠ [] ∧ calm t ∧ toward lab x t ≠ .nil ∧ (toward lab x t).isRed = false ∧ blackKids (toward lab x t)

variable {lab}

theorem between_extend {x : L} {path : List (Crumb K)} {c : Bool} {l r : Tree K} {k : K} (h : Between lab x path)
    (hne : x ≠ lab k) (hs : (plug path (.node c l k r)).keys.Pairwise fun x y => lab x < lab y) :
    Between lab x (extend lab x path (.node c l k r)) := by
  rw [keys_plug] at hs
  have hs' := (List.pairwise_append.1 (List.pairwise_append.1 hs).1).2.1
  rw [Tree.keys] at hs'
  obtain ⟨-, h2, h3⟩ := List.pairwise_append.1 hs'
  have h4 := (List.pairwise_cons.1 h2).1
  rw [extend_node]
  split_ifs with hlt
  · refine ⟨by simpa [before] using h.1, ?_⟩
    intro y hy
    simp only [after, if_neg (Bool.false_ne_true), List.mem_append, List.mem_cons] at hy
    rcases hy with (rfl | hy) | hy
    · exact hlt
    · exact hlt.trans (h4 y hy)
    · exact h.2 y hy
  · have hgt : lab k < x := lt_of_le_of_ne (not_lt.1 hlt) (Ne.symm hne)
    refine ⟨?_, by simpa [after] using h.2⟩
    intro y hy
    simp only [before, if_true, List.mem_append, List.mem_singleton] at hy
    rcases hy with hy | hy | rfl
    · exact h.1 y hy
    · exact (h3 y hy k (by simp)).trans hgt
    · exact hgt

theorem plug_extend (x : L) (path : List (Crumb K)) (t : Tree K) (h : t ≠ .nil) :
    plug (extend lab x path t) (toward lab x t) = plug path t := by
  cases t with
  | nil => exact absurd rfl h
  | node c l k r =>
    rw [extend_node, toward_node]
    split_ifs <;> simp [plug, Crumb.join]

theorem extend_ok {x : L} {path : List (Crumb K)} {t : Tree K} {c : Bool} {n : ℕ} (h : RB c n t) (hp : PathOK c n path)
    (hne : t ≠ .nil) : ∃ c' m, RB c' m (toward lab x t) ∧ PathOK c' m (extend lab x path t) := by
  cases t with
  | nil => exact absurd rfl hne
  | node red l k r =>
    rw [extend_node, toward_node]
    split_ifs
    · exact pathOK_left h hp
    · exact pathOK_right h hp

/-- One call of `maybe_split_for_insert` on the way down. -/
theorem split_down {x : L} {path : List (Crumb K)} {c0 : Bool} {l r : Tree K} {k : K} {stale c n}
    (hrb : RB c n (.node c0 l k r)) (hp : PathOK c n path) (hb : Between lab x path)
    (hc : Cond lab x path (.node c0 l k r) stale) :
    ∃ path' c' l' r' rot, split false path (.node c0 l k r) stale = some (path', .node c' l' k r', rot) ∧
      (plug path' (.node c' l' k r')).keys = (plug path (.node c0 l k r)).keys ∧ Between lab x path' ∧
      (∃ c n, RB c n (.node c' l' k r') ∧ PathOK c n path') ∧
      Cond lab x (extend lab x path' (.node c' l' k r')) (toward lab x (.node c' l' k r')) (nextStale stale rot) ∧
      (toward lab x (.node c' l' k r') = .nil → path' = path ∧ c' = c0 ∧ l' = l ∧ r' = r ∧ stale ≤ 1 ∧ rot = .no) ∧
      (nextStale stale rot ≤ 1 → (toward lab x (.node c' l' k r')).size < l.size + r.size + 1) ∧
      (2 ≤ nextStale stale rot → (toward lab x (toward lab x (.node c' l' k r'))).size + 1 < l.size + r.size + 1 ∧
        nextStale stale rot = 2) := by
  have hcrumb : ∀ c' (l' r' : Tree K) (path' : List (Crumb K)) p rest,
      extend lab x path' (.node c' l' k r') = p :: rest → p.red = c' ∧ rest = path' := by
    intro c' l' r' path' p rest h
    rw [extend_node] at h
    obtain ⟨h1, h2⟩ := List.cons.inj h
    refine ⟨?_, h2.symm⟩
    rw [← h1]
    split_ifs <;> rfl
  have hne' : ∀ c' (l' r' : Tree K) (path' : List (Crumb K)), extend lab x path' (.node c' l' k r') ≠ [] := by
    intro c' l' r' path' h
    rw [extend_node] at h
    cases h
  have hcrumb' : ∀ c' (l' r' : Tree K) (path' : List (Crumb K)) p rest,
      extend lab x path' (.node c' l' k r') = p :: rest →
        (p.other = l' ∧ toward lab x (.node c' l' k r') = r') ∨ (p.other = r' ∧ toward lab x (.node c' l' k r') = l') := by
    intro c' l' r' path' p rest h
    rw [extend_node] at h
    obtain ⟨h1, h2⟩ := List.cons.inj h
    rw [← h1, toward_node]
    split_ifs <;> simp
  cases hcalm : (r.isRed && l.isRed) with
  | false =>
    refine ⟨path, c0, l, r, .no, ?_, rfl, hb, ⟨c, n, hrb, hp⟩, ?_, ?_, ?_, ?_⟩
    · unfold split
      simp [hcalm]
    · refine ⟨?_, fun h => absurd h (hne' _ _ _ _), ?_, ?_, ?_, ?_⟩
      · have := hc.le
        show stale - 1 ≤ 2
        omega
      · intro p rest he hpr hor
        obtain ⟨e1, e2⟩ := hcrumb _ _ _ _ _ _ he
        rw [e1] at hpr
        rcases hor with h | h
        · rw [e2] at h
          have := hc.top h
          rw [show c0 = true from hpr] at this
          cases this
        · have h : 1 ≤ stale - 1 := h
          exact (hc.double (by omega)).2.2.2.2.calm
      · intro _ p rest he ht
        rcases hcrumb' _ _ _ _ _ _ he with ⟨e1, e2⟩ | ⟨e1, e2⟩ <;> rw [e2] at ht <;> rw [e1] <;> rw [ht] at hcalm <;>
          simpa using hcalm
      · intro p g rest he hpr hnc
        have hs : stale ≤ 1 := by
          by_contra hs
          exact hnc (hc.double (by omega)).2.2.2.2.calm
        obtain ⟨e1, e2⟩ := hcrumb _ _ _ _ _ _ he
        exact hc.sib hs _ _ e2.symm (by rw [e1] at hpr; exact hpr)
      · intro h
        have h : 2 ≤ stale - 1 := h
        have := hc.le
        omega
    · intro h
      refine ⟨rfl, rfl, rfl, rfl, ?_, rfl⟩
      by_contra c
      exact (hc.double (by omega)).2.2.1 h
    · intro _
      rw [toward_node]
      split_ifs <;> omega
    · intro h
      have h : 2 ≤ stale - 1 := h
      have := hc.le
      omega
  | true =>
    have hred : r.isRed = true ∧ l.isRed = true := by simpa using hcalm
    have hnc : ¬ calm (.node c0 l k r) := by show ¬ (_ = _); rw [hcalm]; simp
    have hs2 : ¬ 2 ≤ stale := fun h => hnc (hc.double h).2.1
    cases hrb with
    | red h1 h2 => rw [h1.isRed] at hred; cases hred.2
    | @black a b m _ _ _ h1 h2 =>
      have ea : a = true := by rw [← h1.isRed]; exact hred.2
      have eb : b = true := by rw [← h2.isRed]; exact hred.1
      subst ea eb
      obtain ⟨l1, l2, l3⟩ := h1.paint_black
      obtain ⟨r1, r2, r3⟩ := h2.paint_black
      have lne : l.paint false ≠ .nil := by cases h1; simp [Tree.paint]
      have rne : r.paint false ≠ .nil := by cases h2; simp [Tree.paint]
      have lsz : 0 < l.size := by cases h1; simp [Tree.size]
      have rsz : 0 < r.size := by cases h2; simp [Tree.size]
      have kid : toward lab x (.node true (l.paint false) k (r.paint false)) ≠ .nil ∧
          blackKids (toward lab x (.node true (l.paint false) k (r.paint false))) ∧
          (toward lab x (.node true (l.paint false) k (r.paint false))).size < l.size + r.size + 1 := by
        rw [toward_node]
        split_ifs
        · exact ⟨lne, l3, by rw [size_paint]; omega⟩
        · exact ⟨rne, r3, by rw [size_paint]; omega⟩
      have kidb : (toward lab x (.node true (l.paint false) k (r.paint false))).isRed = false := by
        rw [toward_node]
        split_ifs
        · exact l1.isRed
        · exact r1.isRed
      have hnew : RB true (m + 1) (.node true (l.paint false) k (r.paint false)) := .red l1 r1
      cases path with
      | nil =>
        refine ⟨[], true, l.paint false, r.paint false, .no, ?_, ?_, hb, ⟨true, m + 1, hnew, trivial⟩, ?_,
          fun h => absurd h kid.1, fun _ => kid.2.2, ?_⟩
        · unfold split
          simp [hcalm]
        · simp [plug, Tree.keys]
        · refine ⟨?_, fun h => absurd h (hne' _ _ _ _), fun _ _ _ _ _ => kid.2.1.calm,
            fun _ _ _ _ h => absurd h (by rw [kidb]; simp), fun _ _ _ _ _ h => absurd kid.2.1.calm h, ?_⟩
          · show stale - 1 ≤ 2
            omega
          · intro h
            have h : 2 ≤ stale - 1 := h
            omega
        · intro h
          have h : 2 ≤ stale - 1 := h
          omega
      | cons p path' =>
        obtain ⟨pr, pred, pk, po⟩ := p
        cases pred with
        | false =>
          refine ⟨_, true, l.paint false, r.paint false, .no, ?_, ?_, hb, ⟨true, m + 1, hnew, ?_⟩, ?_,
            fun h => absurd h kid.1, fun _ => kid.2.2, ?_⟩
          · unfold split
            simp only [hcalm, Bool.or_true, if_true, if_neg hs2]
            rw [if_neg (by simp)]
          · rw [keys_plug, keys_plug]; simp [Tree.keys]
          · unfold PathOK at hp ⊢
            rw [if_neg (by simp)] at hp ⊢
            exact hp
          · refine ⟨?_, fun h => absurd h (hne' _ _ _ _), fun _ _ _ _ _ => kid.2.1.calm,
            fun _ _ _ _ h => absurd h (by rw [kidb]; simp), fun _ _ _ _ _ h => absurd kid.2.1.calm h, ?_⟩
            · show stale - 1 ≤ 2
              omega
            · intro h
              have h : 2 ≤ stale - 1 := h
              omega
          · intro h
            have h : 2 ≤ stale - 1 := h
            omega
        | true =>
          have h3 : path' ≠ [] := fun h => hnc (hc.parent _ _ rfl rfl (Or.inl h))
          have h4 : ¬ 1 ≤ stale := fun h => hnc (hc.parent _ _ rfl rfl (Or.inr h))
          cases path' with
          | nil => exact absurd rfl h3
          | cons g rest =>
            obtain ⟨gr, gred, gk, go⟩ := g
            unfold PathOK at hp
            rw [if_pos rfl] at hp
            obtain ⟨-, hpo, hp⟩ := hp
            unfold PathOK at hp
            cases gred with
            | true =>
              rw [if_pos rfl] at hp
              exact absurd hp.1 (by simp)
            | false =>
            rw [if_neg (by simp)] at hp
            obtain ⟨gb, hgo, hp⟩ := hp
            obtain ⟨b1, b2⟩ := hb
            have ug : go.isRed = false := hc.uncle _ _ _ rfl rfl hnc
            have egb : gb = false := by rw [← hgo.isRed]; exact ug
            subst egb
            have condS : ∀ q, Cond lab x (extend lab x (q :: rest) (.node true (l.paint false) k (r.paint false)))
                (toward lab x (.node true (l.paint false) k (r.paint false))) (nextStale stale .single) := fun q =>
              ⟨by show 1 ≤ 2; omega, fun h => absurd h (hne' _ _ _ _), fun _ _ _ _ _ => kid.2.1.calm,
                fun _ _ _ _ h => absurd h (by rw [kidb]; simp), fun _ _ _ _ _ h => absurd kid.2.1.calm h,
                fun h => absurd h (by show ¬ 2 ≤ 1; omega)⟩
            cases pr <;> cases gr
            · refine ⟨{ right := false, red := false, key := pk, other := .node true po gk go } :: rest, true, l.paint false, r.paint false, .single, ?_, ?_, ?_, ⟨true, m + 1, hnew, ?_⟩, condS _,
                fun h => absurd h kid.1, fun _ => kid.2.2, fun h => absurd h (by show ¬ 2 ≤ 1; omega)⟩
              · unfold split
                simp only [hcalm, Bool.or_true, if_true, if_neg hs2, if_neg h4, bne_self_eq_false, Bool.false_eq_true, if_false]
              · rw [keys_plug, keys_plug]; simp [before, after, Tree.keys]
              · refine ⟨by simpa [before] using b1, ?_⟩
                simpa [after, Tree.keys, or_assoc] using b2
              · unfold PathOK
                rw [if_neg (by simp)]
                exact ⟨_, .red hpo hgo, hp⟩
            · have hg : lab gk < x := b1 gk (by simp [before])
              have hpk : x < lab pk := b2 pk (by simp [after])
              have tt : toward lab x (toward lab x (.node false (.node true go gk (l.paint false)) k (.node true (r.paint false) pk po)))
                  = if x < lab k then l.paint false else r.paint false := by
                rw [toward_node]
                split_ifs
                · rw [toward_node, if_neg (not_lt.2 hg.le)]
                · rw [toward_node, if_pos hpk]
              refine ⟨rest, false, .node true go gk (l.paint false), .node true (r.paint false) pk po, .double, ?_, ?_, ?_,
                ⟨false, m + 2, .black (.red hgo l1) (.red r1 hpo), hp⟩, ?_, ?_, fun h => absurd h (by show ¬ 2 ≤ 1; omega), ?_⟩
              · unfold split
                simp only [hcalm, Bool.or_true, if_true, if_neg hs2, if_neg h4]
                rfl
              · rw [keys_plug, keys_plug]; simp [before, after, Tree.keys]
              · exact ⟨fun y hy => b1 y (by simp [before, hy]), fun y hy => b2 y (by simp [after, hy])⟩
              · refine ⟨by show 2 ≤ 2; omega, fun h => absurd h (hne' _ _ _ _), ?_, fun h => absurd h (by show ¬ 2 ≤ 1; omega), ?_, fun _ => ⟨hne' _ _ _ _, ?_, ?_, ?_, ?_⟩⟩
                · intro p q e1 e2
                  obtain ⟨e3, -⟩ := hcrumb _ _ _ _ _ _ e1
                  rw [e3] at e2; cases e2
                · intro p g q e1 e2
                  obtain ⟨e3, -⟩ := hcrumb _ _ _ _ _ _ e1
                  rw [e3] at e2; cases e2
                · rw [toward_node]
                  split_ifs
                  · show (_ && _) = false; rw [l1.isRed]; rfl
                  · show (_ && _) = false; rw [r1.isRed]; simp
                · rw [tt]; split_ifs
                  · exact lne
                  · exact rne
                · rw [tt]; split_ifs
                  · exact l1.isRed
                  · exact r1.isRed
                · rw [tt]; split_ifs
                  · exact l3
                  · exact r3
              · rw [toward_node]; split_ifs <;> intro h <;> cases h
              · intro _
                refine ⟨?_, rfl⟩
                rw [tt]; split_ifs <;> rw [size_paint] <;> omega
            · have hg : x < lab gk := b2 gk (by simp [after])
              have hpk : lab pk < x := b1 pk (by simp [before])
              have tt : toward lab x (toward lab x (.node false (.node true po pk (l.paint false)) k (.node true (r.paint false) gk go)))
                  = if x < lab k then l.paint false else r.paint false := by
                rw [toward_node]
                split_ifs
                · rw [toward_node, if_neg (not_lt.2 hpk.le)]
                · rw [toward_node, if_pos hg]
              refine ⟨rest, false, .node true po pk (l.paint false), .node true (r.paint false) gk go, .double, ?_, ?_, ?_,
                ⟨false, m + 2, .black (.red hpo l1) (.red r1 hgo), hp⟩, ?_, ?_, fun h => absurd h (by show ¬ 2 ≤ 1; omega), ?_⟩
              · unfold split
                simp only [hcalm, Bool.or_true, if_true, if_neg hs2, if_neg h4]
                rfl
              · rw [keys_plug, keys_plug]; simp [before, after, Tree.keys]
              · exact ⟨fun y hy => b1 y (by simp [before, hy]), fun y hy => b2 y (by simp [after, hy])⟩
              · refine ⟨by show 2 ≤ 2; omega, fun h => absurd h (hne' _ _ _ _), ?_, fun h => absurd h (by show ¬ 2 ≤ 1; omega), ?_, fun _ => ⟨hne' _ _ _ _, ?_, ?_, ?_, ?_⟩⟩
                · intro p q e1 e2
                  obtain ⟨e3, -⟩ := hcrumb _ _ _ _ _ _ e1
                  rw [e3] at e2; cases e2
                · intro p g q e1 e2
                  obtain ⟨e3, -⟩ := hcrumb _ _ _ _ _ _ e1
                  rw [e3] at e2; cases e2
                · rw [toward_node]
                  split_ifs
                  · show (_ && _) = false; rw [l1.isRed]; rfl
                  · show (_ && _) = false; rw [r1.isRed]; simp
                · rw [tt]; split_ifs
                  · exact lne
                  · exact rne
                · rw [tt]; split_ifs
                  · exact l1.isRed
                  · exact r1.isRed
                · rw [tt]; split_ifs
                  · exact l3
                  · exact r3
              · rw [toward_node]; split_ifs <;> intro h <;> cases h
              · intro _
                refine ⟨?_, rfl⟩
                rw [tt]; split_ifs <;> rw [size_paint] <;> omega
            · refine ⟨{ right := true, red := false, key := pk, other := .node true go gk po } :: rest, true, l.paint false, r.paint false, .single, ?_, ?_, ?_, ⟨true, m + 1, hnew, ?_⟩, condS _,
                fun h => absurd h kid.1, fun _ => kid.2.2, fun h => absurd h (by show ¬ 2 ≤ 1; omega)⟩
              · unfold split
                simp only [hcalm, Bool.or_true, if_true, if_neg hs2, if_neg h4, bne_self_eq_false, Bool.false_eq_true, if_false]
                rfl
              · rw [keys_plug, keys_plug]; simp [before, after, Tree.keys]
              · refine ⟨?_, by simpa [after] using b2⟩
                simpa [before, Tree.keys, or_assoc] using b1
              · unfold PathOK
                rw [if_neg (by simp)]
                exact ⟨_, .red hgo hpo, hp⟩

/-- The last call of `maybe_split_for_insert`, for the new node. -/
theorem split_insert {key : K} {path : List (Crumb K)} {c0 : Bool} {l r : Tree K} {k : K} {stale c n}
    (hrb : RB c n (.node c0 l k r)) (hp : PathOK c n path) (hc : Cond lab (lab key) path (.node c0 l k r) stale)
    (hs : stale ≤ 1) (hnil : toward lab (lab key) (.node c0 l k r) = .nil) :
    ∃ path' t rot, split true (extend lab (lab key) path (.node c0 l k r)) (.node true .nil key .nil) (nextStale stale .no) =
        some (path', t, rot) ∧
      (plug path' t).keys = before (extend lab (lab key) path (.node c0 l k r)) ++ key ::
        after (extend lab (lab key) path (.node c0 l k r)) ∧ ∃ c n, RB c n (plug path' t) := by
  obtain ⟨c', m, h1, h2⟩ := extend_ok (lab := lab) (x := lab key) hrb hp (by simp)
  rw [hnil] at h1
  cases h1
  have hnew : RB true 0 (.node true .nil key .nil) := .red .nil .nil
  have hs2 : ¬ 2 ≤ nextStale stale .no := by show ¬ 2 ≤ stale - 1; omega
  have hs1 : ¬ 1 ≤ nextStale stale .no := by show ¬ 1 ≤ stale - 1; omega
  rw [extend_node] at h2 ⊢
  rw [toward_node] at hnil
  cases c0 with
  | false =>
    refine ⟨(if lab key < lab k then { right := false, red := false, key := k, other := r }
      else { right := true, red := false, key := k, other := l }) :: path, .node true .nil key .nil, .no, ?_,
      by rw [keys_plug]; simp [Tree.keys], plug_rb hnew ?_⟩
    · unfold split
      simp only [Bool.true_or, if_true, if_neg hs2, Tree.paint]
      rw [if_neg (by split_ifs <;> simp)]
    · unfold PathOK at h2 ⊢
      rw [if_neg (by split_ifs <;> simp)] at h2 ⊢
      exact h2
  | true =>
    cases path with
    | nil => exact absurd (hc.top rfl) (by simp [Tree.isRed])
    | cons g rest =>
      have ug := hc.sib hs g rest rfl rfl
      obtain ⟨gr, gred, gk, go⟩ := g
      cases hrb with
      | red q1 q2 =>
      unfold PathOK at hp
      cases gred with
      | true => rw [if_pos rfl] at hp; exact absurd hp.1 (by simp)
      | false =>
      rw [if_neg (by simp)] at hp
      obtain ⟨gb, hgo, hp⟩ := hp
      have egb : gb = false := by rw [← hgo.isRed]; exact ug
      subst egb
      have hn : n = 0 := by
        split_ifs at hnil
        · subst hnil; cases q1; rfl
        · subst hnil; cases q2; rfl
      subst hn
      by_cases hlt : lab key < lab k
      · rw [if_pos hlt]
        cases gr
        · refine ⟨{ right := false, red := false, key := k, other := .node true r gk go } :: rest, .node true .nil key .nil, .single, ?_, ?_, ?_⟩
          · unfold split
            simp only [Bool.true_or, if_true, if_neg hs2, if_neg hs1, Tree.paint, bne_self_eq_false, Bool.false_eq_true, if_false]
          · rw [keys_plug]; simp [before, after, Tree.keys]
          · refine plug_rb hnew ?_
            unfold PathOK
            rw [if_neg (by simp)]
            exact ⟨_, .red q2 hgo, hp⟩
        · refine ⟨rest, .node false (.node true go gk .nil) key (.node true .nil k r), .double, ?_, ?_, ?_⟩
          · unfold split
            simp only [Bool.true_or, if_true, if_neg hs2, if_neg hs1, Tree.paint]
            rfl
          · rw [keys_plug]; simp [before, after, Tree.keys]
          · exact plug_rb (.black (.red hgo .nil) (.red .nil q2)) hp
      · rw [if_neg hlt]
        cases gr
        · refine ⟨rest, .node false (.node true l k .nil) key (.node true .nil gk go), .double, ?_, ?_, ?_⟩
          · unfold split
            simp only [Bool.true_or, if_true, if_neg hs2, if_neg hs1, Tree.paint]
            rfl
          · rw [keys_plug]; simp [before, after, Tree.keys]
          · exact plug_rb (.black (.red q1 .nil) (.red .nil hgo)) hp
        · refine ⟨{ right := true, red := false, key := k, other := .node true go gk l } :: rest, .node true .nil key .nil, .single, ?_, ?_, ?_⟩
          · unfold split
            simp only [Bool.true_or, if_true, if_neg hs2, if_neg hs1, Tree.paint, bne_self_eq_false, Bool.false_eq_true, if_false]
            rfl
          · rw [keys_plug]; simp [before, after, Tree.keys]
          · refine plug_rb hnew ?_
            unfold PathOK
            rw [if_neg (by simp)]
            exact ⟨_, .red hgo q1, hp⟩

/-- What a search returns: a key of the tree with the label looked for, or the new key, put in its place. -/
def Found (lab : K → L) (key : K) (ks : List K) (res : K × Tree K) : Prop :=
  (∃ c n, RB c n res.2) ∧
  ((res.1 ∈ ks ∧ lab res.1 = lab key ∧ res.2.keys = ks) ∨
   (res.1 = key ∧ ∃ l r, ks = l ++ r ∧ (∀ y ∈ l, lab y < lab key) ∧ (∀ y ∈ r, lab key < lab y) ∧ res.2.keys = l ++ key :: r))

theorem loop_ok {key : K} : ∀ (fuel : ℕ) (path : List (Crumb K)) (t : Tree K) (stale : ℕ) (c : Bool) (n : ℕ),
    t ≠ .nil → RB c n t → PathOK c n path → Between lab (lab key) path → Cond lab (lab key) path t stale →
    ((plug path t).keys.Pairwise fun x y => lab x < lab y) →
    (stale ≤ 1 → 2 * t.size ≤ fuel) → (2 ≤ stale → 2 * (toward lab (lab key) t).size + 1 ≤ fuel) →
    ∃ res, searchLoop lab key fuel path t stale = some res ∧ Found lab key (plug path t).keys res
  | 0, path, t, stale, c, n, hne, _, _, _, _, _, f1, f2 => by
    exfalso
    by_cases h : stale ≤ 1
    · have := f1 h
      cases t with
      | nil => exact hne rfl
      | node _ _ _ _ => simp [Tree.size] at this
    · have := f2 (by omega)
      omega
  | fuel + 1, path, .nil, stale, c, n, hne, _, _, _, _, _, _, _ => absurd rfl hne
  | fuel + 1, path, .node c0 l k r, stale, c, n, hne, hrb, hp, hb, hc, hs, f1, f2 => by
    unfold searchLoop
    by_cases hk : lab key = lab k
    · rw [if_pos hk]
      refine ⟨_, rfl, plug_rb hrb hp, Or.inl ⟨?_, hk.symm, rfl⟩⟩
      rw [keys_plug]
      simp [Tree.keys]
    · rw [if_neg hk]
      obtain ⟨path', c', l', r', rot, e, k1, k2, ⟨c1, n1, k3, k3'⟩, k4, k5, k6, k7⟩ := split_down hrb hp hb hc
      rw [e]
      simp only [Option.bind_eq_bind, Option.bind_some]
      have hs' : (plug path' (.node c' l' k r')).keys.Pairwise fun x y => lab x < lab y := by rw [k1]; exact hs
      have hb' := between_extend k2 hk hs'
      have hpe := plug_extend (lab := lab) (lab key) path' (.node c' l' k r') (by simp)
      have he : ∀ b, (if lab key < lab k then ({ right := false, red := b, key := k, other := r' } : Crumb K)
          else { right := true, red := b, key := k, other := l' }) :: path' = extend lab (lab key) path' (.node b l' k r') :=
        fun b => rfl
      have ht : (if lab key < lab k then l' else r') = toward lab (lab key) (.node c' l' k r') := rfl
      rw [he, ht]
      cases hw : toward lab (lab key) (.node c' l' k r') with
      | nil =>
        obtain ⟨rfl, rfl, rfl, rfl, hst, rfl⟩ := k5 hw
        obtain ⟨path2, t2, rot2, e2, m1, m2⟩ := split_insert k3 k3' hc hst hw
        simp only [e2, Option.bind_some]
        refine ⟨_, rfl, m2, Or.inr ⟨rfl, _, _, ?_, hb'.1, hb'.2, m1⟩⟩
        rw [← hpe, hw, keys_plug]
        simp [Tree.keys]
      | node c2 l2 k2' r2 =>
        obtain ⟨c3, n3, q1, q2⟩ := extend_ok (lab := lab) (x := lab key) k3 k3' (by simp)
        have ih := loop_ok fuel (extend lab (lab key) path' (.node c' l' k r')) (toward lab (lab key) (.node c' l' k r'))
          (nextStale stale rot) c3 n3 (by rw [hw]; simp) q1 q2 hb' k4 (by rw [hpe]; exact hs') ?_ ?_
        · rw [hw] at ih
          rw [hw] at hpe
          rw [hpe, k1] at ih
          exact ih
        · intro h
          have s1 := k6 h
          by_cases hst : stale ≤ 1
          · have := f1 hst
            simp only [Tree.size] at this
            omega
          · have := f2 (by omega)
            have hcalm := (hc.double (by omega)).2.1
            have : split false path (.node c0 l k r) stale = some (path, .node c0 l k r, .no) := by
              unfold split
              simp [show (r.isRed && l.isRed) = false from hcalm]
            rw [this] at e
            cases e
            omega
        · intro h
          obtain ⟨s1, s2⟩ := k7 h
          have hst : stale ≤ 1 := by
            by_contra hst
            have hcalm := (hc.double (by omega)).2.1
            have : split false path (.node c0 l k r) stale = some (path, .node c0 l k r, .no) := by
              unfold split
              simp [show (r.isRed && l.isRed) = false from hcalm]
            rw [this] at e
            cases e
            have := hc.le
            have h : 2 ≤ stale - 1 := h
            omega
          have := f1 hst
          simp only [Tree.size] at this
          omega

theorem paint_rb {c : Bool} {n : ℕ} {t : Tree K} (h : RB c n t) : ∃ m, RB false m (t.paint false) := by
  cases h with
  | nil => exact ⟨_, .nil⟩
  | red h1 h2 => exact ⟨_, .black h1 h2⟩
  | black h1 h2 => exact ⟨_, .black h1 h2⟩

theorem tsearch_found (key : K) {t : Tree K} (h : Valid lab t) : ∃ res, tsearch lab key t = some res ∧ Found lab key t.keys res := by
  unfold tsearch
  obtain ⟨c, n, hrb⟩ := h.rb
  obtain ⟨m, hrb⟩ := paint_rb hrb
  cases t with
  | nil =>
    exact ⟨_, rfl, ⟨true, 0, .red .nil .nil⟩, Or.inr ⟨rfl, [], [], rfl, by simp, by simp, rfl⟩⟩
  | node c l k r =>
    have := loop_ok (lab := lab) (key := key) (2 * (Tree.node c l k r).size + 1) [] ((Tree.node c l k r).paint false) 0 false m
      (by simp [Tree.paint]) hrb trivial ⟨by simp [before], by simp [after]⟩
      ⟨by omega, fun _ => rfl, by simp, by simp, by simp, by simp⟩ (by simpa [plug] using h.sorted)
      (by intro _; rw [size_paint]; omega) (by simp)
    simpa [plug] using this

/-- **C110**: `tsearch` returns the key with the given label if the tree has one, and leaves the keys alone;
otherwise it puts the new key in its place. The tree stays a red-black search tree. No location made stale
by a rotation is read, and the loop ends. -/
theorem C110_insert (key : K) {t : Tree K} (h : Valid lab t) :
    ∃ k t', tsearch lab key t = some (k, t') ∧ Valid lab t' ∧
      ((k ∈ t.keys ∧ lab k = lab key ∧ t'.keys = t.keys) ∨
       ((∀ y ∈ t.keys, lab y ≠ lab key) ∧ k = key ∧ ∃ l r, t.keys = l ++ r ∧ t'.keys = l ++ key :: r)) := by
  obtain ⟨⟨k, t'⟩, h1, h2, h3⟩ := tsearch_found key h
  refine ⟨k, t', h1, ?_⟩
  rcases h3 with ⟨a1, a2, a3⟩ | ⟨a1, l, r, a2, a3, a4, a5⟩
  · exact ⟨⟨by rw [a3]; exact h.sorted, h2⟩, Or.inl ⟨a1, a2, a3⟩⟩
  · dsimp only at a1 a5 h2
    refine ⟨⟨?_, h2⟩, Or.inr ⟨?_, a1, l, r, a2, a5⟩⟩
    · have := h.sorted
      rw [a2] at this
      obtain ⟨s1, s2, s3⟩ := List.pairwise_append.1 this
      rw [a5, List.pairwise_append, List.pairwise_cons]
      refine ⟨s1, ⟨a4, s2⟩, fun x hx y hy => ?_⟩
      rcases List.mem_cons.1 hy with rfl | hy
      · exact a3 x hx
      · exact s3 x hx y hy
    · intro y hy
      rw [a2, List.mem_append] at hy
      rcases hy with hy | hy
      · exact (a3 y hy).ne
      · exact (a4 y hy).ne'

/-- **C110**: `tfind` returns a key exactly if it is in the tree and has the label looked for. -/
theorem C110_find (x : L) : ∀ {t : Tree K}, (t.keys.Pairwise fun x y => lab x < lab y) → ∀ k,
    tfind lab x t = some k ↔ k ∈ t.keys ∧ lab k = x
  | .nil, _, k => by simp [tfind, Tree.keys]
  | .node c l k0 r, h, k => by
    rw [Tree.keys] at h ⊢
    obtain ⟨h1, h2, h3⟩ := List.pairwise_append.1 h
    obtain ⟨h4, h5⟩ := List.pairwise_cons.1 h2
    have il := C110_find x h1 k
    have ir := C110_find x h5 k
    unfold tfind
    rw [List.mem_append, List.mem_cons]
    split_ifs with e1 e2
    · constructor
      · rintro ⟨⟩
        exact ⟨Or.inr (Or.inl rfl), e1.symm⟩
      · rintro ⟨hk | rfl | hk, hx⟩
        · have := h3 k hk k0 (by simp)
          rw [hx, e1] at this
          exact absurd this (lt_irrefl _)
        · rfl
        · have := h4 k hk
          rw [hx, e1] at this
          exact absurd this (lt_irrefl _)
    · rw [il]
      constructor
      · rintro ⟨a, b⟩; exact ⟨Or.inl a, b⟩
      · rintro ⟨hk | rfl | hk, hx⟩
        · exact ⟨hk, hx⟩
        · exact absurd hx.symm e1
        · have := h4 k hk
          rw [hx] at this
          exact absurd (this.trans e2) (lt_irrefl _)
    · rw [ir]
      constructor
      · rintro ⟨a, b⟩; exact ⟨Or.inr (Or.inr a), b⟩
      · rintro ⟨hk | rfl | hk, hx⟩
        · have := h3 k hk k0 (by simp)
          rw [hx] at this
          exact absurd this e2
        · exact absurd hx.symm e1
        · exact ⟨hk, hx⟩

theorem rb_height {c : Bool} {n : ℕ} {t : Tree K} (h : RB c n t) : t.height ≤ 2 * n + (if c then 1 else 0) ∧ 2 ^ n ≤ t.size + 1 := by
  induction h with
  | nil => simp [Tree.height, Tree.size]
  | red _ _ i1 i2 =>
    simp only [Tree.height, Tree.size] at *
    simp at i1 i2 ⊢
    omega
  | @black a b n l k r _ _ i1 i2 =>
    simp only [Tree.height, Tree.size] at *
    rw [pow_succ]
    cases a <;> cases b <;> simp at i1 i2 ⊢ <;> omega

/-- **C110**: a way down is at most twice as long as in a balanced tree, and one more: `tfind` and
`tsearch` compare at most `2 log₂ (size + 1) + 1` labels. -/
theorem C110_height {t : Tree K} (h : Valid lab t) : 2 ^ (t.height / 2) ≤ t.size + 1 := by
  obtain ⟨c, n, h⟩ := h.rb
  obtain ⟨h1, h2⟩ := rb_height h
  refine le_trans (Nat.pow_le_pow_right (by omega) ?_) h2
  split_ifs at h1 <;> omega

/-- Insertion of several keys, starting from an empty tree. -/
def insertAll (lab : K → L) : List K → Option (Tree K)
  | [] => some .nil
  | k :: ks => do
    let t ← insertAll lab ks
    let (_, t) ← tsearch lab k t
    return t

/-- Any sequence of insertions gives a red-black search tree with exactly the labels inserted. -/
theorem C110_all : ∀ ks : List K, ∃ t, insertAll lab ks = some t ∧ Valid lab t ∧
    ∀ x, (∃ k ∈ t.keys, lab k = x) ↔ ∃ k ∈ ks, lab k = x
  | [] => ⟨.nil, rfl, ⟨by simp [Tree.keys], _, _, .nil⟩, by simp [Tree.keys]⟩
  | k :: ks => by
    obtain ⟨t, h1, h2, h3⟩ := C110_all ks
    obtain ⟨k', t', e, v, w⟩ := C110_insert k h2
    refine ⟨t', by simp [insertAll, h1, e], v, fun x => ?_⟩
    have h3x := h3 x
    rcases w with ⟨w1, w2, w3⟩ | ⟨w1, w2, l, r, w3, w4⟩
    · rw [w3, h3x]
      simp only [List.mem_cons, exists_eq_or_imp]
      constructor
      · exact Or.inr
      · rintro (rfl | h)
        · exact (h3 _).1 ⟨k', w1, w2⟩
        · exact h
    · rw [w4]
      rw [w3] at h3x
      simp only [List.mem_cons, List.mem_append, exists_eq_or_imp, or_and_right, exists_or] at h3x ⊢
      rw [← h3x]
      exact or_left_comm

/-- Ten insertions in increasing order. -/
example : ((insertAll (fun k : ℕ => k) [10, 9, 8, 7, 6, 5, 4, 3, 2, 1]).map fun t => (t.keys, t.height)) =
    some ([1, 2, 3, 4, 5, 6, 7, 8, 9, 10], 5) := by decide +kernel

end TS
