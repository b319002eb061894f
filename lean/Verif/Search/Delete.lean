import Verif.Search.DeleteModel
import Verif.Search.Insert

/-! # C111, C112: deletion from search trees, walking through them -/

set_option linter.unusedSimpArgs false

namespace TS

variable {K L : Type}

/-- A black subtree fits where a red one of the same black height does. -/
theorem PathOK.black {n : ℕ} : ∀ {c : Bool} {path : List (Crumb K)}, PathOK c n path → PathOK false n path
  | _, [], _ => trivial
  | c, p :: path, h => by
    unfold PathOK at h ⊢
    split_ifs at h ⊢
    · exact ⟨rfl, h.2⟩
    · exact h

theorem RB.paint_false {c : Bool} {n : ℕ} {t : Tree K} (h : RB c n t) (hc : c = true) : RB false (n + 1) (t.paint false) := by
  subst hc
  exact h.paint_black.1

/-- The subtree `r` has one black node less than the path expects; if it is red, painting it black is
enough. -/
def Lacks (n : ℕ) (r : Tree K) : Prop := if r.isRed then RB false (n + 1) (r.paint false) else RB false n r

theorem join_keys (p : Crumb K) (rest : List (Crumb K)) (r : Tree K) :
    (plug rest (p.join r)).keys = before (p :: rest) ++ r.keys ++ after (p :: rest) := by
  rw [← keys_plug (p :: rest)]; rfl

/-- After the first rotation the brother is black. -/
theorem blackBrother_ok {p : Crumb K} {rest : List (Crumb K)} {n : ℕ} (hp : PathOK false (n + 1) (p :: rest))
    (hlen : rest.length + 1 < stackSize) : ∃ p' rest', blackBrother p rest = some (p', rest') ∧
      PathOK false (n + 1) (p' :: rest') ∧ before (p' :: rest') = before (p :: rest) ∧ after (p' :: rest') = after (p :: rest) ∧
      p'.other.isRed = false ∧
      ((p' = p ∧ rest' = rest) ∨ (p'.red = true ∧ rest'.length = rest.length + 1)) := by
  obtain ⟨pr, pred, pk, po⟩ := p
  unfold PathOK at hp
  have hl : ¬ stackSize ≤ rest.length + 1 := by omega
  have key : ∀ (c : Bool) (b : Bool) (ql : Tree K) (qk : K) (qr : Tree K), po = .node c ql qk qr → c = true → RB b (n + 1) po →
      PathOK false (n + 2) rest → ∃ p' rest', blackBrother { right := pr, red := false, key := pk, other := po } rest = some (p', rest') ∧
      PathOK false (n + 1) (p' :: rest') ∧
      before (p' :: rest') = before ({ right := pr, red := false, key := pk, other := po } :: rest) ∧
      after (p' :: rest') = after ({ right := pr, red := false, key := pk, other := po } :: rest) ∧
      p'.other.isRed = false ∧ p'.red = true ∧ rest'.length = rest.length + 1 := by
    intro c b ql qk qr e hc hrb hrest
    subst e hc
    cases hrb with
    | red q1 q2 =>
    cases pr
    · refine ⟨{ right := false, red := true, key := pk, other := ql }, { right := false, red := false, key := qk, other := qr } :: rest,
        ?_, ?_, ?_, ?_, q1.isRed, rfl, rfl⟩
      · unfold blackBrother
        simp [hl]
      · unfold PathOK
        rw [if_pos rfl]
        refine ⟨rfl, q1, ?_⟩
        unfold PathOK
        rw [if_neg (by simp)]
        exact ⟨_, q2, hrest⟩
      · simp [before]
      · simp [after, Tree.keys]
    · refine ⟨{ right := true, red := true, key := pk, other := qr }, { right := true, red := false, key := qk, other := ql } :: rest,
        ?_, ?_, ?_, ?_, q2.isRed, rfl, rfl⟩
      · unfold blackBrother
        simp [hl]
      · unfold PathOK
        rw [if_pos rfl]
        refine ⟨rfl, q2, ?_⟩
        unfold PathOK
        rw [if_neg (by simp)]
        exact ⟨_, q1, hrest⟩
      · simp [before, Tree.keys]
      · simp [after]
  have same : ∀ (c : Bool) (ql : Tree K) (qk : K) (qr : Tree K), po = .node c ql qk qr → c = false →
      blackBrother { right := pr, red := pred, key := pk, other := po } rest =
        some ({ right := pr, red := pred, key := pk, other := po }, rest) := by
    intro c ql qk qr e hc
    subst e hc
    unfold blackBrother
    simp
  cases pred with
  | true =>
    rw [if_pos rfl] at hp
    obtain ⟨-, h1, h2⟩ := hp
    dsimp only at h1 h2
    cases h1' : po with
    | nil => rw [h1'] at h1; cases h1
    | node c ql qk qr =>
      have hc : c = false := by rw [h1'] at h1; exact h1.isRed
      rw [← h1']
      refine ⟨_, _, same c ql qk qr h1' hc, ?_, rfl, rfl, h1.isRed, Or.inl ⟨rfl, rfl⟩⟩
      unfold PathOK
      rw [if_pos rfl]
      exact ⟨rfl, h1, h2⟩
  | false =>
    rw [if_neg (by simp)] at hp
    obtain ⟨b, h1, h2⟩ := hp
    dsimp only at h1 h2
    cases h1' : po with
    | nil => rw [h1'] at h1; cases h1
    | node c ql qk qr =>
      rw [← h1']
      cases c with
      | true =>
        obtain ⟨p', rest', e1, e2, e3, e4, e5, e6, e7⟩ := key true b ql qk qr h1' rfl h1 h2
        exact ⟨p', rest', e1, e2, e3, e4, e5, Or.inr ⟨e6, e7⟩⟩
      | false =>
        refine ⟨_, _, same false ql qk qr h1' rfl, ?_, rfl, rfl, by rw [h1']; rfl, Or.inl ⟨rfl, rfl⟩⟩
        unfold PathOK
        rw [if_neg (by simp)]
        exact ⟨b, h1, h2⟩

/-- The height and colour seen by the rest of the path. -/
theorem pathOK_join {p : Crumb K} {rest : List (Crumb K)} {n : ℕ} (hp : PathOK false n (p :: rest)) :
    ∃ b, RB b n p.other ∧ (p.red = true → b = false) ∧ PathOK p.red (n + if p.red then 0 else 1) rest := by
  unfold PathOK at hp
  cases h : p.red
  · rw [if_neg (by simp [h])] at hp
    obtain ⟨b, h1, h2⟩ := hp
    exact ⟨b, h1, by simp, h2⟩
  · rw [if_pos h] at hp
    exact ⟨false, hp.2.1, fun _ => rfl, hp.2.2⟩

/-- A node of the colour of `p` on two black subtrees. -/
theorem rb_two {c : Bool} {n : ℕ} {l r : Tree K} {k : K} (h1 : RB false n l) (h2 : RB false n r) :
    RB c (n + if c then 0 else 1) (.node c l k r) := by
  cases c
  · exact .black h1 h2
  · exact .red h1 h2

theorem repair_ok {p : Crumb K} {rest : List (Crumb K)} {n : ℕ} {r : Tree K} (hp : PathOK false (n + 1) (p :: rest))
    (hb : p.other.isRed = false) (hr : RB false n r) :
    (∃ r', repair p rest r = some (.inl (rest, r')) ∧ (plug rest r').keys = (plug (p :: rest) r).keys ∧
      r'.isRed = p.red ∧ ∃ m, Lacks m r' ∧ PathOK false (m + 1) rest) ∨
    ∃ t, repair p rest r = some (.inr t) ∧ t.keys = (plug (p :: rest) r).keys ∧ ∃ c n, RB c n t := by
  obtain ⟨b, h1, h2, h3⟩ := pathOK_join hp
  have eb : b = false := by rw [← h1.isRed]; exact hb
  subst eb
  obtain ⟨pr, pred, pk, po⟩ := p
  dsimp only at h1 h2 h3 hb
  cases h1 with
  | @black a b m ql qk qr q1 q2 =>
  by_cases hbl : ql.isRed = false ∧ qr.isRed = false
  · left
    have ea : a = false := by rw [← q1.isRed]; exact hbl.1
    have eb : b = false := by rw [← q2.isRed]; exact hbl.2
    subst ea eb
    refine ⟨_, by unfold repair; simp only [if_pos hbl]; rfl, ?_, ?_, ?_⟩
    · rw [join_keys, keys_plug]
      cases pr <;> simp [before, after, Tree.keys]
    · unfold Crumb.join
      cases pr <;> rfl
    · cases pred with
      | true =>
        refine ⟨n, ?_, h3.black⟩
        unfold Lacks Crumb.join
        cases pr
        · simp only [Bool.false_eq_true, if_false, Tree.isRed, if_true, Tree.paint]
          exact .black hr (.red q1 q2)
        · simp only [if_true, Tree.isRed, Tree.paint]
          exact .black (.red q1 q2) hr
      | false =>
        refine ⟨n + 1, ?_, h3⟩
        unfold Lacks Crumb.join
        cases pr
        · simp only [Bool.false_eq_true, if_false, Tree.isRed]
          exact .black hr (.red q1 q2)
        · simp only [Bool.false_eq_true, if_false, if_true, Tree.isRed]
          exact .black (.red q1 q2) hr
  · right
    cases pr
    · by_cases hqr : qr.isRed = false
      · have ea : a = true := by
          rw [← q1.isRed]
          by_contra c
          exact hbl ⟨by simpa using c, hqr⟩
        have eb : b = false := by rw [← q2.isRed]; exact hqr
        subst ea eb
        cases q1 with
        | @red _ x1 k2 x2 y1 y2 =>
        refine ⟨_, by unfold repair; simp only [if_neg hbl, if_true, if_pos hqr]; rfl, ?_, ?_⟩
        · rw [keys_plug, keys_plug]; simp [before, after, Tree.keys]
        · exact plug_rb (rb_two (.black hr y1) (.black y2 q2)) h3
      · have eb : b = true := by rw [← q2.isRed]; simpa using hqr
        subst eb
        refine ⟨_, by unfold repair; simp only [if_neg hbl, if_true, if_neg hqr]; rfl, ?_, ?_⟩
        · rw [keys_plug, keys_plug]; simp [before, after, Tree.keys]
        · exact plug_rb (rb_two (.black hr q1) q2.paint_black.1) h3
    · by_cases hql : ql.isRed = false
      · have eb : b = true := by
          rw [← q2.isRed]
          by_contra c
          exact hbl ⟨hql, by simpa using c⟩
        have ea : a = false := by rw [← q1.isRed]; exact hql
        subst ea eb
        cases q2 with
        | @red _ x1 k2 x2 y1 y2 =>
        refine ⟨_, by unfold repair; simp only [if_neg hbl, Bool.true_eq_false, if_false, if_pos hql]; rfl, ?_, ?_⟩
        · rw [keys_plug, keys_plug]; simp [before, after, Tree.keys]
        · exact plug_rb (rb_two (.black q1 y1) (.black y2 hr)) h3
      · have ea : a = true := by rw [← q1.isRed]; simpa using hql
        subst ea
        refine ⟨_, by unfold repair; simp only [if_neg hbl, Bool.true_eq_false, if_false, if_neg hql]; rfl, ?_, ?_⟩
        · rw [keys_plug, keys_plug]; simp [before, after, Tree.keys]
        · exact plug_rb (rb_two q1.paint_black.1 (.black q2 hr)) h3

theorem fixup_ok : ∀ (fuel : ℕ) (path : List (Crumb K)) (r : Tree K) (n : ℕ), Lacks n r → PathOK false (n + 1) path →
    path.length < stackSize → (if r.isRed then 1 else path.length + 2) ≤ fuel →
    ∃ t, fixup fuel path r = some t ∧ t.keys = (plug path r).keys ∧ ∃ c n, RB c n t
  | 0, path, r, n, _, _, _, hf => by split_ifs at hf <;> omega
  | fuel + 1, [], r, n, hl, _, _, _ => by
    refine ⟨_, rfl, by simp [plug], ?_⟩
    unfold Lacks at hl
    split_ifs at hl
    · exact ⟨_, _, hl⟩
    · obtain ⟨m, hm⟩ := paint_rb hl
      exact ⟨_, _, hm⟩
  | fuel + 1, p :: rest, r, n, hl, hp, hlen, hf => by
    unfold fixup
    unfold Lacks at hl
    cases hr : r.isRed with
    | true =>
      rw [if_pos hr] at hl
      rw [if_pos rfl]
      exact ⟨_, rfl, by rw [keys_plug, keys_plug, keys_paint], plug_rb hl hp⟩
    | false =>
      rw [if_neg (by simp [hr])] at hl
      rw [if_neg (by simp)]
      rw [hr, if_neg (by simp), List.length_cons] at hf
      obtain ⟨p', rest', e1, e2, e3, e4, e5, e6⟩ := blackBrother_ok hp hlen
      rw [e1]
      simp only [Option.bind_eq_bind, Option.bind_some]
      have ek : (plug (p' :: rest') r).keys = (plug (p :: rest) r).keys := by rw [keys_plug, keys_plug, e3, e4]
      rcases repair_ok e2 e5 hl with ⟨r', f1, f2, f3, m, f4, f5⟩ | ⟨t, f1, f2, f3⟩
      · rw [f1]
        simp only [Option.bind_some]
        have hlen' : rest'.length < stackSize := by
          rw [List.length_cons] at hlen
          rcases e6 with ⟨-, rfl⟩ | ⟨-, e6⟩ <;> omega
        obtain ⟨t, g1, g2, g3⟩ := fixup_ok fuel rest' r' m f4 f5 hlen' (by
          split_ifs with hh
          · omega
          · rcases e6 with ⟨-, rfl⟩ | ⟨e6, -⟩
            · omega
            · rw [f3] at hh; exact absurd e6 hh)
        exact ⟨t, g1, g2.trans (f2.trans ek), g3⟩
      · rw [f1]
        exact ⟨t, rfl, f2.trans ek, f3⟩

theorem height_plug : ∀ (path : List (Crumb K)) (t : Tree K), path.length + t.height ≤ (plug path t).height
  | [], t => by simp [plug]
  | p :: path, t => by
    have := height_plug path (p.join t)
    rw [plug, List.length_cons]
    have h : t.height + 1 ≤ (p.join t).height := by
      unfold Crumb.join
      cases p.right <;> simp [Tree.height]
    omega

theorem leftmost_ok : ∀ (t : Tree K) (path : List (Crumb K)) (c : Bool) (n : ℕ), t ≠ .nil → RB c n t → PathOK c n path →
    path.length + t.height ≤ stackSize → ∃ path' c' r' k' c1 n1 ks, leftmost path t = some (path', c', r') ∧ t.first = some k' ∧
      RB c1 n1 (.node c' .nil k' r') ∧ PathOK c1 n1 path' ∧ t.keys = k' :: ks ∧ before path' = before path ∧
      r'.keys ++ after path' = ks ++ after path ∧ path'.length + 1 ≤ path.length + t.height
  | .nil, _, _, _, hne, _, _, _ => absurd rfl hne
  | .node c0 l k r, path, c, n, _, hrb, hp, hlen => by
    cases l with
    | nil => exact ⟨path, c0, r, k, c, n, r.keys, rfl, rfl, hrb, hp, rfl, rfl, rfl, by simp [Tree.height]⟩
    | node c2 l2 k2 r2 =>
      obtain ⟨c3, m, q1, q2⟩ := pathOK_left hrb hp
      rw [Tree.height] at hlen
      have hle : (Tree.node c2 l2 k2 r2).height ≤ max (Tree.node c2 l2 k2 r2).height r.height := le_max_left _ _
      obtain ⟨path', c', r', k', c1, n1, ks, e1, e2, e3, e4, e5, e6, e7, e8⟩ := leftmost_ok (.node c2 l2 k2 r2)
        ({ right := false, red := c0, key := k, other := r } :: path) c3 m (by simp) q1 q2 (by
          rw [List.length_cons]; omega)
      refine ⟨path', c', r', k', c1, n1, ks ++ k :: r.keys, ?_, ?_, e3, e4, ?_, ?_, ?_, ?_⟩
      · rw [leftmost, if_neg (by omega)]
        · exact e1
        · intro h; cases h
      · rw [Tree.first]
        · exact e2
        · intro h; cases h
      · rw [Tree.keys, e5]; simp
      · rw [e6]; simp [before]
      · rw [e7]; simp [after]
      · rw [List.length_cons] at e8
        rw [Tree.height.eq_2 c0]
        omega

theorem unchain_ok {path : List (Crumb K)} {c0 : Bool} {l r x : Tree K} {k : K} {c : Bool} {n : ℕ} (hrb : RB c n (.node c0 l k r))
    (hx : (l = .nil ∧ x = r) ∨ (r = .nil ∧ x = l)) (hp : PathOK c n path) (hlen : path.length < stackSize) :
    ∃ t, unchain path c0 x = some t ∧ t.keys = before path ++ x.keys ++ after path ∧ ∃ c n, RB c n t := by
  unfold unchain
  cases hrb with
  | red h1 h2 =>
    rw [if_pos rfl]
    refine ⟨_, rfl, keys_plug _ _, plug_rb (c := false) (n := n) ?_ hp.black⟩
    rcases hx with ⟨-, rfl⟩ | ⟨-, rfl⟩
    · exact h2
    · exact h1
  | @black a b m _ _ _ h1 h2 =>
    rw [if_neg (by simp)]
    have hl : Lacks m x := by
      have : ∃ a, RB a m x := by
        rcases hx with ⟨-, rfl⟩ | ⟨-, rfl⟩
        · exact ⟨_, h2⟩
        · exact ⟨_, h1⟩
      obtain ⟨a, h⟩ := this
      unfold Lacks
      rw [h.isRed]
      cases a
      · rw [if_neg (by simp)]; exact h
      · rw [if_pos rfl]; exact h.paint_black.1
    obtain ⟨t, e1, e2, e3⟩ := fixup_ok (path.length + 2) path x m hl hp hlen (by split_ifs <;> omega)
    exact ⟨t, e1, by rw [e2, keys_plug], e3⟩

theorem deleteAt_ok {path : List (Crumb K)} {c0 : Bool} {l r : Tree K} {k : K} {c : Bool} {n : ℕ} (hrb : RB c n (.node c0 l k r))
    (hp : PathOK c n path) (hlen : path.length + (Tree.node c0 l k r).height ≤ stackSize) :
    ∃ t, deleteAt path c0 l r = some t ∧ t.keys = before path ++ (l.keys ++ r.keys) ++ after path ∧ ∃ c n, RB c n t := by
  have hlen0 : path.length < stackSize := by rw [Tree.height] at hlen; omega
  cases l with
  | nil =>
    obtain ⟨t, e1, e2, e3⟩ := unchain_ok hrb (Or.inl ⟨rfl, rfl⟩) hp hlen0
    exact ⟨t, by unfold deleteAt; exact e1, e2, e3⟩
  | node c1 l1 k1 r1 =>
    cases r with
    | nil =>
      obtain ⟨t, e1, e2, e3⟩ := unchain_ok hrb (Or.inr ⟨rfl, rfl⟩) hp hlen0
      exact ⟨t, by unfold deleteAt; exact e1, by rw [e2]; simp [Tree.keys], e3⟩
    | node c2 l2 k2 r2 =>
      have hkey : ∀ kk, RB c n (.node c0 (.node c1 l1 k1 r1) kk (.node c2 l2 k2 r2)) := by
        intro kk
        cases hrb with
        | red h1 h2 => exact .red h1 h2
        | black h1 h2 => exact .black h1 h2
      rw [Tree.height] at hlen
      have hle : (Tree.node c2 l2 k2 r2).height ≤ max (Tree.node c1 l1 k1 r1).height (Tree.node c2 l2 k2 r2).height := le_max_right _ _
      obtain ⟨c3, m, q1, q2⟩ := pathOK_right (hkey k) hp
      have hf : ∃ kk, (Tree.node c2 l2 k2 r2).first = some kk := by
        obtain ⟨_, _, _, kk, _, _, _, -, h, -⟩ := leftmost_ok (.node c2 l2 k2 r2)
          ({ right := true, red := c0, key := k, other := .node c1 l1 k1 r1 } :: path) c3 m (by simp) q1 q2 (by
            rw [List.length_cons]; omega)
        exact ⟨kk, h⟩
      obtain ⟨kk, hkk⟩ := hf
      obtain ⟨c3, m, q1, q2⟩ := pathOK_right (hkey kk) hp
      obtain ⟨path', c', r', k', c4, n4, ks, e1, e2, e3, e4, e5, e6, e7, e8⟩ := leftmost_ok (.node c2 l2 k2 r2)
        ({ right := true, red := c0, key := kk, other := .node c1 l1 k1 r1 } :: path) c3 m (by simp) q1 q2 (by
          rw [List.length_cons]; omega)
      rw [hkk] at e2
      cases e2
      rw [List.length_cons] at e8
      obtain ⟨t, f1, f2, f3⟩ := unchain_ok e3 (Or.inl ⟨rfl, rfl⟩) e4 (by omega)
      refine ⟨t, ?_, ?_, f3⟩
      · rw [deleteAt]
        · simp only [hkk, Option.bind_eq_bind, Option.bind_some]
          rw [if_neg (by omega), e1]
          exact f1
        · intro h; cases h
        · intro h; cases h
      · rw [f2, e5, List.append_assoc, e7, e6]
        simp [before, after]

variable [LinearOrder L] {lab : K → L}

theorem deleteLoop_ok (x : L) : ∀ (t : Tree K) (path : List (Crumb K)) (c : Bool) (n : ℕ), RB c n t → PathOK c n path →
    path.length + t.height ≤ stackSize → Between lab x path → ((plug path t).keys.Pairwise fun x y => lab x < lab y) →
    ∃ b t', deleteLoop lab x path t = some (b, t') ∧ (∃ c n, RB c n t') ∧
      t'.keys = (plug path t).keys.filter (fun k => lab k ≠ x) ∧ (b = true ↔ ∃ k ∈ (plug path t).keys, lab k = x)
  | .nil, path, c, n, hrb, hp, _, hb, _ => by
    have hno : ∀ k ∈ (plug path .nil).keys, lab k ≠ x := by
      intro k hk
      rw [keys_plug] at hk
      simp only [Tree.keys, List.append_nil, List.mem_append] at hk
      rcases hk with hk | hk
      · exact (hb.1 k hk).ne
      · exact (hb.2 k hk).ne'
    refine ⟨false, _, rfl, plug_rb hrb hp, ?_, ?_⟩
    · rw [List.filter_eq_self.2]
      intro k hk
      simpa using hno k hk
    · simp only [Bool.false_eq_true, false_iff]
      rintro ⟨k, hk, e⟩
      exact hno k hk e
  | .node c0 l k r, path, c, n, hrb, hp, hlen, hb, hs => by
    unfold deleteLoop
    have hpl : path.length < stackSize := by rw [Tree.height] at hlen; omega
    by_cases hx : x = lab k
    · rw [if_pos hx]
      obtain ⟨t, e1, e2, e3⟩ := deleteAt_ok hrb hp hlen
      rw [e1]
      refine ⟨true, t, rfl, e3, ?_, ?_⟩
      · rw [e2]
        rw [keys_plug, Tree.keys] at hs ⊢
        obtain ⟨s1, s2, s3⟩ := List.pairwise_append.1 hs
        obtain ⟨s4, s5, s6⟩ := List.pairwise_append.1 s1
        obtain ⟨s7, s8, s9⟩ := List.pairwise_append.1 s5
        obtain ⟨s10, s11⟩ := List.pairwise_cons.1 s8
        have f : ∀ ks : List K, (∀ y ∈ ks, lab y ≠ x) → ks.filter (fun k => lab k ≠ x) = ks := by
          intro ks h
          rw [List.filter_eq_self]
          intro y hy
          simpa using h y hy
        rw [List.filter_append, List.filter_append, List.filter_append, List.filter_cons_of_neg (by simp [hx]),
          f _ (fun y hy => (hb.1 y hy).ne), f _ (fun y hy => (hb.2 y hy).ne'),
          f _ (fun y hy => by rw [hx]; exact (s9 y hy k (by simp)).ne), f _ (fun y hy => by rw [hx]; exact (s10 y hy).ne')]
      · simp only [true_iff]
        exact ⟨k, by rw [keys_plug, Tree.keys]; simp, hx.symm⟩
    · rw [if_neg hx, if_neg (by omega)]
      have hb' := between_extend (c := c0) hb hx hs
      have hpe := plug_extend (lab := lab) x path (.node c0 l k r) (by simp)
      rw [Tree.height] at hlen
      rw [extend_node] at hb' hpe
      rw [toward_node] at hpe
      by_cases hlt : x < lab k
      · rw [if_pos hlt] at *
        obtain ⟨c3, m, q1, q2⟩ := pathOK_left hrb hp
        have := le_max_left l.height r.height
        have ih := deleteLoop_ok x l _ c3 m q1 q2 (by rw [List.length_cons]; omega) hb' (by rw [if_pos hlt] at hpe; rw [hpe]; exact hs)
        rw [if_pos hlt] at hpe
        rw [hpe] at ih
        exact ih
      · rw [if_neg hlt] at *
        obtain ⟨c3, m, q1, q2⟩ := pathOK_right hrb hp
        have := le_max_right l.height r.height
        have ih := deleteLoop_ok x r _ c3 m q1 q2 (by rw [List.length_cons]; omega) hb' (by rw [if_neg hlt] at hpe; rw [hpe]; exact hs)
        rw [if_neg hlt] at hpe
        rw [hpe] at ih
        exact ih

/-- **C111**: in trees of fewer than 2^49 keys, `tdelete` removes the key with the given label and no other;
the tree stays a red-black search tree; the result is not NULL exactly if there was such a key. The stack of
100 locations is not overrun and nothing is aborted. -/
theorem C111_delete (x : L) {t : Tree K} (h : Valid lab t) (hsize : t.size < 2 ^ 49) :
    ∃ b t', tdelete lab x t = some (b, t') ∧ Valid lab t' ∧ t'.keys = t.keys.filter (fun k => lab k ≠ x) ∧
      (b = true ↔ ∃ k ∈ t.keys, lab k = x) := by
  obtain ⟨c, n, hrb⟩ := h.rb
  have hh : t.height < 100 := by
    by_contra hc
    have h1 := C110_height h
    have h2 : 2 ^ 50 ≤ 2 ^ (t.height / 2) := Nat.pow_le_pow_right (by omega) (by omega)
    have h3 : (2 : ℕ) ^ 50 = 2 * 2 ^ 49 := by norm_num
    omega
  obtain ⟨b, t', e1, e2, e3, e4⟩ := deleteLoop_ok x t [] c n hrb trivial (by
    show 0 + t.height ≤ 100
    omega) ⟨by simp [before], by simp [after]⟩ h.sorted
  refine ⟨b, t', e1, ⟨?_, e2⟩, e3, e4⟩
  rw [e3]
  exact h.sorted.filter _

/-- Seven keys, one deleted. -/
example : ((insertAll (fun k : ℕ => k) [4, 2, 6, 1, 3, 5, 7]).bind fun t => (tdelete (fun k : ℕ => k) 4 t).map fun p => (p.1, p.2.keys)) =
    some (true, [1, 2, 3, 5, 6, 7]) := by decide +kernel

/-! ## Walking -/

/-- The visits that come between those of the left and the right subtree. -/
def between (v : K × Visit × ℕ) : Bool := v.2.1 = .postorder || v.2.1 = .leaf

theorem trecurse_node (level : ℕ) (c : Bool) (l r : Tree K) (k : K) : trecurse level (.node c l k r) =
    if l.size = 0 ∧ r.size = 0 then [(k, .leaf, level)]
    else (k, .preorder, level) :: trecurse (level + 1) l ++ (k, .postorder, level) :: trecurse (level + 1) r ++ [(k, .endorder, level)] := by
  cases l <;> cases r <;> simp [trecurse, Tree.size]

/-- **C112**: `twalk` visits every node once between its subtrees (`postorder`) or as a leaf, in increasing
order of labels; a node that is not a leaf is visited three times, a leaf once. -/
theorem C112_walk_order (t : Tree K) : ((twalk t).filter between).map Prod.fst = t.keys := by
  have key : ∀ (t : Tree K) (level : ℕ), ((trecurse level t).filter between).map Prod.fst = t.keys := by
    intro t
    induction t with
    | nil => intro _; rfl
    | node c l k r il ir =>
      intro level
      rw [trecurse_node]
      split_ifs with h
      · cases l <;> cases r <;> simp [Tree.size, between, Tree.keys] at h ⊢
      · simp only [List.filter_append, List.filter_cons, List.map_append, List.cons_append, Tree.keys, between]
        simp only [Bool.or_eq_true, decide_eq_true_eq, reduceCtorEq, or_self, if_false, or_false, if_true, List.map_cons,
          List.filter_nil, List.map_nil, List.append_nil]
        rw [List.map_append, List.map_cons, il, ir]
  exact key t 0

/-- Number of nodes without subtrees. -/
def Tree.leaves : Tree K → ℕ
  | .nil => 0
  | .node _ .nil _ .nil => 1
  | .node _ l _ r => l.leaves + r.leaves

theorem C112_walk_count (t : Tree K) : (twalk t).length + 2 * t.leaves = 3 * t.size := by
  have key : ∀ (t : Tree K) (level : ℕ), (trecurse level t).length + 2 * t.leaves = 3 * t.size := by
    intro t
    induction t with
    | nil => intro _; rfl
    | node c l k r il ir =>
      intro level
      have e : (Tree.node c l k r).leaves = if l.size = 0 ∧ r.size = 0 then 1 else l.leaves + r.leaves := by
        cases l <;> cases r <;> simp [Tree.leaves, Tree.size]
      rw [trecurse_node, e]
      have := il (level + 1)
      have := ir (level + 1)
      split_ifs with h
      · simp [Tree.size, h.1, h.2]
      · simp [Tree.size]
        omega
  exact key t 0

/-- **C112**: `tdestroy` frees every key exactly once. -/
theorem C112_destroy : ∀ t : Tree K, (tdestroy t).Perm t.keys
  | .nil => .refl _
  | .node c l k r => by
    rw [tdestroy, Tree.keys, List.append_assoc]
    exact (C112_destroy l).append ((List.perm_append_comm).trans ((C112_destroy r).cons k))

example : twalk (.node false (.node true .nil 1 .nil) 2 (.nil : Tree ℕ)) =
    [(2, .preorder, 0), (1, .leaf, 1), (2, .postorder, 0), (2, .endorder, 0)] := by decide

end TS
