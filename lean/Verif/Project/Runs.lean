import Verif.Project.Model
import Verif.Project.Spec
import Verif.CSR.Lemmas
import Mathlib.Data.Prod.Lex
import Mathlib.Tactic.Ring
import Mathlib.Tactic.Linarith

/-! # Runs of equal keys in a sorted list -/

set_option linter.unusedSimpArgs false

namespace NC

section Runs
variable {α K : Type} [LinearOrder K] (key : α → K)

/-- Division of a list into runs of equal keys; `cur` is the current run. -/
def runs (cur : List α) : List α → List (List α)
  | [] => []
  | [a] => [cur ++ [a]]
  | a :: b :: rest => if key a ≠ key b then (cur ++ [a]) :: runs [] (b :: rest) else runs (cur ++ [a]) (b :: rest)

theorem runs_flatten : ∀ (l cur : List α), l ≠ [] → (runs key cur l).flatten = cur ++ l
  | [], _, h => absurd rfl h
  | [a], cur, _ => by simp [runs]
  | a :: b :: rest, cur, _ => by
    rw [runs]
    split_ifs
    · rw [List.flatten_cons, runs_flatten (b :: rest) [] (by simp)]; simp
    · rw [runs_flatten (b :: rest) _ (by simp)]; simp

theorem runs_flatten' (l : List α) : (runs key [] l).flatten = l := by
  cases l with
  | nil => rfl
  | cons a l => rw [runs_flatten key (a :: l) [] (by simp)]; rfl

theorem runs_ne : ∀ (l cur : List α), ∀ g ∈ runs key cur l, g ≠ []
  | [], _, g, hg => by simp [runs] at hg
  | [a], cur, g, hg => by simp [runs] at hg; subst hg; simp
  | a :: b :: rest, cur, g, hg => by
    rw [runs] at hg
    split_ifs at hg
    · rcases List.mem_cons.1 hg with rfl | hg
      · simp
      · exact runs_ne (b :: rest) _ g hg
    · exact runs_ne (b :: rest) _ g hg

theorem runs_const : ∀ (l cur : List α), (∀ x ∈ cur, ∀ a ∈ l.head?, key x = key a) →
    ∀ g ∈ runs key cur l, ∀ x ∈ g, ∀ y ∈ g, key x = key y
  | [], _, _, g, hg => by simp [runs] at hg
  | [a], cur, h, g, hg => by
    simp [runs] at hg; subst hg
    simp at h
    intro x hx y hy
    simp at hx hy
    have h1 : key x = key a := by rcases hx with hx | rfl; exacts [h x hx, rfl]
    have h2 : key y = key a := by rcases hy with hy | rfl; exacts [h y hy, rfl]
    rw [h1, h2]
  | a :: b :: rest, cur, h, g, hg => by
    simp only [List.head?_cons, Option.mem_def, Option.some.injEq, forall_eq'] at h
    rw [runs] at hg
    split_ifs at hg with hab
    · rcases List.mem_cons.1 hg with rfl | hg
      · intro x hx y hy
        simp at hx hy
        have h1 : key x = key a := by rcases hx with hx | rfl; exacts [h x hx, rfl]
        have h2 : key y = key a := by rcases hy with hy | rfl; exacts [h y hy, rfl]
        rw [h1, h2]
      · exact runs_const (b :: rest) [] (by simp) g hg
    · refine runs_const (b :: rest) _ ?_ g hg
      intro x hx c hc
      simp at hc; subst hc
      push Not at hab
      simp at hx
      rcases hx with hx | rfl
      · rw [h x hx, hab]
      · exact hab

theorem runs_sorted : ∀ (l cur : List α), (∀ x ∈ cur, ∀ a ∈ l.head?, key x = key a) → l.Pairwise (fun a b => key a ≤ key b) →
    (runs key cur l).Pairwise (fun g h => ∀ x ∈ g, ∀ y ∈ h, key x < key y)
  | [], _, _, _ => by simp [runs]
  | [a], cur, h, _ => by simp [runs]
  | a :: b :: rest, cur, h, hs => by
    simp only [List.head?_cons, Option.mem_def, Option.some.injEq, forall_eq'] at h
    rw [runs]
    have hs' := List.pairwise_cons.1 hs
    split_ifs with hab
    · rw [List.pairwise_cons]
      refine ⟨?_, runs_sorted (b :: rest) [] (by simp) hs'.2⟩
      intro g hg x hx y hy
      have h1 : key x = key a := by
        simp at hx; rcases hx with hx | rfl; exacts [h x hx, rfl]
      have hy' : y ∈ b :: rest := by
        have := runs_flatten' key (b :: rest)
        rw [← this]; exact List.mem_flatten.2 ⟨g, hg, hy⟩
      have h2 : key b ≤ key y := by
        rcases List.mem_cons.1 hy' with rfl | hy'
        · exact le_rfl
        · exact (List.pairwise_cons.1 hs'.2).1 y hy'
      have h3 : key a ≤ key b := hs'.1 b (by simp)
      rw [h1]
      exact lt_of_lt_of_le (lt_of_le_of_ne h3 hab) h2
    · refine runs_sorted (b :: rest) _ ?_ hs'.2
      intro x hx c hc
      simp at hc; subst hc
      push Not at hab
      simp at hx
      rcases hx with hx | rfl
      · rw [h x hx, hab]
      · exact hab

end Runs

/-- Order of `EdgeCompare`. -/
def pkey (e : Edge) : ℕ ×ₗ ℕ := toLex (e.v, e.u)

theorem compare_le (a b : Edge) : EdgeCompare a b ≤ 0 ↔ pkey a ≤ pkey b := by
  unfold EdgeCompare pkey
  rw [Prod.Lex.toLex_le_toLex]
  split_ifs <;> simp <;> omega

theorem compare_zero (a b : Edge) : EdgeCompare a b = 0 ↔ pkey a = pkey b := by
  unfold EdgeCompare pkey
  simp only [EmbeddingLike.apply_eq_iff_eq, Prod.mk.injEq]
  split_ifs <;> simp <;> omega

theorem sortEdges_perm (l : List Edge) : (sortEdges l).Perm l := List.perm_insertionSort _ _

theorem sortEdges_sorted (l : List Edge) : (sortEdges l).Pairwise (fun a b => pkey a ≤ pkey b) := by
  have : Std.Total (fun a b : Edge => EdgeCompare a b ≤ 0) := ⟨fun a b => by simp only [compare_le]; exact le_total _ _⟩
  have : IsTrans Edge (fun a b : Edge => EdgeCompare a b ≤ 0) := ⟨fun a b c => by simp only [compare_le]; exact le_trans⟩
  exact (List.pairwise_insertionSort (fun a b => EdgeCompare a b ≤ 0) l).imp fun h => (compare_le _ _).1 h

theorem sortEdges_sorted_v (l : List Edge) : (sortEdges l).Pairwise (fun a b => a.v ≤ b.v) :=
  (sortEdges_sorted l).imp fun h => by
    unfold pkey at h; rw [Prod.Lex.toLex_le_toLex] at h; simp at h; omega

/-! ## First and second loop -/

/-- The teams. -/
abbrev teams (cur l : List Edge) : List (List Edge) := runs (fun e : Edge => e.v) cur l

/-- Weight of a list of edges. -/
def wsum (g : List Edge) : ℚ := (g.map (·.w)).sum

theorem teamLoop_spec (junk : Junk) : ∀ (l cur : List Edge) (s : TeamSt), s.degree = cur.length → s.strength = wsum cur →
    let t := teamLoop junk s l
    t.Emax = s.Emax + ((teams cur l).map fun g => g.length * (g.length - 1) / 2).sum ∧
    t.fac2 = s.fac2 + ((teams cur l).map wsum).sum ∧
    t.fac1 = s.fac1 + ((teams cur l).map fun g => wsum g * (wsum g - wsum g / (g.length : ℚ))).sum ∧
    t.p.N = s.p.N ∧ t.p.M = s.p.M ∧ t.p.nempty = s.p.nempty ∧ t.p.modules = s.p.modules ∧
    (∀ i, t.p.nodes i = { s.p.nodes i with strength := (s.p.nodes i).strength + actorWeight l i })
  | [], cur, s, _, _ => by simp [teamLoop, runs, actorWeight]
  | [a], cur, s, hd, hs => by
    simp only [teamLoop, runs, or_true, if_true]
    have e1 : wsum (cur ++ [a]) = s.strength + a.w := by simp [wsum, hs]
    refine ⟨by simp [hd], by simp [e1], by simp [e1, hd], rfl, rfl, rfl, rfl, ?_⟩
    intro i
    simp only [setNode_nodes, actorWeight]
    by_cases h : i = a.u
    · subst h; simp
    · simp [h, Ne.symm h]
  | a :: b :: rest, cur, s, hd, hs => by
    have e1 : wsum (cur ++ [a]) = s.strength + a.w := by simp [wsum, hs]
    have hnode : ∀ (q : Partition), (∀ i, q.nodes i = { (setNode a.u (fun n => { n with strength := n.strength + a.w }) s.p).nodes i with
        strength := ((setNode a.u (fun n => { n with strength := n.strength + a.w }) s.p).nodes i).strength + actorWeight (b :: rest) i }) →
        ∀ i, q.nodes i = { s.p.nodes i with strength := (s.p.nodes i).strength + actorWeight (a :: b :: rest) i } := by
      intro q hq i
      rw [hq i]
      simp only [setNode_nodes]
      by_cases h : i = a.u
      · subst h; simp [actorWeight]; ring
      · simp [h, Ne.symm h, actorWeight]
    rw [teamLoop, teams, runs]
    simp only [nextTeam, reduceCtorEq, or_false]
    by_cases hab : a.v ≠ b.v
    · simp only [if_pos hab]
      obtain ⟨h1, h2, h3, h4, h5, h6, h7, h8⟩ := teamLoop_spec junk (b :: rest) []
        { s with
          degree := 0
          strength := 0
          Emax := s.Emax + (s.degree + 1) * (s.degree + 1 - 1) / 2
          fac2 := s.fac2 + (s.strength + a.w)
          fac1 := s.fac1 + (s.strength + a.w) * ((s.strength + a.w) - (s.strength + a.w) / ((s.degree + 1 : ℕ) : ℚ))
          p := setNode a.u (fun n => { n with strength := n.strength + a.w }) s.p } rfl (by simp [wsum])
      refine ⟨?_, ?_, ?_, h4, h5, h6, h7, hnode _ h8⟩
      · rw [h1, List.map_cons, List.sum_cons, ← Nat.add_assoc, List.length_append, hd]; rfl
      · rw [h2]; simp [e1]; ring
      · rw [h3]; simp [e1, hd]; ring
    · simp only [if_neg hab]
      obtain ⟨h1, h2, h3, h4, h5, h6, h7, h8⟩ := teamLoop_spec junk (b :: rest) (cur ++ [a])
        { s with
          degree := s.degree + 1
          strength := s.strength + a.w
          p := setNode a.u (fun n => { n with strength := n.strength + a.w }) s.p } (by simp [hd]) e1.symm
      exact ⟨h1, h2, h3, h4, h5, h6, h7, hnode _ h8⟩

theorem projLoop_spec (junk : Junk) : ∀ (l cur out : List Edge), projLoop junk cur out l = out ++ (teams cur l).flatMap (pairsFrom [])
  | [], cur, out => by simp [projLoop, runs]
  | [a], cur, out => by simp [projLoop, runs]
  | a :: b :: rest, cur, out => by
    rw [projLoop, teams, runs]
    simp only [nextTeam, reduceCtorEq, or_false]
    by_cases hab : a.v ≠ b.v
    · simp only [if_pos hab]
      rw [projLoop_spec junk (b :: rest) []]; simp
    · simp only [if_neg hab]
      rw [projLoop_spec junk (b :: rest) (cur ++ [a])]

theorem pairsFrom_length : ∀ (g before : List Edge), 2 * (pairsFrom before g).length + g.length = g.length * (2 * before.length + g.length)
  | [], _ => by simp [pairsFrom]
  | e :: g, before => by
    rw [pairsFrom, List.length_append, List.length_map]
    have := pairsFrom_length g (before ++ [e])
    simp at this ⊢
    nlinarith

theorem proj_length (L : List (List Edge)) : (L.flatMap (pairsFrom [])).length = (L.map fun g => g.length * (g.length - 1) / 2).sum := by
  induction L with
  | nil => simp
  | cons g L ih =>
    rw [List.flatMap_cons, List.length_append, ih, List.map_cons, List.sum_cons]
    congr 1
    have := pairsFrom_length g []
    simp at this
    have h2 : g.length * (g.length - 1) + g.length = g.length * g.length := by
      cases g.length with
      | zero => rfl
      | succ n => simp; ring
    omega

/-- Members of the projected list of a team. -/
theorem mem_pairsFrom : ∀ (g before : List Edge) (x : Edge), x ∈ pairsFrom before g ↔
    ∃ l1 e l2, g = l1 ++ e :: l2 ∧ ∃ f ∈ before ++ l1, x = ⟨e.u, f.u, e.w * f.w⟩
  | [], before, x => by simp [pairsFrom]
  | e :: g, before, x => by
    rw [pairsFrom, List.mem_append, mem_pairsFrom g]
    constructor
    · rintro (h | ⟨l1, a, l2, rfl, f, hf, rfl⟩)
      · obtain ⟨f, hf, rfl⟩ := List.mem_map.1 h
        exact ⟨[], e, g, rfl, f, by simpa using hf, rfl⟩
      · exact ⟨e :: l1, a, l2, rfl, f, by simpa using hf, rfl⟩
    · rintro ⟨l1, a, l2, h, f, hf, rfl⟩
      cases l1 with
      | nil =>
        simp at h hf
        obtain ⟨rfl, rfl⟩ := h
        exact Or.inl (List.mem_map.2 ⟨f, hf, rfl⟩)
      | cons b l1 =>
        simp only [List.cons_append, List.cons.injEq] at h
        obtain ⟨rfl, rfl⟩ := h
        exact Or.inr ⟨l1, a, l2, rfl, f, by simpa using hf, rfl⟩

end NC
