import Verif.Project.Runs

/-! # Sums over teams and over projected edges -/

set_option linter.unusedSimpArgs false

namespace NC

/-- Contribution of two lists to the co-membership of `i` and `j`, teams not compared. -/
def dsum (a b : List Edge) (i j : ℕ) : ℚ := (a.map fun e => (b.map fun f => if e.u = i ∧ f.u = j then e.w * f.w else 0).sum).sum

/-- Weight between `i` and `j` in a list of projected edges. -/
def msum (l : List Edge) (i j : ℕ) : ℚ := (l.map fun e => if (e.u = i ∧ e.v = j) ∨ (e.u = j ∧ e.v = i) then e.w else 0).sum

theorem msum_append (a b i j) : msum (a ++ b) i j = msum a i j + msum b i j := by simp [msum]

theorem dsum_cons_left (e a b i j) : dsum (e :: a) b i j = dsum [e] b i j + dsum a b i j := by simp [dsum]

theorem dsum_append_left (a a' b i j) : dsum (a ++ a') b i j = dsum a b i j + dsum a' b i j := by simp [dsum]

theorem dsum_append_right (a b b' i j) : dsum a (b ++ b') i j = dsum a b i j + dsum a b' i j := by
  simp [dsum, List.sum_map_add]

theorem dsum_cons_right (a f b i j) : dsum a (f :: b) i j = dsum a [f] i j + dsum a b i j := by
  rw [← List.singleton_append, dsum_append_right]

theorem dsum_self (e : Edge) {i j : ℕ} (h : i ≠ j) : dsum [e] [e] i j = 0 := by
  simp only [dsum, List.map_cons, List.map_nil, List.sum_cons, List.sum_nil, add_zero]
  rw [if_neg]; rintro ⟨rfl, h2⟩; exact h h2

theorem msum_pairs_head (e : Edge) (before : List Edge) {i j : ℕ} (h : i ≠ j) :
    msum (before.map fun f => (⟨e.u, f.u, e.w * f.w⟩ : Edge)) i j = dsum [e] before i j + dsum before [e] i j := by
  induction before with
  | nil => simp [msum, dsum]
  | cons f before ih =>
    rw [List.map_cons, ← List.singleton_append, msum_append, ih, dsum_cons_right [e] f before, dsum_cons_left f before [e]]
    have : msum [(⟨e.u, f.u, e.w * f.w⟩ : Edge)] i j = dsum [e] [f] i j + dsum [f] [e] i j := by
      simp only [msum, dsum, List.map_cons, List.map_nil, List.sum_cons, List.sum_nil, add_zero]
      by_cases c1 : e.u = i ∧ f.u = j
      · have c2 : ¬ (f.u = i ∧ e.u = j) := by rintro ⟨h1, h2⟩; exact h (c1.1.symm.trans h2)
        rw [if_pos (Or.inl c1), if_pos c1, if_neg c2, add_zero]
      · by_cases c2 : f.u = i ∧ e.u = j
        · rw [if_pos (Or.inr ⟨c2.2, c2.1⟩), if_neg c1, if_pos c2, zero_add, mul_comm]
        · rw [if_neg (by rintro (hh | hh); exacts [c1 hh, c2 ⟨hh.2, hh.1⟩]), if_neg c1, if_neg c2, add_zero]
    rw [this]; ring

theorem msum_pairsFrom {i j : ℕ} (h : i ≠ j) : ∀ (g before : List Edge),
    msum (pairsFrom before g) i j = dsum g g i j + dsum before g i j + dsum g before i j
  | [], before => by simp [pairsFrom, msum, dsum]
  | e :: g, before => by
    rw [pairsFrom, msum_append, msum_pairs_head e before h, msum_pairsFrom h g (before ++ [e]), dsum_append_left, dsum_append_right,
      dsum_cons_left e g (e :: g), dsum_cons_right [e] e g, dsum_cons_right g e g, dsum_self e h,
      dsum_cons_right before e g, dsum_cons_left e g before]
    ring

/-- Co-membership of two lists, teams compared. -/
def csum (a b : List Edge) (i j : ℕ) : ℚ :=
  (a.map fun e => (b.map fun f => if e.u = i ∧ f.u = j ∧ e.v = f.v then e.w * f.w else 0).sum).sum

theorem csum_append_left (a a' b i j) : csum (a ++ a') b i j = csum a b i j + csum a' b i j := by simp [csum]

theorem csum_append_right (a b b' i j) : csum a (b ++ b') i j = csum a b i j + csum a b' i j := by
  simp [csum, List.sum_map_add]

theorem csum_zero {a b : List Edge} (h : ∀ e ∈ a, ∀ f ∈ b, e.v ≠ f.v) (i j) : csum a b i j = 0 := by
  apply List.sum_eq_zero
  intro x hx
  obtain ⟨e, he, rfl⟩ := List.mem_map.1 hx
  apply List.sum_eq_zero
  intro y hy
  obtain ⟨f, hf, rfl⟩ := List.mem_map.1 hy
  rw [if_neg]; rintro ⟨_, _, hh⟩; exact h e he f hf hh

theorem csum_same {a b : List Edge} (h : ∀ e ∈ a, ∀ f ∈ b, e.v = f.v) (i j) : csum a b i j = dsum a b i j := by
  unfold csum dsum
  congr 1
  refine List.map_congr_left fun e he => ?_
  congr 1
  refine List.map_congr_left fun f hf => ?_
  simp [h e he f hf]

theorem csum_groups {i j : ℕ} : ∀ (L : List (List Edge)), (∀ g ∈ L, ∀ x ∈ g, ∀ y ∈ g, x.v = y.v) →
    L.Pairwise (fun g h => ∀ x ∈ g, ∀ y ∈ h, x.v < y.v) → csum L.flatten L.flatten i j = (L.map fun g => dsum g g i j).sum
  | [], _, _ => by simp [csum]
  | g :: L, hc, hs => by
    rw [List.pairwise_cons] at hs
    have hx : ∀ e ∈ g, ∀ f ∈ L.flatten, e.v < f.v := by
      intro e he f hf
      obtain ⟨k, hk, hf⟩ := List.mem_flatten.1 hf
      exact hs.1 k hk e he f hf
    rw [List.flatten_cons, csum_append_left, csum_append_right, csum_append_right,
      csum_groups L (fun k hk => hc k (by simp [hk])) hs.2, csum_same (hc g (by simp)),
      csum_zero (fun e he f hf => (hx e he f hf).ne), csum_zero (fun e he f hf => (hx f hf e he).ne')]
    simp

theorem csum_perm {a b : List Edge} (h : a.Perm b) (i j) : csum a a i j = csum b b i j := by
  unfold csum
  rw [(h.map _).sum_eq]
  congr 1
  refine List.map_congr_left fun e _ => ?_
  exact (h.map _).sum_eq

/-- The projected edges add up to the co-membership. -/
theorem msum_projected (edges : List Edge) {i j : ℕ} (h : i ≠ j) :
    msum ((teams [] (sortEdges edges)).flatMap (pairsFrom [])) i j = comembership edges i j := by
  have h1 := csum_groups (i := i) (j := j) (teams [] (sortEdges edges)) (runs_const _ _ _ (by simp))
    (runs_sorted _ _ _ (by simp) (sortEdges_sorted_v edges))
  rw [runs_flatten'] at h1
  rw [show comembership edges i j = csum edges edges i j from rfl, ← csum_perm (sortEdges_perm edges), h1]
  generalize teams [] (sortEdges edges) = L
  induction L with
  | nil => simp [msum]
  | cons g L ih =>
    rw [List.flatMap_cons, msum_append, ih, msum_pairsFrom h, List.map_cons, List.sum_cons]
    simp [dsum]

/-! ## Norm -/

theorem teamWeight_group {L : List (List Edge)} (hc : ∀ g ∈ L, ∀ x ∈ g, ∀ y ∈ g, x.v = y.v)
    (hs : L.Pairwise (fun g h => ∀ x ∈ g, ∀ y ∈ h, x.v < y.v)) {g : List Edge} (hg : g ∈ L) {e : Edge} (he : e ∈ g) :
    teamWeight L.flatten e.v = wsum g ∧ teamSize L.flatten e.v = g.length := by
  have happ : ∀ a b x, teamWeight (a ++ b) x = teamWeight a x + teamWeight b x := by intro a b x; simp [teamWeight]
  have happ' : ∀ a b x, teamSize (a ++ b) x = teamSize a x + teamSize b x := by intro a b x; simp [teamSize]
  have hzero : ∀ (l : List Edge) x, (∀ f ∈ l, f.v ≠ x) → teamWeight l x = 0 ∧ teamSize l x = 0 := by
    intro l x hl
    refine ⟨List.sum_eq_zero ?_, ?_⟩
    · intro y hy
      obtain ⟨f, hf, rfl⟩ := List.mem_map.1 hy
      rw [if_neg (hl f hf)]
    · rw [teamSize, List.countP_eq_zero]; intro f hf; simpa using hl f hf
  have hself : ∀ (l : List Edge) x, (∀ f ∈ l, f.v = x) → teamWeight l x = wsum l ∧ teamSize l x = l.length := by
    intro l x hl
    refine ⟨?_, ?_⟩
    · unfold teamWeight wsum
      congr 1
      exact List.map_congr_left fun f hf => by rw [if_pos (hl f hf)]
    · rw [teamSize, List.countP_eq_length]; intro f hf; simpa using hl f hf
  induction L with
  | nil => simp at hg
  | cons k L ih =>
    rw [List.pairwise_cons] at hs
    rw [List.flatten_cons, happ, happ']
    rcases List.mem_cons.1 hg with rfl | hg'
    · have hz := hzero L.flatten e.v (by
        intro f hf
        obtain ⟨m, hm, hf⟩ := List.mem_flatten.1 hf
        exact (hs.1 m hm e he f hf).ne')
      have hself := hself g e.v (fun f hf => hc g (by simp) f hf e he)
      rw [hz.1, hz.2, hself.1, hself.2]; simp
    · have hz := hzero k e.v (fun f hf => (hs.1 g hg' f hf e he).ne)
      have := ih (fun m hm => hc m (by simp [hm])) hs.2 hg'
      rw [hz.1, hz.2, this.1, this.2]; simp

theorem team_sum (c : ℕ → ℚ) : ∀ (edges : List Edge) (s : Finset ℕ), (∀ e ∈ edges, e.v ∈ s) →
    (edges.map fun e => e.w * c e.v).sum = ∑ a ∈ s, teamWeight edges a * c a
  | [], s, _ => by simp [teamWeight]
  | e :: es, s, h => by
    rw [List.map_cons, List.sum_cons, team_sum c es s fun f hf => h f (by simp [hf])]
    have : ∀ a, teamWeight (e :: es) a * c a = (if e.v = a then e.w * c a else 0) + teamWeight es a * c a := by
      intro a; simp only [teamWeight, List.map_cons, List.sum_cons]; split_ifs <;> ring
    rw [Finset.sum_congr rfl fun a _ => this a, Finset.sum_add_distrib, Finset.sum_ite_eq, if_pos (h e (by simp))]

theorem teamWeight_perm {a b : List Edge} (h : a.Perm b) : teamWeight a = teamWeight b := by
  funext x; exact (h.map _).sum_eq

theorem teamSize_perm {a b : List Edge} (h : a.Perm b) : teamSize a = teamSize b := by
  funext x; exact h.countP_eq _

/-- The first factor. -/
theorem norm_groups (edges : List Edge) :
    ((teams [] (sortEdges edges)).map fun g => wsum g * (wsum g - wsum g / (g.length : ℚ))).sum = projectionNorm edges := by
  have hc : ∀ g ∈ teams [] (sortEdges edges), ∀ x ∈ g, ∀ y ∈ g, x.v = y.v := runs_const _ _ _ (by simp)
  have hs := runs_sorted (fun e : Edge => e.v) _ [] (by simp) (sortEdges_sorted_v edges)
  have hfl := runs_flatten' (fun e : Edge => e.v) (sortEdges edges)
  have hp := sortEdges_perm edges
  unfold projectionNorm
  rw [← team_sum (fun a => teamWeight edges a - teamWeight edges a / teamSize edges a) edges _ (fun e he => by
    rw [List.mem_toFinset]; exact List.mem_map.2 ⟨e, he, rfl⟩)]
  rw [← (hp.map (fun e : Edge => e.w * (teamWeight edges e.v - teamWeight edges e.v / teamSize edges e.v))).sum_eq]
  have hgrp : ∀ g ∈ teams [] (sortEdges edges), ∀ e ∈ g, teamWeight edges e.v = wsum g ∧ teamSize edges e.v = g.length := by
    intro g hg e he
    have := teamWeight_group hc hs hg he
    rw [hfl, teamWeight_perm hp, teamSize_perm hp] at this
    exact this
  conv_rhs => rw [← hfl]
  change _ = (List.map _ (teams [] (sortEdges edges)).flatten).sum
  generalize teams [] (sortEdges edges) = L at hgrp ⊢
  clear hc hs hfl
  induction L with
  | nil => simp
  | cons g L ih =>
    rw [List.map_cons, List.sum_cons, List.flatten_cons, List.map_append, List.sum_append, ih fun k hk => hgrp k (by simp [hk])]
    congr 1
    have : g.map (fun e : Edge => e.w * (teamWeight edges e.v - teamWeight edges e.v / teamSize edges e.v)) =
        g.map (fun e : Edge => e.w * (wsum g - wsum g / (g.length : ℚ))) := by
      refine List.map_congr_left fun e he => ?_
      rw [(hgrp g (by simp) e he).1, (hgrp g (by simp) e he).2]
    rw [this, List.sum_map_mul_right]; rfl

/-- The second factor. -/
theorem total_groups (edges : List Edge) : ((teams [] (sortEdges edges)).map wsum).sum = totalWeight edges := by
  have hfl := runs_flatten' (fun e : Edge => e.v) (sortEdges edges)
  rw [show totalWeight edges = ((sortEdges edges).map (·.w)).sum from ((sortEdges_perm edges).map _).sum_eq.symm]
  conv_rhs => rw [← hfl]
  change _ = (List.map _ (teams [] (sortEdges edges)).flatten).sum
  generalize teams [] (sortEdges edges) = L
  induction L with
  | nil => simp
  | cons g L ih => rw [List.map_cons, List.sum_cons, ih, List.flatten_cons, List.map_append, List.sum_append]; rfl

/-! ## Shape of the projected edges -/

/-- Members of the list of projected edges: two edges of the same team, the one with the greater actor first. -/
theorem mem_projected {edges : List Edge} (hd : DistinctEdges edges) {x : Edge} :
    x ∈ (teams [] (sortEdges edges)).flatMap (pairsFrom []) ↔
      ∃ e ∈ edges, ∃ f ∈ edges, e.v = f.v ∧ f.u < e.u ∧ x = ⟨e.u, f.u, e.w * f.w⟩ := by
  have hp := sortEdges_perm edges
  have hc : ∀ g ∈ teams [] (sortEdges edges), ∀ x ∈ g, ∀ y ∈ g, x.v = y.v := runs_const _ _ _ (by simp)
  have hsorted := sortEdges_sorted edges
  have hd' : DistinctEdges (sortEdges edges) := by
    unfold DistinctEdges
    refine (List.Perm.pairwise_iff ?_ hp).2 hd
    intro a b h hh; exact h ⟨hh.1.symm, hh.2.symm⟩
  have hfl := runs_flatten' (fun e : Edge => e.v) (sortEdges edges)
  have hall : ∀ g ∈ teams [] (sortEdges edges), ∀ x ∈ g, x ∈ edges := by
    intro g hg x hx
    rw [← hp.mem_iff, ← hfl]; exact List.mem_flatten.2 ⟨g, hg, hx⟩
  have hstrict : ∀ g ∈ teams [] (sortEdges edges), g.Pairwise (fun a b => a.u < b.u) := by
    intro g hg
    have hsub : g.Sublist (sortEdges edges) := by rw [← hfl]; exact List.sublist_flatten_of_mem hg
    have h1 := (hsorted.and hd').sublist hsub
    refine h1.imp_of_mem ?_
    intro a b ha hb hab
    have hv := hc g hg a ha b hb
    obtain ⟨h1, h2⟩ := hab
    unfold pkey at h1
    rw [Prod.Lex.toLex_le_toLex] at h1
    simp at h1
    have : a.u ≠ b.u := fun hh => h2 ⟨hh, hv⟩
    omega
  rw [List.mem_flatMap]
  constructor
  · rintro ⟨g, hg, hx⟩
    obtain ⟨l1, e, l2, rfl, f, hf, rfl⟩ := (mem_pairsFrom g [] x).1 hx
    rw [List.nil_append] at hf
    refine ⟨e, hall _ hg e (by simp), f, hall _ hg f (by simp [hf]), hc _ hg e (by simp) f (by simp [hf]), ?_, rfl⟩
    have := hstrict _ hg
    rw [List.pairwise_append] at this
    exact this.2.2 f hf e (by simp)
  · rintro ⟨e, he, f, hf, hv, hu, rfl⟩
    have he' : e ∈ (teams [] (sortEdges edges)).flatten := by rw [hfl]; exact hp.mem_iff.2 he
    have hf' : f ∈ (teams [] (sortEdges edges)).flatten := by rw [hfl]; exact hp.mem_iff.2 hf
    obtain ⟨g, hg, heg⟩ := List.mem_flatten.1 he'
    obtain ⟨g', hg', hfg⟩ := List.mem_flatten.1 hf'
    have hgg : g = g' := by
      by_contra hne
      have hs := runs_sorted (fun e : Edge => e.v) _ [] (by simp) (sortEdges_sorted_v edges)
      have hne' : (teams [] (sortEdges edges)).Pairwise (fun g h => ∀ x ∈ g, ∀ y ∈ h, x.v ≠ y.v) :=
        hs.imp fun h x hx y hy => (h x hx y hy).ne
      have : Std.Symm (fun g h : List Edge => ∀ x ∈ g, ∀ y ∈ h, x.v ≠ y.v) := ⟨fun a b h x hx y hy => (h y hy x hx).symm⟩
      exact hne'.forall hg hg' hne e heg f hfg hv
    subst hgg
    refine ⟨g, hg, (mem_pairsFrom g [] _).2 ?_⟩
    obtain ⟨l1, l2, rfl⟩ := List.append_of_mem heg
    refine ⟨l1, e, l2, rfl, f, ?_, rfl⟩
    rw [List.nil_append]
    rcases List.mem_append.1 hfg with h | h
    · exact h
    · exfalso
      rcases List.mem_cons.1 h with rfl | h
      · omega
      · have := hstrict _ hg
        rw [List.pairwise_append] at this
        have := (List.pairwise_cons.1 this.2.1).1 f h
        omega

end NC
