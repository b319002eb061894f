import Verif.Missing.GibbsModel
import Verif.Missing.Score

/-! # C33: the Gibbs sampler -/

set_option linter.unusedSimpArgs false

namespace LS

open GP RG Finset

variable {net : Net}

/-- Energy change of moving `v` to group `g`. -/
noncomputable def δ (net : Net) (linC : ℝ) (f : ℕ → Option ℕ) (v g : ℕ) : ℝ :=
  energy net linC (Function.update f v (some g)) - energy net linC f

theorem δ_self {linC : ℝ} {f : ℕ → Option ℕ} {v g : ℕ} (h : f v = some g) : δ net linC f v g = 0 := by
  unfold δ
  rw [← h, Function.update_eq_self, sub_self]

/-- What the sampler works with while it treats node `v`. -/
structure Ctx (net : Net) (p : Part) (G2G : ℕ → ℕ → Int) (slg : List ℕ) (v old : ℕ) : Prop where
  simple : net.Simple
  part : PartOK net net.n p
  full : Full net p
  src : p.inGroup v = some old
  counts : ∀ g < net.n, ∀ g' < net.n, G2G g g' = links net p.inGroup g g'
  nodup : slg.Nodup
  lt : ∀ g ∈ slg, g < net.n
  all : ∀ g < net.n, (block net p.inGroup g).Nonempty → g ∈ slg

namespace Ctx

variable {p : Part} {G2G : ℕ → ℕ → Int} {slg : List ℕ} {v old : ℕ} (C : Ctx net p G2G slg v old)
include C

theorem hv : v < net.n := (C.part.range v old C.src).1
theorem ho : old < net.n := (C.part.range v old C.src).2

theorem mv {new : ℕ} (hn : new < net.n) (hne : new ≠ old) : Mv net p v old new :=
  ⟨C.simple, C.part, C.full, C.src, hn, hne⟩

theorem v_mem : v ∈ block net p.inGroup old := mem_block.2 ⟨C.hv, C.src⟩

theorem old_mem : old ∈ slg := C.all old C.ho ⟨v, C.v_mem⟩

/-- The registers as they should be. -/
def R (_ : Ctx net p G2G slg v old) : Regs :=
  Regs.mk (p.grp old).size (NLinksToGroup net p v old) (p.grp old).inlinks (used net p.inGroup).card

/-- The variables assigned only for a destination other than `old` are right. -/
def IsSet (sc : GScan) : Prop :=
  sc.regs = some C.R ∧ ∀ g ∈ slg, sc.n2g g = d net p.inGroup v g

theorem dest_eq (linC : ℝ) : ∀ (l : List ℕ) (sc : GScan), (∀ g ∈ l, g < net.n) → ∃ sc',
    l.foldlM (gibbsDest net linC p G2G slg v old) sc = some sc' ∧
    (∀ g, sc'.dH g = if g ∈ l then some (δ net linC p.inGroup v g) else sc.dH g) ∧
    sc'.norm = sc.norm + (l.map fun g => Real.exp (-δ net linC p.inGroup v g)).sum ∧
    ((C.IsSet sc ∨ ∃ g ∈ l, g ≠ old) → C.IsSet sc') ∧ ((∀ g ∈ l, g = old) → sc'.regs = sc.regs)
  | [], sc, _ => ⟨sc, rfl, by simp, by simp, by simp, by simp⟩
  | x :: l, sc, hl => by
    have hx := hl x (by simp)
    have main : ∃ s1, gibbsDest net linC p G2G slg v old sc x = some s1 ∧
        s1.dH = Function.update sc.dH x (some (δ net linC p.inGroup v x)) ∧
        s1.norm = sc.norm + Real.exp (-δ net linC p.inGroup v x) ∧
        ((C.IsSet sc ∨ x ≠ old) → C.IsSet s1) ∧ (x = old → s1.regs = sc.regs) := by
      unfold gibbsDest
      by_cases e : x = old
      · rw [if_pos e]
        subst e
        rw [δ_self C.src]
        refine ⟨_, rfl, rfl, rfl, ?_, fun _ => rfl⟩
        rintro (h | h)
        · exact h
        · exact absurd rfl h
      · rw [if_neg e]
        obtain ⟨s, h1, h2, h3, h4⟩ := (C.mv hx e).deltaH_full linC (n2g := sc.n2g) C.counts C.nodup C.lt C.all
        rw [h1]
        simp only [Option.bind_eq_bind, Option.bind_some]
        refine ⟨_, rfl, ?_, ?_, ?_, fun h => absurd h e⟩
        · simp only [h2]; rfl
        · simp only [h2]; rfl
        · intro _
          refine ⟨?_, ?_⟩
          · unfold R; simp only [h4]
          · intro g hg
            simp only [h3, hg, if_true]
    obtain ⟨s1, e1, a1, a2, a3, a4⟩ := main
    obtain ⟨s', e2, b1, b2, b3, b4⟩ := dest_eq linC l s1 (fun g hg => hl g (by simp [hg]))
    refine ⟨s', ?_, ?_, ?_, ?_, ?_⟩
    · rw [List.foldlM_cons, e1]; exact e2
    · intro g
      rw [b1, a1]
      by_cases hgl : g ∈ l
      · simp [hgl]
      · by_cases hgx : g = x
        · subst hgx; simp
        · simp [hgl, hgx]
    · rw [b2, a2]; simp; ring
    · rintro (h | ⟨g, hg, hne⟩)
      · exact b3 (Or.inl (a3 (Or.inl h)))
      · rcases List.mem_cons.1 hg with rfl | hg
        · exact b3 (Or.inl (a3 (Or.inr hne)))
        · exact b3 (Or.inr ⟨g, hg, hne⟩)
    · intro h
      rw [b4 (fun g hg => h g (by simp [hg])), a4 (h x (by simp))]

/-- Towards an empty group. -/
theorem empty_eq (linC : ℝ) {n2g : ℕ → Int} (hn : ∀ g ∈ slg, n2g g = d net p.inGroup v g) {e : ℕ} (he : e < net.n)
    (hb : block net p.inGroup e = ∅) :
    emptyDH net.n linC p G2G slg old n2g (some C.R) = some (δ net linC p.inGroup v e) := by
  have hne : e ≠ old := by
    rintro rfl
    have := C.v_mem
    rw [hb] at this
    simp at this
  have H := C.mv he hne
  have hsz : (p.grp e).size = 0 := by rw [size_eq C.part he, hb]; simp
  have hl0 : ∀ g, links net p.inGroup e g = 0 := by
    intro g
    unfold links
    rw [hb]; simp
  have hterm : ∀ g ∈ slg, emptyTerm p G2G old C.R n2g g =
      some (share net p.inGroup (Function.update p.inGroup v (some e)) old e g) := by
    intro g hg
    have hgn := C.lt g hg
    unfold emptyTerm
    by_cases h0 : 0 < (p.grp g).size
    · rw [if_pos h0, ← H.groupDH_eq C.counts hgn]
      unfold groupDH
      have hge : g ≠ e := by rintro rfl; omega
      have h1 : NLinksToGroup net p v e = 0 := by rw [nlinks_eq C.simple, hb]; simp
      have h2 : NG2GLinks net p e old = 0 := by rw [ng2g_eq C.part C.simple he hne, hl0]
      have h3 : G2G e g = 0 := by rw [C.counts e he g hgn, hl0]
      have h4 : n2g g = NLinksToGroup net p v g := by rw [hn g hg, nlinks_eq C.simple]; rfl
      unfold R
      simp only [hsz, h1, h2, h3, h4, if_neg hge]
    · rw [if_neg h0]
      have hpos := size_pos C.part hgn
      rw [H.share_empty (not_nonempty_iff_eq_empty.1 (fun hh => h0 (hpos.2 hh)))]
  have hcorr : emptyCorrection net.n C.R = correction net.n p old e (used net p.inGroup).card := by
    unfold emptyCorrection correction R
    by_cases h1 : (p.grp old).size = 1
    · simp [h1, hsz]
    · simp [h1, hsz]
  unfold emptyDH
  simp only [Option.bind_eq_bind, Option.bind_some]
  rw [hcorr, H.correction_eq, foldlM_sum _ (share net p.inGroup (Function.update p.inGroup v (some e)) old e)]
  · simp only [Option.bind_some, Option.pure_def]
    congr 1
    have := H.total linC C.nodup C.lt C.all
    unfold δ
    rw [← this, if_pos hsz]
    rfl
  · intro g hg s
    rw [hterm g hg]
    rfl

/-- Without empty groups every node is alone and the change towards an empty group is still
defined. -/
theorem empty_defined (linC : ℝ) {n2g : ℕ → Int} (hn : ∀ g ∈ slg, n2g g = d net p.inGroup v g)
    (hb : ∀ g < net.n, (block net p.inGroup g).Nonempty) :
    ∃ x, emptyDH net.n linC p G2G slg old n2g (some C.R) = some x := by
  have hsum : ∑ g ∈ range net.n, (block net p.inGroup g).card = net.n := by
    rw [← card_biUnion]
    · have : (range net.n).biUnion (fun g => block net p.inGroup g) = range net.n := by
        ext u
        simp only [mem_biUnion, mem_range, mem_block]
        constructor
        · rintro ⟨g, _, h, _⟩; exact h
        · intro hu
          obtain ⟨g, hg⟩ := Option.ne_none_iff_exists'.1 (C.full u hu)
          exact ⟨g, (C.part.range u g hg).2, hu, hg⟩
      rw [this, card_range]
    · intro a _ b _ hab
      rw [Function.onFun, disjoint_left]
      intro u h1 h2
      rw [mem_block] at h1 h2
      exact hab (Option.some.inj (h1.2.symm.trans h2.2))
  have hone : ∀ g < net.n, (block net p.inGroup g).card = 1 := by
    have h1 : ∀ g ∈ range net.n, 1 ≤ (block net p.inGroup g).card := fun g hg => card_pos.2 (hb g (mem_range.1 hg))
    have h2 : ∑ g ∈ range net.n, 1 = ∑ g ∈ range net.n, (block net p.inGroup g).card := by rw [hsum]; simp
    intro g hg
    exact ((sum_eq_sum_iff_of_le h1).1 h2 g (mem_range.2 hg)).symm
  have hs : ∀ g < net.n, (p.grp g).size = 1 := fun g hg => by rw [size_eq C.part hg, hone g hg]; rfl
  have hbo : block net p.inGroup old = {v} := by
    obtain ⟨w, hw⟩ := card_eq_one.1 (hone old C.ho)
    have := C.v_mem
    rw [hw, mem_singleton] at this
    rw [hw, this]
  have hoo : links net p.inGroup old old = 0 := by
    unfold links
    rw [hbo]; simp [a_self C.simple]
  have hdo : NLinksToGroup net p v old = 0 := by
    rw [nlinks_eq C.simple, hbo]; simp [a_self C.simple]
  have hlt : ∀ r l : Int, 0 ≤ l → l ≤ r → ∃ y, lterm r l = some y := by
    intro r l h1 h2
    unfold lterm
    rw [if_pos ⟨h1, h2⟩]
    exact ⟨_, rfl⟩
  have hterm : ∀ g ∈ slg, ∃ y, emptyTerm p G2G old C.R n2g g = some y := by
    intro g hg
    have hgn := C.lt g hg
    unfold emptyTerm R
    rw [if_pos (by rw [hs g hgn]; decide)]
    simp only [hs old C.ho, hs g hgn, hdo, inlinks_eq C.part C.simple C.ho, hoo]
    obtain ⟨y1, h1⟩ := hlt 0 0 (by decide) (by decide)
    by_cases e : g = old
    · rw [if_pos e]
      norm_num [h1]
    · rw [if_neg e]
      have hd : links net p.inGroup old g = d net p.inGroup v g := by
        rw [links_ne (Ne.symm e)]
        unfold B d
        rw [hbo]; simp
      have h3 := links_nonneg (net := net) (f := p.inGroup) old g
      have h4 := links_le (f := p.inGroup) C.simple old g
      unfold pairs at h4
      rw [if_neg (Ne.symm e), hone old C.ho, hone g hgn] at h4
      obtain ⟨y2, h2⟩ := hlt 1 (d net p.inGroup v g) (by rw [← hd]; exact h3) (by rw [← hd]; simpa using h4)
      rw [C.counts old C.ho g hgn, hn g hg, hd]
      norm_num [h1, h2]
  have hfold : ∀ (l : List ℕ) (x : ℝ), (∀ g ∈ l, g ∈ slg) → ∃ y, l.foldlM (fun x g => do
      let y ← emptyTerm p G2G old C.R n2g g
      some (x + y)) x = some y := by
    intro l
    induction l with
    | nil => intro x _; exact ⟨x, rfl⟩
    | cons g l ih =>
      intro x h
      obtain ⟨y, hy⟩ := hterm g (h g (by simp))
      rw [List.foldlM_cons, hy]
      exact ih _ (fun g hg => h g (by simp [hg]))
  unfold emptyDH
  simp only [Option.bind_eq_bind, Option.bind_some]
  obtain ⟨y, hy⟩ := hfold slg ((if C.R.noldg = 1 then -linC else 0) + linC) (fun g hg => hg)
  simp only [Option.bind_eq_bind] at hy
  rw [hy]
  unfold emptyCorrection
  have : C.R.noldg = 1 := hs old C.ho
  simp [this]

omit C in
theorem walk_spec {dH : ℕ → Option ℝ} {dice : ℝ} {F : ℕ → ℝ} : ∀ (l : List ℕ) (cum : ℝ) (last : Option ℕ),
    (∀ g ∈ l, dH g = some (F g)) → dice ≤ cum + (l.map fun g => Real.exp (-F g)).sum →
    (∀ g, walkSlg dH dice l cum last = some g → g ∈ l ∨ last = some g) ∧
    (cum < dice ∨ last.isSome → (walkSlg dH dice l cum last).isSome)
  | [], cum, last, _, hd => by
    have h1 : ¬ cum < dice := by simp at hd; linarith
    unfold walkSlg
    rw [if_neg h1]
    exact ⟨fun g hg => Or.inr hg, fun h => h.resolve_left h1⟩
  | x :: l, cum, last, hdH, hd => by
    unfold walkSlg
    by_cases h : cum < dice
    · rw [if_pos h, hdH x (by simp)]
      simp only [Option.bind_eq_bind, Option.bind_some]
      have ih := walk_spec (dH := dH) (dice := dice) (F := F) l (cum + Real.exp (-F x)) (some x)
        (fun g hg => hdH g (by simp [hg])) (by simp at hd; linarith)
      refine ⟨fun g hg => ?_, fun _ => ih.2 (Or.inr rfl)⟩
      rcases ih.1 g hg with h1 | h1
      · exact Or.inl (by simp [h1])
      · cases h1; exact Or.inl (by simp)
    · rw [if_neg h]
      exact ⟨fun g hg => Or.inr hg, fun h' => h'.resolve_left h⟩

/-- The choice of the destination. -/
theorem choose_spec (linC : ℝ) {sc : GScan} (hset : C.IsSet sc)
    (hdH : ∀ g ∈ slg, sc.dH g = some (δ net linC p.inGroup v g))
    (hnorm : sc.norm = (slg.map fun g => Real.exp (-δ net linC p.inGroup v g)).sum) {e : ℝ}
    (he : emptyDH net.n linC p G2G slg old sc.n2g sc.regs = some e) {u : ℚ} (h0 : 0 ≤ u) (h1 : u < 1) :
    (∀ r, gibbsChoose net.n p slg sc e (sc.norm + Real.exp (-e) * ((net.n : ℝ) - slg.length)) u = some r →
      r.1 < net.n ∧ r.2 = δ net linC p.inGroup v r.1) ∧
    (0 < u → (gibbsChoose net.n p slg sc e (sc.norm + Real.exp (-e) * ((net.n : ℝ) - slg.length)) u).isSome) ∧
    (u = 0 → gibbsChoose net.n p slg sc e (sc.norm + Real.exp (-e) * ((net.n : ℝ) - slg.length)) u = none) := by
  have hlen : slg.length ≤ net.n := by
    have h2 : slg.toFinset ⊆ range net.n := fun g hg => mem_range.2 (C.lt g (List.mem_toFinset.1 hg))
    have := card_le_card h2
    rwa [List.toFinset_card_of_nodup C.nodup, card_range] at this
  have hN : 0 < sc.norm := by
    rw [hnorm]
    have hmem := C.old_mem
    obtain ⟨a, b, rfl⟩ := List.append_of_mem hmem
    rw [List.map_append, List.sum_append, List.map_cons, List.sum_cons]
    have p1 : 0 ≤ (a.map fun g => Real.exp (-δ net linC p.inGroup v g)).sum :=
      List.sum_nonneg (by intro x hx; obtain ⟨g, _, rfl⟩ := List.mem_map.1 hx; exact (Real.exp_pos _).le)
    have p2 : 0 ≤ (b.map fun g => Real.exp (-δ net linC p.inGroup v g)).sum :=
      List.sum_nonneg (by intro x hx; obtain ⟨g, _, rfl⟩ := List.mem_map.1 hx; exact (Real.exp_pos _).le)
    have := Real.exp_pos (-δ net linC p.inGroup v old)
    linarith
  have hlenR : (slg.length : ℝ) ≤ net.n := by exact_mod_cast hlen
  have hE := Real.exp_pos (-e)
  have hu1 : (u : ℝ) < 1 := by exact_mod_cast h1
  have hu0 : (0 : ℝ) ≤ u := by exact_mod_cast h0
  set norm := sc.norm + Real.exp (-e) * ((net.n : ℝ) - slg.length) with hnm
  have hsub : norm - ((net.n : ℝ) - slg.length) * Real.exp (-e) = sc.norm := by rw [hnm]; ring
  have hnpos : 0 < norm := by
    rw [hnm]
    have : 0 ≤ Real.exp (-e) * ((net.n : ℝ) - slg.length) := mul_nonneg hE.le (by linarith)
    linarith
  unfold gibbsChoose
  rw [hsub]
  by_cases hb : norm * u > sc.norm
  · rw [if_pos hb]
    have hlt : slg.length < net.n := by
      by_contra hh
      have : slg.length = net.n := by omega
      have : norm = sc.norm := by rw [hnm, this]; ring
      rw [this] at hb
      nlinarith
    have hex : ∃ g < net.n, block net p.inGroup g = ∅ := by
      by_contra hh
      push Not at hh
      have h2 : range net.n ⊆ slg.toFinset := by
        intro g hg
        have hg := mem_range.1 hg
        exact List.mem_toFinset.2 (C.all g hg (hh g hg))
      have := card_le_card h2
      rw [List.toFinset_card_of_nodup C.nodup, card_range] at this
      omega
    have hsz : ∀ g < net.n, (p.grp g).size = 0 ↔ block net p.inGroup g = ∅ := by
      intro g hg
      rw [size_eq C.part hg]
      simp
    have hfound : (GetEmptyGroup net.n p).isSome := by
      obtain ⟨g, hg, hg'⟩ := hex
      unfold GetEmptyGroup
      rw [List.find?_isSome]
      exact ⟨g, List.mem_range.2 hg, by simpa using (hsz g hg).2 hg'⟩
    obtain ⟨g, hg⟩ := Option.isSome_iff_exists.1 hfound
    rw [hg]
    simp only [Option.bind_eq_bind, Option.bind_some, Option.pure_def]
    have hmem := List.mem_of_find?_eq_some hg
    have hp := List.find?_some hg
    have hgn := List.mem_range.1 hmem
    have hge : block net p.inGroup g = ∅ := (hsz g hgn).1 (by simpa using hp)
    refine ⟨?_, fun _ => rfl, ?_⟩
    · intro r hr
      cases hr
      refine ⟨hgn, ?_⟩
      have := C.empty_eq linC hset.2 hgn hge
      rw [hset.1, this] at he
      exact (Option.some.inj he).symm
    · rintro rfl
      simp at hb
      linarith
  · rw [if_neg hb]
    have hw := walk_spec (dH := sc.dH) (dice := norm * u) (F := δ net linC p.inGroup v) slg 0 none hdH
      (by rw [← hnorm]; linarith)
    refine ⟨?_, ?_, ?_⟩
    · intro r hr
      cases hg : walkSlg sc.dH (norm * u) slg 0 none with
      | none => rw [hg] at hr; simp at hr
      | some g =>
        rw [hg] at hr
        rcases hw.1 g hg with h2 | h2
        · rw [Option.bind_eq_bind, Option.bind_some, hdH g h2] at hr
          simp only [Option.bind_eq_bind, Option.bind_some, Option.pure_def, Option.some.injEq] at hr
          subst hr
          exact ⟨C.lt g h2, rfl⟩
        · exact absurd h2 (by simp)
    · intro hup
      have hup' : (0 : ℝ) < u := by exact_mod_cast hup
      have h3 := hw.2 (Or.inl (mul_pos hnpos hup'))
      obtain ⟨g, hg⟩ := Option.isSome_iff_exists.1 h3
      rw [hg]
      rcases hw.1 g hg with h2 | h2
      · rw [Option.bind_eq_bind, Option.bind_some, hdH g h2]
        rfl
      · exact absurd h2 (by simp)
    · rintro rfl
      have : walkSlg sc.dH (norm * ((0 : ℚ) : ℝ)) slg 0 none = none := by
        cases slg <;> simp [walkSlg]
      rw [this]
      rfl

end Ctx

/-! ## The update of the link counts along the shortlist -/

theorem g2gStep_same {old : ℕ} (c : ℕ → Int) {M : ℕ → ℕ → Int} {N i : ℕ} (hi : i < N) (ho : old < N)
    (hs : ∀ i < N, ∀ j < N, M i j = M j i) : ∀ g < N, ∀ g' < N, g2gStep old old c M i g g' = M g g' := by
  intro g hg g' hg'
  unfold g2gStep
  simp only [set2_apply]
  have e0 := hs i hi old ho
  by_cases a : g = i <;> by_cases b : g = old <;> by_cases a' : g' = i <;> by_cases b' : g' = old <;>
    simp [a, b, a', b', e0, eq_comm] <;> grind

theorem g2gFold_same {old : ℕ} (c : ℕ → Int) {N : ℕ} (ho : old < N) : ∀ (l : List ℕ) (M : ℕ → ℕ → Int),
    (∀ i ∈ l, i < N) → (∀ i < N, ∀ j < N, M i j = M j i) →
    ∀ g < N, ∀ g' < N, l.foldl (g2gStep old old c) M g g' = M g g'
  | [], _, _, _ => fun _ _ _ _ => rfl
  | x :: l, M, hl, hs => by
    intro g hg g' hg'
    have hx := g2gStep_same c (hl x (by simp)) ho hs
    rw [List.foldl_cons, g2gFold_same c ho l _ (fun i hi => hl i (by simp [hi]))
      (fun i hi j hj => by rw [hx i hi j hj, hx j hj i hi, hs i hi j hj]) g hg g' hg', hx g hg g' hg']

theorem g2gFold_apply {old new : ℕ} (hne : new ≠ old) (c : ℕ → Int) : ∀ (l : List ℕ) (M : ℕ → ℕ → Int), l.Nodup →
    (∀ i j, M i j = M j i) → ∀ g g',
    l.foldl (g2gStep old new c) M g g' = M g g' + change old new (fun j => if j ∈ l then c j else 0) g g'
  | [], M, _, _, g, g' => by simp [change]
  | x :: l, M, hnd, hs, g, g' => by
    rw [List.nodup_cons] at hnd
    have hx := g2gStep_apply hne c hs x
    rw [List.foldl_cons, g2gFold_apply hne c l _ hnd.2 (fun i j => by rw [hx, hx, hs, change_symm]), hx, add_assoc,
      ← change_add]
    congr 2
    funext j
    by_cases e : j = x
    · subst e; simp [hnd.1]
    · simp [e]

theorem g2gFold_congr {N old new : ℕ} (ho : old < N) (hn : new < N) (c : ℕ → Int) : ∀ (l : List ℕ)
    (M M' : ℕ → ℕ → Int), (∀ i ∈ l, i < N) → (∀ g < N, ∀ g' < N, M g g' = M' g g') →
    ∀ g < N, ∀ g' < N, l.foldl (g2gStep old new c) M g g' = l.foldl (g2gStep old new c) M' g g'
  | [], _, _, _, h => h
  | x :: l, M, M', hl, h => by
    rw [List.foldl_cons, List.foldl_cons]
    exact g2gFold_congr ho hn c l _ _ (fun i hi => hl i (by simp [hi]))
      (g2gStep_congr ho hn (hl x (by simp)) c h)

/-- The update along a list adds the change to every cell of the matrix. -/
theorem g2gFold_eq {N old new : ℕ} (hne : new ≠ old) (ho : old < N) (hn : new < N) (c : ℕ → Int) {l : List ℕ}
    (hnd : l.Nodup) (hl : ∀ i ∈ l, i < N) {M : ℕ → ℕ → Int} (hs : ∀ i < N, ∀ j < N, M i j = M j i)
    {g g' : ℕ} (hg : g < N) (hg' : g' < N) :
    l.foldl (g2gStep old new c) M g g' = M g g' + change old new (fun j => if j ∈ l then c j else 0) g g' := by
  have h1 := g2gFold_congr ho hn c l M (fun i j => if i < N ∧ j < N then M i j else 0) hl
    (fun i hi j hj => by simp [hi, hj]) g hg g' hg'
  rw [h1, g2gFold_apply hne c l _ hnd]
  · simp only [hg, hg', and_self, if_true]
  · intro i j
    by_cases hi : i < N <;> by_cases hj : j < N <;> simp [hi, hj]
    exact hs i hi j hj

/-! ## One node, one call -/

/-- State inside a call: exact, all non-empty groups listed, at least two groups listed. -/
structure GInv (net : Net) (linC : ℝ) (s : GSt) : Prop where
  exact_ : Exact net linC s.st
  listed : Listed net s.st
  two : 2 ≤ s.st.slg.length

theorem exists_other {l : List ℕ} (hnd : l.Nodup) (h2 : 2 ≤ l.length) (x : ℕ) : ∃ g ∈ l, g ≠ x := by
  by_contra hh
  push Not at hh
  have : l ⊆ [x] := fun g hg => by simp [hh g hg]
  have := (List.Nodup.subperm hnd this).length_le
  simp at this; omega

theorem gibbsMove_holds (h : net.Simple) {linC : ℝ} {s : GSt} (hs : GInv net linC s) {v old : ℕ}
    (hv : s.st.part.inGroup v = some old) {sc : GScan} (hn2g : ∀ g ∈ s.st.slg, sc.n2g g = d net s.st.part.inGroup v g)
    {new : ℕ} (hnew : new < net.n) {x : ℝ} (hx : x = δ net linC s.st.part.inGroup v new) (t : Tape) :
    (gibbsMove net s v old sc new x t).Holds fun s' => GInv net linC s' ∧ s'.st.tape = t := by
  obtain ⟨hE, hL, h2⟩ := hs
  obtain ⟨hvn, ho⟩ := hE.part.range v old hv
  obtain ⟨_, hp', hi⟩ := move_ok h hE.part hnew hv
  have hf' := full_update hE.full hi
  have hold : old ∈ s.st.slg := hL.all old ho ⟨v, mem_block.2 ⟨hvn, hv⟩⟩
  have hsym : ∀ i < net.n, ∀ j < net.n, s.st.G2G i j = s.st.G2G j i := fun i hi j hj => by
    rw [hE.counts i hi j hj, hE.counts j hj i hi, links_symm h]
  unfold gibbsMove
  refine (addToShortlist_holds hnew hL.nodup hL.lt).bind ?_
  rintro slg ⟨k1, k2, k3, k4⟩
  refine ⟨⟨⟨hp', hf', ?_, ?_⟩, ⟨k1, k2, ?_⟩, ?_⟩, rfl⟩
  · intro g hg g' hg'
    dsimp only
    rw [hi]
    by_cases hne : new = old
    · subst hne
      rw [g2gFold_same _ ho _ _ hL.lt hsym g hg g' hg', hE.counts g hg g' hg', ← hv, Function.update_eq_self]
    · rw [g2gFold_eq hne ho hnew _ hL.nodup hL.lt hsym hg hg', links_move hvn hv hne h, hE.counts g hg g' hg']
      have hc : ∀ j < net.n, (if j ∈ s.st.slg then sc.n2g j else 0) = d net s.st.part.inGroup v j := by
        intro j hj
        split_ifs with hm
        · exact hn2g j hm
        · have he : block net s.st.part.inGroup j = ∅ :=
            not_nonempty_iff_eq_empty.1 fun hh => hm (hL.all j hj hh)
          simp [d, he]
      unfold change
      simp only [hc old ho, hc new hnew, hc g hg, hc g' hg']
  · dsimp only
    have h1 := partitionH_eq h hE.part hE.full linC
    rw [hE.energy] at h1
    have h1 := Option.some.inj h1
    rw [partitionH_eq h hp' hf', hi, hx, h1]
    unfold δ
    congr 1; ring
  · intro g hg hgn
    dsimp only at hgn ⊢
    rw [hi] at hgn
    by_cases en : g = new
    · subst en; exact k3
    · apply k4
      apply hL.all g hg
      obtain ⟨u, hu⟩ := hgn
      rw [mem_block] at hu
      by_cases e : u = v
      · subst e
        rw [Function.update_self] at hu
        exact absurd (Option.some.inj hu.2).symm en
      · rw [Function.update_of_ne e] at hu
        exact ⟨u, mem_block.2 hu⟩
  · dsimp only
    have := (List.Nodup.subperm hL.nodup (fun g hg => k4 g hg)).length_le
    omega

/-- The same state with other random numbers to come. -/
def GSt.withTape (s : GSt) (t : Tape) : GSt := GSt.mk { s.st with tape := t } s.dH s.regs

theorem GSt.withTape_self (s : GSt) : s.withTape s.st.tape = s := rfl

/-- What happens at one node, up to the random number. -/
theorem gibbsNode_run (h : net.Simple) {linC : ℝ} {s : GSt} (hs : GInv net linC s) {v : ℕ} (hv : v < net.n) :
    ∃ (old : ℕ) (sc : GScan) (e : ℝ), s.st.part.inGroup v = some old ∧
      (∀ g ∈ s.st.slg, sc.n2g g = d net s.st.part.inGroup v g) ∧
      (∀ t, gibbsNode net linC (s.withTape t) v = (do
        let (u, t) ← draw t
        let (new, dH) ← Res.ofOption (gibbsChoose net.n s.st.part s.st.slg sc e
          (sc.norm + Real.exp (-e) * ((net.n : ℝ) - s.st.slg.length)) u)
        gibbsMove net s v old sc new dH t)) ∧
      ((∀ g ∈ s.st.slg, sc.dH g = some (δ net linC s.st.part.inGroup v g)) ∧
        sc.norm = (s.st.slg.map fun g => Real.exp (-δ net linC s.st.part.inGroup v g)).sum ∧
        ∀ g < net.n, block net s.st.part.inGroup g = ∅ → δ net linC s.st.part.inGroup v g = e) ∧
      ∀ u : ℚ, 0 ≤ u → u < 1 →
        (∀ r, gibbsChoose net.n s.st.part s.st.slg sc e (sc.norm + Real.exp (-e) * ((net.n : ℝ) - s.st.slg.length)) u
          = some r → r.1 < net.n ∧ r.2 = δ net linC s.st.part.inGroup v r.1) ∧
        (0 < u → (gibbsChoose net.n s.st.part s.st.slg sc e
          (sc.norm + Real.exp (-e) * ((net.n : ℝ) - s.st.slg.length)) u).isSome) ∧
        (u = 0 → gibbsChoose net.n s.st.part s.st.slg sc e
          (sc.norm + Real.exp (-e) * ((net.n : ℝ) - s.st.slg.length)) u = none) := by
  obtain ⟨hE, hL, h2⟩ := hs
  obtain ⟨old, hold⟩ := Option.ne_none_iff_exists'.1 (hE.full v hv)
  have C : Ctx net s.st.part s.st.G2G s.st.slg v old := ⟨h, hE.part, hE.full, hold, hE.counts, hL.nodup, hL.lt, hL.all⟩
  obtain ⟨sc, e1, a1, a2, a3, _⟩ := C.dest_eq linC s.st.slg (GScan.mk s.st.n2g s.dH 0 s.regs) hL.lt
  have hset := a3 (Or.inr (exists_other hL.nodup h2 old))
  have hdef : ∃ e, emptyDH net.n linC s.st.part s.st.G2G s.st.slg old sc.n2g sc.regs = some e := by
    rw [hset.1]
    by_cases hb : ∀ g < net.n, (block net s.st.part.inGroup g).Nonempty
    · exact C.empty_defined linC hset.2 hb
    · push Not at hb
      obtain ⟨g, hg, hb⟩ := hb
      exact ⟨_, C.empty_eq linC hset.2 hg hb⟩
  obtain ⟨e, he⟩ := hdef
  refine ⟨old, sc, e, hold, hset.2, ?_, ⟨fun g hg => by rw [a1, if_pos hg], by rw [a2]; simp,
    fun g hg hb => by
      have := C.empty_eq linC hset.2 hg hb
      rw [hset.1, this] at he
      exact Option.some.inj he⟩, ?_⟩
  · intro t
    unfold gibbsNode
    dsimp only [GSt.withTape]
    rw [hold]
    dsimp only
    rw [e1]
    simp only [Res.ofOption_some, Res.bind_ok, he]
    rfl
  · intro u h0 h1
    exact C.choose_spec linC hset (fun g hg => by rw [a1, if_pos hg]) (by rw [a2]; simp) he h0 h1

theorem gibbsNode_holds (h : net.Simple) {linC : ℝ} {s : GSt} (hs : GInv net linC s) (ht : NZ s.st.tape) {v : ℕ}
    (hv : v < net.n) : (gibbsNode net linC s v).Holds fun s' => GInv net linC s' ∧ NZ s'.st.tape := by
  obtain ⟨old, sc, e, hold, hn2g, hrun, _, hc⟩ := gibbsNode_run h hs hv
  rw [← s.withTape_self, hrun]
  refine (draw_all ht).bind ?_
  rintro ⟨u, t⟩ ⟨⟨h0, h1⟩, ht'⟩
  dsimp only at *
  obtain ⟨c1, c2, _⟩ := hc u h0.le h1
  obtain ⟨r, hr⟩ := Option.isSome_iff_exists.1 (c2 h0)
  rw [hr]
  obtain ⟨k1, k2⟩ := c1 r hr
  obtain ⟨new, x⟩ := r
  simp only [Res.ofOption_some, Res.bind_ok] at *
  exact (gibbsMove_holds h hs hold hn2g k1 k2 t).mono fun s' hs' => ⟨hs'.1, hs'.2.symm ▸ ht'⟩

/-- Partial correctness: `P` holds of the result if there is one. -/
def Safe {α : Type} (P : α → Prop) : Res α → Prop
  | .ok a => P a
  | _ => True

theorem Safe.bind {α β : Type} {P : α → Prop} {Q : β → Prop} {x : Res α} {f : α → Res β} (h : Safe P x)
    (hf : ∀ a, P a → Safe Q (f a)) : Safe Q (x >>= f) := by
  cases x with
  | ok a => exact hf a h
  | starved => exact trivial
  | ub => exact trivial

theorem Safe.of_holds {α : Type} {P : α → Prop} {x : Res α} (h : x.Holds P) : Safe P x := by
  cases x with
  | ok a => exact h
  | starved => exact trivial
  | ub => exact trivial

theorem gibbsNode_safe (h : net.Simple) {linC : ℝ} {s : GSt} (hs : GInv net linC s) {v : ℕ}
    (hv : v < net.n) : Safe (GInv net linC) (gibbsNode net linC s v) := by
  obtain ⟨old, sc, e, hold, hn2g, hrun, _, hc⟩ := gibbsNode_run h hs hv
  rw [← s.withTape_self, hrun]
  refine (Safe.of_holds (draw_holds s.st.tape)).bind ?_
  rintro ⟨u, t⟩ ⟨h0, h1⟩
  dsimp only at *
  obtain ⟨c1, _, _⟩ := hc u h0 h1
  cases hr : gibbsChoose net.n s.st.part s.st.slg sc e (sc.norm + Real.exp (-e) * ((net.n : ℝ) - s.st.slg.length)) u with
  | none => trivial
  | some r =>
    obtain ⟨k1, k2⟩ := c1 r hr
    obtain ⟨new, x⟩ := r
    exact Safe.of_holds ((gibbsMove_holds h hs hold hn2g k1 k2 t).mono fun s' hs' => hs'.1)

theorem gibbsNodes_holds (h : net.Simple) {linC : ℝ} : ∀ (vs : List ℕ) (s : GSt), GInv net linC s → NZ s.st.tape →
    (∀ v ∈ vs, v < net.n) → (gibbsNodes net linC vs s).Holds fun s' => GInv net linC s' ∧ NZ s'.st.tape
  | [], _, hs, ht, _ => ⟨hs, ht⟩
  | v :: vs, s, hs, ht, hv => by
    unfold gibbsNodes
    refine (gibbsNode_holds h hs ht (hv v (by simp))).bind ?_
    intro s' hs'
    exact gibbsNodes_holds h vs s' hs'.1 hs'.2 (fun v hv' => hv v (by simp [hv']))

theorem gibbsNodes_safe (h : net.Simple) {linC : ℝ} : ∀ (vs : List ℕ) (s : GSt), GInv net linC s →
    (∀ v ∈ vs, v < net.n) → Safe (GInv net linC) (gibbsNodes net linC vs s)
  | [], _, hs, _ => hs
  | v :: vs, s, hs, hv => by
    unfold gibbsNodes
    refine (gibbsNode_safe h hs (hv v (by simp))).bind ?_
    intro s' hs'
    exact gibbsNodes_safe h vs s' hs' (fun v hv' => hv v (by simp [hv']))

/-- The shortlist at the start of a call. -/
def startList (net : Net) (s : St) : List ℕ := (List.range net.n).filter fun g => 0 < (s.part.grp g).size

theorem startList_mem {linC : ℝ} {s : St} (hs : Exact net linC s) {g : ℕ} :
    g ∈ startList net s ↔ g < net.n ∧ (block net s.part.inGroup g).Nonempty := by
  unfold startList
  rw [List.mem_filter, List.mem_range]
  constructor
  · rintro ⟨h1, h2⟩; exact ⟨h1, (size_pos hs.part h1).1 (by simpa using h2)⟩
  · rintro ⟨h1, h2⟩; exact ⟨h1, by simpa using (size_pos hs.part h1).2 h2⟩

theorem startList_length {linC : ℝ} {s : St} (hs : Exact net linC s) :
    (startList net s).length = (used net s.part.inGroup).card := by
  have hnd : (startList net s).Nodup := List.nodup_range.filter _
  rw [← List.toFinset_card_of_nodup hnd]
  congr 1
  ext g
  rw [List.mem_toFinset, startList_mem hs]
  simp [used]

theorem start_inv {linC : ℝ} {s : St} (hs : Exact net linC s) (h2 : 2 ≤ (used net s.part.inGroup).card) :
    GInv net linC (GSt.mk { s with slg := startList net s } (fun _ => none) none) := by
  refine ⟨⟨hs.part, hs.full, hs.counts, hs.energy⟩, ⟨List.nodup_range.filter _, ?_, ?_⟩, ?_⟩
  · intro g hg; exact ((startList_mem hs).1 hg).1
  · intro g hg hne; exact (startList_mem hs).2 ⟨hg, hne⟩
  · dsimp only; rw [startList_length hs]; exact h2

/-- **C33 (partial)**: if at least two groups are non-empty at the start of the call and no random
number is exactly 0, the Gibbs sampler never reads an uninitialised variable or outside its arrays,
for all random streams, and whatever the scratch array contains; it ends with consistent groups, exact
link counts and the exact energy. Missing from the full property: the other states and random
numbers, for which it is false (`C33_one_group`, `C33_zero_draw`). -/
theorem C33_step_partial (h : net.Simple) {linC : ℝ} {s : St} (hs : Exact net linC s)
    (h2 : 2 ≤ (used net s.part.inGroup).card) (ht : NZ s.tape) :
    (GibbsLinkScoreStep net linC s).Holds fun s' => Exact net linC s' ∧ NZ s'.tape := by
  unfold GibbsLinkScoreStep
  refine (gibbsNodes_holds h (List.range net.n) _ (start_inv hs h2) ht (fun v hv => List.mem_range.1 hv)).bind ?_
  rintro g ⟨hg, ht'⟩
  exact ⟨hg.exact_, ht'⟩

/-- **C33, refutation**: when all nodes are in one group, the call reads uninitialised variables, for
every network and every random stream. -/
theorem C33_one_group (h : net.Simple) {linC : ℝ} {s : St} (hs : Exact net linC s)
    (h1 : (used net s.part.inGroup).card = 1) : GibbsLinkScoreStep net linC s = .ub := by
  have hlen := startList_length hs
  rw [h1] at hlen
  obtain ⟨g0, hg0⟩ := List.length_eq_one_iff.1 hlen
  have hg0n := ((startList_mem hs (g := g0)).1 (by rw [hg0]; simp)).1
  obtain ⟨m, hm⟩ : ∃ m, net.n = m + 1 := ⟨net.n - 1, by omega⟩
  unfold GibbsLinkScoreStep
  have h0 : 0 < net.n := by omega
  obtain ⟨old, hold⟩ := Option.ne_none_iff_exists'.1 (hs.full 0 h0)
  have C : Ctx net s.part s.G2G (startList net s) 0 old := ⟨h, hs.part, hs.full, hold, hs.counts, List.nodup_range.filter _,
    fun g hg => ((startList_mem hs).1 hg).1, fun g hg hne => (startList_mem hs).2 ⟨hg, hne⟩⟩
  have hall : ∀ g ∈ startList net s, g = old := by
    have := C.old_mem
    rw [hg0, List.mem_singleton] at this
    rw [hg0]; simp [this]
  obtain ⟨sc, e1, _, _, _, a4⟩ := C.dest_eq linC (startList net s) (GScan.mk s.n2g (fun _ => none) 0 none) C.lt
  have hnode : gibbsNode net linC (GSt.mk { s with slg := startList net s } (fun _ => none) none) 0 = .ub := by
    unfold gibbsNode
    dsimp only
    rw [hold]
    dsimp only
    rw [e1]
    simp only [Res.ofOption_some, Res.bind_ok, a4 hall]
    rfl
  rw [hm, List.range_succ_eq_map]
  unfold gibbsNodes
  have : (GSt.mk { s with slg := List.filter (fun g => decide (0 < (s.part.grp g).size)) (0 :: List.map Nat.succ (List.range m)) } (fun _ => none) none)
    = (GSt.mk { s with slg := startList net s } (fun _ => none) none) := by
    unfold startList
    rw [hm, List.range_succ_eq_map]
  rw [this, hnode]
  rfl

/-- **C33, refutation**: if the first random number is 0, which the generator can return, the call
reads `slg[-1]`, from every state with at least two groups. -/
theorem C33_zero_draw (h : net.Simple) {linC : ℝ} {s : St} (hs : Exact net linC s)
    (h2 : 2 ≤ (used net s.part.inGroup).card) {t : Tape} (ht : s.tape = 0 :: t) :
    GibbsLinkScoreStep net linC s = .ub := by
  have hn : 0 < net.n := by have := used_le net s.part.inGroup; omega
  obtain ⟨m, hm⟩ : ∃ m, net.n = m + 1 := ⟨net.n - 1, by omega⟩
  have hinv := start_inv hs h2
  obtain ⟨old, sc, e, hold, hn2g, hrun, _, hc⟩ := gibbsNode_run h hinv hn
  have hnode : gibbsNode net linC (GSt.mk { s with slg := startList net s } (fun _ => none) none) 0 = .ub := by
    rw [← GSt.withTape_self (GSt.mk { s with slg := startList net s } (fun _ => none) none), hrun]
    dsimp only
    rw [ht]
    have hd : draw (0 :: t) = .ok (0, t) := by simp [draw]
    rw [hd]
    simp only [Res.bind_ok]
    have := (hc 0 (le_refl _) (by norm_num)).2.2 rfl
    dsimp only at this
    rw [this]
    rfl
  unfold GibbsLinkScoreStep
  change (gibbsNodes net linC (List.range net.n) (GSt.mk { s with slg := startList net s } (fun _ => none) none) >>= _) = _
  rw [hm, List.range_succ_eq_map]
  unfold gibbsNodes
  rw [hnode]
  rfl

/-- Whatever the random numbers, a call that returns ends in an exact state. -/
theorem step_safe (h : net.Simple) {linC : ℝ} {s : St} (hs : Exact net linC s) :
    Safe (Exact net linC) (GibbsLinkScoreStep net linC s) := by
  rcases Nat.lt_or_ge (used net s.part.inGroup).card 2 with h2 | h2
  · by_cases h1 : (used net s.part.inGroup).card = 1
    · rw [C33_one_group h hs h1]; trivial
    · have h0 : (used net s.part.inGroup).card = 0 := by omega
      have hn : net.n = 0 := by
        by_contra hn
        obtain ⟨g, hg⟩ := Option.ne_none_iff_exists'.1 (hs.full 0 (by omega))
        have : g ∈ used net s.part.inGroup :=
          mem_filter.2 ⟨mem_range.2 (hs.part.range 0 g hg).2, ⟨0, mem_block.2 ⟨by omega, hg⟩⟩⟩
        rw [card_eq_zero.1 h0] at this
        simp at this
      unfold GibbsLinkScoreStep
      rw [hn]
      exact ⟨hs.part, hs.full, hs.counts, hs.energy⟩
  · unfold GibbsLinkScoreStep
    refine (gibbsNodes_safe h (List.range net.n) _ (start_inv hs h2) (fun v hv => List.mem_range.1 hv)).bind ?_
    intro g hg
    exact hg.exact_

/-! ## The scores -/

theorem gibbsSteps_safe (h : net.Simple) {linC : ℝ} : ∀ (k : ℕ) (s : St), Exact net linC s →
    Safe (Exact net linC) (gibbsSteps net linC k s)
  | 0, _, hs => hs
  | k + 1, s, hs => by
    unfold gibbsSteps
    exact (step_safe h hs).bind fun s' hs' => gibbsSteps_safe h k s' hs'

theorem sample_safe (h : net.Simple) {linC : ℝ} : ∀ (k : ℕ) (s : St) (M : ℕ → ℕ → ℚ) (tr : List St),
    Exact net linC s → (∀ s ∈ tr, Exact net linC s) →
    Safe (fun r => (∃ tr', r.2 = tr ++ tr' ∧ tr'.length = k ∧
      ∀ a < net.n, ∀ b < net.n, r.1 a b = M a b + (tr'.map fun s => if a = b then 0 else score net s.part.inGroup a b).sum)
      ∧ ∀ s ∈ r.2, Exact net linC s) (sample (GibbsLinkScoreStep net linC) net.n k s M tr)
  | 0, s, M, tr, _, htr => ⟨⟨[], by simp, rfl, by simp⟩, htr⟩
  | k + 1, s, M, tr, hs, htr => by
    unfold sample
    refine (step_safe h hs).bind ?_
    intro s' hs'
    have ih := sample_safe h k s' (accumulate net.n s'.part s'.G2G M) (tr ++ [s']) hs' (by
      intro x hx
      rcases List.mem_append.1 hx with h1 | h1
      · exact htr x h1
      · rw [List.mem_singleton] at h1; rw [h1]; exact hs')
    cases hr : sample (GibbsLinkScoreStep net linC) net.n k s' (accumulate net.n s'.part s'.G2G M) (tr ++ [s']) with
    | starved => trivial
    | ub => trivial
    | ok r =>
      rw [hr] at ih
      obtain ⟨⟨tr', e1, e2, e3⟩, e4⟩ := ih
      refine ⟨⟨s' :: tr', by rw [e1]; simp, by simp [e2], ?_⟩, e4⟩
      intro a ha b hb
      rw [e3 a ha b hb, accumulate_eq h hs'.part hs'.full hs'.counts _ ha hb]
      simp; ring

theorem own_groups (h : net.Simple) : ∀ k ≤ net.n,
    let p := (List.range k).foldl (fun p v => AddNodeToGroup net v v p) Part.empty
    PartOK net net.n p ∧ ∀ v, p.inGroup v = if v < k then some v else none
  | 0, _ => by
    refine ⟨empty_ok net net.n, ?_⟩
    intro v; simp [Part.empty]
  | k + 1, hk => by
    obtain ⟨h1, h2⟩ := own_groups h k (by omega)
    dsimp only at *
    rw [List.range_succ, List.foldl_append, List.foldl_cons, List.foldl_nil]
    refine ⟨add_ok h h1 (by omega) (by omega) (by rw [h2]; simp), ?_⟩
    intro v
    have hh : ∀ p, (AddNodeToGroup net k k p).inGroup = Function.update p.inGroup k (some k) := fun _ => rfl
    rw [hh]
    by_cases e : v = k
    · subst e; simp
    · rw [Function.update_of_ne e, h2]
      have : v < k ↔ v < k + 1 := by omega
      simp [this]

/-- **C31 for the Gibbs sampler**: whatever the random numbers, if `GibbsLinkScore` returns at all
(without undefined behaviour, see C33), the scores are the averages over the sampled partitions, with
no condition on uninitialised memory. -/
theorem C31_gibbs_scores (h : net.Simple) (linC : ℝ) {nIter : ℕ} (hI : 0 < nIter) (warm : ℕ) (scratch : ℕ → Int)
    (t : Tape) : Safe (fun r => ScoresOK net linC nIter r.1 r.2) (GibbsLinkScore net linC nIter warm scratch t) := by
  obtain ⟨hp, hi⟩ := own_groups h net.n (le_refl _)
  have hf : Full net ((List.range net.n).foldl (fun p v => AddNodeToGroup net v v p) Part.empty) := by
    intro v hv
    rw [hi, if_pos hv]; simp
  unfold GibbsLinkScore
  cases hsk : skip net.n t with
  | starved => trivial
  | ub => trivial
  | ok t' =>
    simp only [Res.bind_ok]
    rw [partitionH_eq h hp hf]
    simp only [Res.ofOption_some, Res.bind_ok]
    refine (gibbsSteps_safe h (linC := linC) warm _ ⟨hp, hf, fun i hi j hj => initG2G_eq h hp hi hj,
      partitionH_eq h hp hf linC⟩).bind ?_
    intro s hs
    refine (sample_safe h nIter s (fun _ _ => 0) [] hs (by simp)).bind ?_
    rintro ⟨M, tr⟩ ⟨⟨tr', e1, e2, e3⟩, e4⟩
    dsimp only at *
    rw [List.nil_append] at e1
    subst e1
    exact scores_ok h hI e2 e4 (fun a ha b hb => by rw [e3 a ha b hb, zero_add])

/-! ## A reachable failure -/

theorem walk_last {dH : ℕ → Option ℝ} {dice : ℝ} {F : ℕ → ℝ} {g : ℕ} : ∀ (l : List ℕ) (cum : ℝ) (last : Option ℕ),
    (∀ x ∈ l ++ [g], dH x = some (F x)) → cum + (l.map fun x => Real.exp (-F x)).sum < dice →
    dice ≤ cum + (l.map fun x => Real.exp (-F x)).sum + Real.exp (-F g) →
    walkSlg dH dice (l ++ [g]) cum last = some g
  | [], cum, last, hd, h1, h2 => by
    simp at h1 h2
    unfold walkSlg
    simp only [List.nil_append]
    rw [if_pos h1, hd g (by simp)]
    simp only [Option.bind_eq_bind, Option.bind_some]
    unfold walkSlg
    rw [if_neg (by linarith)]
  | x :: l, cum, last, hd, h1, h2 => by
    simp only [List.map_cons, List.sum_cons] at h1 h2
    have p1 : 0 ≤ (l.map fun g => Real.exp (-F g)).sum :=
      List.sum_nonneg (by intro x hx; obtain ⟨g, _, rfl⟩ := List.mem_map.1 hx; exact (Real.exp_pos _).le)
    have p2 := Real.exp_pos (-F x)
    rw [List.cons_append]
    unfold walkSlg
    rw [if_pos (by linarith), hd x (by simp)]
    simp only [Option.bind_eq_bind, Option.bind_some]
    exact walk_last l _ _ (fun y hy => hd y (by simp at hy ⊢; tauto)) (by linarith) (by linarith)

/-- With all groups on the shortlist, some random number sends the node to the last group of the
list. -/
theorem node_reach (h : net.Simple) {linC : ℝ} {s : GSt} (hs : GInv net linC s) {l : List ℕ} {g : ℕ}
    (hl : s.st.slg = l ++ [g]) (hlen : s.st.slg.length = net.n) {v : ℕ} (hv : v < net.n) :
    ∃ (u : ℚ) (s' : GSt), 0 < u ∧ u < 1 ∧ (∀ t, gibbsNode net linC (s.withTape (u :: t)) v = .ok (s'.withTape t)) ∧
      GInv net linC s' ∧ s'.st.slg = s.st.slg ∧
      s'.st.part.inGroup = Function.update s.st.part.inGroup v (some g) := by
  obtain ⟨old, sc, e, hold, hn2g, hrun, ⟨hdH, hnorm, _⟩, hc⟩ := gibbsNode_run h hs hv
  set F := δ net linC s.st.part.inGroup v
  have p1 : 0 ≤ (l.map fun g => Real.exp (-F g)).sum :=
    List.sum_nonneg (by intro x hx; obtain ⟨g, _, rfl⟩ := List.mem_map.1 hx; exact (Real.exp_pos _).le)
  have p2 := Real.exp_pos (-F g)
  have hN : sc.norm = (l.map fun g => Real.exp (-F g)).sum + Real.exp (-F g) := by
    rw [hnorm, hl]; simp
  have hNpos : 0 < sc.norm := by rw [hN]; linarith
  obtain ⟨u, hu1, hu2⟩ := exists_rat_btwn (show (l.map fun g => Real.exp (-F g)).sum / sc.norm < 1 by
    rw [div_lt_one hNpos, hN]; linarith)
  have hu0 : (0 : ℝ) < u := lt_of_le_of_lt (div_nonneg p1 hNpos.le) hu1
  have hup : 0 < u := by exact_mod_cast hu0
  have hult : u < 1 := by exact_mod_cast hu2
  rw [div_lt_iff₀ hNpos] at hu1
  have hg : g ∈ s.st.slg := by rw [hl]; simp
  have hgn := hs.listed.lt g hg
  have hch : gibbsChoose net.n s.st.part s.st.slg sc e
      (sc.norm + Real.exp (-e) * ((net.n : ℝ) - s.st.slg.length)) u = some (g, F g) := by
    unfold gibbsChoose
    rw [hlen]
    simp only [sub_self, mul_zero, zero_mul, add_zero, sub_zero]
    rw [if_neg (by nlinarith)]
    have := walk_last (dH := sc.dH) (dice := sc.norm * u) (F := F) (g := g) l 0 none
      (fun x hx => hdH x (by rw [hl]; exact hx)) (by linarith) (by nlinarith)
    rw [hl, this]
    simp only [Option.bind_eq_bind, Option.bind_some, hdH g hg, Option.pure_def]
  have hslg : addToShortlist net.n g s.st.slg = .ok s.st.slg := by unfold addToShortlist; rw [if_pos hg]
  obtain ⟨_, _, hi⟩ := move_ok h hs.exact_.part hgn hold
  have hmv := gibbsMove_holds h hs hold hn2g hgn (x := F g) rfl []
  cases hr : gibbsMove net s v old sc g (F g) [] with
  | starved => unfold gibbsMove at hr; rw [hslg] at hr; simp at hr
  | ub => unfold gibbsMove at hr; rw [hslg] at hr; simp at hr
  | ok s' =>
    rw [hr] at hmv
    refine ⟨u, s', hup, hult, ?_, hmv.1, ?_, ?_⟩
    · intro t
      rw [hrun]
      have hd : draw (u :: t) = .ok (u, t) := by simp [draw, hup.le, hult]
      rw [hd]
      simp only [Res.bind_ok, hch, Res.ofOption_some]
      unfold gibbsMove at hr ⊢
      rw [hslg] at hr ⊢
      simp only [Res.bind_ok, Res.pure_eq, Res.ok.injEq] at hr ⊢
      rw [← hr]
      rfl
    · unfold gibbsMove at hr
      rw [hslg] at hr
      simp only [Res.bind_ok, Res.pure_eq, Res.ok.injEq] at hr
      rw [← hr]
    · unfold gibbsMove at hr
      rw [hslg] at hr
      simp only [Res.bind_ok, Res.pure_eq, Res.ok.injEq] at hr
      rw [← hr]
      exact hi

theorem nodes_reach (h : net.Simple) {linC : ℝ} {l : List ℕ} {g : ℕ} : ∀ (vs : List ℕ) (s : GSt), GInv net linC s →
    s.st.slg = l ++ [g] → s.st.slg.length = net.n → (∀ v ∈ vs, v < net.n) →
    ∃ (us : Tape) (s' : GSt), (∀ u ∈ us, 0 < u ∧ u < 1) ∧
      (∀ t, gibbsNodes net linC vs (s.withTape (us ++ t)) = .ok (s'.withTape t)) ∧ GInv net linC s' ∧
      ∀ v, s'.st.part.inGroup v = if v ∈ vs then some g else s.st.part.inGroup v
  | [], s, hs, _, _, _ => ⟨[], s, by simp, fun _ => rfl, hs, by simp⟩
  | v :: vs, s, hs, hl, hlen, hv => by
    obtain ⟨u, s1, h0, h1, hr, hs1, hsl, hi⟩ := node_reach h hs hl hlen (hv v (by simp))
    obtain ⟨us, s2, k0, k1, k2, k3⟩ := nodes_reach h vs s1 hs1 (by rw [hsl, hl]) (by rw [hsl, hlen])
      (fun w hw => hv w (by simp [hw]))
    refine ⟨u :: us, s2, ?_, ?_, k2, ?_⟩
    · intro x hx
      rcases List.mem_cons.1 hx with rfl | hx
      · exact ⟨h0, h1⟩
      · exact k0 x hx
    · intro t
      unfold gibbsNodes
      rw [List.cons_append, hr]
      exact k1 t
    · intro w
      rw [k3, hi]
      by_cases hw : w ∈ vs
      · simp [hw]
      · by_cases e : w = v
        · subst e; simp
        · simp [hw, e]

theorem skip_replicate (t : Tape) : ∀ n, skip n (List.replicate n (1 / 2) ++ t) = .ok t
  | 0 => rfl
  | n + 1 => by
    unfold skip
    rw [List.replicate_succ, List.cons_append]
    have hd : draw ((1 / 2 : ℚ) :: (List.replicate n (1 / 2) ++ t)) = .ok (1 / 2, List.replicate n (1 / 2) ++ t) := by
      norm_num [draw]
    rw [hd]
    exact skip_replicate t n

/-- **C33, refutation (reachability)**: on *every* network with at least two nodes, some stream of
random numbers strictly between 0 and 1 brings `GibbsLinkScore` to read uninitialised variables (the
thermalisation makes at least 100 calls). -/
theorem C33_reachable (h : net.Simple) (h2 : 2 ≤ net.n) (linC : ℝ) (nIter : ℕ) {warm : ℕ} (hw : 2 ≤ warm)
    (scratch : ℕ → Int) : ∃ t : Tape, (∀ u ∈ t, 0 < u ∧ u < 1) ∧ GibbsLinkScore net linC nIter warm scratch t = .ub := by
  obtain ⟨hp, hi⟩ := own_groups h net.n (le_refl _)
  set p := (List.range net.n).foldl (fun p v => AddNodeToGroup net v v p) Part.empty with hpdef
  have hf : Full net p := by
    intro v hv
    rw [hi, if_pos hv]; simp
  have hE : ∀ t, Exact net linC (St.mk p (initG2G net p) scratch (energy net linC p.inGroup) [] t) := fun t =>
    ⟨hp, hf, fun i hi j hj => initG2G_eq h hp hi hj, partitionH_eq h hp hf linC⟩
  have hused : used net p.inGroup = range net.n := by
    ext g
    simp only [used, mem_filter, mem_range]
    constructor
    · exact fun h => h.1
    · intro hg
      exact ⟨hg, g, mem_block.2 ⟨hg, by rw [hi, if_pos hg]⟩⟩
  obtain ⟨m, hm⟩ : ∃ m, net.n = m + 1 := ⟨net.n - 1, by omega⟩
  have hstart : ∀ t, startList net (St.mk p (initG2G net p) scratch (energy net linC p.inGroup) [] t) = List.range net.n := by
    intro t
    have hlen := startList_length (hE t)
    unfold startList at hlen ⊢
    apply List.Sublist.eq_of_length List.filter_sublist
    rw [hlen]
    dsimp only
    rw [hused]; simp
  have hinv := start_inv (hE []) (by dsimp only; rw [hused]; simpa using h2)
  obtain ⟨us, s', k0, k1, k2, k3⟩ := nodes_reach h (List.range net.n) _ hinv (l := List.range m) (g := m)
    (by dsimp only; rw [hstart, hm, List.range_succ]) (by dsimp only; rw [hstart]; simp)
    (fun v hv => List.mem_range.1 hv)
  have hstep1 : ∀ t, GibbsLinkScoreStep net linC (St.mk p (initG2G net p) scratch (energy net linC p.inGroup) [] (us ++ t))
      = .ok (s'.withTape t).st := by
    intro t
    unfold GibbsLinkScoreStep
    have := k1 t
    change gibbsNodes net linC (List.range net.n) (GSt.mk (St.mk p (initG2G net p) scratch (energy net linC p.inGroup)
      (startList net (St.mk p (initG2G net p) scratch (energy net linC p.inGroup) [] [])) (us ++ t)) (fun _ => none) none) = _ at this
    change (gibbsNodes net linC (List.range net.n) (GSt.mk (St.mk p (initG2G net p) scratch (energy net linC p.inGroup)
      (startList net (St.mk p (initG2G net p) scratch (energy net linC p.inGroup) [] [])) (us ++ t)) (fun _ => none) none) >>= _) = _
    rw [this]
    rfl
  have hE' : Exact net linC (s'.withTape []).st := ⟨k2.exact_.part, k2.exact_.full, k2.exact_.counts, k2.exact_.energy⟩
  have hone : (used net (s'.withTape []).st.part.inGroup).card = 1 := by
    rw [card_eq_one]
    refine ⟨m, ?_⟩
    ext g
    simp only [used, mem_filter, mem_range, mem_singleton]
    have hin : ∀ v < net.n, s'.st.part.inGroup v = some m := fun v hv => by rw [k3, if_pos (List.mem_range.2 hv)]
    constructor
    · rintro ⟨_, v, hv⟩
      rw [mem_block] at hv
      have := hv.2
      change s'.st.part.inGroup v = some g at this
      rw [hin v hv.1] at this
      exact (Option.some.inj this).symm
    · rintro rfl
      exact ⟨by omega, 0, mem_block.2 ⟨by omega, hin 0 (by omega)⟩⟩
  have hstep2 := C33_one_group h hE' hone
  refine ⟨List.replicate net.n (1 / 2) ++ (us ++ []), ?_, ?_⟩
  · intro u hu
    rw [List.append_nil] at hu
    rcases List.mem_append.1 hu with hu | hu
    · rw [List.eq_of_mem_replicate hu]; norm_num
    · exact k0 u hu
  · unfold GibbsLinkScore
    rw [skip_replicate]
    simp only [Res.bind_ok]
    rw [← hpdef, partitionH_eq h hp hf]
    simp only [Res.ofOption_some, Res.bind_ok]
    obtain ⟨w, rfl⟩ : ∃ w, warm = w + 1 + 1 := ⟨warm - 2, by omega⟩
    unfold gibbsSteps
    rw [hstep1]
    simp only [Res.bind_ok]
    unfold gibbsSteps
    rw [hstep2]
    rfl

/-! ## Examples -/

/-- The three nodes of the example of C29, as a state for the Gibbs sampler: groups 0 and 1 are
non-empty, the scratch array holds garbage. -/
example : ∃ s : St, Exact three 0 s ∧ 2 ≤ (used three s.part.inGroup).card ∧ NZ s.tape ∧ s.tape ≠ [] ∧ s.n2g 2 ≠ 0 := by
  obtain ⟨h1, h2⟩ := three_ok
  refine ⟨St.mk threePart (initG2G three threePart) (fun _ => 7) (energy three 0 threePart.inGroup) [] [1 / 2, 1 / 3, 1 / 4],
    ⟨h1, h2, fun i hi j hj => initG2G_eq three_simple h1 hi hj, partitionH_eq three_simple h1 h2 0⟩, ?_, ?_, by simp, by simp⟩
  · have : used three threePart.inGroup = {0, 1} := by decide
    dsimp only
    rw [this]; decide
  · intro u hu
    simp at hu
    rcases hu with rfl | rfl | rfl <;> norm_num

/-- All three nodes in group 0: the call is undefined. -/
example : ∃ s : St, Exact three 0 s ∧ (used three s.part.inGroup).card = 1 := by
  let p := AddNodeToGroup three 0 2 (AddNodeToGroup three 0 1 (AddNodeToGroup three 0 0 Part.empty))
  have hp : PartOK three 3 p :=
    add_ok three_simple (add_ok three_simple (add_ok three_simple (empty_ok three 3) (by decide) (by decide) rfl)
      (by decide) (by decide) rfl) (by decide) (by decide) rfl
  have hf : Full three p := by
    intro v hv
    change v < 3 at hv
    interval_cases v <;> simp [p, AddNodeToGroup]
  refine ⟨St.mk p (initG2G three p) (fun _ => 7) (energy three 0 p.inGroup) [] [],
    ⟨hp, hf, fun i hi j hj => initG2G_eq three_simple hp hi hj, partitionH_eq three_simple hp hf 0⟩, ?_⟩
  decide

end LS
