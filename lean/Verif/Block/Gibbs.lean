import Verif.Block.Metropolis
import Verif.Missing.Gibbs

/-! # The Gibbs sampler, for a general pair term -/

set_option linter.unusedSimpArgs false

namespace BK

open GP hiding St
open RG LS Finset

variable {net : Net} {K : Kern} {F : Int → Int → ℝ} {D : ℕ → ℝ} {c : ℝ}

/-- Energy change of moving `v` to group `g`. -/
noncomputable def δ (F : Int → Int → ℝ) (D : ℕ → ℝ) (net : Net) (linC : ℝ) (f : ℕ → Option ℕ) (v g : ℕ) : ℝ :=
  energy F D net linC (Function.update f v (some g)) - energy F D net linC f

theorem δ_self {linC : ℝ} {f : ℕ → Option ℕ} {v g : ℕ} (h : f v = some g) : δ F D net linC f v g = 0 := by
  unfold δ
  rw [← h, Function.update_eq_self, sub_self]

section
variable {p : Part} {G2G : ℕ → ℕ → Int} {slg : List ℕ} {v old : ℕ}
variable (hK : Computes K net.n F D) (C : Ctx net p G2G slg v old)
include hK C

theorem dest_eq (linC : ℝ) : ∀ (l : List ℕ) (sc : GScan), (∀ g ∈ l, g < net.n) → ∃ sc',
    l.foldlM (gibbsDest K net linC p G2G slg v old) sc = some sc' ∧
    (∀ g, sc'.dH g = if g ∈ l then some (δ F D net linC p.inGroup v g) else sc.dH g) ∧
    sc'.norm = sc.norm + (l.map fun g => Real.exp (-δ F D net linC p.inGroup v g)).sum ∧
    ((C.IsSet sc ∨ ∃ g ∈ l, g ≠ old) → C.IsSet sc') ∧ ((∀ g ∈ l, g = old) → sc'.regs = sc.regs)
  | [], sc, _ => ⟨sc, rfl, by simp, by simp, by simp, by simp⟩
  | x :: l, sc, hl => by
    have hx := hl x (by simp)
    have main : ∃ s1, gibbsDest K net linC p G2G slg v old sc x = some s1 ∧
        s1.dH = Function.update sc.dH x (some (δ F D net linC p.inGroup v x)) ∧
        s1.norm = sc.norm + Real.exp (-δ F D net linC p.inGroup v x) ∧
        ((C.IsSet sc ∨ x ≠ old) → C.IsSet s1) ∧ (x = old → s1.regs = sc.regs) := by
      unfold gibbsDest
      by_cases e : x = old
      · rw [if_pos e]
        subst e
        rw [δ_self C.src]
        refine ⟨_, rfl, rfl, rfl, ?_, fun _ => rfl⟩
        rintro (h | h)
        · exact h
        · exact absurd rfl h
      · rw [if_neg e]
        obtain ⟨s, h1, h2, h3, h4⟩ := deltaH_full hK (C.mv hx e) linC (n2g := sc.n2g) C.counts C.nodup C.lt C.all
        rw [h1]
        simp only [Option.bind_eq_bind, Option.bind_some]
        refine ⟨_, rfl, ?_, ?_, ?_, fun h => absurd h e⟩
        · simp only [h2]; rfl
        · simp only [h2]; rfl
        · intro _
          refine ⟨?_, ?_⟩
          · unfold Ctx.R; simp only [h4]
          · intro g hg
            simp only [h3, hg, if_true]
    obtain ⟨s1, e1, a1, a2, a3, a4⟩ := main
    obtain ⟨s', e2, b1, b2, b3, b4⟩ := dest_eq linC l s1 (fun g hg => hl g (by simp [hg]))
    refine ⟨s', ?_, ?_, ?_, ?_, ?_⟩
    · rw [List.foldlM_cons, e1]; exact e2
    · intro g
      rw [b1, a1]
      by_cases hgl : g ∈ l
      · simp [hgl]
      · by_cases hgx : g = x
        · subst hgx; simp
        · simp [hgl, hgx]
    · rw [b2, a2]; simp; ring
    · rintro (h | ⟨g, hg, hne⟩)
      · exact b3 (Or.inl (a3 (Or.inl h)))
      · rcases List.mem_cons.1 hg with rfl | hg
        · exact b3 (Or.inl (a3 (Or.inr hne)))
        · exact b3 (Or.inr ⟨g, hg, hne⟩)
    · intro h
      rw [b4 (fun g hg => h g (by simp [hg])), a4 (h x (by simp))]

/-- Towards an empty group. -/
theorem empty_eq (linC : ℝ) {n2g : ℕ → Int} (hn : ∀ g ∈ slg, n2g g = d net p.inGroup v g) {e : ℕ} (he : e < net.n)
    (hb : block net p.inGroup e = ∅) :
    emptyDH K net.n linC p G2G slg old n2g (some C.R) = some (δ F D net linC p.inGroup v e) := by
  have hne : e ≠ old := by
    rintro rfl
    have := C.v_mem
    rw [hb] at this
    simp at this
  have H := C.mv he hne
  have hsz : (p.grp e).size = 0 := by rw [size_eq C.part he, hb]; simp
  have hl0 : ∀ g, links net p.inGroup e g = 0 := by
    intro g
    unfold links
    rw [hb]; simp
  have hterm : ∀ g ∈ slg, emptyTerm K p G2G old C.R n2g g =
      some (share F net p.inGroup (Function.update p.inGroup v (some e)) old e g) := by
    intro g hg
    have hgn := C.lt g hg
    unfold emptyTerm
    by_cases h0 : 0 < (p.grp g).size
    · rw [if_pos h0, ← groupDH_eq hK H C.counts hgn]
      unfold groupDH
      have hge : g ≠ e := by rintro rfl; omega
      have h1 : NLinksToGroup net p v e = 0 := by rw [nlinks_eq C.simple, hb]; simp
      have h2 : NG2GLinks net p e old = 0 := by rw [ng2g_eq C.part C.simple he hne, hl0]
      have h3 : G2G e g = 0 := by rw [C.counts e he g hgn, hl0]
      have h4 : n2g g = NLinksToGroup net p v g := by rw [hn g hg, nlinks_eq C.simple]; rfl
      unfold Ctx.R
      simp only [hsz, h1, h2, h3, h4, if_neg hge]
    · rw [if_neg h0]
      have hpos := size_pos C.part hgn
      rw [share_empty hK H (not_nonempty_iff_eq_empty.1 (fun hh => h0 (hpos.2 hh)))]
  have hcorr : emptyCorrection K net.n C.R = correction K net.n p old e (used net p.inGroup).card := by
    unfold emptyCorrection correction Ctx.R
    by_cases h1 : (p.grp old).size = 1
    · simp [h1, hsz]
    · simp [h1, hsz]
  unfold emptyDH
  simp only [Option.bind_eq_bind, Option.bind_some]
  rw [hcorr, correction_eq hK H, foldlM_sum _ (share F net p.inGroup (Function.update p.inGroup v (some e)) old e)]
  · simp only [Option.bind_some, Option.pure_def]
    congr 1
    have := total hK H linC C.nodup C.lt C.all
    unfold δ
    rw [← this, if_pos hsz]
    rfl
  · intro g hg s
    rw [hterm g hg]
    rfl

/-- Without empty groups every node is alone and the change towards an empty group is still
defined. -/
theorem empty_defined (linC : ℝ) {n2g : ℕ → Int} (hn : ∀ g ∈ slg, n2g g = d net p.inGroup v g)
    (hb : ∀ g < net.n, (block net p.inGroup g).Nonempty) :
    ∃ x, emptyDH K net.n linC p G2G slg old n2g (some C.R) = some x := by
  have hsum : ∑ g ∈ range net.n, (block net p.inGroup g).card = net.n := by
    rw [← card_biUnion]
    · have : (range net.n).biUnion (fun g => block net p.inGroup g) = range net.n := by
        ext u
        simp only [mem_biUnion, mem_range, mem_block]
        constructor
        · rintro ⟨g, _, h, _⟩; exact h
        · intro hu
          obtain ⟨g, hg⟩ := Option.ne_none_iff_exists'.1 (C.full u hu)
          exact ⟨g, (C.part.range u g hg).2, hu, hg⟩
      rw [this, card_range]
    · intro a _ b _ hab
      rw [Function.onFun, disjoint_left]
      intro u h1 h2
      rw [mem_block] at h1 h2
      exact hab (Option.some.inj (h1.2.symm.trans h2.2))
  have hone : ∀ g < net.n, (block net p.inGroup g).card = 1 := by
    have h1 : ∀ g ∈ range net.n, 1 ≤ (block net p.inGroup g).card := fun g hg => card_pos.2 (hb g (mem_range.1 hg))
    have h2 : ∑ g ∈ range net.n, 1 = ∑ g ∈ range net.n, (block net p.inGroup g).card := by rw [hsum]; simp
    intro g hg
    exact ((sum_eq_sum_iff_of_le h1).1 h2 g (mem_range.2 hg)).symm
  have hs : ∀ g < net.n, (p.grp g).size = 1 := fun g hg => by rw [size_eq C.part hg, hone g hg]; rfl
  have hbo : block net p.inGroup old = {v} := by
    obtain ⟨w, hw⟩ := card_eq_one.1 (hone old C.ho)
    have := C.v_mem
    rw [hw, mem_singleton] at this
    rw [hw, this]
  have hoo : links net p.inGroup old old = 0 := by
    unfold links
    rw [hbo]; simp [a_self C.simple]
  have hdo : NLinksToGroup net p v old = 0 := by
    rw [nlinks_eq C.simple, hbo]; simp [a_self C.simple]
  have hlt : ∀ r l : Int, 0 ≤ l → l ≤ r → 2 * r ≤ net.n * ((net.n : Int) - 1) → ∃ y, K.term r l = some y :=
    fun r l h1 h2 h3 => ⟨_, hK.term r l h1 h2 h3⟩
  have hterm : ∀ g ∈ slg, ∃ y, emptyTerm K p G2G old C.R n2g g = some y := by
    intro g hg
    have hgn := C.lt g hg
    unfold emptyTerm Ctx.R
    rw [if_pos (by rw [hs g hgn]; decide)]
    simp only [hs old C.ho, hs g hgn, hdo, inlinks_eq C.part C.simple C.ho, hoo]
    obtain ⟨y1, h1⟩ := hlt 0 0 (by decide) (by decide) (by
      have := C.ho
      exact mul_nonneg (by omega) (by omega))
    by_cases e : g = old
    · rw [if_pos e]
      norm_num [h1]
    · rw [if_neg e]
      have hd : links net p.inGroup old g = d net p.inGroup v g := by
        rw [links_ne (Ne.symm e)]
        unfold B d
        rw [hbo]; simp
      have h3 := links_nonneg (net := net) (f := p.inGroup) old g
      have h4 := links_le (f := p.inGroup) C.simple old g
      unfold pairs at h4
      rw [if_neg (Ne.symm e), hone old C.ho, hone g hgn] at h4
      obtain ⟨y2, h2⟩ := hlt 1 (d net p.inGroup v g) (by rw [← hd]; exact h3) (by rw [← hd]; simpa using h4) (by
        have h5 := C.ho
        have h6 : (2 : Int) ≤ net.n := by omega
        nlinarith)
      rw [C.counts old C.ho g hgn, hn g hg, hd]
      norm_num [h1, h2]
  have hfold : ∀ (l : List ℕ) (x : ℝ), (∀ g ∈ l, g ∈ slg) → ∃ y, l.foldlM (fun x g => do
      let y ← emptyTerm K p G2G old C.R n2g g
      some (x + y)) x = some y := by
    intro l
    induction l with
    | nil => intro x _; exact ⟨x, rfl⟩
    | cons g l ih =>
      intro x h
      obtain ⟨y, hy⟩ := hterm g (h g (by simp))
      rw [List.foldlM_cons, hy]
      exact ih _ (fun g hg => h g (by simp [hg]))
  unfold emptyDH
  simp only [Option.bind_eq_bind, Option.bind_some]
  obtain ⟨y, hy⟩ := hfold slg ((if C.R.noldg = 1 then -linC else 0) + linC) (fun g hg => hg)
  simp only [Option.bind_eq_bind] at hy
  rw [hy]
  unfold emptyCorrection
  have : C.R.noldg = 1 := hs old C.ho
  simp [this]

/-- The choice of the destination. -/
theorem choose_spec (linC : ℝ) {sc : GScan} (hset : C.IsSet sc)
    (hdH : ∀ g ∈ slg, sc.dH g = some (δ F D net linC p.inGroup v g))
    (hnorm : sc.norm = (slg.map fun g => Real.exp (-δ F D net linC p.inGroup v g)).sum) {e : ℝ}
    (he : emptyDH K net.n linC p G2G slg old sc.n2g sc.regs = some e) {u : ℚ} (h0 : 0 ≤ u) (h1 : u < 1) :
    (∀ r, gibbsChoose net.n p slg sc e (sc.norm + Real.exp (-e) * ((net.n : ℝ) - slg.length)) u = some r →
      r.1 < net.n ∧ r.2 = δ F D net linC p.inGroup v r.1) ∧
    (0 < u → (gibbsChoose net.n p slg sc e (sc.norm + Real.exp (-e) * ((net.n : ℝ) - slg.length)) u).isSome) ∧
    (u = 0 → gibbsChoose net.n p slg sc e (sc.norm + Real.exp (-e) * ((net.n : ℝ) - slg.length)) u = none) := by
  have hlen : slg.length ≤ net.n := by
    have h2 : slg.toFinset ⊆ range net.n := fun g hg => mem_range.2 (C.lt g (List.mem_toFinset.1 hg))
    have := card_le_card h2
    rwa [List.toFinset_card_of_nodup C.nodup, card_range] at this
  have hN : 0 < sc.norm := by
    rw [hnorm]
    have hmem := C.old_mem
    obtain ⟨a, b, rfl⟩ := List.append_of_mem hmem
    rw [List.map_append, List.sum_append, List.map_cons, List.sum_cons]
    have p1 : 0 ≤ (a.map fun g => Real.exp (-δ F D net linC p.inGroup v g)).sum :=
      List.sum_nonneg (by intro x hx; obtain ⟨g, _, rfl⟩ := List.mem_map.1 hx; exact (Real.exp_pos _).le)
    have p2 : 0 ≤ (b.map fun g => Real.exp (-δ F D net linC p.inGroup v g)).sum :=
      List.sum_nonneg (by intro x hx; obtain ⟨g, _, rfl⟩ := List.mem_map.1 hx; exact (Real.exp_pos _).le)
    have := Real.exp_pos (-δ F D net linC p.inGroup v old)
    linarith
  have hlenR : (slg.length : ℝ) ≤ net.n := by exact_mod_cast hlen
  have hE := Real.exp_pos (-e)
  have hu1 : (u : ℝ) < 1 := by exact_mod_cast h1
  have hu0 : (0 : ℝ) ≤ u := by exact_mod_cast h0
  set norm := sc.norm + Real.exp (-e) * ((net.n : ℝ) - slg.length) with hnm
  have hsub : norm - ((net.n : ℝ) - slg.length) * Real.exp (-e) = sc.norm := by rw [hnm]; ring
  have hnpos : 0 < norm := by
    rw [hnm]
    have : 0 ≤ Real.exp (-e) * ((net.n : ℝ) - slg.length) := mul_nonneg hE.le (by linarith)
    linarith
  unfold gibbsChoose
  rw [hsub]
  by_cases hb : norm * u > sc.norm
  · rw [if_pos hb]
    have hlt : slg.length < net.n := by
      by_contra hh
      have : slg.length = net.n := by omega
      have : norm = sc.norm := by rw [hnm, this]; ring
      rw [this] at hb
      nlinarith
    have hex : ∃ g < net.n, block net p.inGroup g = ∅ := by
      by_contra hh
      push Not at hh
      have h2 : range net.n ⊆ slg.toFinset := by
        intro g hg
        have hg := mem_range.1 hg
        exact List.mem_toFinset.2 (C.all g hg (hh g hg))
      have := card_le_card h2
      rw [List.toFinset_card_of_nodup C.nodup, card_range] at this
      omega
    have hsz : ∀ g < net.n, (p.grp g).size = 0 ↔ block net p.inGroup g = ∅ := by
      intro g hg
      rw [size_eq C.part hg]
      simp
    have hfound : (GetEmptyGroup net.n p).isSome := by
      obtain ⟨g, hg, hg'⟩ := hex
      unfold GetEmptyGroup
      rw [List.find?_isSome]
      exact ⟨g, List.mem_range.2 hg, by simpa using (hsz g hg).2 hg'⟩
    obtain ⟨g, hg⟩ := Option.isSome_iff_exists.1 hfound
    rw [hg]
    simp only [Option.bind_eq_bind, Option.bind_some, Option.pure_def]
    have hmem := List.mem_of_find?_eq_some hg
    have hp := List.find?_some hg
    have hgn := List.mem_range.1 hmem
    have hge : block net p.inGroup g = ∅ := (hsz g hgn).1 (by simpa using hp)
    refine ⟨?_, fun _ => rfl, ?_⟩
    · intro r hr
      cases hr
      refine ⟨hgn, ?_⟩
      have := empty_eq hK C linC hset.2 hgn hge
      rw [hset.1, this] at he
      exact (Option.some.inj he).symm
    · rintro rfl
      simp at hb
      linarith
  · rw [if_neg hb]
    have hw := Ctx.walk_spec (dH := sc.dH) (dice := norm * u) (F := δ F D net linC p.inGroup v) slg 0 none hdH
      (by rw [← hnorm]; linarith)
    refine ⟨?_, ?_, ?_⟩
    · intro r hr
      cases hg : walkSlg sc.dH (norm * u) slg 0 none with
      | none => rw [hg] at hr; simp at hr
      | some g =>
        rw [hg] at hr
        rcases hw.1 g hg with h2 | h2
        · rw [Option.bind_eq_bind, Option.bind_some, hdH g h2] at hr
          simp only [Option.bind_eq_bind, Option.bind_some, Option.pure_def, Option.some.injEq] at hr
          subst hr
          exact ⟨C.lt g h2, rfl⟩
        · exact absurd h2 (by simp)
    · intro hup
      have hup' : (0 : ℝ) < u := by exact_mod_cast hup
      have h3 := hw.2 (Or.inl (mul_pos hnpos hup'))
      obtain ⟨g, hg⟩ := Option.isSome_iff_exists.1 h3
      rw [hg]
      rcases hw.1 g hg with h2 | h2
      · rw [Option.bind_eq_bind, Option.bind_some, hdH g h2]
        rfl
      · exact absurd h2 (by simp)
    · rintro rfl
      have : walkSlg sc.dH (norm * ((0 : ℚ) : ℝ)) slg 0 none = none := by
        cases slg <;> simp [walkSlg]
      rw [this]
      rfl

end

/-- State inside a call: exact, all non-empty groups listed, at least two groups listed. -/
structure GInv (F : Int → Int → ℝ) (D : ℕ → ℝ) (net : Net) (linC c : ℝ) (s : GSt) : Prop where
  exact_ : Exact F D net linC c s.st
  listed : Listed net s.st
  two : 2 ≤ s.st.slg.length

theorem gibbsMove_holds (h : net.Simple) {linC : ℝ} {s : GSt} (hs : GInv F D net linC c s) {v old : ℕ}
    (hv : s.st.part.inGroup v = some old) {sc : GScan} (hn2g : ∀ g ∈ s.st.slg, sc.n2g g = d net s.st.part.inGroup v g)
    {new : ℕ} (hnew : new < net.n) {x : ℝ} (hx : x = δ F D net linC s.st.part.inGroup v new) (t : Tape) :
    (gibbsMove net s v old sc new x t).Holds fun s' => GInv F D net linC c s' ∧ s'.st.tape = t := by
  obtain ⟨hE, hL, h2⟩ := hs
  obtain ⟨hvn, ho⟩ := hE.part.range v old hv
  obtain ⟨_, hp', hi⟩ := move_ok h hE.part hnew hv
  have hf' := full_update hE.full hi
  have hold : old ∈ s.st.slg := hL.all old ho ⟨v, mem_block.2 ⟨hvn, hv⟩⟩
  have hsym : ∀ i < net.n, ∀ j < net.n, s.st.G2G i j = s.st.G2G j i := fun i hi j hj => by
    rw [hE.counts i hi j hj, hE.counts j hj i hi, links_symm h]
  unfold gibbsMove
  refine (addToShortlist_holds hnew hL.nodup hL.lt).bind ?_
  rintro slg ⟨k1, k2, k3, k4⟩
  refine ⟨⟨⟨hp', hf', ?_, ?_⟩, ⟨k1, k2, ?_⟩, ?_⟩, rfl⟩
  · intro g hg g' hg'
    dsimp only
    rw [hi]
    by_cases hne : new = old
    · subst hne
      rw [g2gFold_same _ ho _ _ hL.lt hsym g hg g' hg', hE.counts g hg g' hg', ← hv, Function.update_eq_self]
    · rw [g2gFold_eq hne ho hnew _ hL.nodup hL.lt hsym hg hg', links_move hvn hv hne h, hE.counts g hg g' hg']
      have hc : ∀ j < net.n, (if j ∈ s.st.slg then sc.n2g j else 0) = d net s.st.part.inGroup v j := by
        intro j hj
        split_ifs with hm
        · exact hn2g j hm
        · have he : block net s.st.part.inGroup j = ∅ :=
            not_nonempty_iff_eq_empty.1 fun hh => hm (hL.all j hj hh)
          simp [d, he]
      unfold change
      simp only [hc old ho, hc new hnew, hc g hg, hc g' hg']
  · dsimp only
    rw [hi, hx, hE.energy]
    unfold δ
    ring
  · intro g hg hgn
    dsimp only at hgn ⊢
    rw [hi] at hgn
    by_cases en : g = new
    · subst en; exact k3
    · apply k4
      apply hL.all g hg
      obtain ⟨u, hu⟩ := hgn
      rw [mem_block] at hu
      by_cases e : u = v
      · subst e
        rw [Function.update_self] at hu
        exact absurd (Option.some.inj hu.2).symm en
      · rw [Function.update_of_ne e] at hu
        exact ⟨u, mem_block.2 hu⟩
  · dsimp only
    have := (List.Nodup.subperm hL.nodup (fun g hg => k4 g hg)).length_le
    omega

/-- What happens at one node, up to the random number. -/
theorem gibbsNode_run (hK : Computes K net.n F D) (h : net.Simple) {linC : ℝ} {s : GSt} (hs : GInv F D net linC c s) {v : ℕ} (hv : v < net.n) :
    ∃ (old : ℕ) (sc : GScan) (e : ℝ), s.st.part.inGroup v = some old ∧
      (∀ g ∈ s.st.slg, sc.n2g g = d net s.st.part.inGroup v g) ∧
      (∀ t, gibbsNode K net linC (s.withTape t) v = (do
        let (u, t) ← draw t
        let (new, dH) ← Res.ofOption (gibbsChoose net.n s.st.part s.st.slg sc e
          (sc.norm + Real.exp (-e) * ((net.n : ℝ) - s.st.slg.length)) u)
        gibbsMove net s v old sc new dH t)) ∧
      ((∀ g ∈ s.st.slg, sc.dH g = some (δ F D net linC s.st.part.inGroup v g)) ∧
        sc.norm = (s.st.slg.map fun g => Real.exp (-δ F D net linC s.st.part.inGroup v g)).sum ∧
        ∀ g < net.n, block net s.st.part.inGroup g = ∅ → δ F D net linC s.st.part.inGroup v g = e) ∧
      ∀ u : ℚ, 0 ≤ u → u < 1 →
        (∀ r, gibbsChoose net.n s.st.part s.st.slg sc e (sc.norm + Real.exp (-e) * ((net.n : ℝ) - s.st.slg.length)) u
          = some r → r.1 < net.n ∧ r.2 = δ F D net linC s.st.part.inGroup v r.1) ∧
        (0 < u → (gibbsChoose net.n s.st.part s.st.slg sc e
          (sc.norm + Real.exp (-e) * ((net.n : ℝ) - s.st.slg.length)) u).isSome) ∧
        (u = 0 → gibbsChoose net.n s.st.part s.st.slg sc e
          (sc.norm + Real.exp (-e) * ((net.n : ℝ) - s.st.slg.length)) u = none) := by
  obtain ⟨hE, hL, h2⟩ := hs
  obtain ⟨old, hold⟩ := Option.ne_none_iff_exists'.1 (hE.full v hv)
  have C : Ctx net s.st.part s.st.G2G s.st.slg v old := ⟨h, hE.part, hE.full, hold, hE.counts, hL.nodup, hL.lt, hL.all⟩
  obtain ⟨sc, e1, a1, a2, a3, _⟩ := dest_eq hK C linC s.st.slg (GScan.mk s.st.n2g s.dH 0 s.regs) hL.lt
  have hset := a3 (Or.inr (exists_other hL.nodup h2 old))
  have hdef : ∃ e, emptyDH K net.n linC s.st.part s.st.G2G s.st.slg old sc.n2g sc.regs = some e := by
    rw [hset.1]
    by_cases hb : ∀ g < net.n, (block net s.st.part.inGroup g).Nonempty
    · exact empty_defined hK C linC hset.2 hb
    · push Not at hb
      obtain ⟨g, hg, hb⟩ := hb
      exact ⟨_, empty_eq hK C linC hset.2 hg hb⟩
  obtain ⟨e, he⟩ := hdef
  refine ⟨old, sc, e, hold, hset.2, ?_, ⟨fun g hg => by rw [a1, if_pos hg], by rw [a2]; simp,
    fun g hg hb => by
      have := empty_eq hK C linC hset.2 hg hb
      rw [hset.1, this] at he
      exact Option.some.inj he⟩, ?_⟩
  · intro t
    unfold gibbsNode
    dsimp only [GSt.withTape]
    rw [hold]
    dsimp only
    rw [e1]
    simp only [Res.ofOption_some, Res.bind_ok, he]
    rfl
  · intro u h0 h1
    exact choose_spec hK C linC hset (fun g hg => by rw [a1, if_pos hg]) (by rw [a2]; simp) he h0 h1

theorem gibbsNode_holds (hK : Computes K net.n F D) (h : net.Simple) {linC : ℝ} {s : GSt} (hs : GInv F D net linC c s) (ht : NZ s.st.tape) {v : ℕ}
    (hv : v < net.n) : (gibbsNode K net linC s v).Holds fun s' => GInv F D net linC c s' ∧ NZ s'.st.tape := by
  obtain ⟨old, sc, e, hold, hn2g, hrun, _, hc⟩ := gibbsNode_run hK h hs hv
  rw [← s.withTape_self, hrun]
  refine (draw_all ht).bind ?_
  rintro ⟨u, t⟩ ⟨⟨h0, h1⟩, ht'⟩
  dsimp only at *
  obtain ⟨c1, c2, _⟩ := hc u h0.le h1
  obtain ⟨r, hr⟩ := Option.isSome_iff_exists.1 (c2 h0)
  rw [hr]
  obtain ⟨k1, k2⟩ := c1 r hr
  obtain ⟨new, x⟩ := r
  simp only [Res.ofOption_some, Res.bind_ok] at *
  exact (gibbsMove_holds h hs hold hn2g k1 k2 t).mono fun s' hs' => ⟨hs'.1, hs'.2.symm ▸ ht'⟩

theorem gibbsNode_safe (hK : Computes K net.n F D) (h : net.Simple) {linC : ℝ} {s : GSt} (hs : GInv F D net linC c s) {v : ℕ}
    (hv : v < net.n) : Safe (GInv F D net linC c) (gibbsNode K net linC s v) := by
  obtain ⟨old, sc, e, hold, hn2g, hrun, _, hc⟩ := gibbsNode_run hK h hs hv
  rw [← s.withTape_self, hrun]
  refine (Safe.of_holds (draw_holds s.st.tape)).bind ?_
  rintro ⟨u, t⟩ ⟨h0, h1⟩
  dsimp only at *
  obtain ⟨c1, _, _⟩ := hc u h0 h1
  cases hr : gibbsChoose net.n s.st.part s.st.slg sc e (sc.norm + Real.exp (-e) * ((net.n : ℝ) - s.st.slg.length)) u with
  | none => trivial
  | some r =>
    obtain ⟨k1, k2⟩ := c1 r hr
    obtain ⟨new, x⟩ := r
    exact Safe.of_holds ((gibbsMove_holds h hs hold hn2g k1 k2 t).mono fun s' hs' => hs'.1)

theorem gibbsNodes_holds (hK : Computes K net.n F D) (h : net.Simple) {linC : ℝ} : ∀ (vs : List ℕ) (s : GSt), GInv F D net linC c s → NZ s.st.tape →
    (∀ v ∈ vs, v < net.n) → (gibbsNodes K net linC vs s).Holds fun s' => GInv F D net linC c s' ∧ NZ s'.st.tape
  | [], _, hs, ht, _ => ⟨hs, ht⟩
  | v :: vs, s, hs, ht, hv => by
    unfold gibbsNodes
    refine (gibbsNode_holds hK h hs ht (hv v (by simp))).bind ?_
    intro s' hs'
    exact gibbsNodes_holds hK h vs s' hs'.1 hs'.2 (fun v hv' => hv v (by simp [hv']))

theorem gibbsNodes_safe (hK : Computes K net.n F D) (h : net.Simple) {linC : ℝ} : ∀ (vs : List ℕ) (s : GSt), GInv F D net linC c s →
    (∀ v ∈ vs, v < net.n) → Safe (GInv F D net linC c) (gibbsNodes K net linC vs s)
  | [], _, hs, _ => hs
  | v :: vs, s, hs, hv => by
    unfold gibbsNodes
    refine (gibbsNode_safe hK h hs (hv v (by simp))).bind ?_
    intro s' hs'
    exact gibbsNodes_safe hK h vs s' hs' (fun v hv' => hv v (by simp [hv']))

theorem startList_mem {linC : ℝ} {s : St} (hs : Exact F D net linC c s) {g : ℕ} :
    g ∈ startList net s ↔ g < net.n ∧ (block net s.part.inGroup g).Nonempty := by
  unfold startList
  rw [List.mem_filter, List.mem_range]
  constructor
  · rintro ⟨h1, h2⟩; exact ⟨h1, (size_pos hs.part h1).1 (by simpa using h2)⟩
  · rintro ⟨h1, h2⟩; exact ⟨h1, by simpa using (size_pos hs.part h1).2 h2⟩

theorem startList_length {linC : ℝ} {s : St} (hs : Exact F D net linC c s) :
    (startList net s).length = (used net s.part.inGroup).card := by
  have hnd : (startList net s).Nodup := List.nodup_range.filter _
  rw [← List.toFinset_card_of_nodup hnd]
  congr 1
  ext g
  rw [List.mem_toFinset, startList_mem hs]
  simp [used]

theorem start_inv {linC : ℝ} {s : St} (hs : Exact F D net linC c s) (h2 : 2 ≤ (used net s.part.inGroup).card) :
    GInv F D net linC c (GSt.mk { s with slg := startList net s } (fun _ => none) none) := by
  refine ⟨⟨hs.part, hs.full, hs.counts, hs.energy⟩, ⟨List.nodup_range.filter _, ?_, ?_⟩, ?_⟩
  · intro g hg; exact ((startList_mem hs).1 hg).1
  · intro g hg hne; exact (startList_mem hs).2 ⟨hg, hne⟩
  · dsimp only; rw [startList_length hs]; exact h2

theorem step_holds (hK : Computes K net.n F D) (h : net.Simple) {linC : ℝ} {s : St} (hs : Exact F D net linC c s)
    (h2 : 2 ≤ (used net s.part.inGroup).card) (ht : NZ s.tape) :
    (GibbsLinkScoreStep K net linC s).Holds fun s' => Exact F D net linC c s' ∧ NZ s'.tape := by
  unfold GibbsLinkScoreStep
  refine (gibbsNodes_holds hK h (List.range net.n) _ (start_inv hs h2) ht (fun v hv => List.mem_range.1 hv)).bind ?_
  rintro g ⟨hg, ht'⟩
  exact ⟨hg.exact_, ht'⟩

theorem step_one_group (hK : Computes K net.n F D) (h : net.Simple) {linC : ℝ} {s : St} (hs : Exact F D net linC c s)
    (h1 : (used net s.part.inGroup).card = 1) : GibbsLinkScoreStep K net linC s = .ub := by
  have hlen := startList_length hs
  rw [h1] at hlen
  obtain ⟨g0, hg0⟩ := List.length_eq_one_iff.1 hlen
  have hg0n := ((startList_mem hs (g := g0)).1 (by rw [hg0]; simp)).1
  obtain ⟨m, hm⟩ : ∃ m, net.n = m + 1 := ⟨net.n - 1, by omega⟩
  unfold GibbsLinkScoreStep
  have h0 : 0 < net.n := by omega
  obtain ⟨old, hold⟩ := Option.ne_none_iff_exists'.1 (hs.full 0 h0)
  have C : Ctx net s.part s.G2G (startList net s) 0 old := ⟨h, hs.part, hs.full, hold, hs.counts, List.nodup_range.filter _,
    fun g hg => ((startList_mem hs).1 hg).1, fun g hg hne => (startList_mem hs).2 ⟨hg, hne⟩⟩
  have hall : ∀ g ∈ startList net s, g = old := by
    have := C.old_mem
    rw [hg0, List.mem_singleton] at this
    rw [hg0]; simp [this]
  obtain ⟨sc, e1, _, _, _, a4⟩ := dest_eq hK C linC (startList net s) (GScan.mk s.n2g (fun _ => none) 0 none) C.lt
  have hnode : gibbsNode K net linC (GSt.mk { s with slg := startList net s } (fun _ => none) none) 0 = .ub := by
    unfold gibbsNode
    dsimp only
    rw [hold]
    dsimp only
    rw [e1]
    simp only [Res.ofOption_some, Res.bind_ok, a4 hall]
    rfl
  rw [hm, List.range_succ_eq_map]
  unfold gibbsNodes
  have : (GSt.mk { s with slg := List.filter (fun g => decide (0 < (s.part.grp g).size)) (0 :: List.map Nat.succ (List.range m)) } (fun _ => none) none)
    = (GSt.mk { s with slg := startList net s } (fun _ => none) none) := by
    unfold startList
    rw [hm, List.range_succ_eq_map]
  rw [this, hnode]
  rfl

theorem step_zero_draw (hK : Computes K net.n F D) (h : net.Simple) {linC : ℝ} {s : St} (hs : Exact F D net linC c s)
    (h2 : 2 ≤ (used net s.part.inGroup).card) {t : Tape} (ht : s.tape = 0 :: t) :
    GibbsLinkScoreStep K net linC s = .ub := by
  have hn : 0 < net.n := by have := used_le net s.part.inGroup; omega
  obtain ⟨m, hm⟩ : ∃ m, net.n = m + 1 := ⟨net.n - 1, by omega⟩
  have hinv := start_inv hs h2
  obtain ⟨old, sc, e, hold, hn2g, hrun, _, hc⟩ := gibbsNode_run hK h hinv hn
  have hnode : gibbsNode K net linC (GSt.mk { s with slg := startList net s } (fun _ => none) none) 0 = .ub := by
    rw [← GSt.withTape_self (GSt.mk { s with slg := startList net s } (fun _ => none) none), hrun]
    dsimp only
    rw [ht]
    have hd : draw (0 :: t) = .ok (0, t) := by simp [draw]
    rw [hd]
    simp only [Res.bind_ok]
    have := (hc 0 (le_refl _) (by norm_num)).2.2 rfl
    dsimp only at this
    rw [this]
    rfl
  unfold GibbsLinkScoreStep
  change (gibbsNodes K net linC (List.range net.n) (GSt.mk { s with slg := startList net s } (fun _ => none) none) >>= _) = _
  rw [hm, List.range_succ_eq_map]
  unfold gibbsNodes
  rw [hnode]
  rfl

theorem step_safe (hK : Computes K net.n F D) (h : net.Simple) {linC : ℝ} {s : St} (hs : Exact F D net linC c s) :
    Safe (Exact F D net linC c) (GibbsLinkScoreStep K net linC s) := by
  rcases Nat.lt_or_ge (used net s.part.inGroup).card 2 with h2 | h2
  · by_cases h1 : (used net s.part.inGroup).card = 1
    · rw [step_one_group hK h hs h1]; trivial
    · have h0 : (used net s.part.inGroup).card = 0 := by omega
      have hn : net.n = 0 := by
        by_contra hn
        obtain ⟨g, hg⟩ := Option.ne_none_iff_exists'.1 (hs.full 0 (by omega))
        have : g ∈ used net s.part.inGroup :=
          mem_filter.2 ⟨mem_range.2 (hs.part.range 0 g hg).2, ⟨0, mem_block.2 ⟨by omega, hg⟩⟩⟩
        rw [card_eq_zero.1 h0] at this
        simp at this
      unfold GibbsLinkScoreStep
      rw [hn]
      exact ⟨hs.part, hs.full, hs.counts, hs.energy⟩
  · unfold GibbsLinkScoreStep
    refine (gibbsNodes_safe hK h (List.range net.n) _ (start_inv hs h2) (fun v hv => List.mem_range.1 hv)).bind ?_
    intro g hg
    exact hg.exact_

theorem gibbsSteps_safe (hK : Computes K net.n F D) (h : net.Simple) {linC : ℝ} : ∀ (k : ℕ) (s : St), Exact F D net linC c s →
    Safe (Exact F D net linC c) (gibbsSteps K net linC k s)
  | 0, _, hs => hs
  | k + 1, s, hs => by
    unfold gibbsSteps
    exact (step_safe hK h hs).bind fun s' hs' => gibbsSteps_safe hK h k s' hs'

end BK
