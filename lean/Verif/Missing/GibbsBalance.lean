import Verif.Basic.HeatBath
import Verif.Missing.Gibbs
import Verif.Missing.Balance

/-!
# C176: the heat-bath sampler of missing links has the Boltzmann distribution

The terms `heat`, `heatBlocks`, `listed` are those of `Verif.Basic.HeatBath`; the energy `E` is that of
`Verif.Missing.Balance`.
-/

namespace LS

open GP hiding St
open RG Finset MH

variable {net : Net}

theorem sum_exp_nonneg (F : ℕ → ℝ) (l : List ℕ) : 0 ≤ (l.map fun x => Real.exp (-F x)).sum :=
  List.sum_nonneg (by intro x hx; obtain ⟨g, _, rfl⟩ := List.mem_map.1 hx; exact (Real.exp_pos _).le)

/-- The walk stops at the group whose interval holds the random number. -/
theorem walk_at {dH : ℕ → Option ℝ} {dice : ℝ} {F : ℕ → ℝ} {g : ℕ} {post : List ℕ} :
    ∀ (pre : List ℕ) (cum : ℝ) (last : Option ℕ), (∀ x ∈ pre ++ g :: post, dH x = some (F x)) →
    cum + (pre.map fun x => Real.exp (-F x)).sum < dice →
    dice ≤ cum + (pre.map fun x => Real.exp (-F x)).sum + Real.exp (-F g) →
    walkSlg dH dice (pre ++ g :: post) cum last = some g
  | [], cum, last, hd, h1, h2 => by
    simp at h1 h2
    rw [List.nil_append]
    unfold walkSlg
    rw [if_pos h1, hd g (by simp)]
    simp only [Option.bind_eq_bind, Option.bind_some]
    cases post with
    | nil => unfold walkSlg; rw [if_neg (by linarith)]
    | cons y l => unfold walkSlg; rw [if_neg (by linarith)]
  | x :: l, cum, last, hd, h1, h2 => by
    simp only [List.map_cons, List.sum_cons] at h1 h2
    have p1 := sum_exp_nonneg F l
    have p2 := Real.exp_pos (-F x)
    rw [List.cons_append]
    unfold walkSlg
    rw [if_pos (by linarith), hd x (by simp)]
    simp only [Option.bind_eq_bind, Option.bind_some]
    exact walk_at l _ _ (fun y hy => hd y (by simp at hy ⊢; tauto)) (by linarith) (by linarith)

/-- Sum of the weights of all groups. -/
theorem weights_eq {n : ℕ} {slg : List ℕ} {F : ℕ → ℝ} {e : ℝ} (hnd : slg.Nodup) (hlt : ∀ g ∈ slg, g < n)
    (hoff : ∀ g < n, g ∉ slg → F g = e) :
    ∑ g ∈ range n, Real.exp (-F g) = (slg.map fun g => Real.exp (-F g)).sum + Real.exp (-e) * ((n : ℝ) - slg.length) := by
  have hsub : slg.toFinset ⊆ range n := fun g hg => mem_range.2 (hlt g (List.mem_toFinset.1 hg))
  rw [← sum_sdiff hsub, add_comm, List.sum_toFinset _ hnd]
  congr 1
  rw [sum_congr rfl (g := fun _ => Real.exp (-e)), sum_const, card_sdiff_of_subset hsub, card_range,
    List.toFinset_card_of_nodup hnd, nsmul_eq_mul, Nat.cast_sub, mul_comm]
  · have := card_le_card hsub
    rwa [List.toFinset_card_of_nodup hnd, card_range] at this
  · intro g hg
    rw [mem_sdiff, List.mem_toFinset] at hg
    rw [hoff g (mem_range.1 hg.1) hg.2]

/-- The choice of the destination: each group of the list has an interval of length its weight, what is left goes to
the first empty group. -/
theorem choose_law {n : ℕ} {p : Part} {slg : List ℕ} {sc : GScan} {F : ℕ → ℝ} {e : ℝ} (hnd : slg.Nodup)
    (hlt : ∀ g ∈ slg, g < n) (hdH : ∀ g ∈ slg, sc.dH g = some (F g))
    (hnorm : sc.norm = (slg.map fun g => Real.exp (-F g)).sum) (hempty : ∀ g < n, (p.grp g).size = 0 → F g = e)
    (hoff : ∀ g < n, g ∉ slg → (p.grp g).size = 0) (u : ℚ) :
    sc.norm + Real.exp (-e) * ((n : ℝ) - slg.length) = ∑ g ∈ range n, Real.exp (-F g) ∧
    (∀ pre g post, slg = pre ++ g :: post →
      (pre.map fun x => Real.exp (-F x)).sum < (∑ g ∈ range n, Real.exp (-F g)) * u →
      (∑ g ∈ range n, Real.exp (-F g)) * u ≤ (pre.map fun x => Real.exp (-F x)).sum + Real.exp (-F g) →
      gibbsChoose n p slg sc e (sc.norm + Real.exp (-e) * ((n : ℝ) - slg.length)) u = some (g, F g)) ∧
    ((slg.map fun x => Real.exp (-F x)).sum < (∑ g ∈ range n, Real.exp (-F g)) * u → u < 1 →
      ∃ g < n, (p.grp g).size = 0 ∧ (∀ g' < g, (p.grp g').size ≠ 0) ∧
        gibbsChoose n p slg sc e (sc.norm + Real.exp (-e) * ((n : ℝ) - slg.length)) u = some (g, F g)) := by
  have hZ : sc.norm + Real.exp (-e) * ((n : ℝ) - slg.length) = ∑ g ∈ range n, Real.exp (-F g) := by
    rw [weights_eq hnd hlt fun g hg hm => hempty g hg (hoff g hg hm), hnorm]
  refine ⟨hZ, ?_, ?_⟩
  · intro pre g post hsl h1 h2
    have hmem : g ∈ slg := by rw [hsl]; simp
    unfold gibbsChoose
    rw [if_neg]
    · rw [hZ, hsl, walk_at pre 0 none (fun x hx => hdH x (by rw [hsl]; exact hx)) (by linarith) (by linarith)]
      simp only [Option.bind_eq_bind, Option.bind_some, hdH g hmem, Option.pure_def]
    · have : sc.norm = (pre.map fun x => Real.exp (-F x)).sum + (Real.exp (-F g) + (post.map fun x => Real.exp (-F x)).sum) := by
        rw [hnorm, hsl]; simp
      have p1 := sum_exp_nonneg F post
      have : sc.norm + Real.exp (-e) * ((n : ℝ) - slg.length) - ((n : ℝ) - slg.length) * Real.exp (-e) = sc.norm := by ring
      rw [this, hZ]
      linarith
  · intro h1 hu
    have hex : ∃ g < n, (p.grp g).size = 0 := by
      by_contra hh
      push Not at hh
      have h0 : ∀ g < n, g ∈ slg := fun g hg => by_contra fun hm => hh g hg (hoff g hg hm)
      have hsum : ∑ g ∈ range n, Real.exp (-F g) = (slg.map fun x => Real.exp (-F x)).sum := by
        rw [← List.sum_toFinset _ hnd]
        congr 1
        ext g
        rw [List.mem_toFinset, mem_range]
        exact ⟨h0 g, hlt g⟩
      have hu' : (u : ℝ) < 1 := by exact_mod_cast hu
      rw [hsum] at h1
      have := sum_exp_nonneg F slg
      nlinarith
    have hsome : (GetEmptyGroup n p).isSome := by
      obtain ⟨g, hg, hg'⟩ := hex
      unfold GetEmptyGroup
      rw [List.find?_isSome]
      exact ⟨g, List.mem_range.2 hg, by simpa using hg'⟩
    obtain ⟨g, hg⟩ := Option.isSome_iff_exists.1 hsome
    have hgn := List.mem_range.1 (List.mem_of_find?_eq_some hg)
    have hg0 : (p.grp g).size = 0 := by simpa using List.find?_some hg
    refine ⟨g, hgn, hg0, ?_, ?_⟩
    · intro g' hlt'
      unfold GetEmptyGroup at hg
      rw [List.find?_eq_some_iff_append] at hg
      obtain ⟨_, as, bs, h3, h4⟩ := hg
      have hget : as.length = g := by
        have := congrArg (fun l => l[as.length]?) h3
        simp at this
        rcases List.getElem?_eq_some_iff.1 this with ⟨_, h⟩
        simpa using h
      have hmem : g' ∈ as := by
        have h5 : (List.range n)[g']? = some g' := by rw [List.getElem?_range]; omega
        rw [h3, List.getElem?_append_left (by omega)] at h5
        exact List.mem_of_getElem? h5
      simpa using h4 g' hmem
    · unfold gibbsChoose
      have : sc.norm + Real.exp (-e) * ((n : ℝ) - slg.length) - ((n : ℝ) - slg.length) * Real.exp (-e) = sc.norm := by ring
      rw [if_pos (by rw [this, hZ, hnorm]; exact h1), hg]
      simp only [Option.bind_eq_bind, Option.bind_some, Option.pure_def, hempty g hgn hg0]

/-- Weight of group `g` for node `v`, up to a factor common to all groups. -/
noncomputable def wt (net : Net) (linC : ℝ) (F : Fin net.n → Fin net.n) (v g : Fin net.n) : ℝ :=
  Real.exp (E net linC F - E net linC (Function.update F v g))

theorem wt_eq (linC : ℝ) (F : Fin net.n → Fin net.n) (v g : Fin net.n) :
    wt net linC F v g = Real.exp (-δ net linC (lift F) v g) := by
  unfold wt δ E
  rw [← lift_update, neg_sub]

/-- **C176**: one node of `GibbsLinkScoreStep` takes one random number `u`. With `Z` the sum of the weights
`exp (E F - E F')` over the `n` divisions `F'` that the move of `v` can give, and the listed groups one after another:
`v` goes to the listed group `g` if `Z u` falls in the interval of length the weight of `g` that begins where those of
the groups before it end, and beyond all of them to the first group without nodes. All groups with nodes are listed. -/
theorem C176_law (h : net.Simple) {linC : ℝ} {s : GSt} (hs : GInv net linC s) {F : Fin net.n → Fin net.n}
    (hF : s.st.part.inGroup = lift F) (v : Fin net.n) {u : ℚ} (h0 : 0 < u) (h1 : u < 1) (t : Tape)
    {L : List (Fin net.n)} (hL : s.st.slg = L.map Fin.val) :
    ∃ s', gibbsNode net linC (s.withTape (u :: t)) v = .ok s' ∧ GInv net linC s' ∧ s'.st.tape = t ∧
      L.Nodup ∧ (∀ w, F w ∈ L) ∧
      (∀ pre g post, L = pre ++ g :: post → (pre.map (wt net linC F v)).sum < (∑ g, wt net linC F v g) * u →
        (∑ g, wt net linC F v g) * u ≤ (pre.map (wt net linC F v)).sum + wt net linC F v g →
        s'.st.part.inGroup = lift (Function.update F v g)) ∧
      ((L.map (wt net linC F v)).sum < (∑ g, wt net linC F v g) * u →
        ∃ e : Fin net.n, (∀ w, F w ≠ e) ∧ (∀ g < e, ∃ w, F w = g) ∧
          s'.st.part.inGroup = lift (Function.update F v e)) := by
  obtain ⟨old, sc, e, hold, hn2g, hrun, ⟨hdH, hnorm, hemp⟩, hc⟩ := gibbsNode_run h hs v.2
  obtain ⟨k1, k2, -⟩ := hc u h0.le h1
  have hd : draw (u :: t) = .ok (u, t) := by simp [draw, h0.le, h1]
  have hsz : ∀ g < net.n, (s.st.part.grp g).size = 0 ↔ block net s.st.part.inGroup g = ∅ := by
    intro g hg
    rw [size_eq hs.exact_.part hg]
    simp
  have hblock : ∀ g : Fin net.n, block net s.st.part.inGroup g = ∅ ↔ ∀ w, F w ≠ g := by
    intro g
    constructor
    · intro hb w hw
      have : (w : ℕ) ∈ block net s.st.part.inGroup g := mem_block.2 ⟨w.2, by rw [hF, lift_lt, hw]⟩
      rw [hb] at this
      simp at this
    · intro hh
      rw [eq_empty_iff_forall_notMem]
      intro w hw
      obtain ⟨a, b⟩ := mem_block.1 hw
      rw [hF, show w = ((⟨w, a⟩ : Fin net.n) : ℕ) from rfl, lift_lt] at b
      exact hh ⟨w, a⟩ (Fin.ext (Option.some.inj b))
  have hlaw := choose_law (p := s.st.part) (u := u) hs.listed.nodup hs.listed.lt hdH hnorm
    (fun g hg h0 => hemp g hg ((hsz g hg).1 h0))
    (fun g hg hm => (hsz g hg).2 (by
      by_contra hne
      exact hm (hs.listed.all g hg (nonempty_iff_ne_empty.2 hne))))
  obtain ⟨hZ, l1, l2⟩ := hlaw
  have hsum : ∑ g ∈ range net.n, Real.exp (-δ net linC s.st.part.inGroup v g) = ∑ g, wt net linC F v g := by
    rw [← Fin.sum_univ_eq_sum_range (fun g => Real.exp (-δ net linC s.st.part.inGroup v g))]
    exact sum_congr rfl fun g _ => by rw [wt_eq, hF]
  have hmap : ∀ l : List (Fin net.n), ((l.map Fin.val).map fun g => Real.exp (-δ net linC s.st.part.inGroup v g)).sum =
      (l.map (wt net linC F v)).sum := by
    intro l
    rw [List.map_map]
    congr 1
    exact List.map_congr_left fun g _ => by rw [wt_eq, hF]; rfl
  rw [hsum] at l1 l2
  obtain ⟨r, hr⟩ := Option.isSome_iff_exists.1 (k2 h0)
  obtain ⟨m1, m2⟩ := k1 r hr
  have hrun' : gibbsNode net linC (s.withTape (u :: t)) v = gibbsMove net s v old sc r.1 r.2 t := by
    rw [hrun, hd]
    simp only [Res.bind_ok, hr, Res.ofOption_some]
  have hmv := gibbsMove_holds h hs hold hn2g m1 m2 t
  obtain ⟨_, _, hi⟩ := move_ok h hs.exact_.part m1 hold
  rw [hrun']
  have hok : ∃ s', gibbsMove net s v old sc r.1 r.2 t = .ok s' ∧
      s'.st.part.inGroup = Function.update s.st.part.inGroup v (some r.1) := by
    unfold gibbsMove at hmv ⊢
    cases ha : addToShortlist net.n r.1 s.st.slg with
    | ok l => exact ⟨_, rfl, hi⟩
    | starved => unfold addToShortlist at ha; split_ifs at ha
    | ub => rw [ha] at hmv; exact hmv.elim
  obtain ⟨s', e1, e2⟩ := hok
  rw [e1] at hmv ⊢
  refine ⟨s', rfl, hmv.1, hmv.2, ?_, ?_, ?_, ?_⟩
  · have := hs.listed.nodup
    rw [hL] at this
    exact List.Nodup.of_map _ this
  · intro w
    have := hs.listed.all (F w) (F w).2 ⟨w, mem_block.2 ⟨w.2, by rw [hF, lift_lt]⟩⟩
    rw [hL, List.mem_map] at this
    obtain ⟨x, hx, hxe⟩ := this
    rwa [← Fin.ext hxe]
  · intro pre g post hsl a1 a2
    have := l1 (pre.map Fin.val) g (post.map Fin.val) (by rw [hL, hsl]; simp) (by rw [hmap]; exact a1)
      (by rw [hmap, hF, ← wt_eq]; exact a2)
    rw [hr] at this
    rw [e2, Option.some.inj this, hF, lift_update]
  · intro a1
    obtain ⟨g, hg, g0, gmin, this⟩ := l2 (by rw [hL, hmap]; exact a1) h1
    rw [hr] at this
    refine ⟨⟨g, hg⟩, (hblock ⟨g, hg⟩).1 ((hsz g hg).1 g0), ?_, ?_⟩
    · intro g' hg'
      have := gmin g' hg'
      rw [Ne, hsz g' g'.2, hblock] at this
      push Not at this
      exact this
    · rw [e2, Option.some.inj this, hF, lift_update]

/-- A list of groups below `n` is a list of `Fin n`. -/
theorem exists_list {n : ℕ} : ∀ l : List ℕ, (∀ g ∈ l, g < n) → ∃ L : List (Fin n), l = L.map Fin.val
  | [], _ => ⟨[], rfl⟩
  | x :: l, h => by
    obtain ⟨L, rfl⟩ := exists_list l fun g hg => h g (by simp [hg])
    exact ⟨⟨x, h x (by simp)⟩ :: L, rfl⟩

/-- With every node in its own group, at least two groups are listed. -/
theorem two_listed {s : St} (hl : Listed net s) (hi : s.part.inGroup = lift (id : Fin net.n → Fin net.n)) (hn : 2 ≤ net.n) :
    2 ≤ s.slg.length := by
  have hm : ∀ g < net.n, g ∈ s.slg := fun g hg => hl.all g hg ⟨g, mem_block.2 ⟨hg, by rw [hi]; simp [lift, hg]⟩⟩
  have : [0, 1] ⊆ s.slg := by
    intro x hx
    rcases List.mem_cons.1 hx with rfl | hx
    · exact hm 0 (by omega)
    · rw [List.mem_singleton.1 hx]; exact hm 1 (by omega)
  simpa using (List.Nodup.subperm (by decide) this).length_le

example : ∃ s s' : GSt, GInv tailed 0 s ∧ gibbsNode tailed 0 (s.withTape [1 / 2]) 1 = .ok s' := by
  obtain ⟨s, h1, h2, h3, -⟩ := own_state tailed_simple 0 []
  have hI : GInv tailed 0 (GSt.mk s (fun _ => none) none) := ⟨h1.toExact, h2, two_listed h2 h3 (by decide)⟩
  obtain ⟨L, hL⟩ := exists_list s.slg h2.lt
  obtain ⟨s', h4, -⟩ := C176_law tailed_simple hI (F := id) h3 ⟨1, by decide⟩ (u := 1 / 2) (by norm_num) (by norm_num) [] hL
  exact ⟨_, s', hI, h4⟩

/-- **C176**: the lengths of these intervals, as parts of the whole, are the probabilities of `listed`; the groups that
result, without labels, have therefore the probabilities of the heat bath, whatever the list. These do not depend on
the labels at the start, and if the groups have the Boltzmann weights before the move, with any choice of labels, they
have them after it. -/
theorem C176_balance (h : net.Simple) (linC : ℝ) (v : Fin net.n) :
    (∀ (F : Fin net.n → Fin net.n) (S : Finset (Fin net.n)) (e : Fin net.n) (F' : Fin net.n → Fin net.n),
      listed (E net linC) v S e F F' =
        ((∑ g ∈ S, if Function.update F v g = F' then wt net linC F v g else 0) +
          if Function.update F v e = F' then (∑ g, wt net linC F v g) - ∑ g ∈ S, wt net linC F v g else 0) /
        ∑ g, wt net linC F v g) ∧
    (∀ (F : Fin net.n → Fin net.n) (S : Finset (Fin net.n)) (e : Fin net.n), (∀ w, F w ∈ S) →
      (Sᶜ.Nonempty → ∀ w, F w ≠ e) → ∀ F', ∑ A ∈ univ.filter (fun A => SameBlocks F' A), listed (E net linC) v S e F A =
        heatBlocks (E net linC) v F F') ∧
    (∀ F G F' : Fin net.n → Fin net.n, SameBlocks F G →
      heatBlocks (E net linC) v F F' = heatBlocks (E net linC) v G F') ∧
    ∀ w : (Fin net.n → Fin net.n) → ℝ,
      (∀ F, ∑ A ∈ univ.filter (fun A => SameBlocks F A), w A =
        ∑ A ∈ univ.filter (fun A => SameBlocks F A), Real.exp (-E net linC A)) →
      ∀ F', ∑ F, w F * heatBlocks (E net linC) v F F' =
        ∑ A ∈ univ.filter (fun A => SameBlocks F' A), Real.exp (-E net linC A) := by
  have hE : ∀ A B, SameBlocks A B → E net linC A = E net linC B := fun A B hAB => by
    rw [((C172_labels h linC A).1 A fun _ _ => Iff.rfl).2, ((C172_labels h linC A).1 B hAB).2]
  exact ⟨fun F S e F' => listed_wt _ v S e F F', fun F S e hS he F' => listed_blocks hS he F',
    fun F G F' hs => heatBlocks_same hE hs F', fun w hw F' => heatBlocks_invariant hE v hw F'⟩

end LS
