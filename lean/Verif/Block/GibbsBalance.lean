import Verif.Block.Balance
import Verif.Block.SparseMeaning
import Verif.Missing.GibbsBalance

/-!
# C177: the heat-bath samplers of two-layer and degree models have the Boltzmann distribution

As C176, for every pair term (`AND`, `OR`, `OD` kernels).
-/

namespace BK

open GP hiding St
open RG LS Finset MH

variable {net : Net} {K : Kern} {F : Int → Int → ℝ} {D : ℕ → ℝ} {c : ℝ}

/-- The energy does not depend on the labels. -/
theorem E_relabel {A A' : Fin net.n → Fin net.n} {σ : Equiv.Perm (Fin net.n)} (hσ : ∀ v, A' v = σ (A v)) (h : net.Simple)
    (F : Int → Int → ℝ) (D : ℕ → ℝ) (linC : ℝ) : E F D net linC A' = E F D net linC A := by
  have h1 := unlabelled_relabel (F := F) (D := D) hσ h linC
  have h2 := used_relabel (net := net) hσ
  unfold unlabelled at h1
  unfold E energy
  rw [h2] at h1 ⊢
  linarith

/-- Weight of group `g` for node `v`, up to a factor common to all groups. -/
noncomputable def wt (F : Int → Int → ℝ) (D : ℕ → ℝ) (net : Net) (linC : ℝ) (A : Fin net.n → Fin net.n) (v g : Fin net.n) : ℝ :=
  Real.exp (E F D net linC A - E F D net linC (Function.update A v g))

theorem wt_eq (F : Int → Int → ℝ) (D : ℕ → ℝ) (linC : ℝ) (A : Fin net.n → Fin net.n) (v g : Fin net.n) :
    wt F D net linC A v g = Real.exp (-δ F D net linC (lift A) v g) := by
  unfold wt δ E
  rw [← lift_update, neg_sub]

/-- **C177**: one node of `GibbsLinkScoreStep` takes one random number `u`. With `Z` the sum of the weights
`exp (E A - E A')` over the `n` divisions `A'` that the move of `v` can give, and the listed groups one after another:
`v` goes to the listed group `g` if `Z u` falls in the interval of length the weight of `g` that begins where those of
the groups before it end, and beyond all of them to the first group without nodes. All groups with nodes are listed. -/
theorem C177_law (hK : Computes K net.n F D) (h : net.Simple) {linC : ℝ} {s : GSt} (hs : GInv F D net linC c s) {A : Fin net.n → Fin net.n}
    (hF : s.st.part.inGroup = lift A) (v : Fin net.n) {u : ℚ} (h0 : 0 < u) (h1 : u < 1) (t : Tape)
    {L : List (Fin net.n)} (hL : s.st.slg = L.map Fin.val) :
    ∃ s', gibbsNode K net linC (s.withTape (u :: t)) v = .ok s' ∧ GInv F D net linC c s' ∧ s'.st.tape = t ∧
      L.Nodup ∧ (∀ w, A w ∈ L) ∧
      (∀ pre g post, L = pre ++ g :: post → (pre.map (wt F D net linC A v)).sum < (∑ g, wt F D net linC A v g) * u →
        (∑ g, wt F D net linC A v g) * u ≤ (pre.map (wt F D net linC A v)).sum + wt F D net linC A v g →
        s'.st.part.inGroup = lift (Function.update A v g)) ∧
      ((L.map (wt F D net linC A v)).sum < (∑ g, wt F D net linC A v g) * u →
        ∃ e : Fin net.n, (∀ w, A w ≠ e) ∧ (∀ g < e, ∃ w, A w = g) ∧
          s'.st.part.inGroup = lift (Function.update A v e)) := by
  obtain ⟨old, sc, e, hold, hn2g, hrun, ⟨hdH, hnorm, hemp⟩, hc⟩ := gibbsNode_run hK h hs v.2
  obtain ⟨k1, k2, -⟩ := hc u h0.le h1
  have hd : draw (u :: t) = .ok (u, t) := by simp [draw, h0.le, h1]
  have hsz : ∀ g < net.n, (s.st.part.grp g).size = 0 ↔ block net s.st.part.inGroup g = ∅ := by
    intro g hg
    rw [size_eq hs.exact_.part hg]
    simp
  have hblock : ∀ g : Fin net.n, block net s.st.part.inGroup g = ∅ ↔ ∀ w, A w ≠ g := by
    intro g
    constructor
    · intro hb w hw
      have : (w : ℕ) ∈ block net s.st.part.inGroup g := mem_block.2 ⟨w.2, by rw [hF, lift_lt, hw]⟩
      rw [hb] at this
      simp at this
    · intro hh
      rw [eq_empty_iff_forall_notMem]
      intro w hw
      obtain ⟨a, b⟩ := mem_block.1 hw
      rw [hF, show w = ((⟨w, a⟩ : Fin net.n) : ℕ) from rfl, lift_lt] at b
      exact hh ⟨w, a⟩ (Fin.ext (Option.some.inj b))
  have hlaw := choose_law (p := s.st.part) (u := u) hs.listed.nodup hs.listed.lt hdH hnorm
    (fun g hg h0 => hemp g hg ((hsz g hg).1 h0))
    (fun g hg hm => (hsz g hg).2 (by
      by_contra hne
      exact hm (hs.listed.all g hg (nonempty_iff_ne_empty.2 hne))))
  obtain ⟨hZ, l1, l2⟩ := hlaw
  have hsum : ∑ g ∈ range net.n, Real.exp (-δ F D net linC s.st.part.inGroup v g) = ∑ g, wt F D net linC A v g := by
    rw [← Fin.sum_univ_eq_sum_range (fun g => Real.exp (-δ F D net linC s.st.part.inGroup v g))]
    exact sum_congr rfl fun g _ => by rw [wt_eq, hF]
  have hmap : ∀ l : List (Fin net.n), ((l.map Fin.val).map fun g => Real.exp (-δ F D net linC s.st.part.inGroup v g)).sum =
      (l.map (wt F D net linC A v)).sum := by
    intro l
    rw [List.map_map]
    congr 1
    exact List.map_congr_left fun g _ => by rw [wt_eq, hF]; rfl
  rw [hsum] at l1 l2
  obtain ⟨r, hr⟩ := Option.isSome_iff_exists.1 (k2 h0)
  obtain ⟨m1, m2⟩ := k1 r hr
  have hrun' : gibbsNode K net linC (s.withTape (u :: t)) v = gibbsMove net s v old sc r.1 r.2 t := by
    rw [hrun, hd]
    simp only [Res.bind_ok, hr, Res.ofOption_some]
  have hmv := gibbsMove_holds h hs hold hn2g m1 m2 t
  obtain ⟨_, _, hi⟩ := move_ok h hs.exact_.part m1 hold
  rw [hrun']
  have hok : ∃ s', gibbsMove net s v old sc r.1 r.2 t = .ok s' ∧
      s'.st.part.inGroup = Function.update s.st.part.inGroup v (some r.1) := by
    unfold gibbsMove at hmv ⊢
    cases ha : addToShortlist net.n r.1 s.st.slg with
    | ok l => exact ⟨_, rfl, hi⟩
    | starved => unfold addToShortlist at ha; split_ifs at ha
    | ub => rw [ha] at hmv; exact hmv.elim
  obtain ⟨s', e1, e2⟩ := hok
  rw [e1] at hmv ⊢
  refine ⟨s', rfl, hmv.1, hmv.2, ?_, ?_, ?_, ?_⟩
  · have := hs.listed.nodup
    rw [hL] at this
    exact List.Nodup.of_map _ this
  · intro w
    have := hs.listed.all (A w) (A w).2 ⟨w, mem_block.2 ⟨w.2, by rw [hF, lift_lt]⟩⟩
    rw [hL, List.mem_map] at this
    obtain ⟨x, hx, hxe⟩ := this
    rwa [← Fin.ext hxe]
  · intro pre g post hsl a1 a2
    have := l1 (pre.map Fin.val) g (post.map Fin.val) (by rw [hL, hsl]; simp) (by rw [hmap]; exact a1)
      (by rw [hmap, hF, ← wt_eq]; exact a2)
    rw [hr] at this
    rw [e2, Option.some.inj this, hF, lift_update]
  · intro a1
    obtain ⟨g, hg, g0, gmin, this⟩ := l2 (by rw [hL, hmap]; exact a1) h1
    rw [hr] at this
    refine ⟨⟨g, hg⟩, (hblock ⟨g, hg⟩).1 ((hsz g hg).1 g0), ?_, ?_⟩
    · intro g' hg'
      have := gmin g' hg'
      rw [Ne, hsz g' g'.2, hblock] at this
      push Not at this
      exact this
    · rw [e2, Option.some.inj this, hF, lift_update]

/-- **C177**: the same for the sampler of the sparse model, `SparseGibbsLinkScoreStep`, with the energy of its
prior. -/
theorem C177_sparse {a b : ℝ} (ha : 0 < a) (hb : 0 < b) (h : net.Simple) {s : GSt}
    (hs : GInv (cost (likeBeta a b)) (fun _ => 0) net 0 c s) {A : Fin net.n → Fin net.n}
    (hF : s.st.part.inGroup = lift A) (v : Fin net.n) {u : ℚ} (h0 : 0 < u) (h1 : u < 1) (t : Tape)
    {L : List (Fin net.n)} (hL : s.st.slg = L.map Fin.val) :
    ∃ s', sparseNode (SPARSE a b) net (s.withTape (u :: t)) v = .ok s' ∧ GInv (cost (likeBeta a b)) (fun _ => 0) net 0 c s' ∧ s'.st.tape = t ∧
      L.Nodup ∧ (∀ w, A w ∈ L) ∧
      (∀ pre g post, L = pre ++ g :: post → (pre.map (wt (cost (likeBeta a b)) (fun _ => 0) net 0 A v)).sum < (∑ g, wt (cost (likeBeta a b)) (fun _ => 0) net 0 A v g) * u →
        (∑ g, wt (cost (likeBeta a b)) (fun _ => 0) net 0 A v g) * u ≤ (pre.map (wt (cost (likeBeta a b)) (fun _ => 0) net 0 A v)).sum + wt (cost (likeBeta a b)) (fun _ => 0) net 0 A v g →
        s'.st.part.inGroup = lift (Function.update A v g)) ∧
      ((L.map (wt (cost (likeBeta a b)) (fun _ => 0) net 0 A v)).sum < (∑ g, wt (cost (likeBeta a b)) (fun _ => 0) net 0 A v g) * u →
        ∃ e : Fin net.n, (∀ w, A w ≠ e) ∧ (∀ g < e, ∃ w, A w = g) ∧
          s'.st.part.inGroup = lift (Function.update A v e)) := by
  rw [sparseNode_eq (norm_computes ha hb net.n) (norm_shift a b) h (s := s.withTape (u :: t)) ⟨⟨hs.exact_.part, hs.exact_.full, hs.exact_.counts, hs.exact_.energy⟩,
    ⟨hs.listed.nodup, hs.listed.lt, hs.listed.all⟩, Or.inl hs.two⟩ v.2]
  exact C177_law (norm_computes ha hb net.n) h hs hF v h0 h1 t hL

example : ∃ s s' : GSt, GInv (cost (likeBeta 1 (1 / 2))) (fun _ => 0) tailed 0 0 s ∧
    sparseNode (SPARSE 1 (1 / 2)) tailed (s.withTape [1 / 2]) 1 = .ok s' := by
  obtain ⟨s, h1, h2, h3, -⟩ := own_state tailed_simple 0 []
  have hI : GInv (cost (likeBeta 1 (1 / 2))) (fun _ => 0) tailed 0 0
      (GSt.mk { s with H := energy (cost (likeBeta 1 (1 / 2))) (fun _ => 0) tailed 0 s.part.inGroup + 0 } (fun _ => none) none) :=
    ⟨⟨h1.part, h1.full, h1.counts, rfl⟩, ⟨h2.nodup, h2.lt, h2.all⟩, (two_listed h2 h3 (by decide) : 2 ≤ s.slg.length)⟩
  obtain ⟨L, hL⟩ := exists_list s.slg h2.lt
  obtain ⟨s', h4, -⟩ := C177_sparse (a := 1) (b := 1 / 2) (by norm_num) (by norm_num) tailed_simple hI (A := id) h3
    ⟨1, by decide⟩ (u := 1 / 2) (by norm_num) (by norm_num) [] hL
  exact ⟨_, s', hI, h4⟩

example : ∃ s s' : GSt, GInv odF logDeg tailed 0 0 s ∧ gibbsNode OD tailed 0 (s.withTape [1 / 2]) 1 = .ok s' := by
  obtain ⟨s, h1, h2, h3, -⟩ := own_state tailed_simple 0 []
  have hI : GInv odF logDeg tailed 0 0
      (GSt.mk { s with H := energy odF logDeg tailed 0 s.part.inGroup + 0 } (fun _ => none) none) :=
    ⟨⟨h1.part, h1.full, h1.counts, rfl⟩, ⟨h2.nodup, h2.lt, h2.all⟩, (two_listed h2 h3 (by decide) : 2 ≤ s.slg.length)⟩
  obtain ⟨L, hL⟩ := exists_list s.slg h2.lt
  obtain ⟨s', h4, -⟩ := C177_law (od_computes _) tailed_simple hI (A := id) h3 ⟨1, by decide⟩ (u := 1 / 2) (by norm_num)
    (by norm_num) [] hL
  exact ⟨_, s', hI, h4⟩

/-- **C177**: the lengths of these intervals, as parts of the whole, are the probabilities of `listed`; the groups that
result, without labels, have therefore the probabilities of the heat bath, whatever the list. These do not depend on
the labels at the start, and if the groups have the Boltzmann weights before the move, with any choice of labels, they
have them after it. -/
theorem C177_balance (h : net.Simple) (F : Int → Int → ℝ) (D : ℕ → ℝ) (linC : ℝ) (v : Fin net.n) :
    (∀ (A : Fin net.n → Fin net.n) (S : Finset (Fin net.n)) (e : Fin net.n) (A' : Fin net.n → Fin net.n),
      listed (E F D net linC) v S e A A' =
        ((∑ g ∈ S, if Function.update A v g = A' then wt F D net linC A v g else 0) +
          if Function.update A v e = A' then (∑ g, wt F D net linC A v g) - ∑ g ∈ S, wt F D net linC A v g else 0) /
        ∑ g, wt F D net linC A v g) ∧
    (∀ (A : Fin net.n → Fin net.n) (S : Finset (Fin net.n)) (e : Fin net.n), (∀ w, A w ∈ S) →
      (Sᶜ.Nonempty → ∀ w, A w ≠ e) → ∀ A', ∑ B ∈ univ.filter (fun B => SameBlocks A' B), listed (E F D net linC) v S e A B =
        heatBlocks (E F D net linC) v A A') ∧
    (∀ A G A' : Fin net.n → Fin net.n, SameBlocks A G →
      heatBlocks (E F D net linC) v A A' = heatBlocks (E F D net linC) v G A') ∧
    ∀ w : (Fin net.n → Fin net.n) → ℝ,
      (∀ A, ∑ B ∈ univ.filter (fun B => SameBlocks A B), w B =
        ∑ B ∈ univ.filter (fun B => SameBlocks A B), Real.exp (-E F D net linC B)) →
      ∀ A', ∑ A, w A * heatBlocks (E F D net linC) v A A' =
        ∑ B ∈ univ.filter (fun B => SameBlocks A' B), Real.exp (-E F D net linC B) := by
  have hE : ∀ A B, SameBlocks A B → E F D net linC A = E F D net linC B := fun A B hAB => by
    obtain ⟨σ, hσ⟩ := hAB.perm
    exact (E_relabel hσ h F D linC).symm
  exact ⟨fun A S e A' => listed_wt _ v S e A A', fun A S e hS he A' => listed_blocks hS he A',
    fun A G A' hs => heatBlocks_same hE hs A', fun w hw A' => heatBlocks_invariant hE v hw A'⟩

end BK
