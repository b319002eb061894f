import Verif.Missing.Delta

/-! # C29: the link prediction sampler -/

set_option linter.unusedSimpArgs false

namespace LS

open GP RG Finset

variable {net : Net}

/-- A state of the sampler between attempts: consistent partition of all nodes, exact link counts and
energy, and zero in the scratch array at all empty groups. -/
structure Good (net : Net) (linC : ℝ) (s : St) : Prop where
  part : PartOK net net.n s.part
  full : Full net s.part
  counts : ∀ g < net.n, ∀ g' < net.n, s.G2G g g' = links net s.part.inGroup g g'
  scratch : ∀ g < net.n, block net s.part.inGroup g = ∅ → s.n2g g = 0
  energy : PartitionH net net.n linC s.part = some s.H

/-- A state of the sampler between calls: consistent partition of all nodes, exact link counts and
energy. Nothing is asked of the scratch array. -/
structure Exact (net : Net) (linC : ℝ) (s : St) : Prop where
  part : PartOK net net.n s.part
  full : Full net s.part
  counts : ∀ g < net.n, ∀ g' < net.n, s.G2G g g' = links net s.part.inGroup g g'
  energy : PartitionH net net.n linC s.part = some s.H

theorem Good.toExact {linC : ℝ} {s : St} (h : Good net linC s) : Exact net linC s :=
  ⟨h.part, h.full, h.counts, h.energy⟩

/-- The shortlist has no repetitions and contains all non-empty groups. -/
structure Listed (net : Net) (s : St) : Prop where
  nodup : s.slg.Nodup
  lt : ∀ g ∈ s.slg, g < net.n
  all : ∀ g < net.n, (block net s.part.inGroup g).Nonempty → g ∈ s.slg

theorem addToShortlist_holds {n new : ℕ} {slg : List ℕ} (hn : new < n) (hnd : slg.Nodup) (hlt : ∀ g ∈ slg, g < n) :
    (addToShortlist n new slg).Holds fun l => l.Nodup ∧ (∀ g ∈ l, g < n) ∧ new ∈ l ∧ ∀ g ∈ slg, g ∈ l := by
  unfold addToShortlist
  by_cases h : new ∈ slg
  · rw [if_pos h]; exact ⟨hnd, hlt, h, fun g hg => hg⟩
  · rw [if_neg h]
    have : slg.length < n := by
      have h1 : (new :: slg).toFinset ⊆ range n := by
        intro g hg
        rw [List.mem_toFinset, List.mem_cons] at hg
        rcases hg with rfl | hg
        · exact mem_range.2 hn
        · exact mem_range.2 (hlt g hg)
      have h2 := card_le_card h1
      rw [List.toFinset_card_of_nodup (List.nodup_cons.2 ⟨h, hnd⟩), card_range] at h2
      simp at h2; omega
    rw [if_pos this]
    refine ⟨?_, ?_, by simp, fun g hg => by simp [hg]⟩
    · rw [List.nodup_append]
      refine ⟨hnd, by simp, ?_⟩
      intro a ha b hb
      simp at hb
      subst hb
      rintro rfl
      exact h ha
    · intro g hg
      rcases List.mem_append.1 hg with h1 | h1
      · exact hlt g h1
      · simp at h1; omega

theorem metropolis_any {acc : ℝ → ℚ → Bool} {dH : ℝ} {t : Tape} : (metropolis acc dH t).Holds fun _ => True := by
  unfold metropolis
  split_ifs
  · trivial
  · refine (draw_holds t).bind ?_
    rintro ⟨u, t'⟩ _
    trivial

theorem attempt_good (h : net.Simple) (acc : ℝ → ℚ → Bool) (linC : ℝ) (hn : 0 < net.n) (s : St)
    (hs : Good net linC s ∧ Listed net s) :
    (attempt acc net linC s).Holds fun s' => Good net linC s' ∧ Listed net s' := by
  obtain ⟨hs, hl⟩ := hs
  unfold attempt
  refine (pick_holds hn s.tape).bind ?_
  rintro ⟨v, t1⟩ hv
  dsimp only at *
  cases hg : s.part.inGroup v with
  | none => exact absurd hg (hs.full v hv)
  | some old =>
    dsimp only
    unfold destination
    refine (redraw_holds (P := fun g => g < net.n) (fun u _ h1 => floor_lt h1 hn) t1).bind ?_
    rintro ⟨new, t2⟩ ⟨hnew, hb⟩
    dsimp only at *
    have hne : new ≠ old := by simpa using hb
    have H : Mv net s.part v old new := ⟨h, hs.part, hs.full, hg, hnew, hne⟩
    obtain ⟨d', e1, e2, e3⟩ := H.deltaH_eq linC (n2g := s.n2g) hs.counts hl.nodup hl.lt hl.all
    rw [e1]
    simp only [Res.ofOption_some, Res.bind_ok]
    have hn2g : ∀ g < net.n, d'.n2g g = d net s.part.inGroup v g := by
      intro g hg'
      rw [e3]
      split_ifs with hm
      · rfl
      · have he : block net s.part.inGroup g = ∅ :=
          not_nonempty_iff_eq_empty.1 fun hh => hm (hl.all g hg' hh)
        rw [hs.scratch g hg' he]
        simp [d, he]
    unfold decideMove
    refine metropolis_any.bind ?_
    rintro ⟨a, t3⟩ _
    dsimp only
    cases a with
    | false =>
      refine ⟨⟨hs.part, hs.full, hs.counts, ?_, hs.energy⟩, ⟨hl.nodup, hl.lt, hl.all⟩⟩
      intro g hg' he
      dsimp only at he ⊢
      rw [hn2g g hg']
      simp [d, he]
    | true =>
      simp only [if_true]
      unfold acceptMove
      refine (addToShortlist_holds hnew hl.nodup hl.lt).bind ?_
      rintro slg ⟨k1, k2, k3, k4⟩
      obtain ⟨_, hp', hi⟩ := move_ok h hs.part hnew hg
      have hf' := full_update hs.full hi
      refine ⟨⟨hp', hf', ?_, ?_, ?_⟩, ⟨k1, k2, ?_⟩⟩
      · intro g hg1 g' hg2
        dsimp only
        rw [g2gUpdate_eq hne H.ho hnew _ (fun i hi j hj => by
          rw [hs.counts i hi j hj, hs.counts j hj i hi, links_symm h]) hg1 hg2, hi,
          links_move hv hg hne h, hs.counts g hg1 g' hg2]
        unfold change
        rw [hn2g old H.ho, hn2g new hnew, hn2g g hg1, hn2g g' hg2]
      · intro g hg1 he
        dsimp only at he ⊢
        rw [hn2g g hg1]
        rw [hi] at he
        unfold d
        by_cases eo : g = old
        · subst eo
          rw [block_old hv hg hne] at he
          have : block net s.part.inGroup g = {v} := by
            rw [← insert_erase (v_mem hv hg hne), he]; simp
          rw [this]; simp [a_self h]
        · by_cases en : g = new
          · subst en
            rw [block_new hv hg hne] at he
            simp at he
          · rw [block_other hv hg hne eo en] at he
            simp [he]
      · dsimp only
        have h1 := partitionH_eq h hs.part hs.full linC
        rw [hs.energy] at h1
        have h1 := Option.some.inj h1
        rw [partitionH_eq h hp' hf', hi, e2, h1]
        congr 1; ring
      · intro g hg1 hgn
        dsimp only at hgn ⊢
        rw [hi] at hgn
        by_cases en : g = new
        · subst en; exact k3
        · apply k4
          apply hl.all g hg1
          by_cases eo : g = old
          · subst eo; exact ⟨v, v_mem hv hg hne⟩
          · rwa [block_other hv hg hne eo en] at hgn

/-- **C29 (partial)**: for every random stream, acceptance rule and number of attempts, the sampler
starts from an exact state and ends in one: consistent groups, `G2G` equal to the true link counts,
running energy equal to `PartitionH`. It never leaves its arrays or takes the logarithm of an
impossible count. Missing from the full property: it needs the scratch array `n2gList`, which
`LinkScore` allocates and does not initialise, to be 0 at the empty groups (`C29_scratch`). The end
state again satisfies this, so that further calls are covered too. -/
theorem C29_step_partial (h : net.Simple) (acc : ℝ → ℚ → Bool) (linC : ℝ) (factor : ℕ) (s : St)
    (hs : Good net linC s) : (LinkScoreMCStep acc net linC factor s).Holds (Good net linC) := by
  unfold LinkScoreMCStep
  rcases Nat.eq_zero_or_pos net.n with h0 | hn
  · rw [h0, Nat.zero_mul]
    exact ⟨hs.part, hs.full, hs.counts, hs.scratch, hs.energy⟩
  · have h0 : Good net linC { s with slg := (List.range net.n).filter fun g => 0 < (s.part.grp g).size } :=
      ⟨hs.part, hs.full, hs.counts, hs.scratch, hs.energy⟩
    refine (iter_holds (P := fun s => Good net linC s ∧ Listed net s)
      (fun s hs => attempt_good h acc linC hn s hs) _ _ ⟨h0, ?_⟩).mono (fun s' h' => h'.1)
    refine ⟨List.nodup_range.filter _, ?_, ?_⟩
    · intro g hg
      exact List.mem_range.1 (List.mem_filter.1 hg).1
    · intro g hg hne
      exact List.mem_filter.2 ⟨List.mem_range.2 hg, by simpa using (size_pos hs.part hg).2 hne⟩

/-- **C29**: the running energy means the energy of the block model; and the sampled state is the
division of the nodes. -/
theorem C29_energy (h : net.Simple) {linC : ℝ} {s : St} (hs : Good net linC s) :
    s.H = energy net linC s.part.inGroup := by
  have := partitionH_eq h hs.part hs.full linC
  rw [hs.energy] at this
  exact Option.some.inj this

/-- **C29, refutation (general form)**: any accepted move makes the count between the old group and
an empty group off the shortlist wrong if the scratch array is not 0 there. -/
theorem C29_scratch (h : net.Simple) {linC : ℝ} {s : St} {v old new g : ℕ}
    (H : Mv net s.part v old new) (hc : ∀ g < net.n, ∀ g' < net.n, s.G2G g g' = links net s.part.inGroup g g')
    (hl : Listed net s) (hg : g < net.n) (he : block net s.part.inGroup g = ∅) (hgs : g ∉ s.slg)
    (hgn : g ≠ new) (hbad : s.n2g g ≠ 0) {d' : Scan}
    (hd : deltaH net linC s.part s.G2G s.n2g s.slg v old new = some d') {t : Tape} :
    (acceptMove net s v old new d' t).Holds fun s' =>
      s'.G2G g old ≠ links net s'.part.inGroup g old := by
  obtain ⟨d'', e1, _, e3⟩ := H.deltaH_eq linC (n2g := s.n2g) hc hl.nodup hl.lt hl.all
  rw [hd] at e1
  cases e1
  unfold acceptMove
  refine (addToShortlist_holds H.dst hl.nodup hl.lt).bind ?_
  rintro slg _
  obtain ⟨_, _, hi⟩ := move_ok h H.part H.dst H.src
  have hgo : g ≠ old := by
    rintro rfl
    have := v_mem H.hv H.src H.ne
    rw [he] at this
    simp at this
  change g2gUpdate net.n old new d'.n2g s.G2G g old ≠ links net (MoveNode net v old new s.part).2.inGroup g old
  rw [g2gUpdate_eq H.ne H.ho H.dst _ (fun i hi j hj => by
          rw [hc i hi j hj, hc j hj i hi, links_symm h]) hg H.ho, hi, links_move H.hv H.src H.ne h,
          hc g hg old H.ho]
  unfold change
  have hd0 : d net s.part.inGroup v g = 0 := by simp [d, he]
  have hn : d'.n2g g = s.n2g g := by rw [e3, if_neg hgs]
  simp only [hgo, hgn, false_and, and_false, or_self, if_false, if_true, hd0, hn]
  simpa using hbad

/-- With one node the sampler never returns. -/
theorem C29_one_node (acc : ℝ → ℚ → Bool) (linC : ℝ) (factor : ℕ) (s : St) (hn : net.n = 1)
    (hf : Full net s.part) (hp : PartOK net net.n s.part) :
    LinkScoreMCStep acc net linC (factor + 1) s = .starved := by
  unfold LinkScoreMCStep
  rw [hn, Nat.one_mul]
  unfold iter
  have : attempt acc net linC { s with slg := (List.range 1).filter fun g => 0 < (s.part.grp g).size } = .starved := by
    unfold attempt
    rw [hn]
    cases hpk : pick 1 s.tape with
    | starved => rfl
    | ub => 
      have := pick_holds (n := 1) (by omega) s.tape
      rw [hpk] at this
      exact absurd this (by simp)
    | ok r =>
      obtain ⟨v, t⟩ := r
      have hv := pick_holds (n := 1) (by omega) s.tape
      rw [hpk] at hv
      simp only [Res.holds_ok] at hv
      simp only [Res.bind_ok]
      have hv0 : v < net.n := by omega
      cases hg : s.part.inGroup v with
      | none => exact absurd hg (hf v hv0)
      | some old =>
        dsimp only
        unfold destination
        have ho := (hp.range v old hg).2
        rw [redraw_forever]
        · rfl
        · intro u h0 h1
          have := floor_lt (n := 1) h1 (by omega)
          have e : ⌊u * ((1 : ℕ) : ℚ)⌋₊ = old := by omega
          rw [e]; simp
  rw [this]
  rfl

/-! ## Examples and the concrete failure -/

/-- Three nodes and no links; nodes 0 and 1 in group 0, node 2 in group 1, group 2 empty. -/
def three : Net := { n := 3, neig := fun _ => [] }

theorem three_simple : three.Simple where
  nodup := by intro i; simp [three]
  range := by intro i x hx; simp [three] at hx
  sym := by intro i j; simp [three, Net.link]
  irrefl := by intro i; simp [three, Net.link]

/-- Group of each node. -/
def threePart : Part :=
  AddNodeToGroup three 1 2 (AddNodeToGroup three 0 1 (AddNodeToGroup three 0 0 Part.empty))

theorem three_ok : PartOK three 3 threePart ∧ Full three threePart := by
  constructor
  · unfold threePart
    refine add_ok three_simple (add_ok three_simple (add_ok three_simple (empty_ok three 3) ?_ ?_ ?_) ?_ ?_ ?_) ?_ ?_ ?_ <;>
      decide
  · unfold Full
    decide

theorem three_a (i j : ℕ) : three.a i j = 0 := by simp [Net.a, Net.link, three]

theorem three_links (f : ℕ → Option ℕ) (g g' : ℕ) : links three f g g' = 0 := by
  unfold links
  simp [three_a]

/-- Non-vacuity: an exact state. -/
theorem three_good (linC : ℝ) : Good three linC
    { part := threePart, G2G := fun _ _ => 0, n2g := fun _ => 0, H := energy three linC threePart.inGroup,
      slg := [], tape := [0, 1 / 2, 1 / 3] } :=
  ⟨three_ok.1, three_ok.2, fun _ _ _ _ => (three_links _ _ _).symm, fun _ _ _ => rfl,
    partitionH_eq three_simple three_ok.1 three_ok.2 linC⟩

theorem NL_three (p : Part) (v g : ℕ) : NLinksToGroup three p v g = 0 := rfl

theorem NG_three (p : Part) (g g' : ℕ) : NG2GLinks three p g g' = 0 := by
  unfold NG2GLinks
  have : ∀ l : List ℕ, l.foldl (fun s v => s + NLinksToGroup three p v g') (0 : Int) = 0 := by
    intro l
    induction l with
    | nil => rfl
    | cons x l ih => simp [NL_three] at ih ⊢
  rw [this]; simp

theorem dH_three (linC : ℝ) (junk : ℕ → Int) :
    deltaH three linC threePart (fun _ _ => 0) junk [0, 1] 0 0 1 =
      some { dH := 0, effectng := 2, n2g := Function.update (Function.update junk 0 0) 1 0 } := by
  have s0 : (threePart.grp 0).size = 2 := rfl
  have s1 : (threePart.grp 1).size = 1 := rfl
  have i0 : (threePart.grp 0).inlinks = 0 := rfl
  have i1 : (threePart.grp 1).inlinks = 0 := rfl
  have hn : three.n = 3 := rfl
  simp [deltaH, scanGroup, groupDH, correction, s0, s1, i0, i1, NL_three, NG_three, lterm]

/-- 5 at the empty group. -/
def junk (g : ℕ) : Int := if g = 2 then 5 else 0

/-- An exact state but for the scratch array. -/
noncomputable def threeSt (linC : ℝ) (slg : List ℕ) : St where
  part := threePart
  G2G := fun _ _ => 0
  n2g := junk
  H := energy three linC threePart.inGroup
  slg := slg
  tape := [0, 1 / 3, 0, 2 / 3]

/-- **C29, refutation**: on this network, with 5 left over in the scratch array at the empty group 2,
an otherwise exact state and two attempts take the sampler out of its table of logarithms. -/
theorem C29_uninitialised (acc : ℝ → ℚ → Bool) (linC : ℝ) :
    ∃ s : St, PartOK three 3 s.part ∧ Full three s.part ∧
      (∀ g < 3, ∀ g' < 3, s.G2G g g' = links three s.part.inGroup g g') ∧
      PartitionH three 3 linC s.part = some s.H ∧
      LinkScoreMCStep acc three linC 1 s = .ub := by
  refine ⟨threeSt linC [], three_ok.1, three_ok.2,
    fun _ _ _ _ => (three_links _ _ _).symm, partitionH_eq three_simple three_ok.1 three_ok.2 linC, ?_⟩
  unfold LinkScoreMCStep
  have hs : ((List.range three.n).filter fun g => 0 < (threePart.grp g).size) = [0, 1] := by decide
  change iter (attempt acc three linC) 3 (threeSt linC ((List.range three.n).filter fun g => 0 < (threePart.grp g).size)) = _
  rw [hs]
  unfold iter
  have p1 : ∀ t : Tape, pick three.n (0 :: t) = .ok (0, t) := by
    intro t; simp [pick, draw]
  have r1 : destination three.n 0 [1 / 3, 0, 2 / 3] = .ok (1, [0, 2 / 3]) := by
    norm_num [destination, redraw, three]
  have r2 : destination three.n 1 [2 / 3] = .ok (2, []) := by
    norm_num [destination, redraw, three]
  have g1 : threePart.inGroup 0 = some 0 := by decide
  obtain ⟨s2, hs2⟩ : ∃ s2 : St, s2 = St.mk (MoveNode three 0 0 1 threePart).2
    (g2gUpdate 3 0 1 (Function.update (Function.update junk 0 0) 1 0) (fun _ _ => 0))
    (Function.update (Function.update junk 0 0) 1 0)
    (energy three linC threePart.inGroup + 0) [0, 1] [0, 2 / 3] := ⟨_, rfl⟩
  have a1 : attempt acc three linC (threeSt linC [0, 1]) = .ok s2 := by
    rw [hs2]
    have q1 : (threeSt linC [0, 1]).tape = [0, 1 / 3, 0, 2 / 3] := rfl
    have q2 : (threeSt linC [0, 1]).part = threePart := rfl
    have q3 : (threeSt linC [0, 1]).G2G = fun _ _ => 0 := rfl
    have q4 : (threeSt linC [0, 1]).n2g = junk := rfl
    have q5 : (threeSt linC [0, 1]).slg = [0, 1] := rfl
    unfold attempt
    simp only [q1, q2, q3, q4, q5, p1, Res.bind_ok, g1, r1, dH_three, Res.ofOption_some, decideMove, metropolis, le_refl, if_true]
    rfl
  rw [a1]
  simp only [Res.bind_ok]
  unfold iter
  have a2 : attempt acc three linC s2 = .ub := by
    unfold attempt
    have g2 : s2.part.inGroup 0 = some 1 := by rw [hs2]; dsimp only; decide
    have t2 : s2.tape = [0, 2 / 3] := by rw [hs2]
    simp only [t2, p1, Res.bind_ok, g2, r2]
    have z0 : (s2.part.grp 0).size = 1 := by rw [hs2]; dsimp only; decide
    have z1 : (s2.part.grp 1).size = 2 := by rw [hs2]; dsimp only; decide
    have z2 : (s2.part.grp 2).size = 0 := by rw [hs2]; dsimp only; decide
    have c1 : s2.G2G 1 0 = 0 := by rw [hs2]; dsimp only; decide
    have c2 : s2.G2G 2 0 = -5 := by rw [hs2]; dsimp only; decide
    have hl : s2.slg = [0, 1] := by rw [hs2]
    have : deltaH three linC s2.part s2.G2G s2.n2g s2.slg 0 1 2 = none := by
      simp [deltaH, hl, scanGroup, groupDH, z0, z1, z2, c1, c2, NL_three, NG_three, lterm]
    rw [this]
    rfl
  rw [a2]
  rfl

end LS
