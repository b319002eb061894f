import Verif.Missing.NetScoreModel
import Verif.Missing.Score
import Verif.Group.CopyProps
import Mathlib.Tactic.FieldSimp

/-! # C105, C106, C107: errors of the block model, reliability of a network, samples of partitions -/

set_option linter.unusedSimpArgs false

namespace LS

open GP RG Finset

variable {net : Net}

/-! ## Specification -/

/-- Mean over all pairs of nodes of the squared difference between link and score. -/
noncomputable def meanSquare (net : Net) (M : ℕ → ℕ → ℚ) : ℝ :=
  (∑ e ∈ (range net.n ×ˢ range net.n).filter (fun e => e.1 < e.2),
    (((net.a e.1 e.2 : Int) : ℝ) - (M e.1 e.2 : ℝ)) ^ 2) / ((net.n : ℝ) * (net.n - 1) / 2)

/-- Chance that `l` given pairs out of `r` are linked and the others not, if `lObs` of `r` pairs have
been observed to be linked and all link probabilities were equally likely before: the quotient of the
Beta integrals `B(lObs+l+1, 2r-lObs-l+1)` and `B(lObs+1, r-lObs+1)`. -/
def predictive (r lObs l : ℕ) : ℚ :=
  ((lObs + l).factorial * (2 * r - lObs - l).factorial * (r + 1).factorial : ℕ) /
    ((2 * r + 1).factorial * lObs.factorial * (r - lObs).factorial : ℕ)

/-- Chance of the network `tar` given the observed one and a division of the nodes. -/
def reliability (obs tar : Net) (f : ℕ → Option ℕ) : ℚ :=
  ∏ e ∈ (range obs.n ×ˢ range obs.n).filter (fun e => e.1 ≤ e.2),
    predictive (pairs obs f e.1 e.2).toNat (links obs f e.1 e.2).toNat (links tar f e.1 e.2).toNat

/-! ## The sampler does not look at the energy -/

/-- Another origin of energies. -/
def shift (c : ℝ) (s : St) : St := { s with H := s.H + c }

theorem acceptMove_shift (c : ℝ) (s : St) (v old new : ℕ) (d : Scan) (t : Tape) :
    acceptMove net (shift c s) v old new d t = acceptMove net s v old new d t >>= fun s => .ok (shift c s) := by
  unfold acceptMove shift
  dsimp only
  cases addToShortlist net.n new s.slg with
  | ok slg => simp only [Res.bind_ok, Res.pure_eq]; congr 2; ring
  | starved => rfl
  | ub => rfl

theorem attempt_shift (acc : ℝ → ℚ → Bool) (linC c : ℝ) (s : St) :
    attempt acc net linC (shift c s) = attempt acc net linC s >>= fun s => .ok (shift c s) := by
  unfold attempt
  rw [show (shift c s).tape = s.tape from rfl, show (shift c s).part = s.part from rfl,
    show (shift c s).G2G = s.G2G from rfl, show (shift c s).n2g = s.n2g from rfl,
    show (shift c s).slg = s.slg from rfl]
  cases pick net.n s.tape with
  | starved => rfl
  | ub => rfl
  | ok vt =>
    obtain ⟨v, t⟩ := vt
    simp only [Res.bind_ok]
    cases s.part.inGroup v with
    | none => rfl
    | some old =>
      dsimp only
      cases destination net.n old t with
      | starved => rfl
      | ub => rfl
      | ok nt =>
        obtain ⟨new, t⟩ := nt
        simp only [Res.bind_ok]
        cases deltaH net linC s.part s.G2G s.n2g s.slg v old new with
        | none => rfl
        | some d =>
          simp only [Res.ofOption_some, Res.bind_ok]
          unfold decideMove
          cases metropolis acc d.dH t with
          | starved => rfl
          | ub => rfl
          | ok a =>
            obtain ⟨a, t⟩ := a
            simp only [Res.bind_ok]
            cases a
            · rfl
            · simpa using acceptMove_shift c s v old new d t

theorem iter_shift (acc : ℝ → ℚ → Bool) (linC c : ℝ) : ∀ (k : ℕ) (s : St),
    iter (attempt acc net linC) k (shift c s) = iter (attempt acc net linC) k s >>= fun s => .ok (shift c s)
  | 0, _ => rfl
  | k + 1, s => by
    unfold iter
    rw [attempt_shift]
    cases attempt acc net linC s with
    | starved => rfl
    | ub => rfl
    | ok s' =>
      simp only [Res.bind_ok]
      exact iter_shift acc linC c k s'

theorem step_shift (acc : ℝ → ℚ → Bool) (linC : ℝ) (factor : ℕ) (c : ℝ) (s : St) :
    LinkScoreMCStep acc net linC factor (shift c s) =
      LinkScoreMCStep acc net linC factor s >>= fun s => .ok (shift c s) := by
  unfold LinkScoreMCStep
  exact iter_shift acc linC c _
    { s with slg := (List.range net.n).filter fun g => 0 < (s.part.grp g).size }

/-- A good state with another origin of energies. -/
def Sampling (net : Net) (linC : ℝ) (s : St) : Prop := ∃ c, Good net linC (shift c s)

theorem shift_shift (c c' : ℝ) (s : St) : shift c (shift c' s) = shift (c' + c) s := by
  unfold shift
  congr 1
  dsimp only
  ring

theorem shift_zero (s : St) : shift 0 s = s := by
  unfold shift; cases s; simp

theorem Sampling.step (h : net.Simple) (acc : ℝ → ℚ → Bool) (linC : ℝ) (factor : ℕ) (s : St)
    (hs : Sampling net linC s) : (LinkScoreMCStep acc net linC factor s).Holds (Sampling net linC) := by
  obtain ⟨c, hc⟩ := hs
  have h1 := C29_step_partial h acc linC factor _ hc
  rw [step_shift] at h1
  cases hr : LinkScoreMCStep acc net linC factor s with
  | starved => trivial
  | ub => rw [hr] at h1; exact h1
  | ok s' =>
    rw [hr] at h1
    exact ⟨c, h1⟩

/-! ## Copies and mapping back -/

theorem mapBack_eq (h : net.Simple) {p : Part} (hp : PartOK net net.n p) :
    (mapBack net p).inGroup = p.inGroup ∧ PartOK net net.n (mapBack net p) ∧
      ∀ g < net.n, (mapBack net p).grp g = p.grp g := by
  unfold mapBack
  have e : { p with inGroup := (CopyPartition net net.n p.grp p.inGroup).inGroup } = p := by
    rw [(C85_copy_counters h hp).1]
  rw [e]
  have := map_id h hp
  exact ⟨this.1, (map_of_lists h hp (q := p) (fun g hg => ⟨rfl, by
    rw [(hp.lists).size g hg]⟩)).1, this.2⟩

theorem Sampling.back (h : net.Simple) {linC : ℝ} {s : St} (hs : Sampling net linC s) :
    Sampling net linC { s with part := mapBack net s.part } := by
  obtain ⟨c, hc⟩ := hs
  obtain ⟨e1, e2, e3⟩ := mapBack_eq h hc.part
  refine ⟨c, ⟨e2, ?_, ?_, ?_, ?_⟩⟩
  · intro v hv
    show (mapBack net s.part).inGroup v ≠ none
    have := hc.full v hv
    have e1 : (mapBack net s.part).inGroup = s.part.inGroup := e1
    rw [e1]; exact this
  · intro g hg g' hg'
    have := hc.counts g hg g' hg'
    have e1 : (mapBack net s.part).inGroup = s.part.inGroup := e1
    show s.G2G g g' = links net (mapBack net s.part).inGroup g g'
    rw [e1]; exact this
  · intro g hg
    have := hc.scratch g hg
    have e1 : (mapBack net s.part).inGroup = s.part.inGroup := e1
    show block net (mapBack net s.part).inGroup g = ∅ → s.n2g g = 0
    rw [e1]; exact this
  · have hf : Full net (mapBack net s.part) := by
      intro v hv
      have := hc.full v hv
      have e1 : (mapBack net s.part).inGroup = s.part.inGroup := e1
      rw [e1]; exact this
    have a := partitionH_eq h hc.part hc.full linC
    have b := partitionH_eq h e2 hf linC
    rw [hc.energy] at a
    have e1 : (mapBack net s.part).inGroup = s.part.inGroup := e1
    show PartitionH net net.n linC (mapBack net s.part) = some (shift c s).H
    rw [a]
    refine b.trans ?_
    show some (energy net linC (mapBack net s.part).inGroup) = some (energy net linC s.part.inGroup)
    rw [e1]

theorem copy_facts {obs tar : Net} (ho : obs.Simple) (ht : tar.Simple) (hn : tar.n = obs.n) {p : Part}
    (hp : PartOK obs obs.n p) : (mapCopy obs tar p).inGroup = p.inGroup ∧ PartOK tar obs.n (mapCopy obs tar p) := by
  have hl := hp.lists
  obtain ⟨c1, c2, -⟩ := C85_copy_map obs obs.n p (fun g hg => by rw [hl.size g hg])
  constructor
  · have e : (mapCopy obs tar p).inGroup = (MapPartToNet obs obs.n (CopyPartition obs obs.n p.grp p.inGroup)).inGroup := rfl
    rw [e, c2, (map_id ho hp).1]
  · refine map_ok ht ⟨?_, ?_, ?_, ?_⟩
    · intro g hg; rw [(c1 g hg).1]; exact hl.nodup g hg
    · intro g hg v hv
      rw [(c1 g hg).1] at hv
      rw [hn]; exact hl.range g hg v hv
    · intro g hg g' hg'; rw [(c1 g hg).1, (c1 g' hg').1]; exact hl.disj g hg g' hg'
    · intro g hg; rw [(c1 g hg).1, (c1 g hg).2]; exact hl.size g hg

/-! ## Contributions of a partition -/

theorem predictive_choose {r lO l : ℕ} (h1 : lO ≤ r) (h2 : l ≤ r) :
    predictive r lO l = (((r : ℚ) + 1) * (r.choose lO : ℕ)) / ((2 * r + 1 : ℚ) * ((2 * r).choose (lO + l) : ℕ)) := by
  have e1 : ((r.choose lO : ℕ) : ℚ) * lO.factorial * (r - lO).factorial = r.factorial := by
    exact_mod_cast Nat.choose_mul_factorial_mul_factorial h1
  have e2 : (((2 * r).choose (lO + l) : ℕ) : ℚ) * (lO + l).factorial * (2 * r - (lO + l)).factorial = (2 * r).factorial := by
    exact_mod_cast Nat.choose_mul_factorial_mul_factorial (show lO + l ≤ 2 * r by omega)
  have e3 : ((r + 1).factorial : ℚ) = (r + 1) * r.factorial := by
    rw [Nat.factorial_succ]; push_cast; ring
  have e4 : ((2 * r + 1).factorial : ℚ) = (2 * r + 1) * (2 * r).factorial := by
    rw [Nat.factorial_succ]; push_cast; ring
  have p1 : ((lO.factorial : ℕ) : ℚ) ≠ 0 := by exact_mod_cast lO.factorial_ne_zero
  have p2 : (((r - lO).factorial : ℕ) : ℚ) ≠ 0 := by exact_mod_cast (r - lO).factorial_ne_zero
  have p3 : (((lO + l).factorial : ℕ) : ℚ) ≠ 0 := by exact_mod_cast (lO + l).factorial_ne_zero
  have p4 : (((2 * r - (lO + l)).factorial : ℕ) : ℚ) ≠ 0 := by exact_mod_cast (2 * r - (lO + l)).factorial_ne_zero
  have p5 : (((2 * r).choose (lO + l) : ℕ) : ℚ) ≠ 0 := by
    exact_mod_cast (Nat.choose_pos (show lO + l ≤ 2 * r by omega)).ne'
  have p6 : (2 * (r : ℚ) + 1) ≠ 0 := by positivity
  unfold predictive
  rw [Nat.sub_sub]
  push_cast
  rw [e3, e4, ← e1, ← e2]
  generalize ((lO.factorial : ℕ) : ℚ) = x1 at *
  generalize (((r - lO).factorial : ℕ) : ℚ) = x2 at *
  generalize (((lO + l).factorial : ℕ) : ℚ) = x3 at *
  generalize (((2 * r - (lO + l)).factorial : ℕ) : ℚ) = x4 at *
  generalize (((2 * r).choose (lO + l) : ℕ) : ℚ) = x5 at *
  field_simp

theorem predictive_pos (r lO l : ℕ) : 0 < predictive r lO l := by
  unfold predictive
  apply div_pos <;> exact_mod_cast by positivity

theorem logPair_eq {r lO l : Int} (h0 : 0 ≤ lO) (h1 : lO ≤ r) (h2 : 0 ≤ l) (h3 : l ≤ r) :
    logPair r lO l = some (Real.log (predictive r.toNat lO.toNat l.toNat : ℚ)) := by
  obtain ⟨r, rfl⟩ := Int.eq_ofNat_of_zero_le (le_trans h0 h1)
  obtain ⟨lO, rfl⟩ := Int.eq_ofNat_of_zero_le h0
  obtain ⟨l, rfl⟩ := Int.eq_ofNat_of_zero_le h2
  have h1 : lO ≤ r := by exact_mod_cast h1
  have h3 : l ≤ r := by exact_mod_cast h3
  unfold logPair lterm
  rw [if_pos ⟨h0, by exact_mod_cast h1⟩, if_pos ⟨by positivity, by
    have : lO + l ≤ 2 * r := by omega
    exact_mod_cast this⟩]
  simp only [Option.bind_eq_bind, Option.bind_some, Option.pure_def]
  congr 1
  have t1 : ((r : Int)).toNat = r := rfl
  have t2 : ((lO : Int)).toNat = lO := rfl
  have t3 : ((l : Int)).toNat = l := rfl
  have t4 : (2 * (r : Int)).toNat = 2 * r := by omega
  have t5 : ((lO : Int) + l).toNat = lO + l := by omega
  rw [t1, t2, t3, t4, t5, predictive_choose h1 h3]
  have p1 : ((r.choose lO : ℕ) : ℝ) ≠ 0 := by exact_mod_cast (Nat.choose_pos h1).ne'
  have p5 : (((2 * r).choose (lO + l) : ℕ) : ℝ) ≠ 0 := by
    exact_mod_cast (Nat.choose_pos (show lO + l ≤ 2 * r by omega)).ne'
  have p2 : ((r : ℝ) + 1) ≠ 0 := by positivity
  have p6 : (2 * (r : ℝ) + 1) ≠ 0 := by positivity
  push_cast
  rw [Real.log_div (mul_ne_zero p2 p1) (mul_ne_zero p6 p5), Real.log_mul p2 p1, Real.log_mul p6 p5]

theorem foldlM_pair {α : Type} (F : ℝ × ℝ → α → Option (ℝ × ℝ)) (c : α → ℝ × ℝ) : ∀ (l : List α) (s : ℝ × ℝ),
    (∀ x ∈ l, ∀ s, F s x = some (s + c x)) → l.foldlM F s = some (s + (l.map c).sum)
  | [], s, _ => by simp
  | x :: l, s, h => by
    rw [List.foldlM_cons, h x (by simp)]
    simp only [Option.bind_eq_bind, Option.bind_some]
    rw [foldlM_pair F c l _ (fun y hy => h y (by simp [hy]))]
    congr 1
    simp [add_assoc]

/-- Logarithm of the chance of the links between two groups. -/
noncomputable def L (obs tar : Net) (f : ℕ → Option ℕ) (g g' : ℕ) : ℝ :=
  Real.log (predictive (pairs obs f g g').toNat (links obs f g g').toNat (links tar f g g').toNat : ℚ)

theorem L_empty {obs tar : Net} (hn : tar.n = obs.n) {f : ℕ → Option ℕ} {g g' : ℕ}
    (h : block obs f g = ∅ ∨ block obs f g' = ∅) : L obs tar f g g' = 0 := by
  have hb : ∀ g, block tar f g = block obs f g := by intro g; unfold block; rw [hn]
  have h1 : pairs obs f g g' = 0 := by
    unfold pairs
    rcases h with h | h <;> rw [h] <;> simp
    rintro rfl
    rw [h]; simp
  have h2 : links obs f g g' = 0 := by
    unfold links
    rcases h with h | h <;> rw [h] <;> simp
  have h3 : links tar f g g' = 0 := by
    unfold links
    rcases h with h | h <;> rw [hb, hb, h] <;> simp
  unfold L
  rw [h1, h2, h3]
  norm_num [predictive]

theorem addPair_eq {obs tar : Net} (ho : obs.Simple) (ht : tar.Simple) (hn : tar.n = obs.n) (f : ℕ → Option ℕ)
    (g g' : ℕ) (c : ℝ × ℝ) : addPair c (pairs obs f g g') (links obs f g g') (links tar f g g') =
      some (c + (L obs tar f g g', L obs obs f g g')) := by
  have hb : ∀ g, block tar f g = block obs f g := by intro g; unfold block; rw [hn]
  have hp : pairs tar f g g' = pairs obs f g g' := by unfold pairs; rw [hb, hb]
  unfold addPair
  rw [logPair_eq (links_nonneg g g') (links_le ho g g') (links_nonneg g g') (hp ▸ links_le ht g g'),
    logPair_eq (links_nonneg g g') (links_le ho g g') (links_nonneg g g') (links_le ho g g')]
  rfl

theorem log_reliability {obs tar : Net} (f : ℕ → Option ℕ) :
    Real.log (reliability obs tar f : ℚ) = ∑ g ∈ range obs.n, (L obs tar f g g +
      ∑ g' ∈ (range obs.n).filter (g < ·), L obs tar f g g') := by
  unfold reliability
  push_cast
  rw [Real.log_prod (fun e _ => by exact_mod_cast (predictive_pos _ _ _).ne')]
  rw [sum_filter, sum_product]
  refine sum_congr rfl fun g hg => ?_
  rw [sum_filter, ← sum_erase_add _ _ hg]
  dsimp only
  rw [if_pos le_rfl, add_comm]
  congr 1
  rw [← sum_erase_add (range obs.n) (fun a => if g < a then L obs tar f g a else 0) hg, if_neg (lt_irrefl g), add_zero]
  refine sum_congr rfl fun g' hg' => ?_
  have := ne_of_mem_erase hg'
  by_cases hlt : g < g'
  · rw [if_pos hlt, if_pos hlt.le]; rfl
  · rw [if_neg hlt, if_neg (by omega)]

theorem reliability_pos (obs tar : Net) (f : ℕ → Option ℕ) : 0 < reliability obs tar f :=
  prod_pos fun _ _ => predictive_pos _ _ _

theorem netContrib_eq {obs tar : Net} (ho : obs.Simple) (ht : tar.Simple) (hn : tar.n = obs.n) {p q : Part}
    {G2G : ℕ → ℕ → Int} (hp : PartOK obs obs.n p) (hq : PartOK tar obs.n q) (hqp : q.inGroup = p.inGroup)
    (hG : ∀ g < obs.n, ∀ g' < obs.n, G2G g g' = links obs p.inGroup g g') :
    netContrib tar obs.n G2G p q = some (Real.log (reliability obs tar p.inGroup : ℚ),
      Real.log (reliability obs obs p.inGroup : ℚ)) := by
  unfold netContrib
  rw [foldlM_pair _ (fun g => (L obs tar p.inGroup g g + ∑ g' ∈ (range obs.n).filter (g < ·), L obs tar p.inGroup g g',
    L obs obs p.inGroup g g + ∑ g' ∈ (range obs.n).filter (g < ·), L obs obs p.inGroup g g'))]
  · rw [range_sum, log_reliability, log_reliability]
    congr 1
    ext <;> simp [Prod.fst_sum, Prod.snd_sum]
  · intro g hg s
    have hg := List.mem_range.1 hg
    by_cases h0 : 0 < (p.grp g).size
    · rw [if_pos h0]
      have e1 := addPair_eq ho ht hn p.inGroup g g s
      rw [show pairs obs p.inGroup g g = (p.grp g).size * ((p.grp g).size - 1) / 2 by
        rw [size_eq hp hg]; unfold pairs; rw [if_pos rfl], ← inlinks_eq hp ho hg,
        show links tar p.inGroup g g = (q.grp g).inlinks by rw [inlinks_eq hq ht hg, hqp]] at e1
      rw [e1]
      simp only [Option.bind_eq_bind, Option.bind_some]
      rw [foldlM_pair _ (fun g' => (L obs tar p.inGroup g g', L obs obs p.inGroup g g'))]
      · rw [range'_sum]
        congr 1
        ext <;> simp [Prod.fst_sum, Prod.snd_sum, add_assoc]
      · intro g' hg' s
        rw [List.mem_range'_1] at hg'
        by_cases h1 : 0 < (p.grp g').size
        · rw [if_pos h1]
          have e2 := addPair_eq ho ht hn p.inGroup g g' s
          rw [show pairs obs p.inGroup g g' = (p.grp g).size * (p.grp g').size by
            rw [size_eq hp hg, size_eq hp (by omega)]; unfold pairs; rw [if_neg (by omega)],
            ← hG g hg g' (by omega),
            show links tar p.inGroup g g' = NG2GLinks tar q g g' by
              rw [ng2g_eq hq ht hg (by omega), hqp]] at e2
          exact e2
        · rw [size_pos hp (by omega)] at h1
          have h1 := not_nonempty_iff_eq_empty.1 h1
          rw [if_neg (by rw [size_pos hp (by omega)]; rw [h1]; simp), L_empty hn (Or.inr h1), L_empty rfl (Or.inr h1)]
          simp
    · rw [if_neg h0]
      rw [size_pos hp hg] at h0
      have h0 := not_nonempty_iff_eq_empty.1 h0
      simp only [L_empty hn (Or.inl h0), L_empty rfl (Or.inl h0)]
      simp

/-! ## Preparation -/

theorem prepare_holds (h : net.Simple) (hn : 0 < net.n) (acc : ℝ → ℚ → Bool) (linC : ℝ) (warm : List ℕ)
    {scratch : ℕ → Int} (hz : ∀ g < net.n, scratch g = 0) (t : Tape) :
    (prepare acc net linC warm scratch t).Holds (Good net linC) := by
  unfold prepare
  refine (init_holds h hn (List.range net.n) Part.empty t (empty_ok net net.n) List.nodup_range
    (fun v hv => ⟨List.mem_range.1 hv, rfl⟩) (fun v hv hv' => absurd (List.mem_range.2 hv) hv')).bind ?_
  rintro ⟨p, t'⟩ ⟨hp, hf⟩
  dsimp only at *
  rw [partitionH_eq h hp hf]
  simp only [Res.ofOption_some, Res.bind_ok]
  exact steps_good h acc linC warm _ ⟨hp, hf, fun i hi j hj => initG2G_eq h hp hi hj, fun g hg _ => hz g hg,
    partitionH_eq h hp hf linC⟩

theorem Good.reset {linC : ℝ} {s : St} (hs : Good net linC s) : Sampling net linC { s with H := 0 } := by
  refine ⟨s.H, ?_⟩
  have : shift s.H { s with H := 0 } = s := by unfold shift; cases s; simp
  rw [this]; exact hs

/-- A division of all nodes into groups below `n`. -/
def Divides (net : Net) (f : ℕ → Option ℕ) : Prop := ∀ v < net.n, ∃ g < net.n, f v = some g

theorem Sampling.divides {linC : ℝ} {s : St} (hs : Sampling net linC s) : Divides net s.part.inGroup := by
  obtain ⟨c, hc⟩ := hs
  intro v hv
  obtain ⟨g, hg⟩ := Option.ne_none_iff_exists'.1 (hc.full v hv)
  exact ⟨g, (hc.part.range v g hg).2, hg⟩

/-! ## C105 -/

theorem isLink_iff (i j : ℕ) : isLink net i j = (net.link i j).isSome := by
  unfold isLink Net.link
  rw [Option.isSome_map, Bool.eq_iff_iff, List.find?_isSome, List.any_eq_true]

theorem sbm_term (M : ℕ → ℕ → ℚ) (i j : ℕ) (s : ℚ) :
    (if isLink net i j then s + (1 - M i j) * (1 - M i j) else s + M i j * M i j) =
      s + ((net.a i j : ℚ) - M i j) ^ 2 := by
  rw [isLink_iff]
  unfold Net.a
  split_ifs <;> push_cast <;> ring

theorem foldl_sum {α : Type} (c : α → ℚ) : ∀ (l : List α) (s : ℚ), l.foldl (fun s x => s + c x) s = s + (l.map c).sum
  | [], s => by simp
  | x :: l, s => by simp [foldl_sum c l, add_assoc]

theorem sum_pairs {R : Type} [AddCommMonoid R] (n : ℕ) (c : ℕ → ℕ → R) :
    ∑ e ∈ (range n ×ˢ range n).filter (fun e => e.1 < e.2), c e.1 e.2 =
      ∑ i ∈ range n, ∑ j ∈ (range n).filter (i < ·), c i j := by
  rw [sum_filter, sum_product]
  refine sum_congr rfl fun i _ => ?_
  rw [sum_filter]

theorem sbmSum_eq (M : ℕ → ℕ → ℚ) : sbmSum net M =
    ∑ e ∈ (range net.n ×ˢ range net.n).filter (fun e => e.1 < e.2), ((net.a e.1 e.2 : ℚ) - M e.1 e.2) ^ 2 := by
  rw [sum_pairs net.n (fun i j => ((net.a i j : ℚ) - M i j) ^ 2)]
  unfold sbmSum
  simp only [sbm_term]
  simp only [foldl_sum, zero_add]
  rw [range_sum]
  simp only [range'_sum]

theorem card_pairs (n : ℕ) : ((range n ×ˢ range n).filter (fun e => e.1 < e.2)).card = n * (n - 1) / 2 := by
  rw [card_eq_sum_ones, sum_pairs n (fun _ _ => 1)]
  have : ∀ i ∈ range n, ∑ j ∈ (range n).filter (i < ·), 1 = n - 1 - i := by
    intro i _
    rw [← range'_sum (fun _ => 1)]
    simp
    omega
  rw [sum_congr rfl this, sum_range_reflect (fun i => i), sum_range_id]

/-- **C105**: for every random stream, `SBMError` returns the root of the mean over all pairs of nodes of
the squared difference between link and link score, a number strictly between 0 and 1; for a single node
it is not a number. (As in C31, the uninitialised scratch array is supposed to hold zeros.) -/
theorem C105_error_partial (h : net.Simple) (hn : 0 < net.n) (acc : ℝ → ℚ → Bool) (warm : List ℕ) (decorStep : ℕ)
    {scratch : ℕ → Int} (hz : ∀ g < net.n, scratch g = 0) (t : Tape) :
    (SBMError acc net warm decorStep scratch t).Holds fun r => ScoresOK net 0 sbmIter r.2.1 r.2.2 ∧
      if net.n = 1 then r.1 = none
      else ∃ x : ℝ, r.1 = some x ∧ x = Real.sqrt (meanSquare net r.2.1) ∧ 0 < x ∧ x < 1 := by
  unfold SBMError
  refine (C31_scores_partial h hn acc 0 (nIter := sbmIter) (by unfold sbmIter; norm_num) warm decorStep hz t).bind ?_
  rintro ⟨M, tr⟩ hM
  dsimp only at *
  by_cases h1 : net.n = 1
  · rw [if_pos (by rw [h1])]
    exact ⟨hM, by rw [if_pos h1]⟩
  · have h2 : 1 ≤ net.n * (net.n - 1) / 2 := by
      rw [← card_pairs]
      exact card_pos.2 ⟨(0, 1), by simp; omega⟩
    rw [if_neg (by omega)]
    refine ⟨hM, ?_⟩
    rw [if_neg h1]
    refine ⟨_, rfl, ?_⟩
    have e : ((net.n * (net.n - 1) / 2 : ℕ) : ℝ) = (net.n : ℝ) * (net.n - 1) / 2 := by
      obtain ⟨k, hk⟩ := (Nat.even_mul_pred_self net.n).two_dvd
      rw [hk, Nat.mul_div_cancel_left _ (by norm_num)]
      have : ((net.n * (net.n - 1) : ℕ) : ℝ) = (2 * k : ℕ) := by rw [hk]
      push_cast [Nat.cast_sub (show 1 ≤ net.n by omega)] at this
      linarith
    have e2 : ((sbmSum net M : ℚ) : ℝ) / ((net.n * (net.n - 1) / 2 : ℕ) : ℝ) = meanSquare net M := by
      unfold meanSquare
      rw [e, sbmSum_eq]
      push_cast
      rfl
    have hterm : ∀ e ∈ (range net.n ×ˢ range net.n).filter (fun e => e.1 < e.2),
        0 < ((net.a e.1 e.2 : ℚ) - M e.1 e.2) ^ 2 ∧ ((net.a e.1 e.2 : ℚ) - M e.1 e.2) ^ 2 < 1 := by
      intro e he
      simp only [mem_filter, mem_product, mem_range] at he
      have hb := hM.bounds e.1 he.1.1 e.2 he.1.2 he.2.ne
      unfold Net.a
      split_ifs <;> push_cast <;> constructor <;> nlinarith [hb.1, hb.2]
    have hne : ((range net.n ×ˢ range net.n).filter (fun e => e.1 < e.2)).Nonempty :=
      ⟨(0, 1), by simp; omega⟩
    have lo : 0 < sbmSum net M := by
      rw [sbmSum_eq]
      exact sum_pos (fun e he => (hterm e he).1) hne
    have hi : sbmSum net M < (net.n * (net.n - 1) / 2 : ℕ) := by
      rw [sbmSum_eq, ← card_pairs, ← nsmul_one, ← sum_const]
      exact sum_lt_sum_of_nonempty hne (fun e he => (hterm e he).2)
    have lo' : (0 : ℝ) < sbmSum net M := by exact_mod_cast lo
    have hi' : ((sbmSum net M : ℚ) : ℝ) < (net.n * (net.n - 1) / 2 : ℕ) := by exact_mod_cast hi
    refine ⟨by rw [e2], Real.sqrt_pos.2 (div_pos lo' (by linarith)), ?_⟩
    rw [Real.sqrt_lt' one_pos, one_pow]
    exact (div_lt_one (by linarith)).2 hi'

/-! ## C106 -/

/-- Sums over the sampled states, up to a factor. -/
def AccOK (obs tar : Net) (a : Acc) (tr : List St) : Prop :=
  (a.base = none ∧ tr = [] ∧ a.tar = 0 ∧ a.obs = 0) ∨
  ∃ b, a.base = some b ∧
    a.tar = Real.exp (-b) * (tr.map fun s => ((reliability obs tar s.part.inGroup : ℚ) : ℝ)).sum ∧
    a.obs = Real.exp (-b) * (tr.map fun s => ((reliability obs obs s.part.inGroup : ℚ) : ℝ)).sum

theorem exp_log_sub {x : ℚ} (hx : 0 < x) (b : ℝ) : Real.exp (Real.log (x : ℝ) - b) = Real.exp (-b) * (x : ℝ) := by
  rw [sub_eq_add_neg, Real.exp_add, Real.exp_log (by exact_mod_cast hx), mul_comm]

theorem AccOK.add {obs tar : Net} {a : Acc} {tr : List St} (h : AccOK obs tar a tr) (s : St) :
    AccOK obs tar (a.add (Real.log (reliability obs tar s.part.inGroup : ℚ), Real.log (reliability obs obs s.part.inGroup : ℚ)))
      (tr ++ [s]) := by
  refine Or.inr ⟨_, rfl, ?_, ?_⟩
  all_goals
    unfold Acc.add
    dsimp only
    rw [exp_log_sub (reliability_pos _ _ _)]
    rcases h with ⟨h1, rfl, h2, h3⟩ | ⟨b, h1, h2, h3⟩
    · simp [h1, h2, h3]
    · rw [h1, Option.getD_some, List.map_append, List.sum_append, mul_add]
      simp [h2, h3]

theorem netSample_holds {obs tar : Net} (ho : obs.Simple) (ht : tar.Simple) (hn : tar.n = obs.n) {linC : ℝ}
    {step : St → Res St} (hstep : ∀ s, Sampling obs linC s → (step s).Holds (Sampling obs linC)) :
    ∀ (k : ℕ) (s : St) (a : Acc) (tr : List St), Sampling obs linC s → (∀ s ∈ tr, Divides obs s.part.inGroup) →
      AccOK obs tar a tr →
      (netSample step obs tar k s a tr).Holds fun r => r.2.length = tr.length + k ∧
        (∀ s ∈ r.2, Divides obs s.part.inGroup) ∧ AccOK obs tar r.1 r.2
  | 0, s, a, tr, _, htr, ha => ⟨rfl, htr, ha⟩
  | k + 1, s, a, tr, hs, htr, ha => by
    unfold netSample
    refine (hstep s hs).bind ?_
    intro s1 hs1
    dsimp only
    have hb := hs1.back ho
    obtain ⟨c, hc⟩ := hs1
    obtain ⟨q1, q2⟩ := copy_facts ho ht hn hc.part
    have e1 : (mapBack obs s1.part).inGroup = s1.part.inGroup := (mapBack_eq ho hc.part).1
    have q1 : (mapCopy obs tar s1.part).inGroup = s1.part.inGroup := q1
    have hb' := hb
    obtain ⟨c', hc'⟩ := hb'
    have q2 : PartOK tar obs.n (mapCopy obs tar s1.part) := q2
    have p2 : PartOK obs obs.n (mapBack obs s1.part) := hc'.part
    have cc : ∀ g < obs.n, ∀ g' < obs.n, s1.G2G g g' = links obs (mapBack obs s1.part).inGroup g g' := hc'.counts
    rw [netContrib_eq ho ht hn p2 q2 (by rw [q1, e1]) cc]
    simp only [Res.ofOption_some, Res.bind_ok]
    refine (netSample_holds ho ht hn hstep k { s1 with part := mapBack obs s1.part } _
      (tr ++ [{ s1 with part := mapBack obs s1.part }]) hb ?_ ?_).mono ?_
    · intro x hx
      rcases List.mem_append.1 hx with h1 | h1
      · exact htr x h1
      · rw [List.mem_singleton] at h1; subst h1; exact hb.divides
    · exact ha.add { s1 with part := mapBack obs s1.part }
    · rintro ⟨a', tr'⟩ ⟨e, h1, h2⟩
      refine ⟨?_, h1, h2⟩
      rw [e]; simp; omega

theorem sum_reliability_pos {obs tar : Net} {tr : List St} (h : tr ≠ []) :
    0 < (tr.map fun s => ((reliability obs tar s.part.inGroup : ℚ) : ℝ)).sum := by
  apply List.sum_pos
  · intro x hx
    obtain ⟨s, -, rfl⟩ := List.mem_map.1 hx
    exact_mod_cast reliability_pos _ _ _
  · simpa using h

/-- **C106**: for every random stream, `NetworkScore` stays in its arrays and returns the sum over the
sampled divisions of the chance of the target network, divided by the same sum for the observed network;
a positive number. (As in C29, the uninitialised scratch array is supposed to hold zeros.) -/
theorem C106_score_partial {obs tar : Net} (ho : obs.Simple) (ht : tar.Simple) (hn : tar.n = obs.n) (h0 : 0 < obs.n)
    (acc : ℝ → ℚ → Bool) (linC : ℝ) (nIter : ℕ) (warm : List ℕ) (decorStep : ℕ) {scratch : ℕ → Int}
    (hz : ∀ g < obs.n, scratch g = 0) (t : Tape) :
    (NetworkScore acc tar obs linC nIter warm decorStep scratch t).Holds fun r =>
      r.2.length = nIter ∧ (∀ s ∈ r.2, Divides obs s.part.inGroup) ∧
      if nIter = 0 then r.1 = none
      else ∃ x : ℝ, r.1 = some x ∧ 0 < x ∧
        x = (r.2.map fun s => ((reliability obs tar s.part.inGroup : ℚ) : ℝ)).sum /
          (r.2.map fun s => ((reliability obs obs s.part.inGroup : ℚ) : ℝ)).sum := by
  unfold NetworkScore
  refine (prepare_holds ho h0 acc linC warm hz t).bind ?_
  intro s hs
  refine (netSample_holds ho ht hn (Sampling.step ho acc linC decorStep) nIter _ _ [] hs.reset
    (by simp) (Or.inl ⟨rfl, rfl, rfl, rfl⟩)).bind ?_
  rintro ⟨a, tr⟩ ⟨e, h1, h2⟩
  dsimp only at *
  have e : tr.length = nIter := by simpa using e
  by_cases h3 : nIter = 0
  · rw [if_pos h3]
    exact ⟨e, h1, by rw [if_pos h3]⟩
  · rw [if_neg h3]
    refine ⟨e, h1, ?_⟩
    rw [if_neg h3]
    refine ⟨_, rfl, ?_⟩
    have hne : tr ≠ [] := by rintro rfl; simp at e; omega
    rcases h2 with ⟨-, h2, -⟩ | ⟨b, -, h2, h4⟩
    · exact absurd h2 hne
    · have p1 := sum_reliability_pos (obs := obs) (tar := tar) hne
      have p2 := sum_reliability_pos (obs := obs) (tar := obs) hne
      have p3 : (0 : ℝ) < nIter := by exact_mod_cast Nat.pos_of_ne_zero h3
      have p4 := Real.exp_pos (-b)
      have q : a.tar / nIter / (a.obs / nIter) =
          (tr.map fun s => ((reliability obs tar s.part.inGroup : ℚ) : ℝ)).sum /
          (tr.map fun s => ((reliability obs obs s.part.inGroup : ℚ) : ℝ)).sum := by
        rw [h2, h4]
        field_simp
      exact ⟨by rw [q]; exact div_pos p1 p2, q⟩

/-- **C106**: the score of the observed network itself is exactly 1. -/
theorem C106_observed {obs : Net} (ho : obs.Simple) (h0 : 0 < obs.n) (acc : ℝ → ℚ → Bool) (linC : ℝ) {nIter : ℕ}
    (hI : 0 < nIter) (warm : List ℕ) (decorStep : ℕ) {scratch : ℕ → Int} (hz : ∀ g < obs.n, scratch g = 0)
    (t : Tape) : (NetworkScore acc obs obs linC nIter warm decorStep scratch t).Holds fun r => r.1 = some 1 := by
  refine (C106_score_partial ho ho rfl h0 acc linC nIter warm decorStep hz t).mono ?_
  rintro ⟨x, tr⟩ ⟨e, -, h⟩
  rw [if_neg (by omega)] at h
  obtain ⟨y, h1, -, h2⟩ := h
  dsimp only at *
  rw [h1, h2, div_self (sum_reliability_pos (by rintro rfl; simp at e; omega)).ne']

/-! ## C107 -/

/-- Lists that divide the nodes: every node is in exactly one of the groups `0 … n-1`, once. -/
def Splits (net : Net) (p : Part) : Prop :=
  (∀ g < net.n, (p.grp g).nodes.Nodup ∧ (p.grp g).size = (p.grp g).nodes.length ∧ ∀ v ∈ (p.grp g).nodes, v < net.n) ∧
  ∀ v < net.n, ∃! g, g < net.n ∧ v ∈ (p.grp g).nodes

/-- What is to be known of a copy `c` of the partition of a state. -/
structure CopyOK (net : Net) (c : Part) (s : St) : Prop where
  splits : Splits net c
  same : ∀ g < net.n, (c.grp g).nodes = (s.part.grp g).nodes
  links : ∀ g < net.n, (c.grp g).inlinks = 2 * links net s.part.inGroup g g
  groups : ∀ g < net.n, ∀ v, v ∈ (c.grp g).nodes ↔ v < net.n ∧ s.part.inGroup v = some g

theorem copy_ok (h : net.Simple) {linC : ℝ} {s : St} (hs : Sampling net linC s) :
    CopyOK net (CopyPartition net net.n s.part.grp s.part.inGroup) { s with part := mapBack net s.part } := by
  have hd := hs.divides
  obtain ⟨c, hc⟩ := hs
  have hp : PartOK net net.n s.part := hc.part
  have hl := hp.lists
  obtain ⟨e1, e2, e3⟩ := mapBack_eq h hp
  obtain ⟨c1, c2⟩ := C85_copy_counters h hp
  obtain ⟨d1, -, -⟩ := C85_copy_map net net.n s.part (fun g hg => by rw [hl.size g hg])
  have hmem : ∀ g < net.n, ∀ v, v ∈ (s.part.grp g).nodes ↔ v < net.n ∧ s.part.inGroup v = some g := by
    intro g hg v
    rw [← List.mem_toFinset, (hp.groups g hg).mem, mem_members]
  refine ⟨⟨?_, ?_⟩, ?_, ?_, ?_⟩
  · intro g hg
    rw [(d1 g hg).1, (d1 g hg).2]
    exact ⟨hl.nodup g hg, hl.size g hg, hl.range g hg⟩
  · intro v hv
    obtain ⟨g, hg, hvg⟩ := hd v hv
    refine ⟨g, ⟨hg, ?_⟩, ?_⟩
    · rw [(d1 g hg).1]; exact (hmem g hg v).2 ⟨hv, hvg⟩
    · rintro g' ⟨hg', hv'⟩
      rw [(d1 g' hg').1, hmem g' hg'] at hv'
      exact Option.some.inj (hv'.2.symm.trans hvg)
  · intro g hg
    rw [(d1 g hg).1]
    show _ = ((mapBack net s.part).grp g).nodes
    rw [e3 g hg]
  · intro g hg
    rw [(c2 g hg).2.1, inlinks_eq hp h hg]
    show _ = 2 * LS.links net (mapBack net s.part).inGroup g g
    rw [e1]
  · intro g hg v
    rw [(d1 g hg).1, hmem g hg]
    show _ ↔ v < net.n ∧ (mapBack net s.part).inGroup v = some g
    rw [e1]

theorem partSample_holds (h : net.Simple) {linC : ℝ} {step : St → Res St}
    (hstep : ∀ s, Sampling net linC s → (step s).Holds (Sampling net linC)) :
    ∀ (k : ℕ) (s : St) (ps : List Part) (tr : List St), Sampling net linC s → List.Forall₂ (CopyOK net) ps tr →
      (partSample step net k s ps tr).Holds fun r => r.1.length = ps.length + k ∧ List.Forall₂ (CopyOK net) r.1 r.2
  | 0, s, ps, tr, _, htr => ⟨rfl, htr⟩
  | k + 1, s, ps, tr, hs, htr => by
    unfold partSample
    refine (hstep s hs).bind ?_
    intro s1 hs1
    dsimp only
    refine (partSample_holds h hstep k _ _ _ (hs1.back h) (List.rel_append htr
      (List.Forall₂.cons (copy_ok h hs1) List.Forall₂.nil))).mono ?_
    rintro ⟨p', tr'⟩ ⟨e, h1⟩
    refine ⟨?_, h1⟩
    rw [e]; simp; omega

/-- **C107**: for every random stream, `PartitionSampling` returns `nIter` partitions; in each every node is
in exactly one group, the one it had in the sampled state. Their counters of links are not those of the
groups: inner links are counted twice (until `MapPartToNet` is called, C85). (As in C29, the uninitialised
scratch array is supposed to hold zeros.) -/
theorem C107_sampling_partial (h : net.Simple) (hn : 0 < net.n) (acc : ℝ → ℚ → Bool) (linC : ℝ) (nIter : ℕ)
    (warm : List ℕ) (burnin decorStep thin : ℕ) {scratch : ℕ → Int} (hz : ∀ g < net.n, scratch g = 0) (t : Tape) :
    (PartitionSampling acc net linC nIter warm burnin decorStep thin scratch t).Holds fun r =>
      r.1.length = nIter ∧ List.Forall₂ (CopyOK net) r.1 r.2 := by
  unfold PartitionSampling
  refine (prepare_holds h hn acc linC _ hz t).bind ?_
  intro s hs
  refine (partSample_holds h (Sampling.step h acc linC thin) nIter _ [] [] hs.reset List.Forall₂.nil).mono ?_
  rintro ⟨p, tr⟩ ⟨e, h1⟩
  exact ⟨by simpa using e, h1⟩

/-- **C107**: if `(int)(decorStep*thinning)` is 0 or less, no move is attempted between samples: all
partitions returned are the same. -/
theorem C107_thin (acc : ℝ → ℚ → Bool) (h : net.Simple) (hn : 0 < net.n) (linC : ℝ) (nIter : ℕ)
    (warm : List ℕ) (burnin decorStep : ℕ) {scratch : ℕ → Int} (hz : ∀ g < net.n, scratch g = 0) (t : Tape) :
    (PartitionSampling acc net linC nIter warm burnin decorStep 0 scratch t).Holds fun r =>
      ∃ ns : ℕ → List ℕ, ∀ c ∈ r.1, ∀ g < net.n, (c.grp g).nodes = ns g := by
  unfold PartitionSampling
  refine (prepare_holds h hn acc linC _ hz t).bind ?_
  intro s hs
  have key : ∀ (ns : ℕ → List ℕ) (k : ℕ) (s : St) (ps : List Part) (tr : List St), Sampling net linC s →
      (∀ g < net.n, (s.part.grp g).nodes = ns g) → (∀ c ∈ ps, ∀ g < net.n, (c.grp g).nodes = ns g) →
      (partSample (LinkScoreMCStep acc net linC 0) net k s ps tr).Holds fun r =>
        ∀ c ∈ r.1, ∀ g < net.n, (c.grp g).nodes = ns g := by
    intro ns k
    induction k with
    | zero => intro s ps tr _ _ h3; exact h3
    | succ k ih =>
      intro s ps tr h1 h2 h3
      unfold partSample
      have e : LinkScoreMCStep acc net linC 0 s =
          .ok { s with slg := (List.range net.n).filter fun g => 0 < (s.part.grp g).size } := rfl
      have h1' : Sampling net linC { s with slg := (List.range net.n).filter fun g => 0 < (s.part.grp g).size } := by
        have := Sampling.step h acc linC 0 s h1
        rw [e] at this; exact this
      rw [e]
      simp only [Res.bind_ok]
      have hc := copy_ok h h1'
      refine ih _ _ _ (h1'.back h) ?_ ?_
      · intro g hg
        have := hc.same g hg
        obtain ⟨c, hc⟩ := h1
        have := (mapBack_eq h hc.part).2.2 g hg
        have : (mapBack net s.part).grp g = s.part.grp g := this
        show ((mapBack net s.part).grp g).nodes = ns g
        rw [this]; exact h2 g hg
      · intro x hx g hg
        rcases List.mem_append.1 hx with hx | hx
        · exact h3 x hx g hg
        · rw [List.mem_singleton] at hx
          subst hx
          obtain ⟨c, hc⟩ := h1
          have hp : PartOK net net.n s.part := hc.part
          have hl := hp.lists
          have := (C85_copy_map net net.n s.part (fun g hg => by rw [hl.size g hg])).1 g hg
          exact this.1.trans (h2 g hg)
  exact (key (fun g => (s.part.grp g).nodes) nIter _ [] [] hs.reset (fun _ _ => rfl) (by simp)).mono
    fun r hr => ⟨_, hr⟩

/-! ## The chances add up to 1 -/

/-- `∑ (m choose l) (a+l)! (b+m-l)!`. -/
def betaSum (a b m : ℕ) : ℚ :=
  ∑ l ∈ range (m + 1), (m.choose l : ℚ) * (a + l).factorial * (b + (m - l)).factorial

theorem betaSum_succ (a b m : ℕ) : betaSum a b (m + 1) = betaSum a (b + 1) m + betaSum (a + 1) b m := by
  unfold betaSum
  rw [sum_range_succ']
  have h1 : ∀ l ∈ range (m + 1), (((m + 1).choose (l + 1) : ℕ) : ℚ) * (a + (l + 1)).factorial * (b + (m + 1 - (l + 1))).factorial
      = (m.choose l : ℚ) * (a + 1 + l).factorial * (b + (m - l)).factorial +
        (m.choose (l + 1) : ℚ) * (a + (l + 1)).factorial * (b + 1 + (m - (l + 1))).factorial := by
    intro l hl
    have hl := mem_range.1 hl
    rw [Nat.choose_succ_succ, show a + (l + 1) = a + 1 + l by omega, show m + 1 - (l + 1) = m - l by omega]
    by_cases e : l = m
    · subst e; simp
    · rw [show b + 1 + (m - (l + 1)) = b + (m - l) by omega]
      push_cast; ring
  rw [sum_congr rfl h1, sum_add_distrib]
  rw [sum_range_succ (fun l => (m.choose (l + 1) : ℚ) * (a + (l + 1)).factorial * (b + 1 + (m - (l + 1))).factorial)]
  rw [Nat.choose_succ_self, Nat.cast_zero, zero_mul, zero_mul, add_zero]
  rw [sum_range_succ' (fun l => (m.choose l : ℚ) * (a + l).factorial * (b + 1 + (m - l)).factorial)]
  rw [show b + (m + 1 - 0) = b + 1 + (m - 0) by omega]
  simp only [Nat.choose_zero_right]
  ring

theorem betaSum_eq : ∀ m a b : ℕ, betaSum a b m * (a + b + 1).factorial = (a + b + m + 1).factorial * a.factorial * b.factorial
  | 0, a, b => by simp [betaSum]; ring
  | m + 1, a, b => by
    have h1 := betaSum_eq m a (b + 1)
    have h2 := betaSum_eq m (a + 1) b
    have p : (((a + b + 1).factorial : ℕ) : ℚ) ≠ 0 := by exact_mod_cast Nat.factorial_ne_zero _
    have p2 : ((a : ℚ) + b + 2) ≠ 0 := by positivity
    rw [show a + (b + 1) + 1 = (a + b + 1) + 1 by omega, Nat.factorial_succ (a + b + 1), Nat.factorial_succ b,
      show a + (b + 1) + m + 1 = a + b + (m + 1) + 1 by omega] at h1
    rw [show a + 1 + b + 1 = (a + b + 1) + 1 by omega, Nat.factorial_succ (a + b + 1), Nat.factorial_succ a,
      show a + 1 + b + m + 1 = a + b + (m + 1) + 1 by omega] at h2
    rw [betaSum_succ]
    push_cast at h1 h2
    have h3 : (betaSum a (b + 1) m + betaSum (a + 1) b m) * ((a + b + 1).factorial : ℚ) * ((a : ℚ) + b + 2) =
        (a + b + (m + 1) + 1).factorial * a.factorial * b.factorial * ((a : ℚ) + b + 2) := by
      linear_combination h1 + h2
    exact mul_right_cancel₀ p2 h3

/-- **C106**: `predictive` is a chance: over all sets of linked pairs it adds up to 1. -/
theorem C106_chance {r lO : ℕ} (h : lO ≤ r) : ∑ l ∈ range (r + 1), (r.choose l : ℚ) * predictive r lO l = 1 := by
  have h1 := betaSum_eq r lO (r - lO)
  have p1 : ((lO.factorial : ℕ) : ℚ) ≠ 0 := by exact_mod_cast lO.factorial_ne_zero
  have p2 : (((r - lO).factorial : ℕ) : ℚ) ≠ 0 := by exact_mod_cast (r - lO).factorial_ne_zero
  have p3 : (((2 * r + 1).factorial : ℕ) : ℚ) ≠ 0 := by exact_mod_cast (2 * r + 1).factorial_ne_zero
  rw [show lO + (r - lO) + 1 = r + 1 by omega, show lO + (r - lO) + r + 1 = 2 * r + 1 by omega] at h1
  have h2 : ∑ l ∈ range (r + 1), (r.choose l : ℚ) * predictive r lO l =
      betaSum lO (r - lO) r * (r + 1).factorial / ((2 * r + 1).factorial * lO.factorial * (r - lO).factorial) := by
    unfold betaSum
    rw [sum_mul, sum_div]
    refine sum_congr rfl fun l hl => ?_
    have hl := mem_range.1 hl
    unfold predictive
    rw [show 2 * r - lO - l = r - lO + (r - l) by omega]
    push_cast
    ring
  rw [h2, h1]
  field_simp

/-! ## The statements are about something -/

/-- On a network of three nodes the preparation without warming up succeeds. -/
theorem three_prepare : ∃ s, prepare (fun _ _ => true) three 0 [] (fun _ => 0) [0, 1 / 2, 0] = .ok s := by
  have h := prepare_holds three_simple (by decide) (fun _ _ => true) 0 []
    (scratch := fun _ => 0) (fun _ _ => rfl) [0, 1 / 2, 0]
  have hr : ∃ p t, randomInit three 3 (List.range 3) Part.empty [0, 1 / 2, 0] = .ok (p, t) := by
    have hb : (match randomInit three 3 (List.range 3) Part.empty [0, 1 / 2, 0] with
        | .ok _ => true
        | _ => false) = true := by decide +kernel
    revert hb
    rcases randomInit three 3 (List.range 3) Part.empty [0, 1 / 2, 0] with ⟨p, t⟩ | _ | _
    · exact fun _ => ⟨p, t, rfl⟩
    · intro hb; simp at hb
    · intro hb; simp at hb
  obtain ⟨p, t, e⟩ := hr
  unfold prepare at h ⊢
  have e' : randomInit three three.n (List.range three.n) Part.empty [0, 1 / 2, 0] = .ok (p, t) := e
  rw [e'] at h ⊢
  simp only [Res.bind_ok] at h ⊢
  cases hH : PartitionH three three.n 0 p with
  | none => rw [hH] at h; exact absurd h (by simp)
  | some H => exact ⟨_, rfl⟩

/-- A run of `PartitionSampling` that returns two partitions. -/
example : ∃ r, PartitionSampling (fun _ _ => true) three 0 2 [] 0 0 0 (fun _ => 0) [0, 1 / 2, 0] = .ok r ∧
    r.1.length = 2 := by
  obtain ⟨s, hs⟩ := three_prepare
  have h := C107_sampling_partial three_simple (by decide) (fun _ _ => true) 0 2 [] 0 0 0
    (scratch := fun _ => 0) (fun _ _ => rfl) [0, 1 / 2, 0]
  unfold PartitionSampling at h ⊢
  rw [List.replicate_zero, List.append_nil, hs] at h ⊢
  exact ⟨_, rfl, rfl⟩

/-- A run of `NetworkScore` that returns a number. -/
example : NetworkScore (fun _ _ => true) three three 0 1 [] 0 (fun _ => 0) [0, 1 / 2, 0] ≠ .starved := by
  obtain ⟨s, hs⟩ := three_prepare
  have h := C106_observed three_simple (by decide) (fun _ _ => true) 0 (nIter := 1) (by norm_num) [] 0
    (scratch := fun _ => 0) (fun _ _ => rfl) [0, 1 / 2, 0]
  unfold NetworkScore at h ⊢
  rw [hs] at h ⊢
  simp only [Res.bind_ok] at h ⊢
  unfold netSample at h ⊢
  have e : ∀ s, LinkScoreMCStep (fun _ _ => true) three 0 0 s =
      .ok { s with slg := (List.range three.n).filter fun g => 0 < (s.part.grp g).size } := fun _ => rfl
  rw [e] at h ⊢
  simp only [Res.bind_ok] at h ⊢
  cases hc : netContrib three three.n s.G2G (mapBack three s.part) (mapCopy three three s.part) with
  | none => rw [hc] at h; exact absurd h (by simp)
  | some c => simp [netSample]

/-- Four pairs, two of them linked: the chance that exactly the same pairs are linked again is 1/21. -/
example : predictive 4 2 2 = 1 / 21 ∧ predictive 1 0 0 = 2 / 3 ∧ predictive 1 0 1 = 1 / 3 := by
  refine ⟨?_, ?_, ?_⟩ <;> norm_num [predictive, Nat.factorial]

end LS
