import Verif.Programs.StructModel
import Verif.Programs.Legacy
import Verif.Missing.NetScore
import Verif.Tools.Props

/-! # C168: the error of the block model, compared with random networks -/

set_option linter.unusedSimpArgs false

namespace PG

open RG Finset
open GR (Holds SymSimple WG CachesOK LabelsOK CopyNetwork RandomizeSymmetricNetwork)

/-! ## Specification -/

/-- `e` is the root mean square, over the pairs of nodes, of the difference between link and score, for scores that are averages
over sampled partitions (C31, C105). -/
def IsError (net : GR.Net) (e : ℝ) : Prop :=
  ∃ M tr, LS.ScoresOK (inside net) 0 10000 M tr ∧ e = Real.sqrt (LS.meanSquare (inside net) M) ∧ 0 < e ∧ e < 1

/-- The network is one with nodes, labels and degrees of the graph `g` on `n` nodes. -/
structure Shuffled (net : GR.Net) (g : WG) (ran : GR.Net) : Prop where
  n : ran.n = net.n
  label : ∀ i < net.n, ran.label i = net.label i
  graph : ∃ g', Holds ran g' ∧ SymSimple net.n g' ∧ ∀ k < net.n, g'.degree net.n k = g.degree net.n k

/-- Mean and standard deviation (of the population). -/
noncomputable def averageOf (l : List ℝ) : ℝ := l.sum / l.length

/-- See above. -/
noncomputable def deviation (l : List ℝ) : ℝ := Real.sqrt ((l.map fun x => (x - averageOf l) ^ 2).sum / l.length)

/-! ## Proof -/

theorem inside_simple {net : GR.Net} {g : WG} (h : Holds net g) (hs : SymSimple net.n g)
    (hd : ∀ i k, i < net.n → k < net.n → net.label i = net.label k → i = k) : (inside net).Simple := by
  refine (drawn (G := ⟨fun a b => ∃ i j, i < net.n ∧ j < net.n ∧ net.label i = a ∧ net.label j = b ∧ (g i j).isSome,
    ⟨fun a b ⟨i, j, hi, hj, ha, hb, e⟩ => ⟨j, i, hj, hi, hb, ha, by rw [hs.sym]; exact e⟩⟩,
    ⟨fun a ⟨i, j, hi, hj, ha, hb, e⟩ => by
      obtain rfl := hd i j hi hj (ha.trans hb.symm)
      rw [hs.loop] at e; cases e⟩⟩) h hs ?_ rfl ?_).simple
  · refine List.Nodup.map_on (fun i hi j hj e => ?_) List.nodup_range
    exact hd i j (List.mem_range.1 hi) (List.mem_range.1 hj) e
  · intro i hi j hj
    constructor
    · rintro ⟨i', j', hi', hj', ei, ej, e⟩
      obtain rfl := hd i' i hi' hi ei
      obtain rfl := hd j' j hj' hj ej
      exact e
    · exact fun e => ⟨i, j, hi, hj, rfl, rfl, e⟩

theorem two_nodes {n : ℕ} {g : WG} (hs : SymSimple n g) (hlink : ∃ i j, (g i j).isSome) : 2 ≤ n := by
  obtain ⟨i, j, e⟩ := hlink
  obtain ⟨hi, hj⟩ := hs.supp i j e
  have : i ≠ j := by
    rintro rfl
    rw [hs.loop] at e; cases e
  omega

theorem sbmError_ok {net : GR.Net} (h : (inside net).Simple) (hn : 2 ≤ net.n) (acc : ℝ → ℚ → Bool) {o : Open}
    (hz : ∀ net t g, g < net.n → o.scratch net t g = 0) (t : Tape) :
    (sbmError acc o net t).Holds fun r => ∃ e, r.1 = some e ∧ IsError net e := by
  unfold sbmError
  refine (LS.C105_error_partial h (by show 0 < net.n; omega) acc (o.warm net t) (o.decor net t) (fun g hg => hz net t g hg) t).bind ?_
  rintro ⟨e, M, tr⟩ ⟨h1, h2⟩
  dsimp only at h1 h2 ⊢
  rw [if_neg (by show net.n ≠ 1; omega)] at h2
  obtain ⟨x, rfl, h3, h4, h5⟩ := h2
  exact ⟨x, rfl, M, tr, h1, h3, h4, h5⟩

theorem loop_ok {err : GR.Net → Tape → Res (Option ℝ × Tape)} {g : WG} {net : GR.Net} (hn : 2 ≤ net.n)
    (hd : ∀ i k, i < net.n → k < net.n → net.label i = net.label k → i = k)
    (herr : ∀ net : GR.Net, (inside net).Simple → 2 ≤ net.n → ∀ t, (err net t).Holds fun r => ∃ e, r.1 = some e ∧ IsError net e) :
    ∀ (k : ℕ) (ran : GR.Net) (g0 : WG) (t : Tape), ran.n = net.n → (∀ i < net.n, ran.label i = net.label i) → CachesOK ran →
      Holds ran g0 → SymSimple net.n g0 → (∀ i < net.n, g0.degree net.n i = g.degree net.n i) → (∃ i j, (g0 i j).isSome) →
      (structLoop err k ran t).Holds fun r => r.1.length = k ∧
        ∀ x ∈ r.1, Shuffled net g x.1 ∧ ∃ e, x.2 = some e ∧ IsError x.1 e
  | 0, ran, g0, t, _, _, _, _, _, _, _ => ⟨rfl, by simp⟩
  | k + 1, ran, g0, t, h1, h2, h3, h4, h5, h6, h7 => by
    unfold structLoop
    refine (GR.C17_degrees_preserved h4 h3 (h1.symm ▸ h5) h7 100 t).bind ?_
    rintro ⟨ran', t'⟩ ⟨r1, r2, r3, g', r4, r5, r6, -⟩
    dsimp only at r1 r2 r3 r4 r5 r6 ⊢
    rw [h1] at r5 r6
    have n' : ran'.n = net.n := r1.trans h1
    have l' : ∀ i < net.n, ran'.label i = net.label i := fun i hi => by rw [r2, h2 i hi]
    have d' : ∀ i < net.n, g'.degree net.n i = g.degree net.n i := fun i hi => (r6 i).trans (h6 i hi)
    have hlink : ∃ i j, (g' i j).isSome := by
      obtain ⟨i, j, e⟩ := h7
      obtain ⟨hi, hj⟩ := h5.supp i j e
      have : 0 < g'.degree net.n i := by
        rw [r6]
        exact card_pos.2 ⟨j, by simp [hj, e]⟩
      obtain ⟨j', hj'⟩ := card_pos.1 this
      exact ⟨i, j', (mem_filter.1 hj').2⟩
    refine (herr ran' (inside_simple r4 (n'.symm ▸ r5) ?_) (n'.symm ▸ hn) t').bind ?_
    · intro i j hi hj e
      rw [n'] at hi hj
      rw [l' i hi, l' j hj] at e
      exact hd i j hi hj e
    rintro ⟨e, t''⟩ he
    refine (loop_ok hn hd herr k ran' g' t'' n' l' r3 r4 r5 d' hlink).bind ?_
    rintro ⟨l, t3⟩ ⟨k1, k2⟩
    refine ⟨by simpa using k1, ?_⟩
    intro x hx
    rcases List.mem_cons.1 hx with rfl | hx
    · exact ⟨⟨n', l', g', r4, r5, d'⟩, he⟩
    · exact k2 x hx

theorem mapM_all_some (l : List ℝ) : (l.map some).mapM id = some l := by
  induction l with
  | nil => rfl
  | cons x l ih => rw [List.map_cons, List.mapM_cons, ih]; rfl

theorem quot_ok (e : ℝ) (l : List ℝ) : structQuot (some e) (l.map some) =
    if l = [] ∨ deviation l = 0 then none else some ((averageOf l - e) / deviation l) := by
  unfold structQuot
  simp only [mapM_all_some, Option.bind_eq_bind, Option.bind_some]
  by_cases hl : l = []
  · subst hl
    simp [Tools.mean]
  · obtain ⟨m, s, hm, hs, h0, h1, -⟩ := Tools.C41_stddev l hl
    have hp : (0 : ℝ) < l.length := by exact_mod_cast List.length_pos_iff.2 hl
    have em : m = averageOf l := by
      obtain ⟨m', hm', e', -⟩ := Tools.C41_mean l hl
      obtain rfl := Option.some.inj (hm.symm.trans hm')
      unfold averageOf
      rw [eq_div_iff hp.ne', e']
    have es : s = deviation l := by
      unfold deviation
      rw [← em, ← h1, mul_div_assoc, div_self hp.ne', mul_one, Real.sqrt_sq h0]
    rw [hm, hs, ← em, ← es]
    simp only [Option.bind_some, hl, false_or]

/-- **C168**: for every simple network with links and every random stream, `SBMStructureScore` compares the error of the block model on the
network with its errors on `nrep` networks with the same nodes and degrees: the result is the difference from their mean in units of their
standard deviation, and not a finite number if these errors are all equal, or if there are none. (As in C105, the uninitialised scratch array
is supposed to hold zeros. That a run ends is not claimed: see `C168_never_ends`.) -/
theorem C168_structure_partial {net : GR.Net} {g : WG} (h : Holds net g) (hl : LabelsOK net) (hs : SymSimple net.n g)
    (hlink : ∃ i j, (g i j).isSome) (hf : ∀ i, i < net.n → GR.fits (net.label i) = true)
    (hd : ∀ i k, i < net.n → k < net.n → net.label i = net.label k → i = k)
    (acc : ℝ → ℚ → Bool) {o : Open} (hz : ∀ net t g, g < net.n → o.scratch net t g = 0) (nrep : ℕ) (t : Tape) :
    (SBMStructureScore (sbmError acc o) net nrep t).Holds fun r => ∃ (e : ℝ) (es : List ℝ),
      IsError net e ∧ r.2.2 = some e ∧ es.length = nrep ∧ r.2.1.map (·.2) = es.map some ∧
      (∀ x ∈ r.2.1, Shuffled net g x.1 ∧ ∃ e, x.2 = some e ∧ IsError x.1 e) ∧
      r.1 = if nrep = 0 ∨ deviation es = 0 then none else some ((averageOf es - e) / deviation es) := by
  have hn := two_nodes hs hlink
  unfold SBMStructureScore
  refine (sbmError_ok (inside_simple h hs hd) hn acc hz t).bind ?_
  rintro ⟨_, t1⟩ ⟨e, rfl, he⟩
  obtain ⟨copy, ec, c1, c2, c3, c4⟩ := GR.copy_ok h hl hf hd
  rw [ec]
  simp only [Res.ofOption_some, Res.bind_ok]
  have hcopy : Holds copy g := by
    intro i hi
    rw [c1] at hi
    obtain ⟨p1, p2, p3⟩ := h i hi
    rw [c3 i hi, c1]
    exact ⟨p1, p2, p3⟩
  have hcache : CachesOK copy := by
    intro i hi
    rw [c1] at hi
    exact ⟨Or.inl (c4 i hi).1, Or.inl (c4 i hi).2⟩
  refine (loop_ok hn hd (fun net hs hn t => sbmError_ok hs hn acc hz t) nrep copy g t1 c1 c2 hcache hcopy hs (fun _ _ => rfl) hlink).bind ?_
  rintro ⟨l, t2⟩ ⟨k1, k2⟩
  dsimp only at k1 k2 ⊢
  have hes : ∃ es : List ℝ, l.map (·.2) = es.map some := by
    clear k1
    induction l with
    | nil => exact ⟨[], rfl⟩
    | cons x l ih =>
      obtain ⟨es, h1⟩ := ih fun y hy => k2 y (by simp [hy])
      obtain ⟨-, e, h2, -⟩ := k2 x (by simp)
      exact ⟨e :: es, by simp [h1, h2]⟩
  obtain ⟨es, hes⟩ := hes
  have hlen : es.length = nrep := by
    have := congrArg List.length hes
    simp only [List.length_map] at this
    omega
  refine ⟨e, es, he, rfl, hlen, hes, k2, ?_⟩
  rw [hes, quot_ok]
  have : es = [] ↔ nrep = 0 := by rw [← List.length_eq_zero_iff, hlen]
  simp only [this]

/-- **C168**, limits: with one repetition the result is never a finite number. -/
theorem C168_one {err : GR.Net → Tape → Res (Option ℝ × Tape)} {net : GR.Net} {t : Tape} {r} (h : SBMStructureScore err net 1 t = .ok r) :
    r.1 = none := by
  unfold SBMStructureScore at h
  cases e1 : err net t with
  | starved => rw [e1] at h; cases h
  | ub => rw [e1] at h; cases h
  | ok x =>
    obtain ⟨ori, t1⟩ := x
    rw [e1] at h
    simp only [Res.bind_ok] at h
    cases e2 : CopyNetwork net with
    | none => rw [e2] at h; cases h
    | some c =>
      rw [e2] at h
      simp only [Res.ofOption_some, Res.bind_ok] at h
      cases e3 : structLoop err 1 c t1 with
      | starved => rw [e3] at h; cases h
      | ub => rw [e3] at h; cases h
      | ok y =>
        obtain ⟨l, t2⟩ := y
        rw [e3] at h
        have hlen : l.length = 1 := by
          unfold structLoop at e3
          cases e4 : RandomizeSymmetricNetwork c 100 t1 with
          | starved => rw [e4] at e3; cases e3
          | ub => rw [e4] at e3; cases e3
          | ok z =>
            obtain ⟨c', t3⟩ := z
            rw [e4] at e3
            simp only [Res.bind_ok] at e3
            cases e5 : err c' t3 with
            | starved => rw [e5] at e3; cases e3
            | ub => rw [e5] at e3; cases e3
            | ok w =>
              rw [e5] at e3
              cases e3
              rfl
        cases h
        match l, hlen with
        | [(c', none)], _ =>
          cases ori <;> rfl
        | [(c', some x)], _ =>
          cases ori with
          | none => rfl
          | some e =>
            have := quot_ok e [x]
            simp only [List.map_cons, List.map_nil] at this ⊢
            rw [this, if_pos]
            right
            simp [deviation, averageOf]

/-- **C168**, limits: if no two links can be switched (for example in stars and complete graphs), no run ends, whatever the random numbers. -/
theorem C168_never_ends {net : GR.Net} {g : WG} (h : Holds net g) (hl : LabelsOK net) (hs : SymSimple net.n g)
    (hlink : ∃ i j, (g i j).isSome) (hf : ∀ i, i < net.n → GR.fits (net.label i) = true)
    (hd : ∀ i k, i < net.n → k < net.n → net.label i = net.label k → i = k)
    (hno : ∀ i j k l, (g i j).isSome → (g k l).isSome → k ≠ i → k ≠ j → l ≠ i → l ≠ j → (g i l).isSome ∨ (g j k).isSome)
    (acc : ℝ → ℚ → Bool) {o : Open} (hz : ∀ net t g, g < net.n → o.scratch net t g = 0) (k : ℕ) (t : Tape) :
    SBMStructureScore (sbmError acc o) net (k + 1) t = .starved := by
  have hn := two_nodes hs hlink
  have key : (SBMStructureScore (sbmError acc o) net (k + 1) t).Holds fun _ => False := by
    unfold SBMStructureScore
    refine (sbmError_ok (inside_simple h hs hd) hn acc hz t).bind ?_
    rintro ⟨_, t1⟩ -
    obtain ⟨copy, ec, c1, c2, c3, c4⟩ := GR.copy_ok h hl hf hd
    rw [ec]
    simp only [Res.ofOption_some, Res.bind_ok]
    have hcopy : Holds copy g := by
      intro i hi
      rw [c1] at hi
      obtain ⟨p1, p2, p3⟩ := h i hi
      rw [c3 i hi, c1]
      exact ⟨p1, p2, p3⟩
    have hcache : CachesOK copy := by
      intro i hi
      rw [c1] at hi
      exact ⟨Or.inl (c4 i hi).1, Or.inl (c4 i hi).2⟩
    unfold structLoop
    rw [GR.C17_never_ends hcopy hcache (c1.symm ▸ hs) hlink hno (by norm_num) t1]
    trivial
  cases e : SBMStructureScore (sbmError acc o) net (k + 1) t with
  | starved => rfl
  | ok r => rw [e] at key; exact key.elim
  | ub => rw [e] at key; exact key.elim

/-- Two links: the hypotheses hold, and a run gives the score. -/
example (acc : ℝ → ℚ → Bool) (t : Tape) : (SBMStructureScore (sbmError acc ⟨fun _ _ => [], fun _ _ => 1, fun _ _ _ => 0⟩) GR.twoLinks 3 t).Holds
    fun r => ∃ e es, r.2.2 = some e ∧ es.length = 3 ∧ r.1 = if deviation es = 0 then none else some ((averageOf es - e) / deviation es) := by
  refine (C168_structure_partial GR.twoLinks_holds.1 ?_ GR.twoLinks_holds.2.2 ⟨0, 1, by decide⟩ ?_ ?_ acc (fun _ _ _ _ => rfl) 3 t).mono ?_
  · intro i hi l hl j hj
    have : i = 0 ∨ i = 1 ∨ i = 2 ∨ i = 3 := by simp only [GR.twoLinks] at hi; omega
    rcases this with rfl | rfl | rfl | rfl <;>
      · simp only [GR.twoLinks] at hl
        simp at hl
        subst hl
        cases hj
        decide
  · show ∀ i, i < 4 → _
    decide
  · intro i k hi hk
    have key : ∀ i < 4, ∀ k < 4, toString i = toString k → i = k := by decide +kernel
    exact key i hi k hk
  · rintro r ⟨e, es, -, h2, h3, -, -, h6⟩
    exact ⟨e, es, h2, h3, by simpa using h6⟩

/-- A quotient: the errors 1 and 3 have mean 2 and deviation 1, an error of 1/2 lies 3/2 below. -/
example : structQuot (some (1 / 2)) [some 1, some 3] = some (3 / 2) := by
  have h : averageOf [1, 3] = 2 := by norm_num [averageOf]
  have hd : deviation [1, 3] = 1 := by
    unfold deviation
    rw [h]
    norm_num
  have := quot_ok (1 / 2) [1, 3]
  rw [h, hd] at this
  simp only [List.map_cons, List.map_nil] at this
  rw [this, if_neg (by simp)]
  norm_num

end PG
