import Verif.KState.Props
import Mathlib.Algebra.BigOperators.Field

/-! # C32: scores of the K states -/

set_option linter.unusedSimpArgs false

namespace KS

open GP RG LS Finset

variable {net : Net} {K : ℕ}

/-- The scores of a query are positive and sum to one. -/
def Distribution (K : ℕ) (score : ℕ → Option ℚ) : Prop :=
  ∃ x : ℕ → ℚ, (∀ k < K, score k = some (x k) ∧ 0 < x k) ∧ ∑ k ∈ range K, x k = 1

theorem sampleScore_dist (h : net.Simple) (hK : 0 < K) {s : KSt} (hs : KCounts net K s) {q : ℕ × ℕ} (h1 : q.1 < net.n)
    (h2 : q.2 < net.n) : Distribution K fun k => sampleScore K s k q := by
  obtain ⟨a, ha⟩ := Option.ne_none_iff_exists'.1 (hs.full _ h1)
  obtain ⟨b, hb⟩ := Option.ne_none_iff_exists'.1 (hs.full _ h2)
  have han := (hs.part.range _ _ ha).2
  have hbn := (hs.part.range _ _ hb).2
  have hsum : (List.range K).foldl (fun n k2 => n + s.G2G k2 a b) 0 = ∑ k ∈ range K, s.G2G k a b := by
    rw [foldl_sum, zero_add, range_sum]
  have hc : ∀ k < K, 0 ≤ s.G2G k a b := fun k hk => by
    rw [hs.g2g k hk a han b hbn]; exact ratings_nonneg h k a b
  have h0 : 0 ≤ ∑ k ∈ range K, s.G2G k a b := sum_nonneg fun k hk => hc k (mem_range.1 hk)
  have hpos : (0 : ℚ) < ((∑ k ∈ range K, s.G2G k a b + K : Int) : ℚ) := by exact_mod_cast (by omega)
  refine ⟨fun k => ((s.G2G k a b + 1 : Int) : ℚ) / ((∑ k ∈ range K, s.G2G k a b + K : Int) : ℚ), ?_, ?_⟩
  · intro k hk
    refine ⟨?_, div_pos (by have := hc k hk; exact_mod_cast (by omega)) hpos⟩
    dsimp only [sampleScore]
    rw [ha, hb]
    simp only [Option.bind_eq_bind, Option.bind_some, hsum]
  · rw [← sum_div, div_eq_one_iff_eq hpos.ne']
    push_cast
    rw [sum_add_distrib]
    simp

/-- Sums of `n` distributions. -/
def Acc.OK (net : Net) (K : ℕ) (A : Acc) : Prop :=
  A.norm = A.iter ∧ ∀ q : ℕ × ℕ, q.1 < net.n → q.2 < net.n → ∃ x : ℕ → ℚ,
    (∀ k < K, A.score k q = some (x k) ∧ 0 ≤ x k ∧ (0 < A.norm → 0 < x k)) ∧ ∑ k ∈ range K, x k = A.norm

theorem collect_ok (h : net.Simple) (hr : Rated net K) (hK : 0 < K) {s : KSt} {off : ℝ} (hs : KInv net K off s) {A : Acc}
    (hA : A.OK net K) : (∃ off', KInv net K off' (collect K s A).1) ∧ (collect K s A).2.OK net K := by
  unfold collect
  dsimp only
  have key : ∀ A' : Acc, A'.OK net K → (Acc.mk (A'.iter + 1) (A'.norm + 1) fun k q => do
      let x ← A'.score k q
      let y ← sampleScore K s k q
      some (x + y)).OK net K := by
    rintro A' ⟨hn, hA'⟩
    refine ⟨by dsimp only; rw [hn], ?_⟩
    intro q h1 h2
    obtain ⟨x, hx, hxs⟩ := hA' q h1 h2
    obtain ⟨y, hy, hys⟩ := sampleScore_dist h hK hs.toKCounts h1 h2
    refine ⟨fun k => x k + y k, ?_, ?_⟩
    · intro k hk
      obtain ⟨e1, p1, _⟩ := hx k hk
      obtain ⟨e2, p2⟩ := hy k hk
      dsimp only at e2 ⊢
      rw [e1, e2]
      exact ⟨rfl, by linarith, fun _ => by linarith⟩
    · rw [sum_add_distrib, hxs, hys]
      push_cast; rfl
  by_cases hc : s.H < -400
  · simp only [hc, if_true]
    refine ⟨⟨s.H + off, ⟨⟨hs.part, hs.full, hs.n2g, hs.g2g, hs.ng⟩, ?_⟩⟩, key (Acc.mk 0 0 fun _ _ => some 0) ?_⟩
    · dsimp only
      rw [hs.energy, zero_add]
    · exact ⟨rfl, fun q _ _ => ⟨fun _ => 0, fun k _ => ⟨rfl, le_refl _, fun h => absurd h (by simp)⟩, by simp⟩⟩
  · simp only [hc, if_false]
    exact ⟨⟨off, hs⟩, key A hA⟩

theorem kSample_ok (h : net.Simple) (hr : Rated net K) (hK : 0 < K) (acc : ℝ → ℚ → Bool) (decorStep nIter : ℕ) :
    ∀ (fuel : ℕ) (s : KSt) (A : Acc), (∃ off, KInv net K off s) → A.OK net K →
    (kSample acc net K decorStep nIter fuel s A).Holds fun r => (∃ off, KInv net K off r.1) ∧ r.2.OK net K ∧ nIter ≤ r.2.iter
  | 0, s, A, hs, hA => by
    unfold kSample
    split_ifs with hi
    · trivial
    · exact ⟨hs, hA, by dsimp only; omega⟩
  | fuel + 1, s, A, hs, hA => by
    unfold kSample
    split_ifs with hi
    · obtain ⟨off, hs⟩ := hs
      refine (C30_step h hr hK acc off decorStep hs).bind ?_
      intro s' hs'
      obtain ⟨h1, h2⟩ := collect_ok h hr hK hs' hA
      exact kSample_ok h hr hK acc decorStep nIter fuel _ _ h1 h2
    · exact ⟨hs, hA, by dsimp only; omega⟩

theorem kSteps_inv (h : net.Simple) (hr : Rated net K) (hK : 0 < K) (acc : ℝ → ℚ → Bool) {off : ℝ} :
    ∀ (fs : List ℕ) (s : KSt), KInv net K off s → (kSteps acc net K fs s).Holds (KInv net K off)
  | [], _, hs => hs
  | f :: fs, s, hs => by
    unfold kSteps
    exact (C30_step h hr hK acc off f hs).bind fun s' hs' => kSteps_inv h hr hK acc fs s' hs'

/-- The state built by `LSMultiLinkScoreKState` meets the invariant. -/
theorem initial_inv (h : net.Simple) (hr : Rated net K) (hK : 0 < K) {p : Part} (hp : PartOK net net.n p) (hf : Full net p)
    (t : Tape) : KInv net K 0 (KSt.mk p (fun k v g => NWeightLinksToGroup net p v g k)
      (fun k g g' => NWeightG2GLinks net p g g' k) (NNonEmptyGroups net.n p) (energyK net K p.inGroup) t) := by
  refine ⟨⟨hp, hf, ?_, ?_, nonempty_eq hp⟩, ?_⟩
  · intro k _ v _ g _; exact nweight_eq h v g k
  · intro k _ g hg g' _; exact nweightg2g_eq h hp hg k
  · dsimp only
    rw [hk_eq h hr hK hp hf, add_zero]

/-- **C32**: for every query the `K` scores returned by `LSMultiLinkScoreKState` are positive and sum to
one: for every network rated `0 … K-1`, every number of samples `nIter ≥ 1`, every warm-up, acceptance rule,
stream of random numbers, and whatever the number of restarts. The call is defined. -/
theorem C32_distribution (h : net.Simple) (hr : Rated net K) (hK : 0 < K) (acc : ℝ → ℚ → Bool) {nIter : ℕ}
    (hI : 0 < nIter) (warm : List ℕ) (decorStep : ℕ) (reset : Bool) (fuel : ℕ) (t : Tape) :
    (LSMultiLinkScoreKState acc net K nIter warm decorStep reset fuel t).Holds fun score =>
      ∀ q ∈ queries net.n, Distribution K fun k => score k q := by
  unfold LSMultiLinkScoreKState
  dsimp only
  obtain ⟨hp, hi⟩ := own_groups h net.n (le_refl _)
  set p := (List.range net.n).foldl (fun p v => AddNodeToGroup net v v p) Part.empty with hpdef
  have hf : Full net p := by
    intro v hv
    rw [hi, if_pos hv]; simp
  rw [hk_eq h hr hK hp hf]
  simp only [Res.ofOption_some, Res.bind_ok]
  refine (kSteps_inv h hr hK acc warm _ (initial_inv h hr hK hp hf t)).bind ?_
  intro s hs
  have hs' : ∃ off, KInv net K off (if reset then { s with H := 0 } else s) := by
    cases reset with
    | false => exact ⟨0, hs⟩
    | true =>
      refine ⟨s.H, ⟨⟨hs.part, hs.full, hs.n2g, hs.g2g, hs.ng⟩, ?_⟩⟩
      have := hs.energy
      simpa using this
  have hA : (Acc.mk 0 0 fun _ _ => some 0).OK net K :=
    ⟨rfl, fun q _ _ => ⟨fun _ => 0, fun k _ => ⟨rfl, le_refl _, fun h => absurd h (by simp)⟩, by simp⟩⟩
  refine (kSample_ok h hr hK acc decorStep nIter fuel _ _ hs' hA).bind ?_
  rintro ⟨s2, A⟩ ⟨_, ⟨hn, hA⟩, hle⟩
  dsimp only at hn hA hle ⊢
  intro q hq
  have hq' : q.1 < net.n ∧ q.2 < net.n := by
    unfold queries at hq
    rw [List.mem_flatMap] at hq
    obtain ⟨i, hi, hq⟩ := hq
    obtain ⟨j, hj, rfl⟩ := List.mem_map.1 hq
    rw [List.mem_range'_1] at hj
    have := List.mem_range.1 hi
    exact ⟨this, by dsimp only; omega⟩
  obtain ⟨x, hx, hxs⟩ := hA q hq'.1 hq'.2
  have hnn : 0 < A.norm := by omega
  have hnq : (0 : ℚ) < A.norm := by exact_mod_cast hnn
  refine ⟨fun k => x k / A.norm, ?_, ?_⟩
  · intro k hk
    obtain ⟨e1, _, p1⟩ := hx k hk
    dsimp only
    rw [if_neg hnn.ne', e1]
    exact ⟨rfl, div_pos (p1 hnn) hnq⟩
  · rw [← sum_div, hxs, div_self hnq.ne']

theorem queries_len (n : ℕ) : ∀ m ≤ n, 2 * ((List.range m).flatMap fun i =>
    (List.range' (i + 1) (n - (i + 1))).map fun j => (i, j)).length + m * (m + 1) = 2 * n * m
  | 0, _ => by simp
  | m + 1, h => by
    have ih := queries_len n m (by omega)
    rw [List.range_succ, List.flatMap_append, List.length_append]
    simp only [List.flatMap_cons, List.flatMap_nil, List.append_nil, List.length_map, List.length_range']
    obtain ⟨k, rfl⟩ : ∃ k, n = m + 1 + k := ⟨n - (m + 1), by omega⟩
    rw [show m + 1 + k - (m + 1) = k by omega] at *
    nlinarith

/-- **C32**: the queries are exactly the pairs `i < j` of nodes, each once, and there are `n (n - 1) / 2` of them,
the number of slots allocated. -/
theorem C32_queries (n : ℕ) : (queries n).length = n * (n - 1) / 2 ∧ (queries n).Nodup ∧
    ∀ i j, (i, j) ∈ queries n ↔ i < j ∧ j < n := by
  refine ⟨?_, ?_, ?_⟩
  · have := queries_len n n (le_refl _)
    unfold queries
    rcases n with _ | n
    · simp
    · rw [Nat.add_sub_cancel]
      have e : 2 * ((List.range (n + 1)).flatMap fun i => (List.range' (i + 1) (n + 1 - (i + 1))).map fun j => (i, j)).length
          = (n + 1) * n := by nlinarith
      omega
  · unfold queries
    rw [List.nodup_flatMap]
    refine ⟨fun i _ => List.Nodup.map (fun a b h => (Prod.mk.inj h).2) List.nodup_range', ?_⟩
    apply List.Pairwise.imp _ List.nodup_range
    intro a b hab
    intro x hx hx'
    obtain ⟨_, _, rfl⟩ := List.mem_map.1 hx
    obtain ⟨_, _, e⟩ := List.mem_map.1 hx'
    exact hab (Prod.mk.inj e).1.symm
  · intro i j
    unfold queries
    simp only [List.mem_flatMap, List.mem_range, List.mem_map, List.mem_range'_1, Prod.mk.injEq]
    constructor
    · rintro ⟨a, h1, b, h2, rfl, rfl⟩; omega
    · rintro ⟨h1, h2⟩; exact ⟨i, by omega, j, by omega, rfl, rfl⟩

/-! ## Examples -/

/-- Three people, ratings 0 and 2 out of three. -/
def trio : Net := { n := 3, neig := fun v => match v with | 0 => [(1, 2), (2, 0)] | 1 => [(0, 2)] | 2 => [(0, 0)] | _ => [] }

theorem trio_link (i j : ℕ) (w : ℚ) : trio.link i j = some w ↔ (j, w) ∈ trio.neig i := by
  apply link_iff
  intro i
  rcases i with _ | _ | _ | i <;> simp [trio]

theorem trio_simple : trio.Simple := by
  refine ⟨?_, ?_, ?_, ?_⟩
  · intro i
    rcases i with _ | _ | _ | i <;> simp [trio]
  · intro i x hx
    rcases i with _ | _ | _ | i <;> simp [trio] at hx ⊢ <;> (try rcases hx with rfl | rfl) <;> (try subst hx) <;> decide
  · intro i j
    apply Option.ext
    intro w
    rw [trio_link, trio_link]
    rcases i with _ | _ | _ | i <;> rcases j with _ | _ | _ | j <;> simp [trio]
  · intro i
    apply Option.eq_none_iff_forall_ne_some.2
    intro w hw
    rw [trio_link] at hw
    rcases i with _ | _ | _ | i <;> simp [trio] at hw

theorem trio_rated : Rated trio 3 := by
  intro i j w hw
  rw [trio_link] at hw
  rcases i with _ | _ | _ | i <;> simp [trio] at hw
  · rcases hw with ⟨_, rfl⟩ | ⟨_, rfl⟩
    · exact ⟨2, by norm_num, by norm_num⟩
    · exact ⟨0, by norm_num, by norm_num⟩
  · exact ⟨2, by norm_num, by rw [hw.2]; norm_num⟩
  · exact ⟨0, by norm_num, by rw [hw.2]; norm_num⟩

/-- A state for C30: two people in group 0, the third in group 1. -/
example : ∃ s : KSt, KInv trio 3 0 s ∧ s.part.inGroup 0 = some 0 ∧ s.part.inGroup 2 = some 1 ∧ s.tape ≠ [] := by
  let p := AddNodeToGroup trio 1 2 (AddNodeToGroup trio 0 1 (AddNodeToGroup trio 0 0 Part.empty))
  have hp : PartOK trio 3 p :=
    add_ok trio_simple (add_ok trio_simple (add_ok trio_simple (empty_ok trio 3) (by decide) (by decide) rfl)
      (by decide) (by decide) rfl) (by decide) (by decide) rfl
  have hf : Full trio p := by
    intro v hv
    change v < 3 at hv
    interval_cases v <;> simp [p, AddNodeToGroup]
  exact ⟨_, initial_inv trio_simple trio_rated (by norm_num) hp hf [1 / 2, 1 / 3, 9 / 10], by simp [p, AddNodeToGroup],
    by simp [p, AddNodeToGroup], by simp⟩

/-- The three ratings of the pair (0, 1) in a sample where everybody is alone: 1/4, 1/4 and 1/2. -/
example : let p := AddNodeToGroup trio 2 2 (AddNodeToGroup trio 1 1 (AddNodeToGroup trio 0 0 Part.empty))
    let s : KSt := KSt.mk p (fun k v g => NWeightLinksToGroup trio p v g k)
      (fun k g g' => NWeightG2GLinks trio p g g' k) 3 0 []
    (List.range 3).map (fun k => sampleScore 3 s k (0, 1)) = [some (1 / 4), some (1 / 4), some (1 / 2)] := by
  decide +kernel

end KS
