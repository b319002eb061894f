import Verif.KState.Score

/-! # C32: the scores of the K states are averages over sampled partitions -/

set_option linter.unusedSimpArgs false

namespace KS

open GP RG LS Finset

variable {net : Net} {K : ℕ}

/-- Score of rating `k` for the pair `i`, `j` given a division of the nodes: `(nₖ + 1) / (n + K)`, `nₖ` of the `n` links between the
two groups having rating `k`. -/
def pairScore (net : Net) (K : ℕ) (f : ℕ → Option ℕ) (k i j : ℕ) : ℚ :=
  match f i, f j with
  | some a, some b => ((ratings net f k a b : ℚ) + 1) / (∑ k ∈ range K, (ratings net f k a b : ℚ) + K)
  | _, _ => 0

theorem sampleScore_eq {s : KSt} (hs : KCounts net K s) {q : ℕ × ℕ} (h1 : q.1 < net.n) (h2 : q.2 < net.n) {k : ℕ} (hk : k < K) :
    sampleScore K s k q = some (pairScore net K s.part.inGroup k q.1 q.2) := by
  obtain ⟨a, ha⟩ := Option.ne_none_iff_exists'.1 (hs.full _ h1)
  obtain ⟨b, hb⟩ := Option.ne_none_iff_exists'.1 (hs.full _ h2)
  have han := (hs.part.range _ _ ha).2
  have hbn := (hs.part.range _ _ hb).2
  have hsum : (List.range K).foldl (fun n k2 => n + s.G2G k2 a b) 0 = ∑ k ∈ range K, ratings net s.part.inGroup k a b := by
    rw [foldl_sum, zero_add, range_sum]
    exact sum_congr rfl fun k hk => hs.g2g k (mem_range.1 hk) a han b hbn
  unfold sampleScore pairScore
  rw [ha, hb]
  simp only [Option.bind_eq_bind, Option.bind_some, hsum, hs.g2g k hk a han b hbn]
  push_cast
  rfl

/-- The accumulated scores are sums over partitions of all the nodes. -/
def Acc.Sum (net : Net) (K : ℕ) (A : Acc) : Prop :=
  A.norm = A.iter ∧ ∃ ps : List Part, ps.length = A.norm ∧ (∀ p ∈ ps, PartOK net net.n p ∧ Full net p) ∧
    ∀ q : ℕ × ℕ, q.1 < net.n → q.2 < net.n → ∀ k < K, A.score k q = some (ps.map fun p => pairScore net K p.inGroup k q.1 q.2).sum

theorem collect_sum {s : KSt} {off : ℝ} (hs : KInv net K off s) {A : Acc} (hA : A.Sum net K) :
    (∃ off', KInv net K off' (collect K s A).1) ∧ (collect K s A).2.Sum net K ∧
      ((collect K s A).2.iter = A.iter + 1 ∨ (collect K s A).2.iter = 1) := by
  unfold collect
  dsimp only
  have key : ∀ A' : Acc, A'.Sum net K → (Acc.mk (A'.iter + 1) (A'.norm + 1) fun k q => do
      let x ← A'.score k q
      let y ← sampleScore K s k q
      some (x + y)).Sum net K := by
    rintro A' ⟨hn, ps, hl, hp, hA'⟩
    refine ⟨by dsimp only; rw [hn], s.part :: ps, by simp [hl], ?_, ?_⟩
    · intro p hp'
      rcases List.mem_cons.1 hp' with rfl | hp'
      exacts [⟨hs.part, hs.full⟩, hp p hp']
    · intro q h1 h2 k hk
      dsimp only
      rw [hA' q h1 h2 k hk, sampleScore_eq hs.toKCounts h1 h2 hk, List.map_cons, List.sum_cons, add_comm]
      rfl
  by_cases hc : s.H < -400
  · simp only [hc, if_true]
    refine ⟨⟨s.H + off, ⟨⟨hs.part, hs.full, hs.n2g, hs.g2g, hs.ng⟩, ?_⟩⟩, key (Acc.mk 0 0 fun _ _ => some 0) ?_, Or.inr (by trivial)⟩
    · dsimp only
      rw [hs.energy, zero_add]
    · exact ⟨rfl, [], rfl, by simp, by simp⟩
  · simp only [hc, if_false]
    exact ⟨⟨off, hs⟩, key A hA, Or.inl (by trivial)⟩

theorem kSample_sum (h : net.Simple) (hr : Rated net K) (hK : 0 < K) (acc : ℝ → ℚ → Bool) (decorStep nIter : ℕ) (hI : 0 < nIter) :
    ∀ (fuel : ℕ) (s : KSt) (A : Acc), (∃ off, KInv net K off s) → A.Sum net K → A.iter ≤ nIter →
    (kSample acc net K decorStep nIter fuel s A).Holds fun r => r.2.Sum net K ∧ r.2.iter = nIter
  | 0, s, A, hs, hA, hle => by
    unfold kSample
    split_ifs with hi
    · trivial
    · exact ⟨hA, by dsimp only; omega⟩
  | fuel + 1, s, A, hs, hA, hle => by
    unfold kSample
    split_ifs with hi
    · obtain ⟨off, hs⟩ := hs
      refine (C30_step h hr hK acc off decorStep hs).bind ?_
      intro s' hs'
      obtain ⟨h1, h2, h3⟩ := collect_sum hs' hA
      exact kSample_sum h hr hK acc decorStep nIter hI fuel _ _ h1 h2 (by omega)
    · exact ⟨hA, by dsimp only; omega⟩

/-- **C32**: the scores returned by `LSMultiLinkScoreKState` are averages over `nIter` divisions of the nodes of `(nₖ + 1) / (n + K)`. -/
theorem C32_average (h : net.Simple) (hr : Rated net K) (hK : 0 < K) (acc : ℝ → ℚ → Bool) {nIter : ℕ}
    (hI : 0 < nIter) (warm : List ℕ) (decorStep : ℕ) (reset : Bool) (fuel : ℕ) (t : Tape) :
    (LSMultiLinkScoreKState acc net K nIter warm decorStep reset fuel t).Holds fun sc =>
      ∃ ps : List Part, ps.length = nIter ∧ (∀ p ∈ ps, PartOK net net.n p ∧ Full net p) ∧
        ∀ i < net.n, ∀ j < net.n, ∀ k < K, sc k (i, j) = some ((ps.map fun p => pairScore net K p.inGroup k i j).sum / nIter) := by
  unfold LSMultiLinkScoreKState
  dsimp only
  obtain ⟨hp, hi⟩ := own_groups h net.n (le_refl _)
  set p := (List.range net.n).foldl (fun p v => AddNodeToGroup net v v p) Part.empty with hpdef
  have hf : Full net p := by
    intro v hv
    rw [hi, if_pos hv]; simp
  rw [hk_eq h hr hK hp hf]
  simp only [Res.ofOption_some, Res.bind_ok]
  refine (kSteps_inv h hr hK acc warm _ (initial_inv h hr hK hp hf t)).bind ?_
  intro s hs
  have hs' : ∃ off, KInv net K off (if reset then { s with H := 0 } else s) := by
    cases reset with
    | false => exact ⟨0, hs⟩
    | true =>
      refine ⟨s.H, ⟨⟨hs.part, hs.full, hs.n2g, hs.g2g, hs.ng⟩, ?_⟩⟩
      have := hs.energy
      simpa using this
  refine (kSample_sum h hr hK acc decorStep nIter hI fuel _ _ hs' ⟨rfl, [], rfl, by simp, by simp⟩ (by simp)).bind ?_
  rintro ⟨s2, A⟩ ⟨⟨hn, ps, hl, hp, hA⟩, hit⟩
  dsimp only at hn hl hA hit ⊢
  refine ⟨ps, by omega, hp, ?_⟩
  intro i h1 j h2 k hk
  dsimp only
  rw [if_neg (by omega), hA (i, j) h1 h2 k hk, hn, hit]
  rfl

end KS
