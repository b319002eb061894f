import Verif.Block.Delta

/-! # The Metropolis sampler, for a general pair term -/

set_option linter.unusedSimpArgs false

namespace BK

open GP hiding St
open RG LS Finset

variable {net : Net} {K : Kern} {F : Int → Int → ℝ} {D : ℕ → ℝ} {c : ℝ}

/-- A state of the sampler between calls: consistent partition of all nodes, exact link counts, and
energy up to the constant `c`. Nothing is asked of the scratch array. -/
structure Exact (F : Int → Int → ℝ) (D : ℕ → ℝ) (net : Net) (linC c : ℝ) (s : St) : Prop where
  part : PartOK net net.n s.part
  full : Full net s.part
  counts : ∀ g < net.n, ∀ g' < net.n, s.G2G g g' = links net s.part.inGroup g g'
  energy : s.H = energy F D net linC s.part.inGroup + c

theorem attempt_exact (hK : Computes K net.n F D) (h : net.Simple) (acc : ℝ → ℚ → Bool) (linC : ℝ) (hn : 0 < net.n)
    (s : St) (hs : Exact F D net linC c s) : (attempt K acc net linC s).Holds (Exact F D net linC c) := by
  unfold attempt
  refine (pick_holds hn s.tape).bind ?_
  rintro ⟨v, t1⟩ hv
  dsimp only at *
  cases hg : s.part.inGroup v with
  | none => exact absurd hg (hs.full v hv)
  | some old =>
    dsimp only
    unfold destination
    refine (redraw_holds (P := fun g => g < net.n) (fun u _ h1 => floor_lt h1 hn) t1).bind ?_
    rintro ⟨new, t2⟩ ⟨hnew, hb⟩
    dsimp only at *
    have hne : new ≠ old := by simpa using hb
    have H : Mv net s.part v old new := ⟨h, hs.part, hs.full, hg, hnew, hne⟩
    obtain ⟨d', e1, e2, e3⟩ := deltaH_eq hK H linC (n2g := s.n2g) (slg := List.range net.n) hs.counts List.nodup_range
      (fun g hg => List.mem_range.1 hg) (fun g hg _ => List.mem_range.2 hg)
    rw [e1]
    simp only [Res.ofOption_some, Res.bind_ok]
    have hn2g : ∀ g < net.n, d'.n2g g = d net s.part.inGroup v g := by
      intro g hg'
      rw [e3, if_pos (List.mem_range.2 hg')]
    unfold decideMove
    refine metropolis_any.bind ?_
    rintro ⟨a, t3⟩ _
    dsimp only
    cases a with
    | false => exact ⟨hs.part, hs.full, hs.counts, hs.energy⟩
    | true =>
      simp only [if_true]
      obtain ⟨_, hp', hi⟩ := move_ok h hs.part hnew hg
      have hf' := full_update hs.full hi
      refine ⟨hp', hf', ?_, ?_⟩
      · intro g hg1 g' hg2
        dsimp only
        rw [g2gUpdate_eq hne H.ho hnew _ (fun i hi j hj => by
          rw [hs.counts i hi j hj, hs.counts j hj i hi, links_symm h]) hg1 hg2, hi,
          links_move hv hg hne h, hs.counts g hg1 g' hg2]
        unfold change
        rw [hn2g old H.ho, hn2g new hnew, hn2g g hg1, hn2g g' hg2]
      · dsimp only
        rw [hi, e2, hs.energy]
        ring

theorem step_exact (hK : Computes K net.n F D) (h : net.Simple) (acc : ℝ → ℚ → Bool) (linC : ℝ) (factor : ℕ) (s : St)
    (hs : Exact F D net linC c s) : (LSMCStepMB K acc net linC factor s).Holds (Exact F D net linC c) := by
  unfold LSMCStepMB
  rcases Nat.eq_zero_or_pos net.n with h0 | hn
  · rw [h0, Nat.zero_mul]
    exact hs
  · exact iter_holds (fun s hs => attempt_exact hK h acc linC hn s hs) _ _ hs

theorem steps_exact (hK : Computes K net.n F D) (h : net.Simple) (acc : ℝ → ℚ → Bool) (linC : ℝ) :
    ∀ (fs : List ℕ) (s : St), Exact F D net linC c s → (steps K acc net linC fs s).Holds (Exact F D net linC c)
  | [], _, hs => hs
  | f :: fs, s, hs => by
    unfold steps
    exact (step_exact hK h acc linC f s hs).bind fun s' hs' => steps_exact hK h acc linC fs s' hs'

end BK
