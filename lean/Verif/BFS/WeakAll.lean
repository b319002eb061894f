import Verif.BFS.Strong
import Verif.BFS.Weak

/-!
# C140: the largest connected set of an undirected network
-/

set_option linter.unusedSimpArgs false

namespace BFS

variable {adj : ℕ → List ℕ} {n : ℕ}

theorem reach_back (hadj : InRange adj n) (hsym : ∀ i < n, ∀ j ∈ adj i, i ∈ adj j) {p v : ℕ} (hp : p < n)
    (h : Reach adj p v) : Reach adj v p := by
  obtain ⟨k, hw⟩ := h
  induction k generalizing v with
  | zero => cases hw; exact .refl p
  | succ k ih =>
    cases hw with
    | @step _ _ u _ hw hm =>
      exact (Reach.one (hsym u (Reach.lt hadj hp ⟨k, hw⟩) v hm)).trans (ih hw)

/-- The pass over later nodes adds nothing when all the nodes that reach the set are in it. -/
theorem weakPass_same (hadj : InRange adj n) {w : WK}
    (hback : ∀ q < n, (∃ v, Reach adj q v ∧ w.thisNet v = true) → w.selected q = true) :
    ∀ ps : List ℕ, (∀ q ∈ ps, q < n) → weakPass adj n ps w = some w
  | [], _ => rfl
  | q :: ps, h => by
    obtain ⟨b, hb, hbi⟩ := areConnected_spec hadj (h q (by simp)) w.thisNet
    have hc : ¬ (b && !w.selected q) = true := by
      intro hc
      simp only [Bool.and_eq_true, Bool.not_eq_true'] at hc
      obtain ⟨v, _, hr, ht⟩ := hbi.1 hc.1
      rw [hback q (h q (by simp)) ⟨v, hr, ht⟩] at hc
      simp at hc
    unfold weakPass
    rw [hb]
    simp only [Option.bind_eq_bind, Option.bind_some]
    rw [if_neg hc]
    exact weakPass_same hadj hback ps fun q hq => h q (by simp [hq])

/-- One turn of the outer loop finds the component of its first node. -/
theorem weak_turn (hadj : InRange adj n) (hsym : ∀ i < n, ∀ j ∈ adj i, i ∈ adj j) {p : ℕ} (hp : p < n)
    (sel : ℕ → Bool) (anod : ℕ) :
    ∃ w1 w, WK.grow adj n { q := Enqueue p none 0 0 Q.empty, lp := 0, d := 0, loc := [p]
                            selected := Function.update sel p true
                            thisNet := fun v => v == p, anod := anod + 1 } = some w1 ∧
      weakPass adj n ((List.range n).drop (p + 1)) w1 = some w ∧ w.loc.Nodup ∧
      (∀ v, v ∈ w.loc ↔ Strong adj p v) ∧ (∀ v, w.selected v = (sel v || w.loc.contains v)) ∧
      w.anod = anod + w.loc.length := by
  obtain ⟨D, h⟩ := search_final hadj hp
  have hrun : expand adj n (n + 1) 0 0 (Enqueue p none 0 0 Q.empty) = some D := h.run
  have hloc : [p] ++ (D.rounds.map Round.after).flatten = nodes D.q.list := by rw [h.nodes]; rfl
  set w1 : WK := ({ q := D.q, lp := D.lp, d := D.d, loc := [p], selected := Function.update sel p true
                    thisNet := fun v => v == p, anod := anod + 1 } : WK).add (D.rounds.map Round.after).flatten with hw1
  have hmem : ∀ v, v ∈ w1.loc ↔ Reach adj p v := by
    intro v
    rw [← h.final.reach v, ← hloc]
    rfl
  have hsel : ∀ v, w1.selected v = (sel v || w1.loc.contains v) := by
    intro v
    by_cases hv : v = p
    · subst hv; simp [hw1, WK.add]
    · simp [hw1, WK.add, hv]
  have hthis : ∀ v, w1.thisNet v = true ↔ v ∈ w1.loc := by
    intro v
    simp [hw1, WK.add]
  refine ⟨w1, w1, by unfold WK.grow; simp only [hrun]; rfl, ?_, ?_, ?_, hsel, ?_⟩
  · apply weakPass_same hadj
    · rintro q hq ⟨v, hr, ht⟩
      have h1 := (hmem v).1 ((hthis v).1 ht)
      have h2 := (hmem q).2 (h1.trans (reach_back hadj hsym hq hr))
      rw [hsel, List.contains_iff_mem.2 h2, Bool.or_true]
    · intro q hq
      exact List.mem_range.1 (List.mem_of_mem_drop hq)
  · have : w1.loc = nodes D.q.list := hloc
    rw [this]
    exact h.final.nodup
  · intro v
    rw [hmem]
    exact ⟨fun hr => ⟨hr, reach_back hadj hsym hp hr⟩, fun hs => hs.1⟩
  · simp [hw1, WK.add]
    omega

theorem weakLoop_spec (hadj : InRange adj n) (hsym : ∀ i < n, ∀ j ∈ adj i, i ∈ adj j) (thres : Int) :
    ∀ (fuel : ℕ) (sel : ℕ → Bool) (anod : ℕ)
    (best : List ℕ) (sets : List (List ℕ)), SetsInv adj n sel anod sets → anod < n → n + 1 ≤ fuel + anod →
    (∀ S ∈ sets, S.length ≤ best.length) → (best ∈ sets ∨ best = []) →
    ∃ S, weakLoop adj n thres fuel sel anod best = some S ∧ S.Nodup ∧
      (∃ p < n, ∀ v, v ∈ S ↔ Strong adj p v) ∧
      (thres < S.length ∨ ∀ q < n, {v | Strong adj q v}.ncard ≤ S.length)
  | 0, _, _, _, _, _, _, _, _, _ => by omega
  | fuel + 1, sel, anod, best, sets, h, hlt, hf, hbig, hin => by
    obtain ⟨p, _, h1, _, _, _⟩ := turn_spec hadj h hlt
    have hp : p < n ∧ sel p = false := by
      unfold firstUnselected at h1
      exact ⟨by simpa using List.mem_of_find?_eq_some h1, by simpa using List.find?_some h1⟩
    obtain ⟨w1, w, hg, hw, hwn, hws, hwsel, hwa⟩ := weak_turn hadj hsym hp.1 sel anod
    set S := w.loc with hS
    have h3 : S.length ≠ 0 := by
      intro h0
      have : p ∈ S := (hws p).2 (Strong.refl p)
      rw [List.length_eq_zero_iff.1 h0] at this
      simp at this
    have h4 : SetsInv adj n w.selected (anod + S.length) (sets ++ [S]) := by
      refine ⟨?_, ?_, ?_, ?_⟩
      · rw [List.flatten_append, List.nodup_append]
        refine ⟨h.nodup, by simpa using hwn, ?_⟩
        intro a ha b hb hab
        subst hab
        simp only [List.flatten_cons, List.flatten_nil, List.append_nil] at hb
        obtain ⟨T, hT, haT⟩ := List.mem_flatten.1 ha
        obtain ⟨q, hq, hT'⟩ := h.strong T hT
        have : p ∈ T := (hT' p).2 (((hT' a).1 haT).trans ((hws a).1 hb).symm)
        have : sel p = true := (h.sel p).2 (List.mem_flatten.2 ⟨T, hT, this⟩)
        rw [hp.2] at this
        simp at this
      · intro T hT
        rcases List.mem_append.1 hT with hT | hT
        · exact h.strong T hT
        · rw [List.mem_singleton] at hT
          subst hT
          exact ⟨p, hp.1, hws⟩
      · intro v
        rw [hwsel v]
        simp [h.sel v]
      · simp [h.len]
    have hmem : ∀ T ∈ sets ++ [S], T.Nodup ∧ ∃ p < n, ∀ v, v ∈ T ↔ Strong adj p v := by
      intro T hT
      exact ⟨(List.nodup_flatten.1 h4.nodup).1 T hT, h4.strong T hT⟩
    unfold weakLoop
    rw [h1]
    simp only [Option.bind_eq_bind, Option.bind_some]
    rw [hg]
    simp only [Option.bind_some]
    rw [hw]
    simp only [Option.bind_some, ← hS, hwa]
    set best' := if best.length < S.length then S else best with hb'
    have hbig' : ∀ T ∈ sets ++ [S], T.length ≤ best'.length := by
      intro T hT
      rw [hb']
      rcases List.mem_append.1 hT with hT | hT
      · have := hbig T hT
        split_ifs <;> omega
      · rw [List.mem_singleton] at hT; rw [hT]
        split_ifs <;> omega
    have hin' : best' ∈ sets ++ [S] := by
      rw [hb']
      split_ifs with hc
      · simp
      · rcases hin with hin | hin
        · simp [hin]
        · subst hin
          simp only [List.length_nil] at hc
          omega
    by_cases hc : best.length < S.length ∧ (n / 2 < S.length ∨ thres < (S.length : Int))
    · rw [if_pos hc]
      have hbS : best' = S := by rw [hb', if_pos hc.1]
      obtain ⟨hSn, hSs⟩ := hmem S (by simp)
      refine ⟨best', rfl, by rw [hbS]; exact hSn, by rw [hbS]; exact hSs, ?_⟩
      rw [hbS]
      rcases hc.2 with hn2 | ht
      · right
        intro q hq
        obtain ⟨p', hp', hS'⟩ := hSs
        obtain ⟨T, hT1, hT2, hT3⟩ := strongSet_spec hadj hq
        rw [strong_ncard hT2 hT3]
        by_cases hqp : Strong adj p' q
        · have : T.length = S.length := by
            rw [← strong_ncard hT2 hT3, ← strong_ncard hSn hS']
            congr 1
            ext v
            exact ⟨fun hv => hqp.trans hv, fun hv => hqp.symm.trans hv⟩
          omega
        · have hdis : Disjoint T.toFinset S.toFinset := by
            rw [Finset.disjoint_left]
            intro v hv hvS
            rw [List.mem_toFinset] at hv hvS
            exact hqp (((hS' v).1 hvS).trans ((hT3 v).1 hv).symm)
          have hsub : T.toFinset ∪ S.toFinset ⊆ Finset.range n := by
            intro v hv
            rw [Finset.mem_range]
            rcases Finset.mem_union.1 hv with hv | hv <;> rw [List.mem_toFinset] at hv
            · exact ((hT3 v).1 hv).1.lt hadj hq
            · exact ((hS' v).1 hv).1.lt hadj hp'
          have := Finset.card_le_card hsub
          rw [Finset.card_union_of_disjoint hdis, List.toFinset_card_of_nodup hT2,
            List.toFinset_card_of_nodup hSn, Finset.card_range] at this
          omega
      · exact Or.inl ht
    · rw [if_neg hc]
      by_cases hc2 : anod + S.length < n
      · rw [if_pos hc2]
        exact weakLoop_spec hadj hsym thres fuel _ _ best' _ h4 hc2 (by omega) hbig' (Or.inl hin')
      · rw [if_neg hc2]
        obtain ⟨hn', hs'⟩ := hmem best' hin'
        refine ⟨best', rfl, hn', hs', Or.inr ?_⟩
        intro q hq
        obtain ⟨T, hT, hqT⟩ := List.mem_flatten.1 (h4.all hadj (by omega) q hq)
        obtain ⟨hTn, r, hr, hT'⟩ := hmem T hT
        have hTq : ∀ v, v ∈ T ↔ Strong adj q v := by
          intro v
          have hrq := (hT' q).1 hqT
          rw [hT' v]
          exact ⟨fun hv => hrq.symm.trans hv, fun hv => hrq.trans hv⟩
        rw [strong_ncard hTn hTq]
        exact hbig' T hT

/-- **C140**: on an undirected network with nodes `GetLargestWeaklyConnectedSet` ends, and the set it returns is a connected
component, each node once: all the nodes that can be reached from one of them.  It is one of the largest, unless it has more than
`thres` nodes. -/
theorem C140_largest (hadj : InRange adj n) (hsym : ∀ i < n, ∀ j ∈ adj i, i ∈ adj j) (hn : 0 < n) (thres : Int) :
    ∃ S, GetLargestWeaklyConnectedSet adj n thres = some S ∧ S.Nodup ∧
      (∃ p < n, ∀ v, v ∈ S ↔ Reach adj p v) ∧
      (thres < S.length ∨ ∀ q < n, {v | Reach adj q v}.ncard ≤ S.length) := by
  have h0 : SetsInv adj n (fun _ => false) 0 [] := ⟨by simp, by simp, by simp, by simp⟩
  obtain ⟨S, e, h1, ⟨p, hp, h2⟩, h3⟩ := weakLoop_spec hadj hsym thres (n + 1) _ _ [] [] h0 hn (by omega) (by simp) (Or.inr rfl)
  have hs : ∀ q < n, ∀ v, Strong adj q v ↔ Reach adj q v := fun q hq v =>
    ⟨fun h => h.1, fun h => ⟨h, reach_back hadj hsym hq h⟩⟩
  refine ⟨S, e, h1, ⟨p, hp, fun v => by rw [h2, hs p hp]⟩, h3.imp id fun h q hq => ?_⟩
  have : {v | Reach adj q v} = {v | Strong adj q v} := by ext v; exact (hs q hq v).symm
  rw [this]
  exact h q hq

/-- **C140**: without nodes it dereferences NULL. -/
theorem C140_empty (thres : Int) : GetLargestWeaklyConnectedSet adj 0 thres = none := rfl

/-- A path of three nodes, a triangle with a tail and a node alone; the first set is not the largest. -/
def threeParts : ℕ → List ℕ
  | 0 => [1] | 1 => [0, 2] | 2 => [1]
  | 3 => [4, 5] | 4 => [3, 5] | 5 => [3, 4, 6] | 6 => [5] | _ => []

example : GetLargestWeaklyConnectedSet threeParts 8 100 = some [3, 4, 5, 6] ∧
    GetLargestWeaklyConnectedSet threeParts 8 2 = some [0, 1, 2] ∧
    (∀ i < 8, ∀ j ∈ threeParts i, i ∈ threeParts j) ∧ ∀ i < 8, ∀ j ∈ threeParts i, j < 8 := by decide +kernel

end BFS
