import Verif.Bipart.TabModel
import Verif.Bipart.Props
import Verif.Bipart.ModProps
import Verif.Group.RoleProps

/-! # C167: the table of modules and roles of a bipartite network -/

set_option linter.unusedSimpArgs false

namespace BP

open GP Finset

/-! ## Specification -/

/-- How strongly two nodes of the first set are tied: whether they share a neighbour, the number of neighbours that they share,
or the sum of the products of the weights, cut to an integer. -/
def tie (b : Bi) (degreeBased weighted : Int) (v u : ℕ) : ℚ :=
  if v = u then 0
  else if degreeBased = 1 then if (common b v u).Nonempty then 1 else 0
  else if weighted = 0 then ((common b v u).card : ℚ)
  else ((max 0 ⌊overlap b v u⌋ : Int) : ℚ)

/-- Total of the ties of `v` to the nodes of a module. -/
def tieTo (T : ℕ → ℕ → ℚ) (S : Finset ℕ) (v : ℕ) : ℚ := ∑ u ∈ S, T v u

/-- Participation coefficient: one minus the sum of the squares of the shares of the modules in the ties of `v`. -/
def partOf (T : ℕ → ℕ → ℚ) (m : ℕ) (S : ℕ → Finset ℕ) (v : ℕ) : ℚ :=
  let all := ∑ k ∈ range m, tieTo T (S k) v
  if all = 0 then 0 else 1 - ∑ k ∈ range m, (tieTo T (S k) v / all) ^ 2

/-- The line that belongs to node `v` of module `g`. -/
noncomputable def lineOf (label : ℕ → String) (T : ℕ → ℕ → ℚ) (m : ℕ) (S : ℕ → Finset ℕ) (g v : ℕ) : TabLine :=
  let P := partOf T m S v
  let z := zOf (S g) (tieTo T (S g)) v
  ⟨label v, g + 1, Roles.GetRole (P : ℝ) z + 1, P, z⟩

/-! ## Proof -/

variable {b : Bi} {m : ℕ} {modules : Part}

/-- The network that is used. -/
def projectedOf (b : Bi) (degreeBased weighted : Int) : Net :=
  if weighted = 0 ∨ degreeBased = 1 then ProjectBipart b else ProjectBipartWeighted b

theorem projected_n (d w : Int) : (projectedOf b d w).n = b.n1 := by
  unfold projectedOf
  split_ifs <;> rfl

theorem projected_simple (h : b.OK) (d w : Int) : (projectedOf b d w).Simple := by
  unfold projectedOf
  split_ifs
  · exact (C37_project h).2.1
  · exact (C37_weighted_truncated h).1

theorem projected_a (h : b.OK) {v u : ℕ} (hv : v < b.n1) (hu : u < b.n1) (w : Int) :
    ((projectedOf b 1 w).a v u : ℚ) = tie b 1 w v u := by
  unfold projectedOf Net.a tie
  rw [if_pos (Or.inr rfl), (C37_project h).2.2, if_pos rfl]
  by_cases e : v = u
  · simp [e]
  · by_cases c : (common b v u).Nonempty <;> simp [e, c, hv, hu]

theorem projected_w (h : b.OK) {v u : ℕ} (hv : v < b.n1) (hu : u < b.n1) {d : Int} (hd : d ≠ 1) (w : Int) :
    (projectedOf b d w).w v u = tie b d w v u := by
  unfold projectedOf Net.w tie
  rw [if_neg hd]
  by_cases e : v = u
  · rw [if_pos e]
    split_ifs
    · rw [(C37_project h).2.2]; simp [e]
    · rw [(C37_weighted_truncated h).2]; simp [e]
  rw [if_neg e]
  by_cases hw : w = 0
  · rw [if_pos (Or.inl hw), if_pos hw, (C37_project h).2.2]
    by_cases c : (common b v u).Nonempty
    · simp [e, c, hv, hu]
    · rw [not_nonempty_iff_eq_empty] at c
      simp [c]
  · rw [if_neg (by simp [hw, hd]), if_neg hw, (C37_weighted_truncated h).2]
    by_cases c : 1 ≤ overlap b v u
    · have : 0 ≤ ⌊overlap b v u⌋ := Int.floor_nonneg.2 (by linarith)
      rw [if_pos ⟨hv, hu, e, c⟩, max_eq_right this]
      simp
    · have : ⌊overlap b v u⌋ ≤ 0 := by
        have : ⌊overlap b v u⌋ < 1 := Int.floor_lt.2 (by push_cast; linarith)
        omega
      rw [if_neg (by simp [c]), max_eq_left this]
      simp

theorem tie_nonneg (d w : Int) (v u : ℕ) : 0 ≤ tie b d w v u := by
  unfold tie
  split_ifs
  · exact le_rfl
  · norm_num
  · exact le_rfl
  · positivity
  · exact_mod_cast le_max_left _ _

theorem mapFast_inGroup : (MapPartToNetFast m modules).inGroup = mapInGroup m modules := rfl

theorem mapFast_members {net : Net} (hp : ListsOK net m modules) {g : ℕ} (hg : g < m) :
    members net (MapPartToNetFast m modules) g = (modules.grp g).nodes.toFinset := by
  ext v
  rw [mem_members, List.mem_toFinset, mapFast_inGroup, mapInGroup_iff m hp.disj]
  exact ⟨fun h => h.2.2, fun h => ⟨hp.range g hg v h, hg, h⟩⟩

theorem projected_zero (h : b.OK) (d w : Int) (v u : ℕ) :
    (((projectedOf b d w).a v u : Int) : ℚ) = 0 ↔ (projectedOf b d w).w v u = 0 := by
  unfold projectedOf Net.a Net.w
  split_ifs with c1 c2 c2
  · rw [(C37_project h).2.2] at c2 ⊢
    split_ifs at c2 with c3
    · have := card_pos.2 c3.2.2.2
      rw [if_pos c3]
      simp
      exact c3.2.2.2.ne_empty
    · simp at c2
  · rw [(C37_project h).2.2] at c2 ⊢
    split_ifs at c2 with c3
    · simp at c2
    · rw [if_neg c3]; simp
  · rw [(C37_weighted_truncated h).2] at c2 ⊢
    split_ifs at c2 with c3
    · have : (⌊overlap b v u⌋ : ℚ) ≠ 0 := by exact_mod_cast (Int.floor_pos.2 c3.2.2.2).ne'
      rw [if_pos c3]
      simpa using this
    · simp at c2
  · rw [(C37_weighted_truncated h).2] at c2 ⊢
    split_ifs at c2 with c3
    · simp at c2
    · rw [if_neg c3]; simp

theorem foldlM_lines {f : ℕ → Option (ℚ × ℝ)} {F : ℕ → TabLine} {mk : ℕ → ℚ → ℝ → TabLine} : ∀ (l : List ℕ) (L : List TabLine),
    (∀ v ∈ l, ∃ P z, f v = some (P, z) ∧ mk v P z = F v) →
    l.foldlM (fun L v => do
      let (P, z) ← f v
      return L ++ [mk v P z]) L = some (L ++ l.map F)
  | [], L, _ => by simp
  | v :: l, L, h => by
    obtain ⟨P, z, e, e2⟩ := h v (by simp)
    rw [List.foldlM_cons]
    simp only [e, Option.bind_eq_bind, Option.bind_some, Option.pure_def]
    have ih := foldlM_lines (f := f) (mk := mk) l (L ++ [mk v P z]) fun u hu => h u (by simp [hu])
    simp only [Option.bind_eq_bind, Option.pure_def] at ih
    rw [ih, e2]
    simp

theorem foldlM_groups {f : List TabLine → ℕ → Option (List TabLine)} {F : ℕ → List TabLine} : ∀ (l : List ℕ) (L : List TabLine),
    (∀ g ∈ l, ∀ L, f L g = some (L ++ F g)) → l.foldlM f L = some (L ++ l.flatMap F)
  | [], L, _ => by simp
  | g :: l, L, h => by
    rw [List.foldlM_cons, h g (by simp)]
    simp only [Option.bind_eq_bind, Option.bind_some]
    rw [foldlM_groups l _ fun u hu => h u (by simp [hu])]
    simp

theorem sum_modules {net : Net} (hp : ListsOK net m modules) (hall : ∀ v < net.n, ∃ g < m, v ∈ (modules.grp g).nodes)
    (F : ℕ → ℚ) : ∑ k ∈ range m, ∑ u ∈ (modules.grp k).nodes.toFinset, F u = ∑ u ∈ range net.n, F u := by
  rw [← sum_biUnion]
  · refine sum_congr ?_ fun _ _ => rfl
    ext v
    simp only [mem_biUnion, Finset.mem_range, List.mem_toFinset]
    exact ⟨fun ⟨g, hg, hv⟩ => hp.range g hg v hv, fun hv => hall v hv⟩
  · intro g hg g' hg' hne
    rw [Function.onFun, disjoint_left]
    intro v hv hv'
    rw [List.mem_toFinset] at hv hv'
    exact hp.disj g (by simpa using hg) g' (by simpa using hg') hne v hv hv'

theorem scores_ok (h : b.OK) (hp : ListsOK (projectedOf b d w) m modules)
    (hall : ∀ v < b.n1, ∃ g < m, v ∈ (modules.grp g).nodes)
    (hd : d = 1 → ∀ v < b.n1, ((range b.n1).filter fun u => v ≠ u ∧ (common b v u).Nonempty).card ≤ 46340)
    {g v : ℕ} (hg : g < m) (hv : v ∈ (modules.grp g).nodes) :
    tabScores (projectedOf b d w) m (MapPartToNetFast m modules) d g v =
      some (partOf (tie b d w) m (fun k => (modules.grp k).nodes.toFinset) v,
        zOf (modules.grp g).nodes.toFinset (tieTo (tie b d w) (modules.grp g).nodes.toFinset) v) := by
  have hs := projected_simple h d w
  have hn := projected_n (b := b) d w
  have hvn : v < b.n1 := hn ▸ hp.range g hg v hv
  have hin : (MapPartToNetFast m modules).inGroup v = some g := (mapInGroup_iff m hp.disj v g).2 ⟨hg, hv⟩
  have hfind : findGroup m (MapPartToNetFast m modules) g v = some g := by
    unfold findGroup
    rw [hin]
    simp [hg]
  have hcov : Covers (projectedOf b d w) m (MapPartToNetFast m modules) := by
    intro u hu
    obtain ⟨k, hk, hm⟩ := hall u (hn ▸ hu)
    exact ⟨k, hk, (mapInGroup_iff m hp.disj u k).2 ⟨hk, hm⟩⟩
  have hG : ((MapPartToNetFast m modules).grp g).nodes = (modules.grp g).nodes ∧
      ((MapPartToNetFast m modules).grp g).size = (modules.grp g).size := by
    simp [MapPartToNetFast, hg]
  have hsize : ((MapPartToNetFast m modules).grp g).size = ((modules.grp g).nodes.toFinset.card : Int) := by
    rw [hG.2, hp.size g hg, List.toFinset_card_of_nodup (hp.nodup g hg)]
  have hz : ∀ f : ℕ → ℚ, zscore f ((MapPartToNetFast m modules).grp g) v = some (zOf (modules.grp g).nodes.toFinset f v) := fun f =>
    zscore_eq f (by rw [hG.1]; exact hp.nodup g hg) (by rw [hG.1]) hsize ⟨v, by simpa using hv⟩ v
  have hzc : ∀ f f' : ℕ → ℚ, (∀ u ∈ (modules.grp g).nodes, f u = f' u) →
      zOf (modules.grp g).nodes.toFinset f v = zOf (modules.grp g).nodes.toFinset f' v := by
    intro f f' hf
    unfold zOf
    have e1 : ∑ u ∈ (modules.grp g).nodes.toFinset, f u = ∑ u ∈ (modules.grp g).nodes.toFinset, f' u :=
      sum_congr rfl fun u hu => hf u (by simpa using hu)
    dsimp only
    rw [e1, hf v hv]
    rw [sum_congr rfl fun u hu => by rw [hf u (by simpa using hu)]]
  unfold tabScores
  by_cases e : d = 1
  · subst e
    have ha : ∀ k < m, ∀ u < b.n1, kTo (projectedOf b 1 w) (MapPartToNetFast m modules) u k =
        tieTo (tie b 1 w) (modules.grp k).nodes.toFinset u := by
      intro k hk u hu
      unfold kTo tieTo
      rw [mapFast_members hp hk]
      exact sum_congr rfl fun j hj => projected_a h hu (hn ▸ hp.range k hk j (by simpa using hj)) w
    have hdeg : deg (projectedOf b 1 w) v = ∑ k ∈ range m, tieTo (tie b 1 w) (modules.grp k).nodes.toFinset v := by
      unfold deg tieTo
      rw [sum_modules hp (by rw [hn]; exact hall), hn]
      exact sum_congr rfl fun j hj => projected_a h hvn (mem_range.1 hj) w
    have hle : deg (projectedOf b 1 w) v ≤ 46340 := by
      have : deg (projectedOf b 1 w) v = ((range b.n1).filter fun u => v ≠ u ∧ (common b v u).Nonempty).card := by
        unfold deg
        rw [hn, card_filter, Nat.cast_sum]
        refine sum_congr rfl fun j hj => ?_
        rw [projected_a h hvn (mem_range.1 hj) w]
        unfold tie
        split_ifs <;> simp_all
      rw [this]
      exact_mod_cast hd rfl v hvn
    rw [if_pos rfl, C61_participation hs hcov hle]
    unfold WithinModuleRelativeDegree
    simp only [hfind, Option.bind_eq_bind, Option.bind_some, hz, Option.pure_def]
    rw [hzc _ (tieTo (tie b 1 w) (modules.grp g).nodes.toFinset) fun u hu => by
      rw [nlinks_kTo hs]; exact ha g hg u (hn ▸ hp.range g hg u hu)]
    unfold partOf
    dsimp only
    have hsum : ∑ k ∈ range m, (kTo (projectedOf b 1 w) (MapPartToNetFast m modules) v k / deg (projectedOf b 1 w) v) ^ 2 =
        ∑ k ∈ range m, (tieTo (tie b 1 w) (modules.grp k).nodes.toFinset v / deg (projectedOf b 1 w) v) ^ 2 :=
      sum_congr rfl fun k hk => by rw [ha k (mem_range.1 hk) v hvn]
    rw [hsum, hdeg]
  · have ha : ∀ k < m, ∀ u < b.n1, sTo (projectedOf b d w) (MapPartToNetFast m modules) u k =
        tieTo (tie b d w) (modules.grp k).nodes.toFinset u := by
      intro k hk u hu
      unfold sTo tieTo
      rw [mapFast_members hp hk]
      exact sum_congr rfl fun j hj => projected_w h hu (hn ▸ hp.range k hk j (by simpa using hj)) e w
    have hstr : str (projectedOf b d w) v = ∑ k ∈ range m, tieTo (tie b d w) (modules.grp k).nodes.toFinset v := by
      unfold str tieTo
      rw [sum_modules hp (by rw [hn]; exact hall), hn]
      exact sum_congr rfl fun j hj => projected_w h hvn (mem_range.1 hj) e w
    have hzero : deg (projectedOf b d w) v = 0 ↔ str (projectedOf b d w) v = 0 := by
      unfold deg str
      rw [hn, sum_eq_zero_iff_of_nonneg (fun i _ => by unfold Net.a; split_ifs <;> simp),
        sum_eq_zero_iff_of_nonneg fun i hi => by rw [projected_w h hvn (mem_range.1 hi) e w]; exact tie_nonneg d w v i]
      simp only [projected_zero h]
    have hP : WeightedParticipationCoefficient (projectedOf b d w) m (MapPartToNetFast m modules) v =
        some (partOf (tie b d w) m (fun k => (modules.grp k).nodes.toFinset) v) := by
      unfold partOf
      dsimp only
      rw [← hstr]
      by_cases e0 : str (projectedOf b d w) v = 0
      · rw [if_pos e0]
        exact (C61_weighted hs).1 (hzero.2 e0)
      · rw [if_neg e0, (C61_weighted hs).2.1 (fun hh => e0 (hzero.1 hh)) e0]
        congr 2
        exact sum_congr rfl fun k hk => by rw [ha k (mem_range.1 hk) v hvn]
    rw [if_neg e, hP]
    unfold WithinModuleRelativeStrength
    simp only [hfind, Option.bind_eq_bind, Option.bind_some, hz, Option.pure_def]
    rw [hzc _ (tieTo (tie b d w) (modules.grp g).nodes.toFinset) fun u hu => by
      rw [strength_sTo hs]; exact ha g hg u (hn ▸ hp.range g hg u hu)]

/-- **C167**: for every bipartite network and every partition of its first set, one line is printed for each node, module by module,
with the label of the node, the number of the module, the role, and the scores the role was read off from, computed from the ties
between the nodes of the first set. (What fails is the documented file: see `C167_wrong_file`.) -/
theorem C167_table_partial (h : b.OK) (label : ℕ → String) (d w : Int)
    (hnd : ∀ g < m, (modules.grp g).nodes.Nodup) (hr : ∀ g < m, ∀ v ∈ (modules.grp g).nodes, v < b.n1)
    (hdis : ∀ g < m, ∀ g' < m, g ≠ g' → ∀ v ∈ (modules.grp g).nodes, v ∉ (modules.grp g').nodes)
    (hsize : ∀ g < m, (modules.grp g).size = (modules.grp g).nodes.length)
    (hall : ∀ v < b.n1, ∃ g < m, v ∈ (modules.grp g).nodes)
    (hd : d = 1 → ∀ v < b.n1, ((range b.n1).filter fun u => v ≠ u ∧ (common b v u).Nonempty).card ≤ 46340) :
    ∃ r, FPrintTabNodesBipart b label m modules d w = some r ∧
      r.stdout = (List.range m).flatMap fun g => (modules.grp g).nodes.map
        (lineOf label (tie b d w) m (fun k => (modules.grp k).nodes.toFinset) g) := by
  have hp : ListsOK (projectedOf b d w) m modules := ⟨hnd, fun g hg v hv => (projected_n d w).symm ▸ hr g hg v hv, hdis, hsize⟩
  refine ⟨⟨[], _⟩, ?_, rfl⟩
  unfold FPrintTabNodesBipart
  have key : (List.range m).foldlM (fun L g => ((MapPartToNetFast m modules).grp g).nodes.foldlM (fun L v => do
      let (P, z) ← tabScores (projectedOf b d w) m (MapPartToNetFast m modules) d g v
      return L ++ [⟨label v, g + 1, Roles.GetRole (P : ℝ) z + 1, P, z⟩]) L) [] =
      some ([] ++ (List.range m).flatMap fun g => (modules.grp g).nodes.map
        (lineOf label (tie b d w) m (fun k => (modules.grp k).nodes.toFinset) g)) := by
    refine foldlM_groups _ _ fun g hg L => ?_
    rw [List.mem_range] at hg
    have hG : ((MapPartToNetFast m modules).grp g).nodes = (modules.grp g).nodes := by simp [MapPartToNetFast, hg]
    rw [hG]
    refine foldlM_lines (f := fun v => tabScores (projectedOf b d w) m (MapPartToNetFast m modules) d g v)
      (mk := fun v P z => ⟨label v, g + 1, Roles.GetRole (P : ℝ) z + 1, P, z⟩) _ _ fun v hv => ?_
    exact ⟨_, _, scores_ok h hp hall hd hg hv, rfl⟩
  unfold projectedOf at key
  simp only [Option.bind_eq_bind, Option.pure_def, List.nil_append] at key ⊢
  rw [key]
  rfl

/-- **C167**, refuted: the documented output file gets nothing, whatever is printed. -/
theorem C167_wrong_file (label : ℕ → String) (d w : Int) {r : Written}
    (h : FPrintTabNodesBipart b label m modules d w = some r) : r.outf = [] := by
  unfold FPrintTabNodesBipart at h
  simp only [Option.bind_eq_bind, Option.bind_eq_some_iff, Option.pure_def, Option.some.injEq] at h
  obtain ⟨_, _, rfl⟩ := h
  rfl

/-- Both nodes in one module. -/
def oneModule : Part := { grp := fun g => if g = 0 then { Grp.empty with nodes := [0, 1], size := 2 } else Grp.empty, inGroup := fun _ => none }

/-- The hypotheses hold for an example with a table of two lines. -/
example : ∃ r, FPrintTabNodesBipart small (fun i => if i = 0 then "a" else "b") 1 oneModule 0 1 = some r ∧
    r.outf = [] ∧ r.stdout.map (fun x => (x.label, x.module)) = [("a", 1), ("b", 1)] := by
  obtain ⟨r, h1, h2⟩ := C167_table_partial (b := small) (m := 1) (modules := oneModule) small_ok
    (fun i => if i = 0 then "a" else "b") 0 1 (by decide) (by decide) (by intro g hg g' hg' hne; omega) (by decide)
    (by decide) (by intro e; cases e)
  refine ⟨r, h1, C167_wrong_file _ _ _ h1, ?_⟩
  rw [h2]
  rfl

/-! ## Modularity from a matrix -/

/-- **C63**: the fast version adds the entries of a symmetric matrix over the unordered pairs of different nodes in the same group; it is the
weighted modularity exactly for matrices whose entries add up to it, for example those that hold the double of each pair's term. -/
theorem C63_fast {n : ℕ} {part : List (List ℕ)} (hp : PartOK n part) {M : ℕ → ℕ → ℚ} (hM : ∀ i j, M i j = M j i) :
    ModularityBipartWeightedFast part M = some (pairSum n part M / 2) := by
  unfold ModularityBipartWeightedFast
  rw [pairLoop_eq (F := M) fun _ _ _ _ _ _ => rfl, ← parts_sum hM hp]
  congr 1
  ring

theorem pairSum_double (n : ℕ) (part : List (List ℕ)) (F : ℕ → ℕ → ℚ) :
    pairSum n part (fun i j => 2 * F i j) = 2 * pairSum n part F := by
  classical
  unfold pairSum
  simp only [mul_sum]
  refine sum_congr rfl fun i _ => sum_congr rfl fun j _ => ?_
  split_ifs <;> ring

/-- **C63**: with the double of each pair's term in the matrix, both versions agree. -/
theorem C63_fast_agrees (h : b.OK) {part : List (List ℕ)} (hp : PartOK b.n1 part)
    (h1 : ∑ a ∈ range b.n2, (∑ i ∈ range b.n1, b.wt i a) ≠ 0)
    (h2 : ∑ a ∈ range b.n2, (∑ i ∈ range b.n1, b.wt i a) * ((∑ i ∈ range b.n1, b.wt i a) - 1) ≠ 0) :
    ModularityBipartWeightedFast part (fun i j => 2 * (overlap b i j /
        (∑ a ∈ range b.n2, (∑ i ∈ range b.n1, b.wt i a) * ((∑ i ∈ range b.n1, b.wt i a) - 1)) -
        (∑ a ∈ range b.n2, b.wt i a) * (∑ a ∈ range b.n2, b.wt j a) / (∑ a ∈ range b.n2, ∑ i ∈ range b.n1, b.wt i a) ^ 2)) =
      ModularityBipartWeighted b part := by
  rw [C63_weighted_partial h hp h1 h2, C63_fast hp, pairSum_double]
  · unfold biModW overlap
    congr 1
    ring
  · intro i j
    unfold overlap
    rw [mul_comm (∑ a ∈ range b.n2, b.wt i a), sum_congr rfl fun a _ => mul_comm (b.wt i a) (b.wt j a)]

example : ModularityBipartWeightedFast [[0, 1], [2]] (fun i j => i + j) = some 1 := by decide +kernel

end BP
