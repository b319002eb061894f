import Verif.KState.Model
import Verif.KState.Spec
import Verif.Missing.Gibbs

/-! # Ratings as links of the network of one rating -/

set_option linter.unusedSimpArgs false

namespace KS

open GP RG LS Finset

variable {net : Net} {p : Part} {f : ℕ → Option ℕ} {K : ℕ}

/-- The links of rating `k` alone. -/
def only (net : Net) (k : ℕ) : Net := { n := net.n, neig := fun v => (net.neig v).filter fun x => x.2 = (k : ℚ) }

theorem only_nodup (h : net.Simple) (k : ℕ) (i : ℕ) : (((only net k).neig i).map (·.1)).Nodup :=
  List.Sublist.nodup (List.Sublist.map _ List.filter_sublist) (h.nodup i)

theorem only_link (h : net.Simple) (k i j : ℕ) (w : ℚ) :
    (only net k).link i j = some w ↔ net.link i j = some w ∧ w = k := by
  rw [link_iff (only_nodup h k), link_iff h.nodup]
  simp [only]

theorem only_simple (h : net.Simple) (k : ℕ) : (only net k).Simple := by
  refine ⟨only_nodup h k, ?_, ?_, ?_⟩
  · intro i x hx
    exact h.range i x (List.mem_of_mem_filter hx)
  · intro i j
    apply Option.ext
    intro w
    rw [only_link h, only_link h, h.sym]
  · intro i
    apply Option.eq_none_iff_forall_ne_some.2
    intro w hw
    rw [only_link h, h.irrefl] at hw
    simp at hw

theorem ra_eq (h : net.Simple) (k i j : ℕ) : ra net k i j = (only net k).a i j := by
  unfold ra Net.a
  by_cases e : net.link i j = some (k : ℚ)
  · rw [if_pos e, (only_link h k i j _).2 ⟨e, rfl⟩]; rfl
  · rw [if_neg e]
    cases hl : (only net k).link i j with
    | none => rfl
    | some w =>
      obtain ⟨h1, h2⟩ := (only_link h k i j w).1 hl
      rw [h2] at h1
      exact absurd h1 e

theorem block_only (k g : ℕ) : block (only net k) f g = block net f g := rfl

theorem ratings_eq (h : net.Simple) (k g g' : ℕ) : ratings net f k g g' = links (only net k) f g g' := by
  unfold ratings links
  simp only [block_only, ra_eq h]

theorem nodeRatings_eq (h : net.Simple) (k v g : ℕ) : nodeRatings net f k v g = d (only net k) f v g := by
  unfold nodeRatings d
  simp only [block_only, ra_eq h]

theorem ratings_symm (h : net.Simple) (k g g' : ℕ) : ratings net f k g g' = ratings net f k g' g := by
  rw [ratings_eq h, ratings_eq h, links_symm (only_simple h k)]

theorem ratings_nonneg (h : net.Simple) (k g g' : ℕ) : 0 ≤ ratings net f k g g' := by
  rw [ratings_eq h]; exact links_nonneg g g'

theorem TK_symm (h : net.Simple) (g g' : ℕ) : TK net K f g g' = TK net K f g' g := by
  unfold TK
  simp only [ratings_symm h _ g g']

/-! ## Counting functions -/

theorem nweight_only (v g k : ℕ) : NWeightLinksToGroup net p v g k = NLinksToGroup (only net k) p v g := by
  unfold NWeightLinksToGroup NLinksToGroup only
  rw [List.foldl_filter]
  congr 1
  funext s x
  by_cases e : x.2 = (k : ℚ) <;> simp [e]

theorem nweight_eq (h : net.Simple) (v g k : ℕ) : NWeightLinksToGroup net p v g k = nodeRatings net p.inGroup k v g := by
  rw [nweight_only, nlinks_eq (only_simple h k), nodeRatings_eq h]; rfl

theorem ng2g_any {net' : Net} (h : net'.Simple) (e : net'.n = net.n) {m : ℕ} (hp : PartOK net m p) {g g' : ℕ} (hg : g < m) :
    NG2GLinks net' p g g' = links net' p.inGroup g g' := by
  unfold NG2GLinks links
  have : (p.grp g).nodes.foldl (fun s v => s + NLinksToGroup net' p v g') 0 =
      ∑ i ∈ block net' p.inGroup g, ∑ j ∈ block net' p.inGroup g', net'.a i j := by
    rw [foldl_nodes _ (hp.groups g hg).nodup, (hp.groups g hg).mem]
    have : members net p g = block net' p.inGroup g := by unfold members block; rw [e]
    rw [this]
    exact Finset.sum_congr rfl fun v _ => nlinks_eq h p v g'
  rw [this]

theorem nweightg2g_eq (h : net.Simple) {m : ℕ} (hp : PartOK net m p) {g g' : ℕ} (hg : g < m) (k : ℕ) :
    NWeightG2GLinks net p g g' k = ratings net p.inGroup k g g' := by
  rw [ratings_eq h, ← ng2g_any (net := net) (only_simple h k) rfl hp hg]
  unfold NWeightG2GLinks NG2GLinks
  simp only [nweight_only]

theorem a_ratings (hr : Rated net K) (i j : ℕ) : net.a i j = ∑ k ∈ range K, ra net k i j := by
  unfold Net.a
  cases hl : net.link i j with
  | none => simp [ra, hl]
  | some w =>
    obtain ⟨k, hk, rfl⟩ := hr i j w hl
    rw [sum_eq_single_of_mem k (mem_range.2 hk)]
    · simp [ra, hl]
    · intro k' _ hne
      unfold ra
      rw [hl, if_neg]
      intro e
      have := Option.some.inj e
      exact hne (by exact_mod_cast this.symm)

/-- All links together. -/
theorem links_ratings (h : net.Simple) (hr : Rated net K) (g g' : ℕ) :
    links net f g g' = ∑ k ∈ range K, ratings net f k g g' := by
  have hB : B net f g g' = ∑ k ∈ range K, B (only net k) f g g' := by
    unfold B
    simp only [block_only]
    rw [sum_comm (s := range K)]
    apply sum_congr rfl
    intro i _
    rw [sum_comm (s := range K)]
    apply sum_congr rfl
    intro j _
    rw [a_ratings hr]
    exact sum_congr rfl fun k _ => ra_eq h k i j
  by_cases e : g = g'
  · subst e
    have h1 := two_links (f := f) h g
    have h2 : 2 * ∑ k ∈ range K, ratings net f k g g = ∑ k ∈ range K, B (only net k) f g g := by
      rw [mul_sum]
      exact sum_congr rfl fun k _ => by rw [ratings_eq h, two_links (only_simple h k)]
    omega
  · rw [links_ne e, hB]
    exact sum_congr rfl fun k _ => by rw [ratings_eq h, links_ne e]

theorem lfact_nonneg {x : Int} (hx : 0 ≤ x) : lfact x = some (Real.log ((x.toNat.factorial : ℕ) : ℝ)) := by
  unfold lfact; rw [if_pos hx]

theorem countRatings_eq : ∀ (K : ℕ) (c : ℕ → Int), (∀ k < K, 0 ≤ c k) → countRatings K c =
    some (∑ k ∈ range K, c k, ∑ k ∈ range K, Real.log (((c k).toNat.factorial : ℕ) : ℝ))
  | 0, c, _ => by simp [countRatings]
  | K + 1, c, hc => by
    have ih := countRatings_eq K c (fun k hk => hc k (by omega))
    unfold countRatings at ih ⊢
    rw [List.range_succ, List.foldlM_append, ih]
    simp only [Option.bind_eq_bind, Option.bind_some, List.foldlM_cons, List.foldlM_nil]
    rw [lfact_nonneg (hc K (by omega))]
    simp [sum_range_succ]

theorem pairTerm_eq (h : net.Simple) (hK : 0 < K) {c : ℕ → Int} {g g' : ℕ} (hc : ∀ k < K, c k = ratings net f k g g') :
    pairTerm K c = some (TK net K f g g') := by
  unfold pairTerm
  have hs : ∀ k < K, 0 ≤ c k := fun k hk => by rw [hc k hk]; exact ratings_nonneg h k g g'
  rw [countRatings_eq K c hs]
  simp only [Option.bind_eq_bind, Option.bind_some]
  have h0 : 0 ≤ ∑ k ∈ range K, c k := sum_nonneg fun k hk => hs k (mem_range.1 hk)
  rw [lfact_nonneg (by omega)]
  simp only [Option.bind_some]
  unfold TK
  rw [sum_congr rfl fun k hk => hc k (mem_range.1 hk)]
  congr 2
  exact sum_congr rfl fun k hk => by rw [hc k (mem_range.1 hk)]

theorem pairH_eq (h : net.Simple) (hr : Rated net K) (hK : 0 < K) {m : ℕ} (hp : PartOK net m p) {g g' : ℕ} (hg : g < m) :
    pairH net K p g g' = some (TK net K p.inGroup g g') := by
  have h1 := pairTerm_eq (f := p.inGroup) h hK (c := fun k => NWeightG2GLinks net p g g' k) (g := g) (g' := g')
    (fun k _ => nweightg2g_eq h hp hg k)
  unfold pairTerm at h1
  unfold pairH
  rw [ng2g_any h rfl hp hg, links_ratings h hr]
  have hs : ∀ k < K, 0 ≤ NWeightG2GLinks net p g g' k := fun k hk => by
    rw [nweightg2g_eq h hp hg]; exact ratings_nonneg h k g g'
  rw [countRatings_eq K _ hs] at h1 ⊢
  simp only [Option.bind_eq_bind, Option.bind_some] at h1 ⊢
  rw [sum_congr rfl fun k _ => nweightg2g_eq h hp hg k] at h1
  exact h1

theorem nnod_all (hp : PartOK net net.n p) (hf : Full net p) :
    (List.range net.n).foldl (fun s g => s + (p.grp g).size) (0 : Int) = net.n := by
  rw [← nnod_eq hp hf]
  have : ∀ (l : List ℕ) (s : Int), (∀ g ∈ l, g < net.n) → l.foldl (fun s g => s + (p.grp g).size) s =
      l.foldl (fun s g => if 0 < (p.grp g).size then s + (p.grp g).size else s) s := by
    intro l
    induction l with
    | nil => intros; rfl
    | cons g l ih =>
      intro s hl
      rw [List.foldl_cons, List.foldl_cons, ih _ (fun x hx => hl x (by simp [hx]))]
      have := size_eq hp (hl g (by simp))
      congr 1
      split_ifs <;> omega
  exact this _ _ fun g hg => List.mem_range.1 hg

/-- `LSHKState` is the energy of the division. -/
theorem hk_eq (h : net.Simple) (hr : Rated net K) (hK : 0 < K) (hp : PartOK net net.n p) (hf : Full net p) :
    LSHKState net K p = some (energyK net K p.inGroup) := by
  unfold LSHKState
  rw [nonempty_eq hp, nnod_all hp hf]
  dsimp only
  rw [lfact_eq (used_le net _)]
  rw [foldlM_sum _ (fun g => TK net K p.inGroup g g +
    ∑ g' ∈ (range net.n).filter (g < ·), TK net K p.inGroup g g')]
  · simp only [Option.bind_eq_bind, Option.bind_some, Option.pure_def]
    rw [range_sum, sum_add_distrib]
    unfold energyK
    congr 1
    push_cast
    ring
  · intro g hg s
    have hg := List.mem_range.1 hg
    rw [foldlM_sum _ (fun g' => TK net K p.inGroup g g')]
    · obtain ⟨m, hm⟩ : ∃ m, net.n - g = m + 1 := ⟨net.n - g - 1, by omega⟩
      rw [hm, List.range'_succ, List.map_cons, List.sum_cons, show m = net.n - (g + 1) by omega, range'_sum]
    · intro g' _ s
      rw [pairH_eq h hr hK hp hg]; rfl

/-! ## The updates -/

theorem kStep_apply {old new : ℕ} (hne : new ≠ old) (c : ℕ → Int) {M : ℕ → ℕ → Int}
    (hs : ∀ i j, M i j = M j i) (i g g' : ℕ) :
    kStep old new c M i g g' = M g g' + change old new (fun j => if j = i then c i else 0) g g' := by
  have hne' := hne.symm
  unfold kStep
  simp only [set2_apply]
  unfold change
  by_cases e1 : i = old
  · subst e1
    by_cases a1 : g = i <;> by_cases a2 : g = new <;> by_cases b1 : g' = i <;> by_cases b2 : g' = new <;>
      simp_all <;> ring
  · by_cases e2 : i = new
    · subst e2
      by_cases a1 : g = old <;> by_cases a2 : g = i <;> by_cases b1 : g' = old <;> by_cases b2 : g' = i <;>
        simp_all <;> ring
    · by_cases a1 : g = old <;> by_cases a2 : g = new <;> by_cases a3 : g = i <;>
        by_cases b1 : g' = old <;> by_cases b2 : g' = new <;> by_cases b3 : g' = i <;>
        simp_all <;> ring

theorem kUpdate_apply {old new : ℕ} (hne : new ≠ old) (c : ℕ → Int) {M : ℕ → ℕ → Int}
    (hs : ∀ i j, M i j = M j i) : ∀ (n g g' : ℕ),
    kUpdate n old new c M g g' = M g g' + change old new (fun j => if j < n then c j else 0) g g'
  | 0, g, g' => by simp [kUpdate, change]
  | n + 1, g, g' => by
    have ih := kUpdate_apply hne c hs n
    unfold kUpdate at ih ⊢
    rw [List.range_succ, List.foldl_append, List.foldl_cons, List.foldl_nil, kStep_apply hne, ih, add_assoc,
      ← change_add]
    · congr 1
      congr 1
      funext j
      rcases Nat.lt_trichotomy j n with h | h | h
      · simp [h, Nat.ne_of_lt h, Nat.lt_succ_of_lt h]
      · subst h; simp
      · simp [(Nat.ne_of_lt h).symm, Nat.not_lt.2 h.le, show ¬ j < n + 1 by omega]
    · intro i j
      rw [ih, ih, hs, change_symm]

theorem kStep_congr {N old new i : ℕ} (ho : old < N) (hn : new < N) (hi : i < N) (c : ℕ → Int)
    {M M' : ℕ → ℕ → Int} (h : ∀ g < N, ∀ g' < N, M g g' = M' g g') :
    ∀ g < N, ∀ g' < N, kStep old new c M i g g' = kStep old new c M' i g g' := by
  intro g hg g' hg'
  unfold kStep
  simp only [set2_apply, h g hg g' hg', h old ho i hi, h new hn i hi]

theorem kUpdate_congr {N old new : ℕ} (ho : old < N) (hn : new < N) (c : ℕ → Int)
    {M M' : ℕ → ℕ → Int} (h : ∀ g < N, ∀ g' < N, M g g' = M' g g') : ∀ n ≤ N,
    ∀ g < N, ∀ g' < N, kUpdate n old new c M g g' = kUpdate n old new c M' g g'
  | 0, _ => h
  | n + 1, hle => by
    have ih := kUpdate_congr ho hn c h n (by omega)
    unfold kUpdate at ih ⊢
    rw [List.range_succ, List.foldl_append, List.foldl_append]
    exact kStep_congr ho hn (by omega) c ih

theorem kUpdate_eq {n old new : ℕ} (hne : new ≠ old) (ho : old < n) (hn : new < n) (c : ℕ → Int)
    {M : ℕ → ℕ → Int} (hs : ∀ i < n, ∀ j < n, M i j = M j i) {g g' : ℕ} (hg : g < n) (hg' : g' < n) :
    kUpdate n old new c M g g' = M g g' + change old new c g g' := by
  have h1 := kUpdate_congr ho hn c (M := M) (M' := fun i j => if i < n ∧ j < n then M i j else 0)
    (fun i hi j hj => by simp [hi, hj]) n (le_refl _) g hg g' hg'
  rw [h1, kUpdate_apply hne]
  · simp only [hg, hg', and_self, if_true]
    congr 1
    unfold change
    simp only [ho, hn, hg, hg', if_true]
  · intro i j
    by_cases hi : i < n <;> by_cases hj : j < n <;> simp [hi, hj]
    exact hs i hi j hj

/-- Change of a count between a node and group `g` when a neighbour moves. -/
def nchange (old new g : ℕ) : Int := if g = new then 1 else if g = old then -1 else 0

theorem n2gStep_apply {old new : ℕ} (hne : new ≠ old) (e : Int) (x : ℕ × ℚ) : ∀ (K : ℕ) (N : ℕ → ℕ → ℕ → Int) (k u g : ℕ),
    n2gStep K old new e N x k u g = N k u g + if k < K ∧ x.2 = (k : ℚ) ∧ u = x.1 then e * nchange old new g else 0
  | 0, N, k, u, g => by simp [n2gStep]
  | K + 1, N, k, u, g => by
    have ih := n2gStep_apply hne e x K N
    unfold n2gStep at ih ⊢
    rw [List.range_succ, List.foldl_append, List.foldl_cons, List.foldl_nil]
    generalize (List.range K).foldl (fun N (k : ℕ) =>
      if x.2 = (k : ℚ) then
        let M := set2 (N k) x.1 old (N k x.1 old - e)
        Function.update N k (set2 M x.1 new (M x.1 new + e))
      else N) N = F at ih ⊢
    by_cases hx : x.2 = (K : ℚ)
    · rw [if_pos hx]
      by_cases hk : k = K
      · subst hk
        rw [Function.update_self, set2_apply]
        simp only [set2_apply, ih, hx, lt_self_iff_false, false_and, if_false, add_zero, true_and,
          Nat.lt_succ_self]
        unfold nchange
        by_cases hu : u = x.1
        · subst hu
          by_cases h1 : g = new
          · subst h1; simp [hne]
          · by_cases h2 : g = old
            · subst h2; simp [h1]; ring
            · simp [h1, h2]
        · simp [hu]
      · rw [Function.update_of_ne hk, ih]
        have : ¬ x.2 = (k : ℚ) := by
          rw [hx]
          intro e
          exact hk (by exact_mod_cast e.symm)
        simp [this]
    · rw [if_neg hx, ih]
      congr 1
      have : (k < K ∧ x.2 = (k : ℚ) ∧ u = x.1) ↔ (k < K + 1 ∧ x.2 = (k : ℚ) ∧ u = x.1) := by
        constructor
        · rintro ⟨a, b, c⟩; exact ⟨by omega, b, c⟩
        · rintro ⟨a, b, c⟩
          refine ⟨?_, b, c⟩
          rcases Nat.lt_succ_iff_lt_or_eq.1 a with h | h
          · exact h
          · rw [h] at b; exact absurd b hx
      by_cases hh : k < K ∧ x.2 = (k : ℚ) ∧ u = x.1
      · rw [if_pos hh, if_pos (this.1 hh)]
      · rw [if_neg hh, if_neg fun h => hh (this.2 h)]

theorem updateN2G_list {old new : ℕ} (hne : new ≠ old) (e : Int) : ∀ (l : List (ℕ × ℚ)), (l.map (·.1)).Nodup →
    ∀ (N : ℕ → ℕ → ℕ → Int) (k u g : ℕ), k < K →
    l.foldl (n2gStep K old new e) N k u g = N k u g + if (u, (k : ℚ)) ∈ l then e * nchange old new g else 0
  | [], _, N, k, u, g, _ => by simp
  | x :: l, hnd, N, k, u, g, hk => by
    rw [List.map_cons, List.nodup_cons] at hnd
    rw [List.foldl_cons, updateN2G_list hne e l hnd.2 _ _ _ _ hk, n2gStep_apply hne]
    by_cases h1 : x.2 = (k : ℚ) ∧ u = x.1
    · have : (u, (k : ℚ)) ∉ l := by
        intro hm
        exact hnd.1 (List.mem_map.2 ⟨_, hm, h1.2⟩)
      have h2 : (u, (k : ℚ)) ∈ x :: l := by
        rw [List.mem_cons]; left
        exact Prod.ext h1.2 h1.1.symm
      rw [if_pos ⟨hk, h1⟩, if_neg this, if_pos h2, add_zero]
    · have h2 : (u, (k : ℚ)) ∈ x :: l ↔ (u, (k : ℚ)) ∈ l := by
        rw [List.mem_cons]
        constructor
        · rintro (h | h)
          · exact absurd ⟨by rw [← h], by rw [← h]⟩ h1
          · exact h
        · exact Or.inr
      rw [if_neg (fun h => h1 h.2), add_zero]
      by_cases h3 : (u, (k : ℚ)) ∈ l
      · rw [if_pos h3, if_pos (h2.2 h3)]
      · rw [if_neg h3, if_neg fun h => h3 (h2.1 h)]

theorem updateN2G_eq (h : net.Simple) {old new : ℕ} (hne : new ≠ old) (e : Int) (v : ℕ) (N : ℕ → ℕ → ℕ → Int)
    {k : ℕ} (hk : k < K) (u g : ℕ) :
    updateN2G net K v old new e N k u g = N k u g + e * (ra net k v u * nchange old new g) := by
  unfold updateN2G
  rw [updateN2G_list hne e _ (h.nodup v) _ _ _ _ hk]
  unfold ra
  simp only [link_iff h.nodup]
  split_ifs <;> ring

theorem nodeRatings_move (h : net.Simple) {v old new : ℕ} (hv : v < net.n) (hold : f v = some old) (hne : new ≠ old)
    (k u g : ℕ) : nodeRatings net (Function.update f v (some new)) k u g =
      nodeRatings net f k u g + ra net k v u * nchange old new g := by
  have hsym : ra net k v u = ra net k u v := by unfold ra; rw [h.sym]
  unfold nodeRatings nchange
  by_cases h1 : g = new
  · subst h1
    rw [block_new hv hold hne, sum_insert (v_not_mem hv hold hne), if_pos rfl, hsym]; ring
  · by_cases h2 : g = old
    · subst h2
      rw [block_old hv hold hne, if_neg h1, if_pos rfl, ← add_sum_erase _ _ (v_mem hv hold hne), hsym]; ring
    · rw [block_other hv hold hne h2 h1, if_neg h1, if_neg h2]; ring

theorem ratings_move (h : net.Simple) {v old new : ℕ} (hv : v < net.n) (hold : f v = some old) (hne : new ≠ old)
    (k g g' : ℕ) : ratings net (Function.update f v (some new)) k g g' =
      ratings net f k g g' + change old new (fun i => nodeRatings net f k v i) g g' := by
  rw [ratings_eq h, ratings_eq h, links_move (net := only net k) hv hold hne (only_simple h k)]
  unfold change
  simp only [nodeRatings_eq h]

end KS
