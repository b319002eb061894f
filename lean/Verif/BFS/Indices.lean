import Verif.BFS.Clusters
import Mathlib.Data.Finset.Prod
import Mathlib.Data.Nat.Choose.Basic
import Mathlib.Data.Nat.Choose.Cast
import Mathlib.Algebra.BigOperators.Group.Finset.Sigma
import Mathlib.Algebra.Order.BigOperators.Group.Finset
import Mathlib.Algebra.Order.BigOperators.Group.List
import Mathlib.Algebra.Order.Field.Basic

/-!
# C21: clustering coefficients, Jaccard index, topological overlap
-/

set_option linter.unusedSimpArgs false

namespace BFS

/-! ## Model -/

/-- `SumCommonLinks`, src/graph.c:1739-1753, for node `u`. -/
def SumCommonLinks (adj : ℕ → List ℕ) (state : ℕ → Bool) (u : ℕ) : ℕ :=
  (adj u).foldl (fun s v => if state v then s + 1 else s) 0

/-- `CalculateLinksBetweenNeig`, src/graph.c:1758-1769. -/
def CalculateLinksBetweenNeig (adj : ℕ → List ℕ) (list : List Entry) (state : ℕ → Bool) : ℕ :=
  list.foldl (fun s e => s + SumCommonLinks adj state e.node) 0

/-- One level of search from `p`, then `Dequeue` of `p` itself (src/graph.c:1796-1801,
1962-1966): the entries left and the states. -/
def neighbours (adj : ℕ → List ℕ) (n p : ℕ) : Option (List Entry × (ℕ → Bool)) := do
  let (_, q) ← RenewQueue adj 0 (n + 1) 0 (Enqueue p none 0 0 Q.empty)
  return (q.list.drop 1, q.state)

/-- `OneNodeClusteringCoefficient`, src/graph.c:1946-1979. -/
def OneNodeClusteringCoefficient (adj : ℕ → List ℕ) (n p : ℕ) : Option ℚ := do
  let (l, st) ← neighbours adj n p
  let k := l.length
  if 1 < k then
    return (CalculateLinksBetweenNeig adj l (Function.update st p false) : ℚ) / ((k : ℚ) * ((k : ℚ) - 1))
  else return -1

/-- Loop of `ClusteringCoefficient` (src/graph.c:1792-1811): the running sum and `nodes`. -/
def clusterSum (adj : ℕ → List ℕ) (n : ℕ) : List ℕ → ℚ × ℕ → Option (ℚ × ℕ)
  | [], x => some x
  | p :: ps, (c, nodes) => do
    let (l, st) ← neighbours adj n p
    let k := l.length
    if 1 < k then
      clusterSum adj n ps
        (c + (CalculateLinksBetweenNeig adj l (Function.update st p false) : ℚ) / ((k * (k - 1) : ℕ) : ℚ), nodes)
    else clusterSum adj n ps (c, nodes - 1)

/-- `ClusteringCoefficient`, src/graph.c:1775-1816; `none` is the division 0/0. The product
`k_v*(k_v-1)` is taken without overflow. -/
def ClusteringCoefficient (adj : ℕ → List ℕ) (n : ℕ) : Option ℚ := do
  let (c, nodes) ← clusterSum adj n (List.range n) (0, n)
  if nodes = 0 then none else return c / nodes

/-- Loop of `JaccardIndex` (src/graph.c:3015-3024): `k1`, `k2`, `ncom`. -/
def jaccardLoop (adj : ℕ → List ℕ) (n2 : ℕ) : List ℕ → Int × Int × Int → Int × Int × Int
  | [], x => x
  | v :: vs, (k1, k2, ncom) =>
    if v = n2 then jaccardLoop adj n2 vs (k1 - 1, k2 - 1, ncom)
    else jaccardLoop adj n2 vs (k1, k2, ncom + if n2 ∈ adj v then 1 else 0)

/-- `JaccardIndex`, src/graph.c:3003-3031; `none` is a division by 0. -/
def JaccardIndex (adj : ℕ → List ℕ) (n1 n2 : ℕ) : Option ℚ :=
  let (k1, k2, ncom) := jaccardLoop adj n2 (adj n1) ((adj n1).length, (adj n2).length, 0)
  if ncom = 0 then some 0
  else if k1 + k2 - ncom = 0 then none
  else some ((ncom : ℚ) / ((k1 + k2 - ncom : Int) : ℚ))

/-- `TopologicalOverlap`, src/graph.c:3039-3078; `none` is the division 0/0. -/
def TopologicalOverlap (adj : ℕ → List ℕ) (n1 n2 : ℕ) : Option ℚ :=
  let k1 := (adj n1).length
  let k2 := (adj n2).length
  let (minim, row, node) := if k1 < k2 then (k1, adj n1, n2) else (k2, adj n2, n1)
  let ncom : ℕ := row.foldl (fun s v => if v = node then s + 1 else s + if v ∈ adj node then 1 else 0) 0
  if minim = 0 then none else some ((ncom : ℚ) / minim)

/-! ## Specification -/

/-- Symmetric networks without self links or repeated links. -/
structure Simple (adj : ℕ → List ℕ) (n : ℕ) : Prop where
  range : InRange adj n
  sym : Sym adj
  nodup : ∀ i, (adj i).Nodup
  irrefl : ∀ i, i ∉ adj i

/-- Neighbours. -/
def nbr (adj : ℕ → List ℕ) (i : ℕ) : Finset ℕ := (adj i).toFinset

/-- Number of links among the neighbours of `i`. -/
def linksAmong (adj : ℕ → List ℕ) (i : ℕ) : ℕ :=
  ((nbr adj i ×ˢ nbr adj i).filter fun x => x.1 < x.2 ∧ x.2 ∈ adj x.1).card

/-! ## Clustering -/

variable {adj : ℕ → List ℕ}

theorem nbr_card {n : ℕ} (h : Simple adj n) (i : ℕ) : (nbr adj i).card = (adj i).length :=
  List.toFinset_card_of_nodup (h.nodup i)

theorem neighbours_spec {n p : ℕ} (h : Simple adj n) (hp : p < n) :
    ∃ l st, neighbours adj n p = some (l, st) ∧ (nodes l).Perm (adj p) ∧
      ∀ v, Function.update st p false v = true ↔ v ∈ adj p := by
  have he : Enqueue p none 0 0 Q.empty =
      { list := [⟨p, 0, [none]⟩], state := Function.update (fun _ => false) p true } := by
    simp [Enqueue, Q.empty]
  obtain ⟨q', C', e, hl, hi, _⟩ := renew_inv (adj := adj) (s := p) (d := 0) [⟨p, 0, [none]⟩] [] []
    { list := [⟨p, 0, [none]⟩], state := Function.update (fun _ => false) p true } (n + 1)
    (by simp; omega) (by simp) (by
      constructor
      · simp [nodes]
      · intro v
        by_cases hv : v = p
        · subst hv; simp [nodes]
        · simp [nodes, hv]
      · simp
      · simp
      · simp
      · simp [isDist_self]
      · simp
      · simp
      · intro v k hk hkk
        obtain rfl : k = 0 := by omega
        simp [nodes, hkk.zero]
      · simp
      · simp)
  simp only [List.nil_append] at hl hi
  have hnd := hi.nodup
  simp only [List.append_nil, List.cons_append, nodes, List.map_cons, List.nodup_cons, List.nil_append] at hnd
  have hmem : ∀ v, v ∈ nodes C' ↔ v ∈ adj p := by
    intro v
    constructor
    · intro hv
      obtain ⟨c, hc, rfl⟩ := List.mem_map.1 hv
      have := hi.dist c (by simp [hc])
      rw [hi.dc c hc] at this
      obtain ⟨u, hu, hm⟩ := this.pred
      rwa [hu.zero] at hm
    · intro hv
      have := hi.closed ⟨p, 0, [none]⟩ (by simp) v hv
      simp only [List.append_nil, List.cons_append, List.nil_append, nodes, List.map_cons,
        List.mem_cons] at this
      rcases this with rfl | this
      · exact (h.irrefl _ hv).elim
      · exact this
  refine ⟨C', q'.state, ?_, ?_, ?_⟩
  · unfold neighbours
    simp only [List.length_nil] at e
    rw [he, e]
    simp [hl]
  · exact (List.perm_ext_iff_of_nodup hnd.2 (h.nodup p)).2 hmem
  · intro v
    by_cases hv : v = p
    · subst hv; simp [h.irrefl]
    · rw [Function.update_of_ne hv, hi.st v]
      simp only [List.append_nil, List.cons_append, List.nil_append, nodes, List.map_cons,
        List.mem_cons, hv, false_or]
      exact hmem v

theorem foldl_countP {α : Type} (p : α → Bool) : ∀ (l : List α) (s : ℕ),
    l.foldl (fun s v => if p v then s + 1 else s) s = s + l.countP p
  | [], s => by simp
  | a :: l, s => by
    rw [List.foldl_cons, foldl_countP p l, List.countP_cons]
    split_ifs <;> omega

theorem foldl_add {α : Type} (f : α → ℕ) : ∀ (l : List α) (s : ℕ),
    l.foldl (fun s v => s + f v) s = s + (l.map f).sum
  | [], s => by simp
  | a :: l, s => by
    rw [List.foldl_cons, foldl_add f l]; simp; omega

/-- Ordered pairs of linked neighbours: twice the links. -/
theorem links_between {n p : ℕ} (h : Simple adj n) {l : List Entry} {st : ℕ → Bool}
    (hl : (nodes l).Perm (adj p)) (hst : ∀ v, st v = true ↔ v ∈ adj p) :
    CalculateLinksBetweenNeig adj l st = 2 * linksAmong adj p := by
  unfold CalculateLinksBetweenNeig
  rw [foldl_add, Nat.zero_add]
  have h1 : (l.map fun e => SumCommonLinks adj st e.node) = (nodes l).map (SumCommonLinks adj st) := by
    simp [nodes, List.map_map, Function.comp_def]
  rw [h1, (hl.map _).sum_eq]
  have h2 : ∀ u, SumCommonLinks adj st u = ∑ v ∈ nbr adj p, if v ∈ adj u then 1 else 0 := by
    intro u
    unfold SumCommonLinks
    rw [foldl_countP, Nat.zero_add, List.countP_eq_length_filter, Finset.sum_boole]
    have : ((adj u).filter fun v => st v).Nodup := (h.nodup u).filter _
    rw [← List.toFinset_card_of_nodup this]
    simp only [Nat.cast_id]
    congr 1
    ext v
    simp [nbr, hst, and_comm]
  have h3 : ((adj p).map (SumCommonLinks adj st)).sum = ∑ u ∈ nbr adj p, SumCommonLinks adj st u := by
    unfold nbr; rw [List.sum_toFinset _ (h.nodup p)]
  rw [h3]
  simp only [h2]
  rw [← Finset.sum_product' (nbr adj p) (nbr adj p) (fun u v => if v ∈ adj u then 1 else 0),
    Finset.sum_boole, Nat.cast_id]
  have h4 : ((nbr adj p ×ˢ nbr adj p).filter fun x => x.2 ∈ adj x.1) =
      ((nbr adj p ×ˢ nbr adj p).filter fun x => x.1 < x.2 ∧ x.2 ∈ adj x.1) ∪
      ((nbr adj p ×ˢ nbr adj p).filter fun x => x.2 < x.1 ∧ x.2 ∈ adj x.1) := by
    ext ⟨a, b⟩
    simp only [Finset.mem_filter, Finset.mem_union, Finset.mem_product]
    constructor
    · rintro ⟨hm, hx⟩
      rcases Nat.lt_trichotomy a b with h5 | h5 | h5
      · exact Or.inl ⟨hm, h5, hx⟩
      · subst h5; exact (h.irrefl _ hx).elim
      · exact Or.inr ⟨hm, h5, hx⟩
    · rintro (⟨hm, _, hx⟩ | ⟨hm, _, hx⟩) <;> exact ⟨hm, hx⟩
  rw [h4, Finset.card_union_of_disjoint (by
    rw [Finset.disjoint_left]
    rintro ⟨a, b⟩ h5 h6
    simp only [Finset.mem_filter] at h5 h6
    omega)]
  have h5 : ((nbr adj p ×ˢ nbr adj p).filter fun x => x.2 < x.1 ∧ x.2 ∈ adj x.1).card
      = linksAmong adj p := by
    unfold linksAmong
    apply Finset.card_bij (fun x _ => (x.2, x.1))
    · rintro ⟨a, b⟩ hx
      simp only [Finset.mem_filter, Finset.mem_product] at hx ⊢
      exact ⟨⟨hx.1.2, hx.1.1⟩, hx.2.1, h.sym _ _ hx.2.2⟩
    · rintro ⟨a, b⟩ _ ⟨c, d⟩ _ e
      simp only [Prod.mk.injEq] at e ⊢
      exact ⟨e.2, e.1⟩
    · rintro ⟨a, b⟩ hx
      simp only [Finset.mem_filter, Finset.mem_product] at hx
      exact ⟨(b, a), by
        simp only [Finset.mem_filter, Finset.mem_product]
        exact ⟨⟨hx.1.2, hx.1.1⟩, hx.2.1, h.sym _ _ hx.2.2⟩, rfl⟩
  rw [h5]
  unfold linksAmong
  omega

theorem linksAmong_le {n : ℕ} (h : Simple adj n) (p : ℕ) :
    2 * linksAmong adj p ≤ (adj p).length * ((adj p).length - 1) := by
  -- ordered pairs with different ends
  have h1 : ((nbr adj p ×ˢ nbr adj p).filter fun x => x.1 < x.2 ∧ x.2 ∈ adj x.1).card +
      ((nbr adj p ×ˢ nbr adj p).filter fun x => x.2 < x.1 ∧ x.2 ∈ adj x.1).card ≤
      (nbr adj p).offDiag.card := by
    rw [← Finset.card_union_of_disjoint (by
      rw [Finset.disjoint_left]
      rintro ⟨a, b⟩ h5 h6
      simp only [Finset.mem_filter] at h5 h6
      omega)]
    apply Finset.card_le_card
    rintro ⟨a, b⟩ hx
    simp only [Finset.mem_union, Finset.mem_filter, Finset.mem_product, Finset.mem_offDiag] at hx ⊢
    rcases hx with hx | hx
    · exact ⟨hx.1.1, hx.1.2, by omega⟩
    · exact ⟨hx.1.1, hx.1.2, by omega⟩
  have h2 : ((nbr adj p ×ˢ nbr adj p).filter fun x => x.2 < x.1 ∧ x.2 ∈ adj x.1).card
      = linksAmong adj p := by
    unfold linksAmong
    apply Finset.card_bij (fun x _ => (x.2, x.1))
    · rintro ⟨a, b⟩ hx
      simp only [Finset.mem_filter, Finset.mem_product] at hx ⊢
      exact ⟨⟨hx.1.2, hx.1.1⟩, hx.2.1, h.sym _ _ hx.2.2⟩
    · rintro ⟨a, b⟩ _ ⟨c, d⟩ _ e
      simp only [Prod.mk.injEq] at e ⊢
      exact ⟨e.2, e.1⟩
    · rintro ⟨a, b⟩ hx
      simp only [Finset.mem_filter, Finset.mem_product] at hx
      exact ⟨(b, a), by
        simp only [Finset.mem_filter, Finset.mem_product]
        exact ⟨⟨hx.1.2, hx.1.1⟩, hx.2.1, h.sym _ _ hx.2.2⟩, rfl⟩
  rw [h2, Finset.offDiag_card, nbr_card h] at h1
  have h3 : (adj p).length * ((adj p).length - 1) = (adj p).length * (adj p).length - (adj p).length := by
    rw [Nat.mul_sub, Nat.mul_one]
  rw [h3]
  change linksAmong adj p + linksAmong adj p ≤ _ at h1
  omega

/-- The coefficient of a node, independently of the code: links among its neighbours over pairs of
neighbours. -/
def coefficient (adj : ℕ → List ℕ) (p : ℕ) : ℚ :=
  (linksAmong adj p : ℚ) / ((adj p).length.choose 2 : ℕ)

theorem coefficient_eq {p : ℕ} (hk : 1 < (adj p).length) :
    ((2 * linksAmong adj p : ℕ) : ℚ) / (((adj p).length : ℚ) * (((adj p).length : ℚ) - 1))
      = coefficient adj p := by
  unfold coefficient
  rw [Nat.cast_choose_two]
  have h1 : ((adj p).length : ℚ) ≠ 0 := by
    have : (0 : ℚ) < (adj p).length := by exact_mod_cast (by omega : 0 < (adj p).length)
    exact this.ne'
  have h2 : ((adj p).length : ℚ) - 1 ≠ 0 := by
    have : (1 : ℚ) < (adj p).length := by exact_mod_cast hk
    linarith
  push_cast
  field_simp

theorem coefficient_mem {n : ℕ} (h : Simple adj n) {p : ℕ} (hk : 1 < (adj p).length) :
    0 ≤ coefficient adj p ∧ coefficient adj p ≤ 1 := by
  rw [← coefficient_eq hk]
  have hk' : (1 : ℚ) < (adj p).length := by exact_mod_cast hk
  have hpos : (0 : ℚ) < ((adj p).length : ℚ) * (((adj p).length : ℚ) - 1) := by
    apply mul_pos <;> linarith
  refine ⟨by positivity, ?_⟩
  rw [div_le_one hpos]
  have := linksAmong_le h p
  have h3 : ((adj p).length * ((adj p).length - 1) : ℕ) = ((adj p).length : ℚ) * (((adj p).length : ℚ) - 1) := by
    push_cast [Nat.cast_sub (show 1 ≤ (adj p).length by omega)]
    rfl
  rw [← h3]
  exact_mod_cast this

/-- **C21**: for a node with at least two neighbours the coefficient is the number of links among
them over the number of pairs, in `[0,1]`; for others the answer is -1. -/
theorem C21_one_node {n p : ℕ} (h : Simple adj n) (hp : p < n) :
    (1 < (adj p).length → OneNodeClusteringCoefficient adj n p = some (coefficient adj p) ∧
      0 ≤ coefficient adj p ∧ coefficient adj p ≤ 1) ∧
    ((adj p).length ≤ 1 → OneNodeClusteringCoefficient adj n p = some (-1)) := by
  obtain ⟨l, st, e, hperm, hst⟩ := neighbours_spec h hp
  have hlen : l.length = (adj p).length := by
    have := hperm.length_eq; simpa [nodes] using this
  unfold OneNodeClusteringCoefficient
  simp only [e, Option.bind_eq_bind, Option.bind_some, hlen, links_between h hperm hst]
  refine ⟨fun hk => ⟨?_, coefficient_mem h hk⟩, fun hk => ?_⟩
  · rw [if_pos hk, coefficient_eq hk]; rfl
  · rw [if_neg (by omega)]; rfl

theorem clusterSum_spec {n : ℕ} (h : Simple adj n) : ∀ (ps : List ℕ), (∀ p ∈ ps, p < n) →
    ∀ (c : ℚ) (m : ℕ), clusterSum adj n ps (c, m) =
      some (c + ((ps.filter fun p => 1 < (adj p).length).map (coefficient adj)).sum,
        m - (ps.filter fun p => ¬ 1 < (adj p).length).length)
  | [], _, c, m => by simp [clusterSum]
  | p :: ps, hps, c, m => by
    obtain ⟨l, st, e, hperm, hst⟩ := neighbours_spec h (hps p (by simp))
    have hlen : l.length = (adj p).length := by
      have := hperm.length_eq; simpa [nodes] using this
    have ih := clusterSum_spec h ps (fun q hq => hps q (by simp [hq]))
    unfold clusterSum
    simp only [e, Option.bind_eq_bind, Option.bind_some, hlen, links_between h hperm hst]
    by_cases hk : 1 < (adj p).length
    · rw [if_pos hk, ih]
      have h3 : (((adj p).length * ((adj p).length - 1) : ℕ) : ℚ) = ((adj p).length : ℚ) * (((adj p).length : ℚ) - 1) := by
        push_cast [Nat.cast_sub (show 1 ≤ (adj p).length by omega)]
        rfl
      rw [h3, coefficient_eq hk]
      rw [List.filter_cons_of_pos (by simpa using hk), List.filter_cons_of_neg (by simpa using hk)]
      simp [add_assoc]
    · rw [if_neg hk, ih, List.filter_cons_of_neg (by simpa using hk),
        List.filter_cons_of_pos (by simpa using hk)]
      simp only [List.length_cons, Option.some.injEq, Prod.mk.injEq, true_and]
      omega

/-- **C21**: the coefficient of the network is the mean of the coefficients over the nodes with at
least two neighbours, in `[0,1]`; without such a node it is 0/0. -/
theorem C21_network {n : ℕ} (h : Simple adj n) :
    let K := (Finset.range n).filter fun p => 1 < (adj p).length
    (K.Nonempty → ∃ C, ClusteringCoefficient adj n = some C ∧
      C = (∑ p ∈ K, coefficient adj p) / K.card ∧ 0 ≤ C ∧ C ≤ 1) ∧
    (K = ∅ → ClusteringCoefficient adj n = none) := by
  intro K
  have hs := clusterSum_spec h (List.range n) (by simp) 0 n
  have hcard : n - ((List.range n).filter fun p => ¬ 1 < (adj p).length).length = K.card := by
    have h1 : K.card = ((List.range n).filter fun p => 1 < (adj p).length).length := rfl
    have h2 := List.length_eq_length_filter_add (l := List.range n) (fun p => decide (1 < (adj p).length))
    simp only [List.length_range] at h2
    rw [h1]
    simp only [decide_not]
    omega
  have hsum : (((List.range n).filter fun p => 1 < (adj p).length).map (coefficient adj)).sum
      = ∑ p ∈ K, coefficient adj p := rfl
  rw [hcard, hsum, zero_add] at hs
  unfold ClusteringCoefficient
  simp only [hs, Option.bind_eq_bind, Option.bind_some]
  constructor
  · intro hK
    have hpos : 0 < K.card := Finset.card_pos.2 hK
    rw [if_neg (by omega)]
    have hposq : (0 : ℚ) < K.card := by exact_mod_cast hpos
    refine ⟨_, rfl, rfl, ?_, ?_⟩
    · apply div_nonneg _ hposq.le
      exact Finset.sum_nonneg fun p hp => (coefficient_mem h (Finset.mem_filter.1 hp).2).1
    · rw [div_le_one hposq]
      have := Finset.sum_le_card_nsmul K (coefficient adj) 1
        (fun p hp => (coefficient_mem h (Finset.mem_filter.1 hp).2).2)
      simpa using this
  · intro hK
    rw [hK]; simp

/-! ## Jaccard and overlap -/

theorem jaccardLoop_eq (n2 : ℕ) : ∀ (l : List ℕ) (k1 k2 c : Int),
    jaccardLoop adj n2 l (k1, k2, c) = (k1 - l.count n2, k2 - l.count n2,
      c + (l.countP fun v => v ≠ n2 ∧ n2 ∈ adj v))
  | [], k1, k2, c => by simp [jaccardLoop]
  | v :: l, k1, k2, c => by
    unfold jaccardLoop
    by_cases hv : v = n2
    · subst hv
      rw [if_pos rfl, jaccardLoop_eq v l, List.count_cons_self, List.countP_cons_of_neg (by simp)]
      simp only [Prod.mk.injEq]
      push_cast
      refine ⟨by ring, by ring, trivial⟩
    · rw [if_neg hv, jaccardLoop_eq n2 l, List.count_cons_of_ne (fun e => hv e)]
      by_cases hm : n2 ∈ adj v
      · rw [List.countP_cons_of_pos (by simp [hv, hm]), if_pos hm]
        simp only [Prod.mk.injEq, true_and]
        push_cast; ring
      · rw [List.countP_cons_of_neg (by simp [hv, hm]), if_neg hm]
        simp

/-- Common neighbours counted along the list of `i`. -/
theorem common_count {n : ℕ} (h : Simple adj n) (i j : ℕ) :
    ((adj i).countP fun v => v ≠ j ∧ j ∈ adj v) = (nbr adj i ∩ nbr adj j).card := by
  rw [List.countP_eq_length_filter, ← List.toFinset_card_of_nodup ((h.nodup i).filter _)]
  congr 1
  ext v
  simp only [List.mem_toFinset, List.mem_filter, decide_eq_true_eq, nbr, Finset.mem_inter]
  constructor
  · rintro ⟨h1, _, h2⟩; exact ⟨h1, h.sym _ _ h2⟩
  · rintro ⟨h1, h2⟩
    exact ⟨h1, by rintro rfl; exact h.irrefl _ h2, h.sym _ _ h2⟩

/-- The index, independently of the code: common neighbours over all neighbours, not counting the
two nodes themselves. -/
def jaccard (adj : ℕ → List ℕ) (i j : ℕ) : ℚ :=
  ((nbr adj i ∩ nbr adj j).card : ℚ) / ((nbr adj i ∪ nbr adj j) \ {i, j}).card

theorem jaccard_union {n : ℕ} (h : Simple adj n) {i j : ℕ} (hij : i ≠ j) :
    (((adj i).length : Int) - (adj i).count j) + (((adj j).length : Int) - (adj i).count j)
      - (nbr adj i ∩ nbr adj j).card = (((nbr adj i ∪ nbr adj j) \ {i, j}).card : Int) := by
  have h1 : ((nbr adj i).card + (nbr adj j).card : Int) =
      (nbr adj i ∪ nbr adj j).card + (nbr adj i ∩ nbr adj j).card := by
    exact_mod_cast (Finset.card_union_add_card_inter _ _).symm
  rw [← nbr_card h i, ← nbr_card h j]
  by_cases hl : j ∈ adj i
  · have hc : (adj i).count j = 1 := List.count_eq_one_of_mem (h.nodup i) hl
    have hsub : ({i, j} : Finset ℕ) ⊆ nbr adj i ∪ nbr adj j := by
      intro x hx
      simp only [Finset.mem_insert, Finset.mem_singleton] at hx
      simp only [Finset.mem_union, nbr, List.mem_toFinset]
      rcases hx with rfl | rfl
      · exact Or.inr (h.sym _ _ hl)
      · exact Or.inl hl
    have := Finset.card_sdiff_add_card_eq_card hsub
    rw [Finset.card_pair hij] at this
    rw [hc]
    push_cast
    have h2 : (((nbr adj i ∪ nbr adj j) \ {i, j}).card : Int) + 2 = (nbr adj i ∪ nbr adj j).card := by
      exact_mod_cast this
    omega
  · have hc : (adj i).count j = 0 := List.count_eq_zero_of_not_mem hl
    have hl' : i ∉ adj j := fun hx => hl (h.sym _ _ hx)
    have : (nbr adj i ∪ nbr adj j) \ {i, j} = nbr adj i ∪ nbr adj j := by
      rw [Finset.sdiff_eq_self_iff_disjoint, Finset.disjoint_right]
      intro x hx
      simp only [Finset.mem_insert, Finset.mem_singleton] at hx
      simp only [Finset.mem_union, nbr, List.mem_toFinset]
      rcases hx with rfl | rfl
      · exact fun hh => hh.elim (h.irrefl _) hl'
      · exact fun hh => hh.elim hl (h.irrefl _)
    rw [hc, this]
    push_cast
    omega

theorem common_subset {n : ℕ} (h : Simple adj n) (i j : ℕ) :
    nbr adj i ∩ nbr adj j ⊆ (nbr adj i ∪ nbr adj j) \ {i, j} := by
  intro x hx
  simp only [Finset.mem_inter, nbr, List.mem_toFinset] at hx
  simp only [Finset.mem_sdiff, Finset.mem_union, nbr, List.mem_toFinset, Finset.mem_insert,
    Finset.mem_singleton, not_or]
  refine ⟨Or.inl hx.1, ?_, ?_⟩
  · rintro rfl; exact h.irrefl _ hx.1
  · rintro rfl; exact h.irrefl _ hx.2

/-- **C21**: for two different nodes `JaccardIndex` is always defined, is the number of common
neighbours over the number of neighbours of either (the two nodes apart), lies in `[0,1]` and does
not depend on the order. -/
theorem C21_jaccard {n i j : ℕ} (h : Simple adj n) (hij : i ≠ j) :
    JaccardIndex adj i j = some (jaccard adj i j) ∧ 0 ≤ jaccard adj i j ∧ jaccard adj i j ≤ 1 ∧
      JaccardIndex adj j i = JaccardIndex adj i j := by
  have key : ∀ i j, i ≠ j → JaccardIndex adj i j = some (jaccard adj i j) := by
    intro i j hij
    unfold JaccardIndex
    rw [jaccardLoop_eq, common_count h]
    have hu := jaccard_union h hij
    have hsub := Finset.card_le_card (common_subset h i j)
    simp only [zero_add]
    rw [hu]
    by_cases h0 : (nbr adj i ∩ nbr adj j).card = 0
    · rw [if_pos (by exact_mod_cast h0)]
      simp [jaccard, h0]
    · rw [if_neg (by exact_mod_cast h0), if_neg (by
        have : 0 < ((nbr adj i ∪ nbr adj j) \ {i, j}).card := by omega
        exact_mod_cast this.ne')]
      simp [jaccard]
  have hsym : jaccard adj j i = jaccard adj i j := by
    unfold jaccard
    rw [Finset.inter_comm, Finset.union_comm, Finset.pair_comm]
  refine ⟨key i j hij, ?_, ?_, by rw [key i j hij, key j i hij.symm, hsym]⟩
  · unfold jaccard; positivity
  · unfold jaccard
    apply div_le_one_of_le₀
    · exact_mod_cast Finset.card_le_card (common_subset h i j)
    · positivity

/-- The overlap, independently of the code: common neighbours, plus 1 if the nodes are linked, over
the smaller degree. -/
def overlap (adj : ℕ → List ℕ) (i j : ℕ) : ℚ :=
  (((nbr adj i ∩ nbr adj j).card + if j ∈ adj i then 1 else 0 : ℕ) : ℚ) /
    (min (adj i).length (adj j).length : ℕ)

theorem overlap_count {n : ℕ} (h : Simple adj n) (i j : ℕ) :
    (adj i).foldl (fun s v => if v = j then s + 1 else s + if v ∈ adj j then 1 else 0) 0
      = (nbr adj i ∩ nbr adj j).card + if j ∈ adj i then 1 else 0 := by
  have h1 : ∀ (l : List ℕ) (s : ℕ),
      l.foldl (fun s v => if v = j then s + 1 else s + if v ∈ adj j then 1 else 0) s
        = s + (l.countP fun v => v ≠ j ∧ j ∈ adj v) + l.count j := by
    intro l
    induction l with
    | nil => intro s; simp
    | cons v l ih =>
      intro s
      rw [List.foldl_cons, ih]
      by_cases hv : v = j
      · subst hv
        rw [if_pos rfl, List.count_cons_self, List.countP_cons_of_neg (by simp)]
        omega
      · rw [if_neg hv, List.count_cons_of_ne (fun e => hv e)]
        by_cases hm : v ∈ adj j
        · rw [if_pos hm, List.countP_cons_of_pos (by simp [hv, h.sym _ _ hm])]
          omega
        · rw [if_neg hm, List.countP_cons_of_neg (by
            simp only [decide_eq_true_eq, not_and]
            exact fun _ hx => hm (h.sym _ _ hx)), Nat.add_zero]
  rw [h1, common_count h, Nat.zero_add]
  congr 1
  split_ifs with hm
  · exact List.count_eq_one_of_mem (h.nodup i) hm
  · exact List.count_eq_zero_of_not_mem hm

/-- **C21**: for two different nodes with neighbours `TopologicalOverlap` is the number of common
neighbours, plus 1 if they are linked, over the smaller degree; it lies in `[0,1]` and does not
depend on the order. A node without neighbours makes it 0/0. -/
theorem C21_overlap {n i j : ℕ} (h : Simple adj n) (hij : i ≠ j) :
    (adj i ≠ [] → adj j ≠ [] → TopologicalOverlap adj i j = some (overlap adj i j) ∧
      0 ≤ overlap adj i j ∧ overlap adj i j ≤ 1 ∧
      TopologicalOverlap adj j i = TopologicalOverlap adj i j) ∧
    (adj i = [] ∨ adj j = [] → TopologicalOverlap adj i j = none) := by
  have hsym : ∀ i j, ((nbr adj i ∩ nbr adj j).card + if j ∈ adj i then 1 else 0)
      = (nbr adj j ∩ nbr adj i).card + if i ∈ adj j then 1 else 0 := by
    intro i j
    rw [Finset.inter_comm]
    congr 1
    by_cases hm : j ∈ adj i
    · rw [if_pos hm, if_pos (h.sym _ _ hm)]
    · rw [if_neg hm, if_neg (fun hx => hm (h.sym _ _ hx))]
  have key : ∀ i j, adj i ≠ [] → adj j ≠ [] → TopologicalOverlap adj i j = some (overlap adj i j) := by
    intro i j h1 h2
    have h1 := List.length_pos_iff.2 h1
    have h2 := List.length_pos_iff.2 h2
    unfold TopologicalOverlap overlap
    by_cases hk : (adj i).length < (adj j).length
    · simp only [if_pos hk, overlap_count h]
      rw [if_neg (by omega), min_eq_left hk.le]
    · simp only [if_neg hk, overlap_count h]
      rw [if_neg (by omega), min_eq_right (by omega), hsym j i]
  have bound : ∀ i j, i ≠ j → ((nbr adj i ∩ nbr adj j).card + if j ∈ adj i then 1 else 0) ≤ (adj i).length := by
    intro i j hij
    rw [← nbr_card h i]
    split_ifs with hm
    · have hj : j ∉ nbr adj i ∩ nbr adj j := by
        simp only [Finset.mem_inter, nbr, List.mem_toFinset, not_and]
        exact fun _ => h.irrefl j
      rw [← Finset.card_insert_of_notMem hj]
      apply Finset.card_le_card
      intro x hx
      rcases Finset.mem_insert.1 hx with rfl | hx
      · simpa [nbr] using hm
      · exact (Finset.mem_inter.1 hx).1
    · simpa using Finset.card_le_card (Finset.inter_subset_left)
  constructor
  · intro h1 h2
    refine ⟨key i j h1 h2, ?_, ?_, ?_⟩
    · unfold overlap; positivity
    · unfold overlap
      apply div_le_one_of_le₀
      · have b1 := bound i j hij
        have b2 := bound j i hij.symm
        rw [← hsym i j] at b2
        exact_mod_cast le_min b1 b2
      · positivity
    · rw [key j i h2 h1, key i j h1 h2]
      unfold overlap
      rw [hsym j i, min_comm]
  · intro h0
    unfold TopologicalOverlap
    rcases h0 with h0 | h0 <;> (simp only [h0, List.length_nil]; split_ifs <;> simp_all)

/-! ## Examples: a triangle with a tail -/

/-- Links 0-1, 1-2, 0-2, 2-3. -/
def tailed : ℕ → List ℕ
  | 0 => [1, 2] | 1 => [0, 2] | 2 => [1, 0, 3] | 3 => [2] | _ => []

theorem tailed_simple : Simple tailed 4 where
  range := by unfold InRange; decide
  sym := by
    intro i j h
    unfold tailed at h ⊢
    split at h <;> simp at h <;> (try rcases h with rfl | rfl | rfl) <;> simp
  nodup := by intro i; unfold tailed; split <;> decide
  irrefl := by intro i; unfold tailed; split <;> simp

example : OneNodeClusteringCoefficient tailed 4 2 = some (1 / 3) ∧
    OneNodeClusteringCoefficient tailed 4 3 = some (-1) ∧
    ClusteringCoefficient tailed 4 = some (7 / 9) ∧ JaccardIndex tailed 0 1 = some 1 ∧
    JaccardIndex tailed 0 3 = some (1 / 2) ∧ TopologicalOverlap tailed 0 1 = some 1 ∧
    TopologicalOverlap tailed 1 3 = some 1 := by decide +kernel

example : coefficient tailed 2 ≤ 1 :=
  ((C21_one_node tailed_simple (p := 2) (by decide)).1 (by decide)).2.2

end BFS
