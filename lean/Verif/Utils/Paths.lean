import Verif.Utils.Count
import Verif.Btw.Stats
import Mathlib.Combinatorics.SimpleGraph.Metric

/-!
# Paths between labels and paths between nodes; C145: the program nodeprop
-/

set_option linter.unusedSimpArgs false
set_option linter.unusedSectionVars false

namespace UT

open GR RG

/-! ## Specification -/

/-- Shortest paths between two labels (none if there is no path). -/
def shortest (ps : List (String × String)) (s t : String) : Set ((graph ps).Walk s t) := {w | w.length = (graph ps).dist s t}

open Classical in
/-- Betweenness of a label: the sum over the ordered pairs of other labels of the share of the shortest paths that go through it. -/
noncomputable def betweenness (ps : List (String × String)) (a : String) : ℚ :=
  ((names ps).map fun s => ((names ps).map fun t =>
    if s ≠ a ∧ t ≠ a ∧ s ≠ t then ({w ∈ shortest ps s t | a ∈ w.support}.ncard : ℚ) / (shortest ps s t).ncard else 0).sum).sum

/-! ## Walks -/

theorem walks_nodup {adj : ℕ → List ℕ} {n : ℕ} (hadj : ∀ i < n, ∀ j ∈ adj i, j < n) (hnd : ∀ i < n, (adj i).Nodup) :
    ∀ (k i : ℕ), i < n → (BT.walks adj k i).Nodup
  | 0, i, _ => by simp [BT.walks]
  | k + 1, i, hi => by
    rw [BT.walks, List.nodup_flatMap]
    refine ⟨fun w hw => ?_, ?_⟩
    · exact (walks_nodup hadj hnd k w (hadj i hi w hw)).map (List.cons_injective)
    · refine List.Pairwise.imp_of_mem ?_ (hnd i hi)
      intro a b _ _ hab l h1 h2
      obtain ⟨l1, g1, rfl⟩ := List.mem_map.1 h1
      obtain ⟨l2, g2, e⟩ := List.mem_map.1 h2
      have : l2 = l1 := (List.cons.inj e).2
      subst this
      have hd : ∀ (k s : ℕ) (l : List ℕ), l ∈ BT.walks adj k s → l.head? = some s := by
        intro k s l hl
        cases k with
        | zero => simp [BT.walks] at hl; subst hl; rfl
        | succ k =>
          simp only [BT.walks, List.mem_flatMap, List.mem_map] at hl
          obtain ⟨_, _, _, _, rfl⟩ := hl
          rfl
      have e1 := hd k a l2 g1
      have e2 := hd k b l2 g2
      rw [e1] at e2
      exact hab (Option.some.inj e2)

namespace Loaded

variable {ps : List (String × String)} {net : Net} (L : Loaded ps net)
include L

theorem walk_of_list : ∀ (k i : ℕ), i < net.n → ∀ l ∈ BT.walks (targets net) k i, ∀ j, l.getLast? = some j →
    (∀ v ∈ l, v < net.n) ∧ ∃ w : (graph ps).Walk (net.label i) (net.label j), w.length = k ∧ w.support = l.map net.label
  | 0, i, hi, l, hl, j, hj => by
    simp only [BT.walks, List.mem_singleton] at hl
    subst hl
    obtain rfl : i = j := by simpa using hj
    exact ⟨by simpa using hi, SimpleGraph.Walk.nil, rfl, rfl⟩
  | k + 1, i, hi, l, hl, j, hj => by
    simp only [BT.walks, List.mem_flatMap, List.mem_map] at hl
    obtain ⟨v, hv, l, hl, rfl⟩ := hl
    obtain ⟨_, hvn, hadj⟩ := (L.mem_targets' i v).1 hv
    have hne := BT.walks_ne k v l hl
    have hj' : l.getLast? = some j := by
      rw [List.getLast?_cons] at hj
      cases l with
      | nil => exact (hne rfl).elim
      | cons a l => simpa [List.getLast?_cons] using hj
    obtain ⟨h1, w, h2, h3⟩ := walk_of_list k v hvn l hl j hj'
    refine ⟨by simp only [List.mem_cons, forall_eq_or_imp]; exact ⟨hi, h1⟩, SimpleGraph.Walk.cons hadj w, by simp [h2], by simp [h3]⟩

theorem list_of_walk : ∀ {a b : String} (w : (graph ps).Walk a b) (i : ℕ), i < net.n → net.label i = a →
    ∃ l j, j < net.n ∧ net.label j = b ∧ l ∈ BT.walks (targets net) w.length i ∧ l.getLast? = some j ∧ w.support = l.map net.label
  | _, _, .nil, i, hi, h => ⟨[i], i, hi, h, by simp [BT.walks], rfl, by simp [h]⟩
  | a, b, .cons (v := c) hadj w, i, hi, h => by
    obtain ⟨v, hv, hvc⟩ := L.node_of (adj_names hadj).2
    obtain ⟨l, j, hj, hb, hl, hlast, hsup⟩ := list_of_walk w v hv hvc
    refine ⟨i :: l, j, hj, hb, ?_, ?_, ?_⟩
    · simp only [SimpleGraph.Walk.length_cons, BT.walks, List.mem_flatMap, List.mem_map]
      exact ⟨v, (L.mem_targets' i v).2 ⟨hi, hv, by rw [h, hvc]; exact hadj⟩, l, hl, rfl⟩
    · rw [List.getLast?_cons, hlast]
      rfl
    · simp [hsup, h]

theorem walk_iff {i j : ℕ} (hi : i < net.n) (hj : j < net.n) (k : ℕ) :
    BFS.Walk (targets net) k i j ↔ ∃ w : (graph ps).Walk (net.label i) (net.label j), w.length = k := by
  have key : BFS.Walk (targets net) k i j ↔ ∃ l ∈ BT.walks (targets net) k i, l.getLast? = some j := by
    rw [← BT.W_pos, ← BT.countP_last, List.countP_pos_iff]
    simp
  rw [key]
  constructor
  · rintro ⟨l, hl, h⟩
    obtain ⟨_, w, hw, _⟩ := L.walk_of_list k i hi l hl j h
    exact ⟨w, hw⟩
  · rintro ⟨w, rfl⟩
    obtain ⟨l, j', hj', e, hl, hlast, _⟩ := L.list_of_walk w i hi rfl
    obtain rfl := L.distinct j' j hj' hj e
    exact ⟨l, hl, hlast⟩

theorem reach_iff {i j : ℕ} (hi : i < net.n) (hj : j < net.n) :
    BFS.Reach (targets net) i j ↔ (graph ps).Reachable (net.label i) (net.label j) := by
  unfold BFS.Reach
  simp only [L.walk_iff hi hj]
  exact ⟨fun ⟨_, w, _⟩ => ⟨w⟩, fun ⟨w⟩ => ⟨_, w, rfl⟩⟩

theorem dist_eq {i j : ℕ} (hi : i < net.n) (hj : j < net.n) :
    BT.dist (targets net) i j = (graph ps).dist (net.label i) (net.label j) := by
  rw [BT.dist, SimpleGraph.dist_eq_sInf]
  congr 1
  ext k
  exact L.walk_iff hi hj k

theorem isDist_iff {i j : ℕ} (hi : i < net.n) (hj : j < net.n) (d : ℕ) :
    BFS.IsDist (targets net) i j d ↔
      (graph ps).Reachable (net.label i) (net.label j) ∧ (graph ps).dist (net.label i) (net.label j) = d := by
  constructor
  · intro h
    exact ⟨(L.reach_iff hi hj).1 ⟨d, h.1⟩, by rw [← L.dist_eq hi hj, BT.dist_eq h]⟩
  · rintro ⟨h, rfl⟩
    obtain ⟨w, hw⟩ := h.exists_walk_length_eq_dist
    refine ⟨(L.walk_iff hi hj _).2 ⟨w, hw⟩, fun k hk => ?_⟩
    obtain ⟨w', rfl⟩ := (L.walk_iff hi hj k).1 hk
    exact SimpleGraph.dist_le w'

theorem count_eq {i j : ℕ} (hi : i < net.n) (hj : j < net.n) (P : List ℕ → Bool) (Q : List String → Prop)
    (hPQ : ∀ l : List ℕ, (∀ v ∈ l, v < net.n) → (P l = true ↔ Q (l.map net.label))) :
    (BT.shortest (targets net) i j).countP P = {w ∈ shortest ps (net.label i) (net.label j) | Q w.support}.ncard := by
  classical
  set F := ((BT.shortest (targets net) i j).filter P) with hF
  have hin : ∀ l ∈ F, (∀ v ∈ l, v < net.n) ∧ P l = true ∧
      ∃ w : (graph ps).Walk (net.label i) (net.label j), w.length = (graph ps).dist (net.label i) (net.label j) ∧ w.support = l.map net.label := by
    intro l hl
    rw [hF, List.mem_filter, BT.shortest, List.mem_filter, L.dist_eq hi hj] at hl
    obtain ⟨⟨h1, h2⟩, h3⟩ := hl
    obtain ⟨h4, w, h5, h6⟩ := L.walk_of_list _ i hi l h1 j (by simpa using h2)
    exact ⟨h4, h3, w, h5, h6⟩
  have hnd : F.Nodup := ((walks_nodup L.range (fun i _ => L.nodup i) _ i hi).filter _).filter _
  have himg : (SimpleGraph.Walk.support '' {w ∈ shortest ps (net.label i) (net.label j) | Q w.support}) =
      ↑(F.toFinset.image (List.map net.label)) := by
    ext s
    rw [Set.mem_image, Finset.mem_coe, Finset.mem_image]
    constructor
    · rintro ⟨w, ⟨hw, hq⟩, rfl⟩
      obtain ⟨l, j', hj', e, hl, hlast, hsup⟩ := L.list_of_walk w i hi rfl
      obtain rfl := L.distinct j' j hj' hj e
      have hlr := (L.walk_of_list _ i hi l hl j' hlast).1
      refine ⟨l, ?_, hsup.symm⟩
      rw [List.mem_toFinset, hF, List.mem_filter, BT.shortest, List.mem_filter, L.dist_eq hi hj]
      refine ⟨⟨?_, by simpa using hlast⟩, (hPQ l hlr).2 (hsup ▸ hq)⟩
      have hw' : w.length = (graph ps).dist (net.label i) (net.label j') := hw
      rw [← hw']
      exact hl
    · rintro ⟨l, hl, rfl⟩
      obtain ⟨h1, h2, w, h3, h4⟩ := hin l (List.mem_toFinset.1 hl)
      exact ⟨w, ⟨h3, by rw [h4]; exact (hPQ l h1).1 h2⟩, h4⟩
  rw [List.countP_eq_length_filter, ← hF, ← Set.ncard_image_of_injective _ (fun a b h => SimpleGraph.Walk.ext_support h), himg,
    Set.ncard_coe_finset, Finset.card_image_of_injOn, List.toFinset_card_of_nodup hnd]
  intro l hl l' hl' e
  have h1 := (hin l (List.mem_toFinset.1 (Finset.mem_coe.1 hl))).1
  have h2 := (hin l' (List.mem_toFinset.1 (Finset.mem_coe.1 hl'))).1
  have hlen : l.length = l'.length := by simpa using congrArg List.length e
  refine List.ext_getElem hlen fun k hk hk' => ?_
  have := List.getElem_of_eq e (by simpa using hk)
  simp only [List.getElem_map] at this
  exact L.distinct _ _ (h1 _ (List.getElem_mem hk)) (h2 _ (List.getElem_mem hk')) this

theorem shortest_length {i j : ℕ} (hi : i < net.n) (hj : j < net.n) :
    (BT.shortest (targets net) i j).length = (shortest ps (net.label i) (net.label j)).ncard := by
  have := L.count_eq hi hj (fun _ => true) (fun _ => True) (by simp)
  simpa using this

theorem sum_names {f : String → ℚ} : ((names ps).map f).sum = ∑ i ∈ Finset.range net.n, f (net.label i) := by
  rw [← L.labels, List.map_map, ← List.sum_toFinset _ List.nodup_range, List.toFinset_range]
  rfl

theorem betweenness_eq {v : ℕ} (hv : v < net.n) : BT.betweenness (targets net) net.n v = betweenness ps (net.label v) := by
  classical
  unfold betweenness BT.betweenness
  rw [L.sum_names]
  refine Finset.sum_congr rfl fun s hs => ?_
  rw [L.sum_names]
  refine Finset.sum_congr rfl fun t ht => ?_
  have hs := Finset.mem_range.1 hs
  have ht := Finset.mem_range.1 ht
  have hne : ∀ x y, x < net.n → y < net.n → (x ≠ y ↔ net.label x ≠ net.label y) := fun x y hx hy =>
    ⟨fun h e => h (L.distinct x y hx hy e), fun h e => h (by rw [e])⟩
  have hc : (s ≠ v ∧ t ≠ v ∧ s ≠ t) ↔ (net.label s ≠ net.label v ∧ net.label t ≠ net.label v ∧ net.label s ≠ net.label t) := by
    rw [hne s v hs hv, hne t v ht hv, hne s t hs ht]
  by_cases h : s ≠ v ∧ t ≠ v ∧ s ≠ t
  · rw [if_pos h, if_pos (hc.1 h)]
    unfold BT.share
    rw [L.shortest_length hs ht, L.count_eq hs ht (fun l => decide (v ∈ l)) (fun S => net.label v ∈ S)]
    intro l hl
    rw [decide_eq_true_eq, List.mem_map]
    exact ⟨fun h => ⟨v, h, rfl⟩, fun ⟨u, hu, e⟩ => L.distinct u v (hl u hu) hv e ▸ hu⟩
  · rw [if_neg h, if_neg (fun h' => h (hc.2 h'))]

theorem paths_bound (hmax : ∀ s ∈ names ps, ∀ t ∈ names ps, (shortest ps s t).ncard ≤ 2147483647) :
    ∀ s < net.n, ∀ t, (BT.shortest (targets net) s t).length ≤ BT.INT_MAX := by
  intro s hs t
  by_cases ht : t < net.n
  · rw [L.shortest_length hs ht]
    exact hmax _ (L.label_mem hs) _ (L.label_mem ht)
  · have : BT.shortest (targets net) s t = [] := by
      apply BT.shortest_unreachable
      rintro ⟨k, hk⟩
      exact ht (BFS.mem_bound L.range hs hk)
    simp [this]

theorem btw_ok (hmax : ∀ s ∈ names ps, ∀ t ∈ names ps, (shortest ps s t).ncard ≤ 2147483647) :
    ∃ btw, BT.CalculateNodeBetweenness (targets net) net.n = some btw ∧ ∀ v < net.n, btw v = betweenness ps (net.label v) := by
  obtain ⟨btw, e, h⟩ := BT.C54_betweenness (adj := targets net) (n := net.n) L.range (fun i _ => L.nodup i) (L.paths_bound hmax)
  exact ⟨btw, e, fun v hv => by rw [h, L.betweenness_eq hv]⟩

end Loaded

/-! ## nodeprop -/

theorem nodeLines_eq {btw : ℕ → ℚ} {ps : List (String × String)} : ∀ (is : List ℕ) (net : Net), Loaded ps net → (∀ i ∈ is, i < net.n) →
    nodeLines btw is net = is.map fun i => (net.label i, degree ps (net.label i), btw i)
  | [], _, _, _ => rfl
  | i :: is, net, L, h => by
    have hi := h i (by simp)
    have h1 : (NodeDegree net i).1 = degree ps (net.label i) := by
      rw [← L.degree_eq hi, degree_answer L.caches hi, row_length (L.holds i hi)]
      rfl
    obtain ⟨_, e⟩ := degree_net L.caches hi
    have e' : (NodeDegree net i).2.n = net.n ∧ (NodeDegree net i).2.label = net.label ∧ (NodeDegree net i).2.neig = net.neig := by
      unfold NodeDegree; split_ifs <;> simp
    have L' : Loaded ps (NodeDegree net i).2 := by
      have hw : weights ps (NodeDegree net i).2 = weights ps net := by
        unfold weights; rw [e'.1, e'.2.1]
      refine ⟨by rw [e'.1, e'.2.1]; exact L.labels, ?_, ?_, e.2.2, ?_, ?_, ?_⟩
      · intro k hk
        rw [e'.1] at hk
        rw [hw, e'.1, e'.2.2]
        exact L.holds k hk
      · intro k hk l hl j hj
        rw [e'.2.1]
        rw [e'.2.2] at hl
        exact L.link_labels k (e'.1 ▸ hk) l hl j hj
      · intro k hk; rw [e'.2.1]; exact L.fit k (e'.1 ▸ hk)
      · intro k hk; rw [e'.2.1]; exact L.words k (e'.1 ▸ hk)
      · intro k hk; rw [e'.2.2]; exact L.outside k (e'.1 ▸ hk)
    rw [nodeLines, h1, nodeLines_eq is _ L' (fun k hk => by rw [e'.1]; exact h k (by simp [hk])), e'.2.1]
    rfl

/-- **C145**: for a well-formed file in which no two labels are joined by more than `INT_MAX` shortest paths, `nodeprop` prints one line
for each label, in order of first appearance: the label, its number of links and its betweenness (over ordered pairs, so each path counts
twice). -/
theorem C145_nodeprop {files : String → Option (List Char)} {f : String} {text : List Char} {ps : List (String × String)}
    (hf : files f = some text) (hs : Says text ps)
    (hmax : ∀ s ∈ names ps, ∀ t ∈ names ps, (shortest ps s t).ncard ≤ 2147483647) (more : List String) :
    nodeprop files (f :: more) = .ok (some ((names ps).map fun a => (a, degree ps a, betweenness ps a))) := by
  obtain ⟨net, e, L⟩ := load_ok hf hs
  obtain ⟨btw, e1, h1⟩ := L.btw_ok hmax
  rw [nodeprop, e]
  simp only [Res.bind_ok, e1, Res.ofOption, Res.pure_eq]
  rw [nodeLines_eq _ net L (fun i hi => List.mem_range.1 hi), ← L.labels, List.map_map]
  congr 2
  refine List.map_congr_left fun i hi => ?_
  rw [h1 i (List.mem_range.1 hi)]
  rfl

/-- A path of three labels: the one in the middle is between two ordered pairs. -/
example : (match nodeprop someFiles ["A"] with | .ok r => r | _ => none) =
    some [("a", 1, 0), ("b", 2, 2), ("c", 1, 0), ("d", 0, 0)] := by decide +kernel

end UT
