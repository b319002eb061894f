import Verif.Btw.Link

/-! # C55: link betweenness, the theorems -/

set_option linter.unusedSimpArgs false

namespace BT

open BFS

variable {adj : ℕ → List ℕ} {s n : ℕ} {E : List Entry} {B : ℕ → ℚ}

theorem Flow.inj (h : Flow adj s E B) : ∀ a ∈ E, ∀ b ∈ E, a.node = b.node → a = b :=
  fun _ ha _ hb => List.inj_on_of_nodup_map h.nodup ha hb

theorem sum_list_comm {α β : Type} (f : α → β → ℚ) (l : List α) : ∀ (m : List β),
    (l.map fun a => (m.map fun b => f a b).sum).sum = (m.map fun b => (l.map fun a => f a b).sum).sum
  | [] => by simp
  | b :: m => by
    have := sum_list_comm f l m
    simp only [List.map_cons, List.sum_cons, List.sum_map_add, this]

/-- Sum over the entries whose node is a predecessor. -/
theorem Flow.sum_preds (h : Flow adj s E B) {e : Entry} (he : e ∈ E) (f : ℕ → ℚ) :
    (E.map fun a => if a.node ∈ preds e then f a.node else 0).sum = ((preds e).map f).sum := by
  have h1 : (E.map fun a => if a.node ∈ preds e then f a.node else 0) = (E.map Entry.node).map fun v => if v ∈ preds e then f v else 0 := by
    rw [List.map_map]; rfl
  rw [h1, ← List.sum_toFinset _ h.nodup, ← List.sum_toFinset _ (h.preds_nodup e he), ← Finset.sum_filter]
  refine Finset.sum_congr ?_ fun _ _ => rfl
  ext v
  simp only [Finset.mem_filter, List.mem_toFinset, and_iff_right_iff_imp]
  intro hv
  obtain ⟨a, ha, hau, _⟩ := (h.preds_mem e he v).1 hv
  exact List.mem_map.2 ⟨a, ha, hau⟩

/-- All that leaves the other nodes adds up to the distances. -/
theorem Flow.conserve (h : Flow adj s E B) :
    (E.map fun e => if e.d ≠ 0 then B e.node else 0).sum = (E.map fun e => (e.d : ℚ)).sum := by
  have hdist : ∀ a ∈ E, ∀ e ∈ E, a.node ∈ preds e → (a.d : ℚ) = e.d - 1 := by
    intro a ha e he hm
    obtain ⟨a', ha', hn, hd, _⟩ := (h.preds_mem e he a.node).1 hm
    rw [h.inj a' ha' a ha hn] at hd
    have : (e.d : ℚ) = a.d + 1 := by exact_mod_cast hd.symm
    rw [this]; ring
  have hlen : ∀ e ∈ E, e.d ≠ 0 → B e.node / (preds e).length * (preds e).length = B e.node := by
    intro e he hd
    have : ((preds e).length : ℚ) ≠ 0 := by
      exact_mod_cast fun hh => h.preds_ne e he hd (List.length_eq_zero_iff.1 hh)
    field_simp
  have h1 : (E.map fun a => (a.d : ℚ) * B a.node).sum =
      (E.map fun e => (e.d : ℚ)).sum + (E.map fun e => if e.d ≠ 0 then B e.node * (e.d - 1) else 0).sum := by
    rw [List.map_congr_left (g := fun a : Entry => (a.d : ℚ) + (E.map fun e => if a.node ∈ preds e then B e.node / (preds e).length * a.d else 0).sum)]
    · rw [List.sum_map_add, sum_list_comm]
      congr 1
      congr 1
      refine List.map_congr_left fun e he => ?_
      rw [List.map_congr_left (g := fun a : Entry => if a.node ∈ preds e then B e.node / (preds e).length * ((e.d : ℚ) - 1) else 0)
        (fun a ha => by
          by_cases hm : a.node ∈ preds e
          · rw [if_pos hm, if_pos hm, hdist a ha e he hm]
          · rw [if_neg hm, if_neg hm])]
      rw [h.sum_preds he (fun _ => B e.node / (preds e).length * ((e.d : ℚ) - 1))]
      rw [List.map_const', List.sum_replicate, nsmul_eq_mul]
      by_cases hd : e.d ≠ 0
      · rw [if_pos hd, ← mul_assoc, mul_comm ((preds e).length : ℚ), hlen e he hd]
      · rw [if_neg hd, (h.notstart e he).2 (by omega)]; simp
    · intro a _
      rw [h.bet a.node, mul_add, mul_one, ← List.sum_map_mul_left]
      congr 2
      refine List.map_congr_left fun e _ => ?_
      split_ifs <;> ring
  have h2 : (E.map fun a => (a.d : ℚ) * B a.node).sum = (E.map fun e => if e.d ≠ 0 then B e.node * ((e.d : ℚ) - 1) else 0).sum +
      (E.map fun e => if e.d ≠ 0 then B e.node else 0).sum := by
    rw [← List.sum_map_add]
    congr 1
    refine List.map_congr_left fun e _ => ?_
    split_ifs with hd
    · ring
    · push Not at hd; rw [hd]; simp
  linarith

theorem Flow.lt (h : Flow adj s E B) (hadj : InRange adj n) (hs : s < n) {e : Entry} (he : e ∈ E) : e.node < n :=
  mem_bound hadj hs ((h.mem e.node e.d).1 ⟨e, he, rfl, rfl⟩).1

theorem Flow.dist_sum (h : Flow adj s E B) (hadj : InRange adj n) (hs : s < n) :
    (E.map fun e => (e.d : ℚ)).sum = ∑ t ∈ Finset.range n, (dist adj s t : ℚ) := by
  have h1 : (E.map fun e => (e.d : ℚ)) = (E.map Entry.node).map fun t => (dist adj s t : ℚ) := by
    rw [List.map_map]
    refine List.map_congr_left fun e he => ?_
    rw [Function.comp_apply, dist_eq ((h.mem e.node e.d).1 ⟨e, he, rfl, rfl⟩)]
  rw [h1, ← List.sum_toFinset _ h.nodup]
  apply Finset.sum_subset
  · intro t ht
    rw [List.mem_toFinset] at ht
    obtain ⟨e, he, rfl⟩ := List.mem_map.1 ht
    exact Finset.mem_range.2 (h.lt hadj hs he)
  · intro t _ ht
    rw [List.mem_toFinset] at ht
    have : {k | Walk adj k s t} = ∅ := by
      ext k
      simp only [Set.mem_setOf_eq, Set.mem_empty_iff_false, iff_false]
      intro hk
      obtain ⟨d, hd⟩ := Reach.dist (adj := adj) (s := s) (v := t) ⟨k, hk⟩
      obtain ⟨e, he, hn, _⟩ := (h.mem t d).2 hd
      exact ht (List.mem_map.2 ⟨e, he, hn⟩)
    rw [dist, this, Nat.sInf_empty]; simp

/-- What one source adds to the link from `a` to `b`. -/
def added (E : List Entry) (B : ℕ → ℚ) (a b : ℕ) : ℚ :=
  (E.map fun e => (if a = e.node ∧ b ∈ preds e then B e.node / (preds e).length else 0) +
    (if b = e.node ∧ a ∈ preds e then B e.node / (preds e).length else 0)).sum

theorem added_symm (E : List Entry) (B : ℕ → ℚ) (a b : ℕ) : added E B a b = added E B b a := by
  unfold added
  congr 1
  exact List.map_congr_left fun e _ => add_comm _ _

theorem Flow.added_zero (h : Flow adj s E B) (hsym : Symmetric adj) {a b : ℕ} (hab : b ∉ adj a) : added E B a b = 0 := by
  apply List.sum_eq_zero
  intro x hx
  obtain ⟨e, he, rfl⟩ := List.mem_map.1 hx
  rw [if_neg, if_neg, add_zero]
  · rintro ⟨rfl, hp⟩
    obtain ⟨_, _, _, _, hm⟩ := (h.preds_mem e he a).1 hp
    exact hab hm
  · rintro ⟨rfl, hp⟩
    obtain ⟨_, _, _, _, hm⟩ := (h.preds_mem e he b).1 hp
    exact hab (hsym _ _ hm)

theorem Flow.total (h : Flow adj s E B) (hadj : InRange adj n) (hs : s < n) :
    ∑ a ∈ Finset.range n, ∑ b ∈ Finset.range n, added E B a b = 2 * ∑ t ∈ Finset.range n, (dist adj s t : ℚ) := by
  rw [← h.dist_sum hadj hs, ← h.conserve]
  have hlt : ∀ e ∈ E, ∀ u ∈ preds e, u < n := by
    intro e he u hu
    obtain ⟨a, ha, rfl, _⟩ := (h.preds_mem e he u).1 hu
    exact h.lt hadj hs ha
  have hsum : ∀ e ∈ E, ∑ b ∈ Finset.range n, (if b ∈ preds e then B e.node / (preds e).length else 0) = if e.d ≠ 0 then B e.node else 0 := by
    intro e he
    rw [← Finset.sum_filter]
    have : (Finset.range n).filter (fun b => b ∈ preds e) = (preds e).toFinset := by
      ext b
      simp only [Finset.mem_filter, Finset.mem_range, List.mem_toFinset, and_iff_right_iff_imp]
      exact hlt e he b
    rw [this, Finset.sum_const, List.toFinset_card_of_nodup (h.preds_nodup e he), nsmul_eq_mul]
    by_cases hd : e.d ≠ 0
    · rw [if_pos hd]
      have : ((preds e).length : ℚ) ≠ 0 := by
        exact_mod_cast fun hh => h.preds_ne e he hd (List.length_eq_zero_iff.1 hh)
      field_simp
    · rw [if_neg hd, (h.notstart e he).2 (by omega)]; simp
  have hone : ∀ e ∈ E, ∑ a ∈ Finset.range n, ∑ b ∈ Finset.range n, (if a = e.node ∧ b ∈ preds e then B e.node / (preds e).length else 0) =
      if e.d ≠ 0 then B e.node else 0 := by
    intro e he
    rw [← hsum e he, Finset.sum_eq_single e.node]
    · simp
    · intro a _ ha; simp [ha]
    · intro hn; exact absurd (Finset.mem_range.2 (h.lt hadj hs he)) hn
  have hlist : ∀ (l : List Entry) (f : Entry → ℕ → ℕ → ℚ), ∑ a ∈ Finset.range n, ∑ b ∈ Finset.range n, (l.map fun e => f e a b).sum =
      (l.map fun e => ∑ a ∈ Finset.range n, ∑ b ∈ Finset.range n, f e a b).sum := by
    intro l f
    induction l with
    | nil => simp
    | cons e l ih => simp only [List.map_cons, List.sum_cons, Finset.sum_add_distrib, ih]
  unfold added
  rw [hlist E (fun e a b => (if a = e.node ∧ b ∈ preds e then B e.node / (preds e).length else 0) +
    (if b = e.node ∧ a ∈ preds e then B e.node / (preds e).length else 0)), ← List.sum_map_mul_left]
  congr 1
  refine List.map_congr_left fun e he => ?_
  simp only [Finset.sum_add_distrib]
  rw [hone e he, Finset.sum_comm (f := fun a b => if b = e.node ∧ a ∈ preds e then B e.node / ((preds e).length : ℚ) else 0), hone e he]
  ring

theorem link_all (hadj : InRange adj n) (hnd : ∀ i, (adj i).Nodup) (hsym : Symmetric adj) : ∀ m, m ≤ n →
    ∃ r, (List.range m).foldlM (linkSource adj n) (fun _ _ => 0) = some r ∧
      ∃ (E : ℕ → List Entry) (B : ℕ → ℕ → ℚ), (∀ s < m, Flow adj s (E s) (B s)) ∧
        ∀ a b, r a b = ∑ s ∈ Finset.range m, added (E s) (B s) a b := by
  intro m
  induction m with
  | zero => intro _; exact ⟨_, rfl, fun _ => [], fun _ _ => 0, by simp, by simp⟩
  | succ m ih =>
    intro hm
    obtain ⟨r, hr, E, B, hF, hs⟩ := ih (by omega)
    obtain ⟨r', E', B', h1, h2, h3⟩ := link_source hadj hnd hsym (show m < n by omega) r
    refine ⟨r', ?_, Function.update E m E', Function.update B m B', ?_, ?_⟩
    · rw [List.range_succ, List.foldlM_append, hr]
      simp only [Option.bind_eq_bind, Option.bind_some, List.foldlM_cons, List.foldlM_nil, h1]
      rfl
    · intro s hs'
      by_cases hsm : s = m
      · subst hsm; simpa using h2
      · rw [Function.update_of_ne hsm, Function.update_of_ne hsm]; exact hF s (by omega)
    · intro a b
      rw [Finset.sum_range_succ, Function.update_self, Function.update_self, h3, hs]
      congr 1
      refine Finset.sum_congr rfl fun s hs' => ?_
      have hsm : s ≠ m := by have := Finset.mem_range.1 hs'; omega
      rw [Function.update_of_ne hsm, Function.update_of_ne hsm]

/-- **C55**, conservation: on every symmetric network without repeated links `CalculateLinkBetweenness` ends, the two directions of
each link get the same value, and the values of all links add up to twice the sum of the distances over the ordered pairs of
nodes (0 for pairs that are not connected), whatever the number of shortest paths. -/
theorem C55_conservation (hadj : InRange adj n) (hnd : ∀ i, (adj i).Nodup) (hsym : Symmetric adj) :
    ∃ r, CalculateLinkBetweenness adj n = some r ∧ (∀ a b, r a b = r b a) ∧
      ∑ a ∈ Finset.range n, ((adj a).map fun b => r a b).sum = 2 * ∑ s ∈ Finset.range n, ∑ t ∈ Finset.range n, (dist adj s t : ℚ) := by
  obtain ⟨r, hr, E, B, hF, hsum⟩ := link_all hadj hnd hsym n le_rfl
  refine ⟨r, hr, ?_, ?_⟩
  · intro a b; rw [hsum, hsum]; exact Finset.sum_congr rfl fun s _ => added_symm _ _ _ _
  · have h1 : ∀ a ∈ Finset.range n, ((adj a).map fun b => r a b).sum = ∑ b ∈ Finset.range n, r a b := by
      intro a ha
      rw [← List.sum_toFinset _ (hnd a)]
      apply Finset.sum_subset
      · intro b hb; rw [List.mem_toFinset] at hb; exact Finset.mem_range.2 (hadj a (Finset.mem_range.1 ha) b hb)
      · intro b _ hb
        rw [List.mem_toFinset] at hb
        rw [hsum]
        exact Finset.sum_eq_zero fun s hs => (hF s (Finset.mem_range.1 hs)).added_zero hsym hb
    rw [Finset.sum_congr rfl h1]
    simp only [hsum]
    rw [Finset.sum_congr rfl fun a _ => Finset.sum_comm, Finset.sum_comm, Finset.mul_sum]
    exact Finset.sum_congr rfl fun s hs => (hF s (Finset.mem_range.1 hs)).total hadj (Finset.mem_range.1 hs)

/-! ## Unique shortest paths -/

theorem walks_link : ∀ (k s : ℕ) (l : List ℕ), l ∈ walks adj k s → ∀ i u w, l[i]? = some u → l[i + 1]? = some w → w ∈ adj u
  | 0, s, l, hl, i, u, w, _, h2 => by simp [walks] at hl; subst hl; simp at h2
  | k + 1, s, l, hl, i, u, w, h1, h2 => by
    simp only [walks, List.mem_flatMap, List.mem_map] at hl
    obtain ⟨x, hx, l', hl', rfl⟩ := hl
    cases i with
    | zero =>
      have hb : l'[0]? = some x := by
        cases k with
        | zero => simp [walks] at hl'; simp [hl']
        | succ k =>
          simp only [walks, List.mem_flatMap, List.mem_map] at hl'
          obtain ⟨_, _, _, _, rfl⟩ := hl'; simp
      simp at h1 h2
      rw [h2] at hb
      cases hb; subst h1; exact hx
    | succ i => exact walks_link k x l' hl' i u w (by simpa using h1) (by simpa using h2)

/-- Position of a node on a shortest path. -/
theorem shortest_index {t v a b : ℕ} (hv : IsDist adj s v a) (ht : IsDist adj s t b) {l : List ℕ} (hl : l ∈ walks adj b s)
    (hlast : l.getLast? = some t) {i : ℕ} (hi : l[i]? = some v) : i = a := by
  obtain ⟨h1, h2, h3⟩ := walk_parts b s l hl i v t hi hlast
  have h4 := hv.2 i h1
  have h5 := ht.2 _ (Walk.append hv.1 h3)
  omega

theorem mem_zip_tail {l : List ℕ} {u w : ℕ} : (u, w) ∈ l.zip l.tail ↔ ∃ i, l[i]? = some u ∧ l[i + 1]? = some w := by
  rw [List.mem_iff_getElem?]
  constructor
  · rintro ⟨i, hi⟩
    rw [List.getElem?_zip_eq_some] at hi
    exact ⟨i, hi.1, by simpa using hi.2⟩
  · rintro ⟨i, h1, h2⟩
    exact ⟨i, List.getElem?_zip_eq_some.2 ⟨h1, by simpa using h2⟩⟩

variable {st : St} {dd : ℕ → ℕ}

/-- Only one path: going along the link means going through its end. -/
theorem Found.linkShare_eq (h : Found adj s st dd) (hone : ∀ w ∈ st.S, (st.P w).length ≤ 1) (t u w : ℕ) :
    linkShare adj s t u w = if w ∈ st.S ∧ u ∈ st.P w then share adj s t w else 0 := by
  by_cases ht : t ∈ st.S
  · have htd := h.dist t ht
    unfold linkShare share
    have hkey : ∀ l ∈ shortest adj s t, ((u, w) ∈ l.zip l.tail ↔ (w ∈ st.S ∧ u ∈ st.P w) ∧ w ∈ l) := by
      intro l hl
      unfold shortest at hl
      rw [dist_eq htd] at hl
      simp only [List.mem_filter, decide_eq_true_eq] at hl
      rw [mem_zip_tail]
      constructor
      · rintro ⟨i, h1, h2⟩
        have hu := h.walk (walk_parts _ s l hl.1 i u t h1 hl.2).1
        have hw := h.walk (walk_parts _ s l hl.1 (i + 1) w t h2 hl.2).1
        have e1 := shortest_index (h.dist u hu) htd hl.1 hl.2 h1
        have e2 := shortest_index (h.dist w hw) htd hl.1 hl.2 h2
        exact ⟨⟨hw, (h.mem_pred hw).2 ⟨hu, walks_link _ s l hl.1 i u w h1 h2, by omega⟩⟩, List.mem_of_getElem? h2⟩
      · rintro ⟨⟨hw, hp⟩, hm⟩
        obtain ⟨j, hj⟩ := List.getElem?_of_mem hm
        have e2 := shortest_index (h.dist w hw) htd hl.1 hl.2 hj
        have hpd := ((h.mem_pred hw).1 hp).2.2
        obtain ⟨i, rfl⟩ : ∃ i, j = i + 1 := ⟨j - 1, by omega⟩
        have hlt : i < l.length := by have := (List.getElem?_eq_some_iff.1 hj).1; omega
        have hx : l[i]? = some l[i] := List.getElem?_eq_getElem hlt
        have hxS := h.walk (walk_parts _ s l hl.1 i l[i] t hx hl.2).1
        have e1 := shortest_index (h.dist l[i] hxS) htd hl.1 hl.2 hx
        have hxp : l[i] ∈ st.P w := (h.mem_pred hw).2 ⟨hxS, walks_link _ s l hl.1 i _ w hx hj, by omega⟩
        have : l[i] = u := by
          have hlen := hone w hw
          match hP : st.P w, hlen, hp, hxp with
          | [y], _, hp, hxp => simp at hp hxp; rw [hxp, hp]
        exact ⟨i, by rw [hx, this], hj⟩
    by_cases hc : w ∈ st.S ∧ u ∈ st.P w
    · rw [if_pos hc]
      congr 2
      refine List.countP_congr fun l hl => ?_
      simp only [decide_eq_true_eq, hkey l hl, hc, and_true, true_and]
    · rw [if_neg hc, div_eq_zero_iff]
      left
      norm_cast
      rw [List.countP_eq_zero]
      intro l hl hm
      simp only [decide_eq_true_eq, hkey l hl] at hm
      exact hc hm.1
  · unfold linkShare share
    rw [shortest_unreachable (h.not_reach ht)]; simp

theorem Found.one_pred (h : Found adj s st dd) (hadj : InRange adj n) (hnd : ∀ i, (adj i).Nodup) (hs : s < n)
    (hu : ∀ t, (shortest adj s t).length ≤ 1) : (∀ w ∈ st.S, st.sigma w = 1) ∧ ∀ w ∈ st.S, (st.P w).length ≤ 1 := by
  have h1 : ∀ w ∈ st.S, st.sigma w = 1 := by
    intro w hw
    have a := h.sigma_pos hadj (fun i _ => hnd i) hs hw
    have b := hu w
    rw [← h.sigma_shortest hadj (fun i _ => hnd i) hs] at b
    omega
  refine ⟨h1, ?_⟩
  intro w hw
  have h2 := h.sigma w hw
  rw [h1 w hw, List.map_congr_left (g := fun _ => 1) (fun u hu => h1 u ((h.mem_pred hw).1 hu).1), List.map_const', List.sum_replicate] at h2
  simp at h2
  omega

theorem Flow.one_path (hF : Flow adj s E B) (h : Found adj s st dd) (hadj : InRange adj n) (hnd : ∀ i, (adj i).Nodup) (hs : s < n)
    (hu : ∀ t, (shortest adj s t).length ≤ 1) :
    (∀ e ∈ E, e.node ∈ st.S ∧ e.d = dd e.node ∧ (∀ u, u ∈ preds e ↔ u ∈ st.P e.node) ∧ (e.d ≠ 0 → (preds e).length = 1)) ∧
    (∀ w ∈ st.S, ∃ e ∈ E, e.node = w) ∧ ∀ e ∈ E, B e.node = 1 + dep adj n s e.node := by
  obtain ⟨hσ, hone⟩ := h.one_pred hadj hnd hs hu
  have hE : ∀ e ∈ E, e.node ∈ st.S ∧ e.d = dd e.node := by
    intro e he
    have h1 := (hF.mem e.node e.d).1 ⟨e, he, rfl, rfl⟩
    have h2 := h.walk h1.1
    exact ⟨h2, h1.unique (h.dist _ h2)⟩
  have hS : ∀ w ∈ st.S, ∃ e ∈ E, e.node = w := by
    intro w hw
    obtain ⟨e, he, hn, _⟩ := (hF.mem w (dd w)).2 (h.dist w hw)
    exact ⟨e, he, hn⟩
  have hp : ∀ e ∈ E, ∀ u, u ∈ preds e ↔ u ∈ st.P e.node := by
    intro e he u
    rw [hF.preds_mem e he, h.mem_pred (hE e he).1]
    constructor
    · rintro ⟨a, ha, rfl, hd, hm⟩
      exact ⟨(hE a ha).1, hm, by rw [← (hE a ha).2, ← (hE e he).2]; exact hd⟩
    · rintro ⟨hu, hm, hd⟩
      obtain ⟨a, ha, rfl⟩ := hS u hu
      exact ⟨a, ha, rfl, by rw [(hE a ha).2, (hE e he).2]; exact hd, hm⟩
  have hlen : ∀ e ∈ E, e.d ≠ 0 → (preds e).length = 1 := by
    intro e he hd
    have h1 := hF.preds_ne e he hd
    have h2 : (preds e).length ≤ (st.P e.node).length :=
      (List.Nodup.subperm (hF.preds_nodup e he) fun u hu => (hp e he u).1 hu).length_le
    have h3 := hone _ (hE e he).1
    have h4 := List.length_pos_iff.2 h1
    omega
  refine ⟨fun e he => ⟨(hE e he).1, (hE e he).2, hp e he, hlen e he⟩, hS, ?_⟩
  -- induction on the distance, from far to near
  have hM : ∀ e ∈ E, e.d ≤ (E.map Entry.d).sum := fun e he => List.single_le_sum (by simp) _ (List.mem_map.2 ⟨e, he, rfl⟩)
  suffices ∀ m, ∀ e ∈ E, (E.map Entry.d).sum - e.d = m → B e.node = 1 + dep adj n s e.node from fun e he => this _ e he rfl
  intro m
  induction m using Nat.strong_induction_on with
  | _ m ih =>
    intro e he hm
    have hbnd := hM e he
    rw [hF.bet, h.dep_rec hadj (fun i _ => hnd i) hs (hE e he).1]
    congr 1
    have h1 : (E.map fun x => if e.node ∈ preds x then B x.node / ((preds x).length : ℚ) else 0) =
        (E.map Entry.node).map fun w => if e.node ∈ st.P w then (1 + dep adj n s w) * st.sigma e.node / st.sigma w else 0 := by
      rw [List.map_map]
      refine List.map_congr_left fun x hx => ?_
      rw [Function.comp_apply]
      by_cases hc : e.node ∈ preds x
      · rw [if_pos hc, if_pos ((hp x hx _).1 hc), hσ _ (hE e he).1, hσ _ (hE x hx).1]
        obtain ⟨a, ha, han, had, _⟩ := (hF.preds_mem x hx e.node).1 hc
        rw [hF.inj a ha e he han] at had
        have := hM x hx
        rw [hlen x hx (by omega), ih _ (by omega) x hx rfl]
        simp
      · rw [if_neg hc, if_neg (fun hh => hc ((hp x hx _).2 hh))]
    rw [h1, ← List.sum_toFinset _ hF.nodup]
    refine Finset.sum_congr ?_ fun _ _ => rfl
    ext w
    simp only [List.mem_toFinset, List.mem_map]
    constructor
    · rintro ⟨x, hx, rfl⟩; exact (hE x hx).1
    · intro hw; exact hS w hw

theorem Flow.added_eq (hF : Flow adj s E B) (h : Found adj s st dd) (hadj : InRange adj n) (hnd : ∀ i, (adj i).Nodup) (hs : s < n)
    (hu : ∀ t, (shortest adj s t).length ≤ 1) (a b : ℕ) :
    added E B a b = ∑ t ∈ Finset.range n, (linkShare adj s t a b + linkShare adj s t b a) := by
  obtain ⟨hσ, hone⟩ := h.one_pred hadj hnd hs hu
  obtain ⟨hE, hS, hB⟩ := hF.one_path h hadj hnd hs hu
  have hfull : ∀ w ∈ st.S, 1 + dep adj n s w = ∑ t ∈ Finset.range n, share adj s t w := by
    intro w hw
    have hwn := h.lt hadj hs hw
    unfold dep
    rw [← Finset.add_sum_erase _ (fun t => share adj s t w) (Finset.mem_range.2 hwn),
      ← Finset.add_sum_erase _ (fun t => if t ≠ w then share adj s t w else 0) (Finset.mem_range.2 hwn)]
    have h1 : share adj s w w = 1 := by
      rw [h.share_eq hadj (fun i _ => hnd i) hs hw hw, hσ w hw]; simp [W]
    rw [h1, if_neg (by simp), zero_add]
    congr 1
    refine Finset.sum_congr rfl fun t ht => ?_
    rw [if_pos (Finset.mem_erase.1 ht).1]
  have hdir : ∀ u w, (E.map fun e => if w = e.node ∧ u ∈ preds e then B e.node / ((preds e).length : ℚ) else 0).sum =
      ∑ t ∈ Finset.range n, linkShare adj s t u w := by
    intro u w
    simp only [h.linkShare_eq hone]
    by_cases hc : w ∈ st.S ∧ u ∈ st.P w
    · simp only [if_pos hc]
      rw [← hfull w hc.1]
      obtain ⟨e, he, rfl⟩ := hS w hc.1
      have hlist : (E.map fun x => if e.node = x.node ∧ u ∈ preds x then B x.node / ((preds x).length : ℚ) else 0) =
          (E.map Entry.node).map fun v => if v = e.node then B e.node else 0 := by
        rw [List.map_map]
        refine List.map_congr_left fun x hx => ?_
        rw [Function.comp_apply]
        by_cases hx' : x.node = e.node
        · have := hF.inj x hx e he hx'
          subst this
          have hp := ((hE x he).2.2.1 u).2 hc.2
          have hd : x.d ≠ 0 := by
            obtain ⟨_, _, _, hh, _⟩ := (hF.preds_mem x hx u).1 hp
            omega
          rw [if_pos ⟨rfl, hp⟩, if_pos rfl, (hE x he).2.2.2 hd]; simp
        · rw [if_neg (fun hh => hx' hh.1.symm), if_neg hx']
      rw [hlist, ← List.sum_toFinset _ hF.nodup, Finset.sum_ite_eq', if_pos (List.mem_toFinset.2 (List.mem_map.2 ⟨e, he, rfl⟩)), hB e he]
    · simp only [if_neg hc, Finset.sum_const_zero]
      apply List.sum_eq_zero
      intro x hx
      obtain ⟨e, he, rfl⟩ := List.mem_map.1 hx
      rw [if_neg]
      rintro ⟨rfl, hp⟩
      exact hc ⟨(hE e he).1, ((hE e he).2.2.1 u).1 hp⟩
  unfold added
  rw [List.sum_map_add, hdir b a, hdir a b, Finset.sum_add_distrib, add_comm]

/-- **C55**, partial: the full claim, equality with the betweenness of links for all symmetric networks, is false
(`C55_not_betweenness`). It holds when no two nodes are joined by more than one shortest path (all trees, for instance). -/
theorem C55_unique_paths_partial (hadj : InRange adj n) (hnd : ∀ i, (adj i).Nodup) (hsym : Symmetric adj)
    (hu : ∀ s t, (shortest adj s t).length ≤ 1) :
    ∃ r, CalculateLinkBetweenness adj n = some r ∧ ∀ a b, r a b = linkBetweenness adj n a b := by
  obtain ⟨r, hr, E, B, hF, hsum⟩ := link_all hadj hnd hsym n le_rfl
  refine ⟨r, hr, ?_⟩
  intro a b
  rw [hsum]
  unfold linkBetweenness
  refine Finset.sum_congr rfl fun s hs => ?_
  have hs := Finset.mem_range.1 hs
  obtain ⟨st, _, hout, hQ⟩ := free_final hadj (fun i _ => hnd i) hs (n + 1) (St.init s) outer_init (by simp [St.init])
  exact (hF s hs).added_eq (found_of_outer hout hQ) hadj hnd hs (hu s) a b

/-! ## Examples and counterexamples -/

/-- A tree: 0–1, 1–2, 1–3. -/
def star : ℕ → List ℕ
  | 0 => [1]
  | 1 => [0, 2, 3]
  | 2 => [1]
  | 3 => [1]
  | _ => []

example : (CalculateLinkBetweenness star 4).map (fun r => ((List.range 4).map fun a => (star a).map (r a))) =
    some [[6], [6, 6, 6], [6], [6]] := by decide +kernel

/-- Its shortest paths are unique, so `C55_unique_paths_partial` applies. -/
theorem star_unique : ∀ s t, (shortest star s t).length ≤ 1 := by
  have hd : ∀ s < 4, ∀ t < 4, 0 < W star (if s = t then 0 else if s = 1 ∨ t = 1 then 1 else 2) s t ∧
      ∀ k < (if s = t then 0 else if s = 1 ∨ t = 1 then 1 else 2), W star k s t = 0 := by decide +kernel
  have h1 : ∀ s < 4, ∀ t < 4, W star (if s = t then 0 else if s = 1 ∨ t = 1 then 1 else 2) s t ≤ 1 := by decide +kernel
  intro s t
  by_cases hs : s < 4
  · by_cases ht : t < 4
    · rw [shortest_length (d := if s = t then 0 else if s = 1 ∨ t = 1 then 1 else 2) ⟨W_pos.1 (hd s hs t ht).1, fun k hk => ?_⟩]
      · exact h1 s hs t ht
      · by_contra hlt
        have := (hd s hs t ht).2 k (by omega)
        have := W_pos.2 hk
        omega
    · rw [shortest_unreachable]
      · simp
      · rintro ⟨k, hk⟩
        exact ht (mem_bound (n := 4) (by decide) hs hk)
  · have hnil : star s = [] := by
      match s, hs with
      | _ + 4, _ => rfl
    by_cases hst : s = t
    · subst hst
      rw [shortest_length (d := 0) ⟨Walk.refl _, fun _ _ => Nat.zero_le _⟩]; simp [W]
    · rw [shortest_unreachable]
      · simp
      · rintro ⟨k, hk⟩
        cases k with
        | zero => cases hk; exact hst rfl
        | succ k =>
          obtain ⟨v, hv, _⟩ := Walk.uncons hk
          rw [hnil] at hv; simp at hv

/-- Twice the sum of the distances in it: 6 ordered pairs at distance 1, 6 at distance 2. -/
example : (6 + 6 + 6 + 6 + 6 + 6 : ℚ) = 2 * (6 * 1 + 6 * 2) := by norm_num

/-- 0–1, 0–2, 1–3, 2–3, 2–4, 3–5, 4–5: two shortest paths from 0 to 3, three from 0 to 5. -/
def lattice : ℕ → List ℕ
  | 0 => [1, 2]
  | 1 => [0, 3]
  | 2 => [0, 3, 4]
  | 3 => [1, 2, 5]
  | 4 => [2, 5]
  | 5 => [3, 4]
  | _ => []

/-- Distances in it. -/
def latticeDist (s t : ℕ) : ℕ :=
  (([[0, 1, 1, 2, 2, 3], [1, 0, 2, 1, 3, 2], [1, 2, 0, 1, 1, 2], [2, 1, 1, 0, 2, 1], [2, 3, 1, 2, 0, 1], [3, 2, 2, 1, 1, 0]] : List (List ℕ)).getD s []).getD t 0

theorem lattice_dist : ∀ s < 6, ∀ t < 6, dist lattice s t = latticeDist s t := by
  have h : ∀ s < 6, ∀ t < 6, 0 < W lattice (latticeDist s t) s t ∧ ∀ k < latticeDist s t, W lattice k s t = 0 := by decide +kernel
  intro s hs t ht
  refine dist_eq ⟨W_pos.1 (h s hs t ht).1, fun k hk => ?_⟩
  by_contra hlt
  have := (h s hs t ht).2 k (by omega)
  have := W_pos.2 hk
  omega

/-- **C55**, refuted: the paths are divided evenly among the predecessors, not by their number of paths. On a network of six nodes
the link 0–1 gets 11/2 and its betweenness is 16/3. -/
theorem C55_not_betweenness : ∃ (adj : ℕ → List ℕ) (n : ℕ), InRange adj n ∧ (∀ i, (adj i).Nodup) ∧ Symmetric adj ∧
    ∃ r, CalculateLinkBetweenness adj n = some r ∧ r 0 1 = 11 / 2 ∧ linkBetweenness adj n 0 1 = 16 / 3 := by
  have hr : (CalculateLinkBetweenness lattice 6).map (fun r => r 0 1) = some (11 / 2) := by decide +kernel
  obtain ⟨r, hr, h01⟩ := Option.map_eq_some_iff.1 hr
  refine ⟨lattice, 6, ?_, ?_, ?_, r, hr, h01, ?_⟩
  · unfold InRange; decide
  · intro i
    match i with
    | 0 | 1 | 2 | 3 | 4 | 5 => decide
    | _ + 6 => simp [lattice]
  · intro i j h
    match i with
    | 0 | 1 | 2 | 3 | 4 | 5 => revert j; decide
    | _ + 6 => simp [lattice] at h
  · have h1 : linkBetweenness lattice 6 0 1 = ∑ s ∈ Finset.range 6, ∑ t ∈ Finset.range 6,
        (((((walks lattice (latticeDist s t) s).filter fun l => l.getLast? = some t).countP fun l => decide ((0, 1) ∈ l.zip l.tail) : ℕ) : ℚ) /
            (((walks lattice (latticeDist s t) s).filter fun l => l.getLast? = some t).length : ℕ) +
          ((((walks lattice (latticeDist s t) s).filter fun l => l.getLast? = some t).countP fun l => decide ((1, 0) ∈ l.zip l.tail) : ℕ) : ℚ) /
            (((walks lattice (latticeDist s t) s).filter fun l => l.getLast? = some t).length : ℕ)) := by
      unfold linkBetweenness linkShare shortest
      refine Finset.sum_congr rfl fun s hs => Finset.sum_congr rfl fun t ht => ?_
      rw [lattice_dist s (Finset.mem_range.1 hs) t (Finset.mem_range.1 ht)]
    rw [h1]
    decide +kernel

/-- **C55**: with a link in one direction only the function dereferences NULL. -/
theorem C55_directed_crash : CalculateLinkBetweenness (fun i => if i = 0 then [1] else []) 2 = none := by decide +kernel

end BT
