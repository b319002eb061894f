import Verif.Graph.Spec
import Mathlib.Data.List.Nodup
import Mathlib.Algebra.Order.Ring.Rat
import Mathlib.Algebra.BigOperators.Group.List.Basic

set_option linter.unusedSimpArgs false

namespace GR

/-- One adjacency list holds the links `f`. -/
def RowOK (n : ℕ) (ls : List Link) (f : ℕ → Option ℚ) : Prop :=
  (ls.map Link.ref).Nodup ∧
    (∀ l ∈ ls, ∃ j, j < n ∧ l.ref = some j ∧ f j = some l.weight) ∧
    ∀ j w, f j = some w → ∃ l ∈ ls, l.ref = some j ∧ l.weight = w

theorem row_replace {n : ℕ} {pre post : List Link} {mid mid' : Option Link} {f : ℕ → Option ℚ}
    {j : ℕ} (h : RowOK n (pre ++ mid.toList ++ post) f)
    (hm : ∀ l, mid = some l → l.ref = some j)
    (hpre : ∀ l ∈ pre, l.ref ≠ some j) (hpost : ∀ l ∈ post, l.ref ≠ some j)
    (hm' : ∀ l, mid' = some l → l.ref = some j) (hj : j < n) :
    RowOK n (pre ++ mid'.toList ++ post) (Function.update f j (mid'.map Link.weight)) := by
  obtain ⟨h1, h2, h3⟩ := h
  refine ⟨?_, ?_, ?_⟩
  · have hb : (pre.map Link.ref ++ post.map Link.ref).Nodup := by
      refine h1.sublist ?_
      simp only [List.map_append, List.append_assoc]
      exact List.Sublist.append (List.Sublist.refl _) (List.sublist_append_right _ _)
    cases mid' with
    | none => simpa using hb
    | some l' =>
      have e : l'.ref = some j := hm' l' rfl
      have hp : (pre.map Link.ref ++ [some j] ++ post.map Link.ref).Perm
          (some j :: (pre.map Link.ref ++ post.map Link.ref)) := by
        simp only [List.append_assoc, List.singleton_append]
        exact List.perm_middle
      simp only [List.map_append, Option.toList_some, List.map_cons, List.map_nil, e]
      rw [hp.nodup_iff, List.nodup_cons]
      refine ⟨?_, hb⟩
      simp only [List.mem_append, List.mem_map, not_or, not_exists, not_and]
      exact ⟨fun l hl e => hpre l hl e, fun l hl e => hpost l hl e⟩
  · intro l hl
    simp only [List.mem_append] at hl
    rcases hl with (hl | hl) | hl
    · obtain ⟨k, hk, e, hv⟩ := h2 l (by simp [hl])
      refine ⟨k, hk, e, ?_⟩
      rw [Function.update_of_ne, hv]
      rintro rfl; exact hpre l hl e
    · cases mid' with
      | none => simp at hl
      | some l' =>
        simp only [Option.toList_some, List.mem_singleton] at hl
        subst hl
        exact ⟨j, hj, hm' l rfl, by simp⟩
    · obtain ⟨k, hk, e, hv⟩ := h2 l (by simp [hl])
      refine ⟨k, hk, e, ?_⟩
      rw [Function.update_of_ne, hv]
      rintro rfl; exact hpost l hl e
  · intro k w hk
    by_cases hkj : k = j
    · subst hkj
      simp only [Function.update_self] at hk
      cases mid' with
      | none => simp at hk
      | some l' =>
        refine ⟨l', by simp, hm' l' rfl, by simpa using hk⟩
    · rw [Function.update_of_ne hkj] at hk
      obtain ⟨l, hl, e, hw⟩ := h3 k w hk
      refine ⟨l, ?_, e, hw⟩
      simp only [List.mem_append] at hl ⊢
      rcases hl with (hl | hl) | hl
      · exact Or.inl (Or.inl hl)
      · cases mid with
        | none => simp at hl
        | some l' =>
          simp only [Option.toList_some, List.mem_singleton] at hl
          subst hl
          have := hm l rfl
          rw [e] at this
          exact (hkj (by simpa using this)).elim
      · exact Or.inr hl

/-- A present link splits the list. -/
theorem row_split {ls : List Link} {j : ℕ} (hn : (ls.map Link.ref).Nodup)
    (h : ∃ l ∈ ls, l.ref = some j) :
    ∃ pre l post, ls = pre ++ l :: post ∧ l.ref = some j ∧ (∀ x ∈ pre, x.ref ≠ some j) ∧
      ∀ x ∈ post, x.ref ≠ some j := by
  obtain ⟨l, hl, e⟩ := h
  obtain ⟨pre, post, rfl⟩ := List.append_of_mem hl
  refine ⟨pre, l, post, rfl, e, ?_, ?_⟩
  · intro x hx ex
    simp only [List.map_append, List.map_cons] at hn
    rw [List.nodup_append] at hn
    exact hn.2.2 (x.ref) (List.mem_map.2 ⟨x, hx, rfl⟩) l.ref (by simp) (by rw [ex, e])
  · intro x hx ex
    simp only [List.map_append, List.map_cons] at hn
    rw [List.nodup_append] at hn
    have := hn.2.1
    rw [List.nodup_cons] at this
    exact this.1 (List.mem_map.2 ⟨x, hx, by rw [ex, e]⟩)

theorem row_mem_iff {n : ℕ} {ls : List Link} {f : ℕ → Option ℚ} (h : RowOK n ls f) (j : ℕ) :
    (∃ l ∈ ls, l.ref = some j) ↔ (f j).isSome := by
  constructor
  · rintro ⟨l, hl, e⟩
    obtain ⟨k, _, e', hv⟩ := h.2.1 l hl
    rw [e] at e'
    obtain rfl : j = k := by simpa using e'
    simp [hv]
  · intro hs
    obtain ⟨w, hw⟩ := Option.isSome_iff_exists.1 hs
    obtain ⟨l, hl, e, _⟩ := h.2.2 j w hw
    exact ⟨l, hl, e⟩

theorem addLink_absent {j : ℕ} {lab : String} {add : Bool} {w : ℚ} :
    ∀ {ls : List Link}, (∀ l ∈ ls, l.ref ≠ some j) →
      addLink j lab add w ls = (1, ls ++ [{ nodeLabel := lab, ref := some j, weight := w }])
  | [], _ => rfl
  | l :: ls, h => by
    simp only [addLink]
    rw [if_neg (h l (by simp)), addLink_absent fun x hx => h x (by simp [hx])]
    rfl

theorem addLink_present {j : ℕ} {lab : String} {add : Bool} {w : ℚ} {l : Link} {post : List Link}
    (hl : l.ref = some j) :
    ∀ {pre : List Link}, (∀ x ∈ pre, x.ref ≠ some j) →
      addLink j lab add w (pre ++ l :: post) =
        if add then (1, pre ++ { l with weight := l.weight + w } :: post)
        else (0, pre ++ l :: post)
  | [], _ => by simp only [List.nil_append, addLink, hl, if_true]
  | x :: pre, h => by
    simp only [List.cons_append, addLink]
    rw [if_neg (h x (by simp)), addLink_present hl fun y hy => h y (by simp [hy])]
    split_ifs <;> rfl

theorem dropLink_present {j : ℕ} {l : Link} {post : List Link} (hl : l.ref = some j) :
    ∀ {pre : List Link}, (∀ x ∈ pre, x.ref ≠ some j) →
      dropLink j (pre ++ l :: post) = some (pre ++ post)
  | [], _ => by simp only [List.nil_append, dropLink, hl, if_true]
  | x :: pre, h => by
    simp only [List.cons_append, dropLink]
    rw [if_neg (h x (by simp)), dropLink_present hl fun y hy => h y (by simp [hy])]
    rfl

theorem dropLink_absent {j : ℕ} : ∀ {ls : List Link}, (∀ l ∈ ls, l.ref ≠ some j) →
    dropLink j ls = none
  | [], _ => rfl
  | x :: ls, h => by
    simp only [dropLink]
    rw [if_neg (h x (by simp)), dropLink_absent fun y hy => h y (by simp [hy])]
    rfl

theorem addLink_row {n : ℕ} {ls : List Link} {f : ℕ → Option ℚ} (h : RowOK n ls f) {j : ℕ}
    (hj : j < n) (lab : String) (add : Bool) (w : ℚ) :
    match f j with
    | none => (addLink j lab add w ls).1 = 1 ∧
        RowOK n (addLink j lab add w ls).2 (Function.update f j (some w))
    | some v => if add then (addLink j lab add w ls).1 = 1 ∧
          RowOK n (addLink j lab add w ls).2 (Function.update f j (some (v + w)))
        else addLink j lab add w ls = (0, ls) := by
  cases hf : f j with
  | none =>
    have ha : ∀ l ∈ ls, l.ref ≠ some j := by
      intro l hl e
      have := (row_mem_iff h j).1 ⟨l, hl, e⟩
      simp [hf] at this
    rw [addLink_absent ha]
    refine ⟨rfl, ?_⟩
    have := row_replace (mid := none) (mid' := some { nodeLabel := lab, ref := some j, weight := w })
      (pre := ls) (post := []) (j := j) (by simpa using h) (by simp) ha (by simp) (by simp) hj
    simpa using this
  | some v =>
    obtain ⟨pre, l, post, rfl, e, h1, h2⟩ := row_split h.1 ((row_mem_iff h j).2 (by simp [hf]))
    have hv : l.weight = v := by
      obtain ⟨k, _, e', hw⟩ := h.2.1 l (by simp)
      rw [e] at e'
      obtain rfl : j = k := by simpa using e'
      rw [hf] at hw
      simpa using hw.symm
    rw [addLink_present e h1]
    cases add with
    | false => simp
    | true =>
      simp only [if_true, true_and]
      have := row_replace (mid := some l) (mid' := some { l with weight := l.weight + w })
        (pre := pre) (post := post) (j := j) (by simpa using h) (by simpa using e) h1 h2
        (by simpa using e) hj
      simpa [hv] using this

theorem dropLink_row {n : ℕ} {ls : List Link} {f : ℕ → Option ℚ} (h : RowOK n ls f) {j : ℕ}
    (hj : j < n) :
    match f j with
    | none => dropLink j ls = none
    | some _ => ∃ ls', dropLink j ls = some ls' ∧ RowOK n ls' (Function.update f j none) := by
  cases hf : f j with
  | none =>
    apply dropLink_absent
    intro l hl e
    have := (row_mem_iff h j).1 ⟨l, hl, e⟩
    simp [hf] at this
  | some v =>
    obtain ⟨pre, l, post, rfl, e, h1, h2⟩ := row_split h.1 ((row_mem_iff h j).2 (by simp [hf]))
    refine ⟨pre ++ post, dropLink_present e h1, ?_⟩
    have := row_replace (mid := some l) (mid' := none)
        (pre := pre) (post := post) (j := j) (by simpa using h) (by simpa using e) h1 h2
        (by simp) hj
    simpa using this

theorem row_finset {n : ℕ} {ls : List Link} {f : ℕ → Option ℚ} (h : RowOK n ls f) :
    ((ls.map Link.ref).toFinset : Finset (Option ℕ)) =
      ((Finset.range n).filter fun j => (f j).isSome).image some := by
  ext x
  simp only [List.mem_toFinset, List.mem_map, Finset.mem_image, Finset.mem_filter, Finset.mem_range]
  constructor
  · rintro ⟨l, hl, rfl⟩
    obtain ⟨j, hj, e, hv⟩ := h.2.1 l hl
    exact ⟨j, ⟨hj, by simp [hv]⟩, e.symm⟩
  · rintro ⟨j, ⟨hj, hs⟩, rfl⟩
    exact (row_mem_iff h j).2 hs

theorem row_length {n : ℕ} {ls : List Link} {f : ℕ → Option ℚ} (h : RowOK n ls f) :
    ls.length = ((Finset.range n).filter fun j => (f j).isSome).card := by
  have := congrArg Finset.card (row_finset h)
  rw [List.toFinset_card_of_nodup h.1, Finset.card_image_of_injective _ (Option.some_injective _)] at this
  simpa using this

theorem row_sum {n : ℕ} {ls : List Link} {f : ℕ → Option ℚ} (h : RowOK n ls f) :
    (ls.map Link.weight).sum = ∑ j ∈ Finset.range n, (f j).getD 0 := by
  have e1 : (ls.map Link.weight).sum
      = ((ls.map Link.ref).map fun r => ((r.bind f).getD 0)).sum := by
    rw [List.map_map]
    congr 1
    apply List.map_congr_left
    intro l hl
    obtain ⟨j, _, e, hv⟩ := h.2.1 l hl
    simp [e, hv]
  rw [e1, ← List.sum_toFinset _ h.1, row_finset h, Finset.sum_image (by simp), Finset.sum_filter]
  apply Finset.sum_congr rfl
  intro j _
  cases hf : f j <;> simp [hf]

/-! ## Whole networks -/

/-- Representation invariant. -/
def Rep (net : Net) (g : WG) : Prop := Holds net g ∧ CachesOK net

theorem holds_iff {net : Net} {g : WG} : Holds net g ↔ ∀ i, i < net.n → RowOK net.n (net.neig i) (g i) :=
  Iff.rfl

theorem WG.set_eq (g : WG) (i j : ℕ) (v : Option ℚ) :
    g.set i j v = Function.update g i (Function.update (g i) j v) := by
  funext a b
  unfold WG.set
  by_cases ha : a = i
  · subst ha
    by_cases hb : b = j
    · subst hb; simp
    · simp [hb]
  · simp [ha]

theorem holds_update {net : Net} {g : WG} (h : Holds net g) {i : ℕ} {ls : List Link}
    {f : ℕ → Option ℚ} (hr : RowOK net.n ls f) {deg : ℕ → ℕ} {str : ℕ → ℚ} :
    Holds { net with neig := Function.update net.neig i ls, degree := deg, strength := str }
      (Function.update g i f) := by
  intro k hk
  by_cases hki : k = i
  · subst hki
    have : RowOK net.n (Function.update net.neig k ls k) (Function.update g k f k) := by
      simpa using hr
    exact this
  · simp only [Function.update_of_ne hki]; exact h k hk

theorem add_rep {net : Net} {g : WG} (h : Rep net g) {i j : ℕ} (hi : i < net.n) (hj : j < net.n)
    (auto add : Bool) (w : ℚ) :
    (AddAdjacency net i j auto add w).1 = (g.add i j auto add w).1 ∧
    (AddAdjacency net i j auto add w).2.n = net.n ∧
    (AddAdjacency net i j auto add w).2.label = net.label ∧
    Rep (AddAdjacency net i j auto add w).2 (g.add i j auto add w).2 := by
  unfold AddAdjacency WG.add
  by_cases hs : i = j ∧ auto = false
  · simp only [hs, if_true, and_self]; simpa [hs] using h
  · simp only [hs, if_false]
    have hrow := addLink_row (h.1 i hi) hj (net.label j) add w
    have hcache : ∀ ls, CachesOK { (resetCaches (resetCaches net i) j) with
        neig := Function.update net.neig i ls } := by
      intro ls k hk
      simp only [resetCaches] at hk ⊢
      by_cases hkj : k = j
      · subst hkj; simp
      · simp only [Function.update_of_ne hkj]
        by_cases hki : k = i
        · subst hki; simp
        · simp only [Function.update_of_ne hki]; exact h.2 k hk
    cases hg : g i j with
    | none =>
      rw [hg] at hrow
      refine ⟨hrow.1, rfl, rfl, ?_, hcache _⟩
      rw [WG.set_eq]
      exact holds_update h.1 hrow.2
    | some v =>
      rw [hg] at hrow
      cases add with
      | true =>
        simp only [if_true] at hrow ⊢
        refine ⟨hrow.1, rfl, rfl, ?_, hcache _⟩
        rw [WG.set_eq]
        exact holds_update h.1 hrow.2
      | false =>
        simp only [Bool.false_eq_true, if_false] at hrow ⊢
        refine ⟨by simp only [resetCaches]; rw [hrow], rfl, rfl, ?_, hcache _⟩
        have hrow' : addLink j (resetCaches (resetCaches net i) j |>.label j) false w
          ((resetCaches (resetCaches net i) j).neig i) = (0, net.neig i) := hrow
        rw [hrow']
        intro k hk
        simp only [resetCaches] at hk ⊢
        by_cases hki : k = i
        · subst hki; simpa using h.1 k hi
        · simp only [Function.update_of_ne hki]; exact h.1 k hk

theorem remove_rep {net : Net} {g : WG} (h : Rep net g) {i j : ℕ} (hi : i < net.n) (hj : j < net.n)
    (sym : Bool) :
    match g.remove i j sym with
    | none => RemoveLink net i j sym = none
    | some g' => ∃ net', RemoveLink net i j sym = some net' ∧ net'.n = net.n ∧
        net'.label = net.label ∧ Rep net' g' := by
  unfold RemoveLink WG.remove
  have hcache : ∀ (net1 : Net), net1.n = net.n → (∀ k, k ≠ i → k ≠ j → net1.neig k = net.neig k) →
      net1.degree = (resetCaches (resetCaches net i) j).degree →
      net1.strength = (resetCaches (resetCaches net i) j).strength → CachesOK net1 := by
    intro net1 hn hne hd hs k hk
    rw [hd, hs]
    simp only [resetCaches]
    by_cases hkj : k = j
    · subst hkj; simp
    · simp only [Function.update_of_ne hkj]
      by_cases hki : k = i
      · subst hki; simp
      · simp only [Function.update_of_ne hki]
        rw [hne k hki hkj]
        exact h.2 k (by omega)
  have hrow := dropLink_row (h.1 i hi) hj
  cases hg : g i j with
  | none =>
    rw [hg] at hrow
    have : dropLink j ((resetCaches (resetCaches net i) j).neig i) = none := hrow
    simp [this]
  | some v =>
    rw [hg] at hrow
    obtain ⟨ls, e, hr⟩ := hrow
    have e' : dropLink j ((resetCaches (resetCaches net i) j).neig i) = some ls := e
    simp only [Option.isNone_some, Bool.false_eq_true, if_false, e', Option.bind_eq_bind,
      Option.bind_some]
    by_cases hs : sym = true ∧ i ≠ j
    · simp only [hs, and_self, if_true, ne_eq, not_false_eq_true]
      have hne : j ≠ i := fun e => hs.2 e.symm
      have hrow2 := dropLink_row (h.1 j hj) hi
      have en : (Function.update (resetCaches (resetCaches net i) j).neig i ls) j = net.neig j := by
        rw [Function.update_of_ne hne]; rfl
      rw [en]
      cases hg2 : g j i with
      | none => rw [hg2] at hrow2; simp [hrow2]
      | some v2 =>
        rw [hg2] at hrow2
        obtain ⟨ls2, e2, hr2⟩ := hrow2
        simp only [e2, Option.isNone_some, Bool.false_eq_true, if_false, Option.bind_some]
        refine ⟨_, rfl, rfl, rfl, ?_, ?_⟩
        · intro k hk
          simp only [resetCaches] at hk ⊢
          rw [WG.set_eq, WG.set_eq]
          by_cases hkj : k = j
          · subst hkj
            simp only [Function.update_self]
            rw [Function.update_of_ne hne]
            exact hr2
          · simp only [Function.update_of_ne hkj]
            by_cases hki : k = i
            · subst hki; simp only [Function.update_self]; exact hr
            · simp only [Function.update_of_ne hki]; exact h.1 k hk
        · refine hcache _ rfl ?_ rfl rfl
          intro k hki hkj
          simp only [resetCaches]
          rw [Function.update_of_ne hkj, Function.update_of_ne hki]
    · rw [if_neg hs, if_neg hs]
      refine ⟨_, rfl, rfl, rfl, ?_, ?_⟩
      · rw [WG.set_eq]
        exact holds_update h.1 hr
      · refine hcache _ rfl ?_ rfl rfl
        intro k hki _
        simp only [resetCaches]
        rw [Function.update_of_ne hki]

theorem foldl_count (ls : List Link) (d : ℕ) : ls.foldl (fun d _ => d + 1) d = d + ls.length := by
  induction ls generalizing d with
  | nil => rfl
  | cons l ls ih => simp [ih]; omega

theorem foldl_weight (ls : List Link) (s : ℚ) :
    ls.foldl (fun s l => s + l.weight) s = s + (ls.map Link.weight).sum := by
  induction ls generalizing s with
  | nil => simp
  | cons l ls ih => simp [ih, add_assoc]

theorem degree_answer {net : Net} (hc : CachesOK net) {i : ℕ} (hi : i < net.n) :
    (NodeDegree net i).1 = (net.neig i).length := by
  unfold NodeDegree
  split_ifs with h
  · simp [foldl_count, h.1]
  · simp only
    rcases (hc i hi).1 with h0 | h0
    · have : net.neig i = [] := by by_contra hne; exact h ⟨h0, hne⟩
      simp [h0, this]
    · exact h0

theorem strength_answer {net : Net} (hc : CachesOK net) {i : ℕ} (hi : i < net.n) :
    (NodeStrength net i).1 = ((net.neig i).map Link.weight).sum := by
  unfold NodeStrength
  split_ifs with h
  · simp [foldl_weight, h.1]
  · simp only
    rcases (hc i hi).2 with h0 | h0
    · have : net.neig i = [] := by by_contra hne; exact h ⟨h0, hne⟩
      simp [h0, this]
    · exact h0

theorem degree_net {net : Net} (hc : CachesOK net) {i : ℕ} (hi : i < net.n) :
    (NodeDegree net i).2.n = net.n ∧ (NodeDegree net i).2.neig = net.neig ∧
    (NodeDegree net i).2.label = net.label ∧ CachesOK (NodeDegree net i).2 := by
  have ha := degree_answer hc hi
  unfold NodeDegree at ha ⊢
  split_ifs with h
  · refine ⟨rfl, rfl, rfl, ?_⟩
    rw [if_pos h] at ha
    intro k hk
    simp only at hk ⊢
    refine ⟨?_, (hc k hk).2⟩
    by_cases hki : k = i
    · subst hki; right; simpa using ha
    · rw [Function.update_of_ne hki]; exact (hc k hk).1
  · exact ⟨rfl, rfl, rfl, hc⟩

theorem strength_net {net : Net} (hc : CachesOK net) {i : ℕ} (hi : i < net.n) :
    (NodeStrength net i).2.n = net.n ∧ (NodeStrength net i).2.neig = net.neig ∧
    CachesOK (NodeStrength net i).2 := by
  have ha := strength_answer hc hi
  unfold NodeStrength at ha ⊢
  split_ifs with h
  · refine ⟨rfl, rfl, ?_⟩
    rw [if_pos h] at ha
    intro k hk
    simp only at hk ⊢
    refine ⟨(hc k hk).1, ?_⟩
    by_cases hki : k = i
    · subst hki; right; simpa using ha
    · rw [Function.update_of_ne hki]; exact (hc k hk).2
  · exact ⟨rfl, rfl, hc⟩

theorem isLink_eq {net : Net} {g : WG} (h : Holds net g) {i : ℕ} (hi : i < net.n) (j : ℕ) :
    IsThereLink net i j = (g i j).isSome := by
  rw [Bool.eq_iff_iff, ← row_mem_iff (h i hi) j]
  simp [IsThereLink]

theorem step_rep {net : Net} {g : WG} (h : Rep net g) {o : Op} (ho : o.inRange net.n) :
    match specStep net.n g o with
    | none => netStep net o = none
    | some (r, g') => ∃ net', netStep net o = some (r, net') ∧ net'.n = net.n ∧ Rep net' g' := by
  cases o with
  | add i j auto add w =>
    obtain ⟨h1, h2, _, h3⟩ := add_rep h ho.1 ho.2 auto add w
    simp only [specStep, netStep]
    exact ⟨_, by rw [h1], h2, h3⟩
  | remove i j sym =>
    have hr := remove_rep h ho.1 ho.2 sym
    simp only [specStep, netStep]
    cases hg : g.remove i j sym with
    | none => rw [hg] at hr; simp [hr]
    | some g' =>
      rw [hg] at hr
      obtain ⟨net', e, hn, _, hr'⟩ := hr
      simp only [Option.map_some]
      exact ⟨net', by rw [e]; rfl, hn, hr'⟩
  | degree i =>
    obtain ⟨h1, h2, _, h3⟩ := degree_net h.2 ho
    simp only [specStep, netStep]
    refine ⟨_, ?_, h1, ?_, h3⟩
    · rw [degree_answer h.2 ho, row_length (h.1 i ho)]; rfl
    · intro k hk
      rw [h1] at hk ⊢
      rw [h2]; exact h.1 k hk
  | strength i =>
    obtain ⟨h1, h2, h3⟩ := strength_net h.2 ho
    simp only [specStep, netStep]
    refine ⟨_, ?_, h1, ?_, h3⟩
    · rw [strength_answer h.2 ho, row_sum (h.1 i ho)]; rfl
    · intro k hk
      rw [h1] at hk ⊢
      rw [h2]; exact h.1 k hk
  | isLink i j =>
    simp only [specStep, netStep]
    exact ⟨net, by rw [isLink_eq h.1 ho.1], rfl, h⟩

theorem run_rep : ∀ (ops : List Op) {net : Net} {g : WG}, Rep net g →
    (∀ o ∈ ops, o.inRange net.n) →
    match runOps (specStep net.n) g ops with
    | none => runOps netStep net ops = none
    | some (rs, g') => ∃ net', runOps netStep net ops = some (rs, net') ∧ net'.n = net.n ∧
        Rep net' g'
  | [], net, g, h, _ => ⟨net, rfl, rfl, h⟩
  | o :: os, net, g, h, ho => by
    have h1 := step_rep h (ho o (by simp))
    simp only [runOps]
    cases hs : specStep net.n g o with
    | none => rw [hs] at h1; simp [h1]
    | some p =>
      obtain ⟨r, g1⟩ := p
      rw [hs] at h1
      obtain ⟨net1, e, hn, hr⟩ := h1
      simp only [e, Option.bind_eq_bind, Option.bind_some]
      have ih := run_rep os hr (fun o' ho' => by rw [hn]; exact ho o' (by simp [ho']))
      rw [hn] at ih
      cases hs2 : runOps (specStep net.n) g1 os with
      | none => rw [hs2] at ih; simp [ih]
      | some p2 =>
        obtain ⟨rs, g2⟩ := p2
        rw [hs2] at ih
        obtain ⟨net2, e2, hn2, hr2⟩ := ih
        exact ⟨net2, by rw [e2]; rfl, hn2, hr2⟩

end GR
