import Verif.Graph.Adj

set_option linter.unusedSimpArgs false

namespace GR

/-! ## First appearances -/

/-- Distinct elements in order of first appearance. -/
def order (xs : List String) : List String := (xs.reverse.dedup).reverse

theorem order_snoc (xs : List String) (a : String) :
    order (xs ++ [a]) = if a ∈ xs then order xs else order xs ++ [a] := by
  unfold order
  simp only [List.reverse_append, List.reverse_cons, List.reverse_nil, List.nil_append,
    List.singleton_append]
  split_ifs with h
  · rw [List.dedup_cons_of_mem (by simpa using h)]
  · rw [List.dedup_cons_of_notMem (by simpa using h)]; simp

theorem mem_order {xs : List String} {a : String} : a ∈ order xs ↔ a ∈ xs := by
  simp [order]

theorem nodup_order (xs : List String) : (order xs).Nodup := by
  simp [order, List.nodup_dedup]

/-! ## Directed entries of a file -/

/-- The directed entries a line stands for. -/
def expand (sym : Bool) (l : String × String × ℚ) : List (String × String × ℚ) :=
  l :: if sym = true ∧ l.1 ≠ l.2.1 then [(l.2.1, l.1, l.2.2)] else []

/-- Weights given to `a → b` by directed entries. -/
def stated (es : List (String × String × ℚ)) (a b : String) : List ℚ :=
  es.flatMap fun e => if e.1 = a ∧ e.2.1 = b then [e.2.2] else []

/-- Weight of `a → b` after directed entries. -/
def weightOf (auto add : Bool) (es : List (String × String × ℚ)) (a b : String) : Option ℚ :=
  if a = b ∧ auto = false then none
  else match stated es a b with
    | [] => none
    | w :: ws => some (if add then w + ws.sum else w)

theorem stated_expand (sym : Bool) (ls : List (String × String × ℚ)) (a b : String) :
    stated (ls.flatMap (expand sym)) a b = statedWeights sym ls a b := by
  induction ls with
  | nil => rfl
  | cons l ls ih =>
    have e1 : stated (expand sym l ++ ls.flatMap (expand sym)) a b
        = stated (expand sym l) a b ++ stated (ls.flatMap (expand sym)) a b := by
      simp [stated]
    have e2 : statedWeights sym (l :: ls) a b = ((if l.1 = a ∧ l.2.1 = b then [l.2.2] else []) ++
        (if sym ∧ l.1 ≠ l.2.1 ∧ l.2.1 = a ∧ l.1 = b then [l.2.2] else [])) ++
        statedWeights sym ls a b := by
      simp [statedWeights]
    rw [List.flatMap_cons, e1, e2, ih]
    congr 1
    unfold expand stated
    by_cases hs : sym = true ∧ l.1 ≠ l.2.1
    · simp [hs]
    · rw [if_neg hs]
      have : ¬ (sym = true ∧ l.1 ≠ l.2.1 ∧ l.2.1 = a ∧ l.1 = b) := fun h => hs ⟨h.1, h.2.1⟩
      rw [if_neg this]; simp

theorem weightOf_expand (auto add sym : Bool) (ls : List (String × String × ℚ)) (a b : String) :
    weightOf auto add (ls.flatMap (expand sym)) a b = fileWeight auto add sym ls a b := by
  unfold weightOf fileWeight
  rw [stated_expand]
  cases statedWeights sym ls a b <;> rfl

theorem stated_snoc (es : List (String × String × ℚ)) (e : String × String × ℚ) (a b : String) :
    stated (es ++ [e]) a b = stated es a b ++ (if e.1 = a ∧ e.2.1 = b then [e.2.2] else []) := by
  simp [stated]

theorem weightOf_snoc_ne {auto add : Bool} {es : List (String × String × ℚ)} {x y a b : String}
    {w : ℚ} (h : ¬ (x = a ∧ y = b)) :
    weightOf auto add (es ++ [(x, y, w)]) a b = weightOf auto add es a b := by
  unfold weightOf
  rw [stated_snoc, if_neg h, List.append_nil]

theorem weightOf_snoc_self {auto add : Bool} {es : List (String × String × ℚ)} {x y : String}
    {w : ℚ} (hs : ¬ (x = y ∧ auto = false)) :
    weightOf auto add (es ++ [(x, y, w)]) x y =
      match weightOf auto add es x y with
      | none => some w
      | some v => some (if add then v + w else v) := by
  unfold weightOf
  rw [stated_snoc, if_neg hs, if_neg hs, if_pos ⟨rfl, rfl⟩]
  cases hst : stated es x y with
  | nil => simp
  | cons v vs =>
    cases add <;> simp [add_assoc]

/-! ## Invariant of the reading loop -/

structure BI (net : Net) (dict : List (String × ℕ)) (names : List String) (g : WG) : Prop where
  size : net.n = (order names).length
  labels : ∀ i, i < net.n → (order names)[i]? = some (net.label i)
  dict : ∀ a, dict.lookup a = if a ∈ names then some ((order names).idxOf a) else none
  rep : Rep net g
  links : LabelsOK net
  supp : ∀ i j, (g i j).isSome → i < net.n ∧ j < net.n
  fit : ∀ a ∈ names, fits a = true

theorem idxOf_lt {names : List String} {a : String} (h : a ∈ names) :
    (order names).idxOf a < (order names).length :=
  List.idxOf_lt_length_of_mem (mem_order.2 h)

theorem BI.label_idx {net : Net} {dict : List (String × ℕ)} {names : List String} {g : WG}
    (h : BI net dict names g) {a : String} (ha : a ∈ names) :
    net.label ((order names).idxOf a) = a := by
  have hlt := idxOf_lt ha
  have := h.labels _ (by rw [h.size]; exact hlt)
  rw [List.getElem?_eq_getElem hlt, List.getElem_idxOf] at this
  simpa using this.symm

theorem getNode_ok {net : Net} {dict : List (String × ℕ)} {names : List String} {g : WG}
    (h : BI net dict names g) {a : String} (ha : fits a = true) :
    ∃ net' dict', getNode net dict a = some ((order (names ++ [a])).idxOf a, net', dict') ∧
      BI net' dict' (names ++ [a]) g := by
  unfold getNode
  by_cases hm : a ∈ names
  · have ho : order (names ++ [a]) = order names := by rw [order_snoc, if_pos hm]
    refine ⟨net, dict, ?_, ?_⟩
    · rw [h.dict, if_pos hm, ho]
    · refine ⟨by rw [ho]; exact h.size, by rw [ho]; exact h.labels, ?_, h.rep, h.links, h.supp, ?_⟩
      · intro b
        rw [h.dict, ho]
        by_cases hb : b ∈ names
        · simp [hb]
        · have : b ≠ a := by rintro rfl; exact hb hm
          simp [hb, this]
      · intro b hb
        rcases List.mem_append.1 hb with hb | hb
        · exact h.fit b hb
        · simp at hb; subst hb; exact ha
  · have ho : order (names ++ [a]) = order names ++ [a] := by rw [order_snoc, if_neg hm]
    have hi : (order (names ++ [a])).idxOf a = net.n := by
      rw [ho, List.idxOf_append_of_notMem (by rw [mem_order]; exact hm), h.size]; simp
    rw [h.dict, if_neg hm]
    simp only [CreateNodeGraph, ha, if_true, Option.bind_eq_bind, Option.bind_some]
    refine ⟨{ n := net.n + 1
              label := Function.update net.label net.n a
              neig := Function.update net.neig net.n []
              degree := Function.update net.degree net.n 0
              strength := Function.update net.strength net.n 0 }, (a, net.n) :: dict, ?_, ?_⟩
    · rw [hi]; rfl
    · have hnone : ∀ i j, (net.n ≤ i ∨ net.n ≤ j) → g i j = none := by
        intro i j hij
        cases hg : g i j with
        | none => rfl
        | some v =>
          have := h.supp i j (by simp [hg])
          omega
      constructor
      · simp [ho, h.size]
      · intro i hi'
        rw [ho]
        simp only at hi' ⊢
        by_cases hin : i = net.n
        · subst hin
          rw [List.getElem?_append_right (by rw [h.size]), h.size]
          simp
        · rw [Function.update_of_ne hin, List.getElem?_append_left (by rw [← h.size]; omega)]
          exact h.labels i (by omega)
      · intro b
        rw [List.lookup_cons]
        by_cases hb : b = a
        · subst hb; simp [hi]
        · have : (b == a) = false := by simpa using hb
          rw [this]
          simp only [h.dict, List.mem_append, List.mem_singleton, hb, or_false]
          split_ifs with hbn
          · rw [ho, List.idxOf_append_of_mem (mem_order.2 hbn)]
          · rfl
      · constructor
        · intro i hi'
          show RowOK (net.n + 1) _ _
          simp only at hi' ⊢
          by_cases hin : i = net.n
          · subst hin
            rw [Function.update_self]
            refine ⟨by simp, by simp, ?_⟩
            intro j w hj
            rw [hnone net.n j (Or.inl le_rfl)] at hj
            simp at hj
          · rw [Function.update_of_ne hin]
            obtain ⟨h1, h2, h3⟩ := h.rep.1 i (by omega)
            refine ⟨h1, ?_, h3⟩
            intro l hl
            obtain ⟨j, hj, e⟩ := h2 l hl
            exact ⟨j, by omega, e⟩
        · intro i hi'
          simp only at hi' ⊢
          by_cases hin : i = net.n
          · subst hin; simp
          · simp only [Function.update_of_ne hin]
            exact h.rep.2 i (by omega)
      · intro i hi' l hl j hj
        simp only at hi' hl ⊢
        by_cases hin : i = net.n
        · subst hin; simp at hl
        · rw [Function.update_of_ne hin] at hl
          obtain ⟨k, hk, e, _⟩ := (h.rep.1 i (by omega)).2.1 l hl
          rw [hj] at e
          obtain rfl : j = k := by simpa using e
          rw [Function.update_of_ne (by omega)]
          exact h.links i (by omega) l hl j hj
      · intro i j hs
        have := h.supp i j hs
        exact ⟨by simp only; omega, by simp only; omega⟩
      · intro b hb
        rcases List.mem_append.1 hb with hb | hb
        · exact h.fit b hb
        · simp at hb; subst hb; exact ha

theorem addLink_labels {net : Net} {j : ℕ} {add : Bool} {w : ℚ} :
    ∀ {ls : List Link}, (∀ l ∈ ls, ∀ k, l.ref = some k → l.nodeLabel = net.label k) →
      ∀ l ∈ (addLink j (net.label j) add w ls).2, ∀ k, l.ref = some k → l.nodeLabel = net.label k
  | [], _, l, hl, k, hk => by
    simp only [addLink, List.mem_singleton] at hl
    subst hl
    simp only [Option.some.injEq] at hk
    subst hk; rfl
  | x :: ls, h, l, hl, k, hk => by
    simp only [addLink] at hl
    split_ifs at hl with h1 h2
    · rcases List.mem_cons.1 hl with rfl | hl
      · exact h x (by simp) k hk
      · exact h l (by simp [hl]) k hk
    · exact h l hl k hk
    · rcases List.mem_cons.1 hl with rfl | hl
      · exact h l (by simp) k hk
      · exact addLink_labels (fun y hy => h y (by simp [hy])) l hl k hk

theorem add_labels {net : Net} (h : LabelsOK net) (i j : ℕ) (hi : i < net.n) (auto add : Bool) (w : ℚ) :
    LabelsOK (AddAdjacency net i j auto add w).2 := by
  unfold AddAdjacency
  split_ifs with hs
  · exact h
  · intro k hk l hl m hm
    simp only [resetCaches] at hk hl ⊢
    by_cases hki : k = i
    · subst hki
      rw [Function.update_self] at hl
      exact addLink_labels (h k hi) l hl m hm
    · rw [Function.update_of_ne hki] at hl
      exact h k hk l hl m hm

theorem add_supp {n : ℕ} {g : WG} (h : ∀ i j, (g i j).isSome → i < n ∧ j < n) {i j : ℕ} (hi : i < n)
    (hj : j < n) (auto add : Bool) (w : ℚ) :
    ∀ a b, ((g.add i j auto add w).2 a b).isSome → a < n ∧ b < n := by
  intro a b hab
  have key : ∀ v, ((g.set i j v) a b).isSome → a < n ∧ b < n := by
    intro v hv
    unfold WG.set at hv
    split_ifs at hv with hc
    · rw [hc.1, hc.2]; exact ⟨hi, hj⟩
    · exact h a b hv
  unfold WG.add at hab
  by_cases hs : i = j ∧ auto = false
  · rw [if_pos hs] at hab; exact h a b hab
  · rw [if_neg hs] at hab
    cases hg : g i j with
    | none => rw [hg] at hab; exact key _ hab
    | some v =>
      rw [hg] at hab
      cases add with
      | true => exact key _ hab
      | false => exact h a b hab

theorem BI.add {net : Net} {dict : List (String × ℕ)} {names : List String} {g : WG}
    (h : BI net dict names g) {i j : ℕ} (hi : i < net.n) (hj : j < net.n) (auto add : Bool) (w : ℚ) :
    BI (AddAdjacency net i j auto add w).2 dict names (g.add i j auto add w).2 := by
  obtain ⟨_, h2, h3, h4⟩ := add_rep h.rep hi hj auto add w
  exact ⟨by rw [h2]; exact h.size, by rw [h2, h3]; exact h.labels, h.dict, h4,
    add_labels h.links i j hi auto add w, by rw [h2]; exact add_supp h.supp hi hj auto add w, h.fit⟩

/-- `g` says what the entries `es` say. -/
def Says (auto add : Bool) (names : List String) (g : WG) (es : List (String × String × ℚ)) : Prop :=
  ∀ a b, a ∈ names → b ∈ names →
    g ((order names).idxOf a) ((order names).idxOf b) = weightOf auto add es a b

theorem order_append_idx {names more : List String} {a : String} (ha : a ∈ names) :
    (order (names ++ more)).idxOf a = (order names).idxOf a := by
  induction more using List.reverseRecOn with
  | nil => simp
  | append_singleton xs x ih =>
    rw [← List.append_assoc, order_snoc]
    split_ifs
    · exact ih
    · rw [List.idxOf_append_of_mem (mem_order.2 (by simp [ha])), ih]

theorem idx_inj {names : List String} {a b : String} (ha : a ∈ names) :
    (order names).idxOf a = (order names).idxOf b ↔ a = b :=
  List.idxOf_inj (mem_order.2 ha)

theorem Says.add {auto add : Bool} {names : List String} {g : WG} {es : List (String × String × ℚ)}
    (h : Says auto add names g es) {x y : String} (hx : x ∈ names) (hy : y ∈ names) (w : ℚ) :
    Says auto add names
      (g.add ((order names).idxOf x) ((order names).idxOf y) auto add w).2 (es ++ [(x, y, w)]) := by
  intro a b ha hb
  have hset : ∀ v, (g.set ((order names).idxOf x) ((order names).idxOf y) v)
      ((order names).idxOf a) ((order names).idxOf b)
      = if a = x ∧ b = y then v else weightOf auto add es a b := by
    intro v
    unfold WG.set
    simp only [idx_inj ha, idx_inj hb]
    rw [h a b ha hb]
  unfold WG.add
  simp only [idx_inj hx]
  by_cases hs : x = y ∧ auto = false
  · rw [if_pos hs]
    simp only
    rw [h a b ha hb]
    by_cases hxy : x = a ∧ y = b
    · have hab : a = b ∧ auto = false := ⟨by rw [← hxy.1, ← hxy.2]; exact hs.1, hs.2⟩
      unfold weightOf
      rw [if_pos hab, if_pos hab]
    · rw [weightOf_snoc_ne hxy]
  · rw [if_neg hs, h x y hx hy]
    by_cases hxy : a = x ∧ b = y
    · obtain ⟨rfl, rfl⟩ := hxy
      rw [weightOf_snoc_self hs]
      cases hw : weightOf auto add es a b with
      | none => simp only; rw [hset]; simp
      | some v =>
        simp only
        split_ifs
        · simp only; rw [hset]; simp
        · simp only; rw [h a b ha hb, hw]
    · have hxy' : ¬ (x = a ∧ y = b) := fun e => hxy ⟨e.1.symm, e.2.symm⟩
      rw [weightOf_snoc_ne hxy']
      cases hw : weightOf auto add es x y with
      | none => simp only; rw [hset, if_neg hxy]
      | some v =>
        simp only
        split_ifs
        · simp only; rw [hset, if_neg hxy]
        · simp only; rw [h a b ha hb]

theorem Says.grow {auto add : Bool} {names : List String} {g : WG} {es : List (String × String × ℚ)}
    (h : Says auto add names g es) (hes : ∀ e ∈ es, e.1 ∈ names ∧ e.2.1 ∈ names)
    (hsupp : ∀ i j, (g i j).isSome → i < (order names).length ∧ j < (order names).length)
    (c : String) : Says auto add (names ++ [c]) g es := by
  have hnew : ∀ a, a ∈ names ++ [c] → a ∉ names →
      (order (names ++ [c])).idxOf a = (order names).length := by
    intro a ha hn
    have : a = c := by simpa [hn] using ha
    subst this
    rw [order_snoc, if_neg hn, List.idxOf_append_of_notMem (by rw [mem_order]; exact hn)]
    simp
  have hst : ∀ a b, (a ∉ names ∨ b ∉ names) → weightOf auto add es a b = none := by
    intro a b hab
    have : stated es a b = [] := by
      unfold stated
      rw [List.flatMap_eq_nil_iff]
      intro e he
      rw [if_neg]
      rintro ⟨rfl, rfl⟩
      have := hes e he
      tauto
    unfold weightOf
    rw [this]
    split_ifs <;> rfl
  have hno : ∀ i j, ((order names).length ≤ i ∨ (order names).length ≤ j) → g i j = none := by
    intro i j hij
    cases hg : g i j with
    | none => rfl
    | some v => have := hsupp i j (by simp [hg]); omega
  intro a b ha hb
  by_cases han : a ∈ names
  · by_cases hbn : b ∈ names
    · rw [order_append_idx han, order_append_idx hbn]; exact h a b han hbn
    · rw [hst a b (Or.inr hbn), hnew b hb hbn, hno _ _ (Or.inr le_rfl)]
  · rw [hst a b (Or.inl han), hnew a ha han, hno _ _ (Or.inl le_rfl)]

theorem readLine_ok {weighted : Bool} {strtod : String → Option ℚ} {toks : List String}
    {l : String × String × ℚ} (h : LineSays weighted strtod toks l) :
    readLine weighted strtod toks = some (some l) := by
  obtain ⟨h1, h2, h3⟩ := h
  obtain ⟨a, b, w⟩ := l
  simp only at h1 h2 h3
  cases weighted with
  | true =>
    simp only [if_true] at h3
    obtain ⟨c, rest, rfl, hw⟩ := h3
    simp [readLine, h1, h2, hw]
  | false =>
    simp only [Bool.false_eq_true, if_false] at h3
    obtain ⟨⟨rest, rfl⟩, rfl⟩ := h3
    simp [readLine, h1, h2]

theorem line_step {auto add sym : Bool} {net : Net} {dict : List (String × ℕ)} {names : List String}
    {g : WG} {done : List (String × String × ℚ)} (h : BI net dict names g)
    (hs : Says auto add names g (done.flatMap (expand sym)))
    (hd : ∀ e ∈ done, e.1 ∈ names ∧ e.2.1 ∈ names) {a b : String} (w : ℚ) (ha : fits a = true)
    (hb : fits b = true) :
    ∃ n1 net1 dict1 n2 net2 dict2 g',
      getNode net dict a = some (n1, net1, dict1) ∧
      getNode net1 dict1 b = some (n2, net2, dict2) ∧
      BI (if sym = true ∧ n1 ≠ n2 then
            (AddAdjacency (AddAdjacency net2 n1 n2 auto add w).2 n2 n1 auto add w).2
          else (AddAdjacency net2 n1 n2 auto add w).2) dict2 (names ++ [a] ++ [b]) g' ∧
      Says auto add (names ++ [a] ++ [b]) g' ((done ++ [(a, b, w)]).flatMap (expand sym)) := by
  have hexp : ∀ (names : List String) (done : List (String × String × ℚ)),
      (∀ e ∈ done, e.1 ∈ names ∧ e.2.1 ∈ names) →
      ∀ e ∈ done.flatMap (expand sym), e.1 ∈ names ∧ e.2.1 ∈ names := by
    intro names done hd e he
    obtain ⟨l, hl, he⟩ := List.mem_flatMap.1 he
    have := hd l hl
    simp only [expand, List.mem_cons] at he
    rcases he with rfl | he
    · exact this
    · split_ifs at he
      · simp only [List.mem_singleton] at he; subst he; exact ⟨this.2, this.1⟩
      · simp at he
  obtain ⟨net1, dict1, e1, b1⟩ := getNode_ok h ha
  have s1 := Says.grow hs (hexp _ _ hd) (by rw [← h.size]; exact h.supp) a
  obtain ⟨net2, dict2, e2, b2⟩ := getNode_ok b1 hb
  have s2 := Says.grow s1 (fun e he => by
    have := hexp _ _ hd e he
    exact ⟨by simp [this.1], by simp [this.2]⟩) (by rw [← b1.size]; exact b1.supp) b
  set nm := names ++ [a] ++ [b] with hnm
  have hma : a ∈ nm := by simp [hnm]
  have hmb : b ∈ nm := by simp [hnm]
  have hidx : (order (names ++ [a])).idxOf a = (order nm).idxOf a :=
    (order_append_idx (by simp)).symm
  have hia : (order nm).idxOf a < net2.n := by rw [b2.size]; exact idxOf_lt hma
  have hib : (order nm).idxOf b < net2.n := by rw [b2.size]; exact idxOf_lt hmb
  have b3 := b2.add hia hib auto add w
  have s3 := s2.add hma hmb w
  have hfm : (done ++ [(a, b, w)]).flatMap (expand sym)
      = done.flatMap (expand sym) ++ [(a, b, w)] ++
        if sym = true ∧ a ≠ b then [(b, a, w)] else [] := by
    simp [expand]
  suffices hsuf : ∃ g', BI (if sym = true ∧ (order nm).idxOf a ≠ (order nm).idxOf b then
            (AddAdjacency (AddAdjacency net2 ((order nm).idxOf a) ((order nm).idxOf b) auto add w).2
              ((order nm).idxOf b) ((order nm).idxOf a) auto add w).2
          else (AddAdjacency net2 ((order nm).idxOf a) ((order nm).idxOf b) auto add w).2) dict2 nm g' ∧
      Says auto add nm g' ((done ++ [(a, b, w)]).flatMap (expand sym)) by
    obtain ⟨g', hg'⟩ := hsuf
    exact ⟨_, net1, dict1, _, net2, dict2, g', by rw [e1, hidx], e2, hg'⟩
  rw [hfm]
  by_cases hc : sym = true ∧ a ≠ b
  · have hc' : sym = true ∧ (order nm).idxOf a ≠ (order nm).idxOf b :=
      ⟨hc.1, fun e => hc.2 ((idx_inj hma).1 e)⟩
    rw [if_pos hc, if_pos hc']
    have hn : (AddAdjacency net2 ((order nm).idxOf a) ((order nm).idxOf b) auto add w).2.n = net2.n :=
      (add_rep b2.rep hia hib auto add w).2.1
    exact ⟨_, b3.add (by rw [hn]; exact hib) (by rw [hn]; exact hia) auto add w, s3.add hmb hma w⟩
  · have hc' : ¬ (sym = true ∧ (order nm).idxOf a ≠ (order nm).idxOf b) := by
      rintro ⟨h1, h2⟩
      exact hc ⟨h1, fun e => h2 (by rw [e])⟩
    rw [if_neg hc, if_neg hc', List.append_nil]
    exact ⟨_, b3, s3⟩

/-- Labels of some lines, in order. -/
def labelsOf (ls : List (String × String × ℚ)) : List String := ls.flatMap fun l => [l.1, l.2.1]

theorem mem_labelsOf {ls : List (String × String × ℚ)} {l : String × String × ℚ} (h : l ∈ ls) :
    l.1 ∈ labelsOf ls ∧ l.2.1 ∈ labelsOf ls := by
  unfold labelsOf
  constructor <;> exact List.mem_flatMap.2 ⟨l, h, by simp⟩

/-- Reading well formed lines leads to the network they describe, whatever follows. -/
theorem buildLoop_prefix {weighted auto add sym : Bool} {strtod : String → Option ℚ} :
    ∀ {lines : List (List String)} {ls done : List (String × String × ℚ)} {net : Net}
      {dict : List (String × ℕ)} {g : WG} (tail : List (List String)),
      List.Forall₂ (LineSays weighted strtod) lines ls →
      BI net dict (labelsOf done) g →
      Says auto add (labelsOf done) g (done.flatMap (expand sym)) →
      ∃ net' dict' g',
        buildLoop weighted auto add sym strtod (lines ++ tail) net dict
          = buildLoop weighted auto add sym strtod tail net' dict' ∧
        BI net' dict' (labelsOf (done ++ ls)) g' ∧
        Says auto add (labelsOf (done ++ ls)) g' ((done ++ ls).flatMap (expand sym)) := by
  intro lines
  induction lines with
  | nil =>
    intro ls done net dict g tail hl hb hs
    cases hl
    exact ⟨net, dict, g, by simp, by simpa using hb, by simpa using hs⟩
  | cons toks lines ih =>
    intro ls done net dict g tail hl hb hs
    cases hl with
    | @cons _ l _ ls' h1 h2 =>
      obtain ⟨a, b, w⟩ := l
      obtain ⟨n1, net1, dict1, n2, net2, dict2, g', e1, e2, hb', hs'⟩ :=
        line_step (auto := auto) (add := add) (sym := sym) hb hs (fun e he => mem_labelsOf he) w h1.1 h1.2.1
      have hlab : labelsOf done ++ [a] ++ [b] = labelsOf (done ++ [(a, b, w)]) := by
        simp [labelsOf]
      rw [hlab] at hb' hs'
      obtain ⟨net', dict', g'', e, hb'', hs''⟩ := ih (tail := tail) h2 hb' hs'
      refine ⟨net', dict', g'', ?_, by simpa using hb'', by simpa using hs''⟩
      rw [← e]
      simp only [List.cons_append, buildLoop, readLine_ok h1, e1, e2, Option.bind_eq_bind,
        Option.bind_some]

theorem BI.nil : BI CreateHeaderGraph [] [] (fun _ _ => none) := by
  constructor
  · simp [CreateHeaderGraph, order]
  · intro i hi; simp [CreateHeaderGraph] at hi
  · intro a; simp
  · constructor
    · intro i hi; simp [CreateHeaderGraph] at hi
    · intro i hi; simp [CreateHeaderGraph] at hi
  · intro i hi; simp [CreateHeaderGraph] at hi
  · simp
  · simp

end GR
