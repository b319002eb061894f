import Verif.Group.Energy
import Verif.BFS.Clusters
import Mathlib.Data.List.Perm.Basic

/-! # C47: `SAGroupSplit` divides the nodes of the group -/

set_option linter.unusedSimpArgs false

namespace GP

open RG

/-! ## Tapes without zeros -/

/-- The generator does not return 0. -/
def NZ (t : Tape) : Prop := ∀ u ∈ t, u ≠ 0

theorem _root_.RG.Res.Holds.and {α : Type} {P Q : α → Prop} {r : Res α} (h : r.Holds P) (h' : r.Holds Q) :
    r.Holds fun a => P a ∧ Q a := by
  cases r with
  | ok a => exact ⟨h, h'⟩
  | starved => trivial
  | ub => exact h

theorem draw_nz {t : Tape} (h : NZ t) : (draw t).Holds fun r => r.1 ≠ 0 ∧ NZ r.2 := by
  cases t with
  | nil => trivial
  | cons u t =>
    simp only [draw]
    split_ifs
    · exact ⟨h u (by simp), fun v hv => h v (by simp [hv])⟩
    · trivial

theorem draw_all {t : Tape} (h : NZ t) : (draw t).Holds fun r => (0 < r.1 ∧ r.1 < 1) ∧ NZ r.2 := by
  refine ((draw_holds t).and (draw_nz h)).mono ?_
  rintro ⟨u, t'⟩ ⟨⟨h1, h2⟩, h3, h4⟩
  exact ⟨⟨lt_of_le_of_ne h1 (Ne.symm h3), h2⟩, h4⟩

theorem pick_nz {n : ℕ} {t : Tape} (h : NZ t) : (pick n t).Holds fun r => NZ r.2 := by
  unfold pick
  refine (draw_nz h).bind ?_
  rintro ⟨u, t'⟩ ⟨_, h⟩
  exact h

theorem pick_all {n : ℕ} (hn : 0 < n) {t : Tape} (h : NZ t) :
    (pick n t).Holds fun r => r.1 < n ∧ NZ r.2 := (pick_holds hn t).and (pick_nz h)

theorem redraw_nz {f : ℚ → ℕ} {bad : ℕ → Bool} {t : Tape} (h : NZ t) :
    (redraw f bad t).Holds fun r => NZ r.2 := by
  induction t with
  | nil => trivial
  | cons u t ih =>
    have h' : NZ t := fun v hv => h v (by simp [hv])
    unfold redraw
    split_ifs
    · exact ih h'
    · exact h'
    · trivial

/-- As `redraw_holds`, for draws other than 0. -/
theorem redraw_all {f : ℚ → ℕ} {bad : ℕ → Bool} {P : ℕ → Prop}
    (hf : ∀ u, 0 < u → u < 1 → P (f u)) {t : Tape} (h : NZ t) :
    (redraw f bad t).Holds fun r => (P r.1 ∧ bad r.1 = false) ∧ NZ r.2 := by
  refine Res.Holds.and ?_ (redraw_nz h)
  induction t with
  | nil => trivial
  | cons u t ih =>
    have h' : NZ t := fun v hv => h v (by simp [hv])
    unfold redraw
    split_ifs with h1 h2
    · exact ih h'
    · exact ⟨hf u (lt_of_le_of_ne h1.1 (Ne.symm (h u (by simp)))) h1.2, by simpa using h2⟩
    · trivial

theorem metropolis_nz {acc : ℚ → ℚ → ℚ → Bool} {dE T : ℚ} {t : Tape} (h : NZ t) :
    (NC.metropolis acc dE T t).Holds fun r => NZ r.2 := by
  unfold NC.metropolis
  split_ifs
  · exact h
  · refine (draw_nz h).bind ?_
    rintro ⟨u, t'⟩ ⟨_, h⟩
    exact h

theorem iter_holds {σ : Type} {f : σ → Res σ} {P : σ → Prop} (h : ∀ s, P s → (f s).Holds P) :
    ∀ (k : ℕ) (s : σ), P s → (iter f k s).Holds P
  | 0, _, hs => hs
  | k + 1, s, hs => by
    unfold iter
    exact (h s hs).bind fun s' hs' => iter_holds h k s' hs'

/-! ## The network of a group -/

theorem find_iff {l : List (ℕ × ℚ)} (hn : (l.map (·.1)).Nodup) (j : ℕ) (w : ℚ) :
    (l.find? fun x => x.1 = j).map (·.2) = some w ↔ (j, w) ∈ l := by
  induction l with
  | nil => simp
  | cons x l ih =>
    obtain ⟨k, v⟩ := x
    simp only [List.map_cons, List.nodup_cons] at hn
    by_cases e : k = j
    · subst e
      rw [List.find?_cons_of_pos (by simp)]
      simp only [Option.map_some, Option.some.injEq, List.mem_cons, Prod.mk.injEq, true_and]
      constructor
      · intro h; exact Or.inl h.symm
      · rintro (h | h)
        · exact h.symm
        · exact absurd (List.mem_map.2 ⟨_, h, rfl⟩) hn.1
    · rw [List.find?_cons_of_neg (by simpa using e), ih hn.2]
      have : ¬ j = k := fun e' => e e'.symm
      simp [this]

theorem link_iff {net : Net} (h : ∀ i, ((net.neig i).map (·.1)).Nodup) (i j : ℕ) (w : ℚ) :
    net.link i j = some w ↔ (j, w) ∈ net.neig i := find_iff (h i) j w

theorem sub_mem {net : Net} {ns : List ℕ} (hnd : ns.Nodup) (i j : ℕ) (w : ℚ) :
    (j, w) ∈ (BuildNetFromGroup net ns).neig i ↔
      ∃ a b, ns[i]? = some a ∧ ns[j]? = some b ∧ (b, w) ∈ net.neig a := by
  unfold BuildNetFromGroup
  dsimp only
  cases hi : ns[i]? with
  | none => simp
  | some a =>
    simp only [List.mem_filterMap]
    constructor
    · rintro ⟨⟨b, w'⟩, hm, he⟩
      split_ifs at he with hb
      simp only [Option.some.injEq, Prod.mk.injEq] at he
      obtain ⟨rfl, rfl⟩ := he
      refine ⟨a, b, rfl, ?_, hm⟩
      rw [List.getElem?_eq_getElem (List.idxOf_lt_length_iff.2 hb)]
      simp
    · rintro ⟨a', b, ha, hb, hm⟩
      cases ha
      refine ⟨(b, w), hm, ?_⟩
      have hbm : b ∈ ns := List.mem_of_getElem? hb
      rw [if_pos hbm]
      obtain ⟨hj, e⟩ := List.getElem?_eq_some_iff.1 hb
      have : ns.idxOf b = j := by
        rw [← e]; exact hnd.idxOf_getElem j hj
      simp [this]

theorem sub_simple {net : Net} (h : net.Simple) {ns : List ℕ} (hnd : ns.Nodup) :
    (BuildNetFromGroup net ns).Simple := by
  have hn : ∀ i, (((BuildNetFromGroup net ns).neig i).map (·.1)).Nodup := by
    intro i
    unfold BuildNetFromGroup
    dsimp only
    cases hi : ns[i]? with
    | none => simp
    | some a =>
      dsimp only
      rw [List.map_filterMap]
      have hr := h.nodup a
      have : ∀ l : List (ℕ × ℚ), (l.map (·.1)).Nodup → (l.filterMap fun x =>
          Option.map (fun x => x.1) (if x.1 ∈ ns then some (ns.idxOf x.1, x.2) else none)).Nodup := by
        intro l
        induction l with
        | nil => simp
        | cons x l ih =>
          intro hl
          simp only [List.map_cons, List.nodup_cons] at hl
          by_cases hx : x.1 ∈ ns
          · rw [List.filterMap_cons_some (b := ns.idxOf x.1) (by simp [hx])]
            rw [List.nodup_cons]
            refine ⟨?_, ih hl.2⟩
            intro hm
            rw [List.mem_filterMap] at hm
            obtain ⟨y, hy, e⟩ := hm
            split_ifs at e with hyn
            · simp only [Option.map_some, Option.some.injEq] at e
              have : y.1 = x.1 := (List.idxOf_inj hyn).1 e
              exact hl.1 (List.mem_map.2 ⟨y, hy, this⟩)
            · simp at e
          · rw [List.filterMap_cons_none (by simp [hx])]
            exact ih hl.2
      exact this _ hr
  constructor
  · exact hn
  · rintro i ⟨j, w⟩ hx
    obtain ⟨a, b, _, hb, _⟩ := (sub_mem hnd i j w).1 hx
    exact (List.getElem?_eq_some_iff.1 hb).1
  · intro i j
    apply Option.ext
    intro w
    rw [link_iff hn, link_iff hn, sub_mem hnd, sub_mem hnd]
    constructor
    · rintro ⟨a, b, ha, hb, hm⟩
      refine ⟨b, a, hb, ha, ?_⟩
      rw [← link_iff h.nodup, h.sym, link_iff h.nodup]
      exact hm
    · rintro ⟨a, b, ha, hb, hm⟩
      refine ⟨b, a, hb, ha, ?_⟩
      rw [← link_iff h.nodup, h.sym, link_iff h.nodup]
      exact hm
  · intro i
    cases hl : (BuildNetFromGroup net ns).link i i with
    | none => rfl
    | some w =>
      obtain ⟨a, b, ha, hb, hm⟩ := (sub_mem hnd i i w).1 ((link_iff hn i i w).1 hl)
      rw [ha] at hb
      cases hb
      rw [← link_iff h.nodup, h.irrefl] at hm
      cases hm

/-! ## Merging clusters -/

theorem set_erase_perm {gs : List (List ℕ)} {i j : ℕ} {a b : List ℕ} (hi : gs[i]? = some a)
    (hj : gs[j]? = some b) (hij : i ≠ j) :
    ((gs.set j (b ++ a)).eraseIdx i).flatten.Perm gs.flatten := by
  have h1 : ∀ (l : List (List ℕ)) (k : ℕ) (x : List ℕ), l[k]? = some x →
      (x ++ (l.eraseIdx k).flatten).Perm l.flatten := by
    intro l
    induction l with
    | nil => intro k x h; simp at h
    | cons y l ih =>
      intro k x h
      cases k with
      | zero => simp at h; subst h; simp
      | succ k =>
        simp only [List.getElem?_cons_succ] at h
        simp only [List.eraseIdx_cons_succ, List.flatten_cons]
        have := ih k x h
        calc (x ++ (y ++ (l.eraseIdx k).flatten)).Perm (y ++ (x ++ (l.eraseIdx k).flatten)) := by
              rw [← List.append_assoc, ← List.append_assoc]
              exact List.Perm.append_right _ List.perm_append_comm
          _ |>.Perm (y ++ l.flatten) := List.Perm.append_left _ this
  have h2 : ∀ (l : List (List ℕ)) (k : ℕ) (x z : List ℕ), l[k]? = some x →
      ((l.set k (x ++ z)).flatten).Perm (l.flatten ++ z) := by
    intro l
    induction l with
    | nil => intro k x z h; simp at h
    | cons y l ih =>
      intro k x z h
      cases k with
      | zero =>
        simp at h; subst h
        simp only [List.set_cons_zero, List.flatten_cons, List.append_assoc]
        exact List.Perm.append_left _ List.perm_append_comm
      | succ k =>
        simp only [List.getElem?_cons_succ] at h
        simp only [List.set_cons_succ, List.flatten_cons, List.append_assoc]
        exact List.Perm.append_left _ (ih k x z h)
  have hi' : (gs.set j (b ++ a))[i]? = some a := by
    rw [List.getElem?_set_ne (fun e => hij e.symm)]; exact hi
  have p1 := h1 _ _ _ hi'
  have p2 := h2 gs j b a hj
  have p3 : (a ++ ((gs.set j (b ++ a)).eraseIdx i).flatten).Perm (a ++ gs.flatten) :=
    p1.trans (p2.trans List.perm_append_comm)
  exact (List.perm_append_left_iff a).1 p3

theorem mergeClusters_holds : ∀ (fuel : ℕ) (gs : List (List ℕ)) (t : Tape), NZ t → 2 ≤ gs.length →
    gs.length ≤ fuel + 1 →
    (mergeClusters fuel gs t).Holds fun r => r.1.flatten.Perm gs.flatten ∧ r.1.length = 2 ∧ NZ r.2
  | 0, gs, t, _, h2, hf => by omega
  | fuel + 1, gs, t, hz, h2, hf => by
    unfold mergeClusters
    by_cases hl : gs.length ≤ 2
    · rw [if_pos hl]
      exact ⟨List.Perm.refl _, (show gs.length = 2 by omega), hz⟩
    rw [if_neg hl]
    have hpos : (0 : ℚ) < gs.length := by exact_mod_cast (by omega : 0 < gs.length)
    have hceil : ∀ u : ℚ, 0 < u → u < 1 → 0 < ⌈u * gs.length⌉₊ ∧ ⌈u * gs.length⌉₊ ≤ gs.length := by
      intro u h0 h1
      refine ⟨Nat.ceil_pos.2 (by positivity), Nat.ceil_le.2 (by nlinarith)⟩
    refine (draw_all hz).bind ?_
    rintro ⟨u, t1⟩ ⟨⟨hu0, hu1⟩, hz1⟩
    obtain ⟨a1, a2⟩ := hceil u hu0 hu1
    dsimp only
    refine (redraw_all (P := fun x => 0 < x ∧ x ≤ gs.length) hceil hz1).bind ?_
    rintro ⟨g2, t2⟩ ⟨⟨⟨b1, b2⟩, hb⟩, hz2⟩
    dsimp only at *
    generalize hg1 : ⌈u * (gs.length : ℚ)⌉₊ = g1 at *
    have hne : g2 ≠ g1 := by simpa using hb
    rw [if_neg (by omega)]
    have e1 : gs[g1 - 1]? = some (gs[g1 - 1]'(by omega)) := List.getElem?_eq_getElem (by omega)
    have e2 : gs[g2 - 1]? = some (gs[g2 - 1]'(by omega)) := List.getElem?_eq_getElem (by omega)
    rw [e1, e2]
    dsimp only
    have hlen : ((gs.set (g2 - 1) (gs[g2 - 1]'(by omega) ++ gs[g1 - 1]'(by omega))).eraseIdx (g1 - 1)).length
        = gs.length - 1 := by
      rw [List.length_eraseIdx_of_lt (by rw [List.length_set]; omega), List.length_set]
    refine (mergeClusters_holds fuel _ t2 hz2 (by rw [hlen]; omega) (by rw [hlen]; omega)).mono ?_
    rintro ⟨gs', t'⟩ ⟨h1, h2, h3⟩
    exact ⟨h1.trans (set_erase_perm e1 e2 (by omega)), h2, h3⟩

/-! ## The two groups of the annealing -/

theorem splitInit_holds {sub : Net} (h : sub.Simple) : ∀ (vs : List ℕ) (p : Part) (t : Tape), NZ t →
    PartOK sub 2 p → vs.Nodup → (∀ v ∈ vs, v < sub.n ∧ p.inGroup v = none) →
    (∀ v < sub.n, v ∉ vs → p.inGroup v ≠ none) →
    (splitInit sub vs p t).Holds fun r => PartOK sub 2 r.1 ∧ Full sub r.1 ∧ NZ r.2
  | [], p, t, hz, hp, _, _, hf => ⟨hp, fun v hv => hf v hv (by simp), hz⟩
  | v :: vs, p, t, hz, hp, hnd, hv, hf => by
    unfold splitInit
    refine (pick_all (by omega) hz).bind ?_
    rintro ⟨des, t'⟩ ⟨hd, hz'⟩
    dsimp only at *
    rw [List.nodup_cons] at hnd
    obtain ⟨hvn, hvf⟩ := hv v (by simp)
    apply splitInit_holds h vs _ _ hz' (add_ok h hp hvn hd hvf) hnd.2
    · intro u hu
      refine ⟨(hv u (by simp [hu])).1, ?_⟩
      have : u ≠ v := fun e => hnd.1 (e ▸ hu)
      simp only [AddNodeToGroup, Function.update_of_ne this]
      exact (hv u (by simp [hu])).2
    · intro u hu hu'
      simp only [AddNodeToGroup]
      by_cases e : u = v
      · subst e; simp
      · rw [Function.update_of_ne e]; exact hf u hu (by simp [e, hu'])

theorem splitMove_holds {acc : ℚ → ℚ → ℚ → Bool} {sub : Net} (h : sub.Simple) (hn : 0 < sub.n) {L T : ℚ}
    {s : Part × Tape} (hs : PartOK sub 2 s.1 ∧ Full sub s.1 ∧ NZ s.2) :
    (splitMove acc sub L T s).Holds fun r => PartOK sub 2 r.1 ∧ Full sub r.1 ∧ NZ r.2 := by
  obtain ⟨hp, hf, hz⟩ := hs
  unfold splitMove
  refine (pick_all hn hz).bind ?_
  rintro ⟨v, t1⟩ ⟨hv, hz1⟩
  dsimp only at *
  cases hg : s.1.inGroup v with
  | none => exact absurd hg (hf v hv)
  | some old =>
    dsimp only
    refine (metropolis_nz hz1).bind ?_
    rintro ⟨a, t2⟩ hz2
    dsimp only at *
    obtain ⟨_, h2, h3⟩ := move_ok h hp (v := v) (g1 := old) (g2 := if old = 0 then 1 else 0)
      (by split_ifs <;> omega) hg
    cases a with
    | false => exact ⟨hp, hf, hz2⟩
    | true => exact ⟨h2, full_update hf h3, hz2⟩

theorem splitAnneal_holds {acc : ℚ → ℚ → ℚ → Bool} {sub : Net} (h : sub.Simple) (hn : 0 < sub.n)
    {L Tf Ts : ℚ} : ∀ (fuel : ℕ) (T : ℚ) (s : Part × Tape), PartOK sub 2 s.1 ∧ Full sub s.1 ∧ NZ s.2 →
    (splitAnneal acc sub L Tf Ts fuel T s).Holds fun r => PartOK sub 2 r.1 ∧ Full sub r.1 ∧ NZ r.2
  | 0, _, _, _ => trivial
  | fuel + 1, T, s, hs => by
    unfold splitAnneal
    split_ifs
    · refine (iter_holds (P := fun r => PartOK sub 2 r.1 ∧ Full sub r.1 ∧ NZ r.2)
        (fun s hs => splitMove_holds h hn hs) _ s hs).bind ?_
      intro s' hs'
      exact splitAnneal_holds h hn fuel _ s' hs'
    · exact hs

theorem two_groups {sub : Net} {p : Part} (hp : PartOK sub 2 p) (hf : Full sub p) :
    ((p.grp 0).nodes ++ (p.grp 1).nodes).Perm (List.range sub.n) := by
  have hl := hp.lists
  have hm : ∀ g < 2, ∀ v, v ∈ (p.grp g).nodes ↔ v < sub.n ∧ p.inGroup v = some g := by
    intro g hg v
    rw [← List.mem_toFinset, (hp.groups g hg).mem, mem_members]
  rw [List.perm_ext_iff_of_nodup]
  · intro v
    rw [List.mem_append, hm 0 (by omega), hm 1 (by omega), List.mem_range]
    constructor
    · rintro (h | h) <;> exact h.1
    · intro h
      obtain ⟨g, hg⟩ := Option.ne_none_iff_exists'.1 (hf v h)
      have := (hp.range v g hg).2
      rcases (by omega : g = 0 ∨ g = 1) with rfl | rfl
      · exact Or.inl ⟨h, hg⟩
      · exact Or.inr ⟨h, hg⟩
  · rw [List.nodup_append]
    refine ⟨hl.nodup 0 (by omega), hl.nodup 1 (by omega), ?_⟩
    intro a ha b hb e
    subst e
    exact hl.disj 0 (by omega) 1 (by omega) (by omega) a ha hb
  · exact List.nodup_range

theorem back_range (ns : List ℕ) : (List.range ns.length).filterMap (fun i => ns[i]?) = ns := by
  induction ns using List.reverseRecOn with
  | nil => rfl
  | append_singleton l a ih =>
    rw [List.length_append, List.length_singleton, List.range_succ, List.filterMap_append]
    congr 1
    · refine Eq.trans (List.filterMap_congr ?_) ih
      intro i hi
      have := List.mem_range.1 hi
      rw [List.getElem?_append_left this]
    · simp

/-- **C47**: for every simple network, non-empty group, temperatures, decision function and stream of
random numbers without 0: if `SAGroupSplit` returns, it returns exactly two groups, and together they
hold each node of the group once. It has no undefined behaviour. -/
theorem C47_split {net : Net} (h : net.Simple) {ns : List ℕ} (hnd : ns.Nodup) (hne : ns ≠ [])
    (acc : ℚ → ℚ → ℚ → Bool) (fuel : ℕ) (Ti Tf Ts : ℚ) {t : Tape} (hz : NZ t) :
    (SAGroupSplit acc fuel net ns Ti Tf Ts t).Holds fun r =>
      r.1.length = 2 ∧ r.1.flatten.Perm ns ∧ NZ r.2 := by
  have hs := sub_simple h hnd
  unfold SAGroupSplit
  dsimp only
  generalize hsub : BuildNetFromGroup net ns = sub at hs
  have hsn : sub.n = ns.length := by rw [← hsub]; rfl
  have hpos : 0 < sub.n := by rw [hsn]; exact List.length_pos_of_ne_nil hne
  have hir : BFS.InRange (fun i => (sub.neig i).map (·.1)) sub.n := by
    intro i _ j hj
    obtain ⟨x, hx, rfl⟩ := List.mem_map.1 hj
    exact hs.range i x hx
  have hsy : BFS.Sym (fun i => (sub.neig i).map (·.1)) := by
    intro i j hj
    obtain ⟨⟨j, w⟩, hx, rfl⟩ := List.mem_map.1 hj
    refine List.mem_map.2 ⟨(i, w), ?_, rfl⟩
    rw [← link_iff hs.nodup, hs.sym, link_iff hs.nodup]
    exact hx
  obtain ⟨c, hc, _, hcount, _⟩ := BFS.C28_components hpos hir hsy
  rw [hc]
  simp only [Res.ofOption_some, Res.bind_ok]
  have hperm : c.groups.flatten.Perm (List.range sub.n) := by
    rw [List.perm_iff_count]
    intro v
    rw [hcount v, List.count_range]
  have hback : ∀ l : List ℕ, l.Perm (List.range sub.n) → (l.filterMap fun i => ns[i]?).Perm ns := by
    intro l hl
    have := hl.filterMap (fun i => ns[i]?)
    rw [hsn, back_range] at this
    exact this
  refine Res.Holds.bind (P := fun (r : Bool × Tape) => NZ r.2 ∧ (r.1 = true → 1 < c.groups.length)) ?_ ?_
  · unfold useClusters
    split_ifs with h1
    · refine (draw_nz hz).bind ?_
      rintro ⟨u, t'⟩ ⟨_, hz'⟩
      exact ⟨hz', fun _ => h1⟩
    · exact ⟨hz, fun hh => absurd hh (by simp)⟩
  · rintro ⟨b, t1⟩ ⟨hz1, hb⟩
    dsimp only at *
    cases b with
    | true =>
      rw [if_pos rfl]
      refine (mergeClusters_holds _ c.groups t1 hz1 (hb rfl) (by omega)).bind ?_
      rintro ⟨gs, t2⟩ ⟨h1, h2, h3⟩
      refine ⟨by simpa using h2, ?_, h3⟩
      dsimp only
      rw [show (gs.map fun l => l.filterMap fun i => ns[i]?).flatten = gs.flatten.filterMap fun i => ns[i]? by
        rw [List.filterMap_flatten]]
      exact hback _ (h1.trans hperm)
    | false =>
      rw [if_neg (by simp)]
      refine Res.Holds.bind (P := fun s : Part × Tape => PartOK sub 2 s.1 ∧ Full sub s.1 ∧ NZ s.2) ?_ ?_
      · unfold splitByAnnealing
        refine (splitInit_holds hs (List.range sub.n) Part.empty t1 hz1 (empty_ok _ _) List.nodup_range
          (fun v hv => ⟨List.mem_range.1 hv, rfl⟩)
          (fun v hv hv' => absurd (List.mem_range.2 hv) hv')).bind ?_
        intro s1 hs1
        dsimp only
        split_ifs
        · exact splitAnneal_holds hs hpos _ _ _ hs1
        · exact hs1
      · rintro s ⟨h1, h2, h3⟩
        refine ⟨rfl, ?_, h3⟩
        have := hback _ (two_groups h1 h2)
        rw [List.filterMap_append] at this
        simpa using this

/-- **C47, refutation**: three isolated nodes; the draws 0 (follow the clusters), 0 (first cluster to
merge, taken to be the header of the partition) and 1/2 lead to a NULL dereference. -/
theorem C47_zero_draw : (SAGroupSplit (fun _ _ _ => true) 10 { n := 3, neig := fun _ => [] } [0, 1, 2]
    1 1 1 [0, 0, 1/2]).Holds (fun _ => True) = False := by
  have : (match SAGroupSplit (fun _ _ _ => true) 10 { n := 3, neig := fun _ => [] } [0, 1, 2]
    1 1 1 [0, 0, 1/2] with | .ub => true | _ => false) = true := by decide +kernel
  revert this
  generalize SAGroupSplit (fun _ _ _ => true) 10 { n := 3, neig := fun _ => [] } [0, 1, 2]
    1 1 1 [0, 0, 1/2] = r
  intro h
  cases r with
  | ok a => simp at h
  | starved => simp at h
  | ub => rfl

/-- The group {3, 0, 1} of the example network: node 3 has no link to the others, so there are two
clusters; both ways of splitting. -/
example : (match SAGroupSplit (fun _ _ _ => true) 10 tailed [3, 0, 1] 1 (9/10) (1/2) [1/4] with
      | .ok r => decide (r.1 = [[3], [0, 1]]) | _ => false) = true ∧
    (match SAGroupSplit (fun _ _ _ => true) 10 tailed [3, 0, 1] 1 (9/10) (1/2)
        [3/4, 1/4, 1/4, 3/4, 1/10, 1/2, 3/4, 1/2, 1/2, 1/2] with
      | .ok r => decide (r.1.flatten.length = 3) | _ => false) = true := by
  constructor <;> decide +kernel

/-- **C47, refutation**: the annealing inside `SAGroupSplit` halves `totallinks` (src/modules.c:2197)
before using it in the formula of the energy, so that it does not follow the modularity. With all
nodes of the example network in group 0, splitting off node 2 is scored `+3/8`, while the modularity
goes down by 9/32. -/
theorem C47_energy_is_not_modularity :
    let p := (List.range 4).foldl (fun p v => AddNodeToGroup tailed 0 v p) Part.empty
    dEMove tailed p (8 / 2) 2 0 1 = 3 / 8 ∧ Modularity 2 p = some 0 ∧
      Modularity 2 (MoveNode tailed 2 0 1 p).2 = some (-9 / 32) := by
  refine ⟨by decide +kernel, by decide +kernel, by decide +kernel⟩

end GP
