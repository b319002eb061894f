import Verif.BFS.Clusters

/-!
# C22: the largest weakly connected set
-/

set_option linter.unusedSimpArgs false

namespace BFS

variable {adj : ℕ → List ℕ}

/-- What the list keeps when it has several starts: no distances. -/
structure WInv (adj : ℕ → List ℕ) (d : ℕ) (A B C : List Entry) (state : ℕ → Bool) (done : List ℕ) :
    Prop where
  nodup : (nodes (A ++ B ++ C)).Nodup
  st : ∀ v, state v = true ↔ v ∈ nodes (A ++ B ++ C)
  db : ∀ e ∈ B, e.d = d
  dc : ∀ e ∈ C, e.d = d + 1
  closed : ∀ e ∈ A, ∀ v ∈ adj e.node, v ∈ nodes (A ++ B ++ C)
  closed' : ∀ v ∈ done, v ∈ nodes (A ++ B ++ C)

theorem enqueue_winv {d : ℕ} {A B C : List Entry} {q : Q} {eu : Entry} {done : List ℕ} {v : ℕ}
    (hl : q.list = A ++ (eu :: B) ++ C) (h : WInv adj d A (eu :: B) C q.state done) :
    ∃ C', (Enqueue v (some eu.node) A.length (d + 1) q).list = A ++ (eu :: B) ++ C' ∧
      WInv adj d A (eu :: B) C' (Enqueue v (some eu.node) A.length (d + 1) q).state (done ++ [v]) ∧
      (nodes C).length ≤ (nodes C').length := by
  unfold Enqueue
  by_cases hst : q.state v = false
  · rw [if_pos hst]
    have hnew : v ∉ nodes (A ++ eu :: B ++ C) := by
      intro hm
      rw [(h.st v).2 hm] at hst
      simp at hst
    refine ⟨C ++ [{ node := v, d := d + 1, pred := [some eu.node] }], by simp [hl], ?_, by simp [nodes]⟩
    have hnodes : nodes (A ++ eu :: B ++ (C ++ [{ node := v, d := d + 1, pred := [some eu.node] }]))
        = nodes (A ++ eu :: B ++ C) ++ [v] := by simp [nodes]
    constructor
    · rw [hnodes, List.nodup_append]
      exact ⟨h.nodup, by simp, by intro a ha b hb; simp at hb; rintro rfl; exact hnew (hb ▸ ha)⟩
    · intro w
      rw [hnodes]
      by_cases hw : w = v
      · subst hw; simp
      · simp only [Function.update_of_ne hw, h.st w, List.mem_append, List.mem_singleton, hw, or_false]
    · exact h.db
    · intro e he
      rcases List.mem_append.1 he with he | he
      · exact h.dc e he
      · simp at he; subst he; rfl
    · intro e he w hw
      rw [hnodes]; exact List.mem_append_left _ (h.closed e he w hw)
    · intro w hw
      rw [hnodes]
      rcases List.mem_append.1 hw with hw | hw
      · exact List.mem_append_left _ (h.closed' w hw)
      · simp at hw; simp [hw]
  · rw [if_neg hst]
    have hin : v ∈ nodes (A ++ eu :: B ++ C) := (h.st v).1 (by simpa using hst)
    have htake : q.list.take A.length = A := by rw [hl, List.append_assoc]; simp
    have hdrop : q.list.drop A.length = (eu :: B) ++ C := by rw [hl, List.append_assoc]; simp
    have hndr : (nodes ((eu :: B) ++ C)).Nodup := by
      have := h.nodup
      rw [List.append_assoc] at this
      simp only [nodes, List.map_append] at this ⊢
      exact (List.nodup_append.1 this).2.1
    have hBid : (eu :: B).map (upd v (some eu.node) (d + 1)) = eu :: B :=
      map_upd_id fun e he => by rw [h.db e he]; omega
    refine ⟨C.map (upd v (some eu.node) (d + 1)), ?_, ?_, by simp [nodes]⟩
    · simp only [htake, hdrop]
      rw [addPred_eq hndr, List.map_append, hBid, List.append_assoc]
    have hnodes : nodes (A ++ eu :: B ++ C.map (upd v (some eu.node) (d + 1)))
        = nodes (A ++ eu :: B ++ C) := by
      have := nodes_map_upd v (some eu.node) (d + 1) C
      simp only [nodes, List.map_append] at this ⊢
      rw [this]
    constructor
    · rw [hnodes]; exact h.nodup
    · rw [hnodes]; exact h.st
    · exact h.db
    · intro e he
      obtain ⟨x, hx, rfl⟩ := List.mem_map.1 he
      rw [upd_d]; exact h.dc x hx
    · rw [hnodes]; exact h.closed
    · rw [hnodes]
      intro w hw
      rcases List.mem_append.1 hw with hw | hw
      · exact h.closed' w hw
      · simp at hw; rw [hw]; exact hin

theorem enqueueAll_winv {d : ℕ} {A B : List Entry} {eu : Entry} :
    ∀ (vs done : List ℕ) (C : List Entry) (q : Q), q.list = A ++ (eu :: B) ++ C →
      WInv adj d A (eu :: B) C q.state done →
      ∃ C', (vs.foldl (fun q v => Enqueue v (some eu.node) A.length (d + 1) q) q).list
          = A ++ (eu :: B) ++ C' ∧
        WInv adj d A (eu :: B) C'
          (vs.foldl (fun q v => Enqueue v (some eu.node) A.length (d + 1) q) q).state (done ++ vs)
  | [], done, C, q, hl, h => ⟨C, hl, by simpa using h⟩
  | v :: vs, done, C, q, hl, h => by
    obtain ⟨C1, h1, h2, _⟩ := enqueue_winv (v := v) hl h
    obtain ⟨C2, h4, h5⟩ := enqueueAll_winv vs (done ++ [v]) C1 _ h1 h2
    exact ⟨C2, h4, by simpa using h5⟩

theorem WInv.finish {d : ℕ} {A B C : List Entry} {eu : Entry} {state : ℕ → Bool}
    (h : WInv adj d A (eu :: B) C state (adj eu.node)) : WInv adj d (A ++ [eu]) B C state [] := by
  have hl : A ++ [eu] ++ B ++ C = A ++ eu :: B ++ C := by simp
  refine ⟨by rw [hl]; exact h.nodup, by rw [hl]; exact h.st, fun e he => h.db e (by simp [he]), h.dc,
    ?_, by simp⟩
  rw [hl]
  intro e he v hv
  rcases List.mem_append.1 he with he | he
  · exact h.closed e he v hv
  · simp at he; subst he; exact h.closed' v hv

theorem renew_winv {d : ℕ} : ∀ (fuel : ℕ) (A B C : List Entry) (q q' : Q) (lp : ℕ),
    q.list = A ++ B ++ C → WInv adj d A B C q.state [] →
    RenewQueue adj d fuel A.length q = some (lp, q') →
    lp = A.length + B.length ∧ ∃ C', q'.list = A ++ B ++ C' ∧ WInv adj d (A ++ B) [] C' q'.state []
  | 0, _, _, _, _, _, _, _, _, hr => by simp [RenewQueue] at hr
  | fuel + 1, A, [], C, q, q', lp, hl, h, hr => by
    unfold RenewQueue at hr
    have : some (A.length, q) = some (lp, q') := by
      cases C with
      | nil =>
        have : q.list[A.length]? = none := by rw [hl]; simp
        simpa [this] using hr
      | cons c C =>
        have : q.list[A.length]? = some c := by rw [hl]; simp
        have hc : ¬ c.d = d := by have := h.dc c (by simp); omega
        simpa [this, hc] using hr
    simp only [Option.some.injEq, Prod.mk.injEq] at this
    obtain ⟨rfl, rfl⟩ := this
    exact ⟨by simp, C, hl, by simpa using h⟩
  | fuel + 1, A, eu :: B, C, q, q', lp, hl, h, hr => by
    have hget : q.list[A.length]? = some eu := by rw [hl]; simp
    obtain ⟨C1, h1, h2⟩ := enqueueAll_winv (adj eu.node) [] C q hl h
    unfold RenewQueue at hr
    simp only [hget, h.db eu (by simp), if_true] at hr
    have hlen : A.length + 1 = (A ++ [eu]).length := by simp
    rw [hlen] at hr
    obtain ⟨h3, C', h4, h5⟩ := renew_winv fuel (A ++ [eu]) B C1 _ q' lp
      (by simpa [EnqueueAdjaList] using h1) (WInv.finish (by simpa [EnqueueAdjaList] using h2)) hr
    exact ⟨by simp at h3; simp; omega, C', by simpa using h4, by simpa using h5⟩

/-- The list is closed under the links. -/
structure Closed (adj : ℕ → List ℕ) (q : Q) : Prop where
  nodup : (nodes q.list).Nodup
  st : ∀ v, q.state v = true ↔ v ∈ nodes q.list
  closed : ∀ u ∈ nodes q.list, ∀ v ∈ adj u, v ∈ nodes q.list

theorem expand_closed {n : ℕ} : ∀ (fuel d : ℕ) (A B : List Entry) (q : Q) (D : Done),
    q.list = A ++ B → WInv adj d A B [] q.state [] → expand adj n fuel d A.length q = some D →
    Closed adj D.q ∧ D.lp = D.q.list.length ∧
      nodes D.q.list = nodes q.list ++ (D.rounds.map Round.after).flatten
  | 0, _, _, _, _, _, _, _, hr => by simp [expand] at hr
  | fuel + 1, d, A, B, q, D, hl, h, hr => by
    unfold expand at hr
    cases hren : RenewQueue adj d (n + 1) A.length q with
    | none => rw [hren] at hr; simp at hr
    | some x =>
      obtain ⟨lp, q'⟩ := x
      obtain ⟨hlp, C', hl', hi'⟩ := renew_winv (n + 1) A B [] q q' lp (by simpa using hl) h hren
      have hlp' : lp = (A ++ B).length := by simpa using hlp
      have hdrop : q'.list.drop (A ++ B).length = C' := by rw [hl']; simp
      rw [hren] at hr
      simp only [Option.bind_eq_bind, Option.bind_some, hlp', hdrop] at hr
      by_cases hC : C' = []
      · subst hC
        have : q'.list.length = q.list.length := by rw [hl', hl]; simp
        rw [if_neg (by simpa using this)] at hr
        have hL : q'.list = A ++ B := by rw [hl']; simp
        simp only [pure, Option.some.injEq] at hr
        subst hr
        refine ⟨⟨?_, ?_, ?_⟩, ?_, ?_⟩
        · simp only [hL]; simpa using hi'.nodup
        · simp only [hL]; simpa using hi'.st
        · simp only [hL]
          intro u hu v hv
          obtain ⟨e, he, rfl⟩ := List.mem_map.1 hu
          simpa using hi'.closed e he v hv
        · simp [hL]
        · simp [hL, hl]
      · have hpos : 0 < C'.length := List.length_pos_iff.2 hC
        have : ¬ q'.list.length = q.list.length := by rw [hl', hl]; simp; omega
        rw [if_pos this] at hr
        cases hrec : expand adj n fuel (d + 1) (A ++ B).length q' with
        | none => rw [hrec] at hr; simp at hr
        | some D' =>
          rw [hrec] at hr
          simp only [Option.bind_some, pure, Option.some.injEq] at hr
          subst hr
          have hnx : WInv adj (d + 1) (A ++ B) C' [] q'.state [] := by
            have e1 : A ++ B ++ C' ++ [] = A ++ B ++ [] ++ C' := by simp
            exact ⟨by rw [e1]; exact hi'.nodup, by rw [e1]; exact hi'.st, hi'.dc, by simp,
              by rw [e1]; exact hi'.closed, by simp⟩
          obtain ⟨h1, h2, h3⟩ := expand_closed fuel (d + 1) (A ++ B) C' q' D' hl' hnx hrec
          refine ⟨h1, h2, ?_⟩
          simp only [h3, hl', hl, List.map_cons, List.flatten_cons]
          simp [nodes]

/-- State of one turn: `root_loc` holds the nodes of the list, and these are closed. -/
structure KInv (adj : ℕ → List ℕ) (w : WK) : Prop where
  cl : Closed adj w.q
  lp : w.lp = w.q.list.length
  loc : w.loc = nodes w.q.list
  sel : ∀ v ∈ w.loc, w.selected v = true

theorem grow_inv {n : ℕ} {w w' : WK} {p : ℕ} {q0 : Q} (hq0 : Closed adj q0)
    (hp : q0.state p = false) (hq : w.q = Enqueue p none 0 w.d q0) (hlp : w.lp = q0.list.length)
    (hloc : w.loc = nodes q0.list ++ [p]) (hsel : ∀ v ∈ w.loc, w.selected v = true)
    (hg : w.grow adj n = some w') : KInv adj w' := by
  have hq' : w.q = { list := q0.list ++ [⟨p, w.d, [none]⟩], state := Function.update q0.state p true } := by
    rw [hq]; simp [Enqueue, hp]
  have hpn : p ∉ nodes q0.list := by
    intro hm; rw [(hq0.st p).2 hm] at hp; simp at hp
  unfold WK.grow at hg
  cases he : expand adj n (n + 1) w.d w.lp w.q with
  | none => rw [he] at hg; simp at hg
  | some D =>
    rw [he] at hg
    simp only [Option.bind_eq_bind, Option.bind_some, pure, Option.some.injEq] at hg
    rw [hlp] at he
    obtain ⟨h1, h2, h3⟩ := expand_closed (n + 1) w.d q0.list [⟨p, w.d, [none]⟩] w.q D
      (by rw [hq']) (by
        rw [hq']
        constructor
        · simp only [List.append_nil, nodes, List.map_append, List.map_cons, List.map_nil,
            List.nodup_append]
          exact ⟨hq0.nodup, by simp, by
            intro a ha b hb; simp at hb; rintro rfl; exact hpn (hb ▸ ha)⟩
        · intro v
          by_cases hv : v = p
          · subst hv; simp [nodes]
          · have := hq0.st v
            simp [nodes, hv] at this ⊢
            exact this
        · simp
        · simp
        · intro e he v hv
          have := hq0.closed e.node (List.mem_map_of_mem he) v hv
          simp only [List.append_nil, nodes, List.map_append, List.mem_append]
          exact Or.inl this
        · simp) he
    subst hg
    have hloc' : w.loc ++ (D.rounds.map Round.after).flatten = nodes D.q.list := by
      rw [h3, hloc, hq']; simp [nodes]
    refine ⟨h1, h2, hloc', ?_⟩
    intro v hv
    simp only [WK.add, List.mem_append] at hv ⊢
    rcases hv with hv | hv
    · simp [hsel v hv]
    · have : ((D.rounds.map Round.after).flatten).contains v = true := by
        rw [List.contains_iff_mem]; exact hv
      rw [this]; simp

theorem weakPass_inv {n : ℕ} : ∀ (ps : List ℕ) (w w' : WK), KInv adj w →
    weakPass adj n ps w = some w' → KInv adj w'
  | [], w, w', h, hr => by
    simp only [weakPass, Option.some.injEq] at hr; rw [← hr]; exact h
  | p :: ps, w, w', h, hr => by
    unfold weakPass at hr
    cases hc : AreConnectedList adj n p w.thisNet with
    | none => rw [hc] at hr; simp at hr
    | some c =>
      rw [hc] at hr
      simp only [Option.bind_eq_bind, Option.bind_some] at hr
      by_cases hcond : (c && !w.selected p) = true
      · rw [if_pos hcond] at hr
        have hns : w.selected p = false := by
          simp only [Bool.and_eq_true, Bool.not_eq_true'] at hcond; exact hcond.2
        have hst : w.q.state p = false := by
          by_contra hx
          have hx' : w.q.state p = true := by simpa using hx
          have := h.sel p (by rw [h.loc]; exact (h.cl.st p).1 hx')
          rw [hns] at this; simp at this
        cases hg : WK.grow adj n { w.add [p] with q := Enqueue p none 0 w.d w.q } with
        | none => rw [hg] at hr; simp at hr
        | some w1 =>
          rw [hg] at hr
          simp only [Option.bind_some] at hr
          refine weakPass_inv ps w1 w' (grow_inv (w := { w.add [p] with q := Enqueue p none 0 w.d w.q }) (p := p) (q0 := w.q) h.cl hst rfl h.lp ?_ ?_ hg) hr
          · simp [WK.add, h.loc]
          · intro v hv
            simp only [WK.add, List.mem_append, List.mem_singleton] at hv ⊢
            rcases hv with hv | hv
            · simp [h.sel v hv]
            · simp [hv]
      · rw [if_neg hcond] at hr
        exact weakPass_inv ps w w' h hr

/-- A set of nodes closed under outgoing links. -/
def ClosedSet (adj : ℕ → List ℕ) (S : List ℕ) : Prop := ∀ u ∈ S, ∀ v ∈ adj u, v ∈ S

theorem weakLoop_closed {n : ℕ} {thres : Int} : ∀ (fuel : ℕ) (sel : ℕ → Bool) (anod : ℕ)
    (best S : List ℕ), ClosedSet adj best → best.Nodup → weakLoop adj n thres fuel sel anod best = some S →
    ClosedSet adj S ∧ S.Nodup
  | 0, _, _, _, _, _, _, hr => by simp [weakLoop] at hr
  | fuel + 1, sel, anod, best, S, hb, hbn, hr => by
    unfold weakLoop at hr
    cases hp : firstUnselected sel n with
    | none => rw [hp] at hr; simp at hr
    | some p =>
      rw [hp] at hr
      simp only [Option.bind_eq_bind, Option.bind_some] at hr
      generalize hw0 : ({ q := Enqueue p none 0 0 Q.empty, lp := 0, d := 0, loc := [p]
                          selected := Function.update sel p true
                          thisNet := fun v => v == p, anod := anod + 1 } : WK) = w0 at hr
      cases hg : w0.grow adj n with
      | none => rw [hg] at hr; simp at hr
      | some w1 =>
        rw [hg] at hr
        simp only [Option.bind_some] at hr
        have hw1 : KInv adj w1 := by
          refine grow_inv (p := p) (q0 := Q.empty) ⟨by simp [Q.empty, nodes], by simp [Q.empty, nodes],
            by simp [Q.empty, nodes]⟩ (by simp [Q.empty]) ?_ ?_ ?_ ?_ hg
          · rw [← hw0]
          · rw [← hw0]; simp [Q.empty]
          · rw [← hw0]; simp [Q.empty, nodes]
          · rw [← hw0]; simp
        cases hpass : weakPass adj n ((List.range n).drop (p + 1)) w1 with
        | none => rw [hpass] at hr; simp at hr
        | some w =>
          rw [hpass] at hr
          simp only [Option.bind_some] at hr
          have hw := weakPass_inv _ w1 w hw1 hpass
          have hwc : ClosedSet adj w.loc ∧ w.loc.Nodup := by
            rw [hw.loc]; exact ⟨hw.cl.closed, hw.cl.nodup⟩
          have hb' : ClosedSet adj (if best.length < w.loc.length then w.loc else best) ∧
              (if best.length < w.loc.length then w.loc else best).Nodup := by
            split_ifs
            · exact hwc
            · exact ⟨hb, hbn⟩
          by_cases h1 : best.length < w.loc.length ∧ (n / 2 < w.loc.length ∨ thres < w.loc.length)
          · rw [if_pos h1] at hr
            simp only [pure, Option.some.injEq] at hr
            rw [← hr]; exact hb'
          · rw [if_neg h1] at hr
            by_cases h2 : w.anod < n
            · rw [if_pos h2] at hr
              exact weakLoop_closed fuel _ _ _ S hb'.1 hb'.2 hr
            · rw [if_neg h2] at hr
              simp only [pure, Option.some.injEq] at hr
              rw [← hr]; exact hb'

/-- **C22**, what holds: the set returned has no repeated node and no link leaves it; when links have
no direction no link enters it either. (Full statement: no link enters it in directed networks.
Refuted below.) -/
theorem C22_largest_set_partial {n : ℕ} {thres : Int} {S : List ℕ}
    (h : GetLargestWeaklyConnectedSet adj n thres = some S) :
    S.Nodup ∧ (∀ u ∈ S, ∀ v ∈ adj u, v ∈ S) ∧ (Sym adj → ∀ u, ∀ v ∈ adj u, v ∈ S → u ∈ S) := by
  obtain ⟨h1, h2⟩ := weakLoop_closed (n + 1) (fun _ => false) 0 [] S (by intro u hu; simp at hu)
    (by simp) h
  exact ⟨h2, h1, fun hs u v hv hvS => h1 v hvS u (hs u v hv)⟩

/-- Links `2 → 0`, `2 → 3`, `1 → 3`. -/
def weakWitness : ℕ → List ℕ
  | 1 => [3] | 2 => [0, 3] | _ => []

/-- **C22 is false**: the network is weakly connected (one component of 4 nodes) but the set
returned leaves out node 1, which links to node 3 inside it. -/
theorem C22_not_a_component : GetLargestWeaklyConnectedSet weakWitness 4 100 = some [0, 2, 3] ∧
    3 ∈ weakWitness 1 := by decide +kernel

/-- A ring with a branch and a separate link: the search passes over the smaller set. -/
def weakExample : ℕ → List ℕ
  | 0 => [4] | 4 => [0] | 1 => [2] | 2 => [1, 3] | 3 => [2] | _ => []

example : GetLargestWeaklyConnectedSet weakExample 5 100 = some [1, 2, 3] := by decide +kernel

example : ∀ u ∈ [1, 2, 3], ∀ v ∈ weakExample u, v ∈ [1, 2, 3] :=
  (C22_largest_set_partial (S := [1, 2, 3]) (n := 5) (thres := 100) (by decide +kernel)).2.1

end BFS
