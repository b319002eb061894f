import Verif.Graph.ThinModel
import Verif.Graph.RandomProps

set_option linter.unusedSimpArgs false

/-!
# Lemmas for `RemoveRandomLinks`
-/

namespace GR
open RG

/-- Elements of a list whose position, counted from `c`, is marked. -/
def kill {α : Type} (marks : List Bool) : List α → ℕ → List α
  | [], _ => []
  | x :: xs, c => if marks.getD c false then x :: kill marks xs (c + 1) else kill marks xs (c + 1)

theorem kill_append {α : Type} (marks : List Bool) (a b : List α) (c : ℕ) :
    kill marks (a ++ b) c = kill marks a c ++ kill marks b (c + a.length) := by
  induction a generalizing c with
  | nil => simp [kill]
  | cons x a ih =>
    simp only [List.cons_append, kill, ih, List.length_cons]
    split_ifs
    · rw [List.cons_append, Nat.add_right_comm, Nat.add_assoc]
    · rw [Nat.add_right_comm, Nat.add_assoc]

theorem kill_map {α β : Type} (marks : List Bool) (f : α → β) (a : List α) (c : ℕ) :
    kill marks (a.map f) c = (kill marks a c).map f := by
  induction a generalizing c with
  | nil => rfl
  | cons x a ih => simp only [List.map_cons, kill, ih]; split_ifs <;> simp

theorem kill_sublist {α : Type} (marks : List Bool) (a : List α) (c : ℕ) : (kill marks a c).Sublist a := by
  induction a generalizing c with
  | nil => exact List.Sublist.refl _
  | cons x a ih =>
    simp only [kill]
    split_ifs
    · exact (ih _).cons_cons _
    · exact (ih _).cons _

theorem kill_length {α : Type} (marks : List Bool) (a : List α) (c : ℕ)
    (h : marks.length = c + a.length) : (kill marks a c).length = (marks.drop c).count true := by
  induction a generalizing c with
  | nil => simp [kill, List.drop_eq_nil_of_le (show marks.length ≤ c by simp at h; omega)]
  | cons x a ih =>
    simp only [List.length_cons] at h
    have hc : c < marks.length := by omega
    have e := List.drop_eq_getElem_cons hc
    have hi := ih (c + 1) (by omega)
    simp only [kill, List.getD_eq_getElem?_getD, List.getElem?_eq_getElem hc, Option.getD_some]
    rw [e]
    cases hm : marks[c] with
    | true => simp [hi]
    | false => simp [hi]

/-- A link from `k` to `r` is among the removed ones (in either direction if `sym`). -/
def dead (sym : Bool) (K : List (ℕ × ℕ)) (k : ℕ) : Option ℕ → Bool
  | none => false
  | some j => decide ((k, j) ∈ K ∨ (sym = true ∧ (j, k) ∈ K))

/-- Weights after removal. -/
def cut (sym : Bool) (K : List (ℕ × ℕ)) (g : WG) : WG :=
  fun i j => if dead sym K i (some j) then none else g i j

theorem dead_append (sym : Bool) (K K' : List (ℕ × ℕ)) (k : ℕ) (r : Option ℕ) :
    dead sym (K ++ K') k r = (dead sym K k r || dead sym K' k r) := by
  cases r with
  | none => rfl
  | some j =>
    rw [Bool.eq_iff_iff]
    simp only [dead, List.mem_append, decide_eq_true_eq, Bool.or_eq_true]
    tauto

theorem dead_nil (sym : Bool) (k : ℕ) (r : Option ℕ) : dead sym [] k r = false := by
  cases r <;> simp [dead]

theorem cut_append (sym : Bool) (K K' : List (ℕ × ℕ)) (g : WG) :
    cut sym (K ++ K') g = cut sym K' (cut sym K g) := by
  funext i j
  simp only [cut, dead_append]
  cases dead sym K i (some j) <;> cases dead sym K' i (some j) <;> simp

theorem cut_nil (sym : Bool) (g : WG) : cut sym [] g = g := by
  funext i j; simp [cut, dead_nil]

theorem filter_dead (sym : Bool) (K K' : List (ℕ × ℕ)) (k : ℕ) (ls : List Link) :
    (ls.filter fun l => !dead sym K k l.ref).filter (fun l => !dead sym K' k l.ref)
      = ls.filter fun l => !dead sym (K ++ K') k l.ref := by
  rw [List.filter_filter]
  congr 1
  funext l
  rw [dead_append]
  cases dead sym K k l.ref <;> cases dead sym K' k l.ref <;> rfl

/-- What is needed in symmetric mode. -/
def SymOK (sym : Bool) (g : WG) : Prop :=
  sym = true → (∀ i j, (g i j).isSome = (g j i).isSome) ∧ ∀ i, g i i = none

theorem cut_symOK {sym : Bool} {g : WG} (h : SymOK sym g) (K : List (ℕ × ℕ)) : SymOK sym (cut sym K g) := by
  intro hs
  obtain ⟨h1, h2⟩ := h hs
  refine ⟨fun i j => ?_, fun i => by simp [cut, h2]⟩
  have : dead sym K i (some j) = dead sym K j (some i) := by
    rw [Bool.eq_iff_iff]
    simp only [dead, decide_eq_true_eq, hs, true_and]
    tauto
  simp only [cut, this]
  split_ifs
  · rfl
  · exact h1 i j

theorem remove_cut {sym : Bool} {g : WG} (h : SymOK sym g) {i j : ℕ} (hg : (g i j).isSome) :
    g.remove i j sym = some (cut sym [(i, j)] g) := by
  have h0 : ¬ (g i j).isNone := by
    rw [Option.isNone_iff_eq_none]; intro e; rw [e] at hg; simp at hg
  unfold WG.remove
  rw [if_neg h0]
  by_cases hs : sym = true
  · obtain ⟨h1, h2⟩ := h hs
    have hne : i ≠ j := by rintro rfl; rw [h2] at hg; simp at hg
    have h3 : ¬ (g j i).isNone := by
      rw [Option.isNone_iff_eq_none]; intro e
      rw [h1, e] at hg; simp at hg
    rw [if_pos ⟨hs, hne⟩, if_neg h3]
    congr 1
    funext a b
    simp only [WG.set, cut, dead, List.mem_singleton, Prod.mk.injEq, hs, true_and]
    by_cases c1 : a = j ∧ b = i
    · rw [if_pos c1, if_pos (by simp [c1])]
    · rw [if_neg c1]
      by_cases c2 : a = i ∧ b = j
      · rw [if_pos c2, if_pos (by simp [c2])]
      · rw [if_neg c2, if_neg]
        simp only [decide_eq_true_eq]
        tauto
  · have hs' : sym = false := by simpa using hs
    rw [if_neg (fun c => hs c.1)]
    congr 1
    funext a b
    simp only [WG.set, cut, dead, List.mem_singleton, Prod.mk.injEq, hs', Bool.false_eq_true, false_and,
      or_false, decide_eq_true_eq]

theorem dropLink_filter {j : ℕ} : ∀ {ls r : List Link}, (ls.map Link.ref).Nodup → dropLink j ls = some r →
    r = ls.filter fun l => !decide (l.ref = some j)
  | [], r, _, h => by simp [dropLink] at h
  | l :: ls, r, hn, h => by
    simp only [dropLink] at h
    rw [List.map_cons, List.nodup_cons] at hn
    by_cases hl : l.ref = some j
    · rw [if_pos hl] at h
      obtain rfl := Option.some.inj h
      rw [List.filter_cons]
      simp only [hl, decide_true, Bool.not_true, Bool.false_eq_true, if_false]
      rw [List.filter_eq_self.2]
      intro m hm
      simp only [Bool.not_eq_true', decide_eq_false_iff_not]
      intro e
      exact hn.1 (by rw [hl, ← e]; exact List.mem_map_of_mem hm)
    · rw [if_neg hl] at h
      simp only [Option.bind_eq_bind, Option.pure_def] at h
      cases hd : dropLink j ls with
      | none => rw [hd] at h; simp at h
      | some r' =>
        rw [hd] at h
        simp only [Option.bind_some, Option.some.injEq] at h
        rw [← h, dropLink_filter hn.2 hd, List.filter_cons]
        simp [hl]

theorem remove_rows {net net' : Net} {i j : ℕ} {sym : Bool} (hi : ((net.neig i).map Link.ref).Nodup)
    (hj : ((net.neig j).map Link.ref).Nodup) (hs : sym = true → i ≠ j)
    (h : RemoveLink net i j sym = some net') (k : ℕ) :
    net'.neig k = (net.neig k).filter fun l => !dead sym [(i, j)] k l.ref := by
  have hd : ∀ l : Link, dead sym [(i, j)] k l.ref
      = decide ((k = i ∧ l.ref = some j) ∨ (sym = true ∧ k = j ∧ l.ref = some i)) := by
    intro l
    cases hr : l.ref with
    | none => simp [dead]
    | some b =>
      simp only [dead, List.mem_singleton, Prod.mk.injEq, Option.some.injEq]
      congr 1
      apply propext
      constructor
      · rintro (⟨h1, h2⟩ | ⟨h0, h1, h2⟩)
        · exact Or.inl ⟨h1, h2⟩
        · exact Or.inr ⟨h0, h2, h1⟩
      · rintro (⟨h1, h2⟩ | ⟨h0, h1, h2⟩)
        · exact Or.inl ⟨h1, h2⟩
        · exact Or.inr ⟨h0, h2, h1⟩
  simp only [hd]
  unfold RemoveLink at h
  simp only [Option.bind_eq_bind, resetCaches] at h
  cases h1 : dropLink j (net.neig i) with
  | none => simp [h1] at h
  | some r =>
    have e1 := dropLink_filter hi h1
    simp only [h1, Option.bind_some] at h
    by_cases hsy : sym = true
    · have hne := hs hsy
      rw [if_pos ⟨hsy, hne⟩] at h
      cases h2 : dropLink i (net.neig j) with
      | none => simp [Function.update_of_ne hne.symm, h2] at h
      | some r2 =>
        have e2 := dropLink_filter hj h2
        simp only [Function.update_of_ne hne.symm, h2, Option.bind_some, Option.pure_def,
          Option.some.injEq] at h
        rw [← h]
        by_cases kj : k = j
        · subst kj
          simp [e2, hsy, hne.symm, hne]
        · by_cases ki : k = i
          · subst ki
            simp [e1, kj]
          · simp [ki, kj]
    · rw [if_neg (fun c => hsy c.1)] at h
      simp only [Option.pure_def, Option.some.injEq] at h
      rw [← h]
      by_cases ki : k = i
      · subst ki
        simp [e1, hsy]
      · simp [ki, hsy]

/-- Target of a link of node `p` that the walk counts. -/
def elig (sym : Bool) (p : ℕ) (l : Link) : Option ℕ :=
  l.ref.bind fun j => if p ≤ j ∨ sym = false then some j else none

theorem thinRow_ok {sym : Bool} {marks : List Bool} {p : ℕ} :
    ∀ (rest pre : List Link) (net : Net) (g : WG) (c : ℕ), p < net.n → net.neig p = pre ++ rest →
      Rep net g → SymOK sym g → c + (rest.filterMap (elig sym p)).length ≤ marks.length →
      ∃ net', thinRow sym marks p rest.length pre.length c net
          = some (c + (rest.filterMap (elig sym p)).length, net') ∧
        net'.n = net.n ∧ net'.label = net.label ∧
        Rep net' (cut sym ((kill marks (rest.filterMap (elig sym p)) c).map (p, ·)) g) ∧
        ∀ i, i < net.n → net'.neig i = (net.neig i).filter fun l =>
          !dead sym ((kill marks (rest.filterMap (elig sym p)) c).map (p, ·)) i l.ref
  | [], pre, net, g, c, hp, hrow, hrep, hsy, hlen => by
    refine ⟨net, ?_, rfl, rfl, ?_, ?_⟩
    · simp [thinRow, hrow]
    · simpa [kill, cut_nil] using hrep
    · intro i _; simp [kill, dead_nil]
  | l :: rest, pre, net, g, c, hp, hrow, hrep, hsy, hlen => by
    obtain ⟨j, hj, er, eg⟩ := (hrep.1 p hp).2.1 l (by rw [hrow]; simp)
    have hget : (net.neig p)[pre.length]? = some l := by rw [hrow]; simp
    have hrow' : net.neig p = (pre ++ [l]) ++ rest := by rw [hrow]; simp
    simp only [List.length_cons, thinRow, hget, er, Option.bind_eq_bind, Option.bind_some]
    by_cases hel : p ≤ j ∨ sym = false
    · have he : elig sym p l = some j := by simp [elig, er, hel]
      rw [List.filterMap_cons_some he] at hlen ⊢
      rw [List.length_cons] at hlen ⊢
      have hc : c < marks.length := by omega
      rw [if_pos hel, List.getElem?_eq_getElem hc]
      simp only [Option.bind_some]
      have hkill : kill marks (j :: rest.filterMap (elig sym p)) c
          = if marks[c] then j :: kill marks (rest.filterMap (elig sym p)) (c + 1)
            else kill marks (rest.filterMap (elig sym p)) (c + 1) := by
        simp [kill, List.getD_eq_getElem?_getD, List.getElem?_eq_getElem hc]
      rw [hkill]
      cases hm : marks[c] with
      | false =>
        simp only [Bool.false_eq_true, if_false]
        obtain ⟨net', h1, h2, h3, h4, h5⟩ := thinRow_ok (marks := marks) rest (pre ++ [l]) net g (c + 1) hp hrow' hrep hsy
          (by omega)
        refine ⟨net', ?_, h2, h3, h4, h5⟩
        rw [List.length_append, List.length_singleton] at h1
        rw [h1]
        congr 2
        omega
      | true =>
        simp only [if_true]
        have hnod := (hrep.1 p hp).1
        have hnone : ((net.neig p).take pre.length).any (fun x => decide (x.ref = some j)) = false := by
          rw [hrow, List.take_left', List.any_eq_false]
          · intro x hx
            simp only [decide_eq_true_eq]
            intro e
            rw [hrow, List.map_append, List.map_cons, List.nodup_append] at hnod
            exact hnod.2.2 x.ref (List.mem_map_of_mem hx) l.ref (by simp) (by rw [e, er])
          · rfl
        rw [hnone]
        simp only [Bool.false_eq_true, if_false]
        have hgs : (g p j).isSome := by rw [eg]; rfl
        have hne : sym = true → p ≠ j := by
          rintro hs rfl
          rw [(hsy hs).2] at hgs; simp at hgs
        have hrm := remove_rep hrep hp hj sym
        rw [remove_cut hsy hgs] at hrm
        obtain ⟨net1, e1, n1, l1, r1⟩ := hrm
        have rows1 := fun k => remove_rows (hrep.1 p hp).1 (hrep.1 j hj).1 hne e1 k
        have hrow1 : net1.neig p = pre ++ rest := by
          rw [rows1, hrow]
          have hd : ∀ m : Link, dead sym [(p, j)] p m.ref = decide (m.ref = some j) := by
            intro m
            cases hr : m.ref with
            | none => simp [dead]
            | some b =>
              rw [Bool.eq_iff_iff]
              simp only [dead, List.mem_singleton, Prod.mk.injEq, true_and, Option.some.injEq,
                decide_eq_true_eq]
              constructor
              · rintro (h | ⟨h0, h1, h2⟩)
                · exact h
                · exact absurd h2 (hne h0)
              · exact Or.inl
          simp only [hd]
          rw [hrow, List.map_append, List.map_cons, List.nodup_append, List.nodup_cons] at hnod
          rw [List.filter_append, List.filter_cons]
          simp only [er, decide_true, Bool.not_true, Bool.false_eq_true, if_false]
          congr 1
          · rw [List.filter_eq_self]
            intro x hx
            simp only [Bool.not_eq_true', decide_eq_false_iff_not]
            intro e
            exact hnod.2.2 x.ref (List.mem_map_of_mem hx) l.ref (by simp) (by rw [e, er])
          · rw [List.filter_eq_self]
            intro x hx
            simp only [Bool.not_eq_true', decide_eq_false_iff_not]
            intro e
            exact hnod.2.1.1 (by rw [er, ← e]; exact List.mem_map_of_mem hx)
        obtain ⟨net', h1, h2, h3, h4, h5⟩ := thinRow_ok (marks := marks) rest pre net1 _ (c + 1) (by rw [n1]; exact hp) hrow1 r1
          (cut_symOK hsy _) (by omega)
        refine ⟨net', ?_, by rw [h2, n1], by rw [h3, l1], ?_, ?_⟩
        · rw [e1]
          simp only [Option.bind_some]
          rw [h1]
          congr 2
          omega
        · rw [← cut_append] at h4
          exact h4
        · intro i hi
          rw [h5 i (by rw [n1]; exact hi), rows1, filter_dead]
          rfl
    · have he : elig sym p l = none := by simp [elig, er, hel]
      rw [List.filterMap_cons_none he] at hlen ⊢
      rw [if_neg hel]
      obtain ⟨net', h1, h2, h3, h4, h5⟩ := thinRow_ok (marks := marks) rest (pre ++ [l]) net g c hp hrow' hrep hsy hlen
      refine ⟨net', ?_, h2, h3, h4, h5⟩
      rw [List.length_append, List.length_singleton] at h1
      exact h1

/-- Links in the order in which the walk counts them. -/
def thinList (sym : Bool) (net : Net) (nodes : List ℕ) : List (ℕ × ℕ) :=
  nodes.flatMap fun p => ((net.neig p).filterMap (elig sym p)).map (p, ·)

theorem filterMap_elig_filter {sym : Bool} {p : ℕ} {K : List (ℕ × ℕ)} (hK : ∀ q ∈ K, q.1 < p)
    (ls : List Link) :
    (ls.filter fun l => !dead sym K p l.ref).filterMap (elig sym p) = ls.filterMap (elig sym p) := by
  induction ls with
  | nil => rfl
  | cons l ls ih =>
    rw [List.filter_cons]
    cases hd : dead sym K p l.ref with
    | false => simp [ih, List.filterMap_cons]
    | true =>
      simp only [Bool.not_true, Bool.false_eq_true, if_false, ih]
      rw [List.filterMap_cons_none]
      cases hr : l.ref with
      | none => simp [elig, hr]
      | some j =>
        rw [hr] at hd
        simp only [dead, decide_eq_true_eq] at hd
        rcases hd with h | ⟨h0, h⟩
        · exact absurd (hK _ h) (lt_irrefl _)
        · have := hK _ h
          simp only [elig, hr, Option.bind_some]
          rw [if_neg]
          simp only at this
          simp [h0]; omega

theorem thinNodes_ok {sym : Bool} {marks : List Bool} (net0 : Net) :
    ∀ (ps : List ℕ) (K : List (ℕ × ℕ)) (net : Net) (g : WG) (c : ℕ), (∀ p ∈ ps, p < net.n) →
      ps.Pairwise (· < ·) → (∀ q ∈ K, ∀ p ∈ ps, q.1 < p) →
      (∀ i, i < net.n → net.neig i = (net0.neig i).filter fun l => !dead sym K i l.ref) →
      Rep net g → SymOK sym g → c + (thinList sym net0 ps).length ≤ marks.length →
      ∃ net', thinNodes sym marks ps c net = some (c + (thinList sym net0 ps).length, net') ∧
        net'.n = net.n ∧ net'.label = net.label ∧ Rep net' (cut sym (kill marks (thinList sym net0 ps) c) g)
  | [], K, net, g, c, _, _, _, _, hrep, _, _ =>
    ⟨net, rfl, rfl, rfl, by simpa [thinList, kill, cut_nil] using hrep⟩
  | p :: ps, K, net, g, c, hr, hpw, hK, hrows, hrep, hsy, hlen => by
    have hp := hr p (by simp)
    rw [List.pairwise_cons] at hpw
    have hE : (net.neig p).filterMap (elig sym p) = (net0.neig p).filterMap (elig sym p) := by
      rw [hrows p hp, filterMap_elig_filter (fun q hq => hK q hq p (by simp))]
    have hL : thinList sym net0 (p :: ps)
        = ((net0.neig p).filterMap (elig sym p)).map (p, ·) ++ thinList sym net0 ps := by
      simp [thinList]
    rw [hL, List.length_append, List.length_map] at hlen
    obtain ⟨net1, e1, n1, l1, r1, rows1⟩ := thinRow_ok (marks := marks) (net.neig p) [] net g c hp (by simp)
      hrep hsy (by rw [hE]; omega)
    rw [hE] at e1 r1 rows1
    have hK1 : ∀ q ∈ (kill marks ((net0.neig p).filterMap (elig sym p)) c).map (p, ·), q.1 = p := by
      intro q hq
      obtain ⟨j, _, rfl⟩ := List.mem_map.1 hq
      rfl
    obtain ⟨net2, e2, n2, l2, r2⟩ := thinNodes_ok (marks := marks) net0 ps
      (K ++ (kill marks ((net0.neig p).filterMap (elig sym p)) c).map (p, ·)) net1 _
      (c + ((net0.neig p).filterMap (elig sym p)).length)
      (fun q hq => by rw [n1]; exact hr q (by simp [hq])) hpw.2
      (by
        intro q hq x hx
        rcases List.mem_append.1 hq with h | h
        · exact hK q h x (by simp [hx])
        · rw [hK1 q h]; exact hpw.1 x hx)
      (by
        intro i hi
        rw [n1] at hi
        rw [rows1 i hi, hrows i hi, filter_dead])
      r1 (cut_symOK hsy _) (by omega)
    refine ⟨net2, ?_, by rw [n2, n1], by rw [l2, l1], ?_⟩
    · simp only [thinNodes, Option.bind_eq_bind]
      rw [List.length_nil] at e1
      rw [e1]
      simp only [Option.bind_some]
      rw [e2, hL, List.length_append, List.length_map, Nat.add_assoc]
    · rw [hL, kill_append, List.length_map, kill_map, cut_append]
      exact r2

end GR
