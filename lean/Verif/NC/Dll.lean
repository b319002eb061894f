import Verif.NC.Spec
import Mathlib.Tactic.Ring
import Mathlib.Tactic.Linarith

/-! # Doubly linked list segments (helper lemmas) -/

namespace NC

/-- `Seg nx pv p f l e la`: starting from pointer `f`, the nodes `l` are linked by
`nx`/`pv`; the first has predecessor `p`, the last has successor `e`, `la` is the last
pointer (`p` when `l` is empty). -/
def Seg (nx pv : ℕ → Option ℕ) : Option ℕ → Option ℕ → List ℕ → Option ℕ → Option ℕ → Prop
  | p, f, [], e, la => f = e ∧ la = p
  | p, f, a :: l, e, la => f = some a ∧ pv a = p ∧ Seg nx pv (some a) (nx a) l e la

theorem Seg.append {nx pv} {l1 l2 : List ℕ} {p f e la} :
    Seg nx pv p f (l1 ++ l2) e la ↔ ∃ m q, Seg nx pv p f l1 m q ∧ Seg nx pv q m l2 e la := by
  induction l1 generalizing p f with
  | nil =>
    simp only [List.nil_append, Seg]
    constructor
    · intro h; exact ⟨f, p, ⟨rfl, rfl⟩, h⟩
    · rintro ⟨m, q, ⟨rfl, rfl⟩, h⟩; exact h
  | cons a l ih =>
    simp only [List.cons_append, Seg, ih]
    constructor
    · rintro ⟨h1, h2, m, q, h3, h4⟩; exact ⟨m, q, ⟨h1, h2, h3⟩, h4⟩
    · rintro ⟨m, q, ⟨h1, h2, h3⟩, h4⟩; exact ⟨h1, h2, m, q, h3, h4⟩

theorem Seg.frame {nx pv nx' pv' : ℕ → Option ℕ} {l : List ℕ} {p f e la}
    (h : Seg nx pv p f l e la) (hn : ∀ x ∈ l, nx' x = nx x) (hp : ∀ x ∈ l, pv' x = pv x) :
    Seg nx' pv' p f l e la := by
  induction l generalizing p f with
  | nil => exact h
  | cons a l ih =>
    obtain ⟨h1, h2, h3⟩ := h
    refine ⟨h1, ?_, ?_⟩
    · rw [hp a (by simp)]; exact h2
    · rw [hn a (by simp)]
      exact ih h3 (fun x hx => hn x (by simp [hx])) (fun x hx => hp x (by simp [hx]))

theorem Seg.snoc {nx pv} {l : List ℕ} {a p f e la} :
    Seg nx pv p f (l ++ [a]) e la ↔
      ∃ q, Seg nx pv p f l (some a) q ∧ pv a = q ∧ nx a = e ∧ la = some a := by
  rw [Seg.append]
  simp only [Seg]
  constructor
  · rintro ⟨m, q, h, rfl, h2, h3, h4⟩; exact ⟨q, h, h2, h3, h4⟩
  · rintro ⟨q, h, h2, h3, h4⟩; exact ⟨_, q, h, rfl, h2, h3, h4⟩

/-- Change the successor of the end of a segment. -/
theorem Seg.retarget {nx pv nx' pv' : ℕ → Option ℕ} {l : List ℕ} {b p f e la} (e' : Option ℕ)
    (h : Seg nx pv p f (l ++ [b]) e la)
    (hn : ∀ x ∈ l, nx' x = nx x) (hp : ∀ x ∈ l, pv' x = pv x) (hpb : pv' b = pv b)
    (hb : nx' b = e') : Seg nx' pv' p f (l ++ [b]) e' la := by
  rw [Seg.snoc] at h ⊢
  obtain ⟨q, h1, h2, _, h4⟩ := h
  exact ⟨q, h1.frame hn hp, by rw [hpb]; exact h2, hb, h4⟩

/-- Change the predecessor of the start of a segment. -/
theorem Seg.rehead {nx pv nx' pv' : ℕ → Option ℕ} {l : List ℕ} {b p f e la} (p' : Option ℕ)
    (h : Seg nx pv p f (b :: l) e la)
    (hn : ∀ x ∈ l, nx' x = nx x) (hp : ∀ x ∈ l, pv' x = pv x) (hnb : nx' b = nx b)
    (hb : pv' b = p') : Seg nx' pv' p' f (b :: l) e la := by
  obtain ⟨h1, _, h3⟩ := h
  exact ⟨h1, hb, by rw [hnb]; exact h3.frame hn hp⟩

theorem Seg.walk {nx pv} {l : List ℕ} {p f la} (h : Seg nx pv p f l none la) : Walk nx f l := by
  induction l generalizing p f with
  | nil => obtain ⟨rfl, _⟩ := h; exact Walk.nil
  | cons a l ih => obtain ⟨rfl, _, h3⟩ := h; exact Walk.cons (ih h3)

theorem Seg.walk_back {nx pv} {l : List ℕ} {p f e la} (h : Seg nx pv p f l e la) (hp : p = none) :
    Walk pv la l.reverse := by
  induction l using List.reverseRecOn generalizing e la with
  | nil => obtain ⟨_, rfl⟩ := h; subst hp; exact Walk.nil
  | append_singleton l a ih =>
    rw [Seg.snoc] at h
    obtain ⟨q, h1, h2, h3, rfl⟩ := h
    rw [List.reverse_append]
    exact Walk.cons (by rw [h2]; exact ih h1)

theorem Walk.unique {nx f l l'} (h : Walk nx f l) (h' : Walk nx f l') : l = l' := by
  induction h generalizing l' with
  | nil => cases h'; rfl
  | cons _ ih => cases h' with | cons h2 => rw [ih h2]

/-- `Walk pv la` over `(l).reverse` where the elements after the segment are `tail`. -/
theorem Walk.seg {nx pv : ℕ → Option ℕ} {l : List ℕ} {f la : Option ℕ}
    (h1 : Walk nx f l) (h2 : Walk pv la l.reverse) : Seg nx pv none f l none la := by
  -- generalise: predecessor chain
  have key : ∀ (l r : List ℕ) (f la p : Option ℕ), Walk nx f l → Walk pv la (l.reverse ++ r) →
      Walk pv p r → Seg nx pv p f l none la := by
    intro l
    induction l with
    | nil =>
      intro r f la p h1 h2 h3
      cases h1
      refine ⟨rfl, ?_⟩
      simp only [List.reverse_nil, List.nil_append] at h2
      cases r with
      | nil => cases h2; cases h3; rfl
      | cons b r => cases h2; cases h3; rfl
    | cons a l ih =>
      intro r f la p h1 h2 h3
      cases h1 with
      | cons h1 =>
      have h2' : Walk pv la (l.reverse ++ (a :: r)) := by simpa using h2
      -- split the backward walk to find `pv a`
      have split : ∀ (x y : List ℕ) (g : Option ℕ), Walk pv g (x ++ y) → ∃ g', Walk pv g' y := by
        intro x
        induction x with
        | nil => intro y g h; exact ⟨g, h⟩
        | cons b x ihx => intro y g h; cases h with | cons h => exact ihx y _ h
      obtain ⟨g', hg⟩ := split _ _ _ h2'
      have hpa : pv a = p := by
        cases hg with
        | cons hg =>
          cases r with
          | nil =>
            generalize hx : pv a = x at hg
            cases hg; cases h3; rfl
          | cons b r =>
            generalize hx : pv a = x at hg
            cases hg; cases h3; rfl
      refine ⟨rfl, hpa, ih (a :: r) _ _ _ h1 h2' ?_⟩
      exact Walk.cons (by rw [hpa]; exact h3)
  exact key l [] f la none h1 (by simpa using h2) Walk.nil

theorem walk_of_Walk {nx : ℕ → Option ℕ} {f l} (h : Walk nx f l) :
    ∀ {fuel}, l.length ≤ fuel → walk nx fuel f = some l := by
  induction h with
  | nil => intro fuel _; cases fuel <;> rfl
  | cons _ ih =>
    intro fuel hf
    cases fuel with
    | zero => simp at hf
    | succ n => simp only [walk]; rw [ih (by simpa using hf)]; rfl

theorem Walk_of_walk {nx : ℕ → Option ℕ} : ∀ {fuel f l}, walk nx fuel f = some l → Walk nx f l
  | 0, none, l, h => by simp only [walk, Option.some.injEq] at h; subst h; exact Walk.nil
  | _ + 1, none, l, h => by simp only [walk, Option.some.injEq] at h; subst h; exact Walk.nil
  | 0, some a, l, h => by simp [walk] at h
  | fuel + 1, some a, l, h => by
    simp only [walk, Option.map_eq_some_iff] at h
    obtain ⟨l', h1, rfl⟩ := h
    exact Walk.cons (Walk_of_walk h1)

end NC
