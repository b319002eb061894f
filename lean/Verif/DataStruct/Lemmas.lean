import Verif.DataStruct.Spec

set_option linter.unusedSimpArgs false

namespace DS
open RG

variable {α : Type}

theorem Chain.congr {h h' : Heap α} : ∀ {p : Option ℕ} {as : List ℕ} {l : List (Ptr α)},
    Chain h p as l → (∀ a ∈ as, h' a = h a) → Chain h' p as l
  | none, [], [], _, _ => trivial
  | some p, a :: as, x :: l, hc, he => by
    obtain ⟨rfl, nx, h1, h2⟩ := hc
    refine ⟨rfl, nx, by rw [he _ (by simp), h1], h2.congr fun a ha => he a (by simp [ha])⟩
  | none, _ :: _, _, hc, _ => by cases ‹List (Ptr α)› <;> exact hc.elim
  | none, [], _ :: _, hc, _ => hc.elim
  | some _, [], _, hc, _ => by cases ‹List (Ptr α)› <;> exact hc.elim
  | some _, _ :: _, [], hc, _ => hc.elim

theorem Chain.length {h : Heap α} : ∀ {p : Option ℕ} {as : List ℕ} {l : List (Ptr α)},
    Chain h p as l → as.length = l.length
  | none, [], [], _ => rfl
  | some p, a :: as, x :: l, hc => by
    obtain ⟨_, nx, _, h2⟩ := hc
    simp [h2.length]
  | none, _ :: _, _, hc => by cases ‹List (Ptr α)› <;> exact hc.elim
  | none, [], _ :: _, hc => hc.elim
  | some _, [], _, hc => by cases ‹List (Ptr α)› <;> exact hc.elim
  | some _, _ :: _, [], hc => hc.elim

theorem Chain.none_inv {h : Heap α} {as : List ℕ} {l : List (Ptr α)} (hc : Chain h none as l) :
    as = [] ∧ l = [] := by
  cases as <;> cases l <;> simp_all [Chain]

theorem Chain.some_inv {h : Heap α} {p : ℕ} {as : List ℕ} {l : List (Ptr α)}
    (hc : Chain h (some p) as l) :
    ∃ as' x l' nx, as = p :: as' ∧ l = x :: l' ∧ h p = some ⟨x, nx⟩ ∧ Chain h nx as' l' := by
  cases as with
  | nil => cases l <;> exact hc.elim
  | cons a as => cases l with
    | nil => exact hc.elim
    | cons x l =>
      obtain ⟨rfl, nx, h1, h2⟩ := hc
      exact ⟨as, x, l, nx, rfl, rfl, h1, h2⟩

theorem Owns.live {h0 h : Heap α} {p as l} (ho : Owns h0 h p as l) {a : ℕ} (ha : h a = none) :
    a ∉ as ∧ h0 a = none := by
  have key : ∀ {p : Option ℕ} {as : List ℕ} {l : List (Ptr α)}, Chain h p as l → a ∉ as := by
    intro p as
    induction as generalizing p with
    | nil => simp
    | cons b bs ih =>
      intro l hc
      cases p with
      | none => have := hc.none_inv; simp at this
      | some q =>
        obtain ⟨as', x, l', nx, e, rfl, h1, h2⟩ := hc.some_inv
        simp only [List.cons.injEq] at e
        obtain ⟨rfl, rfl⟩ := e
        simp only [List.mem_cons, not_or]
        refine ⟨?_, ih h2⟩
        rintro rfl
        simp [ha] at h1
  refine ⟨key ho.1, ?_⟩
  rw [← ho.2.2.2 a (key ho.1)]; exact ha

/-- Taking the first node away. -/
theorem Owns.pop {h0 h : Heap α} {p as l} (ho : Owns h0 h (some p) as l) :
    ∃ as' x l' nx, as = p :: as' ∧ l = x :: l' ∧ h p = some ⟨x, nx⟩ ∧
      Owns h0 (Function.update h p none) nx as' l' := by
  obtain ⟨as', x, l', nx, rfl, rfl, h1, h2⟩ := ho.1.some_inv
  obtain ⟨_, hn, hf, he⟩ := ho
  simp only [List.nodup_cons] at hn
  refine ⟨as', x, l', nx, rfl, rfl, h1, ?_, hn.2, fun a ha => hf a (by simp [ha]), ?_⟩
  · refine h2.congr fun a ha => ?_
    rw [Function.update_of_ne]
    rintro rfl; exact hn.1 ha
  · intro a ha
    by_cases hap : a = p
    · subst hap; simp [hf a (by simp)]
    · rw [Function.update_of_ne hap]
      exact he a (by simp [hap, ha])

/-- Putting a node in front. -/
theorem Owns.push {h0 h : Heap α} {p as l} (ho : Owns h0 h p as l) {a : ℕ} (ha : h a = none)
    (x : Ptr α) : Owns h0 (Function.update h a (some ⟨x, p⟩)) (some a) (a :: as) (x :: l) := by
  obtain ⟨hna, h0a⟩ := ho.live ha
  obtain ⟨hc, hn, hf, he⟩ := ho
  refine ⟨⟨rfl, p, by simp, hc.congr fun b hb => ?_⟩, by simp [hna, hn], ?_, ?_⟩
  · rw [Function.update_of_ne]; rintro rfl; exact hna hb
  · intro b hb
    rcases List.mem_cons.1 hb with rfl | hb
    · exact h0a
    · exact hf b hb
  · intro b hb
    simp only [List.mem_cons, not_or] at hb
    rw [Function.update_of_ne hb.1, he b hb.2]

theorem Chain.snoc {h : Heap α} {a : ℕ} {x : Ptr α} : ∀ {as : List ℕ} {p : Option ℕ}
    {l : List (Ptr α)} (hne : as ≠ []), Chain h p as l → as.Nodup → a ∉ as →
    ∃ y, h (as.getLast hne) = some ⟨y, none⟩ ∧
      Chain (Function.update (Function.update h a (some ⟨x, none⟩)) (as.getLast hne)
        (some ⟨y, some a⟩)) p (as ++ [a]) (l ++ [x])
  | [], _, _, hne, _, _, _ => (hne rfl).elim
  | [b], p, l, _, hc, _, hna => by
    cases p with
    | none => have := hc.none_inv; simp at this
    | some q =>
      obtain ⟨as', y, l', nx, e, rfl, h1, h2⟩ := hc.some_inv
      simp only [List.cons.injEq] at e
      obtain ⟨rfl, rfl⟩ := e
      cases nx with
      | some _ => obtain ⟨_, _, _, _, e, _⟩ := h2.some_inv; simp at e
      | none =>
        obtain ⟨_, rfl⟩ := h2.none_inv
        refine ⟨y, h1, rfl, some a, by simp, rfl, none, ?_, trivial⟩
        simp only [List.mem_singleton] at hna
        rw [Function.update_of_ne (by simpa using hna)]
        simp
  | b :: c :: as, p, l, _, hc, hn, hna => by
    cases p with
    | none => have := hc.none_inv; simp at this
    | some q =>
      obtain ⟨as', y, l', nx, e, rfl, h1, h2⟩ := hc.some_inv
      simp only [List.cons.injEq] at e
      obtain ⟨rfl, rfl⟩ := e
      simp only [List.nodup_cons] at hn
      obtain ⟨z, hz1, hz2⟩ := Chain.snoc (x := x) (a := a) (as := c :: as) (by simp) h2
        (by simp [hn.2.1, hn.2.2]) (by simp only [List.mem_cons, not_or] at hna ⊢; tauto)
      refine ⟨z, by simpa using hz1, rfl, nx, ?_, by simpa using hz2⟩
      have hlast : (b :: c :: as).getLast (by simp) ≠ b := by
        have hm : (b :: c :: as).getLast (by simp) ∈ c :: as := by
          rw [List.getLast_cons (by simp)]; exact List.getLast_mem _
        intro e; rw [e] at hm; exact hn.1 hm
      rw [Function.update_of_ne hlast.symm, Function.update_of_ne, h1]
      rintro rfl; simp at hna

/-! ## Stack -/

/-- The stack holds `l` (top first). -/
def StackRep (h0 : Heap α) (s : Stack α) (l : List (Ptr α)) : Prop :=
  s.length = l.length ∧ ∃ as, Owns h0 s.heap s.top as l

theorem stack_empty_eq {h0 : Heap α} {s : Stack α} {l} (hr : StackRep h0 s l) :
    stack_empty s = l.isEmpty := by
  obtain ⟨_, as, ho⟩ := hr
  unfold stack_empty
  cases ht : s.top with
  | none => rw [ht] at ho; rw [ho.1.none_inv.2]; rfl
  | some p => rw [ht] at ho; obtain ⟨_, _, _, _, _, rfl, _⟩ := ho.1.some_inv; rfl

theorem stack_push_spec {h0 : Heap α} {s : Stack α} {l} (hr : StackRep h0 s l) (a x) :
    (stack_push s a x).Holds fun s' => StackRep h0 s' (x :: l) := by
  unfold stack_push calloc
  obtain ⟨hl, as, ho⟩ := hr
  cases ha : s.heap a with
  | some c => trivial
  | none =>
    refine ⟨by simp [hl], a :: as, ?_⟩
    exact ho.push ha x

theorem stack_pop_spec {h0 : Heap α} {s : Stack α} {l} (hr : StackRep h0 s l) :
    ∃ s', stack_pop s = .ok (l.head?.getD none, s') ∧ StackRep h0 s' l.tail := by
  have he := stack_empty_eq hr
  unfold stack_pop
  obtain ⟨hl, as, ho⟩ := hr
  cases ht : s.top with
  | none =>
    rw [ht] at ho
    obtain ⟨rfl, rfl⟩ := ho.1.none_inv
    rw [he]
    exact ⟨s, by simp, hl, [], by rw [ht]; exact ho⟩
  | some p =>
    rw [ht] at ho
    obtain ⟨as', x, l', nx, rfl, rfl, h1, h2⟩ := ho.pop
    rw [he]
    refine ⟨{ heap := Function.update s.heap p none, top := nx, length := s.length - 1 }, ?_, ?_, ?_⟩
    · simp [deref, cfree, h1]
    · simp [hl]
    · exact ⟨as', h2⟩

theorem stack_top_spec {h0 : Heap α} {s : Stack α} {l} (hr : StackRep h0 s l) :
    stack_top s = .ok (l.head?.getD none) := by
  have he := stack_empty_eq hr
  unfold stack_top
  obtain ⟨hl, as, ho⟩ := hr
  cases ht : s.top with
  | none =>
    rw [ht] at ho
    obtain ⟨rfl, rfl⟩ := ho.1.none_inv
    simp [he]
  | some p =>
    rw [ht] at ho
    obtain ⟨as', x, l', nx, rfl, rfl, h1, h2⟩ := ho.pop
    simp [he, deref, h1]

theorem stack_clear_spec {h0 : Heap α} : ∀ (fuel : ℕ) {s : Stack α} {l}, StackRep h0 s l →
    (stack_clear fuel s).Holds (fun s' => StackRep h0 s' []) ∧
    (l.length < fuel → ∃ s', stack_clear fuel s = .ok s')
  | 0, _, _, _ => ⟨trivial, by simp⟩
  | fuel + 1, s, l, hr => by
    unfold stack_clear
    rw [stack_empty_eq hr]
    cases l with
    | nil => exact ⟨hr, fun _ => ⟨s, rfl⟩⟩
    | cons x l =>
      obtain ⟨s', h1, h2⟩ := stack_pop_spec hr
      have ih := stack_clear_spec (h0 := h0) fuel h2
      simp only [List.isEmpty_cons, Bool.false_eq_true, if_false, h1, Res.bind_ok]
      refine ⟨ih.1, fun h => ih.2 (by simpa using h)⟩

theorem stackStep_spec {h0 : Heap α} {s : Stack α} {l} (hr : StackRep h0 s l) (o : Op α) :
    (stackStep s o).Holds fun r => r.1 = (lifo l o).1 ∧ StackRep h0 r.2 (lifo l o).2 := by
  cases o with
  | put a x =>
    refine (stack_push_spec hr a x).bind fun s' h => ⟨rfl, h⟩
  | take =>
    obtain ⟨s', h1, h2⟩ := stack_pop_spec hr
    simp only [stackStep, h1, Res.bind_ok]
    exact ⟨rfl, h2⟩
  | peek =>
    simp only [stackStep, stack_top_spec hr, Res.bind_ok]
    exact ⟨rfl, hr⟩
  | isEmpty => exact ⟨by simp [lifo, stack_empty_eq hr], hr⟩
  | getLength => exact ⟨by simp [lifo, hr.1], hr⟩
  | clear fuel =>
    refine ((stack_clear_spec fuel hr).1).bind fun s' h => ⟨rfl, h⟩

/-! ## Queue -/

/-- The queue holds `l` (oldest first). -/
def QueueRep (h0 : Heap α) (q : Queue α) (l : List (Ptr α)) : Prop :=
  q.length = l.length ∧ ∃ as, Owns h0 q.heap q.first as l ∧
    ∀ h : as ≠ [], q.last = some (as.getLast h)

theorem queue_empty_eq {h0 : Heap α} {q : Queue α} {l} (hr : QueueRep h0 q l) :
    queue_empty q = l.isEmpty := by
  obtain ⟨_, as, ho, _⟩ := hr
  unfold queue_empty
  cases ht : q.first with
  | none => rw [ht] at ho; rw [ho.1.none_inv.2]; rfl
  | some p => rw [ht] at ho; obtain ⟨_, _, _, _, _, rfl, _⟩ := ho.1.some_inv; rfl

theorem queue_enqueue_spec {h0 : Heap α} {q : Queue α} {l} (hr : QueueRep h0 q l) (a x) :
    (queue_enqueue q a x).Holds fun q' => QueueRep h0 q' (l ++ [x]) := by
  have hemp := queue_empty_eq hr
  unfold queue_enqueue calloc
  obtain ⟨hl, as, ho, hlast⟩ := hr
  cases ha : q.heap a with
  | some c => trivial
  | none =>
    simp only [Res.bind_ok]
    cases l with
    | nil =>
      rw [hemp]
      have hf : q.first = none := by
        cases hq : q.first with
        | none => rfl
        | some p => rw [hq] at ho; obtain ⟨_, _, _, _, _, e, _⟩ := ho.1.some_inv; simp at e
      rw [hf] at ho
      obtain ⟨rfl, _⟩ := ho.1.none_inv
      exact ⟨by simp [hl], [a], ho.push ha x, fun _ => rfl⟩
    | cons y l =>
      rw [hemp]
      obtain ⟨hna, h0a⟩ := ho.live ha
      obtain ⟨hc, hn, hf, he⟩ := ho
      have hne : as ≠ [] := by rintro rfl; have := hc.length; simp at this
      obtain ⟨z, hz1, hz2⟩ := hc.snoc (x := x) hne hn hna
      have hla : as.getLast hne ≠ a := by rintro rfl; exact hna (List.getLast_mem _)
      simp only [List.isEmpty_cons, Bool.false_eq_true, if_false, setNext, hlast hne]
      rw [Function.update_of_ne hla, hz1]
      refine ⟨by simp [hl], as ++ [a], ⟨hz2, ?_, ?_, ?_⟩, fun _ => by simp⟩
      · rw [List.nodup_append]
        refine ⟨hn, by simp, ?_⟩
        intro b hb c hc e
        simp only [List.mem_singleton] at hc
        subst hc; subst e; exact hna hb
      · intro b hb
        rcases List.mem_append.1 hb with hb | hb
        · exact hf b hb
        · simp only [List.mem_singleton] at hb; rw [hb]; exact h0a
      · intro b hb
        simp only [List.mem_append, List.mem_singleton, not_or] at hb
        show Function.update _ _ _ b = _
        rw [Function.update_of_ne, Function.update_of_ne hb.2, he b hb.1]
        rintro rfl; exact hb.1 (List.getLast_mem _)

theorem queue_dequeue_spec {h0 : Heap α} {q : Queue α} {l} (hr : QueueRep h0 q l) :
    ∃ q', queue_dequeue q = .ok (l.head?.getD none, q') ∧ QueueRep h0 q' l.tail := by
  have he := queue_empty_eq hr
  unfold queue_dequeue
  obtain ⟨hl, as, ho, hlast⟩ := hr
  cases ht : q.first with
  | none =>
    rw [ht] at ho
    obtain ⟨rfl, rfl⟩ := ho.1.none_inv
    rw [he]
    exact ⟨q, by simp, hl, [], by rw [ht]; exact ho, by simp⟩
  | some p =>
    rw [ht] at ho
    obtain ⟨as', x, l', nx, rfl, rfl, h1, h2⟩ := ho.pop
    rw [he]
    refine ⟨{ heap := Function.update q.heap p none, first := nx, last := q.last,
              length := q.length - 1 }, ?_, ?_, as', h2, ?_⟩
    · simp [deref, cfree, h1]
    · simp [hl]
    · intro h
      rw [hlast (by simp), List.getLast_cons h]

theorem queue_first_spec {h0 : Heap α} {q : Queue α} {l} (hr : QueueRep h0 q l) :
    queue_first q = .ok (l.head?.getD none) := by
  have he := queue_empty_eq hr
  unfold queue_first
  obtain ⟨hl, as, ho, _⟩ := hr
  cases ht : q.first with
  | none =>
    rw [ht] at ho
    obtain ⟨rfl, rfl⟩ := ho.1.none_inv
    simp [he]
  | some p =>
    rw [ht] at ho
    obtain ⟨as', x, l', nx, rfl, rfl, h1, h2⟩ := ho.pop
    simp [he, deref, h1]

theorem queue_clear_spec {h0 : Heap α} : ∀ (fuel : ℕ) {q : Queue α} {l}, QueueRep h0 q l →
    (queue_clear fuel q).Holds (fun q' => QueueRep h0 q' []) ∧
    (l.length < fuel → ∃ q', queue_clear fuel q = .ok q')
  | 0, _, _, _ => ⟨trivial, by simp⟩
  | fuel + 1, q, l, hr => by
    unfold queue_clear
    rw [queue_empty_eq hr]
    cases l with
    | nil => exact ⟨hr, fun _ => ⟨q, rfl⟩⟩
    | cons x l =>
      obtain ⟨q', h1, h2⟩ := queue_dequeue_spec hr
      have ih := queue_clear_spec (h0 := h0) fuel h2
      simp only [List.isEmpty_cons, Bool.false_eq_true, if_false, h1, Res.bind_ok]
      refine ⟨ih.1, fun h => ih.2 (by simpa using h)⟩

theorem queueStep_spec {h0 : Heap α} {q : Queue α} {l} (hr : QueueRep h0 q l) (o : Op α) :
    (queueStep q o).Holds fun r => r.1 = (fifo l o).1 ∧ QueueRep h0 r.2 (fifo l o).2 := by
  cases o with
  | put a x =>
    refine (queue_enqueue_spec hr a x).bind fun s' h => ⟨rfl, h⟩
  | take =>
    obtain ⟨s', h1, h2⟩ := queue_dequeue_spec hr
    simp only [queueStep, h1, Res.bind_ok]
    exact ⟨rfl, h2⟩
  | peek =>
    simp only [queueStep, queue_first_spec hr, Res.bind_ok]
    exact ⟨rfl, hr⟩
  | isEmpty => exact ⟨by simp [fifo, queue_empty_eq hr], hr⟩
  | getLength => exact ⟨by simp [fifo, hr.1], hr⟩
  | clear fuel =>
    refine ((queue_clear_spec fuel hr).1).bind fun s' h => ⟨rfl, h⟩

/-! ## Histories -/

theorem run_spec {S : Type} {step : S → Op α → Res (Out α × S)}
    {spec : List (Ptr α) → Op α → Out α × List (Ptr α)} {R : S → List (Ptr α) → Prop}
    (hs : ∀ s l o, R s l → (step s o).Holds fun r => r.1 = (spec l o).1 ∧ R r.2 (spec l o).2) :
    ∀ (ops : List (Op α)) (s : S) (l : List (Ptr α)), R s l →
      (run step s ops).Holds fun r => r.1 = (specRun spec l ops).1 ∧ R r.2 (specRun spec l ops).2
  | [], _, _, h => ⟨rfl, h⟩
  | o :: os, s, l, h => by
    unfold run
    refine (hs s l o h).bind ?_
    rintro ⟨r, s'⟩ ⟨h1, h2⟩
    refine (run_spec hs os s' _ h2).bind ?_
    rintro ⟨rs, s''⟩ ⟨h3, h4⟩
    exact ⟨by simp only [specRun]; rw [← h1, ← h3], h4⟩

/-- Histories that may only be cut by the allocator never end in UB, and end with `ok` when the
addresses are fresh. -/
theorem stack_create_rep (h0 : Heap α) : StackRep h0 (stack_create h0) [] :=
  ⟨rfl, [], trivial, by simp, by simp, fun _ _ => rfl⟩

theorem queue_create_rep (h0 : Heap α) : QueueRep h0 (queue_create h0) [] :=
  ⟨rfl, [], ⟨trivial, by simp, by simp, fun _ _ => rfl⟩, by simp⟩

end DS
