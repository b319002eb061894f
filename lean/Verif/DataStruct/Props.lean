import Verif.DataStruct.Lemmas

/-!
# C38  Stack is LIFO, queue is FIFO
-/

namespace DS
open RG

variable {α : Type}

/-- C38, stack.  For every heap the program already has, every sequence of calls and every choice
of addresses by the allocator (reuse of freed addresses included): no call touches a dead cell, the
answers are exactly those of a LIFO list (`NULL` on the empty container), and at the end the stack
owns exactly one cell per element and the rest of the heap is as before. -/
theorem C38_stack (h0 : Heap α) (ops : List (Op α)) :
    (run stackStep (stack_create h0) ops).Holds fun r =>
      r.1 = (specRun lifo [] ops).1 ∧
      r.2.length = ((specRun lifo [] ops).2.length : Int) ∧
      ∃ as, Owns h0 r.2.heap r.2.top as (specRun lifo [] ops).2 :=
  run_spec (R := StackRep h0) (fun _ _ o h => stackStep_spec h o) ops _ _ (stack_create_rep h0)

/-- C38, queue. Same with FIFO order, although `last` keeps a freed address after the queue was
emptied. -/
theorem C38_queue (h0 : Heap α) (ops : List (Op α)) :
    (run queueStep (queue_create h0) ops).Holds fun r =>
      r.1 = (specRun fifo [] ops).1 ∧
      r.2.length = ((specRun fifo [] ops).2.length : Int) ∧
      ∃ as, Owns h0 r.2.heap r.2.first as (specRun fifo [] ops).2 := by
  refine (run_spec (R := QueueRep h0) (fun _ _ o h => queueStep_spec h o) ops _ _
    (queue_create_rep h0)).mono ?_
  rintro r ⟨h1, h2, as, h3, _⟩
  exact ⟨h1, h2, as, h3⟩

/-- `stack_clear` ends after at most one test per element plus one, on every reachable stack, and
gives all memory back. -/
theorem C38_stack_clear (h0 : Heap α) (ops : List (Op α)) (outs : List (Out α)) (s : Stack α)
    (hs : run stackStep (stack_create h0) ops = .ok (outs, s)) (fuel : ℕ) (hf : s.length < fuel) :
    ∃ s', stack_clear fuel s = .ok s' ∧ s'.heap = h0 ∧ s'.length = 0 ∧ stack_empty s' = true := by
  have h := run_spec (R := StackRep h0) (fun _ _ o h => stackStep_spec h o) ops _ _
    (stack_create_rep h0)
  rw [hs] at h
  obtain ⟨_, hr⟩ := h
  obtain ⟨h1, h2⟩ := stack_clear_spec fuel hr
  obtain ⟨s', e⟩ := h2 (by have := hr.1; simp only at this; omega)
  rw [e] at h1
  have h1' : StackRep h0 s' [] := h1
  refine ⟨s', e, ?_, by simpa using h1'.1, stack_empty_eq h1'⟩
  obtain ⟨_, as, hc, _, _, hh⟩ := h1'
  funext a
  apply hh
  have := hc.length
  rw [List.length_eq_zero_iff.1 this]; simp

/-- The same for `queue_clear`. -/
theorem C38_queue_clear (h0 : Heap α) (ops : List (Op α)) (outs : List (Out α)) (q : Queue α)
    (hs : run queueStep (queue_create h0) ops = .ok (outs, q)) (fuel : ℕ) (hf : q.length < fuel) :
    ∃ q', queue_clear fuel q = .ok q' ∧ q'.heap = h0 ∧ q'.length = 0 ∧ queue_empty q' = true := by
  have h := run_spec (R := QueueRep h0) (fun _ _ o h => queueStep_spec h o) ops _ _
    (queue_create_rep h0)
  rw [hs] at h
  obtain ⟨_, hr⟩ := h
  obtain ⟨h1, h2⟩ := queue_clear_spec fuel hr
  obtain ⟨q', e⟩ := h2 (by have := hr.1; simp only at this; omega)
  rw [e] at h1
  have h1' : QueueRep h0 q' [] := h1
  refine ⟨q', e, ?_, by simpa using h1'.1, queue_empty_eq h1'⟩
  obtain ⟨_, as, ⟨hc, _, _, hh⟩, _⟩ := h1'
  funext a
  apply hh
  have := hc.length
  rw [List.length_eq_zero_iff.1 this]; simp

/-- An insertion succeeds whenever the allocator answers with a dead address, so histories with
fresh addresses are not cut short (the theorems above are not empty). -/
theorem C38_put_succeeds (s : Stack α) (q : Queue α) (a : ℕ) (x : Ptr α) (h0 : Heap α)
    (l : List (Ptr α)) (hs : s.heap a = none) (hq : q.heap a = none) (hr : QueueRep h0 q l) :
    (∃ s', stack_push s a x = .ok s') ∧ ∃ q', queue_enqueue q a x = .ok q' := by
  refine ⟨⟨_, by simp [stack_push, calloc, hs]; rfl⟩, ?_⟩
  have h := queue_enqueue_spec hr a x
  cases e : queue_enqueue q a x with
  | ok q' => exact ⟨q', rfl⟩
  | ub => rw [e] at h; exact h.elim
  | starved =>
    exfalso
    simp only [queue_enqueue, calloc, hq, Res.bind_ok] at e
    split_ifs at e
    unfold setNext at e
    split at e
    · simp at e
    · split at e <;> simp at e

/-- Two elements in, one out, refill at the very address the stale `last` pointer holds. -/
example : ∃ q : Queue ℕ,
    run queueStep (queue_create fun a => if a = 9 then some ⟨none, none⟩ else none)
      [.put 5 (some 1), .take, .put 5 (some 2), .put 7 (some 3), .take, .peek, .getLength] =
    .ok ([.unit, .data (some 1), .unit, .unit, .data (some 2), .data (some 3), .int 1], q) :=
  ⟨_, rfl⟩

example : ∃ s : Stack ℕ,
    run stackStep (stack_create fun a => if a = 9 then some ⟨none, none⟩ else none)
      [.put 5 (some 1), .put 7 (some 2), .take, .put 7 (some 3), .take, .peek, .take, .take] =
    .ok ([.unit, .unit, .data (some 2), .unit, .data (some 3), .data (some 1), .data (some 1),
      .data none], s) :=
  ⟨_, rfl⟩

end DS
