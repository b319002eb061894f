import Verif.DataStruct.Model

/-!
# Specification of stack and queue: plain lists

Independent of heaps and pointers.
-/

namespace DS

variable {α : Type}

/-- What a LIFO container with contents `l` (top first) answers, and its new contents. -/
def lifo (l : List (Ptr α)) : Op α → Out α × List (Ptr α)
  | .put _ x => (.unit, x :: l)
  | .take => (.data (l.head?.getD none), l.tail)
  | .peek => (.data (l.head?.getD none), l)
  | .isEmpty => (.bool l.isEmpty, l)
  | .getLength => (.int l.length, l)
  | .clear _ => (.unit, [])

/-- What a FIFO container with contents `l` (oldest first) answers, and its new contents. -/
def fifo (l : List (Ptr α)) : Op α → Out α × List (Ptr α)
  | .put _ x => (.unit, l ++ [x])
  | .take => (.data (l.head?.getD none), l.tail)
  | .peek => (.data (l.head?.getD none), l)
  | .isEmpty => (.bool l.isEmpty, l)
  | .getLength => (.int l.length, l)
  | .clear _ => (.unit, [])

/-- Answers of a list container along a history, and its final contents. -/
def specRun (step : List (Ptr α) → Op α → Out α × List (Ptr α)) :
    List (Ptr α) → List (Op α) → List (Out α) × List (Ptr α)
  | l, [] => ([], l)
  | l, o :: os =>
    let r := step l o
    let rs := specRun step r.2 os
    (r.1 :: rs.1, rs.2)

/-- Nodes `as` linked from `p` to `NULL` hold the payloads `l`. -/
def Chain (h : Heap α) : Option ℕ → List ℕ → List (Ptr α) → Prop
  | none, [], [] => True
  | some p, a :: as, x :: l => p = a ∧ ∃ nx, h a = some ⟨x, nx⟩ ∧ Chain h nx as l
  | _, _, _ => False

/-- The container whose first node is `p` holds `l` in a heap that otherwise is `h0`: it owns
exactly `l.length` cells, which are not cells of `h0`, and no other cell was touched or leaked. -/
def Owns (h0 h : Heap α) (p : Option ℕ) (as : List ℕ) (l : List (Ptr α)) : Prop :=
  Chain h p as l ∧ as.Nodup ∧ (∀ a ∈ as, h0 a = none) ∧ ∀ a, a ∉ as → h a = h0 a

end DS
