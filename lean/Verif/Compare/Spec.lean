import Verif.Compare.Model

/-! # Specification: partitions of the same nodes -/

namespace CP

variable {α : Type}

/-- Two divisions of the same nodes into groups; groups may be empty. -/
structure SameNodes (P Q : List (List α)) : Prop where
  nodupP : P.flatten.Nodup
  nodupQ : Q.flatten.Nodup
  same : ∀ x, x ∈ P.flatten ↔ x ∈ Q.flatten

/-- `x` and `y` are in a common group. -/
def Together (P : List (List α)) (x y : α) : Prop := ∃ g ∈ P, x ∈ g ∧ y ∈ g

/-- At least two groups are non-empty: two nodes are apart. -/
def Divided (P : List (List α)) : Prop := ∃ x ∈ P.flatten, ∃ y ∈ P.flatten, ¬ Together P x y

end CP
