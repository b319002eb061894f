import Mathlib.Data.Nat.Notation
import Mathlib.Data.List.Basic

/-!
# Specification: walks and distances
-/

namespace BFS

/-- `Walk adj k s v`: there is a walk of `k` links from `s` to `v`. -/
inductive Walk (adj : ℕ → List ℕ) : ℕ → ℕ → ℕ → Prop
  | refl (s : ℕ) : Walk adj 0 s s
  | step {k s u v : ℕ} : Walk adj k s u → v ∈ adj u → Walk adj (k + 1) s v

/-- `v` is at distance `d` of `s`. -/
def IsDist (adj : ℕ → List ℕ) (s v d : ℕ) : Prop :=
  Walk adj d s v ∧ ∀ k, Walk adj k s v → d ≤ k

/-- `v` can be reached from `s`. -/
def Reach (adj : ℕ → List ℕ) (s v : ℕ) : Prop := ∃ k, Walk adj k s v

end BFS
