import Mathlib.Data.Rat.Floor
import Mathlib.Algebra.Order.Floor.Ring
import Mathlib.Data.Rat.Cast.Order
import Mathlib.Tactic.Linarith

/-!
# Outcomes of randomised C functions

A randomised function is modelled as a function of the stream of values it draws from
`gsl_rng_uniform` (a *tape*, a finite list of numbers of `[0, 1)`).  Three outcomes:

* `ok a`     the function returns;
* `starved`  the given finite prefix of the stream (or the given number of iterations of a loop
             whose end depends on a temperature schedule) does not suffice for the function to
             return; says nothing about the program except "not finished yet";
* `ub`       undefined behaviour: NULL dereference, access out of bounds, use of an uninitialised
             variable, stack overflow, unsigned wrap-around.

Theorems are stated with `Res.Holds P r`: `r` is not `ub`, and if it is `ok a` then `P a`.
-/

namespace RG

/-- Outcome of a modelled call. -/
inductive Res (α : Type _) where
  | ok (a : α)
  | starved
  | ub

namespace Res

variable {α β : Type _}

/-- Sequencing of outcomes. -/
def bind (x : Res α) (f : α → Res β) : Res β :=
  match x with
  | ok a => f a
  | starved => starved
  | ub => ub

instance : Monad Res where
  pure := ok
  bind := Res.bind

/-- A failure of an option-valued model function is undefined behaviour. -/
def ofOption : Option α → Res α
  | some a => ok a
  | none => ub

/-- Not undefined, and the postcondition holds if it returns. -/
def Holds (P : α → Prop) : Res α → Prop
  | ok a => P a
  | starved => True
  | ub => False

@[simp] theorem bind_ok (a : α) (f : α → Res β) : (Bind.bind (ok a) f : Res β) = f a := rfl
@[simp] theorem pure_eq (a : α) : (Pure.pure a : Res α) = ok a := rfl
@[simp] theorem bind_starved (f : α → Res β) : (Bind.bind (starved : Res α) f : Res β) = starved := rfl
@[simp] theorem bind_ub (f : α → Res β) : (Bind.bind (ub : Res α) f : Res β) = ub := rfl
@[simp] theorem holds_ok (P : α → Prop) (a : α) : Holds P (ok a) ↔ P a := Iff.rfl
@[simp] theorem holds_starved (P : α → Prop) : Holds P (starved : Res α) := trivial
@[simp] theorem holds_ub (P : α → Prop) : ¬ Holds P (ub : Res α) := fun h => h
@[simp] theorem ofOption_some (a : α) : ofOption (some a) = ok a := rfl
@[simp] theorem ofOption_none : ofOption (none : Option α) = ub := rfl

theorem Holds.bind {P : α → Prop} {Q : β → Prop} {x : Res α} {f : α → Res β} (h : Holds P x)
    (hf : ∀ a, P a → Holds Q (f a)) : Holds Q (x >>= f) := by
  cases x with
  | ok a => exact hf a h
  | starved => exact trivial
  | ub => exact h

theorem Holds.mono {P Q : α → Prop} {x : Res α} (h : Holds P x) (hf : ∀ a, P a → Q a) :
    Holds Q x := by
  cases x with
  | ok a => exact hf a h
  | starved => exact trivial
  | ub => exact h

end Res

/-- Values still to be returned by the random number generator. -/
abbrev Tape := List ℚ

/-- `gsl_rng_uniform`: next value; values outside `[0,1)` are never produced, a tape that
contains one stops there. -/
def draw : Tape → Res (ℚ × Tape)
  | [] => .starved
  | u :: t => if 0 ≤ u ∧ u < 1 then .ok (u, t) else .starved

/-- `floor(gsl_rng_uniform(gen) * n)`. -/
def pick (n : ℕ) (t : Tape) : Res (ℕ × Tape) := do
  let (u, t) ← draw t
  return (⌊u * n⌋₊, t)

/-- `do { x = f(gsl_rng_uniform(gen)) } while (bad(x))`. -/
def redraw (f : ℚ → ℕ) (bad : ℕ → Bool) : Tape → Res (ℕ × Tape)
  | [] => .starved
  | u :: t =>
    if 0 ≤ u ∧ u < 1 then
      if bad (f u) then redraw f bad t else .ok (f u, t)
    else .starved

theorem draw_holds (t : Tape) : (draw t).Holds (fun r => 0 ≤ r.1 ∧ r.1 < 1) := by
  cases t with
  | nil => trivial
  | cons u t => simp only [draw]; split_ifs with h <;> simp [h]

theorem floor_lt {u : ℚ} {n : ℕ} (h1 : u < 1) (hn : 0 < n) : ⌊u * n⌋₊ < n := by
  rw [Nat.floor_lt' (by omega)]
  have : (0 : ℚ) < n := by exact_mod_cast hn
  nlinarith

theorem pick_holds {n : ℕ} (hn : 0 < n) (t : Tape) : (pick n t).Holds (fun r => r.1 < n) := by
  unfold pick
  refine (draw_holds t).bind ?_
  rintro ⟨u, t'⟩ ⟨_, h1⟩
  exact floor_lt h1 hn

theorem redraw_holds {f : ℚ → ℕ} {bad : ℕ → Bool} {P : ℕ → Prop}
    (h : ∀ u, 0 ≤ u → u < 1 → P (f u)) (t : Tape) :
    (redraw f bad t).Holds (fun r => P r.1 ∧ bad r.1 = false) := by
  induction t with
  | nil => trivial
  | cons u t ih =>
    unfold redraw
    split_ifs with h1 h2
    · exact ih
    · exact ⟨h u h1.1 h1.2, by simpa using h2⟩
    · trivial

end RG
