/-
The leftmost minimum of a range.
-/
import Mathlib.Data.List.Basic

namespace Altruct.Rmq

variable {α : Type}

/-- A strict weak ordering. -/
structure WeakOrder (lt : α → α → Bool) : Prop where
  asymm : ∀ x y, lt x y = true → lt y x = false
  neg : ∀ x y z, lt x y = false → lt y z = false → lt x z = false

/-- `i` is the first position in `[b, e)` of an element that no other element of the range is less than. -/
def LeftmostMin (lt : α → α → Bool) (xs : List α) (b e i : Nat) : Prop :=
  b ≤ i ∧ i < e ∧ ∃ x, xs[i]? = some x ∧ ∀ j y, b ≤ j → j < e → xs[j]? = some y → lt y x = false ∧ (j < i → lt x y = true)

end Altruct.Rmq
