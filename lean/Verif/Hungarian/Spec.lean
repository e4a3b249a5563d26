/-
Optimal assignments.
-/
import Mathlib.Algebra.BigOperators.Group.Finset.Basic
import Mathlib.Data.Fintype.Perm
import Mathlib.Algebra.Order.Ring.Int

namespace Altruct.Hungarian

/-- The total of an assignment of workers to jobs. -/
def total (n : Nat) (m : Nat → Nat → Int) (σ : Equiv.Perm (Fin n)) : Int := ∑ x : Fin n, m x (σ x)

/-- `σ` is an assignment of the largest total. -/
def Maximal (n : Nat) (m : Nat → Nat → Int) (σ : Equiv.Perm (Fin n)) : Prop := ∀ τ, total n m τ ≤ total n m σ

/-- `σ` is an assignment of the smallest total. -/
def Minimal (n : Nat) (m : Nat → Nat → Int) (σ : Equiv.Perm (Fin n)) : Prop := ∀ τ, total n m σ ≤ total n m τ

end Altruct.Hungarian
