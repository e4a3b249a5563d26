/-
Flows in a network given by a matrix of capacities.
-/
import Mathlib.Algebra.BigOperators.Group.Finset.Basic
import Mathlib.Algebra.Order.BigOperators.Group.Finset
import Mathlib.Algebra.Ring.Int.Defs
import Mathlib.Algebra.Order.Group.Int

namespace Altruct.GraphAlg

/-- `x u v` is the flow from `u` to `v`: within the capacities `c`, and what enters a node other than `s` and `t` leaves it. -/
structure IsFlow (n : Nat) (c : Nat → Nat → Int) (s t : Nat) (x : Nat → Nat → Int) : Prop where
  nonneg : ∀ u v, u < n → v < n → 0 ≤ x u v
  le : ∀ u v, u < n → v < n → x u v ≤ c u v
  cons : ∀ u, u < n → u ≠ s → u ≠ t → ∑ v ∈ Finset.range n, x u v = ∑ v ∈ Finset.range n, x v u

/-- What leaves `s` minus what enters it. -/
def flowValue (n : Nat) (s : Nat) (x : Nat → Nat → Int) : Int :=
  ∑ v ∈ Finset.range n, x s v - ∑ v ∈ Finset.range n, x v s

/-- The capacity of the edges that leave the set `S`. -/
def cutCap (n : Nat) (c : Nat → Nat → Int) (S : Finset Nat) : Int := ∑ u ∈ S, ∑ v ∈ Finset.range n \ S, c u v

end Altruct.GraphAlg
