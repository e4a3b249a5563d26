/-
Palindromes in a text.
-/
import Verif.Tries.AhoSpec
import Mathlib.Data.Finset.Image
import Mathlib.Data.Finset.Prod

namespace Altruct.Tries

/-- `w` reads the same backwards. -/
def Pal (w : List Nat) : Prop := w.reverse = w

instance (w : List Nat) : Decidable (Pal w) := inferInstanceAs (Decidable (w.reverse = w))

/-- The substring of `s` from position `i` up to (not including) position `j`. -/
def sub (s : List Nat) (i j : Nat) : List Nat := (s.take j).drop i

/-- The pairs of positions `i < j` that delimit the substrings of `s` which are palindromes. -/
def palPairs (s : List Nat) : Finset (Nat × Nat) :=
  ((Finset.range (s.length + 1)) ×ˢ (Finset.range (s.length + 1))).filter fun p => p.1 < p.2 ∧ Pal (sub s p.1 p.2)

/-- The set of the non-empty palindromes that occur in `s`. -/
def palSet (s : List Nat) : Finset (List Nat) := (palPairs s).image fun p => sub s p.1 p.2

end Altruct.Tries
