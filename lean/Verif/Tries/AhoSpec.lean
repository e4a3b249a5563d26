/-
Occurrences of words in a text.
-/
import Mathlib.Data.List.Basic
import Mathlib.Data.Finset.Card
import Mathlib.Data.Finset.Range
import Mathlib.Algebra.BigOperators.Group.List.Basic

namespace Altruct.Tries

/-- The number of positions of `s` at which `w` begins. -/
def occurrences (w s : List Nat) : Nat := ((Finset.range (s.length + 1)).filter fun i => w <+: s.drop i).card

/-- The number of occurrences of all the words of a list, a word that is listed twice counting twice. -/
def allOccurrences (ws : List (List Nat)) (s : List Nat) : Nat := (ws.map fun w => occurrences w s).sum

end Altruct.Tries
