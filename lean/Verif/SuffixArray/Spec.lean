/-
The sorted suffixes of a string.
-/
import Mathlib.Data.List.Basic
import Mathlib.Order.Lex

namespace Altruct.SuffixArray

/-- `p` lists the positions `0, …, |s|` in the lexicographic order of the suffixes that start there. -/
def SortedSuffixes (s : List Nat) (p : List Nat) : Prop :=
  p.Perm (List.range (s.length + 1)) ∧ (p.map fun i => s.drop i).Pairwise (· < ·)

/-- The length of the longest common prefix. -/
def lcp : List Nat → List Nat → Nat
  | a :: x, b :: y => if a = b then lcp x y + 1 else 0
  | _, _ => 0

/-- The substring `[b, e)`. -/
def substr (s : List Nat) (b e : Nat) : List Nat := (s.take e).drop b

/-- `-1`, `0` or `1`: the lexicographic comparison of two strings. -/
def order (x y : List Nat) : Int := if x < y then -1 else if y < x then 1 else 0

end Altruct.SuffixArray
