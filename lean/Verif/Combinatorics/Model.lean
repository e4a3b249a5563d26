/-
Model of algorithm/math/combinatorics.h: `next_combination`, `next_partition`, `nth_permutation`.

A range `[begin, end)` is the list of its elements; an iterator is an index into it (`end` is the length).
Reading or writing outside the range, moving before `begin` and running out of fuel are `none`.
Integers are unbounded.
-/
import Verif.Common.Vec
import Mathlib.Data.List.Sort

namespace Altruct.Combinatorics

variable {α : Type}

/-- `std::swap(*a, *b)`, combinatorics.h:20, 22, 23, 75. -/
def swapAt (l : List α) (a b : Nat) : Option (List α) := do
  let x ← rd l a
  let y ← rd l b
  let l ← wr l a y
  wr l b x

section order
variable [LT α] [DecidableLT α]

/-- combinatorics.h:18 `for (rd = wr; rd != end && !(*cmp < *rd); ++rd);`; `k` is `end - rd`. -/
def scan (l : List α) (c : α) : Nat → Nat → Option Nat
  | 0, i => some i
  | k + 1, i => do
    let x ← rd l i
    if c < x then some i else scan l c k (i + 1)

/-- combinatorics.h:22 the first bubble loop; the new `rd` is returned with the elements. -/
def bubbleL (w : Nat) : Nat → List α → Option (List α × Nat)
  | 0, _ => none
  | next + 1, l =>
    if next = w then some (l, next + 1)
    else do
      let x ← rd l (next + 1)
      let y ← rd l next
      if x < y then do
        let l ← swapAt l next (next + 1)
        bubbleL w next l
      else some (l, next + 1)

/-- combinatorics.h:23 the second bubble loop; `k` is `end - 1 - rd`. -/
def bubbleR : Nat → Nat → List α → Option (List α)
  | 0, _, l => some l
  | k + 1, r, l => do
    let x ← rd l r
    let y ← rd l (r + 1)
    if y < x then do
      let l ← swapAt l (r + 1) r
      bubbleR k (r + 1) l
    else some l
end order

section
variable [LinearOrder α]

/-- combinatorics.h:27 `std::sort(cur, end)`. -/
def sortFrom (cur : Nat) (l : List α) : List α := l.take cur ++ (l.drop cur).insertionSort (· ≤ ·)

/-- combinatorics.h:17-30 the loop over `wr`; `k` is `mid - wr`.
The flag says whether `wr` reached `mid`. -/
def pickLoop (cur : Nat) : Nat → Nat → Nat → List α → Option (Bool × List α)
  | 0, _, _, l => some (true, l)
  | k + 1, cmp, w, l => do
    let c ← rd l cmp
    let r ← scan l c (l.length - w) w
    if r ≠ l.length then do
      let l ← swapAt l w r
      let p ← bubbleL w r l
      let l ← bubbleR (p.1.length - 1 - p.2) p.2 p.1
      pickLoop cur k w (w + 1) l
    else some (false, sortFrom cur l)

/-- combinatorics.h:16-33 the loop over `cur`, going down. -/
def combLoop (m : Nat) : Nat → List α → Option (Bool × List α)
  | 0, l => some (false, l)
  | cur + 1, l => do
    let p ← pickLoop cur (m - cur) cur cur l
    if p.1 then some (true, p.2) else combLoop m cur p.2

/-- combinatorics.h:13-34 `next_combination(begin, begin + m, end)`. -/
def nextCombination (l : List α) (m : Nat) : Option (Bool × List α) := combLoop m m l
end

/-- combinatorics.h:48-51 greedy filling from `it` on. Every round writes one more element, so
`fuel` above the length of the range never runs out before an access out of bounds. -/
def fill (xm : Int) : Nat → Nat → Int → List Int → Option (List Int)
  | 0, _, _, _ => none
  | fuel + 1, i, x, v =>
    if x > xm then do
      let v ← wr v i xm
      fill xm fuel (i + 1) (x - xm) v
    else wr v i x

/-- combinatorics.h:43-57 the loop of `next_partition`; the first argument is `it - begin`. -/
def partLoop : Nat → Int → Int → List Int → Option (Bool × List Int)
  | 0, _, x, v => do
    let v ← wr v 0 x
    some (false, v)
  | i + 1, l, x, v => do
    let a ← rd v i
    if a - 1 > 0 ∧ (x + a - 1).tdiv (a - 1) ≤ l + 1 - 1 then do
      let v ← fill (a - 1) (v.length + 1) i (x + a) v
      some (true, v)
    else do
      let v ← wr v i 0
      partLoop i (l + 1) (x + a) v

/-- combinatorics.h:39-58 `next_partition(begin, end)`. -/
def nextPartition (v : List Int) : Option (Bool × List Int) := partLoop v.length 0 0 v

/-- combinatorics.h:69 `while (i < d && f <= o) f *= ++i;`; the first argument is `d - i`. -/
def grow (o : Nat) : Nat → Nat → Nat → Nat × Nat
  | 0, i, f => (i, f)
  | c + 1, i, f => if f ≤ o then grow o c (i + 1) (f * (i + 1)) else (i, f)

/-- combinatorics.h:72 `while (i > 1 && f > o) f /= i--;`. -/
def shrink (o : Nat) : Nat → Nat → Nat × Nat
  | 0, f => (0, f)
  | 1, f => (1, f)
  | i + 2, f => if f > o then shrink o (i + 1) (f / (i + 2)) else (i + 2, f)

/-- combinatorics.h:74-76 the element at `b + k` is moved to `b`. -/
def bring (b : Nat) : Nat → List α → Option (List α)
  | 0, l => some l
  | k + 1, l => do
    let l ← swapAt l (b + (k + 1)) (b + (k + 1) - 1)
    bring b k l

/-- combinatorics.h:70-77 the main loop. -/
def permLoop : Nat → Nat → Nat → Nat → List α → Option (List α)
  | fuel, i, f, o, l =>
    if i ≤ 1 then some l
    else match fuel with
      | 0 => none
      | fuel + 1 =>
        if f = 0 then none
        else
          let o := o % f
          let p := shrink o i f
          if l.length < p.1 + 1 ∨ p.2 = 0 then none
          else do
            let l ← bring (l.length - p.1 - 1) (o / p.2) l
            permLoop fuel p.1 p.2 o l

/-- combinatorics.h:65-78 `nth_permutation(begin, end, o)` for `o >= 0` (a negative `o` changes
nothing: both loops are skipped). Simplified: `f` does not overflow (it never exceeds `d * o`). -/
def nthPermutation (l : List α) (o : Nat) : Option (List α) :=
  let p := grow o l.length 0 1
  permLoop p.1 p.1 p.2 o l

end Altruct.Combinatorics
