/-
Model of `include/altruct/algorithm/random/random.h` and `include/altruct/algorithm/random/xorshift.h`.

Unsigned words are `BitVec w`.  For 8 and 16 bits C++ computes in `int` and converts back, which gives
the same word.  The `double` results (`integer_to_double_0_1`, `next_0_1`) are not modelled, and
`integer_to_range` is modelled for `U = V` only, as it is used by the generators.
-/
import Verif.Common.Vec

namespace Altruct.Random

variable {w : Nat}

/-- random.h:27-31 `integer_to_range`. -/
def toRange (val mn mx : BitVec w) : BitVec w :=
  let width := mx - mn + 1#w
  if width = 0#w then val else mn + val % width

/-- random.h:36-39 `neg`. -/
def neg (val : BitVec w) : BitVec w := 0#w - val

/-- random.h:47-51 `biggest_multiple`. -/
def biggestMultiple (width : BitVec w) : BitVec w :=
  if width = 0#w then 0#w else neg (neg width % width)

/-- random.h:77-79 the loop; `next i` is the `i`-th value produced by `next`, `k` values have been consumed
and `iter` is the counter.  The result is the last value and the number of values consumed. -/
def uniformLoop (next : Nat → BitVec w) (multiple : BitVec w) (k iter : Nat) : BitVec w × Nat :=
  let val := next k
  if multiple ≠ 0#w ∧ multiple ≤ val ∧ iter + 1 < 20 then uniformLoop next multiple (k + 1) (iter + 1)
  else (val, k + 1)
termination_by 20 - iter

/-- random.h:72-81 `uniform_next`: the result and the number of values consumed. -/
def uniformNext (next : Nat → BitVec w) (mn mx : BitVec w) : BitVec w × Nat :=
  let r := uniformLoop next (biggestMultiple (mx - mn + 1#w)) 0 0
  (toRange r.1 mn mx, r.2)

/-- xorshift.h:45-47 the new state of `xorshift_64star::next`. -/
def step64 (x : BitVec 64) : BitVec 64 :=
  let x := x ^^^ (x >>> 12)
  let x := x ^^^ (x <<< 25)
  x ^^^ (x >>> 27)

/-- xorshift.h:43-49 `xorshift_64star::next`: the result and the new state. -/
def next64 (x : BitVec 64) : BitVec 64 × BitVec 64 := (step64 x * 2685821657736338717#64, step64 x)

/-- The state of `xorshift_1024star` (xorshift.h:182-183). -/
structure St where
  s : List (BitVec 64)
  p : Nat
deriving DecidableEq

/-- xorshift.h:121-123 the loop that fills the state; `c` values left. -/
def seedLoop : Nat → BitVec 64 → List (BitVec 64)
  | 0, _ => []
  | c + 1, x => (next64 x).1 :: seedLoop c (next64 x).2

/-- xorshift.h:119-125 `xorshift_1024star::seed(uint64_t)`. -/
def seed64 (state64 : BitVec 64) : St := ⟨seedLoop 16 state64, 0⟩

/-- xorshift.h:131-136 `xorshift_1024star::seed(uint64_t*)`; `none` reads past the given array. -/
def seedArr (state : List (BitVec 64)) : Option St :=
  if 16 ≤ state.length then some ⟨state.take 16, 0⟩ else none

/-- xorshift.h:141-151 `xorshift_1024star::next`: the result and the new state; `none` is an access outside of
`s_`. -/
def next1024 (t : St) : Option (BitVec 64 × St) := do
  let s0 ← rd t.s t.p
  let p := (t.p + 1) &&& 15
  let s1 ← rd t.s p
  let s1 := s1 ^^^ (s1 <<< 31)
  let s1 := s1 ^^^ (s1 >>> 11)
  let s0 := s0 ^^^ (s0 >>> 30)
  let s ← wr t.s p (s0 ^^^ s1)
  let r ← rd s p
  some (r * 1181783497276652981#64, ⟨s, p⟩)

end Altruct.Random
