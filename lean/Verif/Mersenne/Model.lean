/-
Model of `include/altruct/algorithm/random/mersenne_twister.h`.

`uint32` is `BitVec 32`; where a literal with the suffix `UL` makes C++ compute in 64 bits, the result is
stored in 32 bits again, which gives the same word.  `pNext` is the offset from `state`.  The state is a
checked vector: `none` is an access out of bounds.  `rand`, `rand(n)` and `randNorm`, whose results are
rounded, and `seed()`, `hash` and the stream operators are not modelled.
-/
import Verif.Common.Vec
import Verif.Common.Loop
import Mathlib.Data.Rat.Defs

namespace Altruct.Mersenne

/-- A word (mersenne_twister.h:80 `uint32`). -/
abbrev Word := BitVec 32

/-- mersenne_twister.h:82 `N`. -/
def sizeN : Nat := 624

/-- mersenne_twister.h:86 `M`. -/
def sizeM : Nat := 397

/-- The generator (mersenne_twister.h:88-90). -/
structure Gen where
  state : List Word
  next : Nat
  left : Nat
deriving DecidableEq

/-- mersenne_twister.h:129 `hiBit`. -/
def hiBit (u : Word) : Word := u &&& 0x80000000#32

/-- mersenne_twister.h:130 `loBit`. -/
def loBit (u : Word) : Word := u &&& 0x00000001#32

/-- mersenne_twister.h:131 `loBits`. -/
def loBits (u : Word) : Word := u &&& 0x7fffffff#32

/-- mersenne_twister.h:132 `mixBits`. -/
def mixBits (u v : Word) : Word := hiBit u ||| loBits v

/-- mersenne_twister.h:133-135 `twist`. -/
def twist (m s0 s1 : Word) : Word := m ^^^ (mixBits s0 s1 >>> 1) ^^^ ((0#32 - loBit s1) &&& 0x9908b0df#32)

/-- mersenne_twister.h:136-143 `orDown`. -/
def orDown (u : Word) : Word :=
  let u := u ||| (u >>> 1)
  let u := u ||| (u >>> 2)
  let u := u ||| (u >>> 4)
  let u := u ||| (u >>> 8)
  u ||| (u >>> 16)

/-- mersenne_twister.h:302-303 the body of the first loop of `reload`. -/
def reloadLow (p : Nat) (st : List Word) : Option (List Word) :=
  match rd st (p + sizeM), rd st p, rd st (p + 1) with
  | some a, some b, some c => wr st p (twist a b c)
  | _, _, _ => none

/-- mersenne_twister.h:304-305 the body of the second loop of `reload`. -/
def reloadHigh (p : Nat) (st : List Word) : Option (List Word) :=
  match rd st (p + sizeM - sizeN), rd st p, rd st (p + 1) with
  | some a, some b, some c => wr st p (twist a b c)
  | _, _, _ => none

/-- mersenne_twister.h:306 the last word of `reload`. -/
def reloadLast (p : Nat) (st : List Word) : Option (List Word) :=
  match rd st (p + sizeM - sizeN), rd st p, rd st 0 with
  | some a, some b, some c => wr st p (twist a b c)
  | _, _, _ => none

/-- mersenne_twister.h:297-309 `reload`: `N - M` rounds, then `M - 1` rounds, then the last word. -/
def reload (st : List Word) : Option Gen :=
  match forUp reloadLow 0 (sizeN - sizeM) st with
  | none => none
  | some st => match forUp reloadHigh (sizeN - sizeM) (sizeN - sizeM + (sizeM - 1)) st with
    | none => none
    | some st => match reloadLast (sizeN - sizeM + (sizeM - 1)) st with
      | none => none
      | some st => some ⟨st, 0, sizeN⟩

/-- mersenne_twister.h:292-293 the body of the loop of `initialize`; `*r` is `state[i - 1]`, `*s` is `state[i]`. -/
def initBody (i : Nat) (st : List Word) : Option (List Word) :=
  match rd st (i - 1) with
  | none => none
  | some r => wr st i (1812433253#32 * (r ^^^ (r >>> 30)) + BitVec.ofNat 32 i)

/-- mersenne_twister.h:282-295 `initialize`; `st` is the array before. -/
def initState (seed : Word) (st : List Word) : Option (List Word) :=
  match wr st 0 seed with
  | none => none
  | some st => forUp initBody 1 sizeN st

/-- mersenne_twister.h:224-228 `seed(oneSeed)`. -/
def seedOne (seed : Word) (st : List Word) : Option Gen :=
  match initState seed st with
  | none => none
  | some st => reload st

/-- mersenne_twister.h:246, 254 the wrap of `i` after `++i`. -/
def wrapI (i : Nat) (st : List Word) : Option (Nat × List Word) :=
  if sizeN ≤ i then match rd st (sizeN - 1) with
    | none => none
    | some x => match wr st 0 x with
      | none => none
      | some st => some (1, st)
  else some (i, st)

/-- mersenne_twister.h:241-248 the first loop of the seeding by an array; `k` rounds left. -/
def mixLoop1 (big : List Word) : Nat → Nat → Nat → List Word → Option (Nat × List Word)
  | 0, i, _, st => some (i, st)
  | k + 1, i, j, st =>
    match rd st i, rd st (i - 1), rd big j with
    | some a, some b, some s =>
      match wr st i ((a ^^^ ((b ^^^ (b >>> 30)) * 1664525#32)) + (s + BitVec.ofNat 32 j)) with
      | none => none
      | some st => match wrapI (i + 1) st with
        | none => none
        | some (i, st) => mixLoop1 big k i (if big.length ≤ j + 1 then 0 else j + 1) st
    | _, _, _ => none

/-- mersenne_twister.h:250-256 the second loop of the seeding by an array; `k` rounds left. -/
def mixLoop2 : Nat → Nat → List Word → Option (Nat × List Word)
  | 0, i, st => some (i, st)
  | k + 1, i, st =>
    match rd st i, rd st (i - 1) with
    | some a, some b =>
      match wr st i ((a ^^^ ((b ^^^ (b >>> 30)) * 1566083941#32)) - BitVec.ofNat 32 i) with
      | none => none
      | some st => match wrapI (i + 1) st with
        | none => none
        | some (i, st) => mixLoop2 k i st
    | _, _ => none

/-- mersenne_twister.h:230-259 `seed(bigSeed, seedLength)`; the length must fit in an `int`. -/
def seedArray (big : List Word) (st : List Word) : Option Gen :=
  if 2 ^ 31 ≤ big.length then none else
  match initState 19650218#32 st with
  | none => none
  | some st => match mixLoop1 big (if big.length < sizeN then sizeN else big.length) 1 0 st with
    | none => none
    | some (i, st) => match mixLoop2 (sizeN - 1) i st with
      | none => none
      | some (_, st) => match wr st 0 0x80000000#32 with
        | none => none
        | some st => reload st

/-- mersenne_twister.h:205-209 the tempering of `randInt`. -/
def temper (s1 : Word) : Word :=
  let s1 := s1 ^^^ (s1 >>> 11)
  let s1 := s1 ^^^ ((s1 <<< 7) &&& 0x9d2c5680#32)
  let s1 := s1 ^^^ ((s1 <<< 15) &&& 0xefc60000#32)
  s1 ^^^ (s1 >>> 18)

/-- mersenne_twister.h:197-210 `randInt()`: the value and the generator after it. -/
def randInt (g : Gen) : Option (Word × Gen) :=
  match (if g.left = 0 then reload g.state else some g) with
  | none => none
  | some g => match rd g.state g.next with
    | none => none
    | some s1 => some (temper s1, ⟨g.state, g.next + 1, g.left - 1⟩)

/-- mersenne_twister.h:218-221 the loop of `randInt(n)`; `fuel` bounds the number of draws (`none`: no end). -/
def drawUntil (used n : Word) : Nat → Gen → Option (Word × Gen)
  | 0, _ => none
  | fuel + 1, g => match randInt g with
    | none => none
    | some (x, g) => if n < (x &&& used) then drawUntil used n fuel g else some (x &&& used, g)

/-- mersenne_twister.h:212-222 `randInt(n)`. -/
def randIntN (fuel : Nat) (n : Word) (g : Gen) : Option (Word × Gen) := drawUntil (orDown n) n fuel g

/-- mersenne_twister.h:168-170 `randExc()`: the product with `2^-32` is exact. -/
def randExc (g : Gen) : Option (ℚ × Gen) :=
  match randInt g with
  | none => none
  | some (x, g) => some ((x.toNat : ℚ) * (1 / 4294967296), g)

/-- mersenne_twister.h:176-178 `randDblExc()`: the sum and the product are exact. -/
def randDblExc (g : Gen) : Option (ℚ × Gen) :=
  match randInt g with
  | none => none
  | some (x, g) => some (((x.toNat : ℚ) + 1 / 2) * (1 / 4294967296), g)

/-- mersenne_twister.h:184-187 `rand53()`: the sum is an integer below `2^53`, the product with `2^-53` is exact. -/
def rand53 (g : Gen) : Option (ℚ × Gen) :=
  match randInt g with
  | none => none
  | some (x, g) => match randInt g with
    | none => none
    | some (y, g) => some ((((x >>> 5).toNat : ℚ) * 67108864 + ((y >>> 6).toNat : ℚ)) * (1 / 9007199254740992), g)

/-- mersenne_twister.h:333-339 `save`: the words written to the array of `N + 1`. -/
def save (g : Gen) : List Word := g.state.take sizeN ++ [BitVec.ofNat 32 g.left]

/-- mersenne_twister.h:341-348 `load`: the words of the array, then `left`; `none` when the array is too
short or `pNext` would lie before the state. -/
def load (la : List Word) : Option Gen :=
  match rd la sizeN with
  | none => none
  | some l => if sizeN < l.toNat then none else some ⟨la.take sizeN, sizeN - l.toNat, l.toNat⟩

end Altruct.Mersenne
