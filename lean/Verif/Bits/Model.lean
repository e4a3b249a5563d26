/-
Model of `include/altruct/algorithm/math/bits.h` and `src/algorithm/math/bits.cpp`.

Words are `BitVec w`.  The library uses the templates with unsigned words of 8, 16, 32 and
64 bits; for 8 and 16 bits C++ computes in `int` and converts back, which gives the same
word.  Shifting by `w` or more is undefined behaviour and modelled as `none` (for 8 and 16
bits C++ would still define some of these shifts; the model is stricter there).
The signed instantiations are not modelled, except `ilog2`, which converts to unsigned.
-/
import Verif.Common.Vec

namespace Altruct.Bits

variable {w : Nat}

/-- bits.h:26 `make_bit`. -/
def makeBit (w pos : Nat) : Option (BitVec w) := if pos < w then some (1#w <<< pos) else none

/-- bits.h:28 `make_ones`. -/
def makeOnes (w cnt : Nat) : Option (BitVec w) := (makeBit w cnt).map (· - 1#w)

/-- bits.h:30 `get_bit`. -/
def getBit (val : BitVec w) (pos : Nat) : Option (BitVec w) :=
  if pos < w then some ((val >>> pos) &&& 1#w) else none

/-- bits.h:32 `set_bit`. -/
def setBit (val : BitVec w) (pos : Nat) : Option (BitVec w) :=
  if pos < w then some (val ||| (1#w <<< pos)) else none

/-- bits.h:34 `flip_bit`. -/
def flipBit (val : BitVec w) (pos : Nat) : Option (BitVec w) :=
  if pos < w then some (val ^^^ (1#w <<< pos)) else none

/-- bits.h:36 `clear_bit`. -/
def clearBit (val : BitVec w) (pos : Nat) : Option (BitVec w) :=
  if pos < w then some (val &&& ~~~(1#w <<< pos)) else none

/-- bits.h:38-41 `erase_bit`. -/
def eraseBit (val : BitVec w) (pos : Nat) : Option (BitVec w) :=
  if pos < w then
    let loMask := (1#w <<< pos) - 1#w
    some (((val >>> 1) &&& ~~~loMask) ||| (val &&& loMask))
  else none

/-- bits.h:43 `mix_bits`. -/
def mixBits (val0 val1 mask : BitVec w) : BitVec w := (val0 &&& ~~~mask) ||| (val1 &&& mask)

/-- bits.h:85-96 the recursive template `_or_down<I, SHIFT>`. -/
def orDownFrom (shift : Nat) (x : BitVec w) : BitVec w :=
  if shift = 0 then x else orDownFrom (shift / 2) (x ||| (x >>> shift))
termination_by shift
decreasing_by omega

/-- bits.h:97-100 `or_down`. -/
def orDown (x : BitVec w) : BitVec w := orDownFrom (w / 2) x

/-- bits.h:112-123 the recursive template `_xor_down<I, SHIFT>`. -/
def xorDownFrom (shift : Nat) (x : BitVec w) : BitVec w :=
  if shift = 0 then x else xorDownFrom (shift / 2) (x ^^^ (x >>> shift))
termination_by shift
decreasing_by omega

/-- bits.h:124-127 `xor_down`. -/
def xorDown (x : BitVec w) : BitVec w := xorDownFrom (w / 2) x

/-- bits.h:133-136 `neg`. -/
def neg (x : BitVec w) : BitVec w := ~~~x + 1#w

/-- bits.h:141-144 `gray_to_bin`. -/
def grayToBin (x : BitVec w) : BitVec w := xorDown x

/-- bits.h:149-152 `bin_to_gray`. -/
def binToGray (x : BitVec w) : BitVec w := x ^^^ (x >>> 1)

/-- bits.h:157-161 `hi_bit`. -/
def hiBit (x : BitVec w) : BitVec w :=
  let x := orDown x
  x ^^^ (x >>> 1)

/-- bits.h:166-169 `lo_bit`. -/
def loBit (x : BitVec w) : BitVec w := x &&& neg x

/-- bits.h:175-178 `is_not_pow2`. -/
def isNotPow2 (x : BitVec w) : Bool := (x &&& (x - 1#w)) != 0#w

/-- bits.h:184-187 `is_pow2`. -/
def isPow2 (x : BitVec w) : Bool := (x &&& (x - 1#w)) == 0#w

/-- bits.h:193-196 `next_pow2`. -/
def nextPow2 (x : BitVec w) : BitVec w := orDown x + 1#w

/-- bits.h:218-222 `sign_mag`. -/
def signMag (x : BitVec w) : BitVec w :=
  let hi := 1#w <<< (w - 1)
  if x &&& hi ≠ 0#w then neg x ^^^ hi else x

/-! ### The tables of bits.cpp -/

/-- The four word widths of the overloads. -/
inductive Wd | w8 | w16 | w32 | w64

/-- `bit_size<I>::value` (bits.h:17-22). -/
@[reducible] def Wd.bits : Wd → Nat
  | .w8 => 8 | .w16 => 16 | .w32 => 32 | .w64 => 64

/-- bits.cpp:16-18 `_tbl_ilog2_32`. -/
def tblIlog32 : List Nat := [
  0, 9, 1, 10, 13, 21, 2, 29, 11, 14, 16, 18, 22, 25, 3, 30,
  8, 12, 20, 28, 15, 17, 24, 7, 19, 27, 23, 6, 26, 5, 4, 31]

/-- bits.cpp:19-23 `_tbl_ilog2_64`. -/
def tblIlog64 : List Nat := [
  0, 58, 1, 59, 47, 53, 2, 60, 39, 48, 27, 54, 33, 42, 3, 61,
  51, 37, 40, 49, 18, 28, 20, 55, 30, 34, 11, 43, 14, 22, 4, 62,
  57, 46, 52, 38, 26, 32, 41, 50, 36, 17, 19, 29, 10, 13, 21, 56,
  45, 25, 31, 35, 16, 9, 12, 44, 24, 15, 8, 23, 7, 6, 5, 63]

/-- bits.cpp:51 `_tbl_rev_4`. -/
def tblRev4 : List (BitVec 8) := [0, 8, 4, 12, 2, 10, 6, 14, 1, 9, 5, 13, 3, 11, 7, 15]

/-- The global tables (bits.cpp:13, 40, 52, 53). -/
structure Tables where
  ilog16 : List Nat
  cnt16 : List Nat
  rev8 : List (BitVec 8)
  rev16 : List (BitVec 16)

/-- The shape of the loops at bits.cpp:71-74: `for (; x < x + m; x++) t[x] = f(t, x)`. -/
def fillTable {α : Type} (f : List α → Nat → Option α) : Nat → Nat → List α → Option (List α)
  | 0, _, t => some t
  | m + 1, x, t => do
    let y ← f t x
    let t ← wr t x y
    fillTable f m (x + 1) t

/-- Storing an `int` in an `int8_t` / `uint8_t` table; `none` if it does not fit in 7 bits. -/
def store8 (y : Nat) : Option Nat := if y < 128 then some y else none

/-- bits.cpp:71 body. -/
def ilogBody (t : List Nat) (x : Nat) : Option Nat := do store8 ((← rd t (x / 2)) + 1)

/-- bits.cpp:72 body. -/
def cntBody (t : List Nat) (x : Nat) : Option Nat := do store8 ((← rd t (x / 2)) + (x &&& 1))

/-- bits.cpp:59 `_bit_reverse_8`. -/
def rev8Slow (x : BitVec 8) : Option (BitVec 8) := do
  let a ← rd tblRev4 (x &&& 0xF#8).toNat
  let b ← rd tblRev4 (x >>> 4).toNat
  some ((a <<< 4) ||| b)

/-- bits.cpp:60 `_bit_reverse_16`, `rev8` being the table read by `bit_reverse(uint8_t)`. -/
def rev16Slow (rev8 : List (BitVec 8)) (x : BitVec 16) : Option (BitVec 16) := do
  let a ← rd rev8 (x.setWidth 8).toNat
  let b ← rd rev8 ((x >>> 8).setWidth 8).toNat
  some ((a.setWidth 16 <<< 8) ||| b.setWidth 16)

/-- bits.cpp:70-76 `_altruct_math_bits_init`, with the table sizes `n16 = 1 << 16` and
`n8 = 1 << 8`; the tables are zero-initialised globals.
Not modelled: calls made by static initialisers of other files before this one ran. -/
def initTables (n16 n8 : Nat) : Option Tables := do
  let ilog16 ← fillTable ilogBody (n16 - 2) 2 (List.replicate n16 0)
  let cnt16 ← fillTable cntBody (n16 - 1) 1 (List.replicate n16 0)
  let rev8 ← fillTable (fun _ x => rev8Slow (BitVec.ofNat 8 x)) (n8 - 1) 1 (List.replicate n8 0#8)
  let rev16 ← fillTable (fun _ x => rev16Slow rev8 (BitVec.ofNat 16 x)) (n16 - 1) 1
    (List.replicate n16 0#16)
  some ⟨ilog16, cnt16, rev8, rev16⟩

/-- bits.cpp:77 the initialisation at start-up. -/
def init : Option Tables := initTables (2 ^ 16) (2 ^ 8)

variable (T : Tables)

/-- bits.cpp:25-29 `ilog2` of unsigned words. -/
def ilog2 : (W : Wd) → BitVec W.bits → Option Nat
  | .w8, x => rd T.ilog16 x.toNat
  | .w16, x => rd T.ilog16 x.toNat
  | .w32, x => rd tblIlog32 ((orDown x * 0x07C4ACDD#32) >>> 27).toNat
  | .w64, x => rd tblIlog64 ((orDown x * 0x03f6eaf2cd271461#64) >>> 58).toNat

/-- bits.cpp:31-34 `ilog2` of signed integers: conversion to the unsigned type. -/
def ilog2Signed (W : Wd) (x : Int) : Option Nat := ilog2 T W (BitVec.ofInt W.bits x)

/-- bits.cpp:42-43 `bit_cnt1(uint16_t)` (and `uint8_t`, zero-extended index). -/
def cnt16 (x : BitVec 16) : Option Nat := rd T.cnt16 x.toNat

/-- bits.cpp:44 `bit_cnt1(uint32_t)`. -/
def cnt32 (x : BitVec 32) : Option Nat := do
  let a ← cnt16 T (x.setWidth 16)
  let b ← cnt16 T ((x >>> 16).setWidth 16)
  some (a + b)

/-- bits.cpp:42-45 `bit_cnt1`. -/
def bitCnt1 : (W : Wd) → BitVec W.bits → Option Nat
  | .w8, x => rd T.cnt16 x.toNat
  | .w16, x => cnt16 T x
  | .w32, x => cnt32 T x
  | .w64, x => do
    let a ← cnt32 T (x.setWidth 32)
    let b ← cnt32 T ((x >>> 32).setWidth 32)
    some (a + b)

/-- bits.cpp:56 `bit_reverse(uint16_t)`. -/
def rev16 (x : BitVec 16) : Option (BitVec 16) := rd T.rev16 x.toNat

/-- bits.cpp:57 `bit_reverse(uint32_t)`. -/
def rev32 (x : BitVec 32) : Option (BitVec 32) := do
  let a ← rev16 T (x.setWidth 16)
  let b ← rev16 T ((x >>> 16).setWidth 16)
  some ((a.setWidth 32 <<< 16) ||| b.setWidth 32)

/-- bits.cpp:55-58 `bit_reverse`. -/
def bitReverse : (W : Wd) → BitVec W.bits → Option (BitVec W.bits)
  | .w8, x => rd T.rev8 x.toNat
  | .w16, x => rev16 T x
  | .w32, x => rev32 T x
  | .w64, x => do
    let a ← rev32 T (x.setWidth 32)
    let b ← rev32 T ((x >>> 32).setWidth 32)
    some ((a.setWidth 64 <<< 32) ||| b.setWidth 64)

/-- bits.h:201-204 `lzc`. -/
def lzc (W : Wd) (x : BitVec W.bits) : Option Int := do
  let c ← bitCnt1 T W (orDown x)
  some ((W.bits : Int) - c)

/-- bits.h:209-212 `tzc`. -/
def tzc (W : Wd) (x : BitVec W.bits) : Option Nat := bitCnt1 T W (loBit x - 1#_)

/-- bits.h:228-235 `next_combination`: the new value of `x` and the returned flag. -/
def nextCombination (W : Wd) (x : BitVec W.bits) (size : Nat) : Option (BitVec W.bits × Bool) := do
  let m ← makeOnes W.bits size
  let v := (x + loBit x) &&& m
  let t ← tzc T W x
  if t < W.bits then
    let u := (v ^^^ x) >>> t
    let y := v ||| (u >>> 2)
    some (if v ≠ 0#_ then y else u, v ≠ 0#_)
  else none

end Altruct.Bits
