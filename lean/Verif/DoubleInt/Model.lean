/-
Model of `experimental/include/altruct/structure/math/double_int.h`: `prim_int<sT, uT, INTR>` and the towers
`double_int<double_int<...>>` built on it.

A `prim_int` is the unsigned value `uT(v)` of its `w`-bit word, a natural number below `2^w`; a `double_int` is the pair
of its members `hi`, `lo`.  `DI k` is the type of depth `k`.  The intrinsics `INTR`, given by the user, are what the
structures of test/structure/math/double_int_test.cpp:12-39 do.  Signed overflow in `prim_int::operator +=` is taken to wrap
(it does for `int8_t` and `int16_t`, by promotion; see `addOverflows` for the wider types), and so is the product in
`prim_int::unsigned_mul`.

Not modelled: `operator <<=` of `double_int` (it is ill-formed once instantiated: `hi |= double_int(lo)...` has no
matching operator), hence `>>=` and the other right shifts only for `double_int<prim_int>`; the commented-out conversions.
-/
import Mathlib.Data.Nat.Size
import Mathlib.Data.Nat.Bitwise
import Mathlib.Data.Int.Basic

namespace Altruct.DoubleInt

/-- double_int.h:30-38, 322-328 the type of depth `k`: `hi`, `lo`. -/
def DI : Nat → Type
  | 0 => Nat
  | k + 1 => DI k × DI k

/-- double_int.h:34 and 325 `type_bits`. -/
def bits (w k : Nat) : Nat := w * 2 ^ k

/-- A word holding the integer `z`: double_int.h:336 `sT(val)`. -/
def word (w : Nat) (z : Int) : Nat := (z % (2 ^ w : Nat)).toNat

/-- double_int.h:41 (with 35 `sign`) and 331-336: construction from an `int`. -/
def ofInt (w : Nat) : (k : Nat) → Int → DI k
  | 0, z => word w z
  | k + 1, z => (ofInt w k (if z < 0 then -1 else 0), ofInt w k z)

/-- double_int.h:48, 339 `is_negative`. -/
def isNeg (w : Nat) : (k : Nat) → DI k → Bool
  | 0, (x : Nat) => decide (2 ^ (w - 1) ≤ x)
  | k + 1, x => isNeg w k x.1

/-- double_int.h:42 construction from the half type. -/
def ofHalf (w k : Nat) (x : DI k) : DI (k + 1) := (ofInt w k (if isNeg w k x then -1 else 0), x)

/-- double_int.h:51, 342 `==`. -/
def eqB : (k : Nat) → DI k → DI k → Bool
  | 0, (x : Nat), (y : Nat) => decide (x = y)
  | k + 1, x, y => eqB k x.1 y.1 && eqB k x.2 y.2

/-- double_int.h:61, 390 `unsigned_lt`. -/
def ult : (k : Nat) → DI k → DI k → Bool
  | 0, (x : Nat), (y : Nat) => decide (x < y)
  | k + 1, x, y => ult k x.1 y.1 || (eqB k x.1 y.1 && ult k x.2 y.2)

/-- double_int.h:62, 391 `unsigned_gt`. -/
def ugt : (k : Nat) → DI k → DI k → Bool
  | 0, (x : Nat), (y : Nat) => decide (x > y)
  | k + 1, x, y => ugt k x.1 y.1 || (eqB k x.1 y.1 && ugt k x.2 y.2)

/-- double_int.h:63, 392 `unsigned_lte`. -/
def ule : (k : Nat) → DI k → DI k → Bool
  | 0, (x : Nat), (y : Nat) => decide (x ≤ y)
  | k + 1, x, y => ult k x.1 y.1 || (eqB k x.1 y.1 && ule k x.2 y.2)

/-- double_int.h:64, 393 `unsigned_gte`. -/
def uge : (k : Nat) → DI k → DI k → Bool
  | 0, (x : Nat), (y : Nat) => decide (x ≥ y)
  | k + 1, x, y => ugt k x.1 y.1 || (eqB k x.1 y.1 && uge k x.2 y.2)

/-- The member `v` of a `prim_int` as a signed number. -/
def sv (w x : Nat) : Int := if 2 ^ (w - 1) ≤ x then (x : Int) - (2 ^ w : Nat) else x

/-- double_int.h:55, 345 `<`. -/
def slt (w : Nat) : (k : Nat) → DI k → DI k → Bool
  | 0, (x : Nat), (y : Nat) => decide (sv w x < sv w y)
  | k + 1, x, y => slt w k x.1 y.1 || (eqB k x.1 y.1 && ult k x.2 y.2)

/-- double_int.h:56, 346 `>`. -/
def sgt (w : Nat) : (k : Nat) → DI k → DI k → Bool
  | 0, (x : Nat), (y : Nat) => decide (sv w x > sv w y)
  | k + 1, x, y => sgt w k x.1 y.1 || (eqB k x.1 y.1 && ugt k x.2 y.2)

/-- double_int.h:57, 347 `<=`. -/
def sle (w : Nat) : (k : Nat) → DI k → DI k → Bool
  | 0, (x : Nat), (y : Nat) => decide (sv w x ≤ sv w y)
  | k + 1, x, y => slt w k x.1 y.1 || (eqB k x.1 y.1 && ule k x.2 y.2)

/-- double_int.h:58, 348 `>=`. -/
def sge (w : Nat) : (k : Nat) → DI k → DI k → Bool
  | 0, (x : Nat), (y : Nat) => decide (sv w x ≥ sv w y)
  | k + 1, x, y => sgt w k x.1 y.1 || (eqB k x.1 y.1 && uge k x.2 y.2)

/-- double_int.h:67-71, 401-404 `assign_adc`: the result and the carry. -/
def adc (w : Nat) : (k : Nat) → DI k → DI k → Nat → DI k × Nat
  | 0, (x : Nat), (y : Nat), c => (((x + y + c) % 2 ^ w : Nat), (x + y + c) / 2 ^ w)
  | k + 1, x, y, c =>
    let l := adc w k x.2 y.2 c
    let h := adc w k x.1 y.1 l.2
    ((h.1, l.1), h.2)

/-- double_int.h:72-76, 405-408 `assign_sbb`: the result and the borrow. -/
def sbb (w : Nat) : (k : Nat) → DI k → DI k → Nat → DI k × Nat
  | 0, (x : Nat), (y : Nat), b => (((x + (2 ^ w - y) + 2 ^ w - b) % 2 ^ w : Nat), if x < y + b then 1 else 0)
  | k + 1, x, y, b =>
    let l := sbb w k x.2 y.2 b
    let h := sbb w k x.1 y.1 l.2
    ((h.1, l.1), h.2)

/-- double_int.h:79 prefix `++`. -/
def inc (w k : Nat) (x : DI (k + 1)) : DI (k + 1) := (adc w (k + 1) x (ofInt w (k + 1) 0) 1).1
/-- double_int.h:80 prefix `--`. -/
def dec (w k : Nat) (x : DI (k + 1)) : DI (k + 1) := (sbb w (k + 1) x (ofInt w (k + 1) 0) 1).1
/-- double_int.h:81 postfix `++`: the object afterwards and the value of the expression. -/
def postInc (w k : Nat) (x : DI (k + 1)) : DI (k + 1) × DI (k + 1) := (x, inc w k x)

/-- double_int.h:85, 374 `+=`. -/
def add (w : Nat) : (k : Nat) → DI k → DI k → DI k
  | 0, (x : Nat), (y : Nat) => ((x + y) % 2 ^ w : Nat)
  | k + 1, x, y => (adc w (k + 1) x y 0).1

/-- double_int.h:86, 375 `-=`. -/
def sub (w : Nat) : (k : Nat) → DI k → DI k → DI k
  | 0, (x : Nat), (y : Nat) => ((x + (2 ^ w - y)) % 2 ^ w : Nat)
  | k + 1, x, y => (sbb w (k + 1) x y 0).1

/-- double_int.h:90, 353 unary `-`. -/
def neg (w : Nat) : (k : Nat) → DI k → DI k
  | 0, (x : Nat) => ((2 ^ w - x) % 2 ^ w : Nat)
  | k + 1, x => sub w (k + 1) (ofInt w (k + 1) 0) x

/-- Whether `v += rhs.v` of double_int.h:374 leaves the range of `sT`: undefined behaviour for `int32_t` and `int64_t`. -/
def addOverflows (w x y : Nat) : Bool := decide (¬ (-(2 ^ (w - 1) : Nat) ≤ sv w x + sv w y ∧ sv w x + sv w y < (2 ^ (w - 1) : Nat)))

/-- double_int.h:94-110, 411-415 `unsigned_mul_full`. -/
def mulFull (w : Nat) : (k : Nat) → DI k → DI k → DI (k + 1)
  | 0, (x : Nat), (y : Nat) => ((x * y / 2 ^ w : Nat), (x * y % 2 ^ w : Nat))
  | k + 1, lhs, rhs =>
    let lsu := adc w k lhs.2 lhs.1 0
    let rsu := adc w k rhs.2 rhs.1 0
    let m0 := mulFull w k lhs.2 rhs.2
    let m2 := mulFull w k lhs.1 rhs.1
    let m1 := mulFull w k lsu.1 rsu.1
    let s0 := sbb w (k + 1) m1 m0 0
    let s2 := sbb w (k + 1) s0.1 m2 0
    let m1 := s2.1
    let a := adc w k m0.1 m1.2 0
    let b := adc w k m2.2 m1.1 a.2
    let c := if rsu.2 ≠ 0 then adc w k b.1 lsu.1 0 else (b.1, 0)
    let d := if lsu.2 ≠ 0 then adc w k c.1 rsu.1 0 else (c.1, 0)
    let hh := add w k m2.1 (ofInt w k (((lsu.2 &&& rsu.2 : Nat) : Int) - (s0.2 : Int) - (s2.2 : Int) + (b.2 : Int) + (c.2 : Int) + (d.2 : Int)))
    ((hh, d.1), (a.1, m0.2))

/-- double_int.h:112-117, 416-418 `unsigned_mul`, and `operator *` of double_int.h:119. -/
def mul (w : Nat) : (k : Nat) → DI k → DI k → DI k
  | 0, (x : Nat), (y : Nat) => (x * y % 2 ^ w : Nat)
  | k + 1, lhs, rhs =>
    let r := mulFull w k lhs.2 rhs.2
    (add w k (add w k r.1 (mul w k lhs.2 rhs.1)) (mul w k lhs.1 rhs.2), r.2)

/-- double_int.h:123-146 `unsigned_div` without the code that is commented out; `*r` is never assigned. -/
def udiv (w k : Nat) (a0 b0 : DI (k + 1)) : DI (k + 1) :=
  if ult (k + 1) a0 b0 then ofInt w (k + 1) 0 else ofInt w (k + 1) 0

/-- double_int.h:148-154 `signed_div`: the quotient and `*r`, which the caller has set to `r0`. -/
def sdiv (w k : Nat) (a0 b0 r0 : DI (k + 1)) : DI (k + 1) × DI (k + 1) :=
  let a := if isNeg w (k + 1) a0 then neg w (k + 1) a0 else a0
  let b := if isNeg w (k + 1) b0 then neg w (k + 1) b0 else b0
  let q := udiv w k a b
  let r := if isNeg w (k + 1) a0 then neg w (k + 1) r0 else r0
  (if isNeg w (k + 1) a0 ≠ isNeg w (k + 1) b0 then neg w (k + 1) q else q, r)

/-- double_int.h:156 `/`. -/
def div (w k : Nat) (a b : DI (k + 1)) : DI (k + 1) := (sdiv w k a b (ofInt w (k + 1) 0)).1
/-- double_int.h:157 `%`. -/
def mod (w k : Nat) (a b : DI (k + 1)) : DI (k + 1) := (sdiv w k a b (ofInt w (k + 1) 0)).2

/-- double_int.h:162, 382 `&=`. -/
def andD : (k : Nat) → DI k → DI k → DI k
  | 0, (x : Nat), (y : Nat) => (x &&& y : Nat)
  | k + 1, x, y => (andD k x.1 y.1, andD k x.2 y.2)
/-- double_int.h:163, 383 `|=`. -/
def orD : (k : Nat) → DI k → DI k → DI k
  | 0, (x : Nat), (y : Nat) => (x ||| y : Nat)
  | k + 1, x, y => (orD k x.1 y.1, orD k x.2 y.2)
/-- double_int.h:164, 384 `^=`. -/
def xorD : (k : Nat) → DI k → DI k → DI k
  | 0, (x : Nat), (y : Nat) => (x ^^^ y : Nat)
  | k + 1, x, y => (xorD k x.1 y.1, xorD k x.2 y.2)
/-- double_int.h:168, 362 `~`. -/
def notD (w : Nat) : (k : Nat) → DI k → DI k
  | 0, (x : Nat) => (2 ^ w - 1 - x : Nat)
  | k + 1, x => (notD w k x.1, notD w k x.2)

/-- double_int.h:396 `prim_int::assign_unsigned_shr`. -/
def shrP (x cnt : Nat) : Nat := x >>> cnt
/-- double_int.h:397 `prim_int::assign_extended_shr`. -/
def extShrP (w x cnt : Nat) (ext : Int) : Nat := (x >>> cnt) ||| (word w ext <<< (w - cnt) % 2 ^ w)
/-- double_int.h:368 `prim_int << cnt`. -/
def shlP (w x cnt : Nat) : Nat := x <<< cnt % 2 ^ w

/-- double_int.h:198-215 `assign_extended_shr` of `double_int<prim_int>`; `cnt` is an `int`. -/
def extShr (w : Nat) (x : Nat × Nat) (cnt ext : Int) : Nat × Nat :=
  if cnt ≥ 2 * w then (word w ext, word w ext)
  else if cnt > w then (word w ext, extShrP w x.1 (cnt - w).toNat ext)
  else if cnt = w then (word w ext, x.1)
  else if cnt > 0 then (extShrP w x.1 cnt.toNat ext, shrP x.2 cnt.toNat ||| shlP w x.1 (w - cnt.toNat))
  else x

/-- double_int.h:190-192 `>>=`. -/
def sar (w : Nat) (x : Nat × Nat) (cnt : Int) : Nat × Nat := extShr w x cnt (if 2 ^ (w - 1) ≤ x.1 then -1 else 0)
/-- double_int.h:194-196 `assign_unsigned_shr`. -/
def shr (w : Nat) (x : Nat × Nat) (cnt : Int) : Nat × Nat := extShr w x cnt 0

/-- double_int.h:220-223, 398 `leading_zeros_count`; for a word it is `lzc` (C23). -/
def lzc (w : Nat) : (k : Nat) → DI k → Nat
  | 0, (x : Nat) => w - Nat.size x
  | k + 1, x => if lzc w k x.1 < bits w k then lzc w k x.1 else bits w k + lzc w k x.2

/-- double_int.h:227-230, 430 `to_uint64`. -/
def toU64 (w : Nat) : (k : Nat) → DI k → Nat
  | 0, (x : Nat) => x % 2 ^ 64
  | k + 1, x => if bits w k ≥ 64 then toU64 w k x.2 else (toU64 w k x.1 <<< bits w k) % 2 ^ 64 ||| toU64 w k x.2

/-- double_int.h:439-442 the loop of `to_string16`, writing `n` digits from the right: the values of the hexadecimal
digits. -/
def hexLoop : Nat → Nat → List Nat → List Nat
  | 0, _, s => s
  | n + 1, u, s => hexLoop n (u >>> 4) ((u &&& 0xF) :: s)

/-- double_int.h:302-304, 432-444 `to_string16`. -/
def hex (w : Nat) : (k : Nat) → DI k → List Nat
  | 0, x => hexLoop (w / 4) (toU64 w 0 x) []
  | k + 1, x => hex w k x.1 ++ hex w k x.2

end Altruct.DoubleInt
