/-
Model of algorithm/math/primes.h:368-427 (digits and strings in a base) and of
algorithm/math/fractions.h (Farey neighbours and expansions of fractions in a base).
-/
import Verif.Modulo.Model
import Verif.Fraction.Model
import Verif.Base.Model
import Verif.Common.Vec

namespace Altruct.Digits

open Altruct.Modulo

/-- primes.h:377-379 the loop `for (I t = n; t > 0; t /= b) vd.push_back(t % b);`; `fuel` bounds the
number of rounds, division by zero is `none`.  `I` and `B` are unbounded integers. -/
def digitsLoop (b : Int) : Nat → Int → List Int → Option (List Int)
  | fuel, t, vd =>
    if 0 < t then match fuel with
      | 0 => none
      | fuel + 1 => if b = 0 then none else digitsLoop b fuel (t.tdiv b) (vd ++ [t.tmod b])
    else some vd

/-- primes.h:380-382 the loop that pads; `k` bounds the rounds (the size grows by one in each), `none` if the loop has
not ended by then. -/
def padLoop (len : Int) : Nat → List Int → Option (List Int)
  | 0, _ => none
  | k + 1, vd => if (vd.length : Int) < len then padLoop len k (vd ++ [0]) else some vd

/-- primes.h:375-384 `integer_digits`; the bound on the padding loop has slack, so that only its condition ends it. -/
def integerDigits (n b len : Int) : Option (List Int) := do
  let vd ← digitsLoop b n.toNat n []
  padLoop len (len.toNat + 2) vd

/-- primes.h:394-399 the loop of `from_digits` from the back of `vd`. -/
def fromLoop (b : Int) : List Int → Int → Int
  | [], n => n
  | d :: ds, n => fromLoop b ds (n * b + d)

/-- primes.h:393-400 `from_digits`. -/
def fromDigits (vd : List Int) (b : Int) : Int := fromLoop b vd.reverse 0

/-- primes.h:408 the string literal of `integer_string`, with its terminator. -/
def alphabet : List Char := "0123456789abcdefghijklmnopqrstuvwxyz\x00".toList

/-- primes.h:410-412 the loop of `integer_string`; a digit outside the literal is `none`. -/
def stringLoop : List Int → List Char → Option (List Char)
  | [], s => some s
  | d :: ds, s => if d < 0 then none else do
    let c ← rd alphabet d.toNat
    stringLoop ds (s ++ [c])

/-- primes.h:407-414 `integer_string(digits)`. -/
def stringOfDigits (digits : List Int) : Option (List Char) := stringLoop digits.reverse []

/-- primes.h:424-426 `integer_string(n, b, len)`. -/
def integerString (n b len : Int) : Option (List Char) := do
  let vd ← integerDigits n b len
  stringOfDigits vd

/-! ### fractions.h, for the unsigned type of `w` bits -/

/-- fractions.h:38-40 `positions`: what was inserted, latest first. -/
def position (ps : List (Nat × Nat)) (p : Nat) : Option Nat := ps.lookup p

/-- fractions.h:40-51 the loop of `repeating_decimal`; `fuel` bounds the number of rounds. -/
def repLoop (w b q : Nat) : Nat → Nat → List (Nat × Nat) → Nat → List Nat → Option (List Nat × Nat)
  | fuel, p, ps, pos, digits =>
    match position ps p with
    | some i => some (digits, pos - i)
    | none => match fuel with
      | 0 => none
      | fuel + 1 =>
        if q = 0 then none else
        let bp := b * p % 2 ^ w
        let d := bp / q
        let digits := digits ++ [d]
        let p' := (bp + 2 ^ w - d * q % 2 ^ w) % 2 ^ w
        if p' = 0 then some (digits, 0)
        else repLoop w b q fuel p' ((p, pos) :: ps) (pos + 1) digits

/-- fractions.h:35-53 `repeating_decimal(b, p, q)`. -/
def repeatingDecimal (w b p q : Nat) : Option (List Nat × Nat) := repLoop w b q q p [] 0 []

/-- fractions.h:60-65 `rational_digit(n, b, p, q, &r)`: the digit and the remainder left in `r`. -/
def rationalDigit (w n b p q : Nat) : Option (Nat × Nat) :=
  if q = 0 then none else
  let p := mulU w (powMod w q (normU b q) (n : Int)) (normU p q) q
  some ((p * b % 2 ^ w) / q, p)

/-- fractions.h:76-78 the second loop of `rational_digits`. -/
def ratLoop (w b q : Nat) : Nat → Nat → List Nat → Option (List Nat)
  | 0, _, digits => some digits
  | len + 1, p, digits => do
    let (d, p) ← rationalDigit w 1 b p q
    ratLoop w b q len p (digits ++ [d])

/-- fractions.h:71-80 `rational_digits(n, len, b, p, q)`. -/
def rationalDigits (w n len b p q : Nat) : Option (List Nat) :=
  match len with
  | 0 => some []
  | len + 1 => do
    let (d, p) ← rationalDigit w n b p q
    ratLoop w b q len p [d]

/-! ### Farey neighbours -/

/-- fractions.h:21-29 `farey_neighbour(n, f_prev, f)`; `f_prev = (∓1)/0` stands for `∓inf`. -/
def fareyNeighbour (n : Int) (fp f : Fraction.Frac) : Option Fraction.Frac :=
  let (p, q) :=
    if fp.q = 0 then
      let (_, p, q, _) := Base.gcdEx f.q f.p
      if fp.p < 0 then (-p, q) else (p, -q)
    else (fp.p, fp.q)
  if f.q = 0 then none else
  let k := (n + q).tdiv f.q
  Fraction.mk' (k * f.p - p) (k * f.q - q)

end Altruct.Digits
