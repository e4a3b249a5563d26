/-
Model of the rest of `include/altruct/algorithm/math/sums.h` (`sum_pow`, `sum_powx`), of `polynom_sum` in
`polynoms.h` and of `sequences.h`.

The result type `T` is a ring with the `operator /` of `Polynom.Quo`; a division by zero is `none`.  Exponents are not
negative.
-/
import Verif.Polynom.Model
import Verif.Recurrence.Model
import Verif.Sums.Model
import Verif.Base.Model

namespace Altruct.Sums

open Altruct.Polynom (Quo cdiv at' put)

variable {α : Type} [CommRing α] [DecidableEq α] [Quo α]

/-- sums.h:71-76 the loop of `sum_pow`; `c` rounds remain. -/
def powLoop (p : Nat) (n : α) (B : List α) : Nat → Nat → α → α → α → Option α
  | 0, _, _, _, r => some r
  | c + 1, k, nk, bin, r => do
    let nk := nk * n
    let bin ← cdiv (bin * (((p : Int) - k + 1 : Int) : α)) ((k + 1 : Nat) : α)
    let b ← rd B (p - k)
    powLoop p n B c (k + 1) nk bin (r + bin * b * nk)

/-- sums.h:60-78 `sum_pow` with a vector of Bernoulli numbers. -/
def sumPowB (p : Nat) (N : Int) (B : List α) : Option α := do
  let _ ← rd B 0
  let n : α := (N : α)
  if p = 0 then some n
  else if p = 1 then cdiv (n * (n + 1)) (2 : α)
  else if p = 2 then cdiv (n * (n + 1) * (n * 2 + 1)) (6 : α)
  else if p = 3 then do
    let t ← cdiv (n * (n + 1)) (2 : α)
    some (t * t)
  else do
    let r ← powLoop p n B (p + 1) 0 1 1 0
    cdiv r ((p + 1 : Nat) : α)

/-- sums.h:87-94 `sum_pow`.  The static vector `B` is an argument and part of the result. -/
def sumPow (p : Nat) (N : Int) (B : List α) : Option (α × List α) := do
  let B ← (if B.length < p + 1 then Recurrence.bernoulliB (max p (B.length + B.length / 2)) else some B)
  let r ← sumPowB p N B
  some (r, B)

/-- A sequence of calls `sum_pow(p, N)`, starting with an empty static vector. -/
def sumPowCalls : List (Nat × Int) → List α → Option (List α)
  | [], _ => some []
  | c :: cs, B => do
    let (r, B) ← sumPow c.1 c.2 B
    let rs ← sumPowCalls cs B
    some (r :: rs)

/-- sums.h:106-110 the loop of `sum_powx`; `c` rounds remain. -/
def powxLoop (thr : Nat) (Tn : α) : Nat → Nat → List α → List α → Option (List α × List α)
  | 0, _, p, q => some (p, q)
  | c + 1, k, p, q => do
    let Tk : α := ((k : Nat) : α)
    let z : List α := [0, -1, 1]
    let a ← Polynom.times thr z (Polynom.derivative p)
    let b ← Polynom.times thr [Tn, Tk - Tn] p
    let p := Polynom.minus a b
    let a ← Polynom.times thr z (Polynom.derivative q)
    let b ← Polynom.times thr [0, Tk - 0] q
    let q := Polynom.minus a b
    powxLoop thr Tn c (k + 1) p q

/-- sums.h:102-112 `sum_powx`. -/
def sumPowx (thr m : Nat) (x : α) (n : Int) : Option α := do
  let Tn : α := (n : α)
  let (p, q) ← powxLoop thr Tn m 1 [0, 1] [1]
  let r ← cdiv (Base.powT x n * Polynom.eval p x - Polynom.eval q x) (Base.powT (x - 1) ((m : Int) + 1))
  some (r - (if m = 0 then 1 else 0))

/-- polynoms.h:96-100 the inner loop of `polynom_sum`; `n` rounds remain. -/
def psInner (m : Nat) (b : List α) : Nat → Nat → α → List α → Option (List α)
  | 0, _, _, s => some s
  | n + 1, k, c, s => do
    let bk ← rd b k
    let s := put s (m + 1 - k) (at' s (m + 1 - k) + c * bk)
    let c ← cdiv (c * ((m + 1 - k : Nat) : α)) ((k + 1 : Nat) : α)
    psInner m b n (k + 1) c s

/-- polynoms.h:93-101 the outer loop of `polynom_sum`: exponents `n - 1, ..., 0` remain. -/
def psOuter (p b : List α) : Nat → List α → Option (List α)
  | 0, s => some s
  | m + 1, s => do
    let c ← cdiv (at' p m) ((m + 1 : Nat) : α)
    let s ← (if c = 0 then some s else psInner m b (m + 1) 0 c s)
    psOuter p b m s

/-- polynoms.h:89-103 `polynom_sum`. -/
def polynomSum (p : List α) : Option (List α) := do
  let b ← Recurrence.bernoulliB (α := α) (Polynom.deg p)
  psOuter p b (Polynom.deg p + 1) [0]

/-! ### `sequences.h` -/

/-- sequences.h:46-47 `triangular`. -/
def triangular (n : Int) : Option α := let r : α := (n : α); cdiv (r * (r + 1)) 2
/-- sequences.h:50-51 `tetrahedral`. -/
def tetrahedral (n : Int) : Option α := let r : α := (n : α); cdiv (r * (r + 1) * (r + 2)) 6
/-- sequences.h:54-55 `pyramidal`. -/
def pyramidal (n : Int) : Option α := let r : α := (n : α); cdiv (r * (r + 1) * (r * 2 + 1)) 6
/-- sequences.h:58-59 `octahedral`. -/
def octahedral (n : Int) : Option α := let r : α := (n : α); cdiv (r * (r * r * 2 + 1)) 3
/-- sequences.h:62-63 `dodecahedral`. -/
def dodecahedral (n : Int) : Option α := let r : α := (n : α); cdiv (r * (r * 3 - 1) * (r * 3 - 2)) 2
/-- sequences.h:66-67 `icosahedral`. -/
def icosahedral (n : Int) : Option α := let r : α := (n : α); cdiv (r * (r * (r - 1) * 5 + 2)) 2

/-- sequences.h:70-71 `sum_sigma0`; `sq` is `sqrtT`. -/
def sumSigma0 (sq : Int → Int) (n : Int) : Option α := sumSqrt2mF sq (fun _ => 1) (fun k => (k : α)) (fun k => (k : α)) n
/-- sequences.h:74-75 `sum_sigma1`; `sq` is `sqrtT`.  The divisions in `triangular` are by 2. -/
def sumSigma1 (sq : Int → Int) (n : Int) : Option α :=
  if (2 : α) = 0 then none
  else sumSqrt2mF sq (fun k => (k : α)) (fun k => Quo.quo ((k : α) * ((k : α) + 1)) 2) (fun k => (k : α)) n
/-- sequences.h:78-79 `sum_sigma2`; `sq` is `sqrtT`.  The divisions in `pyramidal` are by 6. -/
def sumSigma2 (sq : Int → Int) (n : Int) : Option α :=
  if (6 : α) = 0 then none
  else sumSqrt2mF sq (fun k => (k : α) * (k : α)) (fun k => Quo.quo ((k : α) * ((k : α) + 1) * ((k : α) * 2 + 1)) 6) (fun k => (k : α)) n

end Altruct.Sums
