/-
Model of `include/altruct/algorithm/math/prime_counting.h`.

Numbers `n` and keys are natural numbers without a bound; `sq` stands for `sqrtT`.  The values are a ring with the
division of `Polynom.Quo` (used by `sum_pow` only).  `none` is an access out of bounds or a division by zero.
The static Bernoulli table `B` of `sum_pow` is explicit state.  Reading `s[p]` through the non-constant `operator []`
also marks `p` as present; these keys are marked already, so `SqrtMap.el` is used.
-/
import Verif.Maps.Model
import Verif.Sums.PowModel
import Mathlib.Algebra.Ring.Int.Defs

namespace Altruct.PrimeCount

open Altruct.Maps (SqrtMap)
open Altruct.Polynom (Quo)

variable {α : Type} [CommRing α] [DecidableEq α] [Quo α]

/-- prime_counting.h:26-28 the first loop; `c` rounds remain. -/
def initLo (z : Nat) : Nat → Nat → SqrtMap α → List α → Option (SqrtMap α × List α)
  | 0, _, s, B => some (s, B)
  | c + 1, i, s, B => do
    let (v, B) ← Sums.sumPow z i B
    let s ← s.set i (v - 1)
    initLo z c (i + 1) s B

/-- prime_counting.h:29-32 the second loop, downwards. -/
def initHi (z n : Nat) : Nat → SqrtMap α → List α → Option (SqrtMap α × List α)
  | 0, s, B => some (s, B)
  | k + 1, s, B => do
    let i := n / (k + 1)
    let (v, B) ← Sums.sumPow z i B
    let s ← s.set i (v - 1)
    initHi z n k s B

/-- prime_counting.h:39-44 the loop over the high keys; `c` rounds remain.  (sqrt_map.h:77-84 `hi`, 92-94 `el`.) -/
def hiLoop (n p : Nat) (t pz : α) : Nat → Nat → SqrtMap α → Option (SqrtMap α)
  | 0, _, s => some s
  | c + 1, k, s => do
    if k * p = 0 then none else do
    let j := n / (k * p)
    let x ← s.el j
    let h ← rd s.tblHi k
    let th ← wr s.tblHi k (h - (x - t) * pz)
    hiLoop n p t pz c (k + 1) { s with tblHi := th }

/-- prime_counting.h:45-47 the loop over the low keys, downwards; `c` rounds remain.  (sqrt_map.h:67-74 `lo`.) -/
def loLoop (p : Nat) (t pz : α) : Nat → Nat → SqrtMap α → Option (SqrtMap α)
  | 0, _, s => some s
  | c + 1, i, s => do
    let x ← rd s.tblLo (i / p)
    let h ← rd s.tblLo i
    let tl ← wr s.tblLo i (h - (x - t) * pz)
    loLoop p t pz c (i - 1) { s with tblLo := tl }

/-- prime_counting.h:33-48 the loop over `p`; `c` rounds remain. -/
def outer (z n q : Nat) : Nat → Nat → SqrtMap α → Option (SqrtMap α)
  | 0, _, s => some s
  | c + 1, p, s => do
    let a ← s.el (p - 1)
    let b ← s.el p
    if a = b then outer z n q c (p + 1) s else do
    let t := a
    let p2 := p * p
    let kmax := min (n / q) (n / p2)
    let pz := Base.powT (p : α) z
    let s ← hiLoop n p t pz kmax 1 s
    let s ← loLoop p t pz (q - p2) (q - 1) s
    outer z n q c (p + 1) s

/-- prime_counting.h:18-50 `prime_power_sum_sqrt`. -/
def primePowerSumSqrt (sq : Nat → Nat) (z n : Nat) (B : List α) : Option (SqrtMap α × List α) := do
  let q := sq n + 1
  let s ← SqrtMap.mk' 0 (q - 1) n
  let (s, B) ← initLo z (q - 1) 1 s B
  let (s, B) ← initHi z n (n / q) s B
  let s ← outer z n q (q - 2) 2 s
  some (s, B)

/-- prime_counting.h:62-65 `prime_sum_sqrt`. -/
def primeSumSqrt (sq : Nat → Nat) (n : Nat) (B : List α) : Option (SqrtMap α × List α) := primePowerSumSqrt sq 1 n B

/-- prime_counting.h:70-73 `prime_sum`. -/
def primeSum (sq : Nat → Nat) (n : Nat) (B : List α) : Option (α × List α) :=
  if n < 1 then some (0, B) else do
    let (s, B) ← primeSumSqrt sq n B
    let v ← s.el n
    some (v, B)

/-- prime_counting.h:83-86 `prime_pi_sqrt`. -/
def primePiSqrt (sq : Nat → Nat) (n : Nat) (B : List Int) : Option (SqrtMap Int × List Int) := primePowerSumSqrt sq 0 n B

/-- prime_counting.h:91-94 `prime_pi`. -/
def primePi (sq : Nat → Nat) (n : Nat) (B : List Int) : Option (Int × List Int) :=
  if n < 1 then some (0, B) else do
    let (s, B) ← primePiSqrt sq n B
    let v ← s.el n
    some (v, B)

/-! ### primes modulo 4 -/

/-- prime_counting.h:115-117 the keys: `n / 1, ..., n / q`, then `n / q - 1, ..., 1`. -/
def keys13 (n q : Nat) : List Nat := (List.range q).map (fun i => n / (i + 1)) ++ (List.range (n / q - 1)).reverse.map (· + 1)

/-- prime_counting.h:118-121 the first values. -/
def init13 : List Nat → SqrtMap Int → SqrtMap Int → Option (SqrtMap Int × SqrtMap Int)
  | [], r0, r1 => some (r0, r1)
  | k :: ks, r0, r1 => do
    let r0 ← r0.set k (Int.tdiv ((k : Int) - 1) 4)
    let r1 ← r1.set k (Int.tdiv ((k : Int) + 1) 4)
    init13 ks r0 r1

/-- `m[k] -= d` through `operator []`. -/
def decAt (m : SqrtMap Int) (k : Nat) (d : Int) : Option (SqrtMap Int) := do
  let v ← m.el k
  m.set k (v - d)

/-- prime_counting.h:127-131 the loop over the keys. -/
def inner13 (p : Nat) (s0 s1 : Int) : List Nat → SqrtMap Int → SqrtMap Int → Option (SqrtMap Int × SqrtMap Int)
  | [], r0, r1 => some (r0, r1)
  | k :: ks, r0, r1 =>
    if k < p * p then some (r0, r1) else do
    let x ← r0.el (k / p)
    let (r0, r1) ← (if p % 4 = 3 then do let r ← decAt r1 k (x - s0); some (r0, r) else do let r ← decAt r0 k (x - s0); some (r, r1))
    let y ← r1.el (k / p)
    let (r0, r1) ← (if p % 4 = 1 then do let r ← decAt r1 k (y - s1); some (r0, r) else do let r ← decAt r0 k (y - s1); some (r, r1))
    inner13 p s0 s1 ks r0 r1

/-- prime_counting.h:122-132 the loop over `p`; `c` rounds remain. -/
def outer13 (ks : List Nat) : Nat → Nat → SqrtMap Int → SqrtMap Int → Option (SqrtMap Int × SqrtMap Int)
  | 0, _, r0, r1 => some (r0, r1)
  | c + 1, p, r0, r1 => do
    let s0 ← r0.el (p - 1)
    let s1 ← r1.el (p - 1)
    let t0 ← r0.el p
    let t1 ← r1.el p
    if s0 = t0 ∧ s1 = t1 then outer13 ks c (p + 1) r0 r1 else do
    let (r0, r1) ← inner13 p s0 s1 ks r0 r1
    outer13 ks c (p + 1) r0 r1

/-- prime_counting.h:107-134 `prime_pi13_sqrt`. -/
def primePi13Sqrt (sq : Nat → Nat) (n : Nat) : Option (SqrtMap Int × SqrtMap Int) := do
  let q := sq n + 1
  let r0 ← SqrtMap.mk' 0 q n
  let r1 ← SqrtMap.mk' 0 q n
  if n ≤ 1 then some (r0, r1) else do
  let ks := keys13 n q
  let (r0, r1) ← init13 ks r0 r1
  outer13 ks (q - 2) 2 r0 r1

/-- prime_counting.h:139-142 `prime_pi1`. -/
def primePi1 (sq : Nat → Nat) (n : Nat) : Option Int :=
  if n < 1 then some 0 else do
    let (r0, _) ← primePi13Sqrt sq n
    r0.el n

/-- prime_counting.h:147-150 `prime_pi3`. -/
def primePi3 (sq : Nat → Nat) (n : Nat) : Option Int :=
  if n < 1 then some 0 else do
    let (_, r1) ← primePi13Sqrt sq n
    r1.el n

end Altruct.PrimeCount
