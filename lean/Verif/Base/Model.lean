/-
Model of `include/altruct/algorithm/math/base.h` and `src/algorithm/math/base.cpp`.

C++ integers are modelled by unbounded `Int`; C++ `/` and `%` truncate towards
zero, i.e. they are `Int.tdiv` and `Int.tmod`.  The fixed-width functions
`isqrt`, `isqrtc`, `icbrt`, `icbrtc` are modelled with their real widths: every
`int32_t`/`int64_t` operation that can overflow is checked and an overflow
(undefined behaviour) makes the model return `none`.
-/
import Mathlib.Algebra.Group.Defs

namespace Altruct.Base

theorem natAbs_tmod_lt (b a : Int) (h : ¬ a = 0) : (b.tmod a).natAbs < a.natAbs := by
  rw [Int.natAbs_tmod]; exact Nat.mod_lt _ (by omega)

/-- base.h:158-167 `powT`, the `for (; y > 0; y /= 2)` loop with state `(r, x, y)`.
The C++ type `T` is any type with an associative `*` and an identity. -/
def powLoop {M : Type*} [Monoid M] (r x : M) (y : Int) : M :=
  if y > 0 then
    powLoop (if y.tmod 2 ≠ 0 then r * x else r) (x * x) (y.tdiv 2)
  else r
termination_by y.toNat
decreasing_by
  rw [Int.tdiv_eq_ediv_of_nonneg (by omega)]; omega

/-- base.h:158-167 `powT(x, y)`; `identityOf(x)` is the monoid's `1`. -/
def powT {M : Type*} [Monoid M] (x : M) (y : Int) : M := powLoop 1 x y

/-- base.h:174-179 `gcd`: `while (a != 0) { r = b % a; b = a; a = r; } return b;` -/
def gcd (a b : Int) : Int :=
  if a = 0 then b else gcd (b.tmod a) a
termination_by a.natAbs
decreasing_by exact natAbs_tmod_lt b a (by assumption)

/-- State of the `gcd_ex` loop, base.h:197-200. -/
structure GcdEx where
  g : Int
  h : Int
  xo : Int
  xn : Int
  yo : Int
  yn : Int
  i : Nat
deriving DecidableEq, Repr

theorem tdiv_sub_natAbs_lt (g h : Int) (hh : ¬ h = 0) : (g - g.tdiv h * h).natAbs < h.natAbs := by
  have e : g - g.tdiv h * h = g.tmod h := by
    have := Int.tdiv_mul_add_tmod g h; omega
  rw [e]; exact natAbs_tmod_lt g h hh

/-- base.h:201-208 the `while (h != 0)` loop of `gcd_ex` (both output cofactors
requested). -/
def gcdExLoop (s : GcdEx) : GcdEx :=
  if s.h = 0 then s else
    let q := s.g.tdiv s.h
    gcdExLoop
      { g := s.h, h := s.g - q * s.h,
        xn := s.xo, xo := s.xn - q * s.xo,
        yn := s.yo, yo := s.yn - q * s.yo,
        i := s.i + 1 }
termination_by s.h.natAbs
decreasing_by exact tdiv_sub_natAbs_lt _ _ (by assumption)

/-- base.h:195-213 `gcd_ex(a, b, &x, &y, &s)`; returns `(g, x, y, s)`. -/
def gcdEx (a b : Int) : Int × Int × Int × Nat :=
  let s := gcdExLoop { g := a, h := b, xo := 0, xn := 1, yo := 1, yn := 0, i := 0 }
  (s.g, s.xn, s.yn, s.i)

/-- base.h:228-230 the `while (go != g)` loop of `gcd_max`.  `fuel` bounds the
number of iterations; `none` means the bound was hit. -/
def gcdMaxLoop (a b : Int) : Nat → Int → Int → Option Int
  | 0, _, _ => none
  | fuel + 1, go, g => if go = g then some g else gcdMaxLoop a b fuel g (gcd (g * a) b)

/-- base.h:223-232 `gcd_max(a, b)`. -/
def gcdMax (fuel : Nat) (a b : Int) : Option Int :=
  if b = 0 then some a else gcdMaxLoop a b fuel 0 1

/-- base.h:239-242 `lcm(a, b) = a * (b / gcd(a, b))`; dividing by a zero gcd is
undefined behaviour, modelled by `none`. -/
def lcm (a b : Int) : Option Int :=
  if gcd a b = 0 then none else some (a * b.tdiv (gcd a b))

/-- base.h:279-282 the Newton loop of `sqrtT`.  The first argument is the number
of further iterations the counter `--max_iter > 0` admits. -/
def sqrtLoop (x eps : Int) : Nat → Int → Int → Int × Int
  | 0, q1, q2 => (q1, q2)
  | k + 1, q1, q2 =>
    if ((q1 - q2).natAbs : Int) > eps then
      let q1' := (q1 + q2).tdiv 2
      sqrtLoop x eps k q1' (x.tdiv q1')
    else (q1, q2)

/-- The number of loop bodies that `--max_iter > 0` (on `size_t`, 64 bits)
admits: `max_iter - 1`, and `2^64 - 1` for the default `max_iter = 0`
(base.h:279, 327). -/
def iterations (maxIter : Nat) : Nat := (maxIter + (2 ^ 64 - 1)) % 2 ^ 64

/-- base.h:273-284 `sqrtT`, generic version, for non-negative `x`. -/
def sqrtTPos (x eps : Int) (maxIter : Nat) : Int :=
  if x = 0 then 0
  else if x = 1 then 1
  else
    let q1 := x.tdiv 2
    let q2 := x.tdiv q1
    let q := sqrtLoop x eps (iterations maxIter) q1 q2
    min q.1 q.2

/-- base.h:273-284 `sqrtT`, generic version (`x < 0` gives `-sqrtT(-x)`). -/
def sqrtT (x : Int) (eps : Int := 1) (maxIter : Nat := 0) : Int :=
  if x < 0 then - sqrtTPos (-x) eps maxIter else sqrtTPos x eps maxIter

/-- base.h:327-331 the loop of `cbrtT`, state `(r0, r1, r2)`. -/
def cbrtLoop (x eps : Int) : Nat → Int → Int → Int → Int × Int
  | 0, _, r1, r2 => (r1, r2)
  | k + 1, r0, r1, r2 =>
    if r1 ≠ r0 ∧ ((r1 - r2).natAbs : Int) > eps then
      let r1' := (r1 + r1 + r2).tdiv 3
      cbrtLoop x eps k r1 r1' (x.tdiv (r1' * r1'))
    else (r1, r2)

/-- base.h:320-333 `cbrtT`, generic version, for non-negative `x`. -/
def cbrtTPos (x eps : Int) (maxIter : Nat) : Int :=
  if x = 0 then 0
  else if x = 1 then 1
  else
    let r1 := sqrtT x eps
    let r2 := x.tdiv (r1 * r1)
    let r := cbrtLoop x eps (iterations maxIter) 0 r1 r2
    min r.1 r.2

/-- base.h:320-333 `cbrtT`, generic version. -/
def cbrtT (x : Int) (eps : Int := 1) (maxIter : Nat := 0) : Int :=
  if x < 0 then - cbrtTPos (-x) eps maxIter else cbrtTPos x eps maxIter

/-- base.h:300-303 `is_square`. -/
def isSquare (x : Int) : Bool := sqrtT x * sqrtT x == x

/-- base.h:346-349 `is_cube`. -/
def isCube (x : Int) : Bool := cbrtT x * cbrtT x * cbrtT x == x

/-- base.h:354-358 `div_floor`. -/
def divFloor (a b : Int) : Int :=
  let a' := if b < 0 then -a else a
  let b' := if b < 0 then -b else b
  if a' < 0 then (a' + 1).tdiv b' - 1 else a'.tdiv b'

/-- base.h:360-364 `div_ceil`. -/
def divCeil (a b : Int) : Int :=
  let a' := if b < 0 then -a else a
  let b' := if b < 0 then -b else b
  if a' > 0 then (a' - 1).tdiv b' + 1 else a'.tdiv b'

/-- base.h:366-370 `div_round`. -/
def divRound (a b : Int) : Int :=
  let a' := if b < 0 then -a else a
  let b' := if b < 0 then -b else b
  if a' > 0 then (a' + b'.tdiv 2).tdiv b' else (a' - b'.tdiv 2).tdiv b'

/-- base.h:375-378 `multiple(a, b) = div_ceil(b, a) * a`. -/
def multiple (a b : Int) : Int := divCeil b a * a

/-! ### Fixed-width roots (src/algorithm/math/base.cpp) -/

/-- An `int32_t` result: `none` when the mathematical value does not fit. -/
def i32 (v : Int) : Option Int := if -2 ^ 31 ≤ v ∧ v < 2 ^ 31 then some v else none

/-- An `int64_t` result: `none` when the mathematical value does not fit. -/
def i64 (v : Int) : Option Int := if -2 ^ 63 ≤ v ∧ v < 2 ^ 63 then some v else none

/-- base.cpp:11-13 `isq` on `int64_t`. -/
def isq (x : Int) : Option Int := i64 (x * x)

/-- base.cpp:33-35 `icb` on `int64_t`: `(x * x) * x`. -/
def icb (x : Int) : Option Int := (i64 (x * x)).bind fun y => i64 (y * x)

/-- base.cpp:18 / :40 `while (f(q) > x) q--;` where `f` is `isq` or `icb`.
`none`: overflow, or the fuel ran out. -/
def decLoop (f : Int → Option Int) (x : Int) : Nat → Int → Option Int
  | 0, _ => none
  | fuel + 1, q => do
    let s ← f q
    if s > x then
      let q' ← i32 (q - 1)
      decLoop f x fuel q'
    else some q

/-- base.cpp:19 / :41 `while (f(q + 1) <= x) q++;`. -/
def incLoop (f : Int → Option Int) (x : Int) : Nat → Int → Option Int
  | 0, _ => none
  | fuel + 1, q => do
    let q1 ← i32 (q + 1)
    let s ← f q1
    if s ≤ x then incLoop f x fuel q1 else some q

/-- base.cpp:15-21 `isqrt` for `x >= 0`.  `seed` is the value of
`int32_t(floor(sqrt(double(x))))`, about which nothing is assumed here. -/
def isqrt (fuel : Nat) (seed x : Int) : Option Int := do
  let q ← decLoop isq x fuel seed
  incLoop isq x fuel q

/-- base.cpp:26 / :48 `while (f(q) < x) q++;`. -/
def incLoopC (f : Int → Option Int) (x : Int) : Nat → Int → Option Int
  | 0, _ => none
  | fuel + 1, q => do
    let s ← f q
    if s < x then
      let q' ← i32 (q + 1)
      incLoopC f x fuel q'
    else some q

/-- base.cpp:27 `while (q > 0 && isq(q - 1) >= x) q--;`. -/
def decLoopC (f : Int → Option Int) (x : Int) : Nat → Int → Option Int
  | 0, _ => none
  | fuel + 1, q =>
    if q > 0 then do
      let s ← f (q - 1)
      if s ≥ x then decLoopC f x fuel (q - 1) else some q
    else some q

/-- base.cpp:49 `while (icb(q - 1) >= x) q--;` (without the `q > 0` guard). -/
def decLoopC' (f : Int → Option Int) (x : Int) : Nat → Int → Option Int
  | 0, _ => none
  | fuel + 1, q => do
    let q1 ← i32 (q - 1)
    let s ← f q1
    if s ≥ x then decLoopC' f x fuel q1 else some q

/-- base.cpp:23-29 `isqrtc` for `x >= 0`, arbitrary seed. -/
def isqrtc (fuel : Nat) (seed x : Int) : Option Int := do
  let q ← incLoopC isq x fuel seed
  decLoopC isq x fuel q

/-- base.cpp:37-43 `icbrt` for `x >= 0`, arbitrary seed. -/
def icbrt (fuel : Nat) (seed x : Int) : Option Int := do
  let q ← decLoop icb x fuel seed
  incLoop icb x fuel q

/-- base.cpp:45-51 `icbrtc` for `x >= 0`, arbitrary seed. -/
def icbrtc (fuel : Nat) (seed x : Int) : Option Int := do
  let q ← incLoopC icb x fuel seed
  decLoopC' icb x fuel q

end Altruct.Base
