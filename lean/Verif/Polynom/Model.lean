/-
Model of `include/altruct/structure/math/polynom.h`.

A `polynom<T>` is the list of its coefficients `c`; `ZERO_COEFF` is the zero of the coefficient
type.  A raw destination array `pr` is a list; a source pointer is `none` when it is the destination
(aliasing) and `some v` when it points at other memory, `v` being the contents from there on.
Degrees are `Nat` and loops run over iteration counts: `for (i = 0; i <= l; i++)` with `l = -1` or
less makes no iteration.  Overflow of `int` sizes is not modelled.
`std::vector<T> v(n)` is filled with 0 (`T()` in the source; every such element is overwritten).
-/
import Verif.Common.Vec
import Mathlib.Algebra.Ring.Defs
import Mathlib.Algebra.Field.Defs

namespace Altruct.Polynom

section Ring
variable {α : Type} [CommRing α]

/-! ### coefficients -/

/-- polynom.h:46 `at` for a non-negative index. -/
def at' (c : List α) (i : Nat) : α := c.getD i 0

/-- polynom.h:42 `resize`. -/
def resize (c : List α) (sz : Nat) : List α := c.take sz ++ List.replicate (sz - c.length) 0

/-- polynom.h:41 `reserve`. -/
def reserve (c : List α) (sz : Nat) : List α := if c.length < sz then resize c sz else c

/-- polynom.h:48 the assignment `pr[i] = x` (`operator []` reserves). -/
def put (c : List α) (i : Nat) (x : α) : List α := (reserve c (i + 1)).set i x

/-- polynom.h:49 the loop of `deg`, from index `i` down. -/
def degLoop [DecidableEq α] (c : List α) : Nat → Nat
  | 0 => 0
  | i + 1 => if ¬ at' c (i + 1) = 0 then i + 1 else degLoop c i

/-- polynom.h:49 `deg`. -/
def deg [DecidableEq α] (c : List α) : Nat := degLoop c (c.length - 1)

/-- polynom.h:50 the loop of `lowest`; `k` elements remain. -/
def lowestLoop [DecidableEq α] (c : List α) : Nat → Nat → Nat
  | 0, _ => 0
  | k + 1, i => if ¬ at' c i = 0 then i else lowestLoop c k (i + 1)

/-- polynom.h:50 `lowest`. -/
def lowest [DecidableEq α] (c : List α) : Nat := lowestLoop c c.length 0

/-- polynom.h:51-52 `leading_coeff` and `is_power`. -/
def leadingCoeff [DecidableEq α] (c : List α) : α := at' c (deg c)
def isPower [DecidableEq α] (c : List α) : Bool := decide (lowest c = deg c) && decide (leadingCoeff c = 1)

/-- polynom.h:40 `shrink_to_fit`. -/
def shrinkToFit [DecidableEq α] (c : List α) : List α := resize c (deg c + 1)

/-- polynom.h:57-60 the loop of `cmp`, indices `i - 1, ..., 0` remain. -/
def cmpLoop (lt : α → α → Bool) (p1 p2 : List α) : Nat → Int
  | 0 => 0
  | i + 1 =>
    if lt (at' p1 i) (at' p2 i) then -1
    else if lt (at' p2 i) (at' p1 i) then 1
    else cmpLoop lt p1 p2 i

/-- polynom.h:55-62 `cmp`. -/
def cmp [DecidableEq α] (lt : α → α → Bool) (p1 p2 : List α) : Int :=
  cmpLoop lt p1 p2 (max (deg p1) (deg p2) + 1)

/-! ### addition -/

/-- Loops `for (i = 0; i <= lr; i++) pr[i] = f(p1[i], p2[i])` of polynom.h:69-71, 79-81, 89-91; `k`
iterations remain, sources are read at every step. -/
def mapLoop (f : α → α → α) (s1 s2 : Option (List α)) : Nat → Nat → List α → List α
  | 0, _, pr => pr
  | k + 1, i, pr =>
    mapLoop f s1 s2 k (i + 1) (put pr i (f (at' (s1.getD pr) i) (at' (s2.getD pr) i)))

/-- polynom.h:66-72 `neg`. -/
def neg [DecidableEq α] (pr : List α) (s1 : Option (List α)) : List α :=
  let lr := deg (s1.getD pr)
  mapLoop (fun a _ => -a) s1 s1 (lr + 1) 0 (resize pr (lr + 1))

/-- polynom.h:76-82 `add`. -/
def add [DecidableEq α] (pr : List α) (s1 s2 : Option (List α)) : List α :=
  let lr := max (deg (s1.getD pr)) (deg (s2.getD pr))
  mapLoop (fun a b => a + b) s1 s2 (lr + 1) 0 (resize pr (lr + 1))

/-- polynom.h:86-92 `sub`. -/
def sub [DecidableEq α] (pr : List α) (s1 s2 : Option (List α)) : List α :=
  let lr := max (deg (s1.getD pr)) (deg (s2.getD pr))
  mapLoop (fun a b => a - b) s1 s2 (lr + 1) 0 (resize pr (lr + 1))

/-! ### multiplication -/

/-- polynom.h:95-97 `_zero(pr, lm, lr)`: `n = lr - lm` elements from `s = lm + 1` on. -/
def zeroLoop : Nat → Nat → List α → Option (List α)
  | 0, _, pr => some pr
  | n + 1, s, pr => do
    let pr ← wr pr s 0
    zeroLoop n (s + 1) pr

/-- polynom.h:101-103 `_add_to(pr + off, p2, l2)`: `n = l2 + 1` elements from `i` on. -/
def addToLoop (off : Nat) (p2 : List α) : Nat → Nat → List α → Option (List α)
  | 0, _, pr => some pr
  | n + 1, i, pr => do
    let x ← rd pr (off + i)
    let y ← rd p2 i
    let pr ← wr pr (off + i) (x + y)
    addToLoop off p2 n (i + 1) pr

/-- polynom.h:107-109 `_sub_from(pr, p2, l2)`: `n = l2 + 1` elements from `i` on. -/
def subFromLoop (p2 : List α) : Nat → Nat → List α → Option (List α)
  | 0, _, pr => some pr
  | n + 1, i, pr => do
    let x ← rd pr i
    let y ← rd p2 i
    let pr ← wr pr i (x - y)
    subFromLoop p2 n (i + 1) pr

/-- polynom.h:119-121 the inner loop of `_mul_long`: `j` from `jmin + n - 1` down to `jmin`. -/
def dotLoop (p1 p2 : List α) (i jmin : Nat) : Nat → α → Option α
  | 0, r => some r
  | n + 1, r => do
    let x ← rd p1 (jmin + n)
    let y ← rd p2 (i - (jmin + n))
    dotLoop p1 p2 i jmin n (r + x * y)

/-- polynom.h:115-123 the outer loop of `_mul_long`: indices `i - 1, ..., 0` remain. -/
def mulLongLoop (s1 : Option (List α)) (l1 : Nat) (s2 : Option (List α)) (l2 : Nat) :
    Nat → List α → Option (List α)
  | 0, pr => some pr
  | i + 1, pr => do
    let jmax := min i l1
    let jmin := i - l2
    let r ← dotLoop (s1.getD pr) (s2.getD pr) i jmin (jmax + 1 - jmin) 0
    let pr ← wr pr i r
    mulLongLoop s1 l1 s2 l2 i pr

/-- polynom.h:113-124 `_mul_long`. -/
def mulLong (pr : List α) (lr : Nat) (s1 : Option (List α)) (l1 : Nat) (s2 : Option (List α)) (l2 : Nat) :
    Option (List α) :=
  mulLongLoop s1 l1 s2 l2 (lr + 1) pr

/-- polynom.h:133 the loop for a constant second factor: indices `i - 1, ..., 0` remain. -/
def scaleLoop (s1 s2 : Option (List α)) : Nat → List α → Option (List α)
  | 0, pr => some pr
  | i + 1, pr => do
    let x ← rd (s1.getD pr) i
    let y ← rd (s2.getD pr) 0
    let pr ← wr pr i (x * y)
    scaleLoop s1 s2 i pr

/-- The vector made of the first `k` elements at a pointer (polynom.h:141, 143). -/
def range (v : List α) (k : Nat) : Option (List α) := if k ≤ v.length then some (v.take k) else none

/-- The type of `_mul`. -/
abbrev MulFn (α : Type) := List α → Nat → Option (List α) → Nat → Option (List α) → Nat → Option (List α)

/-- polynom.h:129-158 `_mul_karatsuba`; `rec` is `_mul`. -/
def karatsuba (rec : MulFn α) (pr : List α) (lr : Nat) (s1 : Option (List α)) (l1 : Nat)
    (s2 : Option (List α)) (l2 : Nat) : Option (List α) :=
  let k := l1 / 2 + 1
  if l2 = 0 then scaleLoop s1 s2 (lr + 1) pr
  else if l2 < k then do
    let mm ← rec (List.replicate (lr - k + 1) 0) (lr - k) (some ((s1.getD pr).drop k)) (l1 - k)
      (some (s2.getD pr)) l2
    let pr ← rec pr (l2 + k - 1) s1 (k - 1) s2 l2
    let pr ← zeroLoop (lr - (l2 + k - 1)) (l2 + k - 1 + 1) pr
    addToLoop k mm (lr - k + 1) 0 pr
  else do
    let a1 ← range (s1.getD pr) k
    let a1 ← addToLoop 0 ((s1.getD pr).drop k) (l1 - k + 1) 0 a1
    let a2 ← range (s2.getD pr) k
    let a2 ← addToLoop 0 ((s2.getD pr).drop k) (l2 - k + 1) 0 a2
    let mmL := min (lr - k) (k - 1 + k - 1)
    let mm ← rec (List.replicate (mmL + 1) 0) mmL (some a1) (k - 1) (some a2) (k - 1)
    let hhL := min (lr - k) (l1 - k + l2 - k)
    let hh ← rec (List.replicate (hhL + 1) 0) hhL (some ((s1.getD pr).drop k)) (l1 - k)
      (some ((s2.getD pr).drop k)) (l2 - k)
    let pr ← rec pr (k - 1 + k - 1) s1 (k - 1) s2 (k - 1)
    let pr ← zeroLoop (lr - (k - 1 + k - 1)) (k - 1 + k - 1 + 1) pr
    let mm ← subFromLoop pr (mmL + 1) 0 mm
    let mm ← subFromLoop hh (hhL + 1) 0 mm
    let pr ← addToLoop k mm (mmL + 1) 0 pr
    addToLoop (k + k) hh (lr + 1 - k - k) 0 pr

/-- polynom.h:164-167 `_mul` once `l2 <= l1`. -/
def mulCore (impl : MulFn α) (pr : List α) (lr : Nat) (s1 : Option (List α)) (l1 : Nat)
    (s2 : Option (List α)) (l2 : Nat) : Option (List α) := do
  let l1 := min l1 lr
  let l2 := min l2 lr
  let _ ← rd (s1.getD pr) 0
  let pr ← zeroLoop (lr - (l1 + l2)) (l1 + l2 + 1) pr
  let lr := min lr (l1 + l2)
  impl pr lr s1 l1 s2 l2

/-- polynom.h:162-168 `_mul` with 379-385 `polynom_mul<T>::impl` (`thr = 48` there).  `fuel` bounds
the depth of the recursion. -/
def mulF (thr : Nat) : Nat → MulFn α
  | 0 => fun _ _ _ _ _ _ => none
  | fuel + 1 => fun pr lr s1 l1 s2 l2 =>
    let impl : MulFn α := fun pr lr s1 l1 s2 l2 =>
      if l2 < thr then mulLong pr lr s1 l1 s2 l2 else karatsuba (mulF thr fuel) pr lr s1 l1 s2 l2
    if l2 > l1 then mulCore impl pr lr s2 l2 s1 l1 else mulCore impl pr lr s1 l1 s2 l2

/-- polynom.h:174-182 `mul`; `lr = none` is the default -1. -/
def mul [DecidableEq α] (thr : Nat) (pr : List α) (s1 s2 : Option (List α)) (lr : Option Nat) :
    Option (List α) :=
  let l1 := deg (s1.getD pr)
  let l2 := deg (s2.getD pr)
  let lr := lr.getD (l1 + l2)
  let pr := resize pr (lr + 1)
  if (s1.getD pr).length = 0 ∨ (s2.getD pr).length = 0 then zeroLoop (lr + 1) 0 pr
  else mulF thr (l1 + l2 + 1) pr lr s1 l1 s2 l2

/-- polynom.h:305 `operator *`: `t(*this); t *= rhs`. -/
def times [DecidableEq α] (thr : Nat) (a b : List α) : Option (List α) := mul thr a none (some b) none

/-- polynom.h:302-304 `operator +`, binary and unary `operator -`. -/
def plus [DecidableEq α] (a b : List α) : List α := add a none (some b)
def minus [DecidableEq α] (a b : List α) : List α := sub a none (some b)
def negate [DecidableEq α] (a : List α) : List α := neg a none

/-- The scalar argument of polynom.h:277, 287 is passed by reference: a value, or coefficient `i` of
the destination itself. -/
def scalar (pr : List α) : α ⊕ Nat → α
  | .inl x => x
  | .inr i => at' pr i

/-- polynom.h:280-282 the loop of the scalar `mul`; `k` iterations remain. -/
def scalarLoop (f : α → α → α) (s1 : Option (List α)) (s : α ⊕ Nat) : Nat → Nat → List α → List α
  | 0, _, pr => pr
  | k + 1, i, pr => scalarLoop f s1 s k (i + 1) (put pr i (f (at' (s1.getD pr) i) (scalar pr s)))

/-- polynom.h:277-283 `mul` by a scalar. -/
def mulScalar [DecidableEq α] (pr : List α) (s1 : Option (List α)) (s : α ⊕ Nat) : List α :=
  let lr := deg (s1.getD pr)
  scalarLoop (fun a b => a * b) s1 s (lr + 1) 0 (resize pr (lr + 1))

/-! ### evaluation, derivative -/

/-- polynom.h:328-330 the loop of `eval`: indices `i - 1, ..., 0` remain. -/
def evalLoop (c : List α) (x : α) : Nat → α → α
  | 0, r => r
  | i + 1, r => evalLoop c x i (r * x + at' c i)

/-- polynom.h:325-332 `eval` at an element of the coefficient type. -/
def eval [DecidableEq α] (c : List α) (x : α) : α :=
  if c.length = 0 then 0 else evalLoop c x (deg c + 1) 0

/-- polynom.h:337-339 the loop of `derivative`: indices `i, ..., 1` remain. -/
def derivLoop (c : List α) : Nat → List α → List α
  | 0, r => r
  | i + 1, r => derivLoop c i (put r i (at' c (i + 1) * ((i + 1 : Nat) : α)))

/-- polynom.h:334-341 `derivative`. -/
def derivative [DecidableEq α] (c : List α) : List α :=
  if c.length = 0 then [0] else derivLoop c (deg c) [0]

/-- polynom.h:204-210 `reverse`. -/
def reverse [DecidableEq α] (c : List α) : List α :=
  if 0 < c.length then (c.take (deg c + 1)).reverse ++ c.drop (deg c + 1) else c

end Ring

section Quo

/-- `operator /` of the coefficient type: division in a field, truncated division of integers. -/
class Quo (α : Type) where
  quo : α → α → α

instance {α : Type} [Field α] : Quo α := ⟨fun a b => a / b⟩
instance : Quo Int := ⟨Int.tdiv⟩

variable {α : Type} [CommRing α] [DecidableEq α] [Quo α]

/-- Division of coefficients; by zero it is undefined. -/
def cdiv (a b : α) : Option α := if b = 0 then none else some (Quo.quo a b)

/-- polynom.h:287-293 `div` by a scalar (not aliasing the destination). -/
def divScalar (pr : List α) (s1 : Option (List α)) (s : α) : Option (List α) :=
  let lr := deg (s1.getD pr)
  if s = 0 then none
  else some (scalarLoop Quo.quo s1 (.inl s) (lr + 1) 0 (resize pr (lr + 1)))

/-- polynom.h:196-198 the innermost loop of `inverse`: `n` indices `k + n - 1, ..., k` remain. -/
def invPut (t : List α) (k : Nat) : Nat → List α → List α
  | 0, r => r
  | n + 1, r => invPut t k n (put r (k + n) (-(at' t n)))

/-- polynom.h:190-199 the loop of `inverse`; `fuel` bounds the number of iterations. -/
def invLoop (thr : Nat) (c : List α) (L : Nat) : Nat → Nat → List α → Option (List α)
  | 0, _, _ => none
  | fuel + 1, l, r =>
    if l < L * 2 then do
      let m := min (L - 1) l
      let k := l / 2 + 1
      let t := c.take (min (m + 1) c.length)
      let t ← mul thr t none (some r) (some (l + 1))
      let t := t.drop k
      let t ← mul thr t none (some r) (some (l - k))
      invLoop thr c L fuel (l * 2) (invPut t k (m + 1 - k) r)
    else some r

/-- polynom.h:189-200 `inverse` of a polynomial with constant coefficient 1. -/
def inverse1 (thr : Nat) (c : List α) (L : Nat) : Option (List α) := invLoop thr c L (L * 2 + 1) 1 [1]

/-- polynom.h:185-201 `inverse`. -/
def inverse (thr : Nat) (c : List α) (L : Nat) : Option (List α) := do
  let c0 ← rd c 0
  if c0 = 0 then some [0]
  else if c0 ≠ 1 then do
    let d ← divScalar c none c0
    let d0 ← rd d 0
    if d0 = 0 then some [0]
    else if d0 ≠ 1 then none
    else do
      let r ← inverse1 thr d L
      divScalar r none c0
  else inverse1 thr c L

/-- polynom.h:215-225 `quot_rem_hensel` (`pr = p1` is copied first, so `pr` may be `p1`). -/
def quotRemHensel (thr : Nat) (p1 p2 : List α) : Option (List α) :=
  let l1 := deg p1
  let l2 := deg p2
  if l1 < l2 ∨ isPower p2 = true then some p1
  else do
    let lq := l1 - l2
    let inv ← inverse thr (reverse p2) (lq + 1)
    let q ← mul thr [0] (some inv) (some (reverse p1)) (some lq)
    let q := (q.take (lq + 1)).reverse ++ q.drop (lq + 1)
    let qp ← times thr q p2
    let pr := sub p1 none (some qp)
    let q := List.replicate l2 0 ++ q
    some (add pr none (some q))

/-- polynom.h:236-238 the inner loop of `quot_rem_long`; `n` iterations remain. -/
def qrInner (p2 : List α) (l2 i : Nat) (s : α) : Nat → Nat → List α → List α
  | 0, _, pr => pr
  | n + 1, j, pr => qrInner p2 l2 i s n (j + 1) (put pr (i - j) (at' pr (i - j) - s * at' p2 (l2 - j)))

/-- polynom.h:234-239 the outer loop of `quot_rem_long`: `i` from `l2 + n - 1` down to `l2`. -/
def qrLoop (p2 : List α) (l2 : Nat) : Nat → List α → Option (List α)
  | 0, pr => some pr
  | n + 1, pr => do
    let i := l2 + n
    let s ← cdiv (at' pr i) (at' p2 l2)
    let pr := put pr i s
    if s = 0 then qrLoop p2 l2 n pr
    else qrLoop p2 l2 n (qrInner p2 l2 i s l2 1 pr)

/-- polynom.h:230-240 `quot_rem_long` (`pr = p1` is copied first, so `pr` may be `p1`). -/
def quotRemLong (p1 p2 : List α) : Option (List α) :=
  let l1 := deg p1
  let l2 := deg p2
  if l1 < l2 ∨ isPower p2 = true then some p1
  else qrLoop p2 l2 (l1 - l2 + 1) p1

/-- polynom.h:242-251 `quot_rem`.  The choice between the two algorithms depends on a floating point
logarithm; here it is any function `useLong` of the two degrees.  The test whether the leading
coefficient is invertible divides by it, so it is undefined when that coefficient is zero. -/
def quotRem (thr : Nat) (useLong : Nat → Nat → Bool) (p1 p2 : List α) : Option (List α) :=
  let l1 := deg p1
  let l2 := deg p2
  do
    let u ← cdiv 1 (at' p2 l2)
    if useLong l1 l2 = true ∨ u * at' p2 l2 ≠ 1 then quotRemLong p1 p2 else quotRemHensel thr p1 p2

/-- polynom.h:260-262 the loop of `div`; `n` iterations remain. -/
def shiftLoop (l2 : Nat) : Nat → Nat → List α → List α
  | 0, _, pr => pr
  | n + 1, i, pr => shiftLoop l2 n (i + 1) (put (reserve pr (i + l2 + 1)) i (at' pr (i + l2)))

/-- polynom.h:256-264 `div`. -/
def div (thr : Nat) (useLong : Nat → Nat → Bool) (p1 p2 : List α) : Option (List α) :=
  let l1 := deg p1
  let l2 := deg p2
  if l1 < l2 then some []
  else do
    let lr := l1 - l2
    let pr ← quotRem thr useLong p1 p2
    some (resize (shiftLoop l2 (lr + 1) 0 pr) (lr + 1))

/-- polynom.h:269-273 `mod`. -/
def mod (thr : Nat) (useLong : Nat → Nat → Bool) (p1 p2 : List α) : Option (List α) := do
  let l1 := deg p1
  let l2 := deg p2
  let pr ← quotRem thr useLong p1 p2
  some (if l2 < l1 + 1 then resize pr l2 else pr)

/-- polynom.h:347-349 the loop of `integral`: indices `i - 1, ..., 0` remain. -/
def integLoop (c : List α) : Nat → List α → Option (List α)
  | 0, r => some r
  | i + 1, r => do
    let x ← cdiv (at' c i) ((i + 1 : Nat) : α)
    integLoop c i (put r (i + 1) x)

/-- polynom.h:344-351 `integral`. -/
def integral (c : List α) (c0 : α) : Option (List α) :=
  if c.length = 0 then some [c0] else integLoop c (deg c + 1) [c0]

end Quo

end Altruct.Polynom
