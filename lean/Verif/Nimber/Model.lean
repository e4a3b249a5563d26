/-
Model of `nimber.h`.

`w` is the width `BITS` of the unsigned type `U`; values are natural numbers below `2^w`.  `none` is undefined behaviour
(a shift by at least the width) or an iteration or recursion bound that was too small.  The memo table of `mul_pow2`,
which outlives the calls, is an explicit argument and result.
-/
import Mathlib.Data.Nat.Bitwise

namespace Altruct.Nimber

/-- nimber.h:23-25 `pow2(n)`. -/
def pow2 (w n : Nat) : Nat := if n < w then 2 ^ n else 0

/-- nimber.h:27-29 `high(k)`. -/
def high (w v k : Nat) : Option Nat := if pow2 w k < w then some (v >>> pow2 w k) else none

/-- nimber.h:31-33 `low(k)`; the subtraction wraps. -/
def low (w v k : Nat) : Nat := v &&& ((pow2 w (pow2 w k) + 2 ^ w - 1) % 2 ^ w)

/-- nimber.h:35-37 `join(hi, lo, k)`. -/
def join (w hi lo k : Nat) : Option Nat := if pow2 w k < w then some ((hi <<< pow2 w k) % 2 ^ w ^^^ lo) else none

/-- nimber.h:172 `level()`: the loop on `U w = 2; w && w <= v; w *= w`. -/
def levelLoop (w v : Nat) : Nat → Nat → Nat → Option Nat
  | 0, _, _ => none
  | fuel + 1, x, k => if x ≠ 0 ∧ x ≤ v then levelLoop w v fuel (x * x % 2 ^ w) (k + 1) else some k

/-- nimber.h:172 `level()`. -/
def level' (w v : Nat) : Option Nat := levelLoop w v (w + 1) 2 0

/-- nimber.h:46-53 `lift(a, k)`. -/
def lift (w : Nat) : Nat → Nat → Option Nat
  | a, 0 => some a
  | a, k + 1 => do
    let ah ← high w a k
    let al := low w a k
    if ah = 0 then do
      let x ← lift w al k
      join w x 0 k
    else do
      let x ← lift w (ah ^^^ al) k
      let y ← lift w ah k
      let z ← lift w y k
      join w x z k

/-- nimber.h:60-66 `sqrt()`; the first argument bounds the depth of the recursion. -/
def sqrt (w : Nat) : Nat → Nat → Option Nat
  | 0, _ => none
  | fuel + 1, v => do
    let l ← level' w v
    if l = 0 then some v
    else do
      let k := l - 1
      let ah ← high w v k
      let al := low w v k
      let x ← lift w ah k
      let y ← sqrt w fuel ah
      let z ← sqrt w fuel (x ^^^ al)
      join w y z k

/-- nimber.h:100-119 `mul2(x, y)`; the first argument bounds the depth of the recursion. -/
def mul2 (w : Nat) : Nat → Nat → Nat → Option Nat
  | 0, _, _ => none
  | fuel + 1, x0, y0 => do
    let x := if x0 < y0 then y0 else x0
    let y := if x0 < y0 then x0 else y0
    if y = 0 then some 0
    else if y = 1 then some x
    else do
      let lx ← level' w x
      let ly ← level' w y
      let k := lx - 1
      if k > ly - 1 then do
        let xh ← high w x k
        let xl := low w x k
        let p ← mul2 w fuel xh y
        let q ← mul2 w fuel xl y
        join w p q k
      else do
        let xh ← high w x k
        let xl := low w x k
        let yh ← high w y k
        let yl := low w y k
        let xlyl ← mul2 w fuel xl yl
        let xhyh ← mul2 w fuel xh yh
        let xsys ← mul2 w fuel (xh ^^^ xl) (yh ^^^ yl)
        let t ← lift w xhyh k
        join w (xsys ^^^ xlyl) (t ^^^ xlyl) k

/-! ### the schoolbook product with its memo table -/

/-- nimber.h:133 the static table `tbl[64][64]`. -/
abbrev Tbl := Nat → Nat → Nat

/-- nimber.h:136 `tbl[m][n] = r`. -/
def setTbl (t : Tbl) (m n r : Nat) : Tbl := fun i j => if i = m ∧ j = n then r else t i j

/-- nimber.h:124-127 the loop over the common bits `i`; `i & -i` on a 32-bit `int`. -/
def implLoop (mul : Tbl → Nat → Nat → Option (Nat × Tbl)) (w : Nat) : Nat → Nat → Nat → Tbl → Option (Nat × Tbl)
  | 0, _, _, _ => none
  | fuel + 1, i, r, t =>
    if i > 0 then do
      let j := i &&& (2 ^ 32 - i)
      let (r, t) ← mul t r (pow2 w j ^^^ pow2 w (j - 1))
      implLoop mul w fuel (i &&& (i - 1)) r t
    else some (r, t)

/-- nimber.h:122-129 `mul_pow2_impl(m, n)`. -/
def mulPow2Impl (mul : Tbl → Nat → Nat → Option (Nat × Tbl)) (w : Nat) (t : Tbl) (m n : Nat) : Option (Nat × Tbl) :=
  implLoop mul w 33 (m &&& n) (pow2 w (m ^^^ n)) t

/-- nimber.h:132-137 `mul_pow2(m, n)`. -/
def mulPow2 (mul : Tbl → Nat → Nat → Option (Nat × Tbl)) (w : Nat) (t : Tbl) (m0 n0 : Nat) : Option (Nat × Tbl) :=
  if m0 ≥ 64 ∨ n0 ≥ 64 then mulPow2Impl mul w t m0 n0
  else
    let m := if m0 < n0 then n0 else m0
    let n := if m0 < n0 then m0 else n0
    if t m n ≠ 0 then some (t m n, t)
    else do
      let (r, t) ← mulPow2Impl mul w t m n
      some (r, setTbl t m n r)

/-- nimber.h:145-147 the inner loop. -/
def innerLoop (mp : Tbl → Nat → Nat → Option (Nat × Tbl)) (w i b : Nat) : Nat → Nat → Nat → Tbl → Option (Nat × Tbl)
  | 0, _, _, _ => none
  | fuel + 1, j, r, t =>
    if j < w ∧ pow2 w j ≤ b then
      if b &&& pow2 w j ≠ 0 then do
        let (x, t) ← mp t i j
        innerLoop mp w i b fuel (j + 1) (r ^^^ x) t
      else innerLoop mp w i b fuel (j + 1) r t
    else some (r, t)

/-- nimber.h:143-148 the outer loop. -/
def outerLoop (mp : Tbl → Nat → Nat → Option (Nat × Tbl)) (w a b : Nat) : Nat → Nat → Nat → Tbl → Option (Nat × Tbl)
  | 0, _, _, _ => none
  | fuel + 1, i, r, t =>
    if i < w ∧ pow2 w i ≤ a then
      if a &&& pow2 w i = 0 then outerLoop mp w a b fuel (i + 1) r t
      else do
        let (r, t) ← innerLoop mp w i b (w + 2) 0 r t
        outerLoop mp w a b fuel (i + 1) r t
    else some (r, t)

/-- nimber.h:140-150 `mul(a, b)`; the first argument bounds the depth of the recursion. -/
def mul (w : Nat) : Nat → Tbl → Nat → Nat → Option (Nat × Tbl)
  | 0, _, _, _ => none
  | fuel + 1, t, a, b =>
    if a ≤ 1 ∨ b ≤ 1 then some (a * b % 2 ^ w, t)
    else outerLoop (mulPow2 (mul w fuel) w) w a b (w + 2) 0 0 t

/-- nimber.h:81-88 `inverse()`; the first argument bounds the depth of the recursion, the second is the bound for `mul`.  The
order of the two products in nimber.h:86 and 87 is unspecified; it only affects the order in which the table is filled. -/
def inverse (w mf : Nat) : Nat → Tbl → Nat → Option (Nat × Tbl)
  | 0, _, _ => none
  | fuel + 1, t, v => do
    let l ← level' w v
    if l = 0 then some (v, t)
    else do
      let k := l - 1
      let ah ← high w v k
      let al := low w v k
      let as := ah ^^^ al
      let (p, t) ← mul w mf t as al
      let (q, t) ← mul w mf t ah ah
      let q' ← lift w q k
      let (d, t) ← inverse w mf fuel t (p ^^^ q')
      let (x, t) ← mul w mf t ah d
      let (y, t) ← mul w mf t as d
      let r ← join w x y k
      some (r, t)

/-- nimber.h:166-167 `operator +=`, `operator -=`. -/
def add (x y : Nat) : Nat := x ^^^ y

/-- nimber.h:169 `operator /=`. -/
def div (w mf fuel : Nat) (t : Tbl) (x y : Nat) : Option (Nat × Tbl) := do
  let (i, t) ← inverse w mf fuel t y
  mul w mf t x i

end Altruct.Nimber
