/-
Model of `include/altruct/structure/math/modulo.h` and of `chinese_remainder`
and `jacobi` in `include/altruct/algorithm/math/modulos.h`.

Unsigned words of width `w` are naturals below `2^w`; the wrap-around of every
`+`, `-`, `*` on them is written out.  Signed words of width `w` are integers;
an operation whose exact result is not representable is undefined behaviour in
C++ and gives `none`.
-/
import Verif.Base.Model

namespace Altruct.Modulo

open Altruct.Base (gcd)

/-! ### Unsigned words -/

/-- Unsigned subtraction on `w`-bit words (wraps). -/
def subW (w x y : Nat) : Nat := (x + (2 ^ w - y)) % 2 ^ w

/-- Unsigned addition on `w`-bit words (wraps). -/
def addW (w x y : Nat) : Nat := (x + y) % 2 ^ w

/-- Unsigned multiplication on `w`-bit words (wraps). -/
def mulW (w x y : Nat) : Nat := (x * y) % 2 ^ w

/-- modulo.h:49-53 `modulo_add_uint`; `add_overflow` (intrinsic.h:16-20) returns the
wrapped sum and whether it wrapped. -/
def addU (w x y M : Nat) : Nat :=
  let r := addW w x y
  let of := decide (x + y ≥ 2 ^ w)
  if of = false ∧ r < M then r else subW w r M

/-- modulo.h:64-65 `modulo_sub_int` on unsigned words. -/
def subU (w x y M : Nat) : Nat := addU w x (subW w M y) M

/-- modulo.h:68-69 `modulo_neg_int` on unsigned words. -/
def negU (w v M : Nat) : Nat := if v = 0 then v else subW w M v

/-- modulo.h:72-80 `modulo_mul_int_long` on unsigned words: loop state `(r, x, y)`. -/
def mulLongLoop (w M : Nat) (r x y : Nat) : Nat :=
  if y > 0 then
    mulLongLoop w M (if y % 2 = 1 then addU w r x M else r) (addU w x x M) (y / 2)
  else r
termination_by y

/-- modulo.h:72-80 `modulo_mul_int_long`. -/
def mulLong (w x y M : Nat) : Nat := mulLongLoop w M 0 x y

/-- modulo.h:81-84 `modulo_mul` for the narrow unsigned types (8 and 16 bits): the
product is computed in `uint32_t`. -/
def mulNarrow (x y M : Nat) : Nat := mulW 32 (x % 2 ^ 32) (y % 2 ^ 32) % (M % 2 ^ 32)

/-- modulo.h:85-87 `modulo_mul<uint32_t>`: the product is computed in `uint64_t`. -/
def mul32 (x y M : Nat) : Nat := mulW 64 x y % M

/-- modulo.h:88-90 `modulo_mul<uint64_t>`. -/
def mul64 (x y M : Nat) : Nat :=
  if x / 2 ^ 32 = 0 ∧ y / 2 ^ 32 = 0 then mulW 64 x (y % 2 ^ 32) % M else mulLong 64 x y M

/-- modulo.h:81-90 overload selection by width. -/
def mulU (w x y M : Nat) : Nat :=
  if w = 64 then mul64 x y M else if w = 32 then mul32 x y M else mulNarrow x y M

/-- base.h:197-208, the `gcd_ex` loop on unsigned words: the remainders do not wrap,
the cofactors do. -/
structure GcdW where
  g : Nat
  h : Nat
  xo : Nat
  xn : Nat
  yo : Nat
  yn : Nat
  i : Nat
deriving DecidableEq, Repr

theorem sub_div_mul_lt (g h : Nat) (hh : ¬ h = 0) : g - g / h * h < h := by
  have := Nat.div_add_mod g h
  have := Nat.mod_lt g (Nat.pos_of_ne_zero hh)
  have e : g / h * h = h * (g / h) := Nat.mul_comm _ _
  omega

/-- base.h:201-208 on unsigned `w`-bit words.  (`g - q * h` is `g % h`; neither the
product nor the difference can wrap.) -/
def gcdWLoop (w : Nat) (s : GcdW) : GcdW :=
  if s.h = 0 then s else
    let q := s.g / s.h
    gcdWLoop w
      { g := s.h, h := s.g - q * s.h,
        xn := s.xo, xo := subW w s.xn (mulW w q s.xo),
        yn := s.yo, yo := subW w s.yn (mulW w q s.yo),
        i := s.i + 1 }
termination_by s.h
decreasing_by exact sub_div_mul_lt _ _ (by assumption)

/-- base.h:195-213 `gcd_ex` on unsigned words: `(g, x, y, s)`. -/
def gcdExW (w a b : Nat) : Nat × Nat × Nat × Nat :=
  let s := gcdWLoop w { g := a, h := b, xo := 0, xn := 1, yo := 1, yn := 0, i := 0 }
  (s.g, s.xn, s.yn, s.i)

/-- modulo.h:96-103 `modulo_gcd_ex_int` on unsigned words: `(g, ni1, ni2)`. -/
def gcdExU (w n1 n2 : Nat) : Nat × Nat × Nat :=
  let (g, x, y, s) := gcdExW w n1 n2
  (g, if s % 2 = 1 ∧ x ≠ 0 then addW w x n2 else x,
      if s % 2 = 0 ∧ y ≠ 0 then addW w y n1 else y)

/-- modulo.h:106-112 `modulo_inv_int` on unsigned words. -/
def invU (w v M : Nat) : Nat :=
  let (g, _, vi, s) := gcdExW w M v
  let vi := if s % 2 = 0 ∧ vi ≠ 0 then addW w vi M else vi
  if g = 1 then vi else 0

/-- base.h:174-179 `gcd` on unsigned words. -/
def gcdU (a b : Nat) : Nat := if a = 0 then b else gcdU (b % a) a
termination_by a
decreasing_by exact Nat.mod_lt _ (by omega)

/-- modulo.h:115-123 `modulo_div_int` on unsigned words. -/
def divU (w x y M : Nat) : Nat :=
  if y ≠ 0 ∧ x % y = 0 then x / y else
    let yi := invU w y M
    if yi ≠ 0 then mulU w x yi M else
      let g := gcdU (gcdU x y) M
      mulU w (x / g) (invU w (y / g) (M / g)) M

/-- modulo.h:126-132 `modulo_normalize` of an unsigned value. -/
def normU (v M : Nat) : Nat := if v < M then v else v % M

/-- modulo.h:133-137 `modulo_normalize` of a signed value (`-v` of the most negative
value is undefined in C++; here the argument is any integer) into an unsigned type. -/
def normS (w : Nat) (v : Int) (M : Nat) : Nat :=
  if v < 0 then negU w (normU (-v).toNat M) M else normU v.toNat M

/-- base.h:158-167 `powT` on `modulo<>` values: loop state `(r, x, y)`, with `*=` being
`modulo_mul` (modulo.h:228). -/
def powModLoop (w M : Nat) (r x : Nat) (y : Int) : Nat :=
  if y > 0 then
    powModLoop w M (if y.tmod 2 ≠ 0 then mulU w r x M else r) (mulU w x x M) (y.tdiv 2)
  else r
termination_by y.toNat
decreasing_by
  rw [Int.tdiv_eq_ediv_of_nonneg (by omega)]; omega

/-- base.h:158-167 with the identity `mod(1, M)` (modulo.h:256-261); also
modulo.h:282-285 `modulo_power`. -/
def powMod (w M x : Nat) (y : Int) : Nat := powModLoop w M (normU 1 M) x y

/-- An arithmetic expression over `modulo<>` values built from integer constants with
the operators of the class (modulo.h:219-233) and `powT`. -/
inductive Expr where
  | const (v : Int)
  | add (a b : Expr)
  | sub (a b : Expr)
  | neg (a : Expr)
  | mul (a b : Expr)
  | pow (a : Expr) (n : Nat)

/-- modulo.h:197-234: evaluation in `modulo<T>` with `T` the unsigned `w`-bit type and
modulus `M`; the value is the member `v`.  Constants are constructed with the modulus
(modulo.h:203-210), so they are normalised. -/
def evalMod (w M : Nat) : Expr → Nat
  | .const v => normS w v M
  | .add a b => addU w (evalMod w M a) (evalMod w M b) M
  | .sub a b => subU w (evalMod w M a) (evalMod w M b) M
  | .neg a => negU w (evalMod w M a) M
  | .mul a b => mulU w (evalMod w M a) (evalMod w M b) M
  | .pow a n => powMod w M (evalMod w M a) n

/-! ### Signed words -/

/-- The result of a signed `w`-bit operation: `none` on overflow. -/
def sw (w : Nat) (v : Int) : Option Int :=
  if -2 ^ (w - 1) ≤ v ∧ v < 2 ^ (w - 1) then some v else none

/-- modulo.h:54-59 `modulo_add_int` on signed words. -/
def addS (w : Nat) (x y M : Int) : Option Int := do
  let r ← sw w (x + y)
  if ¬ (r < 0) ∧ r < M then some r else sw w (r - M)

/-- modulo.h:64-65 `modulo_sub_int` on signed words. -/
def subS (w : Nat) (x y M : Int) : Option Int := do
  let d ← sw w (M - y)
  addS w x d M

/-- modulo.h:68-69 `modulo_neg_int` on signed words. -/
def negS (w : Nat) (v M : Int) : Option Int := if v = 0 then some v else sw w (M - v)

/-- Conversion of a signed word to the unsigned type of the same width. -/
def toU (w : Nat) (v : Int) : Nat := (v % 2 ^ w).toNat

/-- Conversion of an unsigned word to the signed type of the same width. -/
def toS (w : Nat) (v : Nat) : Int := if v < 2 ^ (w - 1) then v else (v : Int) - 2 ^ w

/-- modulo.h:91-95 `modulo_mul` on signed words: through the unsigned type. -/
def mulS (w : Nat) (x y M : Int) : Int := toS w (mulU w (toU w x) (toU w y) (toU w M))

/-- base.h:201-208 on signed `w`-bit words, `none` on overflow.  The first argument is
an iteration bound. -/
def gcdSLoop (w : Nat) : Nat → Altruct.Base.GcdEx → Option Altruct.Base.GcdEx
  | 0, _ => none
  | fuel + 1, s =>
    if s.h = 0 then some s else do
      let q ← sw w (s.g.tdiv s.h)
      let qh ← sw w (q * s.h)
      let r ← sw w (s.g - qh)
      let qx ← sw w (q * s.xo)
      let xo ← sw w (s.xn - qx)
      let qy ← sw w (q * s.yo)
      let yo ← sw w (s.yn - qy)
      gcdSLoop w fuel
        { g := s.h, h := r, xn := s.xo, xo := xo, yn := s.yo, yo := yo, i := s.i + 1 }

/-- base.h:195-213 `gcd_ex` on signed words: `(g, x, y, s)`. -/
def gcdExS (w : Nat) (fuel : Nat) (a b : Int) : Option (Int × Int × Int × Nat) := do
  let s ← gcdSLoop w fuel { g := a, h := b, xo := 0, xn := 1, yo := 1, yn := 0, i := 0 }
  some (s.g, s.xn, s.yn, s.i)

/-- modulo.h:100, :101, :110: `if (s % 2 == par && x != 0) x += n;` on signed words. -/
def adjS (w s par : Nat) (x n : Int) : Option Int :=
  if s % 2 = par ∧ x ≠ 0 then sw w (x + n) else some x

/-- modulo.h:96-103 `modulo_gcd_ex_int` on signed words: `(g, ni1, ni2)`. -/
def gcdExIS (w fuel : Nat) (n1 n2 : Int) : Option (Int × Int × Int) := do
  let (g, x, y, s) ← gcdExS w fuel n1 n2
  let ni1 ← adjS w s 1 x n2
  let ni2 ← adjS w s 0 y n1
  some (g, ni1, ni2)

/-- modulo.h:106-112 `modulo_inv_int` on signed words. -/
def invS (w fuel : Nat) (v M : Int) : Option Int := do
  let (g, _, vi, s) ← gcdExS w fuel M v
  let vi ← adjS w s 0 vi M
  some (if g = 1 then vi else 0)

/-! ### Chinese remainder -/

/-- modulos.h:27-36 `chinese_remainder(&a, &n, a1, n1, a2, n2)` on unsigned words;
returns `(a, n)`. -/
def crtU (w a1 n1 a2 n2 : Nat) : Nat × Nat :=
  let (g, ni1, ni2) := gcdExU w n1 n2
  if subW w a2 a1 % g ≠ 0 then (0, 0) else
    let t1 := mulU w a1 ni2 n1
    let t2 := mulU w a2 ni1 n2
    let n1 := n1 / g
    let n2 := n2 / g
    let n := mulW w (mulW w n1 n2) g
    (addU w (mulU w t1 n2 n) (mulU w t2 n1 n) n, n)

/-- modulos.h:27-36 `chinese_remainder` on signed words. -/
def crtS (w fuel : Nat) (a1 n1 a2 n2 : Int) : Option (Int × Int) := do
  let (g, ni1, ni2) ← gcdExIS w fuel n1 n2
  let d ← sw w (a2 - a1)
  if d.tmod g ≠ 0 then some (0, 0) else do
    let t1 := mulS w a1 ni2 n1
    let t2 := mulS w a2 ni1 n2
    let n1 := n1.tdiv g
    let n2 := n2.tdiv g
    let n12 ← sw w (n1 * n2)
    let n ← sw w (n12 * g)
    let a ← addS w (mulS w t1 n2 n) (mulS w t2 n1 n) n
    some (a, n)

/-! ### Jacobi symbol -/

/-- modulos.h:92 `for (e = 0; (n % 2) == 0; e++) n /= 2;` for `n != 0`: returns
`(e, n)`.  (`n = 0` does not occur: the guard keeps the definition total.) -/
def stripTwos (e : Nat) (n : Int) : Nat × Int :=
  if n = 0 then (e, n)
  else if n.tmod 2 = 0 then stripTwos (e + 1) (n.tdiv 2) else (e, n)
termination_by n.natAbs
decreasing_by
  rw [Int.natAbs_tdiv]; apply Nat.div_lt_self <;> simp <;> omega

theorem stripTwos_natAbs_le (e : Nat) (n : Int) : (stripTwos e n).2.natAbs ≤ n.natAbs := by
  fun_induction stripTwos e n with
  | case1 => omega
  | case2 e n h h2 ih =>
    rw [Int.natAbs_tdiv] at ih
    exact Nat.le_trans ih (Nat.div_le_self _ _)
  | case3 => simp

/-- modulos.h:85-98 the `for (;;)` loop of `jacobi` with state `(n, m, j)`; `m = 0`
is a division by zero. -/
def jacobiLoop (n m j : Int) : Option Int :=
  if m = 1 then some j
  else if m = 0 then none
  else
    let n := n.tmod m
    if n = 0 then some 0
    else
      let en := stripTwos 0 n
      let e := en.1
      let n' := en.2
      let j := if e % 2 = 1 ∧ m.tmod 8 = 3 then -j else j
      let j := if e % 2 = 1 ∧ m.tmod 8 = 5 then -j else j
      let j := if n'.tmod 4 = 3 ∧ m.tmod 4 = 3 then -j else j
      jacobiLoop m n' j
termination_by m.natAbs
decreasing_by
  exact Nat.lt_of_le_of_lt (stripTwos_natAbs_le 0 _) (Altruct.Base.natAbs_tmod_lt _ _ (by assumption))

/-- modulos.h:85-98 `jacobi(n, m)`. -/
def jacobi (n m : Int) : Option Int := jacobiLoop n m 1

end Altruct.Modulo
