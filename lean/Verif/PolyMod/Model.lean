/-
Model of `include/altruct/algorithm/math/polynom_mod.h`: the multiplication of polynomials with
`modulo` coefficients, `polynom_mul<modulo<I, ID, STORAGE>>`.

A coefficient `modulo` with modulus `M` is an element of `ZMod M` and its member `v` is `ZMod.val`
(what `modulo` computes on machine words is C07 and C08).  Arrays are lists with checked access; as in
`Verif/Polynom/Model.lean` a source is `none` if it is the destination array itself.  Every operation on
`uint64_t` is written with its wrap-around.

`complex<double>` is an arbitrary commutative ring `β` (exact arithmetic: the rounding errors of
floating-point numbers are not modelled) and `llround(z.a / n)` is a parameter `R n z`.
-/
import Verif.Polynom.Model
import Verif.Fft.Model
import Verif.Modulo.Model
import Verif.Common.Loop
import Mathlib.Data.ZMod.Basic
import Mathlib.Data.Nat.Bitwise

namespace Altruct.PolyMod

open Base (powT)
open Fft (powLen fft)
open Modulo (addW subW mulW)
open Polynom (MulFn mulLong karatsuba mulCore)

variable {β : Type} [CommRing β]

/-- polynom_mod.h:58 `next_pow2`. -/
def nextPow2 (l : Nat) : Nat := powLen l 1

/-- `uint32_t(p[i].v)`. -/
def coef {M : Nat} (x : ZMod M) : Nat := x.val % 2 ^ 32

/-- polynom_mod.h:18-23 `convert_to_mod_P_hilo` and 119-124 `convert_to_cplx_hilo`, writing into the arrays
`hi` and `lo`. -/
def convHilo {M : Nat} (p : List (ZMod M)) (l : Nat) (hl : List β × List β) : Option (List β × List β) :=
  forUp (fun i hl => (rd p i).bind fun x => (wr hl.1 i ((coef x >>> 16 : Nat) : β)).bind fun hi =>
    (wr hl.2 i ((coef x &&& 0xFFFF : Nat) : β)).map fun lo => (hi, lo)) 0 (l + 1) hl

/-- `(lo1, hi1, lo2, hi2)` -/
abbrev Quad (β : Type) := List β × List β × List β × List β

/-- polynom_mod.h:38-41 and 143-146 (`sc` multiplies by `ni` there and does nothing here). -/
def hiloStep (sc : β → β) (i : Nat) (q : Quad β) : Option (Quad β) :=
  (rd q.1 i).bind fun lo1 => (rd q.2.1 i).bind fun hi1 => (rd q.2.2.1 i).bind fun lo2 => (rd q.2.2.2 i).bind fun hi2 =>
    let hi := sc (hi1 * hi2)
    let lo := sc (lo1 * lo2)
    let mi := sc (lo1 * hi2 + lo2 * hi1)
    (wr q.1 i lo).bind fun vlo1 => (wr q.2.1 i mi).bind fun vhi1 => (wr q.2.2.2 i hi).map fun vhi2 =>
      (vlo1, vhi1, q.2.2.1, vhi2)

/-- polynom_mod.h:29-31, 33-45 and 135-150: from the coefficients to the three convolutions, in the order
`lo1`, `hi1`, `hi2`. -/
def hilo {M : Nat} (sc : β → β) (root iroot : β) (n : Nat) (p1 : List (ZMod M)) (l1 : Nat) (p2 : List (ZMod M)) (l2 : Nat) :
    Option (List β × List β × List β) := do
  let z := List.replicate n (0 : β)
  let c1 ← convHilo p1 l1 (z, z)
  let c2 ← convHilo p2 l2 (z, z)
  let hi1 ← fft (fun w : β => w) n root c1.1
  let lo1 ← fft (fun w : β => w) n root c1.2
  let hi2 ← fft (fun w : β => w) n root c2.1
  let lo2 ← fft (fun w : β => w) n root c2.2
  let q ← forUp (hiloStep sc) 0 n (lo1, hi1, lo2, hi2)
  let hi2 ← fft (fun w : β => w) n iroot q.2.2.2
  let hi1 ← fft (fun w : β => w) n iroot q.2.1
  let lo1 ← fft (fun w : β => w) n iroot q.1
  some (lo1, hi1, hi2)

/-- polynom_mod.h:25-47 `polynom_mul_mod_P_hilo`; `(n : ZMod P)⁻¹` is `MODP(n).inv()`. -/
def modPHilo {M : Nat} (P prim : Nat) (p1 : List (ZMod M)) (l1 : Nat) (p2 : List (ZMod M)) (l2 n : Nat) :
    Option (List (ZMod P) × List (ZMod P) × List (ZMod P)) :=
  let root := powT ((prim : Nat) : ZMod P) (((P - 1) / n : Nat) : Int)
  let iroot := powT root ((n - 1 : Nat) : Int)
  let ni := ((n : Nat) : ZMod P)⁻¹
  hilo (fun x => x * ni) root iroot n p1 l1 p2 l2

/-- polynom_mod.h:168-169 -/
def P1 : Nat := 3221225473
def P2 : Nat := 3489660929

/-- polynom_mod.h:174-180 `crt`, before the conversion to `mod`. -/
def crt (v1 : ZMod P1) (v2 : ZMod P2) : Nat :=
  let PP := mulW 64 P1 P2
  let r1 := mulW 64 P2 (((-12 : ZMod P1) * v1).val)
  let r2 := mulW 64 P1 (((13 : ZMod P2) * v2).val)
  if r1 < subW 64 PP r2 then addW 64 r1 r2 else subW 64 (addW 64 r1 r2) PP

/-- `for (int i = 0; i <= lr; i++) pr[i] = f(i);` -/
def outLoop {M : Nat} (f : Nat → Option (ZMod M)) (lr : Nat) (pr : List (ZMod M)) : Option (List (ZMod M)) :=
  forUp (fun i pr => (f i).bind fun x => wr pr i x) 0 (lr + 1) pr

/-- polynom_mod.h:183-186 -/
def crtCell {M : Nat} (h1 : List (ZMod P1) × List (ZMod P1) × List (ZMod P1))
    (h2 : List (ZMod P2) × List (ZMod P2) × List (ZMod P2)) (i : Nat) : Option (ZMod M) := do
  let w := powT (2 : ZMod M) 16
  let lo := ((crt (← rd h1.1 i) (← rd h2.1 i) : Nat) : ZMod M)
  let mi := ((crt (← rd h1.2.1 i) (← rd h2.2.1 i) : Nat) : ZMod M)
  let hi := ((crt (← rd h1.2.2 i) (← rd h2.2.2 i) : Nat) : ZMod M)
  some ((hi * w + mi) * w + lo)

/-- polynom_mod.h:164-188 `_mul_fft_crt`. -/
def mulFftCrt {M : Nat} : MulFn (ZMod M) := fun pr lr s1 l1 s2 l2 => do
  let n := nextPow2 (l1 + l2 + 1)
  let h1 ← modPHilo P1 5 (s1.getD pr) l1 (s2.getD pr) l2 n
  let h2 ← modPHilo P2 3 (s1.getD pr) l1 (s2.getD pr) l2 n
  outLoop (crtCell h1 h2) lr pr

/-- The `while` loop of root_wrapper.h:51-52: the size of the cached table of roots; `cache` is its size before
the call. -/
def rootSize (cache l : Nat) : Nat := powLen l cache

/-- polynom_mod.h:59 `rnd`. -/
def rnd (R : Nat → β → Nat) (z : β) (n M : Nat) : Nat := R n z % 2 ^ 64 % M

/-- polynom_mod.h:152-156 -/
def fftCell {M : Nat} (R : Nat → β → Nat) (n : Nat) (h : List β × List β × List β) (i : Nat) : Option (ZMod M) := do
  let hi := rnd R (← rd h.2.2 i) n M
  let mi := rnd R (← rd h.2.1 i) n M
  let lo := rnd R (← rd h.1 i) n M
  some (((mulW 64 hi (2 ^ 32) : Nat) : ZMod M) + ((addW 64 (mulW 64 mi (2 ^ 16)) lo : Nat) : ZMod M))

/-- polynom_mod.h:129-158 `_mul_fft`; `W s` is the principal `s`-th root of unity of root_wrapper.h:44-58. -/
def mulFft {M : Nat} (W : Nat → β) (cache : Nat) (R : Nat → β → Nat) : MulFn (ZMod M) := fun pr lr s1 l1 s2 l2 => do
  let n := nextPow2 (l1 + l2 + 1)
  let root := powT (W (rootSize cache n)) ((rootSize cache n / n : Nat) : Int)
  let iroot := powT root ((n - 1 : Nat) : Int)
  let h ← hilo (fun x => x) root iroot n (s1.getD pr) l1 (s2.getD pr) l2
  outLoop (fftCell R n h) lr pr

/-- polynom_mod.h:62-68 `convert_to_cplx_210`. -/
def conv210 {M : Nat} (p : List (ZMod M)) (l : Nat) (c : List β × List β × List β) : Option (List β × List β × List β) :=
  forUp (fun i c => (rd p i).bind fun x => (wr c.1 i ((coef x >>> 22 : Nat) : β)).bind fun c2 =>
    (wr c.2.1 i (((coef x >>> 11) &&& 0x7FF : Nat) : β)).bind fun c1 =>
    (wr c.2.2 i ((coef x &&& 0x7FF : Nat) : β)).map fun c0 => (c2, c1, c0)) 0 (l + 1) c

/-- `(a2, a1, a0, b2, b1, b0)` -/
structure Hexa (β : Type) where
  a2 : List β
  a1 : List β
  a0 : List β
  b2 : List β
  b1 : List β
  b0 : List β

/-- polynom_mod.h:88-94 -/
def bigStep (i : Nat) (q : Hexa β) : Option (Hexa β) := do
  let a2 ← rd q.a2 i
  let a1 ← rd q.a1 i
  let a0 ← rd q.a0 i
  let b2 ← rd q.b2 i
  let b1 ← rd q.b1 i
  let b0 ← rd q.b0 i
  let w22 := a2 * b2
  let w11 := a1 * b1
  let w00 := a0 * b0
  let w21 := (a2 + a1) * (b2 + b1)
  let w10 := (a1 + a0) * (b1 + b0)
  let w210 := (a2 + a1 + a0) * (b2 + b1 + b0)
  let va2 ← wr q.a2 i w22
  let va1 ← wr q.a1 i w11
  let va0 ← wr q.a0 i w00
  let vb2 ← wr q.b2 i w21
  let vb1 ← wr q.b1 i w10
  let vb0 ← wr q.b0 i w210
  some { a2 := va2, a1 := va1, a0 := va0, b2 := vb2, b1 := vb1, b0 := vb0 }

/-- `fft` of the six arrays (polynom_mod.h:81-86, 96-101). -/
def fft6 (n : Nat) (w : β) (q : Hexa β) : Option (Hexa β) := do
  let a2 ← fft (fun w : β => w) n w q.a2
  let a1 ← fft (fun w : β => w) n w q.a1
  let a0 ← fft (fun w : β => w) n w q.a0
  let b2 ← fft (fun w : β => w) n w q.b2
  let b1 ← fft (fun w : β => w) n w q.b1
  let b0 ← fft (fun w : β => w) n w q.b0
  some { a2 := a2, a1 := a1, a0 := a0, b2 := b2, b1 := b1, b0 := b0 }

/-- polynom_mod.h:60 `shl_sub`. -/
def shlSub (v : Nat) : Nat := subW 64 (mulW 64 v (2 ^ 11)) v

/-- polynom_mod.h:109-115 -/
def bigCell {M : Nat} (R : Nat → β → Nat) (n : Nat) (q : Hexa β) (i : Nat) : Option (ZMod M) := do
  let w := powT (2 : ZMod M) 22
  let a2 ← rd q.a2 i
  let a1 ← rd q.a1 i
  let b1 ← rd q.b1 i
  let a0 ← rd q.a0 i
  let b2 ← rd q.b2 i
  let b0 ← rd q.b0 i
  let z22 := shlSub (rnd R a2 n M)
  let z11 := addW 64 (shlSub (rnd R a1 n M)) (rnd R b1 n M)
  let z00 := shlSub (rnd R a0 n M)
  let z21 := addW 64 (shlSub (rnd R b2 n M)) (rnd R b0 n M)
  let z10 := shlSub z11 % M
  some (((addW 64 (mulW 64 z22 (2 ^ 11)) z21 : Nat) : ZMod M) * w - ((addW 64 (mulW 64 z10 (2 ^ 11)) z00 : Nat) : ZMod M))

/-- polynom_mod.h:72-117 `_mul_fft_big`. -/
def mulFftBig {M : Nat} (W : Nat → β) (cache : Nat) (R : Nat → β → Nat) : MulFn (ZMod M) := fun pr lr s1 l1 s2 l2 => do
  let n := nextPow2 (l1 + l2 + 1)
  let root := powT (W (rootSize cache n)) ((rootSize cache n / n : Nat) : Int)
  let iroot := powT root ((n - 1 : Nat) : Int)
  let z := List.replicate n (0 : β)
  let a ← conv210 (s1.getD pr) l1 (z, z, z)
  let b ← conv210 (s2.getD pr) l2 (z, z, z)
  let q ← fft6 n root { a2 := a.1, a1 := a.2.1, a0 := a.2.2, b2 := b.1, b1 := b.2.1, b0 := b.2.2 }
  let q ← forUp bigStep 0 n q
  let q ← fft6 n iroot q
  outLoop (bigCell R n q) lr pr

/-- polynom_mod.h:194-204 `impl`; `rec` is `_mul`, `cheap l1 l2` is `cost_karatsuba(l1, l2) < cost_fft(l1, l2)`,
a comparison of floating-point numbers. -/
def impl {M : Nat} (W : Nat → β) (cache : Nat) (R : Nat → β → Nat) (cheap : Nat → Nat → Bool) (rec : MulFn (ZMod M)) :
    MulFn (ZMod M) := fun pr lr s1 l1 s2 l2 =>
  if l2 < 48 then mulLong pr lr s1 l1 s2 l2
  else if l2 < 100 ∨ l1 < 450 ∨ cheap l1 l2 = true then karatsuba rec pr lr s1 l1 s2 l2
  else if l1 + l2 ≤ 100000 then mulFft W cache R pr lr s1 l1 s2 l2
  else mulFftCrt pr lr s1 l1 s2 l2

/-- polynom.h:162-168 `_mul` for `modulo` coefficients.  `fuel` bounds the depth of the recursion. -/
def mulModF {M : Nat} (W : Nat → β) (cache : Nat) (R : Nat → β → Nat) (cheap : Nat → Nat → Bool) : Nat → MulFn (ZMod M)
  | 0 => fun _ _ _ _ _ _ => none
  | fuel + 1 => fun pr lr s1 l1 s2 l2 =>
    if l2 > l1 then mulCore (impl W cache R cheap (mulModF W cache R cheap fuel)) pr lr s2 l2 s1 l1
    else mulCore (impl W cache R cheap (mulModF W cache R cheap fuel)) pr lr s1 l1 s2 l2

end Altruct.PolyMod
