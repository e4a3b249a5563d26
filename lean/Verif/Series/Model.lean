/-
Model of `include/altruct/structure/math/series.h`, on top of the model of `polynom.h`.

A series is its precision `N` and the polynomial `p`.  `N` is a member of every object, as with
`series_storage::INSTANCE`; `CONSTANT` and `STATIC` storage is the case in which all objects have
the same `N`.  Exponents and sizes are unbounded numbers.  `thr` is the Karatsuba threshold of
`polynom` multiplication.
-/
import Verif.Polynom.Model
import Verif.Base.Model
import Verif.Ranges.Model
import Mathlib.Data.Nat.Sqrt

namespace Altruct.Series

open Altruct.Polynom hiding derivative integral inverse mul add sub neg div mod eval mulScalar divScalar

/-- series.h:52-57 `series`. -/
structure Ser (α : Type) where
  N : Nat
  p : List α
deriving DecidableEq, Repr

section Ring
variable {α : Type} [CommRing α] [DecidableEq α]

/-- series.h:65-66 the constructor from a polynomial and a precision: `p.resize(N)`. -/
def mk (p : List α) (N : Nat) : Ser α := ⟨N, resize p N⟩

/-- series.h:78 `resize`. -/
def Ser.resize (s : Ser α) (N : Nat) : Ser α := ⟨N, Polynom.resize s.p N⟩

/-- series.h:100 `operator +=` (and `operator +`, line 91). -/
def add (s t : Ser α) : Ser α := mk (plus s.p t.p) s.N

/-- series.h:101 `operator -=` (and binary `operator -`, line 92). -/
def sub (s t : Ser α) : Ser α := mk (minus s.p t.p) s.N

/-- series.h:93 unary `operator -`. -/
def neg (s : Ser α) : Ser α := mk (negate s.p) s.N

/-- The argument `N - 1` of `polynom::mul`; -1 stands for "not truncated". -/
def last (N : Nat) : Option Nat := if N = 0 then none else some (N - 1)

/-- series.h:102 `operator *=` with an operand other than the object itself (and `operator *`,
line 94, which works on a copy). -/
def mul (thr : Nat) (s t : Ser α) : Option (Ser α) := do
  let p ← Polynom.mul thr s.p none (some t.p) (last s.N)
  some ⟨s.N, p⟩

/-- series.h:102 `x *= x`. -/
def sqr (thr : Nat) (s : Ser α) : Option (Ser α) := do
  let p ← Polynom.mul thr s.p none none (last s.N)
  some ⟨s.N, p⟩

/-- series.h:105 `operator *=` with a scalar (and `operator *`, line 97). -/
def mulScalar (s : Ser α) (v : α) : Ser α := mk (Polynom.mulScalar s.p none (.inl v)) s.N

/-- series.h:112 `derivative`. -/
def derivative (s : Ser α) : Ser α := mk (Polynom.derivative s.p) s.N

/-- series.h:119-121 the loop of `pointwise_mul`; `n` iterations remain. -/
def pwLoop (r : List α) : Nat → Nat → List α → List α
  | 0, _, s => s
  | n + 1, i, s => pwLoop r n (i + 1) (put s i (at' s i * at' r i))

/-- series.h:117-123 `pointwise_mul`. -/
def pointwiseMul (s t : Ser α) : Ser α := ⟨s.N, pwLoop t.p s.N 0 s.p⟩

/-- series.h:142-152 `shift`; the iterators `p.c.begin() - l` and `p.c.end() - l` must stay inside
the vector. -/
def shift (s : Ser α) (l : Int) : Option (Ser α) :=
  if l < 0 then
    let k := (-l).toNat
    if k ≤ s.p.length then some (mk (s.p.drop k ++ List.replicate k 0) s.N) else none
  else
    let k := l.toNat
    if k ≤ s.p.length then some (mk (List.replicate k 0 ++ s.p.take (s.p.length - k)) s.N) else none

/-- series.h:158-161 the loop of `sub_mul`; `n` iterations remain. -/
def subMulLoop (a : α) : Nat → Nat → α → List α → List α
  | 0, _, _, s => s
  | n + 1, i, an, s => subMulLoop a n (i + 1) (an * a) (put s i (at' s i * (an * a)))

/-- series.h:155-163 `sub_mul`. -/
def subMul (s : Ser α) (a : α) : Ser α := ⟨s.N, subMulLoop a (s.N - 1) 1 1 s.p⟩

/-- series.h:169-171 the loop of `sub_pow`; `fuel` bounds the number of iterations. -/
def subPowLoop (p : List α) (a N : Nat) : Nat → Nat → Nat → List α → Option (List α)
  | 0, _, _, _ => none
  | fuel + 1, i, j, s =>
    if i < N then subPowLoop p a N fuel (i + a) (j + 1) (put s i (at' p j)) else some s

/-- series.h:166-174 `sub_pow`. -/
def subPow (s : Ser α) (a : Int) : Option (Ser α) :=
  let r : Ser α := mk [0] s.N
  if 0 < a then do
    let p ← subPowLoop s.p a.toNat s.N (s.N + 1) 0 0 r.p
    some ⟨s.N, p⟩
  else some r

/-! ### composition -/

/-- `isqrtc(x)`, the ceiling of the square root (property C01). -/
def isqrtc (x : Nat) : Nat := if x = 0 then 0 else Nat.sqrt (x - 1) + 1

/-- series.h:184-186, 190-192 the loops filling a table of powers; `n` iterations remain. -/
def tableLoop (thr : Nat) : Nat → Nat → List (Ser α) → Option (List (Ser α))
  | 0, _, v => some v
  | n + 1, i, v => do
    let a ← rd v (i - 1)
    let b ← rd v 1
    let x ← mul thr a b
    let v ← wr v i x
    tableLoop thr n (i + 1) v

/-- series.h:181-186, 187-192 a table of `sz` powers of `b` (`pm` and `tm`). -/
def table (thr sz N : Nat) (b : Ser α) : Option (List (Ser α)) := do
  let v : List (Ser α) := List.replicate sz (mk [0] 1)
  let v ← wr v 0 (mk [1] N)
  let v ← wr v 1 b
  tableLoop thr (sz - 2) 2 v

/-- series.h:201-203 the innermost loop of `composition`; `n` iterations remain. -/
def accLoop (pj : List α) (ck : α) : Nat → Nat → List α → List α
  | 0, _, q => q
  | n + 1, k, q => accLoop pj ck n (k + 1) (put q k (at' q k + at' pj k * ck))

/-- series.h:198-204 the loop over `j`; `n` iterations remain. -/
def rowLoop (p : List α) (N iK : Nat) (pm : List (Ser α)) : Nat → Nat → List α → Option (List α)
  | 0, _, q => some q
  | n + 1, j, q => do
    let pj ← rd pm j
    rowLoop p N iK pm n (j + 1) (accLoop pj.p (at' p (iK + j)) N 0 q)

/-- series.h:194-205 the loop over `i`; `n` iterations remain. -/
def qmLoop (p : List α) (N K : Nat) (pm : List (Ser α)) : Nat → Nat → Option (List (Ser α))
  | 0, _ => some []
  | n + 1, i => do
    let q ← rowLoop p N (i * K) pm K 0 (mk [(0 : α)] N).p
    let rest ← qmLoop p N K pm n (i + 1)
    some (⟨N, q⟩ :: rest)

/-- series.h:207-209 the last loop of `composition`; `n` iterations remain. -/
def sumLoop (thr : Nat) (qm tm : List (Ser α)) : Nat → Nat → Ser α → Option (Ser α)
  | 0, _, s => some s
  | n + 1, i, s => do
    let q ← rd qm i
    let t ← rd tm i
    let x ← mul thr q t
    sumLoop thr qm tm n (i + 1) (add s x)

/-- series.h:177-211 `composition`. -/
def composition (thr : Nat) (s r : Ser α) : Option (Ser α) := do
  let N := s.N
  let K := isqrtc (N + 1)
  let pm ← table thr (K + 1) N r
  let b ← rd pm K
  let tm ← table thr K N b
  let qm ← qmLoop s.p N K pm K 0
  let q0 ← rd qm 0
  sumLoop thr qm tm (K - 1) 1 q0

/-! ### powers -/

/-- base.h:158-167 `powT` on series, for the exponent `n` (a non-positive exponent is 0). -/
def powLoop (thr : Nat) (r x : Ser α) (n : Nat) : Option (Ser α) :=
  if n = 0 then some r
  else do
    let r ← (if n % 2 ≠ 0 then mul thr r x else some r)
    let x ← sqr thr x
    powLoop thr r x (n / 2)
termination_by n
decreasing_by omega

/-- base.h:158-167 `powT` on series; `identityOf(s)` is series.h:430-435. -/
def powT (thr : Nat) (s : Ser α) (a : Int) : Option (Ser α) := powLoop thr (mk [1] s.N) s a.toNat

/-- series.h:366-369 the loop of `make_ordinary`; `n` iterations remain. -/
def ordLoop : Nat → Nat → α → List α → List α
  | 0, _, _, s => s
  | n + 1, i, f, s => ordLoop n (i + 1) (f * (i : α)) (put s i (at' s i * (f * (i : α))))

/-- series.h:363-371 `make_ordinary`. -/
def makeOrdinary (s : Ser α) : Ser α := ⟨s.N, ordLoop (s.N - 1) 1 1 s.p⟩

/-- series.h:382-384 the loop of `of`; `n` iterations remain. -/
def ofLoop (f : Nat → α) : Nat → Nat → List α → List α
  | 0, _, s => s
  | n + 1, i, s => ofLoop f n (i + 1) (put s i (f i))

/-- series.h:380-386 `of`. -/
def ofFun (f : Nat → α) (N : Nat) : Ser α := ⟨N, ofLoop f (N - 1) 1 (mk [f 0] N).p⟩

/-- series.h:399-405 the loop of `find_root`; `F` is `F_div_dF`; `fuel` bounds the number of
iterations. -/
def rootLoop (F : Ser α → Option (Ser α)) (N : Nat) : Nat → Ser α → Option (Ser α)
  | 0, _ => none
  | fuel + 1, R =>
    if R.N < N then do
      let R := R.resize (min (R.N * 2) N)
      let d ← F R
      rootLoop F N fuel (sub R d)
    else some R

/-- series.h:395-407 `find_root`. -/
def findRoot (F : Ser α → Option (Ser α)) (R0 : α) (N : Nat) : Option (Ser α) := do
  let R ← rootLoop F N (N + 1) (mk [R0] 1)
  some (mk R.p N)

end Ring

section Quo
variable {α : Type} [CommRing α] [DecidableEq α] [Quo α]

/-- series.h:106 `operator /=` with a scalar (and `operator /`, line 98). -/
def divScalar (s : Ser α) (v : α) : Option (Ser α) := do
  let p ← Polynom.divScalar s.p none v
  some (mk p s.N)

/-- series.h:111 `inverse`. -/
def inverse (thr : Nat) (s : Ser α) : Option (Ser α) := do
  let r ← Polynom.inverse thr s.p s.N
  some (mk r s.N)

/-- series.h:103 `operator /=` (and `operator /`, line 95). -/
def div (thr : Nat) (s t : Ser α) : Option (Ser α) := do
  let i ← inverse thr t
  mul thr s i

/-- series.h:113-114 `integral`. -/
def integral (s : Ser α) (c0 : α) : Option (Ser α) := do
  let r ← Polynom.integral s.p c0
  some (mk (resize r s.N) s.N)

/-- series.h:126-134 `pointwise_inv`. -/
def pointwiseInv (isField : Bool) (s : Ser α) : Option (Ser α) :=
  if isField then do
    let p ← Ranges.invertField s.p
    some ⟨s.N, p⟩
  else some ⟨s.N, Ranges.invert s.p⟩

/-- series.h:137-139 `pointwise_div`. -/
def pointwiseDiv (isField : Bool) (s t : Ser α) : Option (Ser α) := do
  let i ← pointwiseInv isField t
  some (pointwiseMul s i)

/-- series.h:287-294 the loop of `reversion`; `fuel` bounds the number of iterations. -/
def revLoop (thr : Nat) (p : List α) (N : Nat) : Nat → Nat → Ser α → Option (Ser α)
  | 0, _, _ => none
  | fuel + 1, k, r =>
    if k < N then do
      let m := min N (k * 2)
      let rk := mk r.p m
      let v ← range p m
      let prk ← composition thr (mk v m) rk
      let prk1 : Ser α := ⟨prk.N, put prk.p 1 (at' prk.p 1 - 1)⟩
      let x ← mul thr prk1 (derivative rk)
      let y ← div thr x (derivative prk)
      revLoop thr p N fuel (k * 2) (sub rk y)
    else some r

/-- series.h:282-296 `reversion`. -/
def reversion (thr : Nat) (s : Ser α) : Option (Ser α) :=
  if at' s.p 0 ≠ 0 then some (mk [0] s.N)
  else if at' s.p 1 = 0 then some (mk [0] s.N)
  else do
    let c ← cdiv 1 (at' s.p 1)
    let r ← revLoop thr s.p s.N (s.N + 1) 2 (mk [0, c] 2)
    some (mk r.p s.N)

/-- series.h:316-319 `ln`. -/
def ln (thr : Nat) (s : Ser α) (c0 : α) : Option (Ser α) := do
  let q ← div thr (derivative s) s
  integral q c0

/-- series.h:304-310 the loop of `exp`; `fuel` bounds the number of iterations. -/
def expLoop (thr : Nat) (p : List α) (N : Nat) : Nat → Nat → List α → Option (List α)
  | 0, _, _ => none
  | fuel + 1, l, r =>
    if l < N then do
      let m := min N (l * 2)
      let t ← range p m
      let lnr ← ln thr (mk r m) 0
      let t := minus t lnr.p
      let t := put t 0 (at' t 0 + 1)
      let r ← Polynom.mul thr r none (some t) (some (m - 1))
      expLoop thr p N fuel (l * 2) r
    else some r

/-- series.h:300-312 `exp`. -/
def exp (thr : Nat) (s : Ser α) : Option (Ser α) := do
  let r ← expLoop thr s.p s.N (s.N + 1) 1 [1]
  some (mk r s.N)

/-- series.h:322-333 `pow`; `fuel` bounds the depth of the recursion.  The recursive calls use the
default threshold 200.  The narrowing `int(a)` is not modelled. -/
def pow (thr : Nat) : Nat → Ser α → Int → Int → Option (Ser α)
  | 0, _, _, _ => none
  | fuel + 1, s, a, threshold =>
    if a < threshold then powT thr s a
    else if at' s.p 0 = 0 then do
      let u ← shift s (-(lowest s.p : Int))
      let v ← pow thr fuel u a 200
      shift v ((lowest s.p : Int) * a)
    else if at' s.p 0 = 1 then do
      let l ← ln thr s 0
      exp thr (mulScalar l (a : α))
    else do
      let u ← divScalar s (at' s.p 0)
      let v ← pow thr fuel u a 200
      some (mulScalar v (Base.powT (at' s.p 0) a))

/-- series.h:350-352 the first loop of `make_exponential`: `n` iterations remain. -/
def factLoop : Nat → Nat → α → α
  | 0, _, f => f
  | n + 1, i, f => factLoop n (i + 1) (f * (i : α))

/-- series.h:354-357 the second loop of `make_exponential`: indices `n, ..., 1` remain. -/
def egfLoop : Nat → α → List α → List α
  | 0, _, s => s
  | n + 1, f, s => egfLoop n (f * ((n + 1 : Nat) : α)) (put s (n + 1) (at' s (n + 1) * f))

/-- series.h:347-359 `make_exponential`. -/
def makeExponential (s : Ser α) : Option (Ser α) := do
  let f := factLoop (s.N - 1) 1 (1 : α)
  let i ← cdiv 1 f
  some ⟨s.N, egfLoop (s.N - 1) i s.p⟩

/-- series.h:339-341 the loop of the static `exp`; `n` iterations remain. -/
def geoLoop (a : α) : Nat → Nat → List α → List α
  | 0, _, s => s
  | n + 1, i, s => geoLoop a n (i + 1) (put s i (at' s (i - 1) * a))

/-- series.h:336-343 the static `exp(a, N)`. -/
def expOf (a : α) (N : Nat) : Option (Ser α) :=
  makeExponential ⟨N, geoLoop a (N - 1) 1 (mk [(1 : α)] N).p⟩

end Quo

end Altruct.Series
