/-
Models of `with_infinity.h` and `moebius_tr.h`.

The underlying type is a field `K` with decidable equality; `conj` is the conjugation of `K`.
-/
import Mathlib.Algebra.Field.Basic

namespace Altruct.Moebius

/-- with_infinity.h:31-33 the class: a value and the flag `is_inf`, an `int`. -/
structure WInf (K : Type) where
  v : K
  isInf : Int
deriving DecidableEq

variable {K : Type} [Field K] [DecidableEq K]

/-- with_infinity.h:38 `with_infinity(v)`. -/
def ofVal (v : K) : WInf K := ⟨v, 0⟩

/-- with_infinity.h:41 `operator ==`. -/
def WInf.eq (x y : WInf K) : Bool := decide (x.v = y.v) && decide (x.isInf = y.isInf)

/-- with_infinity.h:55 `operator +=`. -/
def WInf.add (x y : WInf K) : WInf K := if y.isInf ≠ 0 then { x with isInf := 1 } else { x with v := x.v + y.v }

/-- with_infinity.h:56 `operator -=`. -/
def WInf.sub (x y : WInf K) : WInf K := if y.isInf ≠ 0 then { x with isInf := 1 } else { x with v := x.v - y.v }

/-- with_infinity.h:50 unary minus. -/
def WInf.neg (x : WInf K) : WInf K := ofVal (-x.v)

/-- with_infinity.h:57 `operator *=`. -/
def WInf.mul (x y : WInf K) : WInf K := if y.isInf ≠ 0 then { x with isInf := 1 } else { x with v := x.v * y.v }

/-- with_infinity.h:61-65 `inverse()`. -/
def WInf.inverse (x : WInf K) : WInf K :=
  if x.isInf ≠ 0 then ofVal 0
  else if x.v = 0 then ⟨x.v, 1⟩
  else ofVal (1 / x.v)

/-- with_infinity.h:58 `operator /=`. -/
def WInf.div (x y : WInf K) : WInf K := x.mul y.inverse

/-- with_infinity.h:82-87 `identityOf`. -/
def one : WInf K := ofVal 1

/-- with_infinity.h:90-95 `zeroOf`. -/
def zero : WInf K := ofVal 0

/-- with_infinity.h:98-101 `infinityT::is`. -/
def WInf.isInfinity (x : WInf K) : Bool := decide (x.isInf ≠ 0)

/-- with_infinity.h:104-109 `conjugateT::of`. -/
def WInf.conj (conj : K → K) (x : WInf K) : WInf K := ⟨conj x.v, x.isInf⟩

/-! ### Moebius transformations -/

/-- moebius_tr.h:26-28 the class. -/
structure Tr (K : Type) where
  a : WInf K
  b : WInf K
  c : WInf K
  d : WInf K
  s : Int
deriving DecidableEq

/-- moebius_tr.h:86 `conj`, 87 `adapt(z)`. -/
def Tr.adapt (conj : K → K) (f : Tr K) (z : WInf K) : WInf K := if f.s < 0 then z.conj conj else z

/-- moebius_tr.h:85 `invert(z)`. -/
def invert (z : WInf K) : WInf K := one.div z

/-- moebius_tr.h:52-59 `operator *=`. -/
def Tr.mul (conj : K → K) (f g : Tr K) : Tr K :=
  ⟨(f.a.mul (f.adapt conj g.a)).add (f.b.mul (f.adapt conj g.c)),
   (f.a.mul (f.adapt conj g.b)).add (f.b.mul (f.adapt conj g.d)),
   (f.c.mul (f.adapt conj g.a)).add (f.d.mul (f.adapt conj g.c)),
   (f.c.mul (f.adapt conj g.b)).add (f.d.mul (f.adapt conj g.d)),
   f.s * g.s⟩

/-- moebius_tr.h:62-73 `normalize()`. -/
def Tr.normalize (f : Tr K) : Tr K :=
  if !(f.a.eq zero) then
    let ai := invert f.a
    { f with a := one, b := f.b.mul ai, c := f.c.mul ai, d := f.d.mul ai }
  else if !(f.b.eq zero) then
    let bi := invert f.b
    { f with b := one, c := f.c.mul bi, d := f.d.mul bi }
  else { f with c := zero, d := one }

/-- moebius_tr.h:75-78 `inverse()`. -/
def Tr.inverse (conj : K → K) (f : Tr K) : Tr K :=
  let w := invert ((f.a.mul f.d).sub (f.b.mul f.c))
  ⟨(f.adapt conj f.d).mul w, (f.adapt conj f.b).neg.mul w, (f.adapt conj f.c).neg.mul w, (f.adapt conj f.a).mul w, f.s⟩

/-- moebius_tr.h:60 `operator /=`. -/
def Tr.div (conj : K → K) (f g : Tr K) : Tr K := f.mul conj (g.inverse conj)

/-- moebius_tr.h:80-83 `operator ()`. -/
def Tr.eval (conj : K → K) (f : Tr K) (z : WInf K) : WInf K :=
  if z.isInfinity then f.a.div f.c
  else ((f.a.mul (f.adapt conj z)).add f.b).div ((f.c.mul (f.adapt conj z)).add f.d)

/-- moebius_tr.h:89 `scaling`, 91 `rotation`. -/
def scaling (z : WInf K) : Tr K := ⟨z, zero, zero, one, 1⟩

/-- moebius_tr.h:90 `translation`. -/
def translation (z : WInf K) : Tr K := ⟨one, z, zero, one, 1⟩

/-- moebius_tr.h:92 `flip_x`. -/
def flipX : Tr K := ⟨one.neg, zero, zero, one, -1⟩

/-- moebius_tr.h:93 `flip_y`. -/
def flipY : Tr K := ⟨one, zero, zero, one, -1⟩

/-- moebius_tr.h:94 `inversion`. -/
def inversion : Tr K := ⟨zero, one, one, zero, -1⟩

/-- moebius_tr.h:33, 110-116 `identityOf`. -/
def identity : Tr K := ⟨one, zero, zero, one, 1⟩

end Altruct.Moebius
