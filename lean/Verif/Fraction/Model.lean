/-
Model of `include/altruct/structure/math/fraction.h` over the (unbounded) integers.
-/
import Verif.Base.Model

namespace Altruct.Fraction

/-- fraction.h:9-11 the two members. -/
structure Frac where
  p : Int
  q : Int
deriving DecidableEq, Repr

/-- C++ `/` on integers: undefined for a zero divisor. -/
def cdiv (a b : Int) : Option Int := if b = 0 then none else some (a.tdiv b)

/-- base.h:121-125 `absT`. -/
def absT (x : Int) : Int := if x < 0 then -x else x

/-- fraction.h:15-20 `reduce`. -/
def reduce (f : Frac) : Option Frac := do
  let g := absT (Base.gcd f.p f.q)
  let f ← if g ≠ 1 then do
      let p ← cdiv f.p g
      let q ← cdiv f.q g
      some (⟨p, q⟩ : Frac)
    else some f
  some (if f.q < 0 then ⟨-f.p, -f.q⟩ else f)

/-- fraction.h:12 the constructor from an integer. -/
def ofInt (p : Int) : Frac := ⟨p, 1⟩

/-- fraction.h:13 the constructor from numerator and denominator. -/
def mk' (p q : Int) : Option Frac := reduce ⟨p, q⟩

/-- fraction.h:23 `cmp`. -/
def cmp (a b : Frac) : Int := a.p * b.q - b.p * a.q

/-- fraction.h:25-30 the comparisons. -/
def eq (a b : Frac) : Bool := decide (a.p = b.p) && decide (a.q = b.q)
def ne (a b : Frac) : Bool := decide (a.p ≠ b.p) || decide (a.q ≠ b.q)
def lt (a b : Frac) : Bool := decide (cmp a b < 0)
def le (a b : Frac) : Bool := decide (cmp a b ≤ 0)
def gt (a b : Frac) : Bool := decide (0 < cmp a b)
def ge (a b : Frac) : Bool := decide (0 ≤ cmp a b)

/-- fraction.h:38-42 `+`, `-`, unary `-`, `*`, `/`. -/
def add (a b : Frac) : Option Frac := mk' (a.p * b.q + b.p * a.q) (a.q * b.q)
def sub (a b : Frac) : Option Frac := mk' (a.p * b.q - b.p * a.q) (a.q * b.q)
def neg (a : Frac) : Option Frac := mk' (-a.p) a.q
def mul (a b : Frac) : Option Frac := mk' (a.p * b.p) (a.q * b.q)
def div (a b : Frac) : Option Frac := mk' (a.p * b.q) (a.q * b.p)

/-- fraction.h:43 `%`. -/
def mod (_ _ : Frac) : Frac := ofInt 0

/-- fraction.h:45 `reciprocal`. -/
def reciprocal (a : Frac) : Option Frac := mk' a.q a.p

/-- The argument of a compound assignment: another fraction, or the object itself (`none`), in which
case its members are read from the object as it is at that moment. -/
def arg (b : Option Frac) (cur : Frac) : Frac := b.getD cur

/-- fraction.h:32 `+=`: two assignments and `reduce`. -/
def addAssign (a : Frac) (b : Option Frac) : Option Frac :=
  let s : Frac := ⟨a.p * (arg b a).q + (arg b a).p * a.q, a.q⟩
  let s : Frac := ⟨s.p, s.q * (arg b s).q⟩
  reduce s

/-- fraction.h:33 `-=`. -/
def subAssign (a : Frac) (b : Option Frac) : Option Frac :=
  let s : Frac := ⟨a.p * (arg b a).q - (arg b a).p * a.q, a.q⟩
  let s : Frac := ⟨s.p, s.q * (arg b s).q⟩
  reduce s

/-- fraction.h:34 `*=`. -/
def mulAssign (a : Frac) (b : Option Frac) : Option Frac :=
  let s : Frac := ⟨a.p * (arg b a).p, a.q⟩
  let s : Frac := ⟨s.p, s.q * (arg b s).q⟩
  reduce s

/-- fraction.h:35 `/=`: the numerator of the argument is saved first. -/
def divAssign (a : Frac) (b : Option Frac) : Option Frac :=
  let fp := (arg b a).p
  let s : Frac := ⟨a.p * (arg b a).q, a.q⟩
  let s : Frac := ⟨s.p, s.q * fp⟩
  reduce s

/-- fraction.h:36 `%=`. -/
def modAssign (_ : Frac) (_ : Option Frac) : Frac := ⟨0, 1⟩

end Altruct.Fraction
