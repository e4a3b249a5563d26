/-
Model of algorithm/math/convergents.h: `sqrt_convergent`, `continued_fraction`, `convergents`.

Integers are unbounded. Loops that may not end run on fuel, `none` when it is used up.
-/
import Mathlib.Data.Int.Basic
import Mathlib.Order.Basic

namespace Altruct.Convergents

/-- convergents.h:46-49 the loop of `continued_fraction`. -/
def cfLoop : Nat → Int → Int → Option (List Int)
  | fuel, p, q =>
    if q = 0 then some []
    else match fuel with
      | 0 => none
      | fuel + 1 => (cfLoop fuel q (p.tmod q)).map (p.tdiv q :: ·)

/-- convergents.h:43-51 `continued_fraction(p, q)`; every round makes `|q|` smaller. -/
def continuedFraction (p q : Int) : Option (List Int) := cfLoop q.natAbs p q

/-- convergents.h:70-74 the loop over `a`, run `count` times from `a` on; the last pair is kept in `pq`,
all of them are appended to `out`. -/
def semiLoop (p1 p2 q1 q2 : Int) : Nat → Int → Int × Int → List (Int × Int) → (Int × Int) × List (Int × Int)
  | 0, _, pq, out => (pq, out)
  | count + 1, a, _, out =>
    let pq := (a * p1 + p2, a * q1 + q2)
    semiLoop p1 p2 q1 q2 count (a + 1) pq (out ++ [pq])

/-- convergents.h:65-77 the loop over the terms; `pq` is the pair of the variables `p`, `q`. -/
def convLoop (semi : Int) : List Int → Int → Int → Int → Int → Int × Int → List (Int × Int) → List (Int × Int)
  | [], _, _, _, _, _, out => out
  | ai :: va, p1, p2, q1, q2, pq, out =>
    let a0 := ai - min semi (ai.tdiv 2)
    let r := semiLoop p1 p2 q1 q2 (ai - a0 + 1).toNat a0 pq out
    convLoop semi va r.1.1 p1 r.1.2 q1 r.1 r.2

/-- convergents.h:60-79 `convergents(va, semi_convergents)`. -/
def convergents (va : List Int) (semi : Int := 0) : List (Int × Int) :=
  convLoop semi va 1 0 0 1 (0, 1) []

/-- The variables of the loop of `sqrt_convergent`. -/
structure SqrtSt where
  po : Int
  pn : Int
  qo : Int
  qn : Int
  m : Int
  d : Int
  a : Int

/-- convergents.h:25-26. -/
def stepPQ (s : SqrtSt) : SqrtSt :=
  { s with po := s.pn + s.a * s.po, pn := s.po, qo := s.qn + s.a * s.qo, qn := s.qo }

/-- convergents.h:28-31; `none` when a division by zero occurs. -/
def stepMDA (S a0 : Int) (s : SqrtSt) : Option SqrtSt :=
  let mn := s.d * s.a - s.m
  if s.d = 0 then none
  else
    let dn := (S - mn * mn).tdiv s.d
    if dn = 0 then none
    else some { s with m := mn, d := dn, a := (a0 + mn).tdiv dn }

/-- convergents.h:24-33 the loop. -/
def sqrtLoop (S Q a0 : Int) : Nat → SqrtSt → Option (Int × Int)
  | 0, _ => none
  | fuel + 1, s =>
    let s := stepPQ s
    if s.qo > Q then some (s.po, s.qo)
    else do
      let s ← stepMDA S a0 s
      sqrtLoop S Q a0 fuel s

/-- convergents.h:17-34 `sqrt_convergent(S, Q)`; `sq` is `sqrtT<I>`. The denominators grow from the third
round on, so more than `Q + 3` rounds are never needed. -/
def sqrtConvergent (sq : Int → Int) (S Q : Int) : Option (Int × Int) :=
  let a0 := sq S
  if a0 * a0 = S then some (a0, 1)
  else sqrtLoop S Q a0 (Q.toNat + 3) ⟨1, 0, 0, 1, 0, 1, a0⟩

end Altruct.Convergents
